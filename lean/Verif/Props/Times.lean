import Verif.Spec.Times
import Verif.Props.Access
/-
C107: the times of modification which a file declares, as `FileTime`.
-/
namespace Verif.Props
open Verif Verif.Spec

theorem addI64_some {a b c : Int} : addI64 a b = some c ↔ c = a + b ∧ -(2 ^ 63 : Int) ≤ a + b ∧ a + b < (2 ^ 63 : Int) := by
  unfold addI64
  split
  · rename_i h; exact ⟨fun e => ⟨(Option.some.inj e).symm, h⟩, fun e => by rw [e.1]⟩
  · rename_i h; exact ⟨nofun, fun e => absurd e.2 h⟩

theorem addI64_none {a b : Int} : addI64 a b = none ↔ ¬(-(2 ^ 63 : Int) ≤ a + b ∧ a + b < (2 ^ 63 : Int)) := by
  unfold addI64
  split <;> simp_all

/-- What a block declares fits the Rust types. -/
theorem _root_.Verif.Spec.ModifiedAt.range {block : Bytes} {s : Int} {n : Nat} (h : ModifiedAt block s n) :
    (-(2 ^ 63 : Int) ≤ s ∧ s < (2 ^ 63 : Int)) ∧ n < 2 ^ 32 := by
  obtain ⟨m, t, hm, ht, rfl, hn⟩ := h
  have hf := (flat_tryParse_good block hm).2.2.2.2.2.2.2 t ht
  refine ⟨hf.1, ?_⟩
  rcases hn with hn | ⟨-, rfl⟩
  · exact hf.2 n hn
  · decide

theorem start_mtime {target : Option Rng} {block : Bytes} {r : FileVisitResult} (h : (IdleFileVisit.mk target).start block = .ok r) :
    (∀ s n, r.metadata.getMtime = some (s, n) ↔ ModifiedAt block s n) ∧
    (r.metadata.getMtime = none ↔ ∀ s n, ¬ ModifiedAt block s n) := by
  obtain ⟨m, hm, -, h1, h2⟩ := C61_metadata target block r h
  have hs : ∀ s n, r.metadata.getMtime = some (s, n) ↔ ModifiedAt block s n := by
    intro s n
    rw [h1]
    constructor
    · rintro ⟨t, a, b, c⟩; exact ⟨m, t, hm, a, b, c⟩
    · rintro ⟨m', t, a', a, b, c⟩
      rw [hm] at a'; cases a'
      exact ⟨t, a, b, c⟩
  refine ⟨hs, ?_⟩
  constructor
  · intro h s n h'
    rw [(hs s n).2 h'] at h; cases h
  · intro h'
    cases hx : r.metadata.getMtime with
    | none => rfl
    | some p => obtain ⟨s, n⟩ := p; exact absurd ((hs s n).1 hx) (h' s n)

/-- Everywhere but on Windows: the time of modification of a file that is visited, as a `FileTime`, is never a panic; there is
one iff the file's first block declares one, and its seconds since 1970-01-01 and its nanoseconds are those of the block. -/
theorem C107_unix (target : Option Rng) (block : Bytes) (r : FileVisitResult) (h : (IdleFileVisit.mk target).start block = .ok r) :
    ((∀ s n, ¬ ModifiedAt block s n) ∧ r.metadata.mtimeAsFiletime false = some none) ∨
    ∃ s n t, ModifiedAt block s n ∧ r.metadata.mtimeAsFiletime false = some (some t) ∧
      t.unixSeconds false = some s ∧ t.nanoseconds = n := by
  obtain ⟨h1, h2⟩ := start_mtime h
  cases hx : r.metadata.getMtime with
  | none => exact .inl ⟨h2.1 hx, by simp [Metadata.mtimeAsFiletime, hx]⟩
  | some p =>
    obtain ⟨s, n⟩ := p
    have hm := (h1 s n).1 hx
    have hr := hm.range.1
    have e : addI64 s 0 = some s := addI64_some.2 ⟨by omega, by omega⟩
    exact .inr ⟨s, n, ⟨s, n⟩, hm, by simp [Metadata.mtimeAsFiletime, hx, FileTime.fromUnixTime, FileTime.offset, e],
      by simp [FileTime.unixSeconds, FileTime.offset, e], rfl⟩

/-- On Windows the same holds of all blocks but those which declare a time within 11644473600 seconds of the largest `i64`: for
these the conversion panics. -/
theorem C107_windows (target : Option Rng) (block : Bytes) (r : FileVisitResult) (h : (IdleFileVisit.mk target).start block = .ok r) :
    (r.metadata.mtimeAsFiletime true = none ↔ ∃ s n, ModifiedAt block s n ∧ 2 ^ 63 - 11644473600 ≤ s) ∧
    (r.metadata.mtimeAsFiletime true = some none ↔ ∀ s n, ¬ ModifiedAt block s n) ∧
    ∀ t, r.metadata.mtimeAsFiletime true = some (some t) →
      ∃ s n, ModifiedAt block s n ∧ t.unixSeconds true = some s ∧ t.nanoseconds = n := by
  obtain ⟨h1, h2⟩ := start_mtime h
  cases hx : r.metadata.getMtime with
  | none =>
    have hn := h2.1 hx
    have e : r.metadata.mtimeAsFiletime true = some none := by simp [Metadata.mtimeAsFiletime, hx]
    rw [e]
    exact ⟨⟨nofun, fun ⟨s, n, hm, _⟩ => absurd hm (hn s n)⟩, ⟨fun _ => hn, fun _ => rfl⟩, nofun⟩
  | some p =>
    obtain ⟨s, n⟩ := p
    have hm := (h1 s n).1 hx
    have hr := hm.range.1
    have hu : ∀ s' n', ModifiedAt block s' n' → s' = s ∧ n' = n := fun s' n' h' => by
      have := (h1 s' n').2 h'
      rw [hx] at this; cases this; exact ⟨rfl, rfl⟩
    have e : r.metadata.mtimeAsFiletime true = ((addI64 s 11644473600).map (fun s => (⟨s, n⟩ : FileTime))).map some := by
      simp [Metadata.mtimeAsFiletime, hx, FileTime.fromUnixTime, FileTime.offset]
    rw [e]
    cases ha : addI64 s 11644473600 with
    | none =>
      have := addI64_none.1 ha
      refine ⟨⟨fun _ => ⟨s, n, hm, by omega⟩, fun _ => rfl⟩, ⟨nofun, fun h => absurd hm (h s n)⟩, nofun⟩
    | some c =>
      obtain ⟨rfl, h3, h4⟩ := addI64_some.1 ha
      refine ⟨⟨nofun, fun ⟨s', n', hm', hs'⟩ => ?_⟩, ⟨nofun, fun h => absurd hm (h s n)⟩, fun t ht => ?_⟩
      · rw [(hu s' n' hm').1] at hs'; omega
      · simp only [Option.map_some, Option.some.injEq] at ht
        subst ht
        refine ⟨s, n, hm, ?_, rfl⟩
        exact addI64_some.2 ⟨by simp [FileTime.offset]; omega, by simp [FileTime.offset]; omega⟩

theorem compareInt (a b : Int) : (compare a b = .lt ↔ a < b) ∧ (compare a b = .eq ↔ a = b) ∧ (compare a b = .gt ↔ b < a) := by
  simp only [compare, compareOfLessAndEq]
  split
  · exact ⟨by simp; omega, by simp; omega, by simp; omega⟩
  · split
    · exact ⟨by simp; omega, by simp; omega, by simp; omega⟩
    · exact ⟨by simp; omega, by simp; omega, by simp; omega⟩

theorem compareNat (a b : Nat) : (compare a b = .lt ↔ a < b) ∧ (compare a b = .eq ↔ a = b) := by
  simp only [compare, compareOfLessAndEq]
  split
  · exact ⟨by simp; omega, by simp; omega⟩
  · split
    · exact ⟨by simp; omega, by simp; omega⟩
    · exact ⟨by simp; omega, by simp; omega⟩

theorem mtime_eq {w : Bool} {target : Option Rng} {block : Bytes} {r : FileVisitResult} {s : Int} {n : Nat} {t : FileTime}
    (h : (IdleFileVisit.mk target).start block = .ok r) (hm : ModifiedAt block s n)
    (ht : r.metadata.mtimeAsFiletime w = some (some t)) : t = ⟨s + FileTime.offset w, n⟩ := by
  have hx := ((start_mtime h).1 s n).2 hm
  simp only [Metadata.mtimeAsFiletime, hx, FileTime.fromUnixTime, Option.map_map, Option.map_eq_some_iff,
    Function.comp_apply] at ht
  obtain ⟨a, h1, h2⟩ := ht
  obtain ⟨rfl, -, -⟩ := addI64_some.1 h1
  cases h2; rfl

/-- The times of modification of two files, with less than a second of nanoseconds each, are ordered as the points in time which
the files declare. -/
theorem C107_order (w : Bool) (target target' : Option Rng) (block block' : Bytes) (r r' : FileVisitResult)
    (h : (IdleFileVisit.mk target).start block = .ok r) (h' : (IdleFileVisit.mk target').start block' = .ok r')
    (s s' : Int) (n n' : Nat) (hm : ModifiedAt block s n) (hm' : ModifiedAt block' s' n') (t t' : FileTime)
    (ht : r.metadata.mtimeAsFiletime w = some (some t)) (ht' : r'.metadata.mtimeAsFiletime w = some (some t'))
    (hn : n < 1000000000) (hn' : n' < 1000000000) :
    (t.cmp t' = .lt ↔ instant s n < instant s' n') ∧ (t.cmp t' = .eq ↔ instant s n = instant s' n') ∧
    (t.cmp t' = .gt ↔ instant s' n' < instant s n) := by
  rw [mtime_eq h hm ht, mtime_eq h' hm' ht']
  generalize FileTime.offset w = o
  have h1 := compareInt (s + o) (s' + o)
  have h2 := compareNat n n'
  simp only [FileTime.cmp, instant]
  generalize compare (s + o) (s' + o) = c1 at h1 ⊢
  generalize compare n n' = c2 at h2 ⊢
  obtain ⟨l1, e1, g1⟩ := h1
  obtain ⟨l2, e2⟩ := h2
  have hc : ∀ c : Ordering, (c = .lt ∨ c = .eq ∨ c = .gt) := fun c => by cases c <;> simp
  rcases hc c1 with h | h | h
  · have := l1.1 h
    subst h
    exact ⟨⟨fun _ => by omega, fun _ => rfl⟩, ⟨nofun, fun _ => by omega⟩, ⟨nofun, fun _ => by omega⟩⟩
  · have := e1.1 h
    subst h
    show (c2 = .lt ↔ _) ∧ (c2 = .eq ↔ _) ∧ (c2 = .gt ↔ _)
    refine ⟨by rw [l2]; omega, by rw [e2]; omega, ?_⟩
    rcases hc c2 with h | h | h
    · have := l2.1 h
      subst h; exact ⟨nofun, fun _ => by omega⟩
    · have := e2.1 h
      subst h; exact ⟨nofun, fun _ => by omega⟩
    · have a : ¬ n < n' := fun q => by rw [l2.2 q] at h; cases h
      have b : ¬ n = n' := fun q => by rw [e2.2 q] at h; cases h
      exact ⟨fun _ => by omega, fun _ => h⟩
  · have := g1.1 h
    subst h
    exact ⟨⟨nofun, fun _ => by omega⟩, ⟨nofun, fun _ => by omega⟩, ⟨fun _ => by omega, fun _ => rfl⟩⟩

/-- A file's block with the given time of modification. -/
def timed (s : Int) (n : Option Nat) : Bytes :=
  FlatUnixFs.write { links := [], data := { Ty := .File, Data := some [1, 2], filesize := some 2, mtime := some ⟨s, n⟩ } }

/-- Every pair of an `i64` and a `u32` is declared by some file. -/
theorem C107_all (s : Int) (n : Nat) (hs : -(2 ^ 63 : Int) ≤ s ∧ s < (2 ^ 63 : Int)) (hn : n < 2 ^ 32) :
    ∃ block r, (IdleFileVisit.mk none).start block = .ok r ∧ ModifiedAt block s n := by
  have hf : FlatUnixFs.Fits { links := [], data := { Ty := .File, Data := some [1, 2], filesize := some 2, mtime := some ⟨s, some n⟩ } } := by
    refine ⟨(fun _ h => by cases h), ⟨?_, ?_, (fun _ h => by cases h), ?_, ?_, ?_, ?_⟩, ?_⟩
    · intro a h; cases h; decide
    · intro a h; cases h; decide
    · intro a h; cases h
    · intro a h; cases h
    · intro a h; cases h
    · intro a h; cases h; exact ⟨hs, (fun a h => by cases h; exact hn)⟩
    · have h1 : sizeofVarint (i64AsU64 s) ≤ 10 := by unfold sizeofVarint; repeat' split <;> try omega
      simp only [UnixFs.getSize, optSize, UnixTime.getSize, sizeofLen]
      generalize sizeofVarint (i64AsU64 s) = v at h1 ⊢
      have h2 : sizeofVarint (1 + v + (1 + 4)) ≤ 10 := by unfold sizeofVarint; repeat' split <;> try omega
      have h3 : sizeofVarint DataType.File.toNat = 1 := by decide
      have h4 : sizeofVarint 2 = 1 := by decide
      simp only [h3, h4, List.map_nil, List.sum_nil, List.length_cons, List.length_nil]
      rw [show U32 = 4294967296 from rfl]
      omega
  have hp : FlatUnixFs.tryParse (timed s (some n)) = _ := C01_flat_roundtrip _ hf
  exact ⟨timed s (some n), _, by simp only [IdleFileVisit.start, FileReader.fromBlock, hp]; rfl, _, _, hp, rfl, rfl, .inl rfl⟩

/-- Nanoseconds of a second or more are not refused; such times are not ordered as the points in time: two seconds after the
epoch, given as nanoseconds, come before one second. -/
theorem C107_unordered : ∃ block block' r r' t t', (IdleFileVisit.mk none).start block = .ok r ∧
    (IdleFileVisit.mk none).start block' = .ok r' ∧ ModifiedAt block 0 2000000000 ∧ ModifiedAt block' 1 0 ∧
    r.metadata.mtimeAsFiletime false = some (some t) ∧ r'.metadata.mtimeAsFiletime false = some (some t') ∧
    t.cmp t' = .lt ∧ instant 1 0 < instant 0 2000000000 := by
  obtain ⟨b, r, h, hm⟩ := C107_all 0 2000000000 (by omega) (by omega)
  obtain ⟨b', r', h', hm'⟩ := C107_all 1 0 (by omega) (by omega)
  have key : ∀ {b : Bytes} {r : FileVisitResult} {s : Int} {n : Nat}, (IdleFileVisit.mk none).start b = .ok r → ModifiedAt b s n →
      r.metadata.mtimeAsFiletime false = some (some ⟨s, n⟩) := by
    intro b r s n h hm
    rcases C107_unix none b r h with ⟨h1, -⟩ | ⟨s', n', t, -, h2, -⟩
    · exact absurd hm (h1 s n)
    · rw [h2, mtime_eq h hm h2]; simp [FileTime.offset]
  exact ⟨b, b', r, r', _, _, h, h', hm, hm', key h hm, key h' hm', by decide, by decide⟩

/-- A file modified half a second before 1970-01-01, on both kinds of platforms; one without a time; and the panic. -/
theorem C107_example :
    (∃ r, (IdleFileVisit.mk none).start (timed (-1) (some 500000000)) = .ok r ∧
      r.metadata.mtimeAsFiletime false = some (some ⟨-1, 500000000⟩) ∧
      r.metadata.mtimeAsFiletime true = some (some ⟨11644473599, 500000000⟩)) ∧
    (∃ r, (IdleFileVisit.mk none).start (timed (2 ^ 63 - 1) none) = .ok r ∧
      r.metadata.mtimeAsFiletime false = some (some ⟨2 ^ 63 - 1, 0⟩) ∧ r.metadata.mtimeAsFiletime true = none) ∧
    (∃ r, (IdleFileVisit.mk none).start ((FTree.leaf [1, 2]).block toySha) = .ok r ∧
      r.metadata.mtimeAsFiletime false = some none) := by
  refine ⟨⟨⟨[1, 2], 2, { mode := none, mtime := some (-1, 500000000) }, none⟩, ?_⟩, ⟨⟨[1, 2], 2, { mode := none, mtime := some (2 ^ 63 - 1, 0) }, none⟩, ?_⟩,
    ⟨⟨[1, 2], 2, {}, none⟩, ?_⟩⟩ <;> decide +kernel

end Verif.Props
