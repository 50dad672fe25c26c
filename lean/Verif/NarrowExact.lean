import Verif.Spec.Narrow
import Verif.ParseExact
/-
The readers of a platform with 32 bits accept exactly the sequences of fields of `Spec/Narrow.lean`. (The proofs follow `ParseExact.lean`.)
-/
namespace Verif
open Spec

theorem u32_dvd (v : Nat) : v % U64 % U32 = v % U32 := Nat.mod_mod_of_dvd v ⟨2 ^ 32, by decide⟩

theorem num64_cut {b : Bytes} {n : Nat} (h : Num64 b n) : Num32 b (n % U32) := by
  obtain ⟨v, hv, rfl⟩ := h
  exact ⟨v, hv, (u32_dvd v).symm⟩

theorem num32_uncut {b : Bytes} {n : Nat} (h : Num32 b n) : ∃ k, Num64 b k ∧ k % U32 = n := by
  obtain ⟨v, hv, rfl⟩ := h
  exact ⟨v % U64, ⟨v, hv, rfl⟩, u32_dvd v⟩

theorem readBytes_ok32 {r : Reader} {s : Slice} {r' : Reader} : r.readBytes32 = .ok (s, r') ↔ r.readBytes = .ok (s, r') ∧ r'.pos < U32 := by
  unfold Reader.readBytes32 Reader.readBytes
  cases hv : r.readVarint32 with
  | error e => simp
  | ok p =>
    obtain ⟨n, r1⟩ := p
    simp only [except_ok_bind]
    by_cases hn : n ≤ r1.rest.length
    · rw [if_pos hn]
      by_cases hu : U32 ≤ r1.pos + n
      · rw [if_pos hu]
        constructor
        · nofun
        · rintro ⟨h, h'⟩
          cases h
          simp only at h'
          omega
      · rw [if_neg hu]
        constructor
        · intro h
          cases h
          exact ⟨rfl, by simp only; omega⟩
        · exact fun h => h.1
    · rw [if_neg hn]
      split <;> simp

theorem readBytes_iff32 (r : Reader) (s : Bytes) (r' : Reader) :
    (∃ o, r.readBytes32 = .ok (⟨o, s⟩, r')) ↔ r'.pos < U32 ∧ ∃ lb, Num32 lb s.length ∧ r.Skips (lb ++ s) r' := by
  rw [← readBytes_iff]
  constructor
  · rintro ⟨o, h⟩
    obtain ⟨h1, h2⟩ := readBytes_ok32.1 h
    exact ⟨h2, o, h1⟩
  · rintro ⟨h2, o, h1⟩
    exact ⟨o, readBytes_ok32.2 ⟨h1, h2⟩⟩

theorem readString_iff32 (r : Reader) (s : Bytes) (r' : Reader) :
    r.readString32 = .ok (s, r') ↔ validUtf8 s = true ∧ r'.pos < U32 ∧ ∃ lb, Num32 lb s.length ∧ r.Skips (lb ++ s) r' := by
  rw [← readBytes_iff32]
  unfold Reader.readString32
  constructor
  · intro h
    cases hb : r.readBytes32 with
    | error e => rw [hb] at h; cases h
    | ok p =>
      obtain ⟨⟨o, x⟩, r1⟩ := p
      rw [hb] at h
      simp only [except_ok_bind] at h
      by_cases hu : validUtf8 x = true
      · rw [if_pos hu] at h; cases h; exact ⟨hu, o, rfl⟩
      · rw [if_neg hu] at h; cases h
  · rintro ⟨hu, o, h⟩
    rw [h]; simp only [except_ok_bind, hu, if_true]

theorem readUnknown_mono32 {r r' : Reader} {tag : Nat} (h : r.readUnknown32 tag = .ok r') : r.pos ≤ r'.pos ∧ r'.stop = r.stop := by
  unfold Reader.readUnknown32 at h
  split at h
  · cases hv : r.readVarint64 with
    | error e => rw [hv] at h; cases h
    | ok p =>
      rw [hv] at h; cases h
      obtain ⟨b, -, hs⟩ := (readVarint64_iff ..).1 hv
      exact ⟨by rw [hs.2.1]; omega, hs.2.2⟩
  · split at h
    · cases h
    · cases h; exact ⟨by simp only; omega, rfl⟩
  · cases hv : r.readVarint64 with
    | error e => rw [hv] at h; cases h
    | ok p =>
      obtain ⟨len, r1⟩ := p
      rw [hv] at h
      obtain ⟨b, -, hs⟩ := (readVarint64_iff ..).1 hv
      have := hs.2.1
      simp only [except_ok_bind] at h
      split at h
      · cases h
      · split at h
        · cases h
        · cases h; exact ⟨by simp only; omega, hs.2.2⟩
  · split at h
    · cases h
    · cases h; exact ⟨by simp only; omega, rfl⟩
  all_goals cases h

theorem readUnknown_complete32 {r r' : Reader} {tag : Nat} (h : r.readUnknown32 tag = .ok r') (hw : r.Within) (hp : r'.pos ≤ r.stop) :
    ∃ u b, Unk.tag u = tag ∧ u.payload.Enc32 b ∧ r.Skips b r' := by
  unfold Reader.readUnknown32 at h
  split at h
  · rename_i ht
    cases hv : r.readVarint64 with
    | error e => rw [hv] at h; cases h
    | ok p =>
      rw [hv] at h; cases h
      obtain ⟨b, hn, hs⟩ := (readVarint64_iff ..).1 hv
      exact ⟨⟨tag / 8, .varint p.1⟩, b, by simp only [Unk.tag]; omega, .varint hn, hs⟩
  · rename_i ht
    split at h
    · cases h
    · cases h
      obtain ⟨h1, h2⟩ := drop_skips r 8 hp hw
      exact ⟨⟨tag / 8, .fixed64 _⟩, _, by simp only [Unk.tag]; omega, .fixed64 h1, h2⟩
  · rename_i ht
    cases hv : r.readVarint64 with
    | error e => rw [hv] at h; cases h
    | ok p =>
      obtain ⟨len, r1⟩ := p
      rw [hv] at h
      obtain ⟨b, hn, hs⟩ := (readVarint64_iff ..).1 hv
      simp only [except_ok_bind] at h
      split at h
      · cases h
      · split at h
        · cases h
        · cases h
          obtain ⟨h1, h2⟩ := drop_skips r1 (len % U32) (by rw [hs.2.2]; exact hp) (hs.within hw)
          refine ⟨⟨tag / 8, .bytes (r1.rest.take (len % U32))⟩, _, by simp only [Unk.tag]; omega,
            .bytes (lb := b) (by rw [h1]; exact num64_cut hn), hs.trans h2⟩
  · rename_i ht
    split at h
    · cases h
    · cases h
      obtain ⟨h1, h2⟩ := drop_skips r 4 hp hw
      exact ⟨⟨tag / 8, .fixed32 _⟩, _, by simp only [Unk.tag]; omega, .fixed32 h1, h2⟩
  all_goals cases h

theorem readUnknown_sound32 {r r' : Reader} {u : Unk} {b : Bytes} (h : u.payload.Enc32 b) (hs : r.Skips b r') (hp : r'.pos ≤ r.stop)
    (hb : r.stop < U32) : r.readUnknown32 u.tag = .ok r' := by
  obtain ⟨num, pl⟩ := u
  obtain ⟨h1, h2, h3⟩ := hs
  simp only at h
  cases h with
  | varint hn =>
    rename_i n
    have ht : (Unk.mk num (.varint n)).tag % 8 = 0 := by simp [Unk.tag]
    unfold Reader.readUnknown32
    rw [ht]
    simp only
    rw [(readVarint64_iff ..).2 ⟨b, hn, h1, h2, h3⟩]; rfl
  | fixed64 hl =>
    have ht : (Unk.mk num (.fixed64 b)).tag % 8 = 1 := by simp [Unk.tag]
    unfold Reader.readUnknown32
    rw [ht]
    simp only
    rw [if_neg (by omega)]
    simp only [Except.ok.injEq]
    exact Reader.ext' (by simp only; omega) h3.symm (by simp only; rw [h1, ← hl, List.drop_left])
  | bytes hn =>
    rename_i x lb
    have ht : (Unk.mk num (.bytes x)).tag % 8 = 2 := by simp [Unk.tag]
    rw [List.append_assoc] at h1
    rw [List.length_append] at h2
    obtain ⟨k, hk, hkx⟩ := num32_uncut hn
    unfold Reader.readUnknown32
    rw [ht]
    simp only
    rw [(readVarint64_iff r k ⟨r.pos + lb.length, r.stop, x ++ r'.rest⟩).2 ⟨lb, hk, h1, rfl, rfl⟩]
    simp only [except_ok_bind, hkx]
    rw [if_neg (by omega), if_neg (by omega)]
    simp only [Except.ok.injEq, List.drop_left]
    exact Reader.ext' (by simp only; omega) h3.symm rfl
  | fixed32 hl =>
    have ht : (Unk.mk num (.fixed32 b)).tag % 8 = 5 := by simp [Unk.tag]
    unfold Reader.readUnknown32
    rw [ht]
    simp only
    rw [if_neg (by omega)]
    simp only [Except.ok.injEq]
    exact Reader.ext' (by simp only; omega) h3.symm (by simp only; rw [h1, ← hl, List.drop_left])

/-! ### loops -/

/-- One field is read exactly as specified; `view` is what is specified of the message. -/
structure StepExact32 {M V F : Type} (step : Nat → M → Reader → Except PbError (M × Reader)) (view : M → V) (E : F → Bytes → Prop)
    (apply : V → F → V) : Prop where
  pos : ∀ {f b}, E f b → 0 < b.length
  mono : ∀ {tag : Nat} {m : M} {r : Reader} {m' : M} {r' : Reader}, step tag m r = .ok (m', r') → r.pos ≤ r'.pos ∧ r'.stop = r.stop
  sound : ∀ {f b}, E f b → ∀ (m : M) (r r' : Reader), r.Skips b r' → r'.pos ≤ r.stop → r.stop < U32 →
    ∃ tag r1 m', r.readVarint32 = .ok (tag, r1) ∧ step tag m r1 = .ok (m', r') ∧ view m' = apply (view m) f
  complete : ∀ {tag : Nat} {m : M} {r r1 : Reader} {m' : M} {r' : Reader}, r.readVarint32 = .ok (tag, r1) → step tag m r1 = .ok (m', r') → r.Within → r'.pos ≤ r.stop →
    ∃ f b, E f b ∧ r.Skips b r' ∧ view m' = apply (view m) f

section
variable {M V F : Type} {step : Nat → M → Reader → Except PbError (M × Reader)} {view : M → V} {E : F → Bytes → Prop}
  {apply : V → F → V}

theorem readLoop_mono32 (hs : StepExact32 step view E apply) {fuel : Nat} {m m' : M} {r r' : Reader}
    (h : readLoop step fuel m r = .ok (m', r')) : r.pos ≤ r.stop ∧ r'.pos = r.stop ∧ r'.stop = r.stop := by
  induction fuel generalizing m r with
  | zero => cases h
  | succ fuel ih =>
    rw [readLoop] at h
    by_cases he : r.pos = r.stop
    · rw [if_pos he] at h; cases h; exact ⟨by omega, he, rfl⟩
    · rw [if_neg he] at h
      cases hv : r.readVarint32 with
      | error e => rw [hv] at h; cases h
      | ok p =>
        obtain ⟨tag, r1⟩ := p
        rw [hv] at h
        simp only [except_ok_bind] at h
        cases hst : step tag m r1 with
        | error e => rw [hst] at h; cases h
        | ok q =>
          obtain ⟨m2, r2⟩ := q
          rw [hst] at h
          simp only [except_ok_bind] at h
          obtain ⟨i1, i2, i3⟩ := ih h
          obtain ⟨j1, j2⟩ := hs.mono hst
          obtain ⟨b, -, k⟩ := (readVarint32_iff ..).1 hv
          have := k.2.1; have := k.2.2
          exact ⟨by omega, by omega, by omega⟩

theorem readLoop_complete32 (hs : StepExact32 step view E apply) {fuel : Nat} {m m' : M} {r r' : Reader} (hw : r.Within)
    (h : readLoop step fuel m r = .ok (m', r')) :
    ∃ fs b, Fields E fs b ∧ r.Skips b r' ∧ r'.pos = r.stop ∧ view m' = fs.foldl apply (view m) := by
  induction fuel generalizing m r with
  | zero => cases h
  | succ fuel ih =>
    rw [readLoop] at h
    by_cases he : r.pos = r.stop
    · rw [if_pos he] at h; cases h; exact ⟨[], [], .nil, ⟨rfl, rfl, rfl⟩, he, rfl⟩
    · rw [if_neg he] at h
      cases hv : r.readVarint32 with
      | error e => rw [hv] at h; cases h
      | ok p =>
        obtain ⟨tag, r1⟩ := p
        rw [hv] at h
        simp only [except_ok_bind] at h
        cases hst : step tag m r1 with
        | error e => rw [hst] at h; cases h
        | ok q =>
          obtain ⟨m2, r2⟩ := q
          rw [hst] at h
          simp only [except_ok_bind] at h
          obtain ⟨i1, i2, i3⟩ := readLoop_mono32 hs h
          obtain ⟨j1, j2⟩ := hs.mono hst
          obtain ⟨b0, -, k⟩ := (readVarint32_iff ..).1 hv
          have := k.2.2
          obtain ⟨f, b, e1, e2, e3⟩ := hs.complete hv hst hw (by omega)
          obtain ⟨fs, bs, g1, g2, g3, g4⟩ := ih (e2.within hw) h
          exact ⟨f :: fs, b ++ bs, .cons e1 g1, e2.trans g2, by omega, by rw [g4, e3]; rfl⟩

theorem readLoop_sound32 (hs : StepExact32 step view E apply) {fs : List F} {b : Bytes} (hf : Fields E fs b) :
    ∀ (fuel : Nat) (m : M) (r r' : Reader), r.Skips b r' → r'.pos = r.stop → r.stop < U32 → b.length < fuel →
      ∃ m', readLoop step fuel m r = .ok (m', r') ∧ view m' = fs.foldl apply (view m) := by
  induction hf with
  | nil =>
    intro fuel m r r' h1 h2 hu h3
    obtain ⟨k, rfl⟩ : ∃ k, fuel = k + 1 := ⟨fuel - 1, by simp at h3; omega⟩
    obtain ⟨a1, a2, a3⟩ := h1
    have he : r' = r := Reader.ext' (by simpa using a2) a3 (by rw [a1]; rfl)
    subst he
    exact ⟨m, by rw [readLoop, if_pos h2], rfl⟩
  | @cons f fs b bs hE _ ih =>
    intro fuel m r r' h1 h2 hu h3
    have hpos := hs.pos hE
    rw [List.length_append] at h3
    obtain ⟨k, rfl⟩ : ∃ k, fuel = k + 1 := ⟨fuel - 1, by omega⟩
    obtain ⟨a1, a2, a3⟩ := h1
    rw [List.append_assoc] at a1
    rw [List.length_append] at a2
    obtain ⟨tag, r1, m1, e1, e2, e3⟩ := hs.sound hE m r ⟨r.pos + b.length, r.stop, bs ++ r'.rest⟩ ⟨a1, rfl, rfl⟩ (by simp only; omega) hu
    obtain ⟨m', g1, g2⟩ := ih k m1 ⟨r.pos + b.length, r.stop, bs ++ r'.rest⟩ r' ⟨rfl, by simp only; omega, a3⟩ (by simp only; omega) hu (by omega)
    refine ⟨m', ?_, by rw [g2, e3]; rfl⟩
    rw [readLoop, if_neg (by omega), e1]
    simp only [except_ok_bind, e2, g1]

theorem fromReader_iff32 (hs : StepExact32 step view E apply) (dflt : M) (r : Reader) (hw : r.Within) (hu : r.stop < U32) (v : V) (r' : Reader) :
    (∃ m', fromReader step dflt r = .ok (m', r') ∧ view m' = v) ↔
      ∃ fs b, Fields E fs b ∧ r.Skips b r' ∧ r'.pos = r.stop ∧ v = fs.foldl apply (view dflt) := by
  unfold fromReader
  constructor
  · rintro ⟨m', h, rfl⟩
    exact readLoop_complete32 hs hw h
  · rintro ⟨fs, b, h1, h2, h3, rfl⟩
    refine readLoop_sound32 hs h1 _ dflt r r' h2 h3 hu ?_
    rw [h2.1, List.length_append]; omega

theorem readMessage_mono32 (hs : StepExact32 step view E apply) {m' dflt : M} {r r' : Reader}
    (h : r.readMessage32 step dflt = .ok (m', r')) : r.pos ≤ r'.pos ∧ r'.stop = r.stop := by
  unfold Reader.readMessage32 at h
  cases hv : r.readVarint32 with
  | error e => rw [hv] at h; cases h
  | ok p =>
    obtain ⟨len, r1⟩ := p
    rw [hv] at h
    simp only [except_ok_bind] at h
    obtain ⟨b, -, k1, k2, k3⟩ := (readVarint32_iff ..).1 hv
    split at h
    · cases h
    rename_i hu
    cases hf : fromReader step dflt { r1 with stop := r1.pos + len } with
    | error e => rw [hf] at h; cases h
    | ok q =>
      obtain ⟨m2, r2⟩ := q
      rw [hf] at h
      cases h
      obtain ⟨-, -, e⟩ := readLoop_mono32 hs hf
      simp only at e ⊢
      exact ⟨by omega, k3⟩

theorem readMessage_complete32 (hs : StepExact32 step view E apply) {m' dflt : M} {r r' : Reader}
    (h : r.readMessage32 step dflt = .ok (m', r')) (hw : r.Within) (hp : r'.pos ≤ r.stop) :
    ∃ fs x lb, Num32 lb x.length ∧ Fields E fs x ∧ r.Skips (lb ++ x) r' ∧ view m' = fs.foldl apply (view dflt) := by
  unfold Reader.readMessage32 at h
  cases hv : r.readVarint32 with
  | error e => rw [hv] at h; cases h
  | ok p =>
    obtain ⟨len, r1⟩ := p
    rw [hv] at h
    simp only [except_ok_bind] at h
    obtain ⟨b, hb, hk⟩ := (readVarint32_iff ..).1 hv
    split at h
    · cases h
    rename_i hu
    cases hf : fromReader step dflt { r1 with stop := r1.pos + len } with
    | error e => rw [hf] at h; cases h
    | ok q =>
      obtain ⟨m2, r2⟩ := q
      rw [hf] at h
      cases h
      obtain ⟨-, e1, e2⟩ := readLoop_mono32 hs hf
      simp only at e1 e2 hp
      have hw1 := hk.within hw
      have hw2 : Reader.Within { r1 with stop := r1.pos + len } := by
        unfold Reader.Within at hw1 ⊢
        have := hk.2.2
        simp only
        omega
      obtain ⟨fs, x, h1, ⟨h2, h3, h4⟩, h5, h6⟩ := (fromReader_iff32 hs dflt _ hw2 (by simp only; omega) _ r2).1 ⟨_, hf, rfl⟩
      simp only at h2 h3 h4 h5
      have hl : len = x.length := by omega
      subst hl
      refine ⟨fs, x, b, hb, h1, hk.trans ⟨h2, ?_, rfl⟩, h6⟩
      simp only; omega

theorem readMessage_sound32 (hs : StepExact32 step view E apply) (dflt : M) {r r' : Reader} {fs : List F} {x lb : Bytes}
    (hl : Num32 lb x.length) (hf : Fields E fs x) (h : r.Skips (lb ++ x) r') (hu : r'.pos < U32) :
    ∃ m', r.readMessage32 step dflt = .ok (m', r') ∧ view m' = fs.foldl apply (view dflt) := by
  obtain ⟨h1, h2, h3⟩ := h
  rw [List.append_assoc] at h1
  rw [List.length_append] at h2
  unfold Reader.readMessage32
  rw [(readVarint32_iff r x.length ⟨r.pos + lb.length, r.stop, x ++ r'.rest⟩).2 ⟨lb, hl, h1, rfl, rfl⟩]
  simp only [except_ok_bind]
  rw [if_neg (by omega)]
  obtain ⟨m', e1, e2⟩ := (fromReader_iff32 hs dflt ⟨r.pos + lb.length, r.pos + lb.length + x.length, x ++ r'.rest⟩
    (by unfold Reader.Within; simp only [List.length_append]; omega) (by simp only; omega) _
    ⟨r.pos + lb.length + x.length, r.pos + lb.length + x.length, r'.rest⟩).2 ⟨fs, x, hf, ⟨rfl, rfl, rfl⟩, rfl, rfl⟩
  refine ⟨m', ?_, e2⟩
  rw [e1]
  simp only [except_ok_bind, Except.ok.injEq, Prod.mk.injEq, true_and]
  exact Reader.ext' (by simp only; omega) h3.symm rfl

theorem parseMessage_iff32 (hs : StepExact32 step view E apply) (dflt : M) (b : Bytes) (hb : b.length < U32) (v : V) :
    (∃ m', parseMessage step dflt b = .ok m' ∧ view m' = v) ↔ ∃ fs, Fields E fs b ∧ v = fs.foldl apply (view dflt) := by
  have hw : (Reader.ofBytes b).Within := by unfold Reader.Within Reader.ofBytes; simp only; omega
  unfold parseMessage
  constructor
  · rintro ⟨m', h, rfl⟩
    cases hf : fromReader step dflt (Reader.ofBytes b) with
    | error e => rw [hf] at h; cases h
    | ok q =>
      obtain ⟨m2, r2⟩ := q
      rw [hf] at h
      cases h
      obtain ⟨fs, x, h1, ⟨h2, h3, h4⟩, h5, h6⟩ := (fromReader_iff32 hs dflt _ hw hb _ r2).1 ⟨_, hf, rfl⟩
      have hx : x = b := by
        simp only [Reader.ofBytes] at h2 h3 h5
        have : r2.rest = [] := by
          have := congrArg List.length h2
          rw [List.length_append] at this
          exact List.length_eq_zero_iff.1 (by omega)
        rw [h2, this, List.append_nil]
      subst hx
      exact ⟨fs, h1, h6⟩
  · rintro ⟨fs, h1, rfl⟩
    obtain ⟨m', e1, e2⟩ := (fromReader_iff32 hs dflt _ hw hb _ ⟨b.length, b.length, []⟩).2
      ⟨fs, b, h1, ⟨by simp [Reader.ofBytes], by simp [Reader.ofBytes], rfl⟩, rfl, rfl⟩
    exact ⟨m', by rw [e1]; rfl, e2⟩

end


section
variable {M : Type} {r r' : Reader} {m' : M}

theorem payString_iff32 {f : Bytes → M} {k : Bytes × Reader → Except PbError (M × Reader)} (hk : ∀ n r, k (n, r) = .ok (f n, r)) :
    (r.readString32 >>= k) = .ok (m', r') ↔ ∃ s lb, validUtf8 s = true ∧ r'.pos < U32 ∧ Num32 lb s.length ∧ r.Skips (lb ++ s) r' ∧ m' = f s := by
  rw [pay_iff hk]
  constructor
  · rintro ⟨s, h, rfl⟩
    obtain ⟨h0, hu, b, h1, h2⟩ := (readString_iff32 ..).1 h
    exact ⟨_, b, h0, hu, h1, h2, rfl⟩
  · rintro ⟨s, lb, h0, hu, h1, h2, rfl⟩
    exact ⟨s, (readString_iff32 ..).2 ⟨h0, hu, lb, h1, h2⟩, rfl⟩

theorem payUnknown_iff32 {tag : Nat} {m : M} : (do let r ← r.readUnknown32 tag; .ok (m, r)) = (.ok (m', r') : Except PbError (M × Reader)) ↔
    r.readUnknown32 tag = .ok r' ∧ m' = m := by
  constructor
  · intro h
    cases hv : r.readUnknown32 tag with
    | error e => rw [hv] at h; cases h
    | ok p => rw [hv] at h; cases h; exact ⟨rfl, rfl⟩
  · rintro ⟨h, rfl⟩
    rw [h]; rfl
end


theorem readBytes_mono32 {r r' : Reader} {s : Slice} (h : r.readBytes32 = .ok (s, r')) : r.pos ≤ r'.pos ∧ r'.stop = r.stop := by
  obtain ⟨-, lb, -, h1, h2, h3⟩ := (readBytes_iff32 r s.val r').1 ⟨s.off, h⟩
  exact ⟨by omega, h3⟩


theorem unk_complete32 {known : List Nat} {r r1 r' : Reader} {tag : Nat} (hv : r.readVarint32 = .ok (tag, r1)) (hk : tag ∉ known)
    (h : r1.readUnknown32 tag = .ok r') (hw : r.Within) (hp : r'.pos ≤ r.stop) : ∃ u b, Unk.Enc32 known u b ∧ r.Skips b r' := by
  obtain ⟨tb, h1, h2⟩ := (readVarint32_iff ..).1 hv
  obtain ⟨u, b, rfl, e2, e3⟩ := readUnknown_complete32 h (h2.within hw) (by rw [h2.2.2]; exact hp)
  exact ⟨u, tb ++ b, ⟨hk, tb, b, rfl, h1, e2⟩, h2.trans e3⟩

theorem unk_sound32 {known : List Nat} {u : Unk} {b : Bytes} (h : Unk.Enc32 known u b) {r r' : Reader} (hs : r.Skips b r')
    (hp : r'.pos ≤ r.stop) (hu : r.stop < U32) : u.tag ∉ known ∧ ∃ r1, r.readVarint32 = .ok (u.tag, r1) ∧ r1.readUnknown32 u.tag = .ok r' := by
  obtain ⟨hk, tb, pb, rfl, h1, h2⟩ := h
  obtain ⟨r1, s1, s2⟩ := hs.split
  exact ⟨hk, r1, (readVarint32_iff ..).2 ⟨tb, h1, s1⟩, readUnknown_sound32 h2 s2 (by rw [s1.2.2]; exact hp) (by rw [s1.2.2]; exact hu)⟩


theorem unkEnc_pos32 {known : List Nat} {u : Unk} {b : Bytes} (h : Unk.Enc32 known u b) : 0 < b.length := by
  obtain ⟨-, tb, nb, rfl, h1, -⟩ := h
  have := Num32_pos h1; rw [List.length_append]; omega

/-! ### the messages -/

theorem linkStep_exact32 : StepExact32 PBLink.step32 id LinkField.Enc32 LinkField.apply where
  pos := by
    intro f b h
    cases f with
    | hash => exact bytes_pos h
    | name => exact bytes_pos h.1
    | tsize => exact num_pos h
    | unk => exact unkEnc_pos32 h
  mono := by
    intro tag m r m' r' h
    unfold PBLink.step32 at h
    split at h
    · obtain ⟨s, h, -⟩ := (pay_iff (by intros; rfl)).1 h; exact readBytes_mono32 h
    · obtain ⟨s, lb, -, -, -, h, -⟩ := (payString_iff32 (by intros; rfl)).1 h; exact h.mono
    · obtain ⟨n, b, -, h, -⟩ := (pay64_iff (by intros; rfl)).1 h; exact h.mono
    · exact readUnknown_mono32 (payUnknown_iff32.1 h).1
  sound := by
    intro f b h m r r' hs hp hu
    cases f with
    | hash x =>
      obtain ⟨r1, lb, e1, e2, e3⟩ := bytes_sound h hs
      obtain ⟨o, e4⟩ := (readBytes_iff32 ..).2 ⟨by omega, lb, e2, e3⟩
      exact ⟨10, r1, _, e1, (pay_iff (by intros; rfl)).2 ⟨_, e4, rfl⟩, rfl⟩
    | name x =>
      obtain ⟨r1, lb, e1, e2, e3⟩ := bytes_sound h.1 hs
      exact ⟨18, r1, _, e1, (payString_iff32 (by intros; rfl)).2 ⟨x, lb, (validUtf8_iff _).2 h.2, by omega, e2, e3, rfl⟩, rfl⟩
    | tsize n =>
      obtain ⟨r1, nb, e1, e2, e3⟩ := num_sound h hs
      exact ⟨24, r1, _, e1, (pay64_iff (by intros; rfl)).2 ⟨n, nb, e2, e3, rfl⟩, rfl⟩
    | unk u =>
      obtain ⟨hk, r1, e1, e2⟩ := unk_sound32 h hs hp hu
      refine ⟨_, r1, m, e1, ?_, rfl⟩
      unfold PBLink.step32
      split <;> first | (exfalso; simp_all; done) | exact payUnknown_iff32.2 ⟨e2, rfl⟩
  complete := by
    intro tag m r r1 m' r' hv hst hw hp
    unfold PBLink.step32 at hst
    split at hst
    · obtain ⟨s, h, rfl⟩ := (pay_iff (by intros; rfl)).1 hst
      obtain ⟨-, lb, h1, h2⟩ := (readBytes_iff32 r1 s.val r').1 ⟨s.off, h⟩
      obtain ⟨tb, h3, h4⟩ := tagged hv h2
      exact ⟨.hash s.val, _, ⟨tb, lb, rfl, h3, h1⟩, h4, rfl⟩
    · obtain ⟨s, lb, h0, -, h1, h2, rfl⟩ := (payString_iff32 (by intros; rfl)).1 hst
      obtain ⟨tb, h3, h4⟩ := tagged hv h2
      exact ⟨.name s, _, ⟨⟨tb, lb, rfl, h3, h1⟩, (validUtf8_iff _).1 h0⟩, h4, rfl⟩
    · obtain ⟨n, nb, h1, h2, rfl⟩ := (pay64_iff (by intros; rfl)).1 hst
      obtain ⟨tb, h3, h4⟩ := tagged hv h2
      exact ⟨.tsize n, _, ⟨tb, nb, rfl, h3, h1⟩, h4, rfl⟩
    · rename_i t n1 n2 n3
      obtain ⟨h, rfl⟩ := payUnknown_iff32.1 hst
      obtain ⟨u, b, h1, h2⟩ := unk_complete32 (known := [10, 18, 24]) hv (by simp; exact ⟨n1, n2, n3⟩) h hw hp
      exact ⟨.unk u, b, h1, h2, rfl⟩

theorem timeStep_exact32 : StepExact32 UnixTime.step32 id TimeField.Enc32 TimeField.apply where
  pos := by
    intro f b h
    cases f with
    | seconds => exact num_pos h
    | nanos => exact num_pos h
    | unk => exact unkEnc_pos32 h
  mono := by
    intro tag m r m' r' h
    unfold UnixTime.step32 at h
    split at h
    · obtain ⟨n, b, -, h, -⟩ := (pay64_iff (by intros; rfl)).1 h; exact h.mono
    · obtain ⟨n, b, -, h, -⟩ := (payFixed_iff (by intros; rfl)).1 h; exact h.mono
    · exact readUnknown_mono32 (payUnknown_iff32.1 h).1
  sound := by
    intro f b h m r r' hs hp hu
    cases f with
    | seconds n =>
      obtain ⟨r1, nb, e1, e2, e3⟩ := num_sound h hs
      exact ⟨8, r1, _, e1, (pay64_iff (by intros; rfl)).2 ⟨n, nb, e2, e3, rfl⟩, rfl⟩
    | nanos n =>
      obtain ⟨r1, nb, e1, e2, e3⟩ := num_sound h hs
      exact ⟨21, r1, _, e1, (payFixed_iff (by intros; rfl)).2 ⟨n, nb, e2, e3, rfl⟩, rfl⟩
    | unk u =>
      obtain ⟨hk, r1, e1, e2⟩ := unk_sound32 h hs hp hu
      refine ⟨_, r1, m, e1, ?_, rfl⟩
      unfold UnixTime.step32
      split <;> first | (exfalso; simp_all; done) | exact payUnknown_iff32.2 ⟨e2, rfl⟩
  complete := by
    intro tag m r r1 m' r' hv hst hw hp
    unfold UnixTime.step32 at hst
    split at hst
    · obtain ⟨n, nb, h1, h2, rfl⟩ := (pay64_iff (by intros; rfl)).1 hst
      obtain ⟨tb, h3, h4⟩ := tagged hv h2
      exact ⟨.seconds n, _, ⟨tb, nb, rfl, h3, h1⟩, h4, rfl⟩
    · obtain ⟨n, nb, h1, h2, rfl⟩ := (payFixed_iff (by intros; rfl)).1 hst
      obtain ⟨tb, h3, h4⟩ := tagged hv h2
      exact ⟨.nanos n, _, ⟨tb, nb, rfl, h3, h1⟩, h4, rfl⟩
    · rename_i t n1 n2
      obtain ⟨h, rfl⟩ := payUnknown_iff32.1 hst
      obtain ⟨u, b, h1, h2⟩ := unk_complete32 (known := [8, 21]) hv (by simp; exact ⟨n1, n2⟩) h hw hp
      exact ⟨.unk u, b, h1, h2, rfl⟩


theorem nodeStep_exact32 : StepExact32 PBNode.step32 PBNode.view NodeField.Enc32 NodeField.applyView where
  pos := by
    intro f b h
    cases f with
    | link => obtain ⟨x, h, -⟩ := h; exact bytes_pos h
    | data => exact bytes_pos h
    | unk => exact unkEnc_pos32 h
  mono := by
    intro tag m r m' r' h
    unfold PBNode.step32 at h
    split at h
    · obtain ⟨s, h, -⟩ := (pay_iff (by intros; rfl)).1 h; exact readMessage_mono32 linkStep_exact32 h
    · obtain ⟨s, h, -⟩ := (pay_iff (by intros; rfl)).1 h; exact readBytes_mono32 h
    · exact readUnknown_mono32 (payUnknown_iff32.1 h).1
  sound := by
    intro f b h m r r' hs hp hu
    cases f with
    | link fs =>
      obtain ⟨x, hx, hf⟩ := h
      obtain ⟨r1, lb, e1, e2, e3⟩ := bytes_sound hx hs
      obtain ⟨l, e4, e5⟩ := readMessage_sound32 linkStep_exact32 {} e2 hf e3 (by omega)
      exact ⟨18, r1, _, e1, (pay_iff (by intros; rfl)).2 ⟨l, e4, rfl⟩, by rw [show l = linkOf fs from e5]; rfl⟩
    | data x =>
      obtain ⟨r1, lb, e1, e2, e3⟩ := bytes_sound h hs
      obtain ⟨o, e4⟩ := (readBytes_iff32 ..).2 ⟨by omega, lb, e2, e3⟩
      exact ⟨10, r1, _, e1, (pay_iff (by intros; rfl)).2 ⟨_, e4, rfl⟩, rfl⟩
    | unk u =>
      obtain ⟨hk, r1, e1, e2⟩ := unk_sound32 h hs hp hu
      refine ⟨_, r1, m, e1, ?_, rfl⟩
      unfold PBNode.step32
      split <;> first | (exfalso; simp_all; done) | exact payUnknown_iff32.2 ⟨e2, rfl⟩
  complete := by
    intro tag m r r1 m' r' hv hst hw hp
    unfold PBNode.step32 at hst
    split at hst
    · obtain ⟨l, h, rfl⟩ := (pay_iff (by intros; rfl)).1 hst
      obtain ⟨tb, h0, hs1⟩ := (readVarint32_iff ..).1 hv
      obtain ⟨fs, x, lb, h1, h2, h3, h4⟩ := readMessage_complete32 linkStep_exact32 h (hs1.within hw) (by rw [hs1.2.2]; exact hp)
      exact ⟨.link fs, _, ⟨x, ⟨tb, lb, rfl, h0, h1⟩, h2⟩, hs1.trans h3, by rw [show l = linkOf fs from h4]; rfl⟩
    · obtain ⟨s, h, rfl⟩ := (pay_iff (by intros; rfl)).1 hst
      obtain ⟨-, lb, h1, h2⟩ := (readBytes_iff32 r1 s.val r').1 ⟨s.off, h⟩
      obtain ⟨tb, h3, h4⟩ := tagged hv h2
      exact ⟨.data s.val, _, ⟨tb, lb, rfl, h3, h1⟩, h4, rfl⟩
    · rename_i t n1 n2
      obtain ⟨h, rfl⟩ := payUnknown_iff32.1 hst
      obtain ⟨u, b, h1, h2⟩ := unk_complete32 (known := [18, 10]) hv (by simp; exact ⟨n1, n2⟩) h hw hp
      exact ⟨.unk u, b, h1, h2, rfl⟩


theorem dataStep_exact32 : StepExact32 UnixFs.step32 id DataField.Enc32 DataField.apply where
  pos := by
    intro f b h
    cases f with
    | data => exact bytes_pos h
    | mtime => obtain ⟨x, h, -⟩ := h; exact bytes_pos h
    | unk => exact unkEnc_pos32 h
    | _ => exact num_pos h
  mono := by
    intro tag m r m' r' h
    unfold UnixFs.step32 at h
    split at h
    · obtain ⟨n, b, -, h, -⟩ := (pay32_iff (by intros; rfl)).1 h; exact h.mono
    · obtain ⟨s, h, -⟩ := (pay_iff (by intros; rfl)).1 h; exact readBytes_mono32 h
    · obtain ⟨n, b, -, h, -⟩ := (pay64_iff (by intros; rfl)).1 h; exact h.mono
    · obtain ⟨n, b, -, h, -⟩ := (pay64_iff (by intros; rfl)).1 h; exact h.mono
    · obtain ⟨n, b, -, h, -⟩ := (pay64_iff (by intros; rfl)).1 h; exact h.mono
    · obtain ⟨n, b, -, h, -⟩ := (pay64_iff (by intros; rfl)).1 h; exact h.mono
    · obtain ⟨n, b, -, h, -⟩ := (pay32_iff (by intros; rfl)).1 h; exact h.mono
    · obtain ⟨s, h, -⟩ := (pay_iff (by intros; rfl)).1 h; exact readMessage_mono32 timeStep_exact32 h
    · exact readUnknown_mono32 (payUnknown_iff32.1 h).1
  sound := by
    intro f b h m r r' hs hp hu
    cases f with
    | type n =>
      obtain ⟨r1, nb, e1, e2, e3⟩ := num_sound h hs
      exact ⟨8, r1, _, e1, (pay32_iff (by intros; rfl)).2 ⟨n, nb, e2, e3, rfl⟩, by
        show _ = DataField.apply m (.type n)
        rw [DataField.apply, ← typeOf_eq, num32_mod e2]; rfl⟩
    | data x =>
      obtain ⟨r1, lb, e1, e2, e3⟩ := bytes_sound h hs
      obtain ⟨o, e4⟩ := (readBytes_iff32 ..).2 ⟨by omega, lb, e2, e3⟩
      exact ⟨18, r1, _, e1, (pay_iff (by intros; rfl)).2 ⟨_, e4, rfl⟩, rfl⟩
    | filesize n =>
      obtain ⟨r1, nb, e1, e2, e3⟩ := num_sound h hs
      exact ⟨24, r1, _, e1, (pay64_iff (by intros; rfl)).2 ⟨n, nb, e2, e3, rfl⟩, rfl⟩
    | blocksize n =>
      obtain ⟨r1, nb, e1, e2, e3⟩ := num_sound h hs
      exact ⟨32, r1, _, e1, (pay64_iff (by intros; rfl)).2 ⟨n, nb, e2, e3, rfl⟩, rfl⟩
    | hashType n =>
      obtain ⟨r1, nb, e1, e2, e3⟩ := num_sound h hs
      exact ⟨40, r1, _, e1, (pay64_iff (by intros; rfl)).2 ⟨n, nb, e2, e3, rfl⟩, rfl⟩
    | fanout n =>
      obtain ⟨r1, nb, e1, e2, e3⟩ := num_sound h hs
      exact ⟨48, r1, _, e1, (pay64_iff (by intros; rfl)).2 ⟨n, nb, e2, e3, rfl⟩, rfl⟩
    | mode n =>
      obtain ⟨r1, nb, e1, e2, e3⟩ := num_sound h hs
      exact ⟨56, r1, _, e1, (pay32_iff (by intros; rfl)).2 ⟨n, nb, e2, e3, rfl⟩, by
        show _ = DataField.apply m (.mode n)
        rw [DataField.apply, num32_mod e2]; rfl⟩
    | mtime fs =>
      obtain ⟨x, hx, hf⟩ := h
      obtain ⟨r1, lb, e1, e2, e3⟩ := bytes_sound hx hs
      obtain ⟨l, e4, e5⟩ := readMessage_sound32 timeStep_exact32 {} e2 hf e3 (by omega)
      exact ⟨66, r1, _, e1, (pay_iff (by intros; rfl)).2 ⟨l, e4, rfl⟩, by rw [show l = fs.foldl TimeField.apply {} from e5]; rfl⟩
    | unk u =>
      obtain ⟨hk, r1, e1, e2⟩ := unk_sound32 h hs hp hu
      refine ⟨_, r1, m, e1, ?_, rfl⟩
      unfold UnixFs.step32
      split <;> first | (exfalso; simp_all; done) | exact payUnknown_iff32.2 ⟨e2, rfl⟩
  complete := by
    intro tag m r r1 m' r' hv hst hw hp
    unfold UnixFs.step32 at hst
    split at hst
    · obtain ⟨n, nb, h1, h2, rfl⟩ := (pay32_iff (by intros; rfl)).1 hst
      obtain ⟨tb, h3, h4⟩ := tagged hv h2
      exact ⟨.type n, _, ⟨tb, nb, rfl, h3, h1⟩, h4, by
        show _ = DataField.apply m (.type n)
        rw [DataField.apply, ← typeOf_eq, num32_mod h1]; rfl⟩
    · obtain ⟨s, h, rfl⟩ := (pay_iff (by intros; rfl)).1 hst
      obtain ⟨-, lb, h1, h2⟩ := (readBytes_iff32 r1 s.val r').1 ⟨s.off, h⟩
      obtain ⟨tb, h3, h4⟩ := tagged hv h2
      exact ⟨.data s.val, _, ⟨tb, lb, rfl, h3, h1⟩, h4, rfl⟩
    · obtain ⟨n, nb, h1, h2, rfl⟩ := (pay64_iff (by intros; rfl)).1 hst
      obtain ⟨tb, h3, h4⟩ := tagged hv h2
      exact ⟨.filesize n, _, ⟨tb, nb, rfl, h3, h1⟩, h4, rfl⟩
    · obtain ⟨n, nb, h1, h2, rfl⟩ := (pay64_iff (by intros; rfl)).1 hst
      obtain ⟨tb, h3, h4⟩ := tagged hv h2
      exact ⟨.blocksize n, _, ⟨tb, nb, rfl, h3, h1⟩, h4, rfl⟩
    · obtain ⟨n, nb, h1, h2, rfl⟩ := (pay64_iff (by intros; rfl)).1 hst
      obtain ⟨tb, h3, h4⟩ := tagged hv h2
      exact ⟨.hashType n, _, ⟨tb, nb, rfl, h3, h1⟩, h4, rfl⟩
    · obtain ⟨n, nb, h1, h2, rfl⟩ := (pay64_iff (by intros; rfl)).1 hst
      obtain ⟨tb, h3, h4⟩ := tagged hv h2
      exact ⟨.fanout n, _, ⟨tb, nb, rfl, h3, h1⟩, h4, rfl⟩
    · obtain ⟨n, nb, h1, h2, rfl⟩ := (pay32_iff (by intros; rfl)).1 hst
      obtain ⟨tb, h3, h4⟩ := tagged hv h2
      exact ⟨.mode n, _, ⟨tb, nb, rfl, h3, h1⟩, h4, by
        show _ = DataField.apply m (.mode n)
        rw [DataField.apply, num32_mod h1]; rfl⟩
    · obtain ⟨l, h, rfl⟩ := (pay_iff (by intros; rfl)).1 hst
      obtain ⟨tb, h0, hs1⟩ := (readVarint32_iff ..).1 hv
      obtain ⟨fs, x, lb, h1, h2, h3, h4⟩ := readMessage_complete32 timeStep_exact32 h (hs1.within hw) (by rw [hs1.2.2]; exact hp)
      exact ⟨.mtime fs, _, ⟨x, ⟨tb, lb, rfl, h0, h1⟩, h2⟩, hs1.trans h3, by rw [show l = fs.foldl TimeField.apply {} from h4]; rfl⟩
    · rename_i t n1 n2 n3 n4 n5 n6 n7 n8
      obtain ⟨h, rfl⟩ := payUnknown_iff32.1 hst
      obtain ⟨u, b, h1, h2⟩ := unk_complete32 (known := [8, 18, 24, 32, 40, 48, 56, 66]) hv
        (by simp; exact ⟨n1, n2, n3, n4, n5, n6, n7, n8⟩) h hw hp
      exact ⟨.unk u, b, h1, h2, rfl⟩


theorem node_iff32 (b : Bytes) (hb : b.length < U32) (ls : List PBLink) (d : Option Bytes) :
    (∃ n, PBNode.tryFrom32 b = .ok n ∧ n.Links = ls ∧ n.Data.map (·.val) = d) ↔ ∃ ns, IsNode32 b ns ∧ nodeLinks ns = ls ∧ nodeData ns = d := by
  have h := parseMessage_iff32 nodeStep_exact32 {} b hb (ls, d)
  constructor
  · rintro ⟨n, h1, h2, h3⟩
    obtain ⟨ns, e1, e2⟩ := h.1 ⟨n, h1, by rw [PBNode.view, h2, h3]⟩
    rw [applyView_fold] at e2
    simp only [PBNode.view, List.nil_append, Option.map_none, Option.or_none, Prod.mk.injEq] at e2
    exact ⟨ns, e1, e2.1.symm, e2.2.symm⟩
  · rintro ⟨ns, h1, h2, h3⟩
    obtain ⟨n, e1, e2⟩ := h.2 ⟨ns, h1, by rw [applyView_fold, h2, h3]; simp [PBNode.view]⟩
    simp only [PBNode.view, Prod.mk.injEq] at e2
    exact ⟨n, e1, e2.1, e2.2⟩

theorem unixFs_iff32 (b : Bytes) (hb : b.length < U32) (m : UnixFs) : UnixFs.tryFrom32 (some b) = .ok m ↔ ∃ ds, IsUnixFs32 b ds ∧ m = unixFsOf ds := by
  have h := parseMessage_iff32 dataStep_exact32 {} b hb m
  constructor
  · intro h'
    exact h.1 ⟨m, h', rfl⟩
  · intro h'
    obtain ⟨m', h1, h2⟩ := h.2 h'
    have : m' = m := h2
    subst this
    exact h1

end Verif
