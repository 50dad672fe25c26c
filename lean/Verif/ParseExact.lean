import Verif.Spec.Loose
import Verif.TextLemmas
import Verif.CodecLemmas
/-
The readers accept exactly the sequences of fields of `Spec/Loose.lean`.
-/
namespace Verif
open Spec

theorem decVarintF_iff (k : Nat) (r : Bytes) (v l : Nat) (t : Bytes) :
    decVarintF k r = .ok (v, l, t) ↔ ∃ b, Groups b v ∧ b.length = l ∧ l ≤ k ∧ r = b ++ t := by
  induction k generalizing r v l with
  | zero =>
    simp only [decVarintF]
    constructor
    · intro h; cases h
    · rintro ⟨b, hg, h1, h2, -⟩
      have : b = [] := List.length_eq_zero_iff.1 (by omega)
      subst this; cases hg
  | succ k ih =>
    cases r with
    | nil =>
      simp only [decVarintF]
      constructor
      · intro h; cases h
      · rintro ⟨b, hg, -, -, h⟩
        have := (List.append_eq_nil_iff.1 h.symm).1
        subst this; cases hg
    | cons x r =>
      simp only [decVarintF]
      by_cases hx : x.toNat < 128
      · rw [if_pos hx]
        constructor
        · intro h; cases h; exact ⟨[x], .last x hx, rfl, by omega, rfl⟩
        · rintro ⟨b, hg, h1, h2, h⟩
          cases hg with
          | last y hy => cases h; subst h1; rfl
          | more y b v hy hg => cases h; omega
      · rw [if_neg hx]
        constructor
        · intro h
          cases hd : decVarintF k r with
          | error e => rw [hd] at h; cases h
          | ok p =>
            obtain ⟨v', l', t'⟩ := p
            rw [hd] at h; cases h
            obtain ⟨b, hg, h1, h2, rfl⟩ := (ih _ _ _).1 hd
            exact ⟨x :: b, .more x b v' (by omega) hg, by simp [h1], by omega, rfl⟩
        · rintro ⟨b, hg, h1, h2, h⟩
          cases hg with
          | last y hy => cases h; omega
          | more y b v' hy hg =>
            cases h
            simp only [List.length_cons] at h1
            have hd := (ih (b ++ t) v' (l - 1)).2 ⟨b, hg, by omega, by omega, rfl⟩
            rw [show List.append b t = b ++ t from rfl, hd]
            simp only [Except.ok.injEq, Prod.mk.injEq, true_and, and_true]; omega

/-- What a successful read does to the reader: it goes on after `b`. -/
def Reader.Skips (r : Reader) (b : Bytes) (r' : Reader) : Prop := r.rest = b ++ r'.rest ∧ r'.pos = r.pos + b.length ∧ r'.stop = r.stop

theorem Reader.Skips.trans {r r1 r2 : Reader} {b c : Bytes} (h : r.Skips b r1) (h' : r1.Skips c r2) : r.Skips (b ++ c) r2 :=
  ⟨by rw [h.1, h'.1, List.append_assoc], by rw [h'.2.1, h.2.1, List.length_append]; omega, h'.2.2.trans h.2.2⟩

theorem Reader.skips_to (pos stop : Nat) (b t : Bytes) : Reader.Skips ⟨pos, stop, b ++ t⟩ b ⟨pos + b.length, stop, t⟩ := ⟨rfl, rfl, rfl⟩

theorem Reader.ext' {r r' : Reader} (h1 : r.pos = r'.pos) (h2 : r.stop = r'.stop) (h3 : r.rest = r'.rest) : r = r' := by
  cases r; cases r'; cases h1; cases h2; cases h3; rfl

theorem readVarint32_iff (r : Reader) (n : Nat) (r' : Reader) :
    r.readVarint32 = .ok (n, r') ↔ ∃ b, Num32 b n ∧ r.Skips b r' := by
  unfold Reader.readVarint32
  constructor
  · intro h
    cases hd : decVarintF 10 r.rest with
    | error e => rw [hd] at h; cases h
    | ok p =>
      obtain ⟨v, l, t⟩ := p
      rw [hd] at h; cases h
      obtain ⟨b, hg, h1, h2, h3⟩ := (decVarintF_iff ..).1 hd
      exact ⟨b, ⟨v, ⟨by omega, hg⟩, rfl⟩, h3, by simp [h1], rfl⟩
  · rintro ⟨b, ⟨v, ⟨hl, hg⟩, rfl⟩, h1, h2, h3⟩
    rw [(decVarintF_iff 10 r.rest v b.length r'.rest).2 ⟨b, hg, rfl, hl, h1⟩]
    simp only [Except.ok.injEq, Prod.mk.injEq, true_and]
    exact Reader.ext' h2.symm h3.symm rfl

theorem readVarint64_iff (r : Reader) (n : Nat) (r' : Reader) :
    r.readVarint64 = .ok (n, r') ↔ ∃ b, Num64 b n ∧ r.Skips b r' := by
  unfold Reader.readVarint64
  constructor
  · intro h
    cases hd : decVarintF 10 r.rest with
    | error e => rw [hd] at h; cases h
    | ok p =>
      obtain ⟨v, l, t⟩ := p
      rw [hd] at h; cases h
      obtain ⟨b, hg, h1, h2, h3⟩ := (decVarintF_iff ..).1 hd
      exact ⟨b, ⟨v, ⟨by omega, hg⟩, rfl⟩, h3, by simp [h1], rfl⟩
  · rintro ⟨b, ⟨v, ⟨hl, hg⟩, rfl⟩, h1, h2, h3⟩
    rw [(decVarintF_iff 10 r.rest v b.length r'.rest).2 ⟨b, hg, rfl, hl, h1⟩]
    simp only [Except.ok.injEq, Prod.mk.injEq, true_and]
    exact Reader.ext' h2.symm h3.symm rfl

theorem readBytes_iff (r : Reader) (s : Bytes) (r' : Reader) :
    (∃ o, r.readBytes = .ok (⟨o, s⟩, r')) ↔ ∃ lb, Num32 lb s.length ∧ r.Skips (lb ++ s) r' := by
  unfold Reader.readBytes
  constructor
  · rintro ⟨o, h⟩
    cases hv : r.readVarint32 with
    | error e => rw [hv] at h; cases h
    | ok p =>
      obtain ⟨n, r1⟩ := p
      rw [hv] at h
      simp only [except_ok_bind] at h
      by_cases hn : n ≤ r1.rest.length
      · rw [if_pos hn] at h
        cases h
        obtain ⟨b, hb, hs⟩ := (readVarint32_iff ..).1 hv
        have hlen : (r1.rest.take n).length = n := by rw [List.length_take]; omega
        refine ⟨b, by rw [hlen]; exact hb, hs.trans ⟨by simp, by simp only [hlen], rfl⟩⟩
      · rw [if_neg hn] at h; cases h
  · rintro ⟨lb, hn, h1, h2, h3⟩
    rw [List.append_assoc] at h1
    rw [List.length_append] at h2
    have hv := (readVarint32_iff r s.length ⟨r.pos + lb.length, r.stop, s ++ r'.rest⟩).2 ⟨lb, hn, h1, rfl, rfl⟩
    rw [hv]
    simp only [except_ok_bind]
    rw [if_pos (by simp)]
    refine ⟨r.pos + lb.length, ?_⟩
    simp only [List.take_left, Except.ok.injEq, Prod.mk.injEq, true_and, List.drop_left]
    exact Reader.ext' (by simp only; omega) h3.symm rfl

theorem readString_iff (r : Reader) (s : Bytes) (r' : Reader) :
    r.readString = .ok (s, r') ↔ validUtf8 s = true ∧ ∃ lb, Num32 lb s.length ∧ r.Skips (lb ++ s) r' := by
  rw [← readBytes_iff]
  unfold Reader.readString
  constructor
  · intro h
    cases hb : r.readBytes with
    | error e => rw [hb] at h; cases h
    | ok p =>
      obtain ⟨⟨o, x⟩, r1⟩ := p
      rw [hb] at h
      simp only [except_ok_bind] at h
      by_cases hu : validUtf8 x = true
      · rw [if_pos hu] at h; cases h; exact ⟨hu, o, rfl⟩
      · rw [if_neg hu] at h; cases h
  · rintro ⟨hu, o, h⟩
    rw [h]; simp only [except_ok_bind, hu, if_true]

theorem readFixed32_iff (r : Reader) (n : Nat) (r' : Reader) :
    r.readFixed32 = .ok (n, r') ↔ ∃ p q x s, le32 p q x s = n ∧ r.Skips [p, q, x, s] r' := by
  unfold Reader.readFixed32
  obtain ⟨pos, stop, rest⟩ := r
  constructor
  · intro h
    match rest, h with
    | a :: b :: c :: d :: t, h => cases h; exact ⟨a, b, c, d, rfl, rfl, rfl, rfl⟩
    | [], h => cases h
    | [_], h => cases h
    | [_, _], h => cases h
    | [_, _, _], h => cases h
  · rintro ⟨p, q, x, s, rfl, h1, h2, h3⟩
    simp only at h1
    subst h1
    simp only [List.cons_append, List.nil_append, Except.ok.injEq, Prod.mk.injEq, true_and]
    exact Reader.ext' h2.symm h3.symm rfl

/-- The window of the reader is inside the buffer. -/
def Reader.Within (r : Reader) : Prop := r.stop ≤ r.pos + r.rest.length

theorem Reader.Skips.within {r r' : Reader} {b : Bytes} (h : r.Skips b r') (hw : r.Within) : r'.Within := by
  unfold Reader.Within at *
  rw [h.2.1, h.2.2]
  rw [h.1, List.length_append] at hw
  omega

theorem drop_skips (r : Reader) (n : Nat) (h : r.pos + n ≤ r.stop) (hw : r.Within) :
    (r.rest.take n).length = n ∧ r.Skips (r.rest.take n) { r with pos := r.pos + n, rest := r.rest.drop n } := by
  unfold Reader.Within at hw
  have : (r.rest.take n).length = n := by rw [List.length_take]; omega
  exact ⟨this, by simp, by simp only [this], rfl⟩

theorem readUnknown_mono {r r' : Reader} {tag : Nat} (h : r.readUnknown tag = .ok r') : r.pos ≤ r'.pos ∧ r'.stop = r.stop := by
  unfold Reader.readUnknown at h
  split at h
  · cases hv : r.readVarint64 with
    | error e => rw [hv] at h; cases h
    | ok p =>
      rw [hv] at h; cases h
      obtain ⟨b, -, hs⟩ := (readVarint64_iff ..).1 hv
      exact ⟨by rw [hs.2.1]; omega, hs.2.2⟩
  · cases h; exact ⟨by simp only; omega, rfl⟩
  · cases hv : r.readVarint64 with
    | error e => rw [hv] at h; cases h
    | ok p =>
      obtain ⟨len, r1⟩ := p
      rw [hv] at h
      obtain ⟨b, -, hs⟩ := (readVarint64_iff ..).1 hv
      have := hs.2.1
      simp only [except_ok_bind] at h
      split at h
      · cases h
      · split at h
        · cases h
        · cases h; exact ⟨by simp only; omega, hs.2.2⟩
  · cases h; exact ⟨by simp only; omega, rfl⟩
  all_goals cases h

theorem readUnknown_complete {r r' : Reader} {tag : Nat} (h : r.readUnknown tag = .ok r') (hw : r.Within) (hp : r'.pos ≤ r.stop) :
    ∃ u b, Unk.tag u = tag ∧ u.payload.Enc b ∧ r.Skips b r' := by
  unfold Reader.readUnknown at h
  split at h
  · rename_i ht
    cases hv : r.readVarint64 with
    | error e => rw [hv] at h; cases h
    | ok p =>
      rw [hv] at h; cases h
      obtain ⟨b, hn, hs⟩ := (readVarint64_iff ..).1 hv
      exact ⟨⟨tag / 8, .varint p.1⟩, b, by simp only [Unk.tag]; omega, .varint hn, hs⟩
  · rename_i ht
    cases h
    obtain ⟨h1, h2⟩ := drop_skips r 8 hp hw
    exact ⟨⟨tag / 8, .fixed64 _⟩, _, by simp only [Unk.tag]; omega, .fixed64 h1, h2⟩
  · rename_i ht
    cases hv : r.readVarint64 with
    | error e => rw [hv] at h; cases h
    | ok p =>
      obtain ⟨len, r1⟩ := p
      rw [hv] at h
      obtain ⟨b, hn, hs⟩ := (readVarint64_iff ..).1 hv
      simp only [except_ok_bind] at h
      split at h
      · cases h
      · split at h
        · cases h
        · cases h
          obtain ⟨h1, h2⟩ := drop_skips r1 len (by rw [hs.2.2]; exact hp) (hs.within hw)
          refine ⟨⟨tag / 8, .bytes (r1.rest.take len)⟩, _, by simp only [Unk.tag]; omega, .bytes (lb := b) (by rw [h1]; exact hn), hs.trans h2⟩
  · rename_i ht
    cases h
    obtain ⟨h1, h2⟩ := drop_skips r 4 hp hw
    exact ⟨⟨tag / 8, .fixed32 _⟩, _, by simp only [Unk.tag]; omega, .fixed32 h1, h2⟩
  all_goals cases h

theorem readUnknown_sound {r r' : Reader} {u : Unk} {b : Bytes} (h : u.payload.Enc b) (hs : r.Skips b r') (hp : r'.pos ≤ r.stop) :
    r.readUnknown u.tag = .ok r' := by
  obtain ⟨num, pl⟩ := u
  obtain ⟨h1, h2, h3⟩ := hs
  simp only at h
  cases h with
  | varint hn =>
    rename_i n
    have ht : (Unk.mk num (.varint n)).tag % 8 = 0 := by simp [Unk.tag]
    unfold Reader.readUnknown
    rw [ht]
    simp only
    rw [(readVarint64_iff ..).2 ⟨b, hn, h1, h2, h3⟩]; rfl
  | fixed64 hl =>
    have ht : (Unk.mk num (.fixed64 b)).tag % 8 = 1 := by simp [Unk.tag]
    unfold Reader.readUnknown
    rw [ht]
    simp only [Except.ok.injEq]
    exact Reader.ext' (by simp only; omega) h3.symm (by simp only; rw [h1, ← hl, List.drop_left])
  | bytes hn =>
    rename_i x lb
    have ht : (Unk.mk num (.bytes x)).tag % 8 = 2 := by simp [Unk.tag]
    rw [List.append_assoc] at h1
    rw [List.length_append] at h2
    unfold Reader.readUnknown
    rw [ht]
    simp only
    rw [(readVarint64_iff r x.length ⟨r.pos + lb.length, r.stop, x ++ r'.rest⟩).2 ⟨lb, hn, h1, rfl, rfl⟩]
    simp only [except_ok_bind]
    rw [if_neg (by omega), if_neg (by omega)]
    simp only [Except.ok.injEq, List.drop_left]
    exact Reader.ext' (by simp only; omega) h3.symm rfl
  | fixed32 hl =>
    have ht : (Unk.mk num (.fixed32 b)).tag % 8 = 5 := by simp [Unk.tag]
    unfold Reader.readUnknown
    rw [ht]
    simp only [Except.ok.injEq]
    exact Reader.ext' (by simp only; omega) h3.symm (by simp only; rw [h1, ← hl, List.drop_left])

theorem Spec.Groups.pos {b v} (h : Groups b v) : 0 < b.length := by cases h <;> simp
theorem Num32_pos {b n} (h : Num32 b n) : 0 < b.length := by obtain ⟨v, h, -⟩ := h; exact h.2.pos
theorem Num32_lt {b n} (h : Num32 b n) : n < U32 := by obtain ⟨v, -, rfl⟩ := h; exact Nat.mod_lt _ (by decide)

/-! ### loops -/

/-- One field is read exactly as specified; `view` is what is specified of the message. -/
structure StepExact {M V F : Type} (step : Nat → M → Reader → Except PbError (M × Reader)) (view : M → V) (E : F → Bytes → Prop)
    (apply : V → F → V) : Prop where
  pos : ∀ {f b}, E f b → 0 < b.length
  mono : ∀ {tag : Nat} {m : M} {r : Reader} {m' : M} {r' : Reader}, step tag m r = .ok (m', r') → r.pos ≤ r'.pos ∧ r'.stop = r.stop
  sound : ∀ {f b}, E f b → ∀ (m : M) (r r' : Reader), r.Skips b r' → r'.pos ≤ r.stop →
    ∃ tag r1 m', r.readVarint32 = .ok (tag, r1) ∧ step tag m r1 = .ok (m', r') ∧ view m' = apply (view m) f
  complete : ∀ {tag : Nat} {m : M} {r r1 : Reader} {m' : M} {r' : Reader}, r.readVarint32 = .ok (tag, r1) → step tag m r1 = .ok (m', r') → r.Within → r'.pos ≤ r.stop →
    ∃ f b, E f b ∧ r.Skips b r' ∧ view m' = apply (view m) f

section
variable {M V F : Type} {step : Nat → M → Reader → Except PbError (M × Reader)} {view : M → V} {E : F → Bytes → Prop}
  {apply : V → F → V}

theorem readLoop_mono (hs : StepExact step view E apply) {fuel : Nat} {m m' : M} {r r' : Reader}
    (h : readLoop step fuel m r = .ok (m', r')) : r.pos ≤ r.stop ∧ r'.pos = r.stop ∧ r'.stop = r.stop := by
  induction fuel generalizing m r with
  | zero => cases h
  | succ fuel ih =>
    rw [readLoop] at h
    by_cases he : r.pos = r.stop
    · rw [if_pos he] at h; cases h; exact ⟨by omega, he, rfl⟩
    · rw [if_neg he] at h
      cases hv : r.readVarint32 with
      | error e => rw [hv] at h; cases h
      | ok p =>
        obtain ⟨tag, r1⟩ := p
        rw [hv] at h
        simp only [except_ok_bind] at h
        cases hst : step tag m r1 with
        | error e => rw [hst] at h; cases h
        | ok q =>
          obtain ⟨m2, r2⟩ := q
          rw [hst] at h
          simp only [except_ok_bind] at h
          obtain ⟨i1, i2, i3⟩ := ih h
          obtain ⟨j1, j2⟩ := hs.mono hst
          obtain ⟨b, -, k⟩ := (readVarint32_iff ..).1 hv
          have := k.2.1; have := k.2.2
          exact ⟨by omega, by omega, by omega⟩

theorem readLoop_complete (hs : StepExact step view E apply) {fuel : Nat} {m m' : M} {r r' : Reader} (hw : r.Within)
    (h : readLoop step fuel m r = .ok (m', r')) :
    ∃ fs b, Fields E fs b ∧ r.Skips b r' ∧ r'.pos = r.stop ∧ view m' = fs.foldl apply (view m) := by
  induction fuel generalizing m r with
  | zero => cases h
  | succ fuel ih =>
    rw [readLoop] at h
    by_cases he : r.pos = r.stop
    · rw [if_pos he] at h; cases h; exact ⟨[], [], .nil, ⟨rfl, rfl, rfl⟩, he, rfl⟩
    · rw [if_neg he] at h
      cases hv : r.readVarint32 with
      | error e => rw [hv] at h; cases h
      | ok p =>
        obtain ⟨tag, r1⟩ := p
        rw [hv] at h
        simp only [except_ok_bind] at h
        cases hst : step tag m r1 with
        | error e => rw [hst] at h; cases h
        | ok q =>
          obtain ⟨m2, r2⟩ := q
          rw [hst] at h
          simp only [except_ok_bind] at h
          obtain ⟨i1, i2, i3⟩ := readLoop_mono hs h
          obtain ⟨j1, j2⟩ := hs.mono hst
          obtain ⟨b0, -, k⟩ := (readVarint32_iff ..).1 hv
          have := k.2.2
          obtain ⟨f, b, e1, e2, e3⟩ := hs.complete hv hst hw (by omega)
          obtain ⟨fs, bs, g1, g2, g3, g4⟩ := ih (e2.within hw) h
          exact ⟨f :: fs, b ++ bs, .cons e1 g1, e2.trans g2, by omega, by rw [g4, e3]; rfl⟩

theorem readLoop_sound (hs : StepExact step view E apply) {fs : List F} {b : Bytes} (hf : Fields E fs b) :
    ∀ (fuel : Nat) (m : M) (r r' : Reader), r.Skips b r' → r'.pos = r.stop → b.length < fuel →
      ∃ m', readLoop step fuel m r = .ok (m', r') ∧ view m' = fs.foldl apply (view m) := by
  induction hf with
  | nil =>
    intro fuel m r r' h1 h2 h3
    obtain ⟨k, rfl⟩ : ∃ k, fuel = k + 1 := ⟨fuel - 1, by simp at h3; omega⟩
    obtain ⟨a1, a2, a3⟩ := h1
    have he : r' = r := Reader.ext' (by simpa using a2) a3 (by rw [a1]; rfl)
    subst he
    exact ⟨m, by rw [readLoop, if_pos h2], rfl⟩
  | @cons f fs b bs hE _ ih =>
    intro fuel m r r' h1 h2 h3
    have hpos := hs.pos hE
    rw [List.length_append] at h3
    obtain ⟨k, rfl⟩ : ∃ k, fuel = k + 1 := ⟨fuel - 1, by omega⟩
    obtain ⟨a1, a2, a3⟩ := h1
    rw [List.append_assoc] at a1
    rw [List.length_append] at a2
    obtain ⟨tag, r1, m1, e1, e2, e3⟩ := hs.sound hE m r ⟨r.pos + b.length, r.stop, bs ++ r'.rest⟩ ⟨a1, rfl, rfl⟩ (by simp only; omega)
    obtain ⟨m', g1, g2⟩ := ih k m1 ⟨r.pos + b.length, r.stop, bs ++ r'.rest⟩ r' ⟨rfl, by simp only; omega, a3⟩ (by simp only; omega) (by omega)
    refine ⟨m', ?_, by rw [g2, e3]; rfl⟩
    rw [readLoop, if_neg (by omega), e1]
    simp only [except_ok_bind, e2, g1]

theorem fromReader_iff (hs : StepExact step view E apply) (dflt : M) (r : Reader) (hw : r.Within) (v : V) (r' : Reader) :
    (∃ m', fromReader step dflt r = .ok (m', r') ∧ view m' = v) ↔
      ∃ fs b, Fields E fs b ∧ r.Skips b r' ∧ r'.pos = r.stop ∧ v = fs.foldl apply (view dflt) := by
  unfold fromReader
  constructor
  · rintro ⟨m', h, rfl⟩
    exact readLoop_complete hs hw h
  · rintro ⟨fs, b, h1, h2, h3, rfl⟩
    refine readLoop_sound hs h1 _ dflt r r' h2 h3 ?_
    rw [h2.1, List.length_append]; omega

theorem readMessage_mono (hs : StepExact step view E apply) {m' dflt : M} {r r' : Reader}
    (h : r.readMessage step dflt = .ok (m', r')) : r.pos ≤ r'.pos ∧ r'.stop = r.stop := by
  unfold Reader.readMessage at h
  cases hv : r.readVarint32 with
  | error e => rw [hv] at h; cases h
  | ok p =>
    obtain ⟨len, r1⟩ := p
    rw [hv] at h
    simp only [except_ok_bind] at h
    obtain ⟨b, -, k1, k2, k3⟩ := (readVarint32_iff ..).1 hv
    cases hf : fromReader step dflt { r1 with stop := r1.pos + len } with
    | error e => rw [hf] at h; cases h
    | ok q =>
      obtain ⟨m2, r2⟩ := q
      rw [hf] at h
      cases h
      obtain ⟨-, -, e⟩ := readLoop_mono hs hf
      simp only at e ⊢
      exact ⟨by omega, k3⟩

theorem readMessage_complete (hs : StepExact step view E apply) {m' dflt : M} {r r' : Reader}
    (h : r.readMessage step dflt = .ok (m', r')) (hw : r.Within) (hp : r'.pos ≤ r.stop) :
    ∃ fs x lb, Num32 lb x.length ∧ Fields E fs x ∧ r.Skips (lb ++ x) r' ∧ view m' = fs.foldl apply (view dflt) := by
  unfold Reader.readMessage at h
  cases hv : r.readVarint32 with
  | error e => rw [hv] at h; cases h
  | ok p =>
    obtain ⟨len, r1⟩ := p
    rw [hv] at h
    simp only [except_ok_bind] at h
    obtain ⟨b, hb, hk⟩ := (readVarint32_iff ..).1 hv
    cases hf : fromReader step dflt { r1 with stop := r1.pos + len } with
    | error e => rw [hf] at h; cases h
    | ok q =>
      obtain ⟨m2, r2⟩ := q
      rw [hf] at h
      cases h
      obtain ⟨-, e1, e2⟩ := readLoop_mono hs hf
      simp only at e1 e2 hp
      have hw1 := hk.within hw
      have hw2 : Reader.Within { r1 with stop := r1.pos + len } := by
        unfold Reader.Within at hw1 ⊢
        have := hk.2.2
        simp only
        omega
      obtain ⟨fs, x, h1, ⟨h2, h3, h4⟩, h5, h6⟩ := (fromReader_iff hs dflt _ hw2 _ r2).1 ⟨_, hf, rfl⟩
      simp only at h2 h3 h4 h5
      have hl : len = x.length := by omega
      subst hl
      refine ⟨fs, x, b, hb, h1, hk.trans ⟨h2, ?_, rfl⟩, h6⟩
      simp only; omega

theorem readMessage_sound (hs : StepExact step view E apply) (dflt : M) {r r' : Reader} {fs : List F} {x lb : Bytes}
    (hl : Num32 lb x.length) (hf : Fields E fs x) (h : r.Skips (lb ++ x) r') :
    ∃ m', r.readMessage step dflt = .ok (m', r') ∧ view m' = fs.foldl apply (view dflt) := by
  obtain ⟨h1, h2, h3⟩ := h
  rw [List.append_assoc] at h1
  rw [List.length_append] at h2
  unfold Reader.readMessage
  rw [(readVarint32_iff r x.length ⟨r.pos + lb.length, r.stop, x ++ r'.rest⟩).2 ⟨lb, hl, h1, rfl, rfl⟩]
  simp only [except_ok_bind]
  obtain ⟨m', e1, e2⟩ := (fromReader_iff hs dflt ⟨r.pos + lb.length, r.pos + lb.length + x.length, x ++ r'.rest⟩
    (by unfold Reader.Within; simp only [List.length_append]; omega) _
    ⟨r.pos + lb.length + x.length, r.pos + lb.length + x.length, r'.rest⟩).2 ⟨fs, x, hf, ⟨rfl, rfl, rfl⟩, rfl, rfl⟩
  refine ⟨m', ?_, e2⟩
  rw [e1]
  simp only [except_ok_bind, Except.ok.injEq, Prod.mk.injEq, true_and]
  exact Reader.ext' (by simp only; omega) h3.symm rfl

theorem parseMessage_iff (hs : StepExact step view E apply) (dflt : M) (b : Bytes) (v : V) :
    (∃ m', parseMessage step dflt b = .ok m' ∧ view m' = v) ↔ ∃ fs, Fields E fs b ∧ v = fs.foldl apply (view dflt) := by
  have hw : (Reader.ofBytes b).Within := by unfold Reader.Within Reader.ofBytes; simp only; omega
  unfold parseMessage
  constructor
  · rintro ⟨m', h, rfl⟩
    cases hf : fromReader step dflt (Reader.ofBytes b) with
    | error e => rw [hf] at h; cases h
    | ok q =>
      obtain ⟨m2, r2⟩ := q
      rw [hf] at h
      cases h
      obtain ⟨fs, x, h1, ⟨h2, h3, h4⟩, h5, h6⟩ := (fromReader_iff hs dflt _ hw _ r2).1 ⟨_, hf, rfl⟩
      have hx : x = b := by
        simp only [Reader.ofBytes] at h2 h3 h5
        have : r2.rest = [] := by
          have := congrArg List.length h2
          rw [List.length_append] at this
          exact List.length_eq_zero_iff.1 (by omega)
        rw [h2, this, List.append_nil]
      subst hx
      exact ⟨fs, h1, h6⟩
  · rintro ⟨fs, h1, rfl⟩
    obtain ⟨m', e1, e2⟩ := (fromReader_iff hs dflt _ hw _ ⟨b.length, b.length, []⟩).2
      ⟨fs, b, h1, ⟨by simp [Reader.ofBytes], by simp [Reader.ofBytes], rfl⟩, rfl, rfl⟩
    exact ⟨m', by rw [e1]; rfl, e2⟩

end

/-! ### payloads -/

theorem Reader.Skips.split {r r' : Reader} {a b : Bytes} (h : r.Skips (a ++ b) r') : ∃ r1, r.Skips a r1 ∧ r1.Skips b r' := by
  obtain ⟨h1, h2, h3⟩ := h
  rw [List.append_assoc] at h1
  rw [List.length_append] at h2
  exact ⟨⟨r.pos + a.length, r.stop, b ++ r'.rest⟩, ⟨h1, rfl, rfl⟩, rfl, by simp only; omega, h3⟩

section
variable {M : Type} {r r' : Reader} {m' : M}

theorem pay64_iff {f : Nat → M} {k : Nat × Reader → Except PbError (M × Reader)} (hk : ∀ n r, k (n, r) = .ok (f n, r)) :
    (r.readVarint64 >>= k) = .ok (m', r') ↔ ∃ n b, Num64 b n ∧ r.Skips b r' ∧ m' = f n := by
  constructor
  · intro h
    cases hv : r.readVarint64 with
    | error e => rw [hv] at h; cases h
    | ok p =>
      obtain ⟨n, r1⟩ := p
      rw [hv, except_ok_bind, hk] at h; cases h
      obtain ⟨b, h1, h2⟩ := (readVarint64_iff ..).1 hv
      exact ⟨_, b, h1, h2, rfl⟩
  · rintro ⟨n, b, h1, h2, rfl⟩
    rw [(readVarint64_iff ..).2 ⟨b, h1, h2⟩, except_ok_bind, hk]

theorem pay32_iff {f : Nat → M} {k : Nat × Reader → Except PbError (M × Reader)} (hk : ∀ n r, k (n, r) = .ok (f n, r)) :
    (r.readVarint32 >>= k) = .ok (m', r') ↔ ∃ n b, Num32 b n ∧ r.Skips b r' ∧ m' = f n := by
  constructor
  · intro h
    cases hv : r.readVarint32 with
    | error e => rw [hv] at h; cases h
    | ok p =>
      obtain ⟨n, r1⟩ := p
      rw [hv, except_ok_bind, hk] at h; cases h
      obtain ⟨b, h1, h2⟩ := (readVarint32_iff ..).1 hv
      exact ⟨_, b, h1, h2, rfl⟩
  · rintro ⟨n, b, h1, h2, rfl⟩
    rw [(readVarint32_iff ..).2 ⟨b, h1, h2⟩, except_ok_bind, hk]

theorem payFixed_iff {f : Nat → M} {k : Nat × Reader → Except PbError (M × Reader)} (hk : ∀ n r, k (n, r) = .ok (f n, r)) :
    (r.readFixed32 >>= k) = .ok (m', r') ↔
      ∃ n b, Fixed32 b n ∧ r.Skips b r' ∧ m' = f n := by
  constructor
  · intro h
    cases hv : r.readFixed32 with
    | error e => rw [hv] at h; cases h
    | ok p =>
      obtain ⟨n, r1⟩ := p
      rw [hv, except_ok_bind, hk] at h; cases h
      obtain ⟨p, q, x, s, h1, h2⟩ := (readFixed32_iff ..).1 hv
      exact ⟨_, _, ⟨p, q, x, s, rfl, by rw [← h1, le32]; omega⟩, h2, rfl⟩
  · rintro ⟨n, b, ⟨p, q, x, s, rfl, h1⟩, h2, rfl⟩
    rw [(readFixed32_iff r n r').2 ⟨p, q, x, s, by rw [← h1, le32]; omega, h2⟩, except_ok_bind, hk]

theorem pay_iff {N : Type} {x : Except PbError (N × Reader)} {f : N → M} {k : N × Reader → Except PbError (M × Reader)}
    (hk : ∀ n r, k (n, r) = .ok (f n, r)) : (x >>= k) = .ok (m', r') ↔ ∃ n, x = .ok (n, r') ∧ m' = f n := by
  constructor
  · intro h
    cases x with
    | error e => cases h
    | ok p =>
      obtain ⟨n, r1⟩ := p
      rw [except_ok_bind, hk] at h; cases h
      exact ⟨_, rfl, rfl⟩
  · rintro ⟨s, rfl, rfl⟩
    rw [except_ok_bind, hk]

theorem payString_iff {f : Bytes → M} {k : Bytes × Reader → Except PbError (M × Reader)} (hk : ∀ n r, k (n, r) = .ok (f n, r)) :
    (r.readString >>= k) = .ok (m', r') ↔ ∃ s lb, validUtf8 s = true ∧ Num32 lb s.length ∧ r.Skips (lb ++ s) r' ∧ m' = f s := by
  rw [pay_iff hk]
  constructor
  · rintro ⟨s, h, rfl⟩
    obtain ⟨h0, b, h1, h2⟩ := (readString_iff ..).1 h
    exact ⟨_, b, h0, h1, h2, rfl⟩
  · rintro ⟨s, lb, h0, h1, h2, rfl⟩
    exact ⟨s, (readString_iff ..).2 ⟨h0, lb, h1, h2⟩, rfl⟩

theorem payUnknown_iff {tag : Nat} {m : M} : (do let r ← r.readUnknown tag; .ok (m, r)) = (.ok (m', r') : Except PbError (M × Reader)) ↔
    r.readUnknown tag = .ok r' ∧ m' = m := by
  constructor
  · intro h
    cases hv : r.readUnknown tag with
    | error e => rw [hv] at h; cases h
    | ok p => rw [hv] at h; cases h; exact ⟨rfl, rfl⟩
  · rintro ⟨h, rfl⟩
    rw [h]; rfl
end

theorem readBytes_mono {r r' : Reader} {s : Slice} (h : r.readBytes = .ok (s, r')) : r.pos ≤ r'.pos ∧ r'.stop = r.stop := by
  obtain ⟨lb, -, h1, h2, h3⟩ := (readBytes_iff r s.val r').1 ⟨s.off, h⟩
  exact ⟨by omega, h3⟩

theorem Reader.Skips.mono {r r' : Reader} {b : Bytes} (h : r.Skips b r') : r.pos ≤ r'.pos ∧ r'.stop = r.stop :=
  ⟨by rw [h.2.1]; omega, h.2.2⟩

/-- A tag and something after it. -/
theorem tagged {r r1 r' : Reader} {tag : Nat} {b : Bytes} (hv : r.readVarint32 = .ok (tag, r1)) (h : r1.Skips b r') :
    ∃ tb, Num32 tb tag ∧ r.Skips (tb ++ b) r' := by
  obtain ⟨tb, h1, h2⟩ := (readVarint32_iff ..).1 hv
  exact ⟨tb, h1, h2.trans h⟩

theorem unk_complete {known : List Nat} {r r1 r' : Reader} {tag : Nat} (hv : r.readVarint32 = .ok (tag, r1)) (hk : tag ∉ known)
    (h : r1.readUnknown tag = .ok r') (hw : r.Within) (hp : r'.pos ≤ r.stop) : ∃ u b, Unk.Enc known u b ∧ r.Skips b r' := by
  obtain ⟨tb, h1, h2⟩ := (readVarint32_iff ..).1 hv
  obtain ⟨u, b, rfl, e2, e3⟩ := readUnknown_complete h (h2.within hw) (by rw [h2.2.2]; exact hp)
  exact ⟨u, tb ++ b, ⟨hk, tb, b, rfl, h1, e2⟩, h2.trans e3⟩

theorem unk_sound {known : List Nat} {u : Unk} {b : Bytes} (h : Unk.Enc known u b) {r r' : Reader} (hs : r.Skips b r')
    (hp : r'.pos ≤ r.stop) : u.tag ∉ known ∧ ∃ r1, r.readVarint32 = .ok (u.tag, r1) ∧ r1.readUnknown u.tag = .ok r' := by
  obtain ⟨hk, tb, pb, rfl, h1, h2⟩ := h
  obtain ⟨r1, s1, s2⟩ := hs.split
  exact ⟨hk, r1, (readVarint32_iff ..).2 ⟨tb, h1, s1⟩, readUnknown_sound h2 s2 (by rw [s1.2.2]; exact hp)⟩

theorem num_sound {tag n : Nat} {Num : Bytes → Nat → Prop} {b : Bytes} (h : NumField tag Num n b) {r r' : Reader} (hs : r.Skips b r') :
    ∃ r1 nb, r.readVarint32 = .ok (tag, r1) ∧ Num nb n ∧ r1.Skips nb r' := by
  obtain ⟨tb, nb, rfl, h1, h2⟩ := h
  obtain ⟨r1, s1, s2⟩ := hs.split
  exact ⟨r1, nb, (readVarint32_iff ..).2 ⟨tb, h1, s1⟩, h2, s2⟩

theorem bytes_sound {tag : Nat} {x : Bytes} {b : Bytes} (h : BytesField tag x b) {r r' : Reader} (hs : r.Skips b r') :
    ∃ r1 lb, r.readVarint32 = .ok (tag, r1) ∧ Num32 lb x.length ∧ r1.Skips (lb ++ x) r' := by
  obtain ⟨tb, lb, rfl, h1, h2⟩ := h
  obtain ⟨r1, s1, s2⟩ := hs.split
  exact ⟨r1, lb, (readVarint32_iff ..).2 ⟨tb, h1, s1⟩, h2, s2⟩

theorem num_pos {tag n : Nat} {Num : Bytes → Nat → Prop} {b : Bytes} (h : NumField tag Num n b) : 0 < b.length := by
  obtain ⟨tb, nb, rfl, h1, -⟩ := h
  have := Num32_pos h1; rw [List.length_append]; omega
theorem bytes_pos {tag : Nat} {x b : Bytes} (h : BytesField tag x b) : 0 < b.length := by
  obtain ⟨tb, nb, rfl, h1, -⟩ := h
  have := Num32_pos h1; rw [List.length_append]; omega
theorem unkEnc_pos {known : List Nat} {u : Unk} {b : Bytes} (h : Unk.Enc known u b) : 0 < b.length := by
  obtain ⟨-, tb, nb, rfl, h1, -⟩ := h
  have := Num32_pos h1; rw [List.length_append]; omega

/-! ### the messages -/

theorem linkStep_exact : StepExact PBLink.step id LinkField.Enc LinkField.apply where
  pos := by
    intro f b h
    cases f with
    | hash => exact bytes_pos h
    | name => exact bytes_pos h.1
    | tsize => exact num_pos h
    | unk => exact unkEnc_pos h
  mono := by
    intro tag m r m' r' h
    unfold PBLink.step at h
    split at h
    · obtain ⟨s, h, -⟩ := (pay_iff (by intros; rfl)).1 h; exact readBytes_mono h
    · obtain ⟨s, lb, -, -, h, -⟩ := (payString_iff (by intros; rfl)).1 h; exact h.mono
    · obtain ⟨n, b, -, h, -⟩ := (pay64_iff (by intros; rfl)).1 h; exact h.mono
    · exact readUnknown_mono (payUnknown_iff.1 h).1
  sound := by
    intro f b h m r r' hs hp
    cases f with
    | hash x =>
      obtain ⟨r1, lb, e1, e2, e3⟩ := bytes_sound h hs
      obtain ⟨o, e4⟩ := (readBytes_iff ..).2 ⟨lb, e2, e3⟩
      exact ⟨10, r1, _, e1, (pay_iff (by intros; rfl)).2 ⟨_, e4, rfl⟩, rfl⟩
    | name x =>
      obtain ⟨r1, lb, e1, e2, e3⟩ := bytes_sound h.1 hs
      exact ⟨18, r1, _, e1, (payString_iff (by intros; rfl)).2 ⟨x, lb, (validUtf8_iff _).2 h.2, e2, e3, rfl⟩, rfl⟩
    | tsize n =>
      obtain ⟨r1, nb, e1, e2, e3⟩ := num_sound h hs
      exact ⟨24, r1, _, e1, (pay64_iff (by intros; rfl)).2 ⟨n, nb, e2, e3, rfl⟩, rfl⟩
    | unk u =>
      obtain ⟨hk, r1, e1, e2⟩ := unk_sound h hs hp
      refine ⟨_, r1, m, e1, ?_, rfl⟩
      unfold PBLink.step
      split <;> first | (exfalso; simp_all; done) | exact payUnknown_iff.2 ⟨e2, rfl⟩
  complete := by
    intro tag m r r1 m' r' hv hst hw hp
    unfold PBLink.step at hst
    split at hst
    · obtain ⟨s, h, rfl⟩ := (pay_iff (by intros; rfl)).1 hst
      obtain ⟨lb, h1, h2⟩ := (readBytes_iff r1 s.val r').1 ⟨s.off, h⟩
      obtain ⟨tb, h3, h4⟩ := tagged hv h2
      exact ⟨.hash s.val, _, ⟨tb, lb, rfl, h3, h1⟩, h4, rfl⟩
    · obtain ⟨s, lb, h0, h1, h2, rfl⟩ := (payString_iff (by intros; rfl)).1 hst
      obtain ⟨tb, h3, h4⟩ := tagged hv h2
      exact ⟨.name s, _, ⟨⟨tb, lb, rfl, h3, h1⟩, (validUtf8_iff _).1 h0⟩, h4, rfl⟩
    · obtain ⟨n, nb, h1, h2, rfl⟩ := (pay64_iff (by intros; rfl)).1 hst
      obtain ⟨tb, h3, h4⟩ := tagged hv h2
      exact ⟨.tsize n, _, ⟨tb, nb, rfl, h3, h1⟩, h4, rfl⟩
    · rename_i t n1 n2 n3
      obtain ⟨h, rfl⟩ := payUnknown_iff.1 hst
      obtain ⟨u, b, h1, h2⟩ := unk_complete (known := [10, 18, 24]) hv (by simp; exact ⟨n1, n2, n3⟩) h hw hp
      exact ⟨.unk u, b, h1, h2, rfl⟩

theorem timeStep_exact : StepExact UnixTime.step id TimeField.Enc TimeField.apply where
  pos := by
    intro f b h
    cases f with
    | seconds => exact num_pos h
    | nanos => exact num_pos h
    | unk => exact unkEnc_pos h
  mono := by
    intro tag m r m' r' h
    unfold UnixTime.step at h
    split at h
    · obtain ⟨n, b, -, h, -⟩ := (pay64_iff (by intros; rfl)).1 h; exact h.mono
    · obtain ⟨n, b, -, h, -⟩ := (payFixed_iff (by intros; rfl)).1 h; exact h.mono
    · exact readUnknown_mono (payUnknown_iff.1 h).1
  sound := by
    intro f b h m r r' hs hp
    cases f with
    | seconds n =>
      obtain ⟨r1, nb, e1, e2, e3⟩ := num_sound h hs
      exact ⟨8, r1, _, e1, (pay64_iff (by intros; rfl)).2 ⟨n, nb, e2, e3, rfl⟩, rfl⟩
    | nanos n =>
      obtain ⟨r1, nb, e1, e2, e3⟩ := num_sound h hs
      exact ⟨21, r1, _, e1, (payFixed_iff (by intros; rfl)).2 ⟨n, nb, e2, e3, rfl⟩, rfl⟩
    | unk u =>
      obtain ⟨hk, r1, e1, e2⟩ := unk_sound h hs hp
      refine ⟨_, r1, m, e1, ?_, rfl⟩
      unfold UnixTime.step
      split <;> first | (exfalso; simp_all; done) | exact payUnknown_iff.2 ⟨e2, rfl⟩
  complete := by
    intro tag m r r1 m' r' hv hst hw hp
    unfold UnixTime.step at hst
    split at hst
    · obtain ⟨n, nb, h1, h2, rfl⟩ := (pay64_iff (by intros; rfl)).1 hst
      obtain ⟨tb, h3, h4⟩ := tagged hv h2
      exact ⟨.seconds n, _, ⟨tb, nb, rfl, h3, h1⟩, h4, rfl⟩
    · obtain ⟨n, nb, h1, h2, rfl⟩ := (payFixed_iff (by intros; rfl)).1 hst
      obtain ⟨tb, h3, h4⟩ := tagged hv h2
      exact ⟨.nanos n, _, ⟨tb, nb, rfl, h3, h1⟩, h4, rfl⟩
    · rename_i t n1 n2
      obtain ⟨h, rfl⟩ := payUnknown_iff.1 hst
      obtain ⟨u, b, h1, h2⟩ := unk_complete (known := [8, 21]) hv (by simp; exact ⟨n1, n2⟩) h hw hp
      exact ⟨.unk u, b, h1, h2, rfl⟩

/-- Links and data of a node, without the position of the data. -/
def PBNode.view (m : PBNode) : List PBLink × Option Bytes := (m.Links, m.Data.map (·.val))

/-- What a field does to them. -/
def NodeField.applyView (v : List PBLink × Option Bytes) : NodeField → List PBLink × Option Bytes
  | .link fs => (v.1 ++ [linkOf fs], v.2)
  | .data b => (v.1, some b)
  | .unk _ => v

theorem nodeStep_exact : StepExact PBNode.step PBNode.view NodeField.Enc NodeField.applyView where
  pos := by
    intro f b h
    cases f with
    | link => obtain ⟨x, h, -⟩ := h; exact bytes_pos h
    | data => exact bytes_pos h
    | unk => exact unkEnc_pos h
  mono := by
    intro tag m r m' r' h
    unfold PBNode.step at h
    split at h
    · obtain ⟨s, h, -⟩ := (pay_iff (by intros; rfl)).1 h; exact readMessage_mono linkStep_exact h
    · obtain ⟨s, h, -⟩ := (pay_iff (by intros; rfl)).1 h; exact readBytes_mono h
    · exact readUnknown_mono (payUnknown_iff.1 h).1
  sound := by
    intro f b h m r r' hs hp
    cases f with
    | link fs =>
      obtain ⟨x, hx, hf⟩ := h
      obtain ⟨r1, lb, e1, e2, e3⟩ := bytes_sound hx hs
      obtain ⟨l, e4, e5⟩ := readMessage_sound linkStep_exact {} e2 hf e3
      exact ⟨18, r1, _, e1, (pay_iff (by intros; rfl)).2 ⟨l, e4, rfl⟩, by rw [show l = linkOf fs from e5]; rfl⟩
    | data x =>
      obtain ⟨r1, lb, e1, e2, e3⟩ := bytes_sound h hs
      obtain ⟨o, e4⟩ := (readBytes_iff ..).2 ⟨lb, e2, e3⟩
      exact ⟨10, r1, _, e1, (pay_iff (by intros; rfl)).2 ⟨_, e4, rfl⟩, rfl⟩
    | unk u =>
      obtain ⟨hk, r1, e1, e2⟩ := unk_sound h hs hp
      refine ⟨_, r1, m, e1, ?_, rfl⟩
      unfold PBNode.step
      split <;> first | (exfalso; simp_all; done) | exact payUnknown_iff.2 ⟨e2, rfl⟩
  complete := by
    intro tag m r r1 m' r' hv hst hw hp
    unfold PBNode.step at hst
    split at hst
    · obtain ⟨l, h, rfl⟩ := (pay_iff (by intros; rfl)).1 hst
      obtain ⟨tb, h0, hs1⟩ := (readVarint32_iff ..).1 hv
      obtain ⟨fs, x, lb, h1, h2, h3, h4⟩ := readMessage_complete linkStep_exact h (hs1.within hw) (by rw [hs1.2.2]; exact hp)
      exact ⟨.link fs, _, ⟨x, ⟨tb, lb, rfl, h0, h1⟩, h2⟩, hs1.trans h3, by rw [show l = linkOf fs from h4]; rfl⟩
    · obtain ⟨s, h, rfl⟩ := (pay_iff (by intros; rfl)).1 hst
      obtain ⟨lb, h1, h2⟩ := (readBytes_iff r1 s.val r').1 ⟨s.off, h⟩
      obtain ⟨tb, h3, h4⟩ := tagged hv h2
      exact ⟨.data s.val, _, ⟨tb, lb, rfl, h3, h1⟩, h4, rfl⟩
    · rename_i t n1 n2
      obtain ⟨h, rfl⟩ := payUnknown_iff.1 hst
      obtain ⟨u, b, h1, h2⟩ := unk_complete (known := [18, 10]) hv (by simp; exact ⟨n1, n2⟩) h hw hp
      exact ⟨.unk u, b, h1, h2, rfl⟩

theorem num32_mod {b n} (h : Num32 b n) : n % U32 = n := Nat.mod_eq_of_lt (Num32_lt h)

theorem dataStep_exact : StepExact UnixFs.step id DataField.Enc DataField.apply where
  pos := by
    intro f b h
    cases f with
    | data => exact bytes_pos h
    | mtime => obtain ⟨x, h, -⟩ := h; exact bytes_pos h
    | unk => exact unkEnc_pos h
    | _ => exact num_pos h
  mono := by
    intro tag m r m' r' h
    unfold UnixFs.step at h
    split at h
    · obtain ⟨n, b, -, h, -⟩ := (pay32_iff (by intros; rfl)).1 h; exact h.mono
    · obtain ⟨s, h, -⟩ := (pay_iff (by intros; rfl)).1 h; exact readBytes_mono h
    · obtain ⟨n, b, -, h, -⟩ := (pay64_iff (by intros; rfl)).1 h; exact h.mono
    · obtain ⟨n, b, -, h, -⟩ := (pay64_iff (by intros; rfl)).1 h; exact h.mono
    · obtain ⟨n, b, -, h, -⟩ := (pay64_iff (by intros; rfl)).1 h; exact h.mono
    · obtain ⟨n, b, -, h, -⟩ := (pay64_iff (by intros; rfl)).1 h; exact h.mono
    · obtain ⟨n, b, -, h, -⟩ := (pay32_iff (by intros; rfl)).1 h; exact h.mono
    · obtain ⟨s, h, -⟩ := (pay_iff (by intros; rfl)).1 h; exact readMessage_mono timeStep_exact h
    · exact readUnknown_mono (payUnknown_iff.1 h).1
  sound := by
    intro f b h m r r' hs hp
    cases f with
    | type n =>
      obtain ⟨r1, nb, e1, e2, e3⟩ := num_sound h hs
      exact ⟨8, r1, _, e1, (pay32_iff (by intros; rfl)).2 ⟨n, nb, e2, e3, rfl⟩, by
        show _ = DataField.apply m (.type n)
        rw [DataField.apply, ← typeOf_eq, num32_mod e2]; rfl⟩
    | data x =>
      obtain ⟨r1, lb, e1, e2, e3⟩ := bytes_sound h hs
      obtain ⟨o, e4⟩ := (readBytes_iff ..).2 ⟨lb, e2, e3⟩
      exact ⟨18, r1, _, e1, (pay_iff (by intros; rfl)).2 ⟨_, e4, rfl⟩, rfl⟩
    | filesize n =>
      obtain ⟨r1, nb, e1, e2, e3⟩ := num_sound h hs
      exact ⟨24, r1, _, e1, (pay64_iff (by intros; rfl)).2 ⟨n, nb, e2, e3, rfl⟩, rfl⟩
    | blocksize n =>
      obtain ⟨r1, nb, e1, e2, e3⟩ := num_sound h hs
      exact ⟨32, r1, _, e1, (pay64_iff (by intros; rfl)).2 ⟨n, nb, e2, e3, rfl⟩, rfl⟩
    | hashType n =>
      obtain ⟨r1, nb, e1, e2, e3⟩ := num_sound h hs
      exact ⟨40, r1, _, e1, (pay64_iff (by intros; rfl)).2 ⟨n, nb, e2, e3, rfl⟩, rfl⟩
    | fanout n =>
      obtain ⟨r1, nb, e1, e2, e3⟩ := num_sound h hs
      exact ⟨48, r1, _, e1, (pay64_iff (by intros; rfl)).2 ⟨n, nb, e2, e3, rfl⟩, rfl⟩
    | mode n =>
      obtain ⟨r1, nb, e1, e2, e3⟩ := num_sound h hs
      exact ⟨56, r1, _, e1, (pay32_iff (by intros; rfl)).2 ⟨n, nb, e2, e3, rfl⟩, by
        show _ = DataField.apply m (.mode n)
        rw [DataField.apply, num32_mod e2]; rfl⟩
    | mtime fs =>
      obtain ⟨x, hx, hf⟩ := h
      obtain ⟨r1, lb, e1, e2, e3⟩ := bytes_sound hx hs
      obtain ⟨l, e4, e5⟩ := readMessage_sound timeStep_exact {} e2 hf e3
      exact ⟨66, r1, _, e1, (pay_iff (by intros; rfl)).2 ⟨l, e4, rfl⟩, by rw [show l = fs.foldl TimeField.apply {} from e5]; rfl⟩
    | unk u =>
      obtain ⟨hk, r1, e1, e2⟩ := unk_sound h hs hp
      refine ⟨_, r1, m, e1, ?_, rfl⟩
      unfold UnixFs.step
      split <;> first | (exfalso; simp_all; done) | exact payUnknown_iff.2 ⟨e2, rfl⟩
  complete := by
    intro tag m r r1 m' r' hv hst hw hp
    unfold UnixFs.step at hst
    split at hst
    · obtain ⟨n, nb, h1, h2, rfl⟩ := (pay32_iff (by intros; rfl)).1 hst
      obtain ⟨tb, h3, h4⟩ := tagged hv h2
      exact ⟨.type n, _, ⟨tb, nb, rfl, h3, h1⟩, h4, by
        show _ = DataField.apply m (.type n)
        rw [DataField.apply, ← typeOf_eq, num32_mod h1]; rfl⟩
    · obtain ⟨s, h, rfl⟩ := (pay_iff (by intros; rfl)).1 hst
      obtain ⟨lb, h1, h2⟩ := (readBytes_iff r1 s.val r').1 ⟨s.off, h⟩
      obtain ⟨tb, h3, h4⟩ := tagged hv h2
      exact ⟨.data s.val, _, ⟨tb, lb, rfl, h3, h1⟩, h4, rfl⟩
    · obtain ⟨n, nb, h1, h2, rfl⟩ := (pay64_iff (by intros; rfl)).1 hst
      obtain ⟨tb, h3, h4⟩ := tagged hv h2
      exact ⟨.filesize n, _, ⟨tb, nb, rfl, h3, h1⟩, h4, rfl⟩
    · obtain ⟨n, nb, h1, h2, rfl⟩ := (pay64_iff (by intros; rfl)).1 hst
      obtain ⟨tb, h3, h4⟩ := tagged hv h2
      exact ⟨.blocksize n, _, ⟨tb, nb, rfl, h3, h1⟩, h4, rfl⟩
    · obtain ⟨n, nb, h1, h2, rfl⟩ := (pay64_iff (by intros; rfl)).1 hst
      obtain ⟨tb, h3, h4⟩ := tagged hv h2
      exact ⟨.hashType n, _, ⟨tb, nb, rfl, h3, h1⟩, h4, rfl⟩
    · obtain ⟨n, nb, h1, h2, rfl⟩ := (pay64_iff (by intros; rfl)).1 hst
      obtain ⟨tb, h3, h4⟩ := tagged hv h2
      exact ⟨.fanout n, _, ⟨tb, nb, rfl, h3, h1⟩, h4, rfl⟩
    · obtain ⟨n, nb, h1, h2, rfl⟩ := (pay32_iff (by intros; rfl)).1 hst
      obtain ⟨tb, h3, h4⟩ := tagged hv h2
      exact ⟨.mode n, _, ⟨tb, nb, rfl, h3, h1⟩, h4, by
        show _ = DataField.apply m (.mode n)
        rw [DataField.apply, num32_mod h1]; rfl⟩
    · obtain ⟨l, h, rfl⟩ := (pay_iff (by intros; rfl)).1 hst
      obtain ⟨tb, h0, hs1⟩ := (readVarint32_iff ..).1 hv
      obtain ⟨fs, x, lb, h1, h2, h3, h4⟩ := readMessage_complete timeStep_exact h (hs1.within hw) (by rw [hs1.2.2]; exact hp)
      exact ⟨.mtime fs, _, ⟨x, ⟨tb, lb, rfl, h0, h1⟩, h2⟩, hs1.trans h3, by rw [show l = fs.foldl TimeField.apply {} from h4]; rfl⟩
    · rename_i t n1 n2 n3 n4 n5 n6 n7 n8
      obtain ⟨h, rfl⟩ := payUnknown_iff.1 hst
      obtain ⟨u, b, h1, h2⟩ := unk_complete (known := [8, 18, 24, 32, 40, 48, 56, 66]) hv
        (by simp; exact ⟨n1, n2, n3, n4, n5, n6, n7, n8⟩) h hw hp
      exact ⟨.unk u, b, h1, h2, rfl⟩

/-! ### blocks -/

theorem applyView_fold (ns : List NodeField) (v : List PBLink × Option Bytes) :
    ns.foldl NodeField.applyView v = (v.1 ++ nodeLinks ns, (nodeData ns).or v.2) := by
  induction ns generalizing v with
  | nil => simp [nodeLinks, nodeData]
  | cons n ns ih =>
    rw [List.foldl_cons, ih]
    cases n with
    | link fs => simp [NodeField.applyView, nodeLinks, nodeData]
    | data b =>
      have : nodeData (.data b :: ns) = (nodeData ns).or (some b) := by
        simp only [nodeData, List.filterMap_cons, List.getLast?_cons]
        cases (List.filterMap _ ns).getLast? <;> rfl
      rw [this]
      cases nodeData ns <;> simp [NodeField.applyView, nodeLinks]
    | unk u => simp [NodeField.applyView, nodeLinks, nodeData]

theorem node_iff (b : Bytes) (ls : List PBLink) (d : Option Bytes) :
    (∃ n, PBNode.tryFrom b = .ok n ∧ n.Links = ls ∧ n.Data.map (·.val) = d) ↔ ∃ ns, IsNode b ns ∧ nodeLinks ns = ls ∧ nodeData ns = d := by
  have h := parseMessage_iff nodeStep_exact {} b (ls, d)
  constructor
  · rintro ⟨n, h1, h2, h3⟩
    obtain ⟨ns, e1, e2⟩ := h.1 ⟨n, h1, by rw [PBNode.view, h2, h3]⟩
    rw [applyView_fold] at e2
    simp only [PBNode.view, List.nil_append, Option.map_none, Option.or_none, Prod.mk.injEq] at e2
    exact ⟨ns, e1, e2.1.symm, e2.2.symm⟩
  · rintro ⟨ns, h1, h2, h3⟩
    obtain ⟨n, e1, e2⟩ := h.2 ⟨ns, h1, by rw [applyView_fold, h2, h3]; simp [PBNode.view]⟩
    simp only [PBNode.view, Prod.mk.injEq] at e2
    exact ⟨n, e1, e2.1, e2.2⟩

theorem unixFs_iff (b : Bytes) (m : UnixFs) : UnixFs.tryFrom (some b) = .ok m ↔ ∃ ds, IsUnixFs b ds ∧ m = unixFsOf ds := by
  have h := parseMessage_iff dataStep_exact {} b m
  constructor
  · intro h'
    exact h.1 ⟨m, h', rfl⟩
  · intro h'
    obtain ⟨m', h1, h2⟩ := h.2 h'
    have : m' = m := h2
    subst this
    exact h1

end Verif
