import Verif.Spec.NarrowPanics
import Verif.NarrowExact
import Verif.ParseOverflow
/-
Exactly when the readers of a platform with 32 bits panic. (The proofs follow `ParseOverflow.lean`.)
-/
namespace Verif
open Spec

theorem u32_eq : U32 = 4294967296 := rfl

theorem readBytes_overflow32 (r : Reader) : r.readBytes32 = .error .overflow ↔ ∃ k r2, r.readVarint32 = .ok (k, r2) ∧ U32 ≤ r2.pos + k := by
  unfold Reader.readBytes32
  cases hv : r.readVarint32 with
  | error e =>
    refine ⟨fun h => ?_, fun ⟨k, r2, h, _⟩ => by cases h⟩
    cases h; exact absurd hv (readVarint32_no_overflow r)
  | ok p =>
    obtain ⟨n, r1⟩ := p
    simp only [except_ok_bind]
    by_cases hu : U32 ≤ r1.pos + n
    · rw [if_pos hu]; exact ⟨fun _ => ⟨n, r1, rfl, hu⟩, fun _ => rfl⟩
    · rw [if_neg hu]
      constructor
      · intro h
        split at h
        · cases h
        · cases h
      · rintro ⟨k, r2, h, h'⟩
        cases h
        exact absurd h' hu

theorem readString_overflow32 (r : Reader) : r.readString32 = .error .overflow ↔ ∃ k r2, r.readVarint32 = .ok (k, r2) ∧ U32 ≤ r2.pos + k := by
  rw [← readBytes_overflow32]
  unfold Reader.readString32
  exact bind_error_iff (fun ⟨s, r'⟩ h => by
    by_cases hu : validUtf8 s.val = true
    · simp only [hu, if_true] at h; cases h
    · simp only [if_neg hu] at h; cases h)

/-- When the subtraction overflows. -/
theorem readUnknown_overflow32 (r : Reader) (tag : Nat) (hr : r.pos + 8 < U32) : r.readUnknown32 tag = .error .overflow ↔
    tag % 8 = 2 ∧ ∃ k r2, r.readVarint64 = .ok (k, r2) ∧ r.stop < r2.pos := by
  unfold Reader.readUnknown32
  split
  · rename_i ht
    rw [bind_error_iff (by intro n h; cases h)]
    exact ⟨fun h => absurd h (readVarint64_no_overflow r), fun h => by omega⟩
  · rename_i ht; rw [if_neg (by omega)]; exact ⟨nofun, fun h => by omega⟩
  · rename_i ht
    constructor
    · intro h
      cases hv : r.readVarint64 with
      | error e => rw [hv] at h; cases h; exact absurd hv (readVarint64_no_overflow r)
      | ok p =>
        obtain ⟨k, r2⟩ := p
        rw [hv] at h
        simp only [except_ok_bind] at h
        have := ((readVarint64_iff ..).1 hv).choose_spec.2.2.2
        split at h
        · rename_i hlt; exact ⟨ht, k, r2, rfl, by omega⟩
        · split at h <;> cases h
    · rintro ⟨-, k, r2, hv, hlt⟩
      have := ((readVarint64_iff ..).1 hv).choose_spec.2.2.2
      rw [hv]
      simp only [except_ok_bind]
      rw [if_pos (by omega)]
  · rename_i ht; rw [if_neg (by omega)]; exact ⟨nofun, fun h => by omega⟩
  · rename_i ht; exact ⟨nofun, fun h => by omega⟩
  · rename_i ht; exact ⟨nofun, fun h => by omega⟩
  · rename_i h2 _ _ _; exact ⟨nofun, fun h => absurd h.1 h2⟩

theorem readUnknown_complete32' {r r' : Reader} {tag : Nat} (h : r.readUnknown32 tag = .ok r') (hne : r'.rest ≠ []) :
    ∃ u b, Unk.tag u = tag ∧ u.payload.Enc32 b ∧ r.Skips b r' ∧ (UnkBytes u → r'.pos ≤ r.stop) := by
  unfold Reader.readUnknown32 at h
  split at h
  · rename_i ht
    cases hv : r.readVarint64 with
    | error e => rw [hv] at h; cases h
    | ok p =>
      rw [hv] at h; cases h
      obtain ⟨b, hn, hs⟩ := (readVarint64_iff ..).1 hv
      exact ⟨⟨tag / 8, .varint p.1⟩, b, by simp only [Unk.tag]; omega, .varint hn, hs, fun ⟨x, h⟩ => by cases h⟩
  · rename_i ht
    split at h
    · cases h
    cases h
    obtain ⟨h1, h2⟩ := drop_skips' r 8 hne
    exact ⟨⟨tag / 8, .fixed64 _⟩, _, by simp only [Unk.tag]; omega, .fixed64 h1, h2, fun ⟨x, h⟩ => by cases h⟩
  · rename_i ht
    cases hv : r.readVarint64 with
    | error e => rw [hv] at h; cases h
    | ok p =>
      obtain ⟨len, r1⟩ := p
      rw [hv] at h
      obtain ⟨b, hn, hs⟩ := (readVarint64_iff ..).1 hv
      simp only [except_ok_bind] at h
      split at h
      · cases h
      · split at h
        · cases h
        · cases h
          obtain ⟨h1, h2⟩ := drop_skips' r1 (len % U32) hne
          have := hs.2.2
          refine ⟨⟨tag / 8, .bytes (r1.rest.take (len % U32))⟩, _, by simp only [Unk.tag]; omega,
            .bytes (lb := b) (by rw [h1]; exact num64_cut hn), hs.trans h2, fun _ => ?_⟩
          simp only; omega
  · rename_i ht
    split at h
    · cases h
    cases h
    obtain ⟨h1, h2⟩ := drop_skips' r 4 hne
    exact ⟨⟨tag / 8, .fixed32 _⟩, _, by simp only [Unk.tag]; omega, .fixed32 h1, h2, fun ⟨x, h⟩ => by cases h⟩
  all_goals cases h

theorem readUnknown_sound32' {r r' : Reader} {u : Unk} {b : Bytes} (h : u.payload.Enc32 b) (hs : r.Skips b r') (hp : UnkBytes u → r'.pos ≤ r.stop)
    (hu : r'.pos < U32) : r.readUnknown32 u.tag = .ok r' := by
  obtain ⟨num, pl⟩ := u
  obtain ⟨h1, h2, h3⟩ := hs
  simp only at h
  cases h with
  | varint hn =>
    rename_i n
    have ht : (Unk.mk num (.varint n)).tag % 8 = 0 := by simp [Unk.tag]
    unfold Reader.readUnknown32
    rw [ht]
    simp only
    rw [(readVarint64_iff ..).2 ⟨b, hn, h1, h2, h3⟩]; rfl
  | fixed64 hl =>
    have ht : (Unk.mk num (.fixed64 b)).tag % 8 = 1 := by simp [Unk.tag]
    unfold Reader.readUnknown32
    rw [ht]
    simp only
    rw [if_neg (by omega)]
    simp only [Except.ok.injEq]
    exact Reader.ext' (by simp only; omega) h3.symm (by simp only; rw [h1, ← hl, List.drop_left])
  | bytes hn =>
    rename_i x lb
    have hp' := hp ⟨x, rfl⟩
    have ht : (Unk.mk num (.bytes x)).tag % 8 = 2 := by simp [Unk.tag]
    rw [List.append_assoc] at h1
    rw [List.length_append] at h2
    obtain ⟨k, hk, hkx⟩ := num32_uncut hn
    unfold Reader.readUnknown32
    rw [ht]
    simp only
    rw [(readVarint64_iff r k ⟨r.pos + lb.length, r.stop, x ++ r'.rest⟩).2 ⟨lb, hk, h1, rfl, rfl⟩]
    simp only [except_ok_bind, hkx]
    rw [if_neg (by omega), if_neg (by omega)]
    simp only [Except.ok.injEq, List.drop_left]
    exact Reader.ext' (by simp only; omega) h3.symm rfl
  | fixed32 hl =>
    have ht : (Unk.mk num (.fixed32 b)).tag % 8 = 5 := by simp [Unk.tag]
    unfold Reader.readUnknown32
    rw [ht]
    simp only
    rw [if_neg (by omega)]
    simp only [Except.ok.injEq]
    exact Reader.ext' (by simp only; omega) h3.symm (by simp only; rw [h1, ← hl, List.drop_left])

theorem unk_complete32' {known : List Nat} {r r1 r' : Reader} {tag : Nat} (hv : r.readVarint32 = .ok (tag, r1)) (hk : tag ∉ known)
    (h : r1.readUnknown32 tag = .ok r') (hne : r'.rest ≠ []) :
    ∃ u b, Unk.Enc32 known u b ∧ r.Skips b r' ∧ (UnkBytes u → r'.pos ≤ r.stop) := by
  obtain ⟨tb, h1, h2⟩ := (readVarint32_iff ..).1 hv
  obtain ⟨u, b, rfl, e2, e3, e4⟩ := readUnknown_complete32' h hne
  exact ⟨u, tb ++ b, ⟨hk, tb, b, rfl, h1, e2⟩, h2.trans e3, fun hu => by rw [← h2.2.2]; exact e4 hu⟩

theorem unk_sound32' {known : List Nat} {u : Unk} {b : Bytes} (h : Unk.Enc32 known u b) {r r' : Reader} (hs : r.Skips b r')
    (hp : UnkBytes u → r'.pos ≤ r.stop) (hu : r'.pos < U32) :
    u.tag ∉ known ∧ ∃ r1, r.readVarint32 = .ok (u.tag, r1) ∧ r1.readUnknown32 u.tag = .ok r' := by
  obtain ⟨hk, tb, pb, rfl, h1, h2⟩ := h
  obtain ⟨r1, s1, s2⟩ := hs.split
  exact ⟨hk, r1, (readVarint32_iff ..).2 ⟨tb, h1, s1⟩, readUnknown_sound32' h2 s2 (fun hu => by rw [s1.2.2]; exact hp hu) hu⟩

/-! ### the nested messages -/

/-- One field of a nested message, wherever the end is. -/
structure InnerExact32 {M F : Type} (step : Nat → M → Reader → Except PbError (M × Reader)) (E : F → Bytes → Prop) (D : F → Prop)
    (known lens : List Nat) : Prop where
  pos : ∀ {f b}, E f b → 0 < b.length
  sound : ∀ {f b}, E f b → ∀ (m : M) (r r' : Reader), r.Skips b r' → (D f → r'.pos ≤ r.stop) → r'.pos < U32 →
    ∃ tag r1 m', r.readVarint32 = .ok (tag, r1) ∧ step tag m r1 = .ok (m', r')
  complete : ∀ {tag : Nat} {m : M} {r r1 : Reader} {m' : M} {r' : Reader}, r.readVarint32 = .ok (tag, r1) → step tag m r1 = .ok (m', r') →
    r'.rest ≠ [] → ∃ f b, E f b ∧ r.Skips b r' ∧ (D f → r'.pos ≤ r.stop)
  over : ∀ {tag : Nat} {m : M} {r : Reader}, r.pos + 8 < U32 → (step tag m r = .error .overflow ↔
    (tag ∉ known ∧ tag % 8 = 2 ∧ ∃ k r2, r.readVarint64 = .ok (k, r2) ∧ r.stop < r2.pos) ∨
    (tag ∈ lens ∧ ∃ k r2, r.readVarint32 = .ok (k, r2) ∧ U32 ≤ r2.pos + k))

section
variable {M F : Type} {step : Nat → M → Reader → Except PbError (M × Reader)} {E : F → Bytes → Prop} {D : F → Prop} {known lens : List Nat}

theorem inner_complete32 (hi : InnerExact32 step E D known lens) (base n : Nat) : ∀ (fuel : Nat) (m : M) (p : Nat) (rest : Bytes),
    base + p + rest.length < 2 ^ 31 →
    readLoop step fuel m ⟨base + p, base + n, rest⟩ = .error .overflow → Overruns32 E D known lens base n p rest := by
  have hU := u32_eq
  intro fuel
  induction fuel with
  | zero => intro m p rest _ h; cases h
  | succ fuel ih =>
    intro m p rest hlim h
    have hp : p ≠ n := by
      have := (overflow_loop h).1
      simp only at this
      omega
    rw [readLoop, if_neg (by simp only; omega)] at h
    cases hv : Reader.readVarint32 ⟨base + p, base + n, rest⟩ with
    | error e => rw [hv] at h; cases h; exact absurd hv (readVarint32_no_overflow _)
    | ok q =>
      obtain ⟨tag, r1⟩ := q
      rw [hv] at h
      simp only [except_ok_bind] at h
      obtain ⟨tb, ht, hs⟩ := (readVarint32_iff ..).1 hv
      have hlen := congrArg List.length hs.1
      rw [List.length_append] at hlen
      have hpos := hs.2.1
      simp only at hlen hpos
      cases hst : step tag m r1 with
      | error e =>
        rw [hst] at h
        cases h
        rcases (hi.over (by omega)).1 hst with ⟨h1, h2, k, r2, h3, h4⟩ | ⟨h1, k, r2, h3, h4⟩
        · obtain ⟨lb, hl, hs2⟩ := (readVarint64_iff ..).1 h3
          obtain ⟨a1, a2, a3⟩ := hs
          obtain ⟨b1, b2, b3⟩ := hs2
          simp only at a1 a2 a3
          rw [b1] at a1
          subst a1
          exact .now hp ht h1 h2 hl (by omega)
        · obtain ⟨lb, hl, hs2⟩ := (readVarint32_iff ..).1 h3
          obtain ⟨a1, a2, a3⟩ := hs
          obtain ⟨b1, b2, b3⟩ := hs2
          simp only at a1 a2 a3
          rw [b1] at a1
          subst a1
          exact .beyond hp ht h1 hl (by omega)
      | ok q =>
        obtain ⟨m', r'⟩ := q
        rw [hst] at h
        simp only [except_ok_bind] at h
        have hne := (overflow_loop h).2
        obtain ⟨f, b, e1, e2, e3⟩ := hi.complete hv hst hne
        obtain ⟨pos, stop, rest'⟩ := r'
        obtain ⟨a1, a2, a3⟩ := e2
        simp only at a1 a2 a3 e3
        subst a1 a2 a3
        rw [List.length_append] at hlim
        refine .later hp e1 (fun hd => by have := e3 hd; omega) (ih m' _ _ (by omega) ?_)
        rw [← Nat.add_assoc]; exact h

theorem inner_sound32 (hi : InnerExact32 step E D known lens) (base n : Nat) {p : Nat} {rest : Bytes} (h : Overruns32 E D known lens base n p rest) :
    ∀ (fuel : Nat) (m : M), base + p + rest.length < 2 ^ 31 → rest.length < fuel →
      readLoop step fuel m ⟨base + p, base + n, rest⟩ = .error .overflow := by
  have hU := u32_eq
  induction h with
  | @now p tag k tb lb rest hp ht h1 h2 hl hn =>
    intro fuel m hlim hf
    obtain ⟨fuel, rfl⟩ : ∃ k, fuel = k + 1 := ⟨fuel - 1, by omega⟩
    rw [List.length_append, List.length_append] at hlim
    rw [readLoop, if_neg (by simp only; omega)]
    rw [(readVarint32_iff ⟨base + p, base + n, tb ++ (lb ++ rest)⟩ tag ⟨base + p + tb.length, base + n, lb ++ rest⟩).2 ⟨tb, ht, rfl, rfl, rfl⟩]
    simp only [except_ok_bind]
    rw [(hi.over (m := m) (r := ⟨base + p + tb.length, base + n, lb ++ rest⟩) (by simp only; omega)).2 (.inl ⟨h1, h2, k, ⟨base + p + tb.length + lb.length, base + n, rest⟩,
      (readVarint64_iff ⟨base + p + tb.length, base + n, lb ++ rest⟩ k ⟨base + p + tb.length + lb.length, base + n, rest⟩).2 ⟨lb, hl, rfl, rfl, rfl⟩, by simp only; omega⟩)]
    rfl
  | @beyond p tag k tb lb rest hp ht h1 hl hn =>
    intro fuel m hlim hf
    obtain ⟨fuel, rfl⟩ : ∃ k, fuel = k + 1 := ⟨fuel - 1, by omega⟩
    rw [List.length_append, List.length_append] at hlim
    rw [readLoop, if_neg (by simp only; omega)]
    rw [(readVarint32_iff ⟨base + p, base + n, tb ++ (lb ++ rest)⟩ tag ⟨base + p + tb.length, base + n, lb ++ rest⟩).2 ⟨tb, ht, rfl, rfl, rfl⟩]
    simp only [except_ok_bind]
    rw [(hi.over (m := m) (r := ⟨base + p + tb.length, base + n, lb ++ rest⟩) (by simp only; omega)).2 (.inr ⟨h1, k, ⟨base + p + tb.length + lb.length, base + n, rest⟩,
      (readVarint32_iff ⟨base + p + tb.length, base + n, lb ++ rest⟩ k ⟨base + p + tb.length + lb.length, base + n, rest⟩).2 ⟨lb, hl, rfl, rfl, rfl⟩, hn⟩)]
    rfl
  | @later p f b rest hp he hd _ ih =>
    intro fuel m hlim hf
    obtain ⟨fuel, rfl⟩ : ∃ k, fuel = k + 1 := ⟨fuel - 1, by omega⟩
    rw [readLoop, if_neg (by simp only; omega)]
    rw [List.length_append] at hlim
    obtain ⟨tag, r1, m', e1, e2⟩ := hi.sound he m ⟨base + p, base + n, b ++ rest⟩ ⟨base + p + b.length, base + n, rest⟩ ⟨rfl, rfl, rfl⟩
      (fun h => by have := hd h; simp only; omega) (by simp only; omega)
    rw [e1]
    simp only [except_ok_bind, e2]
    have hb := hi.pos he
    rw [List.length_append] at hf
    have := ih fuel m' (by omega) (by omega)
    rw [← Nat.add_assoc] at this
    exact this

theorem message_overflow32 (hi : InnerExact32 step E D known lens) (dflt : M) (r : Reader) (hr : r.pos + r.rest.length < 2 ^ 31) :
    r.readMessage32 step dflt = .error .overflow ↔
    ∃ lb n x, Num32 lb n ∧ r.rest = lb ++ x ∧ (U32 ≤ r.pos + lb.length + n ∨ Overruns32 E D known lens (r.pos + lb.length) n 0 x) := by
  unfold Reader.readMessage32
  constructor
  · intro h
    cases hv : r.readVarint32 with
    | error e => rw [hv] at h; cases h; exact absurd hv (readVarint32_no_overflow _)
    | ok q =>
      obtain ⟨len, r1⟩ := q
      rw [hv] at h
      simp only [except_ok_bind] at h
      obtain ⟨lb, hl, hs⟩ := (readVarint32_iff ..).1 hv
      refine ⟨lb, len, r1.rest, hl, hs.1, ?_⟩
      obtain ⟨a1, a2, a3⟩ := hs
      rw [a1, List.length_append] at hr
      rw [← a2]
      by_cases hu : U32 ≤ r1.pos + len
      · exact .inl hu
      · rw [if_neg hu, bind_error_iff (by intro n h; cases h)] at h
        exact .inr (inner_complete32 hi r1.pos len _ dflt 0 r1.rest (by omega) h)
  · rintro ⟨lb, n, x, hl, hrest, ho⟩
    rw [(readVarint32_iff r n ⟨r.pos + lb.length, r.stop, x⟩).2 ⟨lb, hl, hrest, rfl, rfl⟩]
    simp only [except_ok_bind]
    by_cases hu : U32 ≤ r.pos + lb.length + n
    · rw [if_pos hu]
    · rw [if_neg hu, bind_error_iff (by intro n h; cases h)]
      rw [hrest, List.length_append] at hr
      rcases ho with ho | ho
      · exact absurd ho hu
      · exact inner_sound32 hi (r.pos + lb.length) n ho _ dflt (by omega) (by simp only; omega)

end

theorem linkStep_inner32 : InnerExact32 PBLink.step32 LinkField.Enc32 LinkField.Delimited [10, 18, 24] [10, 18] where
  pos := linkStep_exact32.pos
  sound := by
    intro f b h m r r' hs hp hu
    cases f with
    | hash x =>
      obtain ⟨r1, lb, e1, e2, e3⟩ := bytes_sound h hs
      obtain ⟨o, e4⟩ := (readBytes_iff32 ..).2 ⟨hu, lb, e2, e3⟩
      exact ⟨10, r1, _, e1, (pay_iff (by intros; rfl)).2 ⟨_, e4, rfl⟩⟩
    | name x =>
      obtain ⟨r1, lb, e1, e2, e3⟩ := bytes_sound h.1 hs
      exact ⟨18, r1, _, e1, (payString_iff32 (by intros; rfl)).2 ⟨x, lb, (validUtf8_iff _).2 h.2, hu, e2, e3, rfl⟩⟩
    | tsize n =>
      obtain ⟨r1, nb, e1, e2, e3⟩ := num_sound h hs
      exact ⟨24, r1, _, e1, (pay64_iff (by intros; rfl)).2 ⟨n, nb, e2, e3, rfl⟩⟩
    | unk u =>
      obtain ⟨hk, r1, e1, e2⟩ := unk_sound32' h hs (by
        rintro ⟨x, hx⟩; obtain ⟨num, pl⟩ := u; cases hx; exact hp trivial) hu
      refine ⟨_, r1, m, e1, ?_⟩
      unfold PBLink.step32
      split <;> first | (exfalso; simp_all; done) | exact payUnknown_iff32.2 ⟨e2, rfl⟩
  complete := by
    intro tag m r r1 m' r' hv hst hne
    unfold PBLink.step32 at hst
    split at hst
    · obtain ⟨s, h, rfl⟩ := (pay_iff (by intros; rfl)).1 hst
      obtain ⟨-, lb, h1, h2⟩ := (readBytes_iff32 r1 s.val r').1 ⟨s.off, h⟩
      obtain ⟨tb, h3, h4⟩ := tagged hv h2
      exact ⟨.hash s.val, _, ⟨tb, lb, rfl, h3, h1⟩, h4, False.elim⟩
    · obtain ⟨s, lb, h0, -, h1, h2, rfl⟩ := (payString_iff32 (by intros; rfl)).1 hst
      obtain ⟨tb, h3, h4⟩ := tagged hv h2
      exact ⟨.name s, _, ⟨⟨tb, lb, rfl, h3, h1⟩, (validUtf8_iff _).1 h0⟩, h4, False.elim⟩
    · obtain ⟨n, nb, h1, h2, rfl⟩ := (pay64_iff (by intros; rfl)).1 hst
      obtain ⟨tb, h3, h4⟩ := tagged hv h2
      exact ⟨.tsize n, _, ⟨tb, nb, rfl, h3, h1⟩, h4, False.elim⟩
    · rename_i t n1 n2 n3
      obtain ⟨h, rfl⟩ := payUnknown_iff32.1 hst
      obtain ⟨u, b, h1, h2, h3⟩ := unk_complete32' (known := [10, 18, 24]) hv (by simp; exact ⟨n1, n2, n3⟩) h hne
      refine ⟨.unk u, b, h1, h2, fun hd => h3 ?_⟩
      obtain ⟨num, pl⟩ := u
      cases pl with
      | bytes x => exact ⟨x, rfl⟩
      | _ => exact hd.elim
  over := by
    intro tag m r hr
    unfold PBLink.step32
    split
    · rw [bind_error_iff (by intro n h; cases h), readBytes_overflow32]
      exact ⟨fun h => .inr ⟨by simp, h⟩, fun h => h.elim (fun h => absurd h.1 (by simp)) (fun h => h.2)⟩
    · rw [bind_error_iff (by intro n h; cases h), readString_overflow32]
      exact ⟨fun h => .inr ⟨by simp, h⟩, fun h => h.elim (fun h => absurd h.1 (by simp)) (fun h => h.2)⟩
    · rw [bind_error_iff (by intro n h; cases h)]
      exact ⟨fun h => absurd h (readVarint64_no_overflow r), fun h => h.elim (fun h => absurd h.1 (by simp)) (fun h => absurd h.1 (by simp))⟩
    · rename_i t n1 n2 n3
      rw [bind_error_iff (by intro n h; cases h), readUnknown_overflow32 _ _ hr]
      exact ⟨fun h => .inl ⟨by simp; exact ⟨n1, n2, n3⟩, h⟩, fun h => h.elim (fun h => h.2) (fun h => absurd h.1 (by simp; exact ⟨n1, n2⟩))⟩

theorem timeStep_inner32 : InnerExact32 UnixTime.step32 TimeField.Enc32 TimeField.Delimited [8, 21] [] where
  pos := timeStep_exact32.pos
  sound := by
    intro f b h m r r' hs hp hu
    cases f with
    | seconds n =>
      obtain ⟨r1, nb, e1, e2, e3⟩ := num_sound h hs
      exact ⟨8, r1, _, e1, (pay64_iff (by intros; rfl)).2 ⟨n, nb, e2, e3, rfl⟩⟩
    | nanos n =>
      obtain ⟨r1, nb, e1, e2, e3⟩ := num_sound h hs
      exact ⟨21, r1, _, e1, (payFixed_iff (by intros; rfl)).2 ⟨n, nb, e2, e3, rfl⟩⟩
    | unk u =>
      obtain ⟨hk, r1, e1, e2⟩ := unk_sound32' h hs (by
        rintro ⟨x, hx⟩; obtain ⟨num, pl⟩ := u; cases hx; exact hp trivial) hu
      refine ⟨_, r1, m, e1, ?_⟩
      unfold UnixTime.step32
      split <;> first | (exfalso; simp_all; done) | exact payUnknown_iff32.2 ⟨e2, rfl⟩
  complete := by
    intro tag m r r1 m' r' hv hst hne
    unfold UnixTime.step32 at hst
    split at hst
    · obtain ⟨n, nb, h1, h2, rfl⟩ := (pay64_iff (by intros; rfl)).1 hst
      obtain ⟨tb, h3, h4⟩ := tagged hv h2
      exact ⟨.seconds n, _, ⟨tb, nb, rfl, h3, h1⟩, h4, False.elim⟩
    · obtain ⟨n, nb, h1, h2, rfl⟩ := (payFixed_iff (by intros; rfl)).1 hst
      obtain ⟨tb, h3, h4⟩ := tagged hv h2
      exact ⟨.nanos n, _, ⟨tb, nb, rfl, h3, h1⟩, h4, False.elim⟩
    · rename_i t n1 n2
      obtain ⟨h, rfl⟩ := payUnknown_iff32.1 hst
      obtain ⟨u, b, h1, h2, h3⟩ := unk_complete32' (known := [8, 21]) hv (by simp; exact ⟨n1, n2⟩) h hne
      refine ⟨.unk u, b, h1, h2, fun hd => h3 ?_⟩
      obtain ⟨num, pl⟩ := u
      cases pl with
      | bytes x => exact ⟨x, rfl⟩
      | _ => exact hd.elim
  over := by
    intro tag m r hr
    unfold UnixTime.step32
    split
    · rw [bind_error_iff (by intro n h; cases h)]
      exact ⟨fun h => absurd h (readVarint64_no_overflow r), fun h => h.elim (fun h => absurd h.1 (by simp)) (fun h => absurd h.1 (by simp))⟩
    · rw [bind_error_iff (by intro n h; cases h)]
      exact ⟨fun h => absurd h (readFixed32_no_overflow r), fun h => h.elim (fun h => absurd h.1 (by simp)) (fun h => absurd h.1 (by simp))⟩
    · rename_i t n1 n2
      rw [bind_error_iff (by intro n h; cases h), readUnknown_overflow32 _ _ hr]
      exact ⟨fun h => .inl ⟨by simp; exact ⟨n1, n2⟩, h⟩, fun h => h.elim (fun h => h.2) (fun h => absurd h.1 (by simp))⟩

/-! ### the messages around them -/

theorem readUnknown_moves32 {r r' : Reader} {tag : Nat} (h : r.readUnknown32 tag = .ok r') : r.Moves r' := by
  have hd : ∀ (r : Reader) (n : Nat), r.Moves { r with pos := r.pos + n, rest := r.rest.drop n } := by
    intro r n
    exact ⟨by simp only; omega, by simp only [Nat.add_sub_cancel_left], rfl⟩
  unfold Reader.readUnknown32 at h
  split at h
  · cases hv : r.readVarint64 with
    | error e => rw [hv] at h; cases h
    | ok p =>
      rw [hv] at h; cases h
      obtain ⟨b, -, hs⟩ := (readVarint64_iff ..).1 hv
      exact hs.moves
  · split at h
    · cases h
    cases h; exact hd r 8
  · cases hv : r.readVarint64 with
    | error e => rw [hv] at h; cases h
    | ok p =>
      obtain ⟨len, r1⟩ := p
      rw [hv] at h
      obtain ⟨b, -, hs⟩ := (readVarint64_iff ..).1 hv
      simp only [except_ok_bind] at h
      split at h
      · cases h
      · split at h
        · cases h
        · cases h; exact hs.moves.trans (hd r1 (len % U32))
  · split at h
    · cases h
    cases h; exact hd r 4
  all_goals cases h

theorem readMessage_moves32 {M : Type} {step : Nat → M → Reader → Except PbError (M × Reader)}
    (hm : ∀ {tag m r m' r'}, step tag m r = .ok (m', r') → r.Moves r') {dflt m' : M} {r r' : Reader}
    (h : r.readMessage32 step dflt = .ok (m', r')) : r.Moves r' := by
  unfold Reader.readMessage32 at h
  cases hv : r.readVarint32 with
  | error e => rw [hv] at h; cases h
  | ok p =>
    obtain ⟨len, r1⟩ := p
    rw [hv] at h
    simp only [except_ok_bind] at h
    obtain ⟨b, -, hk⟩ := (readVarint32_iff ..).1 hv
    split at h
    · cases h
    cases hf : fromReader step dflt { r1 with stop := r1.pos + len } with
    | error e => rw [hf] at h; cases h
    | ok q =>
      obtain ⟨m2, r2⟩ := q
      rw [hf] at h
      cases h
      obtain ⟨⟨a1, a2, a3⟩, h2⟩ := readLoop_moves hm _ _ _ _ _ hf
      simp only at a1 a2 a3
      refine hk.moves.trans ⟨?_, ?_, rfl⟩
      · simp only; omega
      · simp only; rw [a2, h2]

theorem linkStep_moves32 {tag m r m' r'} (h : PBLink.step32 tag m r = .ok (m', r')) : r.Moves r' := by
  unfold PBLink.step32 at h
  split at h
  · obtain ⟨s, h, -⟩ := (pay_iff (by intros; rfl)).1 h
    obtain ⟨-, lb, -, h2⟩ := (readBytes_iff32 r s.val r').1 ⟨s.off, h⟩; exact h2.moves
  · obtain ⟨s, lb, -, -, -, h, -⟩ := (payString_iff32 (by intros; rfl)).1 h; exact h.moves
  · obtain ⟨n, b, -, h, -⟩ := (pay64_iff (by intros; rfl)).1 h; exact h.moves
  · exact readUnknown_moves32 (payUnknown_iff32.1 h).1

theorem timeStep_moves32 {tag m r m' r'} (h : UnixTime.step32 tag m r = .ok (m', r')) : r.Moves r' := by
  unfold UnixTime.step32 at h
  split at h
  · obtain ⟨n, b, -, h, -⟩ := (pay64_iff (by intros; rfl)).1 h; exact h.moves
  · obtain ⟨n, b, -, h, -⟩ := (payFixed_iff (by intros; rfl)).1 h; exact h.moves
  · exact readUnknown_moves32 (payUnknown_iff32.1 h).1

theorem nodeStep_moves32 {tag m r m' r'} (h : PBNode.step32 tag m r = .ok (m', r')) : r.Moves r' := by
  unfold PBNode.step32 at h
  split at h
  · obtain ⟨s, h, -⟩ := (pay_iff (by intros; rfl)).1 h; exact readMessage_moves32 linkStep_moves32 h
  · obtain ⟨s, h, -⟩ := (pay_iff (by intros; rfl)).1 h
    obtain ⟨-, lb, -, h2⟩ := (readBytes_iff32 r s.val r').1 ⟨s.off, h⟩; exact h2.moves
  · exact readUnknown_moves32 (payUnknown_iff32.1 h).1

theorem dataStep_moves32 {tag m r m' r'} (h : UnixFs.step32 tag m r = .ok (m', r')) : r.Moves r' := by
  unfold UnixFs.step32 at h
  split at h
  · obtain ⟨n, b, -, h, -⟩ := (pay32_iff (by intros; rfl)).1 h; exact h.moves
  · obtain ⟨s, h, -⟩ := (pay_iff (by intros; rfl)).1 h
    obtain ⟨-, lb, -, h2⟩ := (readBytes_iff32 r s.val r').1 ⟨s.off, h⟩; exact h2.moves
  · obtain ⟨n, b, -, h, -⟩ := (pay64_iff (by intros; rfl)).1 h; exact h.moves
  · obtain ⟨n, b, -, h, -⟩ := (pay64_iff (by intros; rfl)).1 h; exact h.moves
  · obtain ⟨n, b, -, h, -⟩ := (pay64_iff (by intros; rfl)).1 h; exact h.moves
  · obtain ⟨n, b, -, h, -⟩ := (pay64_iff (by intros; rfl)).1 h; exact h.moves
  · obtain ⟨n, b, -, h, -⟩ := (pay32_iff (by intros; rfl)).1 h; exact h.moves
  · obtain ⟨s, h, -⟩ := (pay_iff (by intros; rfl)).1 h; exact readMessage_moves32 timeStep_moves32 h
  · exact readUnknown_moves32 (payUnknown_iff32.1 h).1

section
variable {M V F : Type} {step : Nat → M → Reader → Except PbError (M × Reader)} {view : M → V} {E : F → Bytes → Prop}
  {apply : V → F → V} {Sub : Nat → Nat → Bytes → Prop}

/-- `Sub tag p x`: after `tag`, at position `p`, with `x` to come, there is a panic. -/
theorem outer_complete32 (hs : StepExact32 step view E apply) (hm : ∀ {tag m r m' r'}, step tag m r = .ok (m', r') → r.Moves r')
    (ho : ∀ {tag : Nat} {m : M} {r : Reader}, r.stop = r.pos + r.rest.length → r.stop < 2 ^ 31 → step tag m r = .error .overflow → Sub tag r.pos r.rest) :
    ∀ (fuel : Nat) (m : M) (r : Reader), r.stop = r.pos + r.rest.length → r.stop < 2 ^ 31 → readLoop step fuel m r = .error .overflow →
      ∃ before fs tag tb x, r.rest = before ++ (tb ++ x) ∧ Fields E fs before ∧ Num32 tb tag ∧ Sub tag (r.pos + before.length + tb.length) x := by
  intro fuel
  induction fuel with
  | zero => intro m r _ _ h; cases h
  | succ fuel ih =>
    intro m r hr hlim h
    have hne := (overflow_loop h).1
    rw [readLoop, if_neg hne] at h
    cases hv : r.readVarint32 with
    | error e => rw [hv] at h; cases h; exact absurd hv (readVarint32_no_overflow _)
    | ok q =>
      obtain ⟨tag, r1⟩ := q
      rw [hv] at h
      simp only [except_ok_bind] at h
      obtain ⟨tb, ht, hsk⟩ := (readVarint32_iff ..).1 hv
      have hr1 : r1.stop = r1.pos + r1.rest.length ∧ r1.stop < 2 ^ 31 := by
        obtain ⟨a1, a2, a3⟩ := hsk
        rw [a1, List.length_append] at hr
        omega
      cases hst : step tag m r1 with
      | error e =>
        rw [hst] at h
        cases h
        have hx := ho hr1.1 hr1.2 hst
        refine ⟨[], [], tag, tb, r1.rest, hsk.1, .nil, ht, ?_⟩
        rw [hsk.2.1] at hx
        simpa using hx
      | ok q =>
        obtain ⟨m', r'⟩ := q
        rw [hst] at h
        simp only [except_ok_bind] at h
        obtain ⟨b1, b2, b3⟩ := hsk.moves.trans (hm hst)
        have hl := List.length_pos_iff.mpr (overflow_loop h).2
        have hlen := congrArg List.length b2
        rw [List.length_drop] at hlen
        obtain ⟨f, b, e1, e2, -⟩ := hs.complete hv hst (by unfold Reader.Within; omega) (by omega)
        obtain ⟨before, fs, tag', tb', x, g1, g2, g3, g4⟩ := ih m' r' (by omega) (by omega) h
        refine ⟨b ++ before, f :: fs, tag', tb', x, by rw [e2.1, g1, List.append_assoc], .cons e1 g2, g3, ?_⟩
        rw [e2.2.1] at g4
        rw [List.length_append, ← Nat.add_assoc]
        exact g4

theorem outer_sound32' (hs : StepExact32 step view E apply)
    (ho : ∀ {tag : Nat} {m : M} {r : Reader}, r.pos + r.rest.length < 2 ^ 31 → Sub tag r.pos r.rest → step tag m r = .error .overflow)
    {fs : List F} {before : Bytes} (hf : Fields E fs before) :
    ∀ (fuel : Nat) (m : M) (r : Reader) (tag : Nat) (tb x : Bytes), r.stop = r.pos + r.rest.length → r.stop < 2 ^ 31 →
      r.rest = before ++ (tb ++ x) → Num32 tb tag →
      Sub tag (r.pos + before.length + tb.length) x → r.rest.length < fuel → readLoop step fuel m r = .error .overflow := by
  have hU := u32_eq
  induction hf with
  | nil =>
    intro fuel m r tag tb x hr hlim hrest ht hx hfuel
    obtain ⟨fuel, rfl⟩ : ∃ k, fuel = k + 1 := ⟨fuel - 1, by omega⟩
    have hpos := Num32_pos ht
    have hl : r.rest.length = tb.length + x.length := by rw [hrest, List.nil_append, List.length_append]
    rw [readLoop, if_neg (by omega)]
    rw [(readVarint32_iff r tag ⟨r.pos + tb.length, r.stop, x⟩).2 ⟨tb, ht, by simpa using hrest, rfl, rfl⟩]
    simp only [except_ok_bind]
    rw [ho (by simp only; omega) (by simpa using hx)]
    rfl
  | @cons f fs b bs hE _ ih =>
    intro fuel m r tag tb x hr hlim hrest ht hx hfuel
    obtain ⟨fuel, rfl⟩ : ∃ k, fuel = k + 1 := ⟨fuel - 1, by omega⟩
    have hpos := hs.pos hE
    rw [List.append_assoc] at hrest
    have hl : r.rest.length = b.length + (bs ++ (tb ++ x)).length := by rw [hrest, List.length_append]
    rw [readLoop, if_neg (by omega)]
    obtain ⟨tag', r1, m1, e1, e2, -⟩ := hs.sound hE m r ⟨r.pos + b.length, r.stop, bs ++ (tb ++ x)⟩ ⟨hrest, rfl, rfl⟩ (by simp only; omega) (by omega)
    rw [e1]
    simp only [except_ok_bind, e2]
    refine ih fuel m1 _ tag tb x (by simp only; omega) hlim rfl ht ?_ (by simp only; omega)
    rw [List.length_append, ← Nat.add_assoc] at hx
    exact hx

theorem outer_iff32 (hs : StepExact32 step view E apply) (hm : ∀ {tag m r m' r'}, step tag m r = .ok (m', r') → r.Moves r')
    (ho : ∀ {tag : Nat} {m : M} {r : Reader}, r.pos + r.rest.length < 2 ^ 31 → Sub tag r.pos r.rest → step tag m r = .error .overflow)
    (ho' : ∀ {tag : Nat} {m : M} {r : Reader}, r.stop = r.pos + r.rest.length → r.stop < 2 ^ 31 → step tag m r = .error .overflow → Sub tag r.pos r.rest)
    (dflt : M) (b : Bytes) (hb : b.length < 2 ^ 31) :
    parseMessage step dflt b = .error .overflow ↔
      ∃ before fs tag tb x, b = before ++ (tb ++ x) ∧ Fields E fs before ∧ Num32 tb tag ∧ Sub tag (before.length + tb.length) x := by
  unfold parseMessage
  rw [bind_error_iff (by intro n h; cases h)]
  constructor
  · intro h
    have := outer_complete32 hs hm ho' _ _ _ (by simp [Reader.ofBytes]) (by simpa [Reader.ofBytes] using hb) h
    simpa [Reader.ofBytes] using this
  · rintro ⟨before, fs, tag, tb, x, h1, h2, h3, h4⟩
    exact outer_sound32' hs ho h2 _ _ _ tag tb x (by simp [Reader.ofBytes]) (by simpa [Reader.ofBytes] using hb) h1 h3
      (by simpa [Reader.ofBytes] using h4) (Nat.lt_succ_self _)

end

/-- At the end of the buffer there is nothing to read behind it. -/
theorem readUnknown_exact32 {r : Reader} (hr : r.stop = r.pos + r.rest.length) (hlim : r.stop < 2 ^ 31) {tag : Nat} :
    r.readUnknown32 tag ≠ .error .overflow := by
  intro h
  have hU := u32_eq
  obtain ⟨-, k, r2, hv, hlt⟩ := (readUnknown_overflow32 _ _ (by omega)).1 h
  obtain ⟨b, -, a1, a2, a3⟩ := (readVarint64_iff ..).1 hv
  rw [a1, List.length_append] at hr
  omega

/-- What panics after a tag of a node. -/
def NodeSub (tag p : Nat) (y : Bytes) : Prop :=
  ∃ lb n x, Num32 lb n ∧ y = lb ++ x ∧ (((tag = 10 ∨ tag = 18) ∧ U32 ≤ p + lb.length + n) ∨
    (tag = 18 ∧ Overruns32 LinkField.Enc32 LinkField.Delimited [10, 18, 24] [10, 18] (p + lb.length) n 0 x))

/-- What panics after a tag of a UnixFS message. -/
def DataSub (tag p : Nat) (y : Bytes) : Prop :=
  ∃ lb n x, Num32 lb n ∧ y = lb ++ x ∧ (((tag = 18 ∨ tag = 66) ∧ U32 ≤ p + lb.length + n) ∨
    (tag = 66 ∧ Overruns32 TimeField.Enc32 TimeField.Delimited [8, 21] [] (p + lb.length) n 0 x))

theorem bytes_sub {r : Reader} (h : r.readBytes32 = .error .overflow) : ∃ lb n x, Num32 lb n ∧ r.rest = lb ++ x ∧ U32 ≤ r.pos + lb.length + n := by
  obtain ⟨k, r2, h1, h2⟩ := (readBytes_overflow32 r).1 h
  obtain ⟨lb, hl, a1, a2, a3⟩ := (readVarint32_iff ..).1 h1
  exact ⟨lb, k, r2.rest, hl, a1, by omega⟩

theorem bytes_sub' {r : Reader} {lb x : Bytes} {n : Nat} (hl : Num32 lb n) (hr : r.rest = lb ++ x) (hu : U32 ≤ r.pos + lb.length + n) :
    r.readBytes32 = .error .overflow :=
  (readBytes_overflow32 r).2 ⟨n, ⟨r.pos + lb.length, r.stop, x⟩, (readVarint32_iff ..).2 ⟨lb, hl, hr, rfl, rfl⟩, hu⟩

theorem node_overflow32 (b : Bytes) (hb : b.length < 2 ^ 31) : PBNode.tryFrom32 b = .error .overflow ↔ NodeBeyond b ∨ NodeOverrun32 b := by
  have key := outer_iff32 (Sub := NodeSub) nodeStep_exact32 nodeStep_moves32
    (fun {tag m r} hr h => by
      obtain ⟨lb, n, x, hl, hx, h | ⟨rfl, h⟩⟩ := h
      · obtain ⟨rfl | rfl, h⟩ := h
        · show (r.readBytes32 >>= _) = _
          rw [bytes_sub' hl hx h]; rfl
        · show (r.readMessage32 PBLink.step32 {} >>= _) = _
          rw [(message_overflow32 linkStep_inner32 {} r hr).2 ⟨lb, n, x, hl, hx, .inl h⟩]; rfl
      · show (r.readMessage32 PBLink.step32 {} >>= _) = _
        rw [(message_overflow32 linkStep_inner32 {} r hr).2 ⟨lb, n, x, hl, hx, .inr h⟩]; rfl)
    (fun {tag m r} hr hlim h => by
      unfold PBNode.step32 at h
      split at h
      · rw [bind_error_iff (by intro n h; cases h)] at h
        obtain ⟨lb, n, x, hl, hx, h⟩ := (message_overflow32 linkStep_inner32 {} r (by omega)).1 h
        exact ⟨lb, n, x, hl, hx, h.imp (fun h => ⟨.inr rfl, h⟩) (fun h => ⟨rfl, h⟩)⟩
      · rw [bind_error_iff (by intro n h; cases h)] at h
        obtain ⟨lb, n, x, hl, hx, h⟩ := bytes_sub h
        exact ⟨lb, n, x, hl, hx, .inl ⟨.inl rfl, h⟩⟩
      · rw [bind_error_iff (by intro n h; cases h)] at h
        exact absurd h (readUnknown_exact32 hr hlim)) {} b hb
  unfold PBNode.tryFrom32 NodeBeyond NodeOverrun32
  rw [key]
  constructor
  · rintro ⟨before, fs, tag, tb, y, h1, h2, h3, lb, n, x, h4, rfl, ⟨h5, h6⟩ | ⟨rfl, h6⟩⟩
    · exact .inl ⟨before, fs, tag, tb, lb, n, x, h1, h2, h3, h5, h4, h6⟩
    · exact .inr ⟨before, fs, tb, lb, n, x, h1, h2, h3, h4, h6⟩
  · rintro (⟨before, fs, tag, tb, lb, n, x, h1, h2, h3, h5, h4, h6⟩ | ⟨before, fs, tb, lb, n, x, h1, h2, h3, h4, h6⟩)
    · exact ⟨before, fs, tag, tb, _, h1, h2, h3, lb, n, x, h4, rfl, .inl ⟨h5, h6⟩⟩
    · exact ⟨before, fs, 18, tb, _, h1, h2, h3, lb, n, x, h4, rfl, .inr ⟨rfl, h6⟩⟩

theorem unixFs_overflow32 (b : Bytes) (hb : b.length < 2 ^ 31) : UnixFs.tryFrom32 (some b) = .error .overflow ↔ DataBeyond b ∨ DataOverrun32 b := by
  have key := outer_iff32 (Sub := DataSub) dataStep_exact32 dataStep_moves32
    (fun {tag m r} hr h => by
      obtain ⟨lb, n, x, hl, hx, h | ⟨rfl, h⟩⟩ := h
      · obtain ⟨rfl | rfl, h⟩ := h
        · show (r.readBytes32 >>= _) = _
          rw [bytes_sub' hl hx h]; rfl
        · show (r.readMessage32 UnixTime.step32 {} >>= _) = _
          rw [(message_overflow32 timeStep_inner32 {} r hr).2 ⟨lb, n, x, hl, hx, .inl h⟩]; rfl
      · show (r.readMessage32 UnixTime.step32 {} >>= _) = _
        rw [(message_overflow32 timeStep_inner32 {} r hr).2 ⟨lb, n, x, hl, hx, .inr h⟩]; rfl)
    (fun {tag m r} hr hlim h => by
      unfold UnixFs.step32 at h
      split at h
      all_goals rw [bind_error_iff (by intro n h; cases h)] at h
      · exact absurd h (readVarint32_no_overflow r)
      · obtain ⟨lb, n, x, hl, hx, h⟩ := bytes_sub h
        exact ⟨lb, n, x, hl, hx, .inl ⟨.inl rfl, h⟩⟩
      · exact absurd h (readVarint64_no_overflow r)
      · exact absurd h (readVarint64_no_overflow r)
      · exact absurd h (readVarint64_no_overflow r)
      · exact absurd h (readVarint64_no_overflow r)
      · exact absurd h (readVarint32_no_overflow r)
      · obtain ⟨lb, n, x, hl, hx, h⟩ := (message_overflow32 timeStep_inner32 {} r (by omega)).1 h
        exact ⟨lb, n, x, hl, hx, h.imp (fun h => ⟨.inr rfl, h⟩) (fun h => ⟨rfl, h⟩)⟩
      · exact absurd h (readUnknown_exact32 hr hlim)) {} b hb
  unfold UnixFs.tryFrom32 DataBeyond DataOverrun32
  show parseMessage UnixFs.step32 {} b = _ ↔ _
  rw [key]
  constructor
  · rintro ⟨before, fs, tag, tb, y, h1, h2, h3, lb, n, x, h4, rfl, ⟨h5, h6⟩ | ⟨rfl, h6⟩⟩
    · exact .inl ⟨before, fs, tag, tb, lb, n, x, h1, h2, h3, h5, h4, h6⟩
    · exact .inr ⟨before, fs, tb, lb, n, x, h1, h2, h3, h4, h6⟩
  · rintro (⟨before, fs, tag, tb, lb, n, x, h1, h2, h3, h5, h4, h6⟩ | ⟨before, fs, tb, lb, n, x, h1, h2, h3, h4, h6⟩)
    · exact ⟨before, fs, tag, tb, _, h1, h2, h3, lb, n, x, h4, rfl, .inl ⟨h5, h6⟩⟩
    · exact ⟨before, fs, 66, tb, _, h1, h2, h3, lb, n, x, h4, rfl, .inr ⟨rfl, h6⟩⟩

end Verif
