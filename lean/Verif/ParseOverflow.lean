import Verif.Spec.Overrun
import Verif.ParseExact
/-
Exactly when the readers get to the subtraction which overflows.
-/
namespace Verif
open Spec

theorem decVarintF_no_overflow : ∀ (k : Nat) (b : Bytes), decVarintF k b ≠ .error .overflow
  | 0, _, h => by cases h
  | k + 1, [], h => by cases h
  | k + 1, b :: t, h => by
    rw [decVarintF] at h
    split at h
    · cases h
    · cases hd : decVarintF k t with
      | error e => rw [hd] at h; cases h; exact decVarintF_no_overflow k t hd
      | ok p => rw [hd] at h; cases h

theorem readVarint32_no_overflow (r : Reader) : r.readVarint32 ≠ .error .overflow := by
  intro h
  unfold Reader.readVarint32 at h
  cases hd : decVarintF 10 r.rest with
  | error e => rw [hd] at h; cases h; exact decVarintF_no_overflow _ _ hd
  | ok p => rw [hd] at h; cases h

theorem readVarint64_no_overflow (r : Reader) : r.readVarint64 ≠ .error .overflow := by
  intro h
  unfold Reader.readVarint64 at h
  cases hd : decVarintF 10 r.rest with
  | error e => rw [hd] at h; cases h; exact decVarintF_no_overflow _ _ hd
  | ok p => rw [hd] at h; cases h

theorem readBytes_no_overflow (r : Reader) : r.readBytes ≠ .error .overflow := by
  intro h
  unfold Reader.readBytes at h
  cases hd : r.readVarint32 with
  | error e => rw [hd] at h; cases h; exact readVarint32_no_overflow _ hd
  | ok p =>
    rw [hd] at h
    simp only [except_ok_bind] at h
    split at h <;> cases h

theorem readString_no_overflow (r : Reader) : r.readString ≠ .error .overflow := by
  intro h
  unfold Reader.readString at h
  cases hd : r.readBytes with
  | error e => rw [hd] at h; cases h; exact readBytes_no_overflow _ hd
  | ok p =>
    rw [hd] at h
    simp only [except_ok_bind] at h
    split at h <;> cases h

theorem readFixed32_no_overflow (r : Reader) : r.readFixed32 ≠ .error .overflow := by
  intro h
  unfold Reader.readFixed32 at h
  split at h <;> cases h

theorem bind_error_iff {N M : Type} {x : Except PbError N} {k : N → Except PbError M} {e : PbError} (hk : ∀ n, k n ≠ .error e) :
    (x >>= k) = .error e ↔ x = .error e := by
  cases x with
  | error e' => simp
  | ok n => simpa using hk n

/-- When the subtraction overflows. -/
theorem readUnknown_overflow (r : Reader) (tag : Nat) : r.readUnknown tag = .error .overflow ↔
    tag % 8 = 2 ∧ ∃ k r2, r.readVarint64 = .ok (k, r2) ∧ r.stop < r2.pos := by
  unfold Reader.readUnknown
  split
  · rename_i ht
    rw [bind_error_iff (by intro n h; cases h)]
    exact ⟨fun h => absurd h (readVarint64_no_overflow r), fun h => by omega⟩
  · rename_i ht; exact ⟨nofun, fun h => by omega⟩
  · rename_i ht
    constructor
    · intro h
      cases hv : r.readVarint64 with
      | error e => rw [hv] at h; cases h; exact absurd hv (readVarint64_no_overflow r)
      | ok p =>
        obtain ⟨k, r2⟩ := p
        rw [hv] at h
        simp only [except_ok_bind] at h
        have := ((readVarint64_iff ..).1 hv).choose_spec.2.2.2
        split at h
        · rename_i hlt; exact ⟨ht, k, r2, rfl, by omega⟩
        · split at h <;> cases h
    · rintro ⟨-, k, r2, hv, hlt⟩
      have := ((readVarint64_iff ..).1 hv).choose_spec.2.2.2
      rw [hv]
      simp only [except_ok_bind]
      rw [if_pos (by omega)]
  · rename_i ht; exact ⟨nofun, fun h => by omega⟩
  · rename_i ht; exact ⟨nofun, fun h => by omega⟩
  · rename_i ht; exact ⟨nofun, fun h => by omega⟩
  · rename_i h2 _ _ _; exact ⟨nofun, fun h => absurd h.1 h2⟩

theorem drop_skips' (r : Reader) (n : Nat) (h : r.rest.drop n ≠ []) :
    (r.rest.take n).length = n ∧ r.Skips (r.rest.take n) { r with pos := r.pos + n, rest := r.rest.drop n } := by
  have hl : n < r.rest.length := by
    have := List.length_pos_iff.mpr h
    rw [List.length_drop] at this
    omega
  have : (r.rest.take n).length = n := by rw [List.length_take]; omega
  exact ⟨this, by simp, by simp only [this], rfl⟩

/-- Unknown fields with a length. -/
def UnkBytes (u : Unk) : Prop := ∃ x, u.payload = .bytes x

theorem readUnknown_complete' {r r' : Reader} {tag : Nat} (h : r.readUnknown tag = .ok r') (hne : r'.rest ≠ []) :
    ∃ u b, Unk.tag u = tag ∧ u.payload.Enc b ∧ r.Skips b r' ∧ (UnkBytes u → r'.pos ≤ r.stop) := by
  unfold Reader.readUnknown at h
  split at h
  · rename_i ht
    cases hv : r.readVarint64 with
    | error e => rw [hv] at h; cases h
    | ok p =>
      rw [hv] at h; cases h
      obtain ⟨b, hn, hs⟩ := (readVarint64_iff ..).1 hv
      exact ⟨⟨tag / 8, .varint p.1⟩, b, by simp only [Unk.tag]; omega, .varint hn, hs, fun ⟨x, h⟩ => by cases h⟩
  · rename_i ht
    cases h
    obtain ⟨h1, h2⟩ := drop_skips' r 8 hne
    exact ⟨⟨tag / 8, .fixed64 _⟩, _, by simp only [Unk.tag]; omega, .fixed64 h1, h2, fun ⟨x, h⟩ => by cases h⟩
  · rename_i ht
    cases hv : r.readVarint64 with
    | error e => rw [hv] at h; cases h
    | ok p =>
      obtain ⟨len, r1⟩ := p
      rw [hv] at h
      obtain ⟨b, hn, hs⟩ := (readVarint64_iff ..).1 hv
      simp only [except_ok_bind] at h
      split at h
      · cases h
      · split at h
        · cases h
        · cases h
          obtain ⟨h1, h2⟩ := drop_skips' r1 len hne
          have := hs.2.2
          refine ⟨⟨tag / 8, .bytes (r1.rest.take len)⟩, _, by simp only [Unk.tag]; omega, .bytes (lb := b) (by rw [h1]; exact hn), hs.trans h2, fun _ => ?_⟩
          simp only; omega
  · rename_i ht
    cases h
    obtain ⟨h1, h2⟩ := drop_skips' r 4 hne
    exact ⟨⟨tag / 8, .fixed32 _⟩, _, by simp only [Unk.tag]; omega, .fixed32 h1, h2, fun ⟨x, h⟩ => by cases h⟩
  all_goals cases h

theorem readUnknown_sound' {r r' : Reader} {u : Unk} {b : Bytes} (h : u.payload.Enc b) (hs : r.Skips b r') (hp : UnkBytes u → r'.pos ≤ r.stop) :
    r.readUnknown u.tag = .ok r' := by
  by_cases hb : UnkBytes u
  · exact readUnknown_sound h hs (hp hb)
  · -- the other kinds do not look at the end
    have hs' : Reader.Skips { r with stop := r'.pos } b { r' with stop := r'.pos } := ⟨hs.1, hs.2.1, rfl⟩
    have key := readUnknown_sound h hs' (Nat.le_refl _)
    obtain ⟨num, pl⟩ := u
    have hst := hs.2.2
    cases pl with
    | bytes x => exact absurd ⟨x, rfl⟩ hb
    | varint n =>
      have ht : (Unk.mk num (.varint n)).tag % 8 = 0 := by simp [Unk.tag]
      unfold Reader.readUnknown at key ⊢
      rw [ht] at key ⊢
      cases h with
      | varint hn => simp only; rw [(readVarint64_iff ..).2 ⟨b, hn, hs⟩]; rfl
    | fixed64 x =>
      have ht : (Unk.mk num (.fixed64 x)).tag % 8 = 1 := by simp [Unk.tag]
      unfold Reader.readUnknown at key ⊢
      rw [ht] at key ⊢
      simp only [Except.ok.injEq] at key ⊢
      have e1 := congrArg Reader.pos key
      have e3 := congrArg Reader.rest key
      exact Reader.ext' e1 hst.symm e3
    | fixed32 x =>
      have ht : (Unk.mk num (.fixed32 x)).tag % 8 = 5 := by simp [Unk.tag]
      unfold Reader.readUnknown at key ⊢
      rw [ht] at key ⊢
      simp only [Except.ok.injEq] at key ⊢
      have e1 := congrArg Reader.pos key
      have e3 := congrArg Reader.rest key
      exact Reader.ext' e1 hst.symm e3

theorem unk_complete' {known : List Nat} {r r1 r' : Reader} {tag : Nat} (hv : r.readVarint32 = .ok (tag, r1)) (hk : tag ∉ known)
    (h : r1.readUnknown tag = .ok r') (hne : r'.rest ≠ []) :
    ∃ u b, Unk.Enc known u b ∧ r.Skips b r' ∧ (UnkBytes u → r'.pos ≤ r.stop) := by
  obtain ⟨tb, h1, h2⟩ := (readVarint32_iff ..).1 hv
  obtain ⟨u, b, rfl, e2, e3, e4⟩ := readUnknown_complete' h hne
  exact ⟨u, tb ++ b, ⟨hk, tb, b, rfl, h1, e2⟩, h2.trans e3, fun hu => by rw [← h2.2.2]; exact e4 hu⟩

theorem unk_sound' {known : List Nat} {u : Unk} {b : Bytes} (h : Unk.Enc known u b) {r r' : Reader} (hs : r.Skips b r')
    (hp : UnkBytes u → r'.pos ≤ r.stop) : u.tag ∉ known ∧ ∃ r1, r.readVarint32 = .ok (u.tag, r1) ∧ r1.readUnknown u.tag = .ok r' := by
  obtain ⟨hk, tb, pb, rfl, h1, h2⟩ := h
  obtain ⟨r1, s1, s2⟩ := hs.split
  exact ⟨hk, r1, (readVarint32_iff ..).2 ⟨tb, h1, s1⟩, readUnknown_sound' h2 s2 (fun hu => by rw [s1.2.2]; exact hp hu)⟩

/-! ### the nested messages -/

/-- One field of a nested message, wherever the end is. -/
structure InnerExact {M F : Type} (step : Nat → M → Reader → Except PbError (M × Reader)) (E : F → Bytes → Prop) (D : F → Prop)
    (known : List Nat) : Prop where
  pos : ∀ {f b}, E f b → 0 < b.length
  sound : ∀ {f b}, E f b → ∀ (m : M) (r r' : Reader), r.Skips b r' → (D f → r'.pos ≤ r.stop) →
    ∃ tag r1 m', r.readVarint32 = .ok (tag, r1) ∧ step tag m r1 = .ok (m', r')
  complete : ∀ {tag : Nat} {m : M} {r r1 : Reader} {m' : M} {r' : Reader}, r.readVarint32 = .ok (tag, r1) → step tag m r1 = .ok (m', r') →
    r'.rest ≠ [] → ∃ f b, E f b ∧ r.Skips b r' ∧ (D f → r'.pos ≤ r.stop)
  over : ∀ {tag : Nat} {m : M} {r : Reader}, step tag m r = .error .overflow ↔
    tag ∉ known ∧ tag % 8 = 2 ∧ ∃ k r2, r.readVarint64 = .ok (k, r2) ∧ r.stop < r2.pos

section
variable {M F : Type} {step : Nat → M → Reader → Except PbError (M × Reader)} {E : F → Bytes → Prop} {D : F → Prop} {known : List Nat}

theorem overflow_loop {fuel : Nat} {m : M} {r : Reader} (h : readLoop step fuel m r = .error .overflow) : r.pos ≠ r.stop ∧ r.rest ≠ [] := by
  cases fuel with
  | zero => cases h
  | succ fuel =>
    rw [readLoop] at h
    by_cases he : r.pos = r.stop
    · rw [if_pos he] at h; cases h
    · refine ⟨he, fun h0 => ?_⟩
      rw [if_neg he] at h
      have : r.readVarint32 = .error .unexpectedEnd := by unfold Reader.readVarint32; rw [h0]; rfl
      rw [this] at h
      cases h

theorem inner_complete (hi : InnerExact step E D known) (base n : Nat) : ∀ (fuel : Nat) (m : M) (p : Nat) (rest : Bytes),
    readLoop step fuel m ⟨base + p, base + n, rest⟩ = .error .overflow → Overruns E D known n p rest := by
  intro fuel
  induction fuel with
  | zero => intro m p rest h; cases h
  | succ fuel ih =>
    intro m p rest h
    have hp : p ≠ n := by
      have := (overflow_loop h).1
      simp only at this
      omega
    rw [readLoop, if_neg (by simp only; omega)] at h
    cases hv : Reader.readVarint32 ⟨base + p, base + n, rest⟩ with
    | error e => rw [hv] at h; cases h; exact absurd hv (readVarint32_no_overflow _)
    | ok q =>
      obtain ⟨tag, r1⟩ := q
      rw [hv] at h
      simp only [except_ok_bind] at h
      obtain ⟨tb, ht, hs⟩ := (readVarint32_iff ..).1 hv
      cases hst : step tag m r1 with
      | error e =>
        rw [hst] at h
        cases h
        obtain ⟨h1, h2, k, r2, h3, h4⟩ := hi.over.1 hst
        obtain ⟨lb, hl, hs2⟩ := (readVarint64_iff ..).1 h3
        obtain ⟨a1, a2, a3⟩ := hs
        obtain ⟨b1, b2, b3⟩ := hs2
        simp only at a1 a2 a3
        rw [b1] at a1
        subst a1
        exact .now hp ht h1 h2 hl (by omega)
      | ok q =>
        obtain ⟨m', r'⟩ := q
        rw [hst] at h
        simp only [except_ok_bind] at h
        have hne := (overflow_loop h).2
        obtain ⟨f, b, e1, e2, e3⟩ := hi.complete hv hst hne
        obtain ⟨pos, stop, rest'⟩ := r'
        obtain ⟨a1, a2, a3⟩ := e2
        simp only at a1 a2 a3 e3
        subst a1 a2 a3
        refine .later hp e1 (fun hd => by have := e3 hd; omega) (ih m' _ _ ?_)
        rw [← Nat.add_assoc]; exact h

theorem inner_sound (hi : InnerExact step E D known) (base n : Nat) {p : Nat} {rest : Bytes} (h : Overruns E D known n p rest) :
    ∀ (fuel : Nat) (m : M), rest.length < fuel → readLoop step fuel m ⟨base + p, base + n, rest⟩ = .error .overflow := by
  induction h with
  | @now p tag k tb lb rest hp ht h1 h2 hl hn =>
    intro fuel m hf
    obtain ⟨fuel, rfl⟩ : ∃ k, fuel = k + 1 := ⟨fuel - 1, by omega⟩
    rw [readLoop, if_neg (by simp only; omega)]
    rw [(readVarint32_iff ⟨base + p, base + n, tb ++ (lb ++ rest)⟩ tag ⟨base + p + tb.length, base + n, lb ++ rest⟩).2 ⟨tb, ht, rfl, rfl, rfl⟩]
    simp only [except_ok_bind]
    rw [(hi.over (m := m) (r := ⟨base + p + tb.length, base + n, lb ++ rest⟩)).2 ⟨h1, h2, k, ⟨base + p + tb.length + lb.length, base + n, rest⟩,
      (readVarint64_iff ⟨base + p + tb.length, base + n, lb ++ rest⟩ k ⟨base + p + tb.length + lb.length, base + n, rest⟩).2 ⟨lb, hl, rfl, rfl, rfl⟩, by simp only; omega⟩]
    rfl
  | @later p f b rest hp he hd _ ih =>
    intro fuel m hf
    obtain ⟨fuel, rfl⟩ : ∃ k, fuel = k + 1 := ⟨fuel - 1, by omega⟩
    rw [readLoop, if_neg (by simp only; omega)]
    obtain ⟨tag, r1, m', e1, e2⟩ := hi.sound he m ⟨base + p, base + n, b ++ rest⟩ ⟨base + p + b.length, base + n, rest⟩ ⟨rfl, rfl, rfl⟩
      (fun h => by have := hd h; simp only; omega)
    rw [e1]
    simp only [except_ok_bind, e2]
    have hb := hi.pos he
    rw [List.length_append] at hf
    have := ih fuel m' (by omega)
    rw [← Nat.add_assoc] at this
    exact this

theorem message_overflow (hi : InnerExact step E D known) (dflt : M) (r : Reader) : r.readMessage step dflt = .error .overflow ↔
    ∃ lb n x, Num32 lb n ∧ r.rest = lb ++ x ∧ Overruns E D known n 0 x := by
  unfold Reader.readMessage
  constructor
  · intro h
    cases hv : r.readVarint32 with
    | error e => rw [hv] at h; cases h; exact absurd hv (readVarint32_no_overflow _)
    | ok q =>
      obtain ⟨len, r1⟩ := q
      rw [hv] at h
      simp only [except_ok_bind] at h
      obtain ⟨lb, hl, hs⟩ := (readVarint32_iff ..).1 hv
      rw [bind_error_iff (by intro n h; cases h)] at h
      exact ⟨lb, len, r1.rest, hl, hs.1, inner_complete hi r1.pos len _ dflt 0 r1.rest h⟩
  · rintro ⟨lb, n, x, hl, hr, ho⟩
    rw [(readVarint32_iff r n ⟨r.pos + lb.length, r.stop, x⟩).2 ⟨lb, hl, hr, rfl, rfl⟩]
    simp only [except_ok_bind]
    rw [bind_error_iff (by intro n h; cases h)]
    exact inner_sound hi (r.pos + lb.length) n ho _ dflt (by simp only; omega)

end

theorem linkStep_inner : InnerExact PBLink.step LinkField.Enc LinkField.Delimited [10, 18, 24] where
  pos := linkStep_exact.pos
  sound := by
    intro f b h m r r' hs hp
    cases f with
    | hash x =>
      obtain ⟨r1, lb, e1, e2, e3⟩ := bytes_sound h hs
      obtain ⟨o, e4⟩ := (readBytes_iff ..).2 ⟨lb, e2, e3⟩
      exact ⟨10, r1, _, e1, (pay_iff (by intros; rfl)).2 ⟨_, e4, rfl⟩⟩
    | name x =>
      obtain ⟨r1, lb, e1, e2, e3⟩ := bytes_sound h.1 hs
      exact ⟨18, r1, _, e1, (payString_iff (by intros; rfl)).2 ⟨x, lb, (validUtf8_iff _).2 h.2, e2, e3, rfl⟩⟩
    | tsize n =>
      obtain ⟨r1, nb, e1, e2, e3⟩ := num_sound h hs
      exact ⟨24, r1, _, e1, (pay64_iff (by intros; rfl)).2 ⟨n, nb, e2, e3, rfl⟩⟩
    | unk u =>
      obtain ⟨hk, r1, e1, e2⟩ := unk_sound' h hs (by
        rintro ⟨x, hx⟩; obtain ⟨num, pl⟩ := u; cases hx; exact hp trivial)
      refine ⟨_, r1, m, e1, ?_⟩
      unfold PBLink.step
      split <;> first | (exfalso; simp_all; done) | exact payUnknown_iff.2 ⟨e2, rfl⟩
  complete := by
    intro tag m r r1 m' r' hv hst hne
    unfold PBLink.step at hst
    split at hst
    · obtain ⟨s, h, rfl⟩ := (pay_iff (by intros; rfl)).1 hst
      obtain ⟨lb, h1, h2⟩ := (readBytes_iff r1 s.val r').1 ⟨s.off, h⟩
      obtain ⟨tb, h3, h4⟩ := tagged hv h2
      exact ⟨.hash s.val, _, ⟨tb, lb, rfl, h3, h1⟩, h4, False.elim⟩
    · obtain ⟨s, lb, h0, h1, h2, rfl⟩ := (payString_iff (by intros; rfl)).1 hst
      obtain ⟨tb, h3, h4⟩ := tagged hv h2
      exact ⟨.name s, _, ⟨⟨tb, lb, rfl, h3, h1⟩, (validUtf8_iff _).1 h0⟩, h4, False.elim⟩
    · obtain ⟨n, nb, h1, h2, rfl⟩ := (pay64_iff (by intros; rfl)).1 hst
      obtain ⟨tb, h3, h4⟩ := tagged hv h2
      exact ⟨.tsize n, _, ⟨tb, nb, rfl, h3, h1⟩, h4, False.elim⟩
    · rename_i t n1 n2 n3
      obtain ⟨h, rfl⟩ := payUnknown_iff.1 hst
      obtain ⟨u, b, h1, h2, h3⟩ := unk_complete' (known := [10, 18, 24]) hv (by simp; exact ⟨n1, n2, n3⟩) h hne
      refine ⟨.unk u, b, h1, h2, fun hd => h3 ?_⟩
      obtain ⟨num, pl⟩ := u
      cases pl with
      | bytes x => exact ⟨x, rfl⟩
      | _ => exact hd.elim
  over := by
    intro tag m r
    unfold PBLink.step
    split
    · rw [bind_error_iff (by intro n h; cases h)]
      exact ⟨fun h => absurd h (readBytes_no_overflow r), fun h => absurd h.1 (by simp)⟩
    · rw [bind_error_iff (by intro n h; cases h)]
      exact ⟨fun h => absurd h (readString_no_overflow r), fun h => absurd h.1 (by simp)⟩
    · rw [bind_error_iff (by intro n h; cases h)]
      exact ⟨fun h => absurd h (readVarint64_no_overflow r), fun h => absurd h.1 (by simp)⟩
    · rename_i t n1 n2 n3
      rw [bind_error_iff (by intro n h; cases h), readUnknown_overflow]
      exact ⟨fun h => ⟨by simp; exact ⟨n1, n2, n3⟩, h⟩, fun h => h.2⟩

theorem timeStep_inner : InnerExact UnixTime.step TimeField.Enc TimeField.Delimited [8, 21] where
  pos := timeStep_exact.pos
  sound := by
    intro f b h m r r' hs hp
    cases f with
    | seconds n =>
      obtain ⟨r1, nb, e1, e2, e3⟩ := num_sound h hs
      exact ⟨8, r1, _, e1, (pay64_iff (by intros; rfl)).2 ⟨n, nb, e2, e3, rfl⟩⟩
    | nanos n =>
      obtain ⟨r1, nb, e1, e2, e3⟩ := num_sound h hs
      exact ⟨21, r1, _, e1, (payFixed_iff (by intros; rfl)).2 ⟨n, nb, e2, e3, rfl⟩⟩
    | unk u =>
      obtain ⟨hk, r1, e1, e2⟩ := unk_sound' h hs (by
        rintro ⟨x, hx⟩; obtain ⟨num, pl⟩ := u; cases hx; exact hp trivial)
      refine ⟨_, r1, m, e1, ?_⟩
      unfold UnixTime.step
      split <;> first | (exfalso; simp_all; done) | exact payUnknown_iff.2 ⟨e2, rfl⟩
  complete := by
    intro tag m r r1 m' r' hv hst hne
    unfold UnixTime.step at hst
    split at hst
    · obtain ⟨n, nb, h1, h2, rfl⟩ := (pay64_iff (by intros; rfl)).1 hst
      obtain ⟨tb, h3, h4⟩ := tagged hv h2
      exact ⟨.seconds n, _, ⟨tb, nb, rfl, h3, h1⟩, h4, False.elim⟩
    · obtain ⟨n, nb, h1, h2, rfl⟩ := (payFixed_iff (by intros; rfl)).1 hst
      obtain ⟨tb, h3, h4⟩ := tagged hv h2
      exact ⟨.nanos n, _, ⟨tb, nb, rfl, h3, h1⟩, h4, False.elim⟩
    · rename_i t n1 n2
      obtain ⟨h, rfl⟩ := payUnknown_iff.1 hst
      obtain ⟨u, b, h1, h2, h3⟩ := unk_complete' (known := [8, 21]) hv (by simp; exact ⟨n1, n2⟩) h hne
      refine ⟨.unk u, b, h1, h2, fun hd => h3 ?_⟩
      obtain ⟨num, pl⟩ := u
      cases pl with
      | bytes x => exact ⟨x, rfl⟩
      | _ => exact hd.elim
  over := by
    intro tag m r
    unfold UnixTime.step
    split
    · rw [bind_error_iff (by intro n h; cases h)]
      exact ⟨fun h => absurd h (readVarint64_no_overflow r), fun h => absurd h.1 (by simp)⟩
    · rw [bind_error_iff (by intro n h; cases h)]
      exact ⟨fun h => absurd h (readFixed32_no_overflow r), fun h => absurd h.1 (by simp)⟩
    · rename_i t n1 n2
      rw [bind_error_iff (by intro n h; cases h), readUnknown_overflow]
      exact ⟨fun h => ⟨by simp; exact ⟨n1, n2⟩, h⟩, fun h => h.2⟩

/-! ### the messages around them -/

/-- The reader has gone on, possibly behind the end of the buffer. -/
def Reader.Moves (r r' : Reader) : Prop := r.pos ≤ r'.pos ∧ r'.rest = r.rest.drop (r'.pos - r.pos) ∧ r'.stop = r.stop

theorem Reader.Moves.trans {r r1 r2 : Reader} (h : r.Moves r1) (h' : r1.Moves r2) : r.Moves r2 := by
  obtain ⟨a1, a2, a3⟩ := h
  obtain ⟨b1, b2, b3⟩ := h'
  refine ⟨by omega, ?_, b3.trans a3⟩
  rw [b2, a2, List.drop_drop]
  congr 1
  omega

theorem Reader.Skips.moves {r r' : Reader} {b : Bytes} (h : r.Skips b r') : r.Moves r' := by
  obtain ⟨h1, h2, h3⟩ := h
  refine ⟨by omega, ?_, h3⟩
  rw [h1, show r'.pos - r.pos = b.length by omega, List.drop_left]

theorem readUnknown_moves {r r' : Reader} {tag : Nat} (h : r.readUnknown tag = .ok r') : r.Moves r' := by
  have hd : ∀ (r : Reader) (n : Nat), r.Moves { r with pos := r.pos + n, rest := r.rest.drop n } := by
    intro r n
    exact ⟨by simp only; omega, by simp only [Nat.add_sub_cancel_left], rfl⟩
  unfold Reader.readUnknown at h
  split at h
  · cases hv : r.readVarint64 with
    | error e => rw [hv] at h; cases h
    | ok p =>
      rw [hv] at h; cases h
      obtain ⟨b, -, hs⟩ := (readVarint64_iff ..).1 hv
      exact hs.moves
  · cases h; exact hd r 8
  · cases hv : r.readVarint64 with
    | error e => rw [hv] at h; cases h
    | ok p =>
      obtain ⟨len, r1⟩ := p
      rw [hv] at h
      obtain ⟨b, -, hs⟩ := (readVarint64_iff ..).1 hv
      simp only [except_ok_bind] at h
      split at h
      · cases h
      · split at h
        · cases h
        · cases h; exact hs.moves.trans (hd r1 len)
  · cases h; exact hd r 4
  all_goals cases h

section
variable {M : Type} {step : Nat → M → Reader → Except PbError (M × Reader)}

theorem readLoop_moves (hm : ∀ {tag m r m' r'}, step tag m r = .ok (m', r') → r.Moves r') :
    ∀ (fuel : Nat) (m : M) (r : Reader) (m' : M) (r' : Reader), readLoop step fuel m r = .ok (m', r') → r.Moves r' ∧ r'.pos = r'.stop
  | 0, m, r, m', r', h => by cases h
  | fuel + 1, m, r, m', r', h => by
    rw [readLoop] at h
    by_cases he : r.pos = r.stop
    · rw [if_pos he] at h; cases h; exact ⟨⟨Nat.le_refl _, by simp, rfl⟩, he⟩
    · rw [if_neg he] at h
      cases hv : r.readVarint32 with
      | error e => rw [hv] at h; cases h
      | ok p =>
        obtain ⟨tag, r1⟩ := p
        rw [hv] at h
        simp only [except_ok_bind] at h
        cases hst : step tag m r1 with
        | error e => rw [hst] at h; cases h
        | ok q =>
          obtain ⟨m2, r2⟩ := q
          rw [hst] at h
          obtain ⟨h1, h2⟩ := readLoop_moves hm fuel m2 r2 m' r' h
          obtain ⟨b, -, hs⟩ := (readVarint32_iff ..).1 hv
          exact ⟨hs.moves.trans ((hm hst).trans h1), h2⟩

theorem readMessage_moves (hm : ∀ {tag m r m' r'}, step tag m r = .ok (m', r') → r.Moves r') {dflt m' : M} {r r' : Reader}
    (h : r.readMessage step dflt = .ok (m', r')) : r.Moves r' := by
  unfold Reader.readMessage at h
  cases hv : r.readVarint32 with
  | error e => rw [hv] at h; cases h
  | ok p =>
    obtain ⟨len, r1⟩ := p
    rw [hv] at h
    simp only [except_ok_bind] at h
    obtain ⟨b, -, hk⟩ := (readVarint32_iff ..).1 hv
    cases hf : fromReader step dflt { r1 with stop := r1.pos + len } with
    | error e => rw [hf] at h; cases h
    | ok q =>
      obtain ⟨m2, r2⟩ := q
      rw [hf] at h
      cases h
      obtain ⟨⟨a1, a2, a3⟩, h2⟩ := readLoop_moves hm _ _ _ _ _ hf
      simp only at a1 a2 a3
      refine hk.moves.trans ⟨?_, ?_, rfl⟩
      · simp only; omega
      · simp only; rw [a2, h2]

end

theorem linkStep_moves {tag m r m' r'} (h : PBLink.step tag m r = .ok (m', r')) : r.Moves r' := by
  unfold PBLink.step at h
  split at h
  · obtain ⟨s, h, -⟩ := (pay_iff (by intros; rfl)).1 h
    obtain ⟨lb, -, h2⟩ := (readBytes_iff r s.val r').1 ⟨s.off, h⟩; exact h2.moves
  · obtain ⟨s, lb, -, -, h, -⟩ := (payString_iff (by intros; rfl)).1 h; exact h.moves
  · obtain ⟨n, b, -, h, -⟩ := (pay64_iff (by intros; rfl)).1 h; exact h.moves
  · exact readUnknown_moves (payUnknown_iff.1 h).1

theorem timeStep_moves {tag m r m' r'} (h : UnixTime.step tag m r = .ok (m', r')) : r.Moves r' := by
  unfold UnixTime.step at h
  split at h
  · obtain ⟨n, b, -, h, -⟩ := (pay64_iff (by intros; rfl)).1 h; exact h.moves
  · obtain ⟨n, b, -, h, -⟩ := (payFixed_iff (by intros; rfl)).1 h; exact h.moves
  · exact readUnknown_moves (payUnknown_iff.1 h).1

theorem nodeStep_moves {tag m r m' r'} (h : PBNode.step tag m r = .ok (m', r')) : r.Moves r' := by
  unfold PBNode.step at h
  split at h
  · obtain ⟨s, h, -⟩ := (pay_iff (by intros; rfl)).1 h; exact readMessage_moves linkStep_moves h
  · obtain ⟨s, h, -⟩ := (pay_iff (by intros; rfl)).1 h
    obtain ⟨lb, -, h2⟩ := (readBytes_iff r s.val r').1 ⟨s.off, h⟩; exact h2.moves
  · exact readUnknown_moves (payUnknown_iff.1 h).1

theorem dataStep_moves {tag m r m' r'} (h : UnixFs.step tag m r = .ok (m', r')) : r.Moves r' := by
  unfold UnixFs.step at h
  split at h
  · obtain ⟨n, b, -, h, -⟩ := (pay32_iff (by intros; rfl)).1 h; exact h.moves
  · obtain ⟨s, h, -⟩ := (pay_iff (by intros; rfl)).1 h
    obtain ⟨lb, -, h2⟩ := (readBytes_iff r s.val r').1 ⟨s.off, h⟩; exact h2.moves
  · obtain ⟨n, b, -, h, -⟩ := (pay64_iff (by intros; rfl)).1 h; exact h.moves
  · obtain ⟨n, b, -, h, -⟩ := (pay64_iff (by intros; rfl)).1 h; exact h.moves
  · obtain ⟨n, b, -, h, -⟩ := (pay64_iff (by intros; rfl)).1 h; exact h.moves
  · obtain ⟨n, b, -, h, -⟩ := (pay64_iff (by intros; rfl)).1 h; exact h.moves
  · obtain ⟨n, b, -, h, -⟩ := (pay32_iff (by intros; rfl)).1 h; exact h.moves
  · obtain ⟨s, h, -⟩ := (pay_iff (by intros; rfl)).1 h; exact readMessage_moves timeStep_moves h
  · exact readUnknown_moves (payUnknown_iff.1 h).1

section
variable {M V F : Type} {step : Nat → M → Reader → Except PbError (M × Reader)} {view : M → V} {E : F → Bytes → Prop}
  {apply : V → F → V} {special : Nat} {Sub : Bytes → Prop}

theorem outer_complete (hs : StepExact step view E apply) (hm : ∀ {tag m r m' r'}, step tag m r = .ok (m', r') → r.Moves r')
    (ho : ∀ {tag m r}, r.stop = r.pos + r.rest.length → step tag m r = .error .overflow → tag = special ∧ Sub r.rest) :
    ∀ (fuel : Nat) (m : M) (r : Reader), r.stop = r.pos + r.rest.length → readLoop step fuel m r = .error .overflow →
      ∃ before fs tb x, r.rest = before ++ (tb ++ x) ∧ Fields E fs before ∧ Num32 tb special ∧ Sub x := by
  intro fuel
  induction fuel with
  | zero => intro m r _ h; cases h
  | succ fuel ih =>
    intro m r hr h
    have hne := (overflow_loop h).1
    rw [readLoop, if_neg hne] at h
    cases hv : r.readVarint32 with
    | error e => rw [hv] at h; cases h; exact absurd hv (readVarint32_no_overflow _)
    | ok q =>
      obtain ⟨tag, r1⟩ := q
      rw [hv] at h
      simp only [except_ok_bind] at h
      obtain ⟨tb, ht, hsk⟩ := (readVarint32_iff ..).1 hv
      have hr1 : r1.stop = r1.pos + r1.rest.length := by
        obtain ⟨a1, a2, a3⟩ := hsk
        rw [a1, List.length_append] at hr
        omega
      cases hst : step tag m r1 with
      | error e =>
        rw [hst] at h
        cases h
        obtain ⟨rfl, hx⟩ := ho hr1 hst
        exact ⟨[], [], tb, r1.rest, hsk.1, .nil, ht, hx⟩
      | ok q =>
        obtain ⟨m', r'⟩ := q
        rw [hst] at h
        simp only [except_ok_bind] at h
        obtain ⟨b1, b2, b3⟩ := hsk.moves.trans (hm hst)
        have hl := List.length_pos_iff.mpr (overflow_loop h).2
        have hlen := congrArg List.length b2
        rw [List.length_drop] at hlen
        obtain ⟨f, b, e1, e2, -⟩ := hs.complete hv hst (by unfold Reader.Within; omega) (by omega)
        obtain ⟨before, fs, tb', x, g1, g2, g3, g4⟩ := ih m' r' (by omega) h
        exact ⟨b ++ before, f :: fs, tb', x, by rw [e2.1, g1, List.append_assoc], .cons e1 g2, g3, g4⟩

theorem outer_sound (hs : StepExact step view E apply)
    (ho : ∀ {m r}, Sub r.rest → step special m r = .error .overflow) {fs : List F} {before : Bytes} (hf : Fields E fs before) :
    ∀ (fuel : Nat) (m : M) (r : Reader) (tb x : Bytes), r.stop = r.pos + r.rest.length → r.rest = before ++ (tb ++ x) → Num32 tb special →
      Sub x → r.rest.length < fuel → readLoop step fuel m r = .error .overflow := by
  induction hf with
  | nil =>
    intro fuel m r tb x hr hrest ht hx hfuel
    obtain ⟨fuel, rfl⟩ : ∃ k, fuel = k + 1 := ⟨fuel - 1, by omega⟩
    have hpos := Num32_pos ht
    have hl : 0 < r.rest.length := by rw [hrest, List.nil_append, List.length_append]; omega
    rw [readLoop, if_neg (by omega)]
    rw [(readVarint32_iff r special ⟨r.pos + tb.length, r.stop, x⟩).2 ⟨tb, ht, by simpa using hrest, rfl, rfl⟩]
    simp only [except_ok_bind]
    rw [ho hx]
    rfl
  | @cons f fs b bs hE _ ih =>
    intro fuel m r tb x hr hrest ht hx hfuel
    obtain ⟨fuel, rfl⟩ : ∃ k, fuel = k + 1 := ⟨fuel - 1, by omega⟩
    have hpos := hs.pos hE
    rw [List.append_assoc] at hrest
    have hl : r.rest.length = b.length + (bs ++ (tb ++ x)).length := by rw [hrest, List.length_append]
    rw [readLoop, if_neg (by omega)]
    obtain ⟨tag, r1, m1, e1, e2, -⟩ := hs.sound hE m r ⟨r.pos + b.length, r.stop, bs ++ (tb ++ x)⟩ ⟨hrest, rfl, rfl⟩ (by simp only; omega)
    rw [e1]
    simp only [except_ok_bind, e2]
    exact ih fuel m1 _ tb x (by simp only; omega) rfl ht hx (by simp only; omega)

theorem outer_iff (hs : StepExact step view E apply) (hm : ∀ {tag m r m' r'}, step tag m r = .ok (m', r') → r.Moves r')
    (ho : ∀ {tag m r}, r.stop = r.pos + r.rest.length → step tag m r = .error .overflow → tag = special ∧ Sub r.rest)
    (ho' : ∀ {m r}, Sub r.rest → step special m r = .error .overflow) (dflt : M) (b : Bytes) :
    parseMessage step dflt b = .error .overflow ↔
      ∃ before fs tb x, b = before ++ (tb ++ x) ∧ Fields E fs before ∧ Num32 tb special ∧ Sub x := by
  unfold parseMessage
  rw [bind_error_iff (by intro n h; cases h)]
  constructor
  · intro h
    exact outer_complete hs hm ho _ _ _ (by simp [Reader.ofBytes]) h
  · rintro ⟨before, fs, tb, x, h1, h2, h3, h4⟩
    exact outer_sound hs ho' h2 _ _ _ tb x (by simp [Reader.ofBytes]) h1 h3 h4 (Nat.lt_succ_self _)

end

/-- At the end of the buffer there is nothing to read behind it. -/
theorem readUnknown_exact {r : Reader} (hr : r.stop = r.pos + r.rest.length) {tag : Nat} : r.readUnknown tag ≠ .error .overflow := by
  intro h
  obtain ⟨-, k, r2, hv, hlt⟩ := (readUnknown_overflow ..).1 h
  obtain ⟨b, -, a1, a2, a3⟩ := (readVarint64_iff ..).1 hv
  rw [a1, List.length_append] at hr
  omega

theorem node_overflow (b : Bytes) : PBNode.tryFrom b = .error .overflow ↔ NodeOverrun b := by
  have key := outer_iff (special := 18) (Sub := fun y => ∃ lb n x, Num32 lb n ∧ y = lb ++ x ∧ Overruns LinkField.Enc LinkField.Delimited [10, 18, 24] n 0 x)
    nodeStep_exact nodeStep_moves (fun {tag m r} hr h => by
      unfold PBNode.step at h
      split at h
      · rw [bind_error_iff (by intro n h; cases h)] at h
        exact ⟨rfl, (message_overflow linkStep_inner {} r).1 h⟩
      · rw [bind_error_iff (by intro n h; cases h)] at h
        exact absurd h (readBytes_no_overflow r)
      · rw [bind_error_iff (by intro n h; cases h)] at h
        exact absurd h (readUnknown_exact hr)) (fun {m r} h => by
      show (r.readMessage PBLink.step {} >>= _) = _
      rw [(message_overflow linkStep_inner {} r).2 h]; rfl) {} b
  unfold PBNode.tryFrom NodeOverrun
  rw [key]
  constructor
  · rintro ⟨before, fs, tb, y, h1, h2, h3, lb, n, x, h4, rfl, h6⟩
    exact ⟨before, fs, tb, lb, n, x, h1, h2, h3, h4, h6⟩
  · rintro ⟨before, fs, tb, lb, n, x, h1, h2, h3, h4, h6⟩
    exact ⟨before, fs, tb, _, h1, h2, h3, lb, n, x, h4, rfl, h6⟩

theorem unixFs_overflow (b : Bytes) : UnixFs.tryFrom (some b) = .error .overflow ↔ DataOverrun b := by
  have key := outer_iff (special := 66) (Sub := fun y => ∃ lb n x, Num32 lb n ∧ y = lb ++ x ∧ Overruns TimeField.Enc TimeField.Delimited [8, 21] n 0 x)
    dataStep_exact dataStep_moves (fun {tag m r} hr h => by
      unfold UnixFs.step at h
      split at h
      all_goals rw [bind_error_iff (by intro n h; cases h)] at h
      · exact absurd h (readVarint32_no_overflow r)
      · exact absurd h (readBytes_no_overflow r)
      · exact absurd h (readVarint64_no_overflow r)
      · exact absurd h (readVarint64_no_overflow r)
      · exact absurd h (readVarint64_no_overflow r)
      · exact absurd h (readVarint64_no_overflow r)
      · exact absurd h (readVarint32_no_overflow r)
      · exact ⟨rfl, (message_overflow timeStep_inner {} r).1 h⟩
      · exact absurd h (readUnknown_exact hr)) (fun {m r} h => by
      show (r.readMessage UnixTime.step {} >>= _) = _
      rw [(message_overflow timeStep_inner {} r).2 h]; rfl) {} b
  unfold UnixFs.tryFrom DataOverrun
  show parseMessage UnixFs.step {} b = _ ↔ _
  rw [key]
  constructor
  · rintro ⟨before, fs, tb, y, h1, h2, h3, lb, n, x, h4, rfl, h6⟩
    exact ⟨before, fs, tb, lb, n, x, h1, h2, h3, h4, h6⟩
  · rintro ⟨before, fs, tb, lb, n, x, h1, h2, h3, h4, h6⟩
    exact ⟨before, fs, tb, _, h1, h2, h3, lb, n, x, h4, rfl, h6⟩

end Verif
