import Verif.ReleaseParse
import Verif.ParserSafe
import Verif.ParseOverflow
/-
Reading blocks in the release profile: lemmas.
-/
namespace Verif
open Spec

theorem ReaderR.view_at (r : ReaderR) : r.view.At r.buf := rfl

theorem ReaderR.at_view {r : ReaderR} {r' : Reader} (h : r'.At r.buf) : (r.at r').view = r' := by
  obtain ⟨pos, stop, rest⟩ := r'
  simp only [Reader.At] at h
  subst h
  rfl

/-! ### the loop -/

section
variable {M : Type} {step : Nat → M → ReaderR → Option (Except PbError (M × ReaderR))} {m : M} {r : ReaderR}

theorem fromReaderR_end (h : r.pos = r.stop) : fromReaderR step m r = some (.ok (m, r)) := by
  rw [fromReaderR.eq_1, if_pos h]

theorem fromReaderR_tag {e : PbError} (h : r.pos ≠ r.stop) (hv : r.readVarint32 = .error e) : fromReaderR step m r = some (.error e) := by
  rw [fromReaderR.eq_1, if_neg h, hv]

theorem fromReaderR_step {tag : Nat} {r1 : ReaderR} (h : r.pos ≠ r.stop) (hv : r.readVarint32 = .ok (tag, r1)) {m' : M} {r' : ReaderR}
    (hs : step tag m r1 = some (.ok (m', r'))) : fromReaderR step m r = fromReaderR step m' r' := by
  rw [fromReaderR.eq_1, if_neg h, hv]
  simp only [hs]
  rfl

theorem fromReaderR_err {tag : Nat} {r1 : ReaderR} {e : PbError} (h : r.pos ≠ r.stop) (hv : r.readVarint32 = .ok (tag, r1))
    (hs : step tag m r1 = some (.error e)) : fromReaderR step m r = some (.error e) := by
  rw [fromReaderR.eq_1, if_neg h, hv]
  simp only [hs]
  rfl

theorem fromReaderR_none {tag : Nat} {r1 : ReaderR} (h : r.pos ≠ r.stop) (hv : r.readVarint32 = .ok (tag, r1))
    (hs : step tag m r1 = none) : fromReaderR step m r = none := by
  rw [fromReaderR.eq_1, if_neg h, hv]
  simp only [hs]
  rfl

/-- What holds at the beginning and is kept by each field holds at the end. -/
theorem fromReaderR_keeps (P : M → ReaderR → Prop)
    (hP : ∀ m r tag r1 m' r', P m r → r.pos ≠ r.stop → r.readVarint32 = .ok (tag, r1) → step tag m r1 = some (.ok (m', r')) → P m' r')
    {m' : M} {r' : ReaderR} (h : fromReaderR step m r = some (.ok (m', r'))) (h0 : P m r) : P m' r' ∧ r'.pos = r'.stop := by
  refine fromReaderR.partial_correctness step (fun m r x => ∀ m' r', x = .ok (m', r') → P m r → P m' r' ∧ r'.pos = r'.stop) ?_ m r _ h m' r' rfl h0
  intro f ih m r x hx m' r' hxe h0
  subst hxe
  split at hx
  · rename_i he
    cases hx
    exact ⟨h0, he⟩
  · rename_i hne
    cases hv : r.readVarint32 with
    | error e => rw [hv] at hx; cases hx
    | ok p =>
      obtain ⟨tag, r1⟩ := p
      rw [hv] at hx
      simp only at hx
      cases hs : step tag m r1 with
      | none => rw [hs] at hx; cases hx
      | some y =>
        rw [hs] at hx
        cases y with
        | error e => cases hx
        | ok q =>
          obtain ⟨m2, r2⟩ := q
          exact ih m2 r2 _ hx m' r' rfl (hP m r tag r1 m2 r2 h0 hne hv hs)

/-- A set of states which is never left, and in which there is no end, is never left. -/
theorem fromReaderR_never (S : ReaderR → Prop)
    (hS : ∀ m r, S r → r.pos ≠ r.stop ∧ ∃ tag r1 m' r', r.readVarint32 = .ok (tag, r1) ∧ step tag m r1 = some (.ok (m', r')) ∧ S r')
    (h : S r) : fromReaderR step m r = none := by
  cases hx : fromReaderR step m r with
  | none => rfl
  | some x =>
    exfalso
    refine fromReaderR.partial_correctness step (fun m r x => ¬ S r) ?_ m r _ hx h
    intro f ih m r x hx hs
    obtain ⟨h1, tag, r1, m', r', h2, h3, h4⟩ := hS m r hs
    rw [if_neg h1, h2] at hx
    simp only [h3] at hx
    exact ih m' r' _ hx h4

end

/-! ### agreement -/

theorem U64_eq : U64 = 18446744073709551616 := rfl

theorem addW_of_lt {a b : Nat} (h : a + b < U64) : addW a b = a + b := Nat.mod_eq_of_lt h

theorem subW_of_le {a b : Nat} (h : b ≤ a) (ha : a < U64) : subW a b = a - b := by
  unfold subW
  generalize U64 = w at ha ⊢
  rw [show a + w - b = (a - b) + w from by omega, Nat.add_mod_right, Nat.mod_eq_of_lt]
  omega

attribute [local irreducible] addW subW

/-- The result of a read is at a place in the same buffer and has the same end. -/
def Fine (b : Bytes) (stop : Nat) {α : Type} (x : Except PbError (α × Reader)) : Prop := ∀ a r', x = .ok (a, r') → r'.At b ∧ r'.stop = stop

theorem fine_of {b : Bytes} {n : Nat} {α : Type} {P : α → Prop} {r : Reader} {x : Except PbError (α × Reader)} (h : Good b n P x)
    (hm : ∀ a r', x = .ok (a, r') → r.pos ≤ r'.pos ∧ r'.stop = r.stop) : Fine b r.stop x := by
  intro a r' e
  subst e
  exact ⟨h.1, (hm a r' rfl).2⟩

theorem fine_varint32 {b : Bytes} {r : Reader} (h : r.At b) : Fine b r.stop r.readVarint32 :=
  fine_of (readVarint32_good h) (fun a r' e => by obtain ⟨x, -, hs⟩ := (readVarint32_iff r a r').1 e; exact hs.mono)
theorem fine_varint64 {b : Bytes} {r : Reader} (h : r.At b) : Fine b r.stop r.readVarint64 :=
  fine_of (readVarint64_good h) (fun a r' e => by obtain ⟨x, -, hs⟩ := (readVarint64_iff r a r').1 e; exact hs.mono)
theorem fine_bytes {b : Bytes} {r : Reader} (h : r.At b) : Fine b r.stop r.readBytes :=
  fine_of (readBytes_good h) (fun _ _ e => readBytes_mono e)
theorem fine_string {b : Bytes} {r : Reader} (h : r.At b) : Fine b r.stop r.readString :=
  fine_of (readString_good h) (fun a r' e => by obtain ⟨-, x, -, hs⟩ := (readString_iff r a r').1 e; exact hs.mono)
theorem fine_fixed32 {b : Bytes} {r : Reader} (h : r.At b) : Fine b r.stop r.readFixed32 :=
  fine_of (readFixed32_good h) (fun a r' e => by obtain ⟨_, _, _, _, -, hs⟩ := (readFixed32_iff r a r').1 e; exact hs.mono)
theorem fine_unknown {b : Bytes} {r : Reader} (h : r.At b) (tag : Nat) {M : Type} (m : M) :
    Fine b r.stop (r.readUnknown tag >>= fun r' => .ok (m, r')) := by
  have hg := readUnknown_good h tag (P := fun _ => True) (a := m) trivial
  refine fine_of hg (fun a r' e => ?_)
  cases hu : r.readUnknown tag with
  | error e' => rw [hu] at e; cases e
  | ok r2 => rw [hu] at e; cases e; exact readUnknown_mono hu

theorem Fine.bind {b : Bytes} {stop : Nat} {α M : Type} {x : Except PbError (α × Reader)} (h : Fine b stop x) (f : α → M) :
    Fine b stop (x >>= fun (a, r) => .ok (f a, r)) := by
  intro m r' e
  cases x with
  | error e' => cases e
  | ok p =>
    obtain ⟨a, r1⟩ := p
    cases e
    exact h a _ rfl

/-- The step of a checked build and that of a release build agree, unless the first overflows. -/
def StepAgree {M : Type} (step : Nat → M → Reader → Except PbError (M × Reader))
    (stepR : Nat → M → ReaderR → Option (Except PbError (M × ReaderR))) : Prop :=
  ∀ tag m (r : ReaderR), r.buf.length < 2 ^ 63 → r.pos ≤ r.buf.length → r.stop < 2 ^ 63 + 2 ^ 32 →
    step tag m r.view ≠ .error .overflow →
    stepR tag m r = some (r.lift (step tag m r.view)) ∧ Fine r.buf r.stop (step tag m r.view)

theorem readVarint32_inside {r : ReaderR} {tag : Nat} {r1 : Reader}
    (h : r.view.readVarint32 = .ok (tag, r1)) :
    r1.At r.buf ∧ r1.stop = r.stop ∧ r1.pos ≤ r.buf.length ∧ tag < U32 := by
  have h1 := readVarint32_pos r.view_at h
  have h2 := fine_varint32 r.view_at _ _ h
  have h3 := readVarint32_good r.view_at
  rw [h] at h3
  exact ⟨h2.1, h2.2, h1.1, h3.2.2⟩

theorem skip_eq {r : ReaderR} {len : Nat} (h : r.pos ≤ r.stop) (h64 : r.stop < U64) :
    r.skip len = if r.stop - r.pos < len then .error .varint else .ok { r with pos := r.pos + len } := by
  have hsub : subW r.stop r.pos = r.stop - r.pos := subW_of_le h h64
  unfold ReaderR.skip
  by_cases hl : subW r.stop r.pos < len
  · rw [if_pos hl, if_pos (hsub ▸ hl)]
  · rw [if_neg hl, if_neg (hsub ▸ hl)]
    rw [hsub] at hl
    rw [addW_of_lt (by omega)]

theorem ReaderR.readUnknown_delimited {r : ReaderR} {tag : Nat} (h : tag % 8 = 2) {len : Nat} {r1 : Reader}
    (hv : r.view.readVarint64 = .ok (len, r1)) : r.readUnknown tag = (r.at r1).skip len := by
  have h1 : r.readUnknown tag = r.readVarint64 >>= fun x => x.2.skip x.1 := by
    unfold ReaderR.readUnknown
    generalize ReaderR.skip = f
    generalize tag % 8 = k at h
    subst h
    rfl
  have h2 : r.readVarint64 = .ok (len, r.at r1) := by rw [ReaderR.readVarint64, hv]; rfl
  rw [h1, h2, except_ok_bind]

theorem Reader.readUnknown_delimited {r : Reader} {tag : Nat} (h : tag % 8 = 2) {len : Nat} {r1 : Reader}
    (hv : r.readVarint64 = .ok (len, r1)) : r.readUnknown tag =
      if r1.stop < r1.pos then .error .overflow
      else if r1.stop - r1.pos < len then .error .varint
      else .ok { r1 with pos := r1.pos + len, rest := r1.rest.drop len } := by
  unfold Reader.readUnknown
  rw [h, hv]
  rfl

theorem readUnknown_agree (r : ReaderR) (tag : Nat) (hb : r.buf.length < 2 ^ 63) (hp : r.pos ≤ r.buf.length) (hst : r.stop < 2 ^ 63 + 2 ^ 32)
    (h : r.view.readUnknown tag ≠ .error .overflow) {M : Type} (m : M) :
    (r.readUnknown tag >>= fun r => .ok (m, r)) = r.lift (r.view.readUnknown tag >>= fun r => .ok (m, r)) := by
  by_cases h2 : tag % 8 = 2
  · cases hv : r.view.readVarint64 with
    | error e =>
      unfold ReaderR.readUnknown Reader.readUnknown ReaderR.readVarint64
      generalize ReaderR.skip = f
      generalize tag % 8 = k at h2
      subst h2
      rw [hv]
      rfl
    | ok p =>
      obtain ⟨len, r1⟩ := p
      have hf := fine_varint64 r.view_at _ _ hv
      have hstop : r1.stop = r.stop := hf.2
      rw [ReaderR.readUnknown_delimited h2 hv]
      rw [Reader.readUnknown_delimited h2 hv] at h ⊢
      have h64 : r1.stop < U64 := by rw [U64_eq]; omega
      by_cases ho : r1.stop < r1.pos
      · rw [if_pos ho] at h; exact absurd rfl h
      · rw [if_neg ho] at h ⊢
        have hsk := skip_eq (r := r.at r1) (len := len) (Nat.le_of_not_lt ho) h64
        by_cases hl : r1.stop - r1.pos < len
        · rw [if_pos hl]
          rw [if_pos (show (r.at r1).stop - (r.at r1).pos < len from hl)] at hsk
          rw [hsk]; rfl
        · rw [if_neg hl]
          rw [if_neg (show ¬ (r.at r1).stop - (r.at r1).pos < len from hl)] at hsk
          rw [hsk]; rfl
  · have h8 : addW r.pos 8 = r.pos + 8 := addW_of_lt (by rw [U64_eq]; omega)
    have h4 : addW r.pos 4 = r.pos + 4 := addW_of_lt (by rw [U64_eq]; omega)
    unfold ReaderR.readUnknown Reader.readUnknown
    rw [h8, h4]
    generalize ReaderR.skip = f
    generalize tag % 8 = k at h2 ⊢
    match k, h2 with
    | 0, _ =>
      unfold ReaderR.readVarint64
      cases r.view.readVarint64 with
      | error e => rfl
      | ok p => rfl
    | 1, _ => rfl
    | 2, h => exact absurd rfl h
    | 5, _ => rfl
    | 3, _ => rfl
    | 4, _ => rfl
    | k + 6, _ => rfl

theorem loop_agree {M : Type} {step : Nat → M → Reader → Except PbError (M × Reader)}
    {stepR : Nat → M → ReaderR → Option (Except PbError (M × ReaderR))} (hs : StepAgree step stepR) :
    ∀ (fuel : Nat) (m : M) (r : ReaderR), r.buf.length < 2 ^ 63 → r.stop < 2 ^ 63 + 2 ^ 32 →
      readLoop step fuel m r.view ≠ .error .overflow → readLoop step fuel m r.view ≠ .error .fuel →
      fromReaderR stepR m r = some (r.lift (readLoop step fuel m r.view)) := by
  intro fuel
  induction fuel with
  | zero => intro m r _ _ _ h; exact absurd rfl h
  | succ fuel ih =>
    intro m r hb hst ho hf
    rw [readLoop] at ho hf ⊢
    by_cases he : r.view.pos = r.view.stop
    · rw [if_pos he]
      exact fromReaderR_end he
    · rw [if_neg he] at ho hf ⊢
      cases hv : r.view.readVarint32 with
      | error e => exact fromReaderR_tag he (by rw [ReaderR.readVarint32, hv]; rfl)
      | ok p =>
        obtain ⟨tag, r1⟩ := p
        rw [hv] at ho hf
        simp only [except_ok_bind] at ho hf ⊢
        obtain ⟨h1, h2, h3, -⟩ := readVarint32_inside hv
        have hvR : r.readVarint32 = .ok (tag, r.at r1) := by rw [ReaderR.readVarint32, hv]; rfl
        have hview : (r.at r1).view = r1 := ReaderR.at_view h1
        have hov : step tag m r1 ≠ .error .overflow := by
          intro e; rw [e] at ho; exact ho rfl
        obtain ⟨ha, hfine⟩ := hs tag m (r.at r1) hb h3 (by rw [show (r.at r1).stop = r.stop from h2]; exact hst) (by rw [hview]; exact hov)
        rw [hview] at ha hfine
        cases hstep : step tag m r1 with
        | error e =>
          rw [hstep] at ha
          exact fromReaderR_err he hvR ha
        | ok q =>
          obtain ⟨m', r2⟩ := q
          rw [hstep] at ha ho hf
          simp only [except_ok_bind] at ho hf ⊢
          obtain ⟨h4, h5⟩ := hfine m' r2 hstep
          have hview2 : (r.at r2).view = r2 := ReaderR.at_view h4
          rw [fromReaderR_step he hvR ha]
          have := ih m' (r.at r2) hb (by rw [show (r.at r2).stop = r2.stop from rfl, h5, show (r.at r1).stop = r.stop from h2]; exact hst)
            (by rw [hview2]; exact ho) (by rw [hview2]; exact hf)
          rw [hview2] at this
          show fromReaderR stepR m' (r.at r2) = _
          rw [this]
          cases readLoop step fuel m' r2 <;> rfl

theorem readMessage_agree {M : Type} {step : Nat → M → Reader → Except PbError (M × Reader)}
    {stepR : Nat → M → ReaderR → Option (Except PbError (M × ReaderR))} (hs : StepAgree step stepR) (dflt : M) (r : ReaderR)
    (hb : r.buf.length < 2 ^ 63) (hfu : ∀ r : Reader, r.At b → fromReader step dflt r ≠ .error .fuel) (hbb : b = r.buf)
    (h : r.view.readMessage step dflt ≠ .error .overflow) :
    r.readMessage stepR dflt = some (r.lift (r.view.readMessage step dflt)) := by
  subst hbb
  unfold ReaderR.readMessage Reader.readMessage ReaderR.readVarint32
  unfold Reader.readMessage at h
  cases hv : r.view.readVarint32 with
  | error e => rfl
  | ok p =>
    obtain ⟨len, r1⟩ := p
    rw [hv] at h
    simp only [except_ok_bind] at h ⊢
    obtain ⟨h1, h2, h3, h4⟩ := readVarint32_inside hv
    have hadd : addW r1.pos len = r1.pos + len := addW_of_lt (by
      rw [U64_eq]; rw [show U32 = 2 ^ 32 from rfl] at h4; omega)
    have hview : (⟨r.buf, r1.pos, r1.pos + len⟩ : ReaderR).view = { r1 with stop := r1.pos + len } := by
      simp only [ReaderR.view]; rw [← show r1.rest = _ from h1]
    have hfu' := hfu { r1 with stop := r1.pos + len } h1
    have hov : fromReader step dflt { r1 with stop := r1.pos + len } ≠ .error .overflow := by
      intro e; rw [e] at h; exact h rfl
    have key := loop_agree hs (r1.rest.length + 1) dflt ⟨r.buf, r1.pos, r1.pos + len⟩ hb
      (by show r1.pos + len < _; rw [show U32 = 2 ^ 32 from rfl] at h4; omega) (by rw [hview]; exact hov) (by rw [hview]; exact hfu')
    rw [hview] at key
    show (fromReaderR stepR dflt ⟨r.buf, r1.pos, addW r1.pos len⟩).bind _ = _
    rw [hadd, key]
    show _ = some (r.lift (fromReader step dflt { r1 with stop := r1.pos + len } >>= _))
    show (some (_ : Except PbError (M × ReaderR))).bind _ = _
    unfold fromReader
    cases readLoop step (r1.rest.length + 1) dflt { r1 with stop := r1.pos + len } <;> rfl

/-! ### the messages -/

theorem lift_bind {α M : Type} (r : ReaderR) (x : Except PbError (α × Reader)) (f : α → M) :
    (r.lift x >>= fun (a, r) => .ok (f a, r)) = r.lift (x >>= fun (a, r) => .ok (f a, r)) := by
  cases x <;> rfl

theorem unknown_step {r : ReaderR} {tag : Nat} {M : Type} {m : M} (hb : r.buf.length < 2 ^ 63) (hp : r.pos ≤ r.buf.length)
    (hst : r.stop < 2 ^ 63 + 2 ^ 32) (h : (r.view.readUnknown tag >>= fun r => .ok (m, r)) ≠ .error .overflow) :
    some (r.readUnknown tag >>= fun r => .ok (m, r)) = some (r.lift (r.view.readUnknown tag >>= fun r => .ok (m, r))) ∧
      Fine r.buf r.stop (r.view.readUnknown tag >>= fun r => .ok (m, r)) := by
  refine ⟨congrArg some (readUnknown_agree r tag hb hp hst ?_ m), fine_unknown r.view_at tag m⟩
  intro e
  rw [e] at h
  exact h rfl

theorem linkStep_agree : StepAgree PBLink.step PBLink.stepR := by
  intro tag m r hb hp hst h
  unfold PBLink.stepR
  unfold PBLink.step at h ⊢
  split
  · exact ⟨congrArg some (lift_bind r r.view.readBytes (fun s => ({ m with Hash := some s.val } : PBLink))), (fine_bytes r.view_at).bind (fun s => ({ m with Hash := some s.val } : PBLink))⟩
  · exact ⟨congrArg some (lift_bind r r.view.readString (fun s => ({ m with Name := some s } : PBLink))), (fine_string r.view_at).bind (fun s => ({ m with Name := some s } : PBLink))⟩
  · exact ⟨congrArg some (lift_bind r r.view.readVarint64 (fun n => ({ m with Tsize := some n } : PBLink))), (fine_varint64 r.view_at).bind (fun n => ({ m with Tsize := some n } : PBLink))⟩
  · rename_i h1 h2 h3
    split at h
    · exact absurd rfl h1
    · exact absurd rfl h2
    · exact absurd rfl h3
    · exact unknown_step hb hp hst h

theorem timeStep_agree : StepAgree UnixTime.step UnixTime.stepR := by
  intro tag m r hb hp hst h
  unfold UnixTime.stepR
  unfold UnixTime.step at h ⊢
  split
  · exact ⟨congrArg some (lift_bind r r.view.readVarint64 (fun n => ({ m with Seconds := u64AsI64 n } : UnixTime))), (fine_varint64 r.view_at).bind (fun n => ({ m with Seconds := u64AsI64 n } : UnixTime))⟩
  · exact ⟨congrArg some (lift_bind r r.view.readFixed32 (fun n => ({ m with FractionalNanoseconds := some n } : UnixTime))), (fine_fixed32 r.view_at).bind (fun n => ({ m with FractionalNanoseconds := some n } : UnixTime))⟩
  · rename_i h1 h2
    split at h
    · exact absurd rfl h1
    · exact absurd rfl h2
    · exact unknown_step hb hp hst h


theorem message_step {M N : Type} {step : Nat → M → Reader → Except PbError (M × Reader)}
    {stepR : Nat → M → ReaderR → Option (Except PbError (M × ReaderR))} (hs : StepAgree step stepR) (dflt : M) {r : ReaderR}
    (hb : r.buf.length < 2 ^ 63) (hfu : ∀ r' : Reader, r'.At r.buf → fromReader step dflt r' ≠ .error .fuel)
    (hmono : ∀ m' r', r.view.readMessage step dflt = .ok (m', r') → r'.At r.buf ∧ r'.stop = r.stop) (f : M → N)
    (h : (r.view.readMessage step dflt >>= fun (a, r) => .ok (f a, r)) ≠ .error .overflow) :
    (r.readMessage stepR dflt).map (fun x => x >>= fun (a, r) => .ok (f a, r)) =
        some (r.lift (r.view.readMessage step dflt >>= fun (a, r) => .ok (f a, r))) ∧
      Fine r.buf r.stop (r.view.readMessage step dflt >>= fun (a, r) => .ok (f a, r)) := by
  have h' : r.view.readMessage step dflt ≠ .error .overflow := by
    intro e; rw [e] at h; exact h rfl
  rw [readMessage_agree hs dflt r hb hfu rfl h']
  exact ⟨congrArg some (lift_bind r _ f), Fine.bind (x := r.view.readMessage step dflt) hmono f⟩

theorem link_fuel (b : Bytes) (r : Reader) (h : r.At b) : fromReader PBLink.step {} r ≠ .error .fuel := by
  have := fromReader_good (linkStep_good b) {} r h (PBLink.from_default b)
  intro e; rw [e] at this; exact this rfl

theorem time_fuel (b : Bytes) (r : Reader) (h : r.At b) : fromReader UnixTime.step {} r ≠ .error .fuel := by
  have := fromReader_good (timeStep_good b) {} r h UnixTime.from_default
  intro e; rw [e] at this; exact this rfl

theorem link_message (r : ReaderR) (m' : PBLink) (r' : Reader) (h : r.view.readMessage PBLink.step {} = .ok (m', r')) :
    r'.At r.buf ∧ r'.stop = r.stop := by
  have := readMessage_good (linkStep_good r.buf) {} r.view r.view_at (PBLink.from_default r.buf)
  rw [h] at this
  exact ⟨this.1, (readMessage_mono linkStep_exact h).2⟩

theorem time_message (r : ReaderR) (m' : UnixTime) (r' : Reader) (h : r.view.readMessage UnixTime.step {} = .ok (m', r')) :
    r'.At r.buf ∧ r'.stop = r.stop := by
  have := readMessage_good (timeStep_good r.buf) {} r.view r.view_at UnixTime.from_default
  rw [h] at this
  exact ⟨this.1, (readMessage_mono timeStep_exact h).2⟩

theorem nodeStep_agree : StepAgree PBNode.step PBNode.stepR := by
  intro tag m r hb hp hst h
  unfold PBNode.stepR
  unfold PBNode.step at h ⊢
  split
  · exact message_step linkStep_agree {} hb (link_fuel r.buf) (link_message r) (fun l => ({ m with Links := m.Links ++ [l] } : PBNode)) h
  · exact ⟨congrArg some (lift_bind r r.view.readBytes (fun s => ({ m with Data := some s } : PBNode))), (fine_bytes r.view_at).bind (fun s => ({ m with Data := some s } : PBNode))⟩
  · rename_i h1 h2
    split at h
    · exact absurd rfl h1
    · exact absurd rfl h2
    · exact unknown_step hb hp hst h

theorem dataStep_agree : StepAgree UnixFs.step UnixFs.stepR := by
  intro tag m r hb hp hst h
  unfold UnixFs.stepR
  unfold UnixFs.step at h ⊢
  split
  · exact ⟨congrArg some (lift_bind r r.view.readVarint32 (fun n => ({ m with Ty := DataType.ofI32 n } : UnixFs))), (fine_varint32 r.view_at).bind (fun n => ({ m with Ty := DataType.ofI32 n } : UnixFs))⟩
  · exact ⟨congrArg some (lift_bind r r.view.readBytes (fun s => ({ m with Data := some s.val } : UnixFs))), (fine_bytes r.view_at).bind (fun s => ({ m with Data := some s.val } : UnixFs))⟩
  · exact ⟨congrArg some (lift_bind r r.view.readVarint64 (fun n => ({ m with filesize := some n } : UnixFs))), (fine_varint64 r.view_at).bind (fun n => ({ m with filesize := some n } : UnixFs))⟩
  · exact ⟨congrArg some (lift_bind r r.view.readVarint64 (fun n => ({ m with blocksizes := m.blocksizes ++ [n] } : UnixFs))), (fine_varint64 r.view_at).bind (fun n => ({ m with blocksizes := m.blocksizes ++ [n] } : UnixFs))⟩
  · exact ⟨congrArg some (lift_bind r r.view.readVarint64 (fun n => ({ m with hashType := some n } : UnixFs))), (fine_varint64 r.view_at).bind (fun n => ({ m with hashType := some n } : UnixFs))⟩
  · exact ⟨congrArg some (lift_bind r r.view.readVarint64 (fun n => ({ m with fanout := some n } : UnixFs))), (fine_varint64 r.view_at).bind (fun n => ({ m with fanout := some n } : UnixFs))⟩
  · exact ⟨congrArg some (lift_bind r r.view.readVarint32 (fun n => ({ m with mode := some n } : UnixFs))), (fine_varint32 r.view_at).bind (fun n => ({ m with mode := some n } : UnixFs))⟩
  · exact message_step timeStep_agree {} hb (time_fuel r.buf) (time_message r) (fun t => ({ m with mtime := some t } : UnixFs)) h
  · rename_i h1 h2 h3 h4 h5 h6 h7 h8
    split at h
    · exact absurd rfl h1
    · exact absurd rfl h2
    · exact absurd rfl h3
    · exact absurd rfl h4
    · exact absurd rfl h5
    · exact absurd rfl h6
    · exact absurd rfl h7
    · exact absurd rfl h8
    · exact unknown_step hb hp hst h


theorem parseMessage_agree {M : Type} {step : Nat → M → Reader → Except PbError (M × Reader)}
    {stepR : Nat → M → ReaderR → Option (Except PbError (M × ReaderR))} (hs : StepAgree step stepR) (dflt : M) (b : Bytes)
    (hb : b.length < 2 ^ 63) (h : parseMessage step dflt b ≠ .error .overflow) (hf : parseMessage step dflt b ≠ .error .fuel) :
    parseMessageR stepR dflt b = some (parseMessage step dflt b) := by
  unfold parseMessage fromReader at h hf ⊢
  have hview : (⟨b, 0, b.length⟩ : ReaderR).view = Reader.ofBytes b := rfl
  have key := loop_agree hs ((Reader.ofBytes b).rest.length + 1) dflt ⟨b, 0, b.length⟩ hb (by show b.length < _; omega)
    (by rw [hview]; intro e; rw [e] at h; exact h rfl) (by rw [hview]; intro e; rw [e] at hf; exact hf rfl)
  rw [hview] at key
  unfold parseMessageR
  rw [key]
  cases readLoop step ((Reader.ofBytes b).rest.length + 1) dflt (Reader.ofBytes b) <;> rfl

theorem node_agree {b : Bytes} (hb : b.length < 2 ^ 63) (h : PBNode.tryFrom b ≠ .error .overflow) : PBNode.tryFromR b = some (PBNode.tryFrom b) :=
  parseMessage_agree nodeStep_agree {} b hb h (fun e => (node_tryFrom_good b).1 _ e rfl)

theorem data_agree {b : Bytes} (hb : b.length < 2 ^ 63) (h : UnixFs.tryFrom (some b) ≠ .error .overflow) :
    UnixFs.tryFromR (some b) = some (UnixFs.tryFrom (some b)) :=
  parseMessage_agree dataStep_agree {} b hb h (fun e => (unixFs_tryFrom_good b).1 _ e rfl)

theorem flat_agree {b : Bytes} (hb : b.length < 2 ^ 63) (h1 : FlatUnixFs.tryParse b ≠ .error (.InvalidDagPb .overflow))
    (h2 : ∀ n, FlatUnixFs.tryParse b ≠ .error (.InvalidUnixFs .overflow n)) : FlatUnixFs.tryParseR b = some (FlatUnixFs.tryParse b) := by
  unfold FlatUnixFs.tryParseR
  unfold FlatUnixFs.tryParse at h1 h2 ⊢
  rw [node_agree hb (by intro e; rw [e] at h1; exact h1 rfl)]
  have hg := (node_tryFrom_good b).2
  cases hn : PBNode.tryFrom b with
  | error e => rfl
  | ok node =>
    rw [hn] at h2
    simp only [Option.bind_some] at h2 ⊢
    cases hd : node.Data with
    | none => rfl
    | some s =>
      rw [hd] at h2
      simp only at h2 ⊢
      by_cases hs : s.val = []
      · rw [if_pos hs, if_pos hs]
      · rw [if_neg hs] at h2
        rw [if_neg hs, if_neg hs]
        have hin := ((hg node hn).2 s hd).1
        rw [data_agree (by omega) (by intro e; rw [e] at h2; exact h2 node rfl)]
        rfl

/-! ### what is read is in the block -/

theorem lift_ok {α : Type} {r : ReaderR} {x : Except PbError (α × Reader)} {a : α} {r' : ReaderR} (h : r.lift x = .ok (a, r')) :
    r'.buf = r.buf ∧ ∃ r1, x = .ok (a, r1) := by
  cases x with
  | error e => cases h
  | ok p => cases h; exact ⟨rfl, _, rfl⟩

theorem unknown_buf {r r' : ReaderR} {tag : Nat} (h : r.readUnknown tag = .ok r') : r'.buf = r.buf := by
  by_cases h2 : tag % 8 = 2
  · cases hv : r.view.readVarint64 with
    | error e =>
      unfold ReaderR.readUnknown ReaderR.readVarint64 at h
      generalize ReaderR.skip = f at h
      generalize tag % 8 = k at h2 h
      subst h2
      rw [hv] at h
      cases h
    | ok p =>
      obtain ⟨len, r1⟩ := p
      rw [ReaderR.readUnknown_delimited h2 hv] at h
      unfold ReaderR.skip at h
      split at h
      · cases h
      · cases h; rfl
  · unfold ReaderR.readUnknown at h
    generalize ReaderR.skip = f at h
    generalize addW r.pos 8 = x at h
    generalize addW r.pos 4 = y at h
    generalize tag % 8 = k at h2 h
    match k, h2 with
    | 0, _ =>
      unfold ReaderR.readVarint64 at h
      cases hv : r.view.readVarint64 with
      | error e => rw [hv] at h; cases h
      | ok p => rw [hv] at h; cases h; rfl
    | 1, _ => cases h; rfl
    | 2, h => exact absurd rfl h
    | 5, _ => cases h; rfl
    | 3, _ => cases h
    | 4, _ => cases h
    | k + 6, _ => cases h

/-- A field reader of a release build which keeps what is wanted of the message. -/
def StepKeeps (b : Bytes) {M : Type} (stepR : Nat → M → ReaderR → Option (Except PbError (M × ReaderR))) (P : M → Prop) : Prop :=
  ∀ tag m r m' r', r.buf = b → P m → stepR tag m r = some (.ok (m', r')) → r'.buf = b ∧ P m'

theorem keeps_read {b : Bytes} {α M : Type} {P : M → Prop} {Q : α → Prop} {n : Nat} {r : ReaderR} {x : Except PbError (α × Reader)} {f : α → M}
    (hb : r.buf = b) (hg : Good b n Q x) (hf : ∀ a, Q a → P (f a)) {m' : M} {r' : ReaderR}
    (h : some (r.lift x >>= fun (a, r) => .ok (f a, r)) = some (.ok (m', r'))) : r'.buf = b ∧ P m' := by
  cases x with
  | error e => cases h
  | ok p => cases h; exact ⟨hb, hf _ hg.2.2⟩

theorem keeps_unknown {b : Bytes} {M : Type} {P : M → Prop} {r : ReaderR} {tag : Nat} {m m' : M} {r' : ReaderR} (hb : r.buf = b) (hm : P m)
    (h : some (r.readUnknown tag >>= fun r => .ok (m, r)) = some (.ok (m', r'))) : r'.buf = b ∧ P m' := by
  cases hu : r.readUnknown tag with
  | error e => rw [hu] at h; cases h
  | ok r1 => rw [hu] at h; cases h; exact ⟨(unknown_buf hu).trans hb, hm⟩

theorem fromReaderR_buf {b : Bytes} {M : Type} {stepR : Nat → M → ReaderR → Option (Except PbError (M × ReaderR))} {P : M → Prop}
    (hs : StepKeeps b stepR P) {m m' : M} {r r' : ReaderR} (hb : r.buf = b) (hm : P m) (h : fromReaderR stepR m r = some (.ok (m', r'))) :
    r'.buf = b ∧ P m' := by
  refine (fromReaderR_keeps (fun m r => r.buf = b ∧ P m) ?_ h ⟨hb, hm⟩).1
  intro m r tag r1 m' r' ⟨h1, h2⟩ _ hv hst
  exact hs tag m r1 m' r' ((lift_ok hv).1.trans h1) h2 hst

theorem keeps_message {b : Bytes} {M N : Type} {stepR : Nat → M → ReaderR → Option (Except PbError (M × ReaderR))} {P : M → Prop} {Q : N → Prop}
    (hs : StepKeeps b stepR P) {dflt : M} {r r' : ReaderR} {f : M → N} {m' : N} (hb : r.buf = b) (hd : P dflt) (hf : ∀ a, P a → Q (f a))
    (h : (r.readMessage stepR dflt).map (fun x => x >>= fun (a, r) => .ok (f a, r)) = some (.ok (m', r'))) : r'.buf = b ∧ Q m' := by
  unfold ReaderR.readMessage at h
  cases hv : r.readVarint32 with
  | error e => rw [hv] at h; cases h
  | ok p =>
    obtain ⟨len, r1⟩ := p
    rw [hv] at h
    simp only at h
    generalize hr2 : ({ r1 with stop := addW r1.pos len } : ReaderR) = r2 at h
    have hb2 : r2.buf = b := by rw [← hr2]; exact (lift_ok hv).1.trans hb
    cases hx : fromReaderR stepR dflt r2 with
    | none => rw [hx] at h; cases h
    | some x =>
      rw [hx] at h
      cases x with
      | error e => cases h
      | ok q =>
        obtain ⟨a, r3⟩ := q
        obtain ⟨k1, k2⟩ := fromReaderR_buf hs hb2 hd hx
        cases h
        exact ⟨k1, hf _ k2⟩

theorem linkStep_keeps (b : Bytes) : StepKeeps b PBLink.stepR (PBLink.From b) := by
  intro tag m r m' r' hb hm h
  have hat : r.view.At b := hb ▸ r.view_at
  unfold PBLink.stepR at h
  split at h
  · exact keeps_read (f := fun (x : Slice) => ({ m with Hash := some x.val } : PBLink)) hb (readBytes_good hat) (fun s hs => ⟨fun t e => by cases e; exact hs.infix, hm.2⟩) h
  · exact keeps_read (f := fun x => ({ m with Name := some x } : PBLink)) hb (readString_good hat) (fun s hs => ⟨hm.1, fun t e => by cases e; exact hs, hm.2.2⟩) h
  · exact keeps_read (f := fun x => ({ m with Tsize := some x } : PBLink)) hb (readVarint64_good hat) (fun s hs => ⟨hm.1, hm.2.1, fun t e => by cases e; exact hs⟩) h
  · exact keeps_unknown hb hm h

theorem timeStep_keeps (b : Bytes) : StepKeeps b UnixTime.stepR UnixTime.From := by
  intro tag m r m' r' hb hm h
  have hat : r.view.At b := hb ▸ r.view_at
  unfold UnixTime.stepR at h
  split at h
  · exact keeps_read (f := fun x => ({ m with Seconds := u64AsI64 x } : UnixTime)) hb (readVarint64_good hat) (fun n hn => ⟨u64AsI64_range hn, hm.2⟩) h
  · exact keeps_read (f := fun x => ({ m with FractionalNanoseconds := some x } : UnixTime)) hb (readFixed32_good hat) (fun n hn => ⟨hm.1, fun t e => by cases e; exact hn⟩) h
  · exact keeps_unknown hb hm h

theorem nodeStep_keeps (b : Bytes) : StepKeeps b PBNode.stepR (PBNode.From b) := by
  intro tag m r m' r' hb hm h
  have hat : r.view.At b := hb ▸ r.view_at
  unfold PBNode.stepR at h
  split at h
  · exact keeps_message (f := fun x => ({ m with Links := m.Links ++ [x] } : PBNode)) (linkStep_keeps b) hb (PBLink.from_default b) (fun l hl => ⟨fun k hk => by
      rcases List.mem_append.1 hk with hk | hk
      · exact hm.1 k hk
      · rw [List.mem_singleton.1 hk]; exact hl, hm.2⟩) h
  · exact keeps_read (f := fun x => ({ m with Data := some x } : PBNode)) hb (readBytes_good hat) (fun s hs => ⟨hm.1, fun t e => by cases e; exact hs⟩) h
  · exact keeps_unknown hb hm h

theorem dataStep_keeps (b : Bytes) : StepKeeps b UnixFs.stepR (UnixFs.From b) := by
  intro tag m r m' r' hb hm h
  have hat : r.view.At b := hb ▸ r.view_at
  obtain ⟨g1, g2, g3, g4, g5, g6, g7⟩ := hm
  unfold UnixFs.stepR at h
  split at h
  · exact keeps_read (f := fun x => ({ m with Ty := DataType.ofI32 x } : UnixFs)) hb (readVarint32_good hat) (fun n hn => ⟨g1, g2, g3, g4, g5, g6, g7⟩) h
  · exact keeps_read (f := fun (x : Slice) => ({ m with Data := some x.val } : UnixFs)) hb (readBytes_good hat) (fun s hs => ⟨fun t e => by cases e; exact hs.infix, g2, g3, g4, g5, g6, g7⟩) h
  · exact keeps_read (f := fun x => ({ m with filesize := some x } : UnixFs)) hb (readVarint64_good hat) (fun n hn => ⟨g1, fun t e => by cases e; exact hn, g3, g4, g5, g6, g7⟩) h
  · exact keeps_read (f := fun x => ({ m with blocksizes := m.blocksizes ++ [x] } : UnixFs)) hb (readVarint64_good hat) (fun n hn => ⟨g1, g2, fun k hk => by
      rcases List.mem_append.1 hk with hk | hk
      · exact g3 k hk
      · rw [List.mem_singleton.1 hk]; exact hn, g4, g5, g6, g7⟩) h
  · exact keeps_read (f := fun x => ({ m with hashType := some x } : UnixFs)) hb (readVarint64_good hat) (fun n hn => ⟨g1, g2, g3, fun t e => by cases e; exact hn, g5, g6, g7⟩) h
  · exact keeps_read (f := fun x => ({ m with fanout := some x } : UnixFs)) hb (readVarint64_good hat) (fun n hn => ⟨g1, g2, g3, g4, fun t e => by cases e; exact hn, g6, g7⟩) h
  · exact keeps_read (f := fun x => ({ m with mode := some x } : UnixFs)) hb (readVarint32_good hat) (fun n hn => ⟨g1, g2, g3, g4, g5, fun t e => by cases e; exact hn, g7⟩) h
  · exact keeps_message (f := fun x => ({ m with mtime := some x } : UnixFs)) (timeStep_keeps b) hb UnixTime.from_default (fun t ht => ⟨g1, g2, g3, g4, g5, g6, fun k e => by cases e; exact ht⟩) h
  · exact keeps_unknown hb ⟨g1, g2, g3, g4, g5, g6, g7⟩ h

theorem parseMessageR_ok {M : Type} {stepR : Nat → M → ReaderR → Option (Except PbError (M × ReaderR))} {P : M → Prop} {b : Bytes}
    (hs : StepKeeps b stepR P) {dflt m : M} (hd : P dflt) (h : parseMessageR stepR dflt b = some (.ok m)) : P m := by
  unfold parseMessageR at h
  cases hx : fromReaderR stepR dflt ⟨b, 0, b.length⟩ with
  | none => rw [hx] at h; cases h
  | some x =>
    rw [hx] at h
    cases x with
    | error e => cases h
    | ok q =>
      have := (fromReaderR_buf (r := ⟨b, 0, b.length⟩) hs rfl hd hx).2
      cases h
      exact this

theorem flat_keeps {b : Bytes} {m : FlatUnixFs} (h : FlatUnixFs.tryParseR b = some (.ok m)) : m.From b := by
  unfold FlatUnixFs.tryParseR at h
  cases hn : PBNode.tryFromR b with
  | none => rw [hn] at h; cases h
  | some x =>
    rw [hn] at h
    cases x with
    | error e => cases h
    | ok node =>
      have hnode : node.From b := parseMessageR_ok (nodeStep_keeps b) (PBNode.from_default b) hn
      simp only [Option.bind_some] at h
      cases hd : node.Data with
      | none => rw [hd] at h; cases h
      | some s =>
        rw [hd] at h
        simp only at h
        by_cases hs : s.val = []
        · rw [if_pos hs] at h; cases h
        · rw [if_neg hs] at h
          cases hu : UnixFs.tryFromR (some s.val) with
          | none => rw [hu] at h; cases h
          | some y =>
            rw [hu] at h
            cases y with
            | error e => cases h
            | ok d =>
              have hdata : d.From s.val := parseMessageR_ok (dataStep_keeps s.val) (UnixFs.from_default s.val) hu
              cases h
              exact ⟨hnode.1, hdata.mono (hnode.2 s hd).infix⟩

/-! ### getting to a place -/

/-- Proper fields are read as usual, whatever stands behind them. -/
theorem fields_reach {M V F : Type} {step : Nat → M → Reader → Except PbError (M × Reader)} {view : M → V} {E : F → Bytes → Prop}
    {apply : V → F → V} {stepR : Nat → M → ReaderR → Option (Except PbError (M × ReaderR))} (he : StepExact step view E apply)
    (hs : StepAgree step stepR) {buf : Bytes} (hb : buf.length < 2 ^ 63) {fs : List F} {x : Bytes} (hf : Fields E fs x) :
    ∀ (m : M) (pos : Nat) (rest : Bytes), buf.drop pos = x ++ rest → rest ≠ [] →
      ∃ m', fromReaderR stepR m ⟨buf, pos, buf.length⟩ = fromReaderR stepR m' ⟨buf, pos + x.length, buf.length⟩ := by
  induction hf with
  | nil => intro m pos rest _ _; exact ⟨m, rfl⟩
  | @cons f fs y ys hE _ ih =>
    intro m pos rest hd hne
    have hlen : (buf.drop pos).length = y.length + ys.length + rest.length := by rw [hd, List.length_append, List.length_append]
    rw [List.length_drop] at hlen
    have hrest : 0 < rest.length := List.length_pos_iff.mpr hne
    have hy := he.pos hE
    have hd' : buf.drop (pos + y.length) = ys ++ rest := by
      rw [← List.drop_drop, hd, List.append_assoc, List.drop_left]
    have hp : pos + y.length + ys.length + rest.length = buf.length := by omega
    obtain ⟨tag, r1, m1, e1, e2, -⟩ := he.sound hE m ⟨pos, buf.length, buf.drop pos⟩ ⟨pos + y.length, buf.length, buf.drop (pos + y.length)⟩
      ⟨by show buf.drop pos = _; rw [hd, hd', List.append_assoc], rfl, rfl⟩ (by show pos + y.length ≤ buf.length; omega)
    obtain ⟨h1, h2, h3, -⟩ := readVarint32_inside (r := ⟨buf, pos, buf.length⟩) e1
    have hview : (⟨buf, r1.pos, r1.stop⟩ : ReaderR).view = r1 := ReaderR.at_view (r := ⟨buf, pos, buf.length⟩) h1
    have hst : r1.stop < 2 ^ 63 + 2 ^ 32 := by rw [show r1.stop = buf.length from h2]; omega
    have ha := (hs tag m ⟨buf, r1.pos, r1.stop⟩ hb h3 hst (by rw [hview, e2]; nofun)).1
    rw [hview, e2] at ha
    obtain ⟨m', g⟩ := ih m1 (pos + y.length) rest hd' hne
    refine ⟨m', ?_⟩
    rw [fromReaderR_step (r1 := ⟨buf, r1.pos, r1.stop⟩) (m' := m1) (r' := ⟨buf, pos + y.length, buf.length⟩) (by show pos ≠ buf.length; omega)
      (by rw [ReaderR.readVarint32, show ReaderR.view ⟨buf, pos, buf.length⟩ = ⟨pos, buf.length, buf.drop pos⟩ from rfl, e1]; rfl) ha, g,
      List.length_append, Nat.add_assoc]

end Verif
