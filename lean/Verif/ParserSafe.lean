import Verif.DagPb
/-
Lemmas: the readers stay inside the block, always make progress, and never hit the loop bound of the model.
-/
namespace Verif

/-- The reader's view is a tail of the block `b`. -/
def Reader.At (b : Bytes) (r : Reader) : Prop := r.rest = b.drop r.pos

/-- Result of a read: stays in the block, does not move backwards, and does not fail with the model's `fuel` marker. -/
def Good (b : Bytes) (n : Nat) {α : Type} (P : α → Prop) : Except PbError (α × Reader) → Prop
  | .ok (a, r) => r.At b ∧ r.rest.length ≤ n ∧ P a
  | .error e => e ≠ .fuel

theorem decVarintF_no_fuel {k : Nat} {b : Bytes} {e : PbError} (h : decVarintF k b = .error e) : e ≠ .fuel := by
  induction k generalizing b e with
  | zero => simp [decVarintF] at h; subst h; simp
  | succ k ih =>
    cases b with
    | nil => simp [decVarintF] at h; subst h; simp
    | cons x b =>
      simp only [decVarintF] at h
      split at h
      · simp at h
      · split at h
        · rename_i e' heq
          simp at h; subst h; exact ih heq
        · simp at h

theorem Good.bind {b : Bytes} {n : Nat} {α β : Type} {P : α → Prop} {Q : β → Prop} {x : Except PbError (α × Reader)}
    {f : α × Reader → Except PbError (β × Reader)} (hx : Good b n P x)
    (hf : ∀ a r, r.At b → r.rest.length ≤ n → P a → Good b r.rest.length Q (f (a, r))) : Good b n Q (x >>= f) := by
  cases x with
  | error e => exact hx
  | ok p =>
    obtain ⟨a, r⟩ := p
    obtain ⟨h1, h2, h3⟩ := hx
    have := hf a r h1 h2 h3
    simp only [except_ok_bind]
    cases hfe : f (a, r) with
    | error e => rw [hfe] at this; exact this
    | ok q => rw [hfe] at this; exact ⟨this.1, Nat.le_trans this.2.1 h2, this.2.2⟩

theorem readVarint32_good {b : Bytes} {r : Reader} (h : r.At b) :
    Good b (r.rest.length - 1) (fun v => v < U32) r.readVarint32 := by
  unfold Reader.readVarint32
  cases hd : decVarintF 10 r.rest with
  | error e => exact decVarintF_no_fuel hd
  | ok p =>
    obtain ⟨v, l, t⟩ := p
    obtain ⟨h1, h2, rfl⟩ := decVarintF_rest hd
    refine ⟨?_, ?_, Nat.mod_lt _ (by decide)⟩
    · simp only [Reader.At] at h ⊢; rw [h, List.drop_drop]
    · simp only [List.length_drop]; omega

/-- A successful varint read started inside the block. -/
theorem readVarint32_pos {b : Bytes} {r r' : Reader} {v : Nat} (h : r.At b) (hr : r.readVarint32 = .ok (v, r')) :
    r'.pos ≤ b.length ∧ r'.rest.length < r.rest.length ∧ r'.At b := by
  have hg := readVarint32_good h
  rw [hr] at hg
  unfold Reader.readVarint32 at hr
  cases hd : decVarintF 10 r.rest with
  | error e => rw [hd] at hr; simp at hr
  | ok p =>
    obtain ⟨v', l, t⟩ := p
    rw [hd] at hr
    obtain ⟨h1, h2, rfl⟩ := decVarintF_rest hd
    simp only [Except.ok.injEq, Prod.mk.injEq] at hr
    obtain ⟨_, rfl⟩ := hr
    simp only [Reader.At] at h
    have : r.rest.length = b.length - r.pos := by rw [h, List.length_drop]
    exact ⟨by simp only; omega, by simp only [List.length_drop]; omega, hg.1⟩

theorem readVarint64_good {b : Bytes} {r : Reader} (h : r.At b) :
    Good b (r.rest.length - 1) (fun v => v < U64) r.readVarint64 := by
  unfold Reader.readVarint64
  cases hd : decVarintF 10 r.rest with
  | error e => exact decVarintF_no_fuel hd
  | ok p =>
    obtain ⟨v, l, t⟩ := p
    obtain ⟨h1, h2, rfl⟩ := decVarintF_rest hd
    refine ⟨?_, ?_, Nat.mod_lt _ (by decide)⟩
    · simp only [Reader.At] at h ⊢; rw [h, List.drop_drop]
    · simp only [List.length_drop]; omega

/-- The slice is a sub-slice of the block, at its recorded offset. -/
def Slice.In (b : Bytes) (s : Slice) : Prop := s.off + s.val.length ≤ b.length ∧ s.val = (b.drop s.off).take s.val.length

theorem Good.mono {b : Bytes} {n m : Nat} {α : Type} {P Q : α → Prop} {x : Except PbError (α × Reader)}
    (h : Good b n P x) (hn : n ≤ m) (hp : ∀ a, P a → Q a) : Good b m Q x := by
  cases x with
  | error e => exact h
  | ok p => exact ⟨h.1, Nat.le_trans h.2.1 hn, hp _ h.2.2⟩

theorem readBytes_good {b : Bytes} {r : Reader} (h : r.At b) :
    Good b r.rest.length (Slice.In b) r.readBytes := by
  unfold Reader.readBytes
  cases hr : r.readVarint32 with
  | error e => have := readVarint32_good h; rw [hr] at this; exact this
  | ok p =>
    obtain ⟨len, r1⟩ := p
    obtain ⟨h1, h2, h3⟩ := readVarint32_pos h hr
    simp only [except_ok_bind]
    split
    · rename_i hl
      have hlen : r1.rest.length = b.length - r1.pos := by rw [show r1.rest = _ from h3, List.length_drop]
      refine ⟨?_, ?_, ?_, ?_⟩
      · simp only [Reader.At] at h3 ⊢; rw [h3, List.drop_drop]
      · simp only [List.length_drop]; omega
      · simp only [List.length_take]; omega
      · simp only [List.length_take]
        rw [show r1.rest = _ from h3, Nat.min_eq_left]
        rw [← show r1.rest = _ from h3]; exact hl
    · show PbError.unexpectedEnd ≠ .fuel; simp

theorem Slice.In.infix {b : Bytes} {s : Slice} (h : s.In b) : s.val <:+: b := by
  refine ⟨b.take s.off, b.drop (s.off + s.val.length), ?_⟩
  obtain ⟨h1, h2⟩ := h
  have : (b.drop s.off) = s.val ++ b.drop (s.off + s.val.length) := by
    conv => lhs; rw [← List.take_append_drop s.val.length (b.drop s.off), ← h2, List.drop_drop]
  rw [List.append_assoc, ← this, List.take_append_drop]

theorem readString_good {b : Bytes} {r : Reader} (h : r.At b) :
    Good b r.rest.length (fun s => s <:+: b ∧ validUtf8 s = true) r.readString := by
  unfold Reader.readString
  refine (readBytes_good h).bind fun s r1 h1 h2 h3 => ?_
  by_cases hu : validUtf8 s.val = true
  · simp only [hu, if_true]; exact ⟨h1, Nat.le_refl _, h3.infix, hu⟩
  · simp only [hu]; show PbError.utf8 ≠ .fuel; simp

theorem readFixed32_good {b : Bytes} {r : Reader} (h : r.At b) :
    Good b r.rest.length (fun n => n < U32) r.readFixed32 := by
  unfold Reader.readFixed32
  split
  · rename_i x y z w t hr
    refine ⟨?_, ?_, by
      have := x.toNat_lt; have := y.toNat_lt; have := z.toNat_lt; have := w.toNat_lt
      show le32 x y z w < 4294967296; simp only [le32]; omega⟩
    · simp only [Reader.At] at h ⊢
      have : b.drop (r.pos + 4) = (b.drop r.pos).drop 4 := by rw [List.drop_drop]
      rw [this, ← h, hr]; rfl
    · rw [hr]; simp only [List.length_cons]; omega
  · show PbError.unexpectedEnd ≠ .fuel; simp

theorem readUnknown_good {b : Bytes} {r : Reader} (h : r.At b) (tag : Nat) {α : Type} {P : α → Prop} {a : α} (ha : P a) :
    Good b r.rest.length P (r.readUnknown tag >>= fun r' => .ok (a, r')) := by
  unfold Reader.readUnknown
  split
  · have hv := readVarint64_good h
    cases hr : r.readVarint64 with
    | error e => rw [hr] at hv; exact hv
    | ok p => rw [hr] at hv; exact ⟨hv.1, Nat.le_trans hv.2.1 (by omega), ha⟩
  · refine ⟨?_, ?_, ha⟩
    · simp only [Reader.At] at h ⊢; rw [h, List.drop_drop]
    · simp only [List.length_drop]; omega
  · have hv := readVarint64_good h
    cases hr : r.readVarint64 with
    | error e => rw [hr] at hv; exact hv
    | ok p =>
      rw [hr] at hv
      obtain ⟨len, r1⟩ := p
      simp only [except_ok_bind]
      split
      · show PbError.overflow ≠ .fuel; simp
      split
      · show PbError.varint ≠ .fuel; simp
      · refine ⟨?_, ?_, ha⟩
        · have h1 := hv.1; simp only [Reader.At] at h1 ⊢; rw [h1, List.drop_drop]
        · simp only [List.length_drop]; have := hv.2.1; omega
  · refine ⟨?_, ?_, ha⟩
    · simp only [Reader.At] at h ⊢; rw [h, List.drop_drop]
    · simp only [List.length_drop]; omega
  · show PbError.deprecated ≠ .fuel; simp
  · show PbError.deprecated ≠ .fuel; simp
  · show PbError.unknownWireType ≠ .fuel; simp

/-- A field reader which behaves. -/
def StepGood (b : Bytes) {M : Type} (step : Nat → M → Reader → Except PbError (M × Reader)) (P : M → Prop) : Prop :=
  ∀ tag m r, r.At b → P m → Good b r.rest.length P (step tag m r)

/-- What a finished loop returns. -/
def GoodEnd (b : Bytes) (n : Nat) {α : Type} (P : α → Prop) : Except PbError (α × Reader) → Prop
  | .ok (a, r) => r.At b ∧ r.rest.length ≤ n ∧ r.pos = r.stop ∧ P a
  | .error e => e ≠ .fuel

theorem readLoop_good {b : Bytes} {M : Type} {step : Nat → M → Reader → Except PbError (M × Reader)} {P : M → Prop}
    (hs : StepGood b step P) (fuel : Nat) (m : M) (r : Reader) (hr : r.At b) (hf : r.rest.length < fuel) (hm : P m) :
    GoodEnd b r.rest.length P (readLoop step fuel m r) := by
  induction fuel generalizing m r with
  | zero => omega
  | succ fuel ih =>
    unfold readLoop
    split
    · rename_i he; exact ⟨hr, Nat.le_refl _, he, hm⟩
    · cases hv : r.readVarint32 with
      | error e => have := readVarint32_good hr; rw [hv] at this; exact this
      | ok p =>
        obtain ⟨tag, r1⟩ := p
        obtain ⟨-, h2, h3⟩ := readVarint32_pos hr hv
        have h4 := hs tag m r1 h3 hm
        simp only [except_ok_bind]
        cases hst : step tag m r1 with
        | error e => rw [hst] at h4; exact h4
        | ok q =>
          obtain ⟨m', r2⟩ := q
          rw [hst] at h4
          obtain ⟨h5, h6, h7⟩ := h4
          have h8 := ih m' r2 h5 (by omega) h7
          simp only [except_ok_bind]
          cases hl : readLoop step fuel m' r2 with
          | error e => rw [hl] at h8; exact h8
          | ok q => rw [hl] at h8; exact ⟨h8.1, by have := h8.2.1; omega, h8.2.2⟩

theorem fromReader_good {b : Bytes} {M : Type} {step : Nat → M → Reader → Except PbError (M × Reader)} {P : M → Prop}
    (hs : StepGood b step P) (m : M) (r : Reader) (hr : r.At b) (hm : P m) :
    GoodEnd b r.rest.length P (fromReader step m r) :=
  readLoop_good hs _ m r hr (by omega) hm

theorem readMessage_good {b : Bytes} {M : Type} {step : Nat → M → Reader → Except PbError (M × Reader)} {P : M → Prop}
    (hs : StepGood b step P) (m : M) (r : Reader) (hr : r.At b) (hm : P m) :
    Good b r.rest.length P (r.readMessage step m) := by
  unfold Reader.readMessage
  refine ((readVarint32_good hr).mono (Nat.sub_le _ _) (fun _ h => h)).bind fun len r1 h1 h2 _ => ?_
  have h3 := fromReader_good hs m { r1 with stop := r1.pos + len } h1 hm
  simp only
  cases hf : fromReader step m { r1 with stop := r1.pos + len } with
  | error e => rw [hf] at h3; exact h3
  | ok q =>
    obtain ⟨m', r2⟩ := q
    rw [hf] at h3
    obtain ⟨h4, h5, h6, h7⟩ := h3
    refine ⟨?_, h5, h7⟩
    simp only [Reader.At] at h4 ⊢
    rw [h4, h6]

/-- A link read from the block `b`: values in the range of their Rust types, byte strings are sub-slices of `b`. -/
def PBLink.From (b : Bytes) (m : PBLink) : Prop :=
  (∀ s, m.Hash = some s → s <:+: b) ∧ (∀ s, m.Name = some s → s <:+: b ∧ validUtf8 s = true)
    ∧ ∀ n, m.Tsize = some n → n < U64

/-- As `PBLink.From`, for a dag-pb node. -/
def PBNode.From (b : Bytes) (m : PBNode) : Prop :=
  (∀ l ∈ m.Links, l.From b) ∧ ∀ s, m.Data = some s → s.In b

/-- As `PBLink.From`, for a timestamp. -/
def UnixTime.From (m : UnixTime) : Prop :=
  (-(2 ^ 63 : Int) ≤ m.Seconds ∧ m.Seconds < (2 ^ 63 : Int)) ∧ ∀ n, m.FractionalNanoseconds = some n → n < U32

/-- As `PBLink.From`, for a UnixFS message. -/
def UnixFs.From (b : Bytes) (m : UnixFs) : Prop :=
  (∀ s, m.Data = some s → s <:+: b) ∧ (∀ n, m.filesize = some n → n < U64) ∧ (∀ n ∈ m.blocksizes, n < U64)
    ∧ (∀ n, m.hashType = some n → n < U64) ∧ (∀ n, m.fanout = some n → n < U64) ∧ (∀ n, m.mode = some n → n < U32)
    ∧ ∀ t, m.mtime = some t → t.From

theorem linkStep_good (b : Bytes) : StepGood b PBLink.step (PBLink.From b) := by
  intro tag m r h hm
  obtain ⟨i1, i2, i3⟩ := hm
  unfold PBLink.step
  split
  · exact (readBytes_good h).bind fun s r1 h1 h2 h3 => ⟨h1, Nat.le_refl _, fun s' hs' => by
      simp only [Option.some.injEq] at hs'; subst hs'; exact h3.infix, i2, i3⟩
  · exact (readString_good h).bind fun s r1 h1 h2 h3 => ⟨h1, Nat.le_refl _, i1, fun s' hs' => by
      simp only [Option.some.injEq] at hs'; subst hs'; exact h3, i3⟩
  · exact ((readVarint64_good h).mono (Nat.sub_le _ _) (fun _ h => h)).bind
      fun s r1 h1 h2 h3 => ⟨h1, Nat.le_refl _, i1, i2, fun n hn => by
        simp only [Option.some.injEq] at hn; subst hn; exact h3⟩
  · exact readUnknown_good h _ ⟨i1, i2, i3⟩

theorem PBLink.from_default (b : Bytes) : PBLink.From b {} :=
  ⟨fun _ h => by simp at h, fun _ h => by simp at h, fun _ h => by simp at h⟩

theorem nodeStep_good (b : Bytes) : StepGood b PBNode.step (PBNode.From b) := by
  intro tag m r h hm
  obtain ⟨i1, i2⟩ := hm
  unfold PBNode.step
  split
  · refine (readMessage_good (linkStep_good b) {} r h (PBLink.from_default b)).bind
      fun s r1 h1 h2 h3 => ⟨h1, Nat.le_refl _, ?_, i2⟩
    intro l hl
    simp only [List.mem_append, List.mem_singleton] at hl
    rcases hl with hl | rfl
    · exact i1 l hl
    · exact h3
  · refine (readBytes_good h).bind fun s r1 h1 h2 h3 => ⟨h1, Nat.le_refl _, i1, ?_⟩
    intro s' hs'
    simp only [Option.some.injEq] at hs'; subst hs'; exact h3
  · exact readUnknown_good h _ ⟨i1, i2⟩

theorem u64AsI64_range {n : Nat} (h : n < U64) : -(2 ^ 63 : Int) ≤ u64AsI64 n ∧ u64AsI64 n < (2 ^ 63 : Int) := by
  unfold u64AsI64
  have h' : n < 18446744073709551616 := h
  split <;> omega

theorem timeStep_good (b : Bytes) : StepGood b UnixTime.step UnixTime.From := by
  intro tag m r h hm
  obtain ⟨i1, i2⟩ := hm
  unfold UnixTime.step
  split
  · exact ((readVarint64_good h).mono (Nat.sub_le _ _) (fun _ h => h)).bind
      fun s r1 h1 h2 h3 => ⟨h1, Nat.le_refl _, u64AsI64_range h3, i2⟩
  · exact (readFixed32_good h).bind fun s r1 h1 h2 h3 => ⟨h1, Nat.le_refl _, i1, fun n hn => by
      simp only [Option.some.injEq] at hn; subst hn; exact h3⟩
  · exact readUnknown_good h _ ⟨i1, i2⟩

theorem mimeStep_good (b : Bytes) :
    StepGood b MimeMetadata.step (fun m => ∀ s, m.MimeType = some s → s <:+: b ∧ validUtf8 s = true) := by
  intro tag m r h hm
  unfold MimeMetadata.step
  split
  · exact (readString_good h).bind fun s r1 h1 h2 h3 => ⟨h1, Nat.le_refl _, fun s' hs' => by
      simp only [Option.some.injEq] at hs'; subst hs'; exact h3⟩
  · exact readUnknown_good h _ hm

theorem dataStep_good (b : Bytes) : StepGood b UnixFs.step (UnixFs.From b) := by
  intro tag m r h hm
  have v64 := (readVarint64_good h).mono (Nat.sub_le _ _) (fun _ h => h)
  have v32 := (readVarint32_good h).mono (Nat.sub_le _ _) (fun _ h => h)
  have hm' := hm
  obtain ⟨i1, i2, i3, i4, i5, i6, i7⟩ := hm
  unfold UnixFs.step
  split
  · exact v32.bind fun s r1 h1 h2 h3 => ⟨h1, Nat.le_refl _, hm'⟩
  · exact (readBytes_good h).bind fun s r1 h1 h2 h3 => ⟨h1, Nat.le_refl _, fun s' hs' => by
      simp only [Option.some.injEq] at hs'; subst hs'; exact h3.infix, i2, i3, i4, i5, i6, i7⟩
  · exact v64.bind fun s r1 h1 h2 h3 => ⟨h1, Nat.le_refl _, i1, fun n hn => by
      simp only [Option.some.injEq] at hn; subst hn; exact h3, i3, i4, i5, i6, i7⟩
  · exact v64.bind fun s r1 h1 h2 h3 => ⟨h1, Nat.le_refl _, i1, i2, fun n hn => by
      simp only [List.mem_append, List.mem_singleton] at hn
      rcases hn with hn | rfl
      · exact i3 n hn
      · exact h3, i4, i5, i6, i7⟩
  · exact v64.bind fun s r1 h1 h2 h3 => ⟨h1, Nat.le_refl _, i1, i2, i3, fun n hn => by
      simp only [Option.some.injEq] at hn; subst hn; exact h3, i5, i6, i7⟩
  · exact v64.bind fun s r1 h1 h2 h3 => ⟨h1, Nat.le_refl _, i1, i2, i3, i4, fun n hn => by
      simp only [Option.some.injEq] at hn; subst hn; exact h3, i6, i7⟩
  · exact v32.bind fun s r1 h1 h2 h3 => ⟨h1, Nat.le_refl _, i1, i2, i3, i4, i5, fun n hn => by
      simp only [Option.some.injEq] at hn; subst hn; exact h3, i7⟩
  · exact (readMessage_good (timeStep_good b) {} r h ⟨by decide, fun _ h => by simp at h⟩).bind fun s r1 h1 h2 h3 =>
      ⟨h1, Nat.le_refl _, i1, i2, i3, i4, i5, i6, fun n hn => by
        simp only [Option.some.injEq] at hn; subst hn; exact h3⟩
  · exact readUnknown_good h _ hm'

theorem PBNode.from_default (b : Bytes) : PBNode.From b {} :=
  ⟨fun _ h => by simp at h, fun _ h => by simp at h⟩

theorem UnixFs.from_default (b : Bytes) : UnixFs.From b {} :=
  ⟨fun _ h => by simp at h, fun _ h => by simp at h, fun _ h => by simp at h, fun _ h => by simp at h,
    fun _ h => by simp at h, fun _ h => by simp at h, fun _ h => by simp at h⟩

theorem UnixTime.from_default : UnixTime.From {} := ⟨by decide, fun _ h => by simp at h⟩

theorem parseMessage_good {b : Bytes} {M : Type} {step : Nat → M → Reader → Except PbError (M × Reader)} {P : M → Prop}
    (hs : StepGood b step P) (m : M) (hm : P m) :
    (∀ e, parseMessage step m b = .error e → e ≠ .fuel) ∧ ∀ a, parseMessage step m b = .ok a → P a := by
  have h := fromReader_good hs m (Reader.ofBytes b) (by simp [Reader.At, Reader.ofBytes]) hm
  unfold parseMessage
  cases hf : fromReader step m (Reader.ofBytes b) with
  | error e => rw [hf] at h; exact ⟨fun e' he' => by simp at he'; subst he'; exact h, fun a ha => by simp at ha⟩
  | ok q =>
    rw [hf] at h
    exact ⟨fun e he => by simp at he, fun a ha => by simp at ha; subst ha; exact h.2.2.2⟩


theorem node_tryFrom_good (b : Bytes) :
    (∀ e, PBNode.tryFrom b = .error e → e ≠ .fuel) ∧ ∀ n, PBNode.tryFrom b = .ok n → n.From b :=
  parseMessage_good (nodeStep_good b) {} (PBNode.from_default b)

theorem unixFs_tryFrom_good (b : Bytes) :
    (∀ e, UnixFs.tryFrom (some b) = .error e → e ≠ .fuel) ∧ ∀ n, UnixFs.tryFrom (some b) = .ok n → n.From b :=
  parseMessage_good (dataStep_good b) {} (UnixFs.from_default b)

/-- As `PBLink.From`, for the combined message. -/
def FlatUnixFs.From (b : Bytes) (m : FlatUnixFs) : Prop := (∀ l ∈ m.links, l.From b) ∧ m.data.From b

theorem UnixFs.From.mono {a b : Bytes} {m : UnixFs} (h : m.From a) (hab : a <:+: b) : m.From b :=
  ⟨fun s hs => (h.1 s hs).trans hab, h.2⟩

theorem flat_tryParse_good (b : Bytes) {m : FlatUnixFs} (h : FlatUnixFs.tryParse b = .ok m) : m.From b := by
  unfold FlatUnixFs.tryParse at h
  split at h
  · simp at h
  · rename_i node hn
    have hg := (node_tryFrom_good b).2 node hn
    split at h
    · rename_i s hs
      split at h
      · simp at h
      · split at h
        · rename_i d hd
          simp only [Except.ok.injEq] at h; subst h
          exact ⟨hg.1, ((unixFs_tryFrom_good _).2 d hd).mono (hg.2 s hs).infix⟩
        · simp at h
    · simp at h

end Verif
