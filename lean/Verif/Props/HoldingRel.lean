import Verif.Spec.HoldingRel
import Verif.Props.Holding
import Verif.Props.ReleaseEnds
/-
C129: in a release build, what is kept of blocks is at most quadratic in their sizes.
-/
namespace Verif.Props
open Verif Verif.Spec

/-! ### How far a field goes -/

/-- The second reader is in the same buffer, has the same end, and is at least `k` bytes further. -/
def Fwd (k : Nat) (r r' : ReaderR) : Prop := r'.buf = r.buf ∧ r'.stop = r.stop ∧ r.pos + k ≤ r'.pos

theorem Fwd.trans {k j : Nat} {r r' r'' : ReaderR} (h : Fwd k r r') (h' : Fwd j r' r'') : Fwd (k + j) r r'' :=
  ⟨h'.1.trans h.1, h'.2.1.trans h.2.1, by have := h.2.2; have := h'.2.2; omega⟩

theorem lift_fwd {α : Type} {r r' : ReaderR} {x : Except PbError (α × Reader)} {a : α} (h : r.lift x = .ok (a, r')) :
    ∃ r1, x = .ok (a, r1) ∧ r' = r.at r1 := by
  unfold ReaderR.lift at h
  split at h
  · cases h; exact ⟨_, rfl, rfl⟩
  · cases h

theorem skips_fwd {r : ReaderR} {x : Bytes} {r1 : Reader} (h : r.view.Skips x r1) : Fwd x.length r (r.at r1) ∧ r1.pos = r.pos + x.length := by
  have h2 := h.2.1
  have h3 := h.2.2
  exact ⟨⟨rfl, h3, Nat.le_of_eq h2.symm⟩, h2⟩

theorem Fwd.weaken {k j : Nat} {r r' : ReaderR} (h : Fwd k r r') (hj : j ≤ k) : Fwd j r r' := ⟨h.1, h.2.1, by have := h.2.2; omega⟩

theorem varint32_fwd {r r' : ReaderR} {n : Nat} (h : r.readVarint32 = .ok (n, r')) : Fwd 1 r r' ∧ r'.pos ≤ r.buf.length ∧ n < U32 := by
  obtain ⟨r1, h1, rfl⟩ := lift_fwd h
  obtain ⟨x, hx, hs⟩ := (readVarint32_iff _ _ _).1 h1
  exact ⟨(skips_fwd hs).1.weaken (by obtain ⟨v, hv, _⟩ := hx; exact hv.2.pos), (readVarint32_inside h1).2.2.1, (readVarint32_inside h1).2.2.2⟩

theorem varint64_fwd {r r' : ReaderR} {n : Nat} (h : r.readVarint64 = .ok (n, r')) : Fwd 1 r r' := by
  obtain ⟨r1, h1, rfl⟩ := lift_fwd h
  obtain ⟨x, hx, hs⟩ := (readVarint64_iff _ _ _).1 h1
  exact (skips_fwd hs).1.weaken (by obtain ⟨v, hv, _⟩ := hx; exact hv.2.pos)

theorem bytes_fwd {r r' : ReaderR} {s : Slice} (h : r.readBytes = .ok (s, r')) : Fwd 1 r r' := by
  obtain ⟨r1, h1, rfl⟩ := lift_fwd h
  obtain ⟨x, hx, hs⟩ := (readBytes_iff _ _ _).1 ⟨s.off, h1⟩
  refine (skips_fwd hs).1.weaken ?_
  obtain ⟨v, hv, _⟩ := hx
  have := hv.2.pos
  rw [List.length_append]; omega

theorem string_fwd {r r' : ReaderR} {s : Bytes} (h : r.readString = .ok (s, r')) : Fwd 1 r r' := by
  obtain ⟨r1, h1, rfl⟩ := lift_fwd h
  obtain ⟨-, x, hx, hs⟩ := (readString_iff _ _ _).1 h1
  refine (skips_fwd hs).1.weaken ?_
  obtain ⟨v, hv, _⟩ := hx
  have := hv.2.pos
  rw [List.length_append]; omega

attribute [local irreducible] addW subW

theorem bind_ok {α β : Type} {x : Except PbError α} {f : α → Except PbError β} {b : β} (h : (x >>= f) = .ok b) : ∃ a, x = .ok a ∧ f a = .ok b := by
  cases x with
  | error e => cases h
  | ok a => exact ⟨a, rfl, h⟩

theorem unknown_cases {r r' : ReaderR} {tag : Nat} (h : r.readUnknown tag = .ok r') :
    (∃ n, r.readVarint64 = .ok (n, r')) ∨ (∃ k ≤ 8, 0 < k ∧ r' = { r with pos := addW r.pos k }) ∨ ∃ n r1, r.readVarint64 = .ok (n, r1) ∧ r1.skip n = .ok r' := by
  have key : ∀ (f : ReaderR → Nat → Except PbError ReaderR) (x y k : Nat), (match k with
      | 0 => (do let (_, r) ← r.readVarint64; .ok r)
      | 1 => .ok { r with pos := x }
      | 2 => (do
        let (len, r) ← r.readVarint64
        f r len)
      | 5 => .ok { r with pos := y }
      | 3 => .error .deprecated
      | 4 => .error .deprecated
      | _ => (.error .unknownWireType : Except PbError ReaderR)) = .ok r' →
      (∃ n, r.readVarint64 = .ok (n, r')) ∨ r' = { r with pos := x } ∨ r' = { r with pos := y } ∨ ∃ n r1, r.readVarint64 = .ok (n, r1) ∧ f r1 n = .ok r' := by
    intro f x y k h
    split at h
    · obtain ⟨⟨n, r1⟩, h1, h2⟩ := bind_ok h
      cases h2
      exact .inl ⟨n, h1⟩
    · cases h; exact .inr (.inl rfl)
    · obtain ⟨⟨n, r1⟩, h1, h2⟩ := bind_ok h
      exact .inr (.inr (.inr ⟨n, r1, h1, h2⟩))
    · cases h; exact .inr (.inr (.inl rfl))
    · cases h
    · cases h
    · cases h
  unfold ReaderR.readUnknown at h
  rcases key ReaderR.skip (addW r.pos 8) (addW r.pos 4) (tag % 8) h with h | h | h | h
  · exact .inl h
  · exact .inr (.inl ⟨8, by omega, by omega, h⟩)
  · exact .inr (.inl ⟨4, by omega, by omega, h⟩)
  · exact .inr (.inr h)

theorem unknown_stop {r r' : ReaderR} {tag : Nat} (h : r.readUnknown tag = .ok r') : r'.buf = r.buf ∧ r'.stop = r.stop := by
  rcases unknown_cases h with ⟨n, hv⟩ | ⟨k, -, -, rfl⟩ | ⟨n, r1, hv, hs⟩
  · exact ⟨(varint64_fwd hv).1, (varint64_fwd hv).2.1⟩
  · exact ⟨rfl, rfl⟩
  · unfold ReaderR.skip at hs
    split at hs
    · cases hs
    · cases hs; exact ⟨(varint64_fwd hv).1, (varint64_fwd hv).2.1⟩

theorem varint64_inside {r r' : ReaderR} {n : Nat} (h : r.readVarint64 = .ok (n, r')) : r'.pos ≤ r.buf.length := by
  obtain ⟨r1, h1, rfl⟩ := lift_fwd h
  obtain ⟨x, hx, hs⟩ := (readVarint64_iff _ _ _).1 h1
  have h2 := congrArg List.length hs.1
  have h3 := hs.2.1
  obtain ⟨v, hv, _⟩ := hx
  have := hv.2.pos
  simp only [ReaderR.view, List.length_drop, List.length_append] at h2 h3
  show r1.pos ≤ _
  omega

theorem unknown_fwd {r r' : ReaderR} {tag : Nat} (h : r.readUnknown tag = .ok r') (hp : r.pos ≤ r.buf.length) (hs : r.stop = r.buf.length)
    (hb : r.buf.length < 2 ^ 63) : Fwd 1 r r' := by
  have hu : U64 = 2 ^ 64 := U64_eq
  rcases unknown_cases h with ⟨n, hv⟩ | ⟨k, hk, hk0, rfl⟩ | ⟨n, r1, hv, hs'⟩
  · exact varint64_fwd hv
  · refine ⟨rfl, rfl, ?_⟩
    show r.pos + 1 ≤ addW r.pos k
    rw [addW_of_lt (by omega)]
    omega
  · have h1 := varint64_fwd hv
    have h2 := varint64_inside hv
    rw [skip_eq (by rw [h1.2.1, hs]; exact h2) (by rw [h1.2.1, hs]; omega)] at hs'
    split at hs'
    · cases hs'
    · cases hs'
      exact ⟨h1.1, h1.2.1, by have := h1.2.2; simp only; omega⟩

/-- A reader of fields which stays in its buffer and keeps its end. -/
def KeepsStop {M : Type} (step : Nat → M → ReaderR → Option (Except PbError (M × ReaderR))) : Prop :=
  ∀ tag m r m' r', step tag m r = some (.ok (m', r')) → r'.buf = r.buf ∧ r'.stop = r.stop

theorem linkStep_stop : KeepsStop PBLink.stepR := by
  intro tag m r m' r' h
  unfold PBLink.stepR at h
  have h := Option.some.inj h
  split at h
  · obtain ⟨⟨s, r1⟩, h1, h2⟩ := bind_ok h; cases h2; exact ⟨(bytes_fwd h1).1, (bytes_fwd h1).2.1⟩
  · obtain ⟨⟨s, r1⟩, h1, h2⟩ := bind_ok h; cases h2; exact ⟨(string_fwd h1).1, (string_fwd h1).2.1⟩
  · obtain ⟨⟨s, r1⟩, h1, h2⟩ := bind_ok h; cases h2; exact ⟨(varint64_fwd h1).1, (varint64_fwd h1).2.1⟩
  · obtain ⟨r1, h1, h2⟩ := bind_ok h; cases h2; exact unknown_stop h1

theorem fixed32_stop {r r' : ReaderR} {n : Nat} (h : r.readFixed32 = .ok (n, r')) : r'.buf = r.buf ∧ r'.stop = r.stop := by
  obtain ⟨r1, h1, rfl⟩ := lift_fwd h
  exact ⟨rfl, (fine_fixed32 r.view_at _ _ h1).2⟩

theorem timeStep_stop : KeepsStop UnixTime.stepR := by
  intro tag m r m' r' h
  unfold UnixTime.stepR at h
  have h := Option.some.inj h
  split at h
  · obtain ⟨⟨s, r1⟩, h1, h2⟩ := bind_ok h; cases h2; exact ⟨(varint64_fwd h1).1, (varint64_fwd h1).2.1⟩
  · obtain ⟨⟨s, r1⟩, h1, h2⟩ := bind_ok h; cases h2; exact fixed32_stop h1
  · obtain ⟨r1, h1, h2⟩ := bind_ok h; cases h2; exact unknown_stop h1

theorem message_fwd {M : Type} {step : Nat → M → ReaderR → Option (Except PbError (M × ReaderR))} (hs : KeepsStop step) {dflt m : M} {r r' : ReaderR}
    (hb : r.buf.length < 2 ^ 63) (h : r.readMessage step dflt = some (.ok (m, r'))) : Fwd 1 r r' := by
  have hu : U64 = 2 ^ 64 := rfl
  have hu32 : U32 = 2 ^ 32 := rfl
  unfold ReaderR.readMessage at h
  cases hv : r.readVarint32 with
  | error e => rw [hv] at h; cases h
  | ok p =>
    obtain ⟨len, r1⟩ := p
    rw [hv] at h
    simp only at h
    obtain ⟨h1, h2, h3⟩ := varint32_fwd hv
    obtain ⟨x, hx, h⟩ := Option.bind_eq_some_iff.1 h
    cases x with
    | error e => cases h
    | ok p =>
      obtain ⟨m1, r2⟩ := p
      cases h
      have hk := fromReaderR_keeps (fun _ r3 => r3.buf = r1.buf ∧ r3.stop = addW r1.pos len) (fun m r tag r1' m' r' hP _ hvar hst => by
        have a := (varint32_fwd hvar).1
        have b := hs _ _ _ _ _ hst
        exact ⟨b.1.trans (a.1.trans hP.1), b.2.trans (a.2.1.trans hP.2)⟩) hx ⟨rfl, rfl⟩
      have e : addW r1.pos len = r1.pos + len := addW_of_lt (by omega)
      have := h1.2.2
      exact ⟨hk.1.1.trans h1.1, h1.2.1, by simp only; rw [hk.1.2, e]; omega⟩

theorem map_some_ok {α β : Type} {x : Option (Except PbError α)} {f : α → Except PbError β} {b : β} (h : x.map (fun y => y >>= f) = some (.ok b)) :
    ∃ a, x = some (.ok a) ∧ f a = .ok b := by
  obtain ⟨y, hy, h⟩ := Option.map_eq_some_iff.1 h
  obtain ⟨a, rfl, h⟩ := bind_ok h
  exact ⟨a, hy, h⟩

theorem node_count {b : Bytes} (hb : b.length < 2 ^ 63) {n : PBNode} (h : PBNode.tryFromR b = some (.ok n)) : 2 * n.Links.length ≤ b.length := by
  obtain ⟨⟨m, r⟩, hx, h⟩ := map_some_ok h
  cases h
  have key := fromReaderR_keeps (fun (m : PBNode) r => r.buf = b ∧ r.stop = b.length ∧ 2 * m.Links.length ≤ r.pos) (fun m r tag r1 m' r' hP _ hv hst => by
    obtain ⟨p1, p2, p3⟩ := hP
    obtain ⟨q1, q2, -⟩ := varint32_fwd hv
    have q3 := q1.2.2
    have hb1 : r1.buf.length < 2 ^ 63 := by rw [q1.1, p1]; exact hb
    have fin : Fwd 1 r1 r' → m'.Links.length ≤ m.Links.length + 1 → r'.buf = b ∧ r'.stop = b.length ∧ 2 * m'.Links.length ≤ r'.pos := by
      intro hf hl
      have := hf.2.2
      exact ⟨hf.1.trans (q1.1.trans p1), hf.2.1.trans (q1.2.1.trans p2), by omega⟩
    unfold PBNode.stepR at hst
    split at hst
    · obtain ⟨⟨l, r2⟩, h1, h2⟩ := map_some_ok hst
      cases h2
      exact fin (message_fwd linkStep_stop hb1 h1) (by simp)
    · obtain ⟨⟨s, r2⟩, h1, h2⟩ := bind_ok (Option.some.inj hst)
      cases h2
      exact fin (bytes_fwd h1) (by simp)
    · obtain ⟨r2, h1, h2⟩ := bind_ok (Option.some.inj hst)
      cases h2
      exact fin (unknown_fwd h1 (by rw [q1.1]; exact q2) (by rw [q1.2.1, p2, q1.1, p1]) hb1) (by simp)) hx ⟨rfl, rfl, by simp⟩
  have := key.1.2.1
  have := key.1.2.2
  have := key.2
  omega

theorem data_count {b : Bytes} (hb : b.length < 2 ^ 63) {n : UnixFs} (h : UnixFs.tryFromR (some b) = some (.ok n)) :
    2 * n.blocksizes.length ≤ b.length := by
  obtain ⟨⟨m, r⟩, hx, h⟩ := map_some_ok h
  cases h
  have key := fromReaderR_keeps (fun (m : UnixFs) r => r.buf = b ∧ r.stop = b.length ∧ 2 * m.blocksizes.length ≤ r.pos) (fun m r tag r1 m' r' hP _ hv hst => by
    obtain ⟨p1, p2, p3⟩ := hP
    obtain ⟨q1, q2, -⟩ := varint32_fwd hv
    have q3 := q1.2.2
    have hb1 : r1.buf.length < 2 ^ 63 := by rw [q1.1, p1]; exact hb
    have fin : Fwd 1 r1 r' → m'.blocksizes.length ≤ m.blocksizes.length + 1 → r'.buf = b ∧ r'.stop = b.length ∧ 2 * m'.blocksizes.length ≤ r'.pos := by
      intro hf hl
      have := hf.2.2
      exact ⟨hf.1.trans (q1.1.trans p1), hf.2.1.trans (q1.2.1.trans p2), by omega⟩
    unfold UnixFs.stepR at hst
    split at hst
    all_goals first
      | (obtain ⟨⟨s, r2⟩, h1, h2⟩ := bind_ok (Option.some.inj hst)
         cases h2
         exact fin (varint32_fwd h1).1 (by simp))
      | (obtain ⟨⟨s, r2⟩, h1, h2⟩ := bind_ok (Option.some.inj hst)
         cases h2
         exact fin (bytes_fwd h1) (by simp))
      | (obtain ⟨⟨s, r2⟩, h1, h2⟩ := bind_ok (Option.some.inj hst)
         cases h2
         exact fin (varint64_fwd h1) (by simp))
      | (obtain ⟨⟨l, r2⟩, h1, h2⟩ := map_some_ok hst
         cases h2
         exact fin (message_fwd timeStep_stop hb1 h1) (by simp))
      | (obtain ⟨r2, h1, h2⟩ := bind_ok (Option.some.inj hst)
         cases h2
         exact fin (unknown_fwd h1 (by rw [q1.1]; exact q2) (by rw [q1.2.1, p2, q1.1, p1]) hb1) (by simp))) hx ⟨rfl, rfl, by simp⟩
  have := key.1.2.1
  have := key.1.2.2
  have := key.2
  omega

theorem flat_parts {b : Bytes} {m : FlatUnixFs} (h : FlatUnixFs.tryParseR b = some (.ok m)) :
    ∃ node s, PBNode.tryFromR b = some (.ok node) ∧ node.Data = some s ∧ UnixFs.tryFromR (some s.val) = some (.ok m.data) ∧ m.links = node.Links := by
  unfold FlatUnixFs.tryParseR at h
  obtain ⟨x, hx, h⟩ := Option.bind_eq_some_iff.1 h
  cases x with
  | error e => cases h
  | ok node =>
    simp only at h
    split at h
    · next s hs =>
      split at h
      · cases h
      · obtain ⟨y, hy, h⟩ := Option.map_eq_some_iff.1 h
        cases y with
        | error e => cases h
        | ok d => cases h; exact ⟨node, s, hx, hs, hy, rfl⟩
    · cases h

/-- C129. In a release build too, a block has at most half as many links, and blocksizes, as it has bytes. -/
theorem C129_count (b : Bytes) (hb : b.length < 2 ^ 63) (m : FlatUnixFs) (h : FlatUnixFs.tryParseR b = some (.ok m)) :
    2 * m.links.length ≤ b.length ∧ 2 * m.data.blocksizes.length ≤ b.length := by
  obtain ⟨node, s, h1, h2, h3, h4⟩ := flat_parts h
  have hs : s.val.length ≤ b.length := (((parseMessageR_ok (nodeStep_keeps b) (by exact ⟨nofun, nofun⟩) h1).2 s h2).infix).length_le
  exact ⟨h4 ▸ node_count hb h1, Nat.le_trans (data_count (by omega) h3) hs⟩

theorem pbSize_le {n : Nat} : ∀ {ls : List PBLink}, (∀ l ∈ ls, (l.Hash.getD []).length ≤ n ∧ (l.Name.getD []).length ≤ n) → pbSize ls ≤ ls.length * (2 * n + 2)
  | [], _ => by simp [pbSize]
  | l :: ls, h => by
    have h1 := pbSize_le (fun l' hl' => h l' (List.mem_cons_of_mem _ hl'))
    have h2 := h l (List.mem_cons_self ..)
    simp only [pbSize, List.map_cons, List.sum_cons, List.length_cons, Nat.succ_mul] at h1 ⊢
    omega

theorem pb_quadratic {b : Bytes} (hb : b.length < 2 ^ 63) {m : FlatUnixFs} (h : FlatUnixFs.tryParseR b = some (.ok m)) :
    pbSize m.links ≤ b.length * (b.length + 1) := by
  have h1 := (C129_count b hb m h).1
  have h2 := (C108_inside b m h).1
  have h3 : pbSize m.links ≤ m.links.length * (2 * b.length + 2) := pbSize_le (fun l hl => by
    obtain ⟨a, c, -⟩ := h2 l hl
    constructor
    · cases e : l.Hash with
      | none => simp
      | some x => exact (a x e).length_le
    · cases e : l.Name with
      | none => simp
      | some x => exact ((c x e).1).length_le)
  have h4 : m.links.length * (2 * b.length + 2) = 2 * m.links.length * (b.length + 1) := by
    rw [show 2 * b.length + 2 = 2 * (b.length + 1) from by omega, ← Nat.mul_assoc, Nat.mul_comm m.links.length 2]
  rw [h4] at h3
  exact Nat.le_trans h3 (Nat.mul_le_mul_right _ h1)

/-- C129. What a release build reads a block as takes at most quadratically many bytes. -/
theorem C129_block (b : Bytes) (hb : b.length < 2 ^ 63) (m : FlatUnixFs) (h : FlatUnixFs.tryParseR b = some (.ok m)) :
    messageSize m ≤ b.length * (b.length + 3) := by
  have h1 := pb_quadratic hb h
  have h2 := (C129_count b hb m h).2
  have h3 : (m.data.Data.getD []).length ≤ b.length := by
    cases e : m.data.Data with
    | none => simp
    | some x => exact ((C108_inside b m h).2.1 x e).length_le
  unfold messageSize
  unfold pbSize at h1
  have e : b.length * (b.length + 3) = b.length * (b.length + 1) + b.length + b.length := by
    rw [show b.length + 3 = (b.length + 1) + 2 from rfl, Nat.mul_add b.length (b.length + 1) 2]
    omega
  omega

/-! ### Cids -/

theorem tryFrom_digest {b : Bytes} {c : Cid} (h : Cid.tryFrom b = .ok c) : c.digest.length ≤ 64 := by
  cases (C53_exact b c).1 h with
  | @short v k d t hv hk hd => simp only; omega
  | @one v k h s d t codec code hv hk hh hs hd => exact hd
  | @zero v k h s d t hv hk hh hs hd => exact hd

theorem cids_count (ls : List PBLink) : cidsSize (ls.filterMap (fun l => (Cid.tryFrom (l.Hash.getD [])).toOption)) ≤ 68 * ls.length := by
  induction ls with
  | nil => simp [cidsSize]
  | cons l ls ih =>
    rw [List.filterMap_cons, List.length_cons]
    cases hc : Cid.tryFrom (l.Hash.getD []) with
    | error e =>
      have e1 : (Except.error e : Except CidError Cid).toOption = none := rfl
      rw [e1]
      dsimp only
      omega
    | ok c =>
      have := tryFrom_digest hc
      have e1 : (Except.ok c : Except CidError Cid).toOption = some c := rfl
      rw [e1]
      simp only [cidsSize, List.map_cons, List.sum_cons, linkSize, List.length_nil] at ih ⊢
      omega

theorem cids_pb (ls : List PBLink) : cidsSize (ls.filterMap (fun l => (Cid.tryFrom (l.Hash.getD [])).toOption)) ≤ pbSize ls := by
  induction ls with
  | nil => simp [cidsSize]
  | cons l ls ih =>
    rw [List.filterMap_cons]
    cases hc : Cid.tryFrom (l.Hash.getD []) with
    | error e =>
      have e1 : (Except.error e : Except CidError Cid).toOption = none := rfl
      rw [e1]
      simp only [pbSize, List.map_cons, List.sum_cons] at ih ⊢
      omega
    | ok c =>
      have := tryFrom_size hc
      have e1 : (Except.ok c : Except CidError Cid).toOption = some c := rfl
      rw [e1]
      simp only [cidsSize, List.map_cons, List.sum_cons, linkSize, List.length_nil, pbSize] at ih ⊢
      omega

theorem linkCidsRel_size {b : Bytes} (hb : b.length < 2 ^ 63) : cidsSize (linkCidsRel b) ≤ 34 * b.length := by
  unfold linkCidsRel
  split
  · next m hm =>
    have := cids_count m.links
    have := (C129_count b hb m hm).1
    omega
  · simp [cidsSize]

/-! ### Files and look-ups -/

theorem fed_rel_nonempty {v v' : FileVisit} {block x : Bytes} {cache cache' : Option VisitCache}
    (h : v.continueWalkRel block cache = some (.ok (x, some v'), cache')) : ∃ first rest, v.pendingLinks = .ok (first, rest) := by
  unfold FileVisit.pendingLinks
  cases hq : v.pending.reverse.map (·.1) with
  | cons a b => exact ⟨a, b, rfl⟩
  | nil =>
    have : v.pending = [] := by simpa using hq
    unfold FileVisit.continueWalkRel at h
    rw [this] at h
    cases h

theorem continueRel_size {v v' : FileVisit} {block x : Bytes} {cache cache' : Option VisitCache} 
    (h : v.continueWalkRel block cache = some (.ok (x, some v'), cache')) : visitSize v' ≤ visitSize v + cidsSize (linkCidsRel block) := by
  obtain ⟨first, rest, hp⟩ := fed_rel_nonempty h
  obtain ⟨S, hS, he⟩ := continueWalkRel_links hp h
  have h1 := cidsSize_sublist hS
  have h2 := congrArg cidsSize he
  have h3 := congrArg cidsSize (pendingLinks_drop hp).1
  rw [List.map_reverse, cidsSize_reverse] at h2 h3
  rw [cidsSize_append] at h2
  rw [← List.singleton_append, cidsSize_append] at h3
  unfold visitSize
  omega

/-- C129, files: what a visit keeps is at most 34 times what was given to it. -/
theorem C129_read (blocks : List Bytes) (v : FileVisit) (h : VisitFedRel blocks v) : visitSize v ≤ 34 * (blocks.map List.length).sum := by
  induction h with
  | @start idle root r v hb hs hn =>
    unfold IdleFileVisit.startRel at hs
    obtain ⟨x, hx, hs⟩ := Option.map_eq_some_iff.1 hs
    unfold IdleFileVisit.startP at hs
    rw [Res.bind_ok_iff] at hs
    obtain ⟨fr, hfr, hs⟩ := hs
    cases x with
    | error e => cases hfr
    | ok m =>
      have h1 := startFromReaderR_links hfr (cache := none) (k := (idle.startFromReaderR fr none).2) nofun (by rw [← hs]) hn
      have h2 := cidsSize_sublist h1
      rw [← linkCidsRel_ok hx, List.map_reverse, cidsSize_reverse] at h2
      have := linkCidsRel_size hb
      unfold visitSize
      simp only [List.map_cons, List.map_nil, List.sum_cons, List.sum_nil]
      omega
  | next hv hb hc ih =>
    have := continueRel_size hc
    have := linkCidsRel_size hb
    simp only [List.map_cons, List.sum_cons]
    omega

theorem resolveRel_links {block needle : Bytes} {cache c1 : Option LookupCache} {l : ShardedLookup} (hc : ∀ k, cache = some k → k.buffer = [])
    (h : resolveRel block needle cache = some (.ok (.NeedToLoadMore l), c1)) : l.links.Sublist (linkCidsRel block) := by
  have hq : (cache.getD {}).buffer = [] := by
    cases cache with
    | none => rfl
    | some k => exact hc k rfl
  unfold resolveRel at h
  obtain ⟨parsed, hparse, hr⟩ := Option.map_eq_some_iff.1 h
  have plain : ∀ links k, (resolveInLinks links needle, k) ≠ ((.ok (.NeedToLoadMore l), c1) : Res ResolveError MaybeResolved × Option LookupCache) :=
    fun links k he => resolveInLinks_not_more links needle l (congrArg Prod.fst he)
  obtain ⟨m, rfl, hlinks⟩ : ∃ m, parsed = .ok m ∧ l.links = bucketCids m.links := by
    unfold resolveP at hr
    split at hr
    · next m =>
      refine ⟨m, rfl, ?_⟩
      split at hr
      · simp only [Prod.mk.injEq] at hr
        obtain ⟨hr, -⟩ := hr
        unfold ShardedLookup.lookupOrStart at hr
        split at hr
        · cases hr
        · cases hr
        · rw [hq] at hr
          rcases hfs : ShardedLookup.finishStep needle m.links [] none with ⟨z, k⟩
          rw [hfs] at hr
          cases z with
          | ok y => cases hr; simpa using finishStep_next hfs
          | err e => cases hr
          | panic p => cases hr
      · split at hr
        · cases hr
        · exact absurd hr (plain _ _)
      · cases hr
    · exact absurd hr (plain _ _)
    · exact absurd hr (plain _ _)
    · cases hr
  rw [linkCidsRel_ok hparse, hlinks]
  exact bucketCids_sublist _

/-- C129, look-ups. -/
theorem C129_lookup (needle : Bytes) (blocks : List Bytes) (l : ShardedLookup) (h : LookupFedRel needle blocks l) (first : Cid) (rest : List Cid)
    (hp : l.pendingLinks = .ok (first, rest)) : cidsSize (first :: rest) ≤ 34 * (blocks.map List.length).sum := by
  have key : cidsSize l.links ≤ 34 * (blocks.map List.length).sum := by
    clear hp
    induction h with
    | @start block l cache cache' hb hc h =>
      have hS : l.links.Sublist (linkCidsRel block) := resolveRel_links hc h
      have := cidsSize_sublist hS
      have := linkCidsRel_size hb
      simp only [List.map_cons, List.map_nil, List.sum_cons, List.sum_nil]
      omega
    | @next blocks l l' block cache cache' hf hb h ih =>
      obtain ⟨c, queue, h1⟩ : ∃ c queue, l.pendingLinks = .ok (c, queue) := by
        cases hl : l.links with
        | cons a b => exact ⟨a, b, by unfold ShardedLookup.pendingLinks; rw [hl]⟩
        | nil => unfold ShardedLookup.continueWalkRel at h; rw [hl] at h; cases h
      obtain ⟨S, hS, he⟩ := continueRel_more h1 h
      have := cidsSize_sublist hS
      have := linkCidsRel_size hb
      rw [he, cidsSize_append]
      rw [pending_links h1] at ih
      have e : cidsSize queue ≤ cidsSize (c :: queue) := cidsSize_sublist (List.sublist_cons_self _ _)
      simp only [List.map_cons, List.sum_cons]
      omega
    | owned _ ih => exact ih
  rwa [pending_links hp] at key

/-! ### Walks -/

theorem asKindR_size {ε : Type} {e e' : InnerEntry} {kind : InnerKind} {cid : Cid} {name : Bytes} {depth : Nat} {md : Metadata}
    (h : e.asKindR (ε := ε) kind cid name depth md = .ok e') : entrySize e' + linkSize e.cid [] ≤ entrySize e + linkSize cid name + kindSize kind := by
  unfold InnerEntry.asKindR at h
  split at h
  · cases h
  · rw [Res.bind_ok_iff] at h
    obtain ⟨x, hx, h⟩ := h
    cases h
    unfold InnerEntry.setPathR at hx
    rw [Res.bind_ok_iff] at hx
    obtain ⟨p, hp, hx⟩ := hx
    cases hx
    have h1 := popWhileGe_size _ _ _ _ hp
    have h2 := push_size p name
    rw [entrySize_eq, entrySize_eq]
    simp only [linkSize, List.length_nil] at h1 h2 ⊢
    omega

theorem enterLeafR_size {w : Walker} {kind : InnerKind} {md : Metadata} {n : WalkLink} {ie : InnerEntry} (h : w.enterLeafR kind md n = .ok ie) :
    entrySize ie ≤ currentSize w + linkSize n.cid n.name + kindSize kind := by
  unfold Walker.enterLeafR at h
  split at h
  · cases h
    have := newRoot_size kind n.cid md n.name n.depth
    omega
  · next e he =>
    have := asKindR_size h
    simp only [currentSize, he, Option.map_some, Option.getD_some]
    omega

theorem enterDirectoryR_size {w : Walker} {md : Metadata} {n : WalkLink} {ie : InnerEntry} {item : ContinuedWalk}
    (h : w.enterDirectoryR md n = .ok (ie, item)) : entrySize ie ≤ currentSize w + linkSize n.cid n.name := by
  unfold Walker.enterDirectoryR at h
  split at h
  · cases h
    have := newRoot_size .RootDirectory n.cid md n.name n.depth
    simp only [kindSize] at this
    omega
  · next e he =>
    rw [Res.bind_ok_iff] at h
    obtain ⟨x, hx, h⟩ := h
    cases h
    have := asKindR_size hx
    simp only [currentSize, he, Option.map_some, Option.getD_some]
    simp only [kindSize] at this
    omega

theorem enterShardR_size {w : Walker} {md : Metadata} {n : WalkLink} {ie : InnerEntry} {item : ContinuedWalk}
    (h : w.enterShardR md n = .ok (ie, item)) : entrySize ie ≤ currentSize w + linkSize n.cid n.name := by
  unfold Walker.enterShardR at h
  split at h
  · cases h
    have := newRoot_size .BucketAtRoot n.cid md n.name n.depth
    simp only [kindSize] at this
    omega
  · next e he =>
    simp only [currentSize, he, Option.map_some, Option.getD_some]
    split at h
    · rw [Res.bind_ok_iff] at h
      obtain ⟨x, hx, h⟩ := h
      cases h
      have := asBucket_size hx
      simp only [linkSize, List.length_nil] at this ⊢
      omega
    · rw [Res.bind_ok_iff] at h
      obtain ⟨x, hx, h⟩ := h
      cases h
      have := asKindR_size hx
      simp only [kindSize] at this
      omega

theorem nextFirstR_size {w w' : Walker} {m : FlatUnixFs} {cache cache' : Option VisitCache}
    {r : Res WalkError ContinuedWalk} (hk : ∀ k, cache = some k → CacheObtainable k) (h : w.nextFirstR m cache = (r, w', cache')) :
    walkSize w' ≤ walkSize w + pbSize m.links := by
  unfold Walker.nextFirstR at h
  have key : ∀ x c', IdleFileVisit.startFromParsedR {} m cache = (.ok x, c') → kindSize (.File x.next x.total_size) ≤ pbSize m.links := by
    intro x c' hx
    cases hv : x.next with
    | none => simp [kindSize]
    | some v =>
      unfold IdleFileVisit.startFromParsedR at hx
      split at hx
      · next fr hfr =>
        have h1 := cidsSize_sublist (startFromReaderR_links hfr hk hx hv)
        have h2 := cids_pb m.links
        rw [List.map_reverse, cidsSize_reverse] at h1
        exact Nat.le_trans h1 h2
      · cases hx
      · cases hx
  split at h
  · cases h; omega
  · cases h; rw [stopped_size]; omega
  · next x c' hx =>
    have hx := key x c' hx
    split at h
    · cases h; omega
    · next n hn =>
      simp only at h
      split at h
      · cases h; omega
      · cases h; omega
      · next ie hie =>
        cases h
        have := enterLeafR_size hie
        rw [stopped_size, popNext_size, walkSize_eq, hn]
        simp only [Option.map_some, Option.getD_some] at this ⊢
        have e : waitingSize (some n).toList = linkSize n.cid n.name := by simp [waitingSize]
        omega

theorem nextBlockP_size {w w' : Walker} {m : FlatUnixFs} {cache cache' : Option VisitCache} {r : Res WalkError ContinuedWalk}
    (hk : ∀ k, cache = some k → CacheObtainable k) (h : w.nextBlockP cache (.ok m) = (r, w', cache')) : walkSize w' ≤ walkSize w + pbSize m.links := by
  unfold Walker.nextBlockP at h
  simp only at h
  split at h
  · split at h
    · cases h; rw [stopped_size]; omega
    · next m' hm' =>
      have := checkDirectorySupported_ok hm'
      subst this
      exact nextDir_size (fun d nth link l => convertLink_size) (fun n ie item => enterDirectoryR_size) h
  · split at h
    · cases h; omega
    · cases h; rw [stopped_size]; omega
    · next m' hm' =>
      have := checkHamtshardSupported_ok hm'
      subst this
      exact nextDir_size (fun d nth link l => convertShardedLink_size) (fun n ie item => enterShardR_size) h
  · exact nextFirstR_size hk h
  · exact nextFirstR_size hk h
  · cases h; rw [stopped_size]; omega
  · unfold Walker.nextSymlinkR at h
    simp only at h
    split at h
    · cases h; omega
    · next n hn =>
      split at h
      · cases h; omega
      · cases h; omega
      · next ie hie =>
        cases h
        have := enterLeafR_size hie
        rw [popNext_size, walkSize_eq, hn]
        simp only [kindSize, Option.map_some, Option.getD_some] at this ⊢
        have e : waitingSize (some n).toList = linkSize n.cid n.name := by simp [waitingSize]
        omega

theorem linkCidsRel_quadratic {b : Bytes} (hb : b.length < 2 ^ 63) : cidsSize (linkCidsRel b) ≤ b.length * (b.length + 1) := by
  unfold linkCidsRel
  split
  · next m hm => exact Nat.le_trans (cids_pb m.links) (pb_quadratic hb hm)
  · simp [cidsSize]

theorem nextFileP_size {w w' : Walker} {ie : InnerEntry} {v : FileVisit} {sz : Nat} (hcur : w.current = some ie) (hkind : ie.kind = .File (some v) sz)
    {block : Bytes} {cache cache' : Option VisitCache} {r : Res WalkError ContinuedWalk}
    {x : Res FileReadFailed (Bytes × Option FileVisit) × Option VisitCache} (hx : v.continueWalkRel block cache = some x)
    (h : w.nextFileP ie sz x = (r, w', cache')) : walkSize w' ≤ walkSize w + cidsSize (linkCidsRel block) := by
  have e0 : walkSize w = linkSize ie.cid [] + pathSize ie.path + visitSize v + waitingSize w.next.toList + waitingSize w.pending := by
    rw [walkSize_eq]
    simp only [currentSize, hcur, Option.map_some, Option.getD_some, entrySize_eq, hkind, kindSize]
  have e1 : ∀ (s : Option FileVisit) (b : Bool), walkSize { w with current := some { ie with kind := .File s sz }, should_continue := b } =
      linkSize ie.cid [] + pathSize ie.path + kindSize (.File s sz) + waitingSize w.next.toList + waitingSize w.pending := by
    intro s b
    rw [walkSize_eq]
    simp only [currentSize, Option.map_some, Option.getD_some, entrySize_eq]
  unfold Walker.nextFileP at h
  split at h
  · cases h; omega
  · cases h; rw [e1, e0]; simp only [kindSize]; omega
  · next content s c' =>
    simp only at h
    cases h
    rw [e1, e0]
    cases s with
    | none => simp only [kindSize]; omega
    | some v' =>
      have := continueRel_size hx
      simp only [kindSize]
      omega

/-- C129, one step of a walk: afterwards at most quadratically many bytes of the block are kept in addition. -/
theorem C129_step (w w' : Walker) (block : Bytes) (hb : block.length < 2 ^ 63) (cache cache' : Option VisitCache)
    (hk : ∀ k, cache = some k → CacheObtainable k) (r : Res WalkError ContinuedWalk) (h : w.stepRel block cache = some (r, w', cache')) :
    walkSize w' ≤ walkSize w + block.length * (block.length + 1) := by
  by_cases hf : ∃ ie v sz, w.current = some ie ∧ ie.kind = .File (some v) sz
  · obtain ⟨ie, v, sz, h1, h2⟩ := hf
    rw [stepRel_inFile h1 h2] at h
    obtain ⟨x, hx, h⟩ := Option.map_eq_some_iff.1 h
    have := nextFileP_size h1 h2 hx h
    have := linkCidsRel_quadratic hb
    omega
  · have hr : w.atRest := by
      intro ie v sz h1 h2
      exact hf ⟨ie, v, sz, h1, h2⟩
    rw [stepRel_atRest hr] at h
    obtain ⟨x, hx, h⟩ := Option.map_eq_some_iff.1 h
    cases x with
    | error e =>
      unfold Walker.nextBlockP at h
      cases h
      rw [stopped_size]
      omega
    | ok m =>
      have := nextBlockP_size hk h
      have := pb_quadratic hb hx
      omega

/-- C129, walks. -/
theorem C129_walk (c : Cid) (name : Bytes) (blocks : List Bytes) (w : Walker) (h : WalkFedRel c name blocks w) :
    walkSize w ≤ linkSize c name + (blocks.map (fun b => b.length * (b.length + 1))).sum := by
  induction h with
  | new =>
    rw [walkSize_eq]
    simp [currentSize, waitingSize, Walker.new]
  | next _ hb hk hs _ ih =>
    have := C129_step _ _ _ hb _ _ hk _ hs
    simp only [List.map_cons, List.sum_cons]
    omega

/-! ### Cases -/

/-- `fromReaderR` with at most so many fields. -/
def fromReaderF {M : Type} (step : Nat → M → ReaderR → Option (Except PbError (M × ReaderR))) : Nat → M → ReaderR → Option (Except PbError (M × ReaderR))
  | 0, _, _ => none
  | k + 1, m, r =>
    if r.pos = r.stop then some (.ok (m, r))
    else
      match r.readVarint32 with
      | .error e => some (.error e)
      | .ok (tag, r) =>
        match step tag m r with
        | none => none
        | some (.error e) => some (.error e)
        | some (.ok (m, r)) => fromReaderF step k m r

theorem fromReaderF_eq {M : Type} {step stepF : Nat → M → ReaderR → Option (Except PbError (M × ReaderR))}
    (hs : ∀ tag m r x, stepF tag m r = some x → step tag m r = some x) : ∀ (k : Nat) (m : M) (r : ReaderR) (x : Except PbError (M × ReaderR)),
    fromReaderF stepF k m r = some x → fromReaderR step m r = some x
  | 0, _, _, _, h => by cases h
  | k + 1, m, r, x, h => by
    unfold fromReaderF at h
    by_cases he : r.pos = r.stop
    · rw [if_pos he] at h
      rw [fromReaderR_end he]; exact h
    · rw [if_neg he] at h
      cases hv : r.readVarint32 with
      | error e => rw [hv] at h; rw [fromReaderR_tag he hv]; exact h
      | ok y =>
        obtain ⟨tag, r1⟩ := y
        rw [hv] at h
        simp only at h
        cases hst : stepF tag m r1 with
        | none => rw [hst] at h; cases h
        | some z =>
          rw [hst] at h
          cases z with
          | error e => rw [fromReaderR_err he hv (hs _ _ _ _ hst)]; exact h
          | ok z => 
            obtain ⟨m', r'⟩ := z
            rw [fromReaderR_step he hv (hs _ _ _ _ hst)]
            exact fromReaderF_eq hs k m' r' x h

/-- `PBNode.stepR` with at most so many fields of a link. -/
def nodeF (k : Nat) (tag : Nat) (m : PBNode) (r : ReaderR) : Option (Except PbError (PBNode × ReaderR)) :=
  match tag with
  | 18 =>
    match r.readVarint32 with
    | .error e => some (.error e)
    | .ok (len, r) =>
      match fromReaderF PBLink.stepR k {} { r with stop := addW r.pos len } with
      | none => none
      | some (.error e) => some (.error e)
      | some (.ok (l, r')) => some (.ok ({ m with Links := m.Links ++ [l] }, { r' with pos := r'.stop, stop := r.stop }))
  | 10 => some (do let (s, r) ← r.readBytes; .ok ({ m with Data := some s }, r))
  | t => some (do let r ← r.readUnknown t; .ok (m, r))

theorem nodeF_eq (k tag : Nat) (m : PBNode) (r : ReaderR) (x : Except PbError (PBNode × ReaderR)) (h : nodeF k tag m r = some x) :
    PBNode.stepR tag m r = some x := by
  unfold nodeF at h
  unfold PBNode.stepR
  split at h
  · simp only
    unfold ReaderR.readMessage
    cases hv : r.readVarint32 with
    | error e => rw [hv] at h; simp only at h ⊢; cases h; rfl
    | ok y =>
      obtain ⟨len, r1⟩ := y
      rw [hv] at h
      simp only at h ⊢
      cases hf : fromReaderF PBLink.stepR k {} { r1 with stop := addW r1.pos len } with
      | none => rw [hf] at h; cases h
      | some z =>
        rw [fromReaderF_eq (fun _ _ _ _ h => h) _ _ _ _ hf]
        rw [hf] at h
        cases z with
        | error e => cases h; rfl
        | ok z => obtain ⟨l, r'⟩ := z; cases h; rfl
  · simpa using h
  · next h1 h2 =>
    split
    · exact absurd rfl h1
    · exact absurd rfl h2
    · exact h

/-- `FlatUnixFs::try_parse` of a release build with at most so many fields of each message. -/
def parseF (k : Nat) (b : Bytes) : Option FlatUnixFs :=
  match fromReaderF (nodeF k) k {} ⟨b, 0, b.length⟩ with
  | some (.ok (node, _)) =>
    match node.Data with
    | some s => if s.val = [] then none else
      match fromReaderF UnixFs.stepR k {} ⟨s.val, 0, s.val.length⟩ with
      | some (.ok (d, _)) => some { links := node.Links, data := d }
      | _ => none
    | none => none
  | _ => none

theorem parseF_eq {k : Nat} {b : Bytes} {m : FlatUnixFs} (h : parseF k b = some m) : FlatUnixFs.tryParseR b = some (.ok m) := by
  unfold parseF at h
  split at h
  · next node r hn =>
    have hn := fromReaderF_eq (nodeF_eq k) _ _ _ _ hn
    split at h
    · next s hs =>
      split at h
      · cases h
      · next hne =>
        split at h
        · next d r' hd =>
          have hd := fromReaderF_eq (fun _ _ _ _ h => h) _ _ _ _ hd
          cases h
          unfold FlatUnixFs.tryParseR PBNode.tryFromR parseMessageR
          rw [hn]
          simp only [Option.map_some]
          show (match node.Data with
            | some s => _
            | none => _) = _
          rw [hs]
          simp only
          rw [if_neg hne]
          unfold UnixFs.tryFromR parseMessageR
          simp only [Option.getD_some]
          rw [hd]
          rfl
        · cases h
    · cases h
  · cases h

/-- A directory of 311 bytes with eight links. Each link goes, by a length which leads back, through the bytes of its name to its end; the names
are the same bytes but for their beginning. -/
def overlapBlock : Bytes :=
  (List.range 8).flatMap (fun k => [0x12, 0x02, 0x0a, 0x01, 0x25, 0x0a, UInt8.ofNat (72 - k), 0, 0]) ++ [0x0a, 0x02, 0x08, 0x01, 0x2a, 0xe8, 0x01] ++
    (List.range 8).flatMap (fun k => [0x0a, 0x04, 0x01, 0x70, 0, 0, 0x12, UInt8.ofNat (120 - 6 * k)]) ++ List.replicate 64 0x61 ++
    (List.range 8).flatMap (fun k => [0x22, UInt8.ofNat (14 + 9 * k)]) ++
    (List.range 8).flatMap (fun k => [0x22, UInt8.ofNat (154 - 2 * k), 0xfe, 0xff, 0xff, 0xff, 0xff, 0xff, 0xff, 0xff, 0x01])

/-- C129: with this block of 311 bytes, of which a checked build keeps nothing (it panics), a walk of a release build keeps more than 750 bytes,
so that the bounds of C128 do not hold there. -/
theorem C129_more : overlapBlock.length = 311 ∧ FlatUnixFs.tryParse overlapBlock = .error (.InvalidDagPb .overflow) ∧
    (∃ m, FlatUnixFs.tryParseR overlapBlock = some (.ok m) ∧ 750 < messageSize m) ∧
    ∃ w, WalkFedRel (cidN 0) [] [overlapBlock] w ∧ linkSize (cidN 0) [] + 750 < walkSize w := by
  have h : (parseF 100 overlapBlock).map (fun m => (decide (750 < messageSize m),
      isPanic ((Walker.new (cidN 0) []).nextBlockP none (.ok m)).1,
      decide (linkSize (cidN 0) [] + 750 < walkSize ((Walker.new (cidN 0) []).nextBlockP none (.ok m)).2.1))) = some (true, false, true) := by decide +kernel
  obtain ⟨m, hm, h⟩ := Option.map_eq_some_iff.1 h
  simp only [Prod.mk.injEq, decide_eq_true_eq] at h
  refine ⟨by decide +kernel, by decide +kernel, ⟨m, parseF_eq hm, h.1⟩, ((Walker.new (cidN 0) []).nextBlockP none (.ok m)).2.1, ?_, h.2.2⟩
  refine .next (r := ((Walker.new (cidN 0) []).nextBlockP none (.ok m)).1) (cache := none)
    (cache' := ((Walker.new (cidN 0) []).nextBlockP none (.ok m)).2.2) .new (by decide +kernel) (fun k hk => nomatch hk) ?_ (not_panic h.2.1)
  rw [stepRel_atRest (fun ie v sz h => by cases h), parseF_eq hm]
  rfl

/-- A file of the sample tree which needs two more blocks, and a look-up after two blocks of a sharded directory, in a release build. -/
theorem C129_example : (∃ v, VisitFedRel [heldBlock 1] v ∧ visitSize v = 72) ∧
    ∃ l, LookupFedRel [120] [leftShard, topShard] l ∧ l.pendingLinks = .ok (cidOf toySha rightShard, [cidOf toySha deepShard]) ∧
      cidsSize [cidOf toySha rightShard, cidOf toySha deepShard] = 72 := by
  constructor
  · have h : (parseF 100 (heldBlock 1)).bind (fun m => match (IdleFileVisit.mk none).startP (.ok m) with
      | .ok r => r.next.map visitSize
      | _ => none) = some 72 := by decide +kernel
    obtain ⟨m, hm, h⟩ := Option.bind_eq_some_iff.1 h
    split at h
    · next r hr =>
      obtain ⟨v, hv, h⟩ := Option.map_eq_some_iff.1 h
      exact ⟨v, .start (idle := .mk none) (by decide +kernel) (by unfold IdleFileVisit.startRel; rw [parseF_eq hm]; exact congrArg some hr) hv, h⟩
    · cases h
  · refine ⟨⟨[cidOf toySha rightShard, cidOf toySha deepShard], [120]⟩, ?_, rfl, by decide +kernel⟩
    have h1 : (parseF 100 topShard).map (fun m => resolveP [120] none (.ok m)) =
        some (.ok (.NeedToLoadMore ⟨[cidOf toySha leftShard, cidOf toySha rightShard], [120]⟩), none) := by decide +kernel
    have h2 : (parseF 100 leftShard).map (fun m => ShardedLookup.continueP ⟨[cidOf toySha leftShard, cidOf toySha rightShard], [120]⟩ [cidOf toySha rightShard] none (.ok m)) =
        some (.ok (.NeedToLoadMore ⟨[cidOf toySha rightShard, cidOf toySha deepShard], [120]⟩), none) := by decide +kernel
    obtain ⟨m, hm, h1⟩ := Option.map_eq_some_iff.1 h1
    obtain ⟨m', hm', h2⟩ := Option.map_eq_some_iff.1 h2
    refine .next (cache := none) (cache' := none) (.start (l := ⟨[cidOf toySha leftShard, cidOf toySha rightShard], [120]⟩) (cache := none) (cache' := none)
      (by decide +kernel) (fun k hk => nomatch hk) (by unfold resolveRel; rw [parseF_eq hm]; exact congrArg some h1)) (by decide +kernel) ?_
    unfold ShardedLookup.continueWalkRel
    simp only
    rw [parseF_eq hm']
    exact congrArg some h2

end Verif.Props

