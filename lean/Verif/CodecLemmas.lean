import Verif.PbLemmas
/-
Lemmas about the message readers and writers.
-/
namespace Verif
open Spec

theorem step_default {M : Type} {step : Nat → M → Reader → Except PbError (M × Reader)} {known : List Nat}
    (hd : ∀ t ∉ known, ∀ m r, step t m r = (do let r ← r.readUnknown t; .ok (m, r)))
    (u : Unk) (hu : u.WF known) (m : M) (pos stop : Nat) (tail : Bytes) (hstop : pos + u.enc.length ≤ stop) :
    (Reader.readVarint32 ⟨pos, stop, u.enc ++ tail⟩ >>= fun p => step p.1 m p.2) =
      .ok (m, ⟨pos + u.enc.length, stop, tail⟩) := by
  obtain ⟨r1, h1, h2⟩ := readUnknown_enc u hu pos stop tail hstop
  rw [h1]
  simp only [except_ok_bind, hd _ hu.2.1, h2]

theorem linkStep_ok : StepOk PBLink.step LinkField.enc (fun _ => LinkField.apply) LinkField.WF := by
  intro f hf
  constructor
  · cases f with
    | hash b => have := encVarint_pos 10; simp [LinkField.enc, List.length_append]; omega
    | name b => have := encVarint_pos 18; simp [LinkField.enc, List.length_append]; omega
    | tsize n => have := encVarint_pos 24; simp [LinkField.enc, List.length_append]; omega
    | unk u => exact unk_enc_pos u
  · intro m pos stop tail hstop
    cases f with
    | hash b =>
      simp only [LinkField.enc, List.append_assoc, readVarint32_enc (show (10 : Nat) < U32 by decide), except_ok_bind,
        PBLink.step, readBytes_enc (show b.length < U32 from hf), LinkField.apply, List.length_append, Nat.add_assoc]
    | name b =>
      simp only [LinkField.enc, List.append_assoc, readVarint32_enc (show (18 : Nat) < U32 by decide), except_ok_bind,
        PBLink.step, readString_enc hf.1 hf.2, LinkField.apply, List.length_append, Nat.add_assoc]
    | tsize n =>
      simp only [LinkField.enc, List.append_assoc, readVarint32_enc (show (24 : Nat) < U32 by decide), except_ok_bind,
        PBLink.step, readVarint64_enc (show n < U64 from hf), LinkField.apply, List.length_append, Nat.add_assoc]
    | unk u =>
      refine step_default (known := [10, 18, 24]) ?_ u hf m pos stop tail hstop
      intro t ht m r
      simp at ht
      unfold PBLink.step
      split <;> first | rfl | (exfalso; simp_all)

theorem timeStep_ok : StepOk UnixTime.step TimeField.enc (fun _ => TimeField.apply) TimeField.WF := by
  intro f hf
  constructor
  · cases f with
    | seconds b => have := encVarint_pos 8; simp [TimeField.enc, List.length_append]; omega
    | nanos b => have := encVarint_pos 21; simp [TimeField.enc, List.length_append]; omega
    | unk u => exact unk_enc_pos u
  · intro m pos stop tail hstop
    cases f with
    | seconds n =>
      simp only [TimeField.enc, List.append_assoc, readVarint32_enc (show (8 : Nat) < U32 by decide), except_ok_bind,
        UnixTime.step, readVarint64_enc (show n < U64 from hf), TimeField.apply, List.length_append, Nat.add_assoc]
    | nanos n =>
      simp only [TimeField.enc, List.append_assoc, readVarint32_enc (show (21 : Nat) < U32 by decide), except_ok_bind,
        UnixTime.step, readFixed32_enc (show n < U32 from hf), TimeField.apply, List.length_append, Nat.add_assoc,
        wFixed32_length]
    | unk u =>
      refine step_default (known := [8, 21]) ?_ u hf m pos stop tail hstop
      intro t ht m r
      simp at ht
      unfold UnixTime.step
      split <;> first | rfl | (exfalso; simp_all)

/-- Effect of a node field on the reader's message, with the position of the data slice. -/
def NodeField.applyAt (pos : Nat) (m : PBNode) : NodeField → PBNode
  | .link fs => { m with Links := m.Links ++ [linkOf fs] }
  | .data b => { m with Data := some ⟨pos + (encVarint 10).length + (encVarint b.length).length, b⟩ }
  | .unk _ => m

theorem nodeStep_ok : StepOk PBNode.step NodeField.enc NodeField.applyAt NodeField.WF := by
  intro f hf
  constructor
  · cases f with
    | link b => have := encVarint_pos 18; simp [NodeField.enc, List.length_append]; omega
    | data b => have := encVarint_pos 10; simp [NodeField.enc, List.length_append]; omega
    | unk u => exact unk_enc_pos u
  · intro m pos stop tail hstop
    cases f with
    | link fs =>
      simp only [NodeField.enc, List.append_assoc, readVarint32_enc (show (18 : Nat) < U32 by decide), except_ok_bind,
        PBNode.step, readMessage_fields linkStep_ok fs hf.1 _ _ _ _ hf.2, NodeField.applyAt, List.length_append,
        Nat.add_assoc, linkOf]
    | data b =>
      simp only [NodeField.enc, List.append_assoc, readVarint32_enc (show (10 : Nat) < U32 by decide), except_ok_bind,
        PBNode.step, readBytes_enc (show b.length < U32 from hf), NodeField.applyAt, List.length_append, Nat.add_assoc]
    | unk u =>
      refine step_default (known := [18, 10]) ?_ u hf m pos stop tail hstop
      intro t ht m r
      simp at ht
      unfold PBNode.step
      split <;> first | rfl | (exfalso; simp_all)

theorem typeOf_eq (n : Nat) : DataType.ofI32 (n % U32) = typeOf n := by
  unfold DataType.ofI32 typeOf
  split <;> simp_all

theorem dataStep_ok : StepOk UnixFs.step DataField.enc (fun _ => DataField.apply) DataField.WF := by
  intro f hf
  constructor
  · cases f with
    | type b => have := encVarint_pos 8; simp [DataField.enc, List.length_append]; omega
    | data b => have := encVarint_pos 18; simp [DataField.enc, List.length_append]; omega
    | filesize b => have := encVarint_pos 24; simp [DataField.enc, List.length_append]; omega
    | blocksize b => have := encVarint_pos 32; simp [DataField.enc, List.length_append]; omega
    | hashType b => have := encVarint_pos 40; simp [DataField.enc, List.length_append]; omega
    | fanout b => have := encVarint_pos 48; simp [DataField.enc, List.length_append]; omega
    | mode b => have := encVarint_pos 56; simp [DataField.enc, List.length_append]; omega
    | mtime b => have := encVarint_pos 66; simp [DataField.enc, List.length_append]; omega
    | unk u => exact unk_enc_pos u
  · intro m pos stop tail hstop
    cases f with
    | type n =>
      simp only [DataField.enc, List.append_assoc, readVarint32_enc (show (8 : Nat) < U32 by decide), except_ok_bind,
        UnixFs.step, readVarint32_enc' (show n < U64 from hf), DataField.apply, List.length_append, Nat.add_assoc,
        typeOf_eq]
    | data b =>
      simp only [DataField.enc, List.append_assoc, readVarint32_enc (show (18 : Nat) < U32 by decide), except_ok_bind,
        UnixFs.step, readBytes_enc (show b.length < U32 from hf), DataField.apply, List.length_append, Nat.add_assoc]
    | filesize n =>
      simp only [DataField.enc, List.append_assoc, readVarint32_enc (show (24 : Nat) < U32 by decide), except_ok_bind,
        UnixFs.step, readVarint64_enc (show n < U64 from hf), DataField.apply, List.length_append, Nat.add_assoc]
    | blocksize n =>
      simp only [DataField.enc, List.append_assoc, readVarint32_enc (show (32 : Nat) < U32 by decide), except_ok_bind,
        UnixFs.step, readVarint64_enc (show n < U64 from hf), DataField.apply, List.length_append, Nat.add_assoc]
    | hashType n =>
      simp only [DataField.enc, List.append_assoc, readVarint32_enc (show (40 : Nat) < U32 by decide), except_ok_bind,
        UnixFs.step, readVarint64_enc (show n < U64 from hf), DataField.apply, List.length_append, Nat.add_assoc]
    | fanout n =>
      simp only [DataField.enc, List.append_assoc, readVarint32_enc (show (48 : Nat) < U32 by decide), except_ok_bind,
        UnixFs.step, readVarint64_enc (show n < U64 from hf), DataField.apply, List.length_append, Nat.add_assoc]
    | mode n =>
      simp only [DataField.enc, List.append_assoc, readVarint32_enc (show (56 : Nat) < U32 by decide), except_ok_bind,
        UnixFs.step, readVarint32_enc' (show n < U64 from hf), DataField.apply, List.length_append, Nat.add_assoc]
    | mtime fs =>
      simp only [DataField.enc, List.append_assoc, readVarint32_enc (show (66 : Nat) < U32 by decide), except_ok_bind,
        UnixFs.step, readMessage_fields timeStep_ok fs hf.1 _ _ _ _ hf.2, DataField.apply, List.length_append,
        Nat.add_assoc]
    | unk u =>
      refine step_default (known := [8, 18, 24, 32, 40, 48, 56, 66]) ?_ u hf m pos stop tail hstop
      intro t ht m r
      simp at ht
      unfold UnixFs.step
      split <;> first | rfl | (exfalso; simp_all)

/-- Reading a UnixFS message given as a list of fields. -/
theorem unixFs_parse_fields (fs : List DataField) (hf : ∀ f ∈ fs, f.WF) :
    UnixFs.tryFrom (some (fs.flatMap DataField.enc)) = .ok (unixFsOf fs) := by
  simp only [UnixFs.tryFrom, Option.getD_some, parseMessage_fields dataStep_ok fs hf, foldFields_eq_foldl, unixFsOf]

theorem foldNode_links (fs : List NodeField) (pos : Nat) (m : PBNode) :
    (foldFields NodeField.enc NodeField.applyAt pos m fs).Links = m.Links ++ nodeLinks fs := by
  induction fs generalizing pos m with
  | nil => simp [foldFields, nodeLinks]
  | cons f fs ih =>
    rw [foldFields, ih]
    cases f <;> simp [NodeField.applyAt, nodeLinks]

theorem foldNode_data (fs : List NodeField) (pos : Nat) (m : PBNode) :
    (foldFields NodeField.enc NodeField.applyAt pos m fs).Data.map (·.val) =
      match nodeData fs with | some b => some b | none => m.Data.map (·.val) := by
  induction fs generalizing pos m with
  | nil => simp [foldFields, nodeData]
  | cons f fs ih =>
    rw [foldFields, ih]
    cases f with
    | link l => simp [NodeField.applyAt, nodeData]
    | unk u => simp [NodeField.applyAt, nodeData]
    | data b =>
      simp only [NodeField.applyAt, nodeData, List.filterMap_cons, List.getLast?_cons, Option.map_some]
      cases (List.filterMap _ fs).getLast? <;> simp

/-- Reading a dag-pb node given as a list of fields. -/
theorem node_parse_fields (fs : List NodeField) (hf : ∀ f ∈ fs, f.WF) :
    ∃ n, PBNode.tryFrom (fs.flatMap NodeField.enc) = .ok n ∧ n.Links = nodeLinks fs
      ∧ n.Data.map (·.val) = nodeData fs := by
  refine ⟨_, parseMessage_fields nodeStep_ok fs hf {}, ?_, ?_⟩
  · simp [foldNode_links]
  · rw [foldNode_data]; cases nodeData fs <;> simp

/-- Reading a block given as node fields whose data is a list of UnixFS fields. -/
theorem flat_parse_fields (ns : List NodeField) (hn : ∀ f ∈ ns, f.WF) (ds : List DataField) (hd : ∀ f ∈ ds, f.WF)
    (hne : ds ≠ []) (hdata : nodeData ns = some (ds.flatMap DataField.enc)) :
    FlatUnixFs.tryParse (ns.flatMap NodeField.enc) = .ok { links := nodeLinks ns, data := unixFsOf ds } := by
  obtain ⟨n, h1, h2, h3⟩ := node_parse_fields ns hn
  rw [hdata] at h3
  simp only [FlatUnixFs.tryParse, h1]
  cases hnd : n.Data with
  | none => rw [hnd] at h3; simp at h3
  | some s =>
    rw [hnd] at h3; simp at h3
    have : s.val ≠ [] := by
      rw [h3]
      obtain ⟨d, ds', rfl⟩ := List.exists_cons_of_ne_nil hne
      have := (dataStep_ok d (hd d (by simp))).1
      intro h; simp at h; rw [h.1] at this; simp at this
    simp only [if_neg this]
    simp only [h3, unixFs_parse_fields ds hd, h2]

/-! ### sizes -/

theorem sizeofLen_eq {b : Bytes} (h : b.length < U64) : sizeofLen b.length = (wBytes b).length := by
  simp [sizeofLen, wBytes, sizeofVarint_eq _ h]

theorem tag_len {t : Nat} (h : t < 128) (p : Bytes) : (wTag t p).length = 1 + p.length := by
  have : (encVarint t).length = 1 := by
    unfold encVarint; exact encVarintF_len 0 9 t (by omega) (Or.inl rfl) (by simpa using h)
  simp [wTag, this]

theorem u32_lt_u64 {n : Nat} (h : n < U32) : n < U64 := Nat.lt_of_lt_of_le h (by decide)

theorem wMessage_len {s : Nat} {b : Bytes} (h : s < U64) (hb : s = b.length) :
    (wMessage s b).length = sizeofLen s := by
  subst hb; simp [wMessage, sizeofLen, sizeofVarint_eq _ h]

theorem wBytes_len {b : Bytes} (h : b.length < U64) : (wBytes b).length = sizeofLen b.length :=
  (sizeofLen_eq h).symm

theorem wOpt_len {α : Type} (o : Option α) (f : α → Bytes) (g : α → Nat) (h : ∀ a, o = some a → (f a).length = g a) :
    (wOpt o f).length = optSize o g := by
  cases o with
  | none => rfl
  | some a => exact h a rfl

theorem flatMap_len {α : Type} (l : List α) (f : α → Bytes) (g : α → Nat) (h : ∀ a ∈ l, (f a).length = g a) :
    (l.flatMap f).length = (l.map g).sum := by
  induction l with
  | nil => rfl
  | cons a l ih =>
    simp only [List.flatMap_cons, List.length_append, List.map_cons, List.sum_cons, h a (by simp),
      ih (fun b hb => h b (by simp [hb]))]

theorem PBLink.write_length (m : PBLink) (h1 : optAll m.Hash (fun b => b.length < U64))
    (h2 : optAll m.Name (fun b => b.length < U64)) (h3 : optAll m.Tsize (fun n => n < U64)) :
    m.write.length = m.getSize := by
  unfold PBLink.write PBLink.getSize
  simp only [List.length_append]
  congr 1; congr 1
  · apply wOpt_len; intro a ha; rw [tag_len (by decide), wBytes_len (h1 a ha)]
  · apply wOpt_len; intro a ha; rw [tag_len (by decide), wBytes_len (h2 a ha)]
  · apply wOpt_len; intro a ha; rw [tag_len (by decide), sizeofVarint_eq _ (h3 a ha)]

theorem PBLink.Fits.len {m : PBLink} (h : m.Fits) : m.write.length = m.getSize :=
  m.write_length (fun a ha => u32_lt_u64 (h.1 a ha)) (fun a ha => u32_lt_u64 (h.2.1 a ha).1) h.2.2.1

theorem i64AsU64_lt (x : Int) : i64AsU64 x < U64 := by
  unfold i64AsU64
  have h1 := Int.emod_nonneg x (b := 2 ^ 64) (by decide)
  have h2 := Int.emod_lt_of_pos x (b := 2 ^ 64) (by decide)
  have : (((x % 2 ^ 64).toNat : Nat) : Int) < ((U64 : Nat) : Int) := by
    rw [Int.toNat_of_nonneg h1]; simpa using h2
  exact_mod_cast this

theorem u64AsI64_i64AsU64 (x : Int) (h : -(2 ^ 63 : Int) ≤ x ∧ x < (2 ^ 63 : Int)) : u64AsI64 (i64AsU64 x) = x := by
  unfold u64AsI64 i64AsU64
  by_cases hx : 0 ≤ x
  · have : x % 2 ^ 64 = x := Int.emod_eq_of_lt hx (by omega)
    rw [this]; split <;> omega
  · have : x % 2 ^ 64 = x + 2 ^ 64 := by omega
    rw [this]; split <;> omega

theorem UnixTime.write_length (m : UnixTime) : m.write.length = m.getSize := by
  unfold UnixTime.write UnixTime.getSize
  simp only [List.length_append]
  rw [tag_len (by decide), sizeofVarint_eq _ (i64AsU64_lt _), wOpt_len _ _ (fun _ => 1 + 4)]
  intro a _; rw [tag_len (by decide), wFixed32_length]

theorem UnixTime.getSize_lt (m : UnixTime) : m.getSize < U32 := by
  have h1 : sizeofVarint (i64AsU64 m.Seconds) ≤ 10 := by unfold sizeofVarint; repeat' split <;> try omega
  have h2 : optSize m.FractionalNanoseconds (fun _ => 1 + 4) ≤ 5 := by
    cases m.FractionalNanoseconds <;> simp [optSize]
  have : m.getSize ≤ 16 := by unfold UnixTime.getSize; omega
  exact Nat.lt_of_le_of_lt this (by decide)

theorem DataType.toNat_lt (t : DataType) : t.toNat < 128 := by cases t <;> decide

theorem UnixFs.write_length (m : UnixFs) (h1 : optAll m.Data (fun b => b.length < U64))
    (h2 : optAll m.filesize (fun n => n < U64)) (h3 : ∀ n ∈ m.blocksizes, n < U64)
    (h4 : optAll m.hashType (fun n => n < U64)) (h5 : optAll m.fanout (fun n => n < U64))
    (h6 : optAll m.mode (fun n => n < U64)) : m.write.length = m.getSize := by
  unfold UnixFs.write UnixFs.getSize
  simp only [List.length_append]
  congr 1; congr 1; congr 1; congr 1; congr 1; congr 1; congr 1
  · rw [tag_len (by decide), sizeofVarint_eq _ (Nat.lt_trans (DataType.toNat_lt _) (by decide))]
  · apply wOpt_len; intro a ha; rw [tag_len (by decide), wBytes_len (h1 a ha)]
  · apply wOpt_len; intro a ha; rw [tag_len (by decide), sizeofVarint_eq _ (h2 a ha)]
  · apply flatMap_len; intro a ha; rw [tag_len (by decide), sizeofVarint_eq _ (h3 a ha)]
  · apply wOpt_len; intro a ha; rw [tag_len (by decide), sizeofVarint_eq _ (h4 a ha)]
  · apply wOpt_len; intro a ha; rw [tag_len (by decide), sizeofVarint_eq _ (h5 a ha)]
  · apply wOpt_len; intro a ha; rw [tag_len (by decide), sizeofVarint_eq _ (h6 a ha)]
  · apply wOpt_len; intro a ha
    rw [tag_len (by decide), wMessage_len (u32_lt_u64 a.getSize_lt) a.write_length.symm]

theorem UnixFs.Fits.len {m : UnixFs} (h : m.Fits) : m.write.length = m.getSize := by
  obtain ⟨h1, h2, h3, h4, h5, h6, h7⟩ := h
  exact m.write_length (fun a ha => u32_lt_u64 (h1 a ha)) h2 h3 h4 h5 (fun a ha => u32_lt_u64 (h6 a ha))

theorem FlatUnixFs.Fits.len {m : FlatUnixFs} (h : m.Fits) : m.write.length = m.getSize := by
  obtain ⟨h1, h2, h3⟩ := h
  unfold FlatUnixFs.write FlatUnixFs.getSize
  rw [List.length_append, tag_len (by decide), wMessage_len (u32_lt_u64 h3) h2.len.symm]
  congr 1
  apply flatMap_len
  intro a ha
  rw [tag_len (by decide), wMessage_len (u32_lt_u64 (h1 a ha).2.2.2) (h1 a ha).len.symm]

theorem PBNode.Fits.len {m : PBNode} (h : m.Fits) : m.write.length = m.getSize := by
  obtain ⟨h1, h2⟩ := h
  unfold PBNode.write PBNode.getSize
  rw [List.length_append, wOpt_len _ _ (fun s => 1 + sizeofLen s.val.length)]
  · congr 1
    apply flatMap_len
    intro a ha
    rw [tag_len (by decide), wMessage_len (u32_lt_u64 (h1 a ha).2.2.2) (h1 a ha).len.symm]
  · intro a ha; rw [tag_len (by decide), wBytes_len (u32_lt_u64 (h2 a ha))]

/-! ### writers produce field sequences -/

def optF {α β : Type} (o : Option α) (f : α → β) : List β := (o.map f).toList

theorem flatMap_optF {α β : Type} (o : Option α) (f : α → β) (e : β → Bytes) :
    (optF o f).flatMap e = wOpt o (fun a => e (f a)) := by cases o <;> simp [optF, wOpt]

theorem foldl_optF {α β M : Type} (o : Option α) (f : α → β) (ap : M → β → M) (m : M) :
    (optF o f).foldl ap m = match o with | none => m | some a => ap m (f a) := by cases o <;> simp [optF]

theorem mem_optF {α β : Type} {o : Option α} {f : α → β} {b : β} (h : b ∈ optF o f) : ∃ a, o = some a ∧ b = f a := by
  cases o <;> simp_all [optF]

def PBLink.fields (m : PBLink) : List LinkField := optF m.Hash .hash ++ optF m.Name .name ++ optF m.Tsize .tsize

theorem PBLink.fields_enc (m : PBLink) : m.fields.flatMap LinkField.enc = m.write := by
  simp only [PBLink.fields, List.flatMap_append, flatMap_optF, PBLink.write, wTag, wBytes, LinkField.enc]

theorem PBLink.fields_wf {m : PBLink} (h : m.Fits) : ∀ f ∈ m.fields, f.WF := by
  intro f hf
  simp only [PBLink.fields, List.mem_append] at hf
  rcases hf with (hf | hf) | hf <;> obtain ⟨a, ha, rfl⟩ := mem_optF hf
  · exact h.1 a ha
  · exact h.2.1 a ha
  · exact h.2.2.1 a ha

theorem PBLink.fields_of (m : PBLink) : linkOf m.fields = m := by
  obtain ⟨a, b, c⟩ := m
  simp only [linkOf, PBLink.fields, List.foldl_append, foldl_optF]
  cases a <;> cases b <;> cases c <;> rfl

def UnixTime.fields (m : UnixTime) : List TimeField :=
  .seconds (i64AsU64 m.Seconds) :: optF m.FractionalNanoseconds .nanos

theorem UnixTime.fields_enc (m : UnixTime) : m.fields.flatMap TimeField.enc = m.write := by
  simp only [UnixTime.fields, List.flatMap_cons, flatMap_optF, UnixTime.write, wTag, TimeField.enc]

theorem UnixTime.fields_wf {m : UnixTime} (h : m.Fits) : ∀ f ∈ m.fields, f.WF := by
  intro f hf
  simp only [UnixTime.fields, List.mem_cons] at hf
  rcases hf with rfl | hf
  · exact i64AsU64_lt _
  · obtain ⟨a, ha, rfl⟩ := mem_optF hf; exact h.2 a ha

theorem UnixTime.fields_of {m : UnixTime} (h : m.Fits) : m.fields.foldl TimeField.apply {} = m := by
  obtain ⟨a, b⟩ := m
  simp only [UnixTime.fields, List.foldl_cons, foldl_optF, TimeField.apply, u64AsI64_i64AsU64 a h.1]
  cases b <;> rfl

def UnixFs.fields (m : UnixFs) : List DataField :=
  .type m.Ty.toNat :: (optF m.Data .data ++ optF m.filesize .filesize ++ m.blocksizes.map .blocksize
    ++ optF m.hashType .hashType ++ optF m.fanout .fanout ++ optF m.mode .mode
    ++ optF m.mtime (fun t => .mtime t.fields))

theorem flatMap_map' {α β : Type} (l : List α) (f : α → β) (e : β → Bytes) :
    (l.map f).flatMap e = l.flatMap (fun a => e (f a)) := by
  induction l with
  | nil => rfl
  | cons a l ih => simp [ih]

theorem UnixFs.fields_enc (m : UnixFs) : m.fields.flatMap DataField.enc = m.write := by
  simp only [UnixFs.fields, List.flatMap_cons, List.flatMap_append, flatMap_optF, flatMap_map', UnixFs.write, wTag,
    wBytes, DataField.enc, wMessage, UnixTime.fields_enc, UnixTime.write_length, List.append_assoc]

theorem UnixFs.fields_wf {m : UnixFs} (h : m.Fits) : ∀ f ∈ m.fields, f.WF := by
  obtain ⟨h1, h2, h3, h4, h5, h6, h7⟩ := h
  intro f hf
  simp only [UnixFs.fields, List.mem_cons, List.mem_append, List.mem_map] at hf
  rcases hf with rfl | ((((((hf | hf) | hf) | hf) | hf) | hf) | hf)
  · exact Nat.lt_trans (DataType.toNat_lt _) (by decide)
  · obtain ⟨a, ha, rfl⟩ := mem_optF hf; exact h1 a ha
  · obtain ⟨a, ha, rfl⟩ := mem_optF hf; exact h2 a ha
  · obtain ⟨a, ha, rfl⟩ := hf; exact h3 a ha
  · obtain ⟨a, ha, rfl⟩ := mem_optF hf; exact h4 a ha
  · obtain ⟨a, ha, rfl⟩ := mem_optF hf; exact h5 a ha
  · obtain ⟨a, ha, rfl⟩ := mem_optF hf; exact u32_lt_u64 (h6 a ha)
  · obtain ⟨a, ha, rfl⟩ := mem_optF hf
    refine ⟨UnixTime.fields_wf (h7 a ha), ?_⟩
    rw [UnixTime.fields_enc, UnixTime.write_length]; exact a.getSize_lt

theorem foldl_blocksizes (l : List Nat) (m : UnixFs) :
    (l.map DataField.blocksize).foldl DataField.apply m = { m with blocksizes := m.blocksizes ++ l } := by
  induction l generalizing m with
  | nil => simp
  | cons a l ih => simp [ih, DataField.apply]

theorem typeOf_toNat (t : DataType) : typeOf t.toNat = t := by cases t <;> decide

theorem UnixFs.fields_of {m : UnixFs} (h : m.Fits) : unixFsOf m.fields = m := by
  obtain ⟨ty, d, fs, bs, ht, fo, mo, mt⟩ := m
  obtain ⟨h1, h2, h3, h4, h5, h6, h7⟩ := h
  have hmo : ∀ n, mo = some n → n % U32 = n := fun n hn => Nat.mod_eq_of_lt (h6 n hn)
  have hmt : ∀ t, mt = some t → t.fields.foldl TimeField.apply {} = t := fun t ht => UnixTime.fields_of (h7 t ht)
  simp only [unixFsOf, UnixFs.fields, List.foldl_cons, List.foldl_append, foldl_optF, foldl_blocksizes,
    DataField.apply, typeOf_toNat]
  cases d <;> cases fs <;> cases ht <;> cases fo <;> cases mo <;> cases mt <;> simp_all

theorem UnixFs.getSize_pos (m : UnixFs) : 0 < m.getSize := by unfold UnixFs.getSize; omega

theorem nodeLinks_append (a b : List NodeField) : nodeLinks (a ++ b) = nodeLinks a ++ nodeLinks b := by
  simp [nodeLinks]

theorem nodeLinks_links (l : List PBLink) : nodeLinks (l.map (fun x => .link x.fields)) = l := by
  induction l with
  | nil => rfl
  | cons a l ih =>
    simp only [nodeLinks, List.map_cons, List.filterMap_cons, PBLink.fields_of] at ih ⊢
    rw [ih]

theorem links_enc (l : List PBLink) (h : ∀ x ∈ l, x.Fits) :
    (l.map (fun x => NodeField.link x.fields)).flatMap NodeField.enc =
      l.flatMap (fun x => wTag 18 (wMessage x.getSize x.write)) := by
  induction l with
  | nil => rfl
  | cons a l ih =>
    simp only [List.map_cons, List.flatMap_cons, ih (fun x hx => h x (by simp [hx])), NodeField.enc,
      PBLink.fields_enc, (h a (by simp)).len, wTag, wMessage]

theorem links_wf (l : List PBLink) (h : ∀ x ∈ l, x.Fits) :
    ∀ f ∈ l.map (fun x => NodeField.link x.fields), f.WF := by
  intro f hf
  obtain ⟨x, hx, rfl⟩ := List.mem_map.1 hf
  refine ⟨PBLink.fields_wf (h x hx), ?_⟩
  rw [PBLink.fields_enc, (h x hx).len]; exact (h x hx).2.2.2

theorem nodeData_append_data (l : List PBLink) (b : Bytes) :
    nodeData (l.map (fun x => .link x.fields) ++ [.data b]) = some b := by
  simp [nodeData]

def FlatUnixFs.fields (m : FlatUnixFs) : List NodeField :=
  m.links.map (fun x => .link x.fields) ++ [.data m.data.write]

theorem FlatUnixFs.fields_enc {m : FlatUnixFs} (h : m.Fits) : m.fields.flatMap NodeField.enc = m.write := by
  simp only [FlatUnixFs.fields, List.flatMap_append, links_enc _ h.1, FlatUnixFs.write, List.flatMap_cons,
    List.flatMap_nil, List.append_nil, NodeField.enc, wTag, wMessage, h.2.1.len]

theorem FlatUnixFs.tryParse_write (m : FlatUnixFs) (h : m.Fits) : FlatUnixFs.tryParse m.write = .ok m := by
  rw [← FlatUnixFs.fields_enc h]
  rw [flat_parse_fields m.fields _ m.data.fields (UnixFs.fields_wf h.2.1) (by simp [UnixFs.fields])]
  · rw [UnixFs.fields_of h.2.1]
    simp only [FlatUnixFs.fields, nodeLinks_append, nodeLinks_links]
    simp [nodeLinks]
  · simp only [FlatUnixFs.fields, nodeData_append_data, UnixFs.fields_enc]
  · intro f hf
    simp only [FlatUnixFs.fields, List.mem_append, List.mem_singleton] at hf
    rcases hf with hf | rfl
    · exact links_wf _ h.1 f hf
    · show m.data.write.length < U32
      rw [h.2.1.len]; exact h.2.2

end Verif
