import Verif.CodecLemmas
import Verif.ParserSafe
import Verif.Cid
/-
Properties C01-C06, C51, C53: the codecs.
-/
namespace Verif.Props
open Verif Verif.Spec

/-! ## C01 FlatUnixFs serialisation round-trips -/

/-- C01. Every `FlatUnixFs` value (within the Rust types, byte strings and embedded messages under 2^32 bytes) is read
back from the bytes written for it, equal in every field. -/
theorem C01_flat_roundtrip (m : FlatUnixFs) (h : m.Fits) : FlatUnixFs.tryParse m.write = .ok m :=
  FlatUnixFs.tryParse_write m h

/-- C01 for the embedded UnixFS message alone. -/
theorem C01_unixfs_roundtrip (m : UnixFs) (h : m.Fits) : UnixFs.tryFrom (some m.write) = .ok m := by
  rw [← UnixFs.fields_enc, unixFs_parse_fields _ (UnixFs.fields_wf h), UnixFs.fields_of h]

/-- C01, consequence: two different values never share an encoding. -/
theorem C01_write_injective (a b : FlatUnixFs) (ha : a.Fits) (hb : b.Fits) (h : a.write = b.write) : a = b := by
  have h1 := C01_flat_roundtrip a ha
  rw [h, C01_flat_roundtrip b hb] at h1
  exact (Except.ok.inj h1).symm

theorem mimeStep_ok : StepOk MimeMetadata.step (fun b : Bytes => encVarint 10 ++ (encVarint b.length ++ b))
    (fun _ m b => { m with MimeType := some b }) (fun b => b.length < U32 ∧ validUtf8 b = true) := by
  intro b hb
  constructor
  · have := encVarint_pos 10; simp [List.length_append]; omega
  · intro m pos stop tail _
    simp only [List.append_assoc, readVarint32_enc (show (10 : Nat) < U32 by decide), except_ok_bind,
      MimeMetadata.step, readString_enc hb.1 hb.2, List.length_append, Nat.add_assoc]

/-- C01 for the MIME metadata message (`Metadata` of `unixfs.proto`): read back, and its bytes are the field number 1 of type "text". -/
theorem C01_mime_roundtrip (m : MimeMetadata) (h : optAll m.MimeType (fun b => b.length < U32 ∧ validUtf8 b = true)) :
    parseMessage MimeMetadata.step {} m.write = .ok m ∧
      m.write = (match m.MimeType with | none => [] | some b => 0x0A :: (encVarint b.length ++ b)) := by
  obtain ⟨o⟩ := m
  cases o with
  | none => exact ⟨rfl, rfl⟩
  | some b =>
    have h1 := parseMessage_fields mimeStep_ok [b] (by simpa [optAll] using h) ({} : MimeMetadata)
    have h2 : (MimeMetadata.mk (some b)).write = [b].flatMap (fun b : Bytes => encVarint 10 ++ (encVarint b.length ++ b)) := by
      simp [MimeMetadata.write, wOpt, wTag, wBytes]
    refine ⟨by rw [h2, h1]; rfl, ?_⟩
    rw [h2, show encVarint 10 = [0x0A] by decide]
    simp

/-- C01 for a timestamp alone. -/
theorem C01_time_roundtrip (m : UnixTime) (h : m.Fits) : parseMessage UnixTime.step {} m.write = .ok m := by
  rw [← UnixTime.fields_enc, parseMessage_fields timeStep_ok _ (UnixTime.fields_wf h), foldFields_eq_foldl, UnixTime.fields_of h]

example : optAll (MimeMetadata.mk (some [0x61, 0x2F, 0x62])).MimeType (fun b => b.length < U32 ∧ validUtf8 b = true) := by decide

/-- A value using every field. -/
def sampleFlat : FlatUnixFs :=
  { links := [{ Hash := some [1, 2, 3], Name := some [0x66, 0xc3, 0xb6], Tsize := some 300 }, { Name := some [] }, {}]
    data := { Ty := .HAMTShard, Data := some [0, 255], filesize := some (2 ^ 64 - 1), blocksizes := [0, 128, 300],
              hashType := some 34, fanout := some 256, mode := some 0o755,
              mtime := some { Seconds := -1, FractionalNanoseconds := some 999999999 } } }

example : sampleFlat.Fits := by decide
example : sampleFlat.data.Fits := by decide

/-! ## C02 declared sizes -/

theorem optSize_le {α : Type} {o : Option α} {a : α} (h : o = some a) (g : α → Nat) : g a ≤ optSize o g := by subst h; exact Nat.le_refl _

theorem le_sum {α : Type} (l : List α) (g : α → Nat) (a : α) (h : a ∈ l) : g a ≤ (l.map g).sum := by
  induction l with
  | nil => cases h
  | cons b t ih =>
    simp only [List.map_cons, List.sum_cons]
    rcases List.mem_cons.1 h with rfl | h
    · omega
    · have := ih h; omega

/-- The numbers of a link are of type `u64`. -/
def LinkNumbers (m : PBLink) : Prop := optAll m.Tsize (fun n => n < U64)
/-- The numbers of a UnixFS message are of type `u64` (the mode is even of type `u32`). -/
def DataNumbers (m : UnixFs) : Prop := optAll m.filesize (fun n => n < U64) ∧ (∀ n ∈ m.blocksizes, n < U64) ∧
  optAll m.hashType (fun n => n < U64) ∧ optAll m.fanout (fun n => n < U64) ∧ optAll m.mode (fun n => n < U64)

/-- C02 for links: all that can be in a memory of 2^64 bytes. -/
theorem C02_link (m : PBLink) (h : LinkNumbers m) (hs : m.getSize < U64) : m.write.length = m.getSize := by
  unfold PBLink.getSize at hs
  refine m.write_length (fun a ha => ?_) (fun a ha => ?_) h
  · have := optSize_le ha (fun b => 1 + sizeofLen b.length)
    simp only [sizeofLen] at this hs
    omega
  · have := optSize_le ha (fun b => 1 + sizeofLen b.length)
    simp only [sizeofLen] at this hs
    omega
/-- C02 for timestamps; no condition at all. -/
theorem C02_time (m : UnixTime) : m.write.length = m.getSize := m.write_length
/-- C02 for UnixFS messages. -/
theorem C02_unixfs (m : UnixFs) (h : DataNumbers m) (hs : m.getSize < U64) : m.write.length = m.getSize := by
  obtain ⟨h2, h3, h4, h5, h6⟩ := h
  refine m.write_length (fun a ha => ?_) h2 h3 h4 h5 h6
  unfold UnixFs.getSize at hs
  have := optSize_le ha (fun b => 1 + sizeofLen b.length)
  simp only [sizeofLen] at this hs
  omega

theorem links_len (ls : List PBLink) (h : ∀ l ∈ ls, LinkNumbers l) (hs : (ls.map (fun l => 1 + sizeofLen l.getSize)).sum < U64) :
    (ls.flatMap (fun l => wTag 18 (wMessage l.getSize l.write))).length = (ls.map (fun l => 1 + sizeofLen l.getSize)).sum := by
  apply flatMap_len
  intro a ha
  have := le_sum ls (fun l => 1 + sizeofLen l.getSize) a ha
  have hlt : a.getSize < U64 := by simp only [sizeofLen] at this hs; omega
  rw [tag_len (by decide), wMessage_len hlt (C02_link a (h a ha) hlt).symm]

/-- C02 for nodes. -/
theorem C02_node (m : PBNode) (h : ∀ l ∈ m.Links, LinkNumbers l) (hs : m.getSize < U64) : m.write.length = m.getSize := by
  unfold PBNode.getSize at hs ⊢
  unfold PBNode.write
  rw [List.length_append, links_len m.Links h (by omega), wOpt_len]
  intro a ha
  have := optSize_le ha (fun s => 1 + sizeofLen s.val.length)
  simp only [sizeofLen] at this hs
  rw [tag_len (by decide), wBytes_len (by omega)]
/-- C02 for the combined message. -/
theorem C02_flat (m : FlatUnixFs) (h : ∀ l ∈ m.links, LinkNumbers l) (hd : DataNumbers m.data) (hs : m.getSize < U64) :
    m.write.length = m.getSize := by
  unfold FlatUnixFs.getSize at hs ⊢
  unfold FlatUnixFs.write
  have hlt : m.data.getSize < U64 := by simp only [sizeofLen] at hs; omega
  rw [List.length_append, links_len m.links h (by omega), tag_len (by decide), wMessage_len hlt (C02_unixfs _ hd hlt).symm]
/-- C02 for the MIME metadata message. -/
theorem C02_mime (m : MimeMetadata) (h : optAll m.MimeType (fun b => b.length < U64)) :
    m.write.length = m.getSize := by
  unfold MimeMetadata.write MimeMetadata.getSize
  exact wOpt_len _ _ _ fun a ha => by rw [tag_len (by decide), wBytes_len (h a ha)]

example : sampleFlat.write.length = 74 ∧ sampleFlat.getSize = 74 := by decide
example : (∀ l ∈ sampleFlat.links, LinkNumbers l) ∧ DataNumbers sampleFlat.data ∧ sampleFlat.getSize < U64 := by
  unfold LinkNumbers DataNumbers; decide
example : ({ Links := sampleFlat.links, Data := some ⟨0, [1, 2]⟩ } : PBNode).Fits := by decide

/-! ## C03 PBNode round trip and `node_data` -/

/-- C03. The bytes written for a dag-pb node parse to the same links and the same Data, and `node_data` returns exactly
the Data field. -/
theorem C03_node_roundtrip (m : PBNode) (h : m.Fits) :
    (∃ n, PBNode.tryFrom m.write = .ok n ∧ n.Links = m.Links ∧ n.Data.map (·.val) = m.Data.map (·.val))
      ∧ dagNodeData m.write = .ok (m.Data.map (·.val)) := by
  have key : ∃ n, PBNode.tryFrom m.write = .ok n ∧ n.Links = m.Links ∧ n.Data.map (·.val) = m.Data.map (·.val) := by
    let fs : List NodeField := m.Links.map (fun x => .link x.fields) ++ optF m.Data (fun s => .data s.val)
    have henc : fs.flatMap NodeField.enc = m.write := by
      simp only [fs, List.flatMap_append, links_enc _ h.1, flatMap_optF, PBNode.write, NodeField.enc, wTag, wBytes]
    have hwf : ∀ f ∈ fs, f.WF := by
      intro f hf
      simp only [fs, List.mem_append] at hf
      rcases hf with hf | hf
      · exact links_wf _ h.1 f hf
      · obtain ⟨a, ha, rfl⟩ := mem_optF hf; exact h.2 a ha
    obtain ⟨n, h1, h2, h3⟩ := node_parse_fields fs hwf
    rw [henc] at h1
    refine ⟨n, h1, ?_, ?_⟩
    · rw [h2]; simp only [fs, nodeLinks_append, nodeLinks_links]
      cases m.Data <;> simp [optF, nodeLinks]
    · rw [h3]
      cases hd : m.Data with
      | none => simp [fs, hd, optF, nodeData]
      | some s => simp [fs, hd, optF, nodeData]
  refine ⟨key, ?_⟩
  obtain ⟨n, h1, -, h3⟩ := key
  simp only [dagNodeData, nodeDataSlice, h1, except_ok_bind, h3]

example : ({ Links := [{ Name := some [97] }], Data := some ⟨0, []⟩ } : PBNode).Fits := by decide

/-! ## C04 any field order, unknown fields skipped -/

/-- C04. A block given as any sequence of well-formed node fields (links, data, unknown fields; the link messages and
the UnixFS message again being any sequences of well-formed fields) parses to what the specification in
`Spec/Wire.lean` reads off the field sequences. -/
theorem C04_fields (ns : List NodeField) (hn : ∀ f ∈ ns, f.WF) (ds : List DataField) (hd : ∀ f ∈ ds, f.WF)
    (hne : ds ≠ []) (hdata : nodeData ns = some (ds.flatMap DataField.enc)) :
    FlatUnixFs.tryParse (ns.flatMap NodeField.enc) = .ok { links := nodeLinks ns, data := unixFsOf ds } :=
  flat_parse_fields ns hn ds hd hne hdata

/-- C04. Only the sequence of links and the last data field matter: two blocks agreeing on these parse to the same
value (whether or not the data is a valid UnixFS message). -/
theorem C04_order (ns ms : List NodeField) (hn : ∀ f ∈ ns, f.WF) (hm : ∀ f ∈ ms, f.WF)
    (hl : nodeLinks ns = nodeLinks ms) (hd : nodeData ns = nodeData ms) (v : FlatUnixFs) :
    FlatUnixFs.tryParse (ns.flatMap NodeField.enc) = .ok v ↔ FlatUnixFs.tryParse (ms.flatMap NodeField.enc) = .ok v := by
  obtain ⟨n, h1, h2, h3⟩ := node_parse_fields ns hn
  obtain ⟨m, g1, g2, g3⟩ := node_parse_fields ms hm
  have hl' : n.Links = m.Links := by rw [h2, g2, hl]
  have hd' : n.Data.map (·.val) = m.Data.map (·.val) := by rw [h3, g3, hd]
  simp only [FlatUnixFs.tryParse, h1, g1]
  cases hx : n.Data with
  | none =>
    rw [hx] at hd'
    cases hy : m.Data with
    | none => simp
    | some t => rw [hy] at hd'; simp at hd'
  | some s =>
    rw [hx] at hd'
    cases hy : m.Data with
    | none => rw [hy] at hd'; simp at hd'
    | some t =>
      rw [hy] at hd'
      simp only [Option.map_some, Option.some.injEq] at hd'
      simp only [hd', hl']
      split
      · simp
      · split <;> simp

/-- C04. The Data field may be written before, after or between the links. -/
theorem C04_data_position (links : List (List LinkField)) (d : Bytes)
    (hl : ∀ l ∈ links, NodeField.WF (.link l)) (hd : d.length < U32) (i : Nat) (v : FlatUnixFs) :
    FlatUnixFs.tryParse (((links.take i).map NodeField.link ++ .data d :: (links.drop i).map NodeField.link).flatMap
        NodeField.enc) = .ok v ↔
      FlatUnixFs.tryParse ((links.map NodeField.link ++ [NodeField.data d]).flatMap NodeField.enc) = .ok v := by
  have nl : ∀ ls : List (List LinkField), nodeLinks (ls.map NodeField.link) = ls.map linkOf := by
    intro ls; induction ls with
    | nil => rfl
    | cons a t ih => simp only [nodeLinks, List.map_cons, List.filterMap_cons] at ih ⊢; rw [ih]
  have nd : ∀ (ls : List (List LinkField)) (t : List NodeField),
      nodeData (ls.map NodeField.link ++ t) = nodeData t := by
    intro ls t; induction ls with
    | nil => rfl
    | cons a ls ih => simpa [nodeData] using ih
  apply C04_order
  · intro f hf
    simp only [List.mem_append, List.mem_cons, List.mem_map] at hf
    rcases hf with ⟨l, h, rfl⟩ | rfl | ⟨l, h, rfl⟩
    · exact hl l (List.mem_of_mem_take h)
    · exact hd
    · exact hl l (List.mem_of_mem_drop h)
  · intro f hf
    simp only [List.mem_append, List.mem_cons, List.mem_map, List.not_mem_nil, or_false] at hf
    rcases hf with ⟨l, h, rfl⟩ | rfl
    · exact hl l h
    · exact hd
  · rw [show NodeField.data d :: (links.drop i).map NodeField.link =
      [NodeField.data d] ++ (links.drop i).map NodeField.link from rfl]
    simp only [nodeLinks_append, nl]
    simp only [nodeLinks, List.filterMap_cons, List.filterMap_nil]
    simp
  · rw [nd, nd]
    have := nd (links.drop i) []
    simp only [nodeData, List.append_nil, List.filterMap_nil, List.getLast?_nil, List.getLast?_eq_none_iff] at this
    simp only [nodeData, List.filterMap_cons, this, List.filterMap_nil]

/-- C04. Unknown fields of a node are skipped wherever they are. -/
theorem C04_unknown (a b : List NodeField) (u : Unk) (h : ∀ f ∈ a ++ .unk u :: b, f.WF) (v : FlatUnixFs) :
    FlatUnixFs.tryParse ((a ++ .unk u :: b).flatMap NodeField.enc) = .ok v ↔
      FlatUnixFs.tryParse ((a ++ b).flatMap NodeField.enc) = .ok v := by
  apply C04_order _ _ h
  · intro f hf
    apply h f
    simp only [List.mem_append, List.mem_cons] at hf ⊢
    rcases hf with hf | hf
    · exact .inl hf
    · exact .inr (.inr hf)
  · simp [nodeLinks]
  · simp [nodeData]

/-- C04. Unknown fields of a UnixFS message are skipped wherever they are. -/
theorem C04_unknown_unixfs (a b : List DataField) (u : Unk) (h : ∀ f ∈ a ++ .unk u :: b, f.WF) :
    UnixFs.tryFrom (some ((a ++ .unk u :: b).flatMap DataField.enc)) =
      UnixFs.tryFrom (some ((a ++ b).flatMap DataField.enc)) := by
  rw [unixFs_parse_fields _ h, unixFs_parse_fields]
  · simp [unixFsOf, DataField.apply]
  · intro f hf
    apply h f
    simp only [List.mem_append, List.mem_cons] at hf ⊢
    rcases hf with hf | hf
    · exact .inl hf
    · exact .inr (.inr hf)

/-- C04, non-vacuity: data first, then unknown fields of three wire types around a link. -/
def sampleFields : List NodeField :=
  [.data (([.type 2, .data [1, 2, 3], .unk ⟨9, .varint 5⟩, .filesize 3] : List DataField).flatMap DataField.enc),
   .unk ⟨7, .bytes [1, 2]⟩, .link [.tsize 9, .unk ⟨5, .fixed32 [0, 0, 0, 0]⟩, .hash [1]], .unk ⟨100, .fixed64 [1, 2, 3, 4, 5, 6, 7, 8]⟩]

example : (∀ f ∈ sampleFields, f.WF) := by
  intro f hf
  simp only [sampleFields, List.mem_cons, List.not_mem_nil, or_false] at hf
  rcases hf with rfl | rfl | rfl | rfl
  · show _ < _; decide
  · refine ⟨by decide, by decide, ?_⟩; show _ < _; decide
  · refine ⟨?_, by decide⟩
    intro f hf
    simp only [List.mem_cons, List.not_mem_nil, or_false] at hf
    rcases hf with rfl | rfl | rfl
    · show _ < _; decide
    · refine ⟨by decide, by decide, ?_⟩; show _ = _; decide
    · show _ < _; decide
  · refine ⟨by decide, by decide, ?_⟩; show _ = _; decide

example : FlatUnixFs.tryParse (sampleFields.flatMap NodeField.enc) =
    .ok { links := [{ Hash := some [1], Tsize := some 9 }],
          data := { Ty := .File, Data := some [1, 2, 3], filesize := some 3 } } := by decide

/-! ## C05 `wrap_node_data` -/

/-- C05 (full statement): `wrap_node_data` agrees with `node_data` and never panics. It is false, see
`C05_wrap_panics`. -/
def C05_full : Prop :=
  ∀ block : Bytes, (∃ e, wrapNodeData block = .err e ∧ dagNodeData block = .error e) ∨
    ∃ n d, wrapNodeData block = .ok n ∧ dagNodeData block = .ok d ∧ n.get = .ok (d.getD [])

/-- The code violates C05: the two byte block `0a 00` (an empty Data field) makes `wrap_node_data` panic, although
`node_data` succeeds on it. -/
theorem C05_wrap_panics : wrapNodeData [0x0a, 0x00] = .panic .dagpbNotInRange ∧ dagNodeData [0x0a, 0x00] = .ok (some []) := by
  decide

theorem C05_full_false : ¬ C05_full := by
  intro h
  rcases h [0x0a, 0x00] with ⟨e, h, -⟩ | ⟨n, d, h, -⟩ <;> rw [C05_wrap_panics.1] at h <;> simp at h

/-- C05, the strongest true version: for every block, `wrap_node_data` fails exactly as `node_data` does, otherwise it
gives the same data without panicking, except in exactly one situation: the Data field is empty and ends the block. -/
theorem C05_wrap_partial (block : Bytes) :
    (∃ e, wrapNodeData block = .err e ∧ dagNodeData block = .error e) ∨
    (∃ n d, wrapNodeData block = .ok n ∧ dagNodeData block = .ok d ∧ n.inner = block ∧ n.get = .ok (d.getD [])) ∨
    (wrapNodeData block = .panic .dagpbNotInRange ∧ nodeDataSlice block = .ok (some ⟨block.length, []⟩)) := by
  have hg := node_tryFrom_good block
  cases hn : PBNode.tryFrom block with
  | error e =>
    exact .inl ⟨e, by simp [wrapNodeData, nodeDataSlice, hn], by simp [dagNodeData, nodeDataSlice, hn]⟩
  | ok node =>
    have hs := (hg.2 node hn).2
    cases hd : node.Data with
    | none =>
      refine .inr (.inl ⟨⟨block, none⟩, none, ?_, ?_, rfl, rfl⟩)
      · simp [wrapNodeData, nodeDataSlice, hn, hd]
      · simp [dagNodeData, nodeDataSlice, hn, hd]
    | some s =>
      obtain ⟨off, val⟩ := s
      obtain ⟨h1, h2⟩ := hs _ hd
      simp only at h1 h2
      by_cases hoff : block.length ≤ off
      · refine .inr (.inr ⟨?_, ?_⟩)
        · simp [wrapNodeData, nodeDataSlice, hn, hd, subsliceToRange, hoff]
        · have hv : val = [] := List.length_eq_zero_iff.1 (by omega)
          have ho : off = block.length := by omega
          simp [nodeDataSlice, hn, hd, hv, ho]
      · refine .inr (.inl ⟨⟨block, some (off, off + val.length)⟩, some val, ?_, ?_, rfl, ?_⟩)
        · have : ¬ block.length < val.length := by omega
          simp [wrapNodeData, nodeDataSlice, hn, hd, subsliceToRange, hoff, this]
        · simp [dagNodeData, nodeDataSlice, hn, hd]
        · simp only [NodeData.get, Option.getD_some]
          rw [if_pos ⟨by omega, h1⟩, List.drop_take, Nat.add_sub_cancel_left, ← h2]

/-- C05, consequence: blocks whose Data field is not an empty one at the very end never make it panic. -/
theorem C05_wrap_no_panic_partial (block : Bytes) (h : dagNodeData block ≠ .ok (some [])) :
    (wrapNodeData block).NoPanic := by
  intro p hp
  rcases C05_wrap_partial block with ⟨e, h1, -⟩ | ⟨n, d, h1, -⟩ | ⟨h1, h2⟩
  · rw [h1] at hp; simp at hp
  · rw [h1] at hp; simp at hp
  · apply h; simp [dagNodeData, h2]

example : wrapNodeData [0x12, 0x00, 0x0a, 0x02, 7, 8, 0x12, 0x00] =
      .ok ⟨[0x12, 0x00, 0x0a, 0x02, 7, 8, 0x12, 0x00], some (4, 6)⟩ ∧
    dagNodeData [0x12, 0x00, 0x0a, 0x02, 7, 8, 0x12, 0x00] = .ok (some [7, 8]) := by decide

/-! ## C06 symlinks -/

/-- C06. The buffer is only appended to, and what is appended parses as a linkless symlink node with the given
target. -/
theorem C06_symlink (target buffer : Bytes) (h : target.length + 32 ≤ U32) :
    ∃ block, serializeSymlinkBlock target buffer = buffer ++ block ∧
      FlatUnixFs.tryParse block = .ok { links := [], data := { Ty := .Symlink, Data := some target } } := by
  refine ⟨_, rfl, C01_flat_roundtrip _ ⟨by simp, ⟨?_, ?_, ?_, ?_, ?_, ?_, ?_⟩, ?_⟩⟩
  all_goals try (intro a ha; simp at ha)
  · subst ha; omega
  · have : sizeofVarint target.length ≤ 10 := by unfold sizeofVarint; repeat' split <;> try omega
    simp [UnixFs.getSize, optSize, DataType.toNat, sizeofLen, sizeofVarint] at *
    omega

example : serializeSymlinkBlock [0x62] [9, 9] = [9, 9, 0x0a, 0x05, 0x08, 0x04, 0x12, 0x01, 0x62] := by decide

/-! ## C51 parsing is total and in bounds -/

/-- C51. On every input the dag-pb parser ends (the model's loop bound is never what stops it), and on success every
link name and hash and the Data are sub-slices of the input, names are valid UTF-8, sizes fit `u64`. -/
theorem C51_node (b : Bytes) :
    (∀ e, PBNode.tryFrom b = .error e → e ≠ .fuel) ∧
    ∀ n, PBNode.tryFrom b = .ok n →
      (∀ s, n.Data = some s → s.off + s.val.length ≤ b.length ∧ (b.drop s.off).take s.val.length = s.val) ∧
      ∀ l ∈ n.Links, (∀ h, l.Hash = some h → h <:+: b) ∧
        (∀ m, l.Name = some m → m <:+: b ∧ validUtf8 m = true) ∧ ∀ t, l.Tsize = some t → t < U64 := by
  refine ⟨(node_tryFrom_good b).1, fun n hn => ?_⟩
  have := (node_tryFrom_good b).2 n hn
  exact ⟨fun s hs => ⟨(this.2 s hs).1, (this.2 s hs).2.symm⟩, fun l hl => this.1 l hl⟩

/-- C51 for UnixFS messages. -/
theorem C51_unixfs (b : Bytes) :
    (∀ e, UnixFs.tryFrom (some b) = .error e → e ≠ .fuel) ∧
    ∀ m, UnixFs.tryFrom (some b) = .ok m →
      (∀ s, m.Data = some s → s <:+: b) ∧ (∀ n, m.filesize = some n → n < U64) ∧ (∀ n ∈ m.blocksizes, n < U64) ∧
      (∀ n, m.mode = some n → n < U32) := by
  refine ⟨(unixFs_tryFrom_good b).1, fun n hn => ?_⟩
  have := (unixFs_tryFrom_good b).2 n hn
  exact ⟨this.1, this.2.1, this.2.2.1, this.2.2.2.2.2.1⟩

/-- C51 for the combined message. -/
theorem C51_flat (b : Bytes) :
    (∀ e, FlatUnixFs.tryParse b = .error (.InvalidDagPb e) → e ≠ .fuel) ∧
    (∀ e n, FlatUnixFs.tryParse b = .error (.InvalidUnixFs e n) → e ≠ .fuel) ∧
    ∀ m, FlatUnixFs.tryParse b = .ok m →
      (∀ s, m.data.Data = some s → s <:+: b) ∧ (∀ n, m.data.filesize = some n → n < U64) ∧
      (∀ n ∈ m.data.blocksizes, n < U64) ∧
      ∀ l ∈ m.links, (∀ h, l.Hash = some h → h <:+: b) ∧ ∀ m, l.Name = some m → m <:+: b ∧ validUtf8 m = true := by
  refine ⟨fun e he => ?_, fun e n he => ?_, fun m hm => ?_⟩
  · unfold FlatUnixFs.tryParse at he
    split at he
    · rename_i e' h'; simp at he; subst he; exact (node_tryFrom_good b).1 _ h'
    · split at he <;> (repeat' split at he) <;> simp at he
  · unfold FlatUnixFs.tryParse at he
    split at he
    · simp at he
    · split at he
      · split at he
        · simp at he
        · split at he
          · simp at he
          · rename_i e' h'; simp at he; rw [← he.1]; exact (unixFs_tryFrom_good _).1 _ h'
      · simp at he
  · have := flat_tryParse_good b hm
    exact ⟨this.2.1, this.2.2.1, this.2.2.2.1, fun l hl => ⟨(this.1 l hl).1, (this.1 l hl).2.1⟩⟩

/-- C51, non-vacuity: both outcomes occur. -/
example : (∃ m, FlatUnixFs.tryParse (sampleFlat.write) = .ok m) ∧
    FlatUnixFs.tryParse [0x0a, 0x05, 0x08] = .error (.InvalidDagPb .unexpectedEnd) :=
  ⟨⟨_, C01_flat_roundtrip _ (by decide)⟩, by decide⟩

/-! ## C53 Cid bytes round-trip -/

/-- C53. Every Cid is read back from its bytes (whatever follows them). -/
theorem C53_cid_roundtrip (c : Cid) (h : c.Fits) (t : Bytes) : Cid.tryFrom (c.toBytes ++ t) = .ok c :=
  Cid.tryFrom_toBytes c h t

/-- C53 for the Cids the crate creates. -/
theorem C53_created (sha : Bytes → Bytes) (hsha : ∀ b, (sha b).length = 32) (block : Bytes) :
    Cid.tryFrom (cidOf sha block).toBytes = .ok (cidOf sha block) := by
  have := Cid.tryFrom_toBytes _ (cidOf_fits hsha block) []
  rwa [List.append_nil] at this

/-- C53, consequence: different Cids have different bytes. -/
theorem C53_injective (a b : Cid) (ha : a.Fits) (hb : b.Fits) (h : a.toBytes = b.toBytes) : a = b := by
  have h1 := C53_cid_roundtrip a ha []
  rw [h, C53_cid_roundtrip b hb []] at h1
  exact (Except.ok.inj h1).symm

example : (⟨.v0, 0x70, 0x12, List.replicate 32 7⟩ : Cid).Fits ∧ (⟨.v1, 0x55, 0x1e, List.replicate 32 9⟩ : Cid).Fits := by
  decide

end Verif.Props
