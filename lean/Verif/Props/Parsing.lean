import Verif.ParseExact
import Verif.ParseOverflow
import Verif.Props.Codec
import Verif.Props.WalkMore
/-
C81: exactly which blocks are accepted, and as what. C82: nothing but the fields of a block matters. And the general form of C49,
and the panic of the protobuf library of C51.
-/
namespace Verif.Props
open Verif Verif.Spec

/-! ### C81 -/

theorem fields_nil {F : Type} {E : F → Bytes → Prop} (hpos : ∀ {f b}, E f b → 0 < b.length) {fs : List F} {b : Bytes} (h : Fields E fs b) :
    b = [] ↔ fs = [] := by
  cases h with
  | nil => simp
  | cons h1 h2 =>
    have := hpos h1
    constructor
    · intro h; have := congrArg List.length h; rw [List.length_append, List.length_nil] at this; omega
    · intro h; cases h

/-- C81. A block is accepted as a UnixFS node exactly if it is a sequence of well-formed dag-pb fields, of which the last Data field
is a non-empty sequence of well-formed UnixFS fields; and the result has the links of the one and the values of the other. -/
theorem C81_accepted (block : Bytes) (m : FlatUnixFs) : FlatUnixFs.tryParse block = .ok m ↔
    ∃ ns d ds, IsNode block ns ∧ nodeData ns = some d ∧ IsUnixFs d ds ∧ ds ≠ [] ∧ m = ⟨nodeLinks ns, unixFsOf ds⟩ := by
  unfold FlatUnixFs.tryParse
  constructor
  · intro h
    cases hn : PBNode.tryFrom block with
    | error e => rw [hn] at h; cases h
    | ok node =>
      rw [hn] at h
      simp only at h
      obtain ⟨ns, e1, e2, e3⟩ := (node_iff block node.Links (node.Data.map (·.val))).1 ⟨node, hn, rfl, rfl⟩
      cases hd : node.Data with
      | none => rw [hd] at h; cases h
      | some s =>
        rw [hd] at h e3
        simp only at h
        by_cases hs : s.val = []
        · rw [if_pos hs] at h; cases h
        · rw [if_neg hs] at h
          cases hu : UnixFs.tryFrom (some s.val) with
          | error e => rw [hu] at h; cases h
          | ok u =>
            rw [hu] at h
            cases h
            obtain ⟨ds, d1, d2⟩ := (unixFs_iff _ _).1 hu
            exact ⟨ns, s.val, ds, e1, e3, d1, fun e => hs ((fields_nil dataStep_exact.pos d1).2 e), by rw [e2, d2]⟩
  · rintro ⟨ns, d, ds, h1, h2, h3, h4, rfl⟩
    obtain ⟨node, e1, e2, e3⟩ := (node_iff block (nodeLinks ns) (some d)).2 ⟨ns, h1, rfl, h2⟩
    rw [e1]
    simp only
    cases hd : node.Data with
    | none => rw [hd] at e3; cases e3
    | some s =>
      rw [hd] at e3
      cases e3
      simp only
      rw [if_neg (fun e => h4 ((fields_nil dataStep_exact.pos h3).1 e)), (unixFs_iff _ _).2 ⟨ds, h3, rfl⟩, e2]

/-- C81. A block is refused as not being dag-pb exactly if it is not a sequence of well-formed dag-pb fields. -/
theorem C81_not_dagpb (block : Bytes) : (∃ e, FlatUnixFs.tryParse block = .error (.InvalidDagPb e)) ↔ ¬ ∃ ns, IsNode block ns := by
  unfold FlatUnixFs.tryParse
  cases hn : PBNode.tryFrom block with
  | error e =>
    simp only
    refine ⟨fun _ => ?_, fun _ => ⟨e, rfl⟩⟩
    rintro ⟨ns, h⟩
    obtain ⟨node, e1, -⟩ := (node_iff block (nodeLinks ns) (nodeData ns)).2 ⟨ns, h, rfl, rfl⟩
    rw [hn] at e1; cases e1
  | ok node =>
    simp only
    obtain ⟨ns, e1, -⟩ := (node_iff block node.Links (node.Data.map (·.val))).1 ⟨node, hn, rfl, rfl⟩
    refine ⟨?_, fun h => absurd ⟨ns, e1⟩ h⟩
    rintro ⟨e, h⟩
    cases hd : node.Data with
    | none => rw [hd] at h; cases h
    | some s =>
      rw [hd] at h
      simp only at h
      split at h
      · cases h
      · split at h <;> cases h

/-- C81. It is refused for having no data exactly if it is dag-pb with no Data field, or with the last one empty; the links come with
the error. -/
theorem C81_no_data (block : Bytes) (links : List PBLink) :
    (∃ n, FlatUnixFs.tryParse block = .error (.NoData n) ∧ n.Links = links) ↔
      ∃ ns, IsNode block ns ∧ (nodeData ns = none ∨ nodeData ns = some []) ∧ nodeLinks ns = links := by
  unfold FlatUnixFs.tryParse
  constructor
  · rintro ⟨n, h, hl⟩
    cases hn : PBNode.tryFrom block with
    | error e => rw [hn] at h; cases h
    | ok node =>
      rw [hn] at h
      simp only at h
      obtain ⟨ns, e1, e2, e3⟩ := (node_iff block node.Links (node.Data.map (·.val))).1 ⟨node, hn, rfl, rfl⟩
      cases hd : node.Data with
      | none => rw [hd] at h e3; cases h; exact ⟨ns, e1, .inl e3, by rw [e2, hl]⟩
      | some s =>
        rw [hd] at h e3
        simp only at h
        by_cases hs : s.val = []
        · rw [if_pos hs] at h; cases h; exact ⟨ns, e1, .inr (by rw [e3, Option.map_some, hs]), by rw [e2, hl]⟩
        · rw [if_neg hs] at h
          split at h <;> cases h
  · rintro ⟨ns, h1, h2, rfl⟩
    obtain ⟨node, e1, e2, e3⟩ := (node_iff block (nodeLinks ns) (nodeData ns)).2 ⟨ns, h1, rfl, rfl⟩
    rw [e1]
    simp only
    refine ⟨node, ?_, e2⟩
    cases hd : node.Data with
    | none => rfl
    | some s =>
      rw [hd] at e3
      rcases h2 with h2 | h2
      · rw [h2] at e3; cases e3
      · rw [h2] at e3
        simp only
        rw [if_pos (Option.some.inj e3)]

/-- C81. It is refused as not being UnixFS exactly if it is dag-pb whose last Data field is neither empty nor a sequence of well-formed
UnixFS fields; the links come with the error. -/
theorem C81_not_unixfs (block : Bytes) (links : List PBLink) :
    (∃ e n, FlatUnixFs.tryParse block = .error (.InvalidUnixFs e n) ∧ n.Links = links) ↔
      ∃ ns d, IsNode block ns ∧ nodeData ns = some d ∧ d ≠ [] ∧ (¬ ∃ ds, IsUnixFs d ds) ∧ nodeLinks ns = links := by
  unfold FlatUnixFs.tryParse
  constructor
  · rintro ⟨e, n, h, hl⟩
    cases hn : PBNode.tryFrom block with
    | error e => rw [hn] at h; cases h
    | ok node =>
      rw [hn] at h
      simp only at h
      obtain ⟨ns, e1, e2, e3⟩ := (node_iff block node.Links (node.Data.map (·.val))).1 ⟨node, hn, rfl, rfl⟩
      cases hd : node.Data with
      | none => rw [hd] at h; cases h
      | some s =>
        rw [hd] at h e3
        simp only at h
        by_cases hs : s.val = []
        · rw [if_pos hs] at h; cases h
        · rw [if_neg hs] at h
          cases hu : UnixFs.tryFrom (some s.val) with
          | ok u => rw [hu] at h; cases h
          | error e =>
            rw [hu] at h
            cases h
            refine ⟨ns, s.val, e1, e3, hs, ?_, by rw [e2, hl]⟩
            rintro ⟨ds, h⟩
            rw [(unixFs_iff _ _).2 ⟨ds, h, rfl⟩] at hu
            cases hu
  · rintro ⟨ns, d, h1, h2, h3, h4, rfl⟩
    obtain ⟨node, e1, e2, e3⟩ := (node_iff block (nodeLinks ns) (some d)).2 ⟨ns, h1, rfl, h2⟩
    rw [e1]
    simp only
    cases hd : node.Data with
    | none => rw [hd] at e3; cases e3
    | some s =>
      rw [hd] at e3
      cases e3
      simp only
      rw [if_neg h3]
      cases hu : UnixFs.tryFrom (some s.val) with
      | ok u => exact absurd (((unixFs_iff _ _).1 hu).imp fun _ h => h.1) h4
      | error e => exact ⟨e, node, rfl, e2⟩

/-- The two things `dagpb::node_data` can do. -/
theorem C81_node_data (block : Bytes) (d : Option Bytes) : dagNodeData block = .ok d ↔ ∃ ns, IsNode block ns ∧ nodeData ns = d := by
  unfold dagNodeData nodeDataSlice
  constructor
  · intro h
    cases hn : PBNode.tryFrom block with
    | error e => rw [hn] at h; cases h
    | ok node =>
      rw [hn] at h
      obtain ⟨ns, e1, e2, e3⟩ := (node_iff block node.Links (node.Data.map (·.val))).1 ⟨node, hn, rfl, rfl⟩
      cases h
      exact ⟨ns, e1, e3⟩
  · rintro ⟨ns, h1, rfl⟩
    obtain ⟨node, e1, e2, e3⟩ := (node_iff block (nodeLinks ns) (nodeData ns)).2 ⟨ns, h1, rfl, rfl⟩
    rw [e1, ← e3]; rfl

/-! The encodings of `Spec/Wire.lean`, those the writers produce, are among these. -/

theorem groups_enc (k n : Nat) (h : n < 128 ^ (k + 1)) : Groups (encVarintF k n) n := by
  obtain ⟨b, hg, h1, -, h3⟩ := (decVarintF_iff (k + 1) _ _ _ _).1 (decVarintF_enc k (k + 1) n [] h (Nat.le_refl _))
  rw [List.append_nil, List.append_nil] at h3
  rw [h3]; exact hg

theorem encVarint_length_le (n : Nat) (h : n < U64) : (encVarint n).length ≤ 10 := by
  obtain ⟨b, hg, h1, h2, h3⟩ := (decVarintF_iff 10 _ _ _ _).1 (decVarintF_encVarint n [] h)
  exact h2

theorem num64_enc {n : Nat} (h : n < U64) : Num64 (encVarint n) n :=
  ⟨n, ⟨encVarint_length_le n h, groups_enc 9 n (Nat.lt_of_lt_of_le h (by decide))⟩, Nat.mod_eq_of_lt h⟩

theorem num32_enc {n : Nat} (h : n < U64) : Num32 (encVarint n) (n % U32) :=
  ⟨n, ⟨encVarint_length_le n h, groups_enc 9 n (Nat.lt_of_lt_of_le h (by decide))⟩, rfl⟩

theorem num32_enc' {n : Nat} (h : n < U32) : Num32 (encVarint n) n := by
  have := num32_enc (Nat.lt_of_lt_of_le h (by decide))
  rwa [Nat.mod_eq_of_lt h] at this

theorem unk_enc {known : List Nat} {u : Unk} (h : u.WF known) : u.Enc known u.enc := by
  obtain ⟨num, pl⟩ := u
  obtain ⟨h1, h2, h3⟩ := h
  refine ⟨h2, encVarint _, _, rfl, num32_enc' h1, ?_⟩
  cases pl with
  | varint n => exact .varint (num64_enc h3)
  | fixed64 b => exact .fixed64 h3
  | bytes b => exact .bytes (num64_enc h3)
  | fixed32 b => exact .fixed32 h3

theorem fields_enc {F : Type} {E : F → Bytes → Prop} {enc : F → Bytes} {fs : List F} (h : ∀ f ∈ fs, E f (enc f)) :
    Fields E fs (fs.flatMap enc) := by
  induction fs with
  | nil => exact .nil
  | cons f fs ih => exact .cons (h f (by simp)) (ih fun f hf => h f (by simp [hf]))

theorem linkField_enc {f : LinkField} (h : f.WF) : f.Enc f.enc := by
  cases f with
  | hash b => exact ⟨_, _, rfl, num32_enc' (by decide), num32_enc' h⟩
  | name b => exact ⟨⟨_, _, rfl, num32_enc' (by decide), num32_enc' h.1⟩, (validUtf8_iff _).1 h.2⟩
  | tsize n => exact ⟨_, _, rfl, num32_enc' (by decide), num64_enc h⟩
  | unk u => exact unk_enc h

/-- C81. The minimal encodings of `Spec/Wire.lean` are encodings in this sense. -/
theorem C81_minimal_node {f : NodeField} (h : f.WF) : f.Enc f.enc := by
  cases f with
  | link fs => exact ⟨_, ⟨_, _, rfl, num32_enc' (by decide), num32_enc' h.2⟩, fields_enc fun f hf => linkField_enc (h.1 f hf)⟩
  | data b => exact ⟨_, _, rfl, num32_enc' (by decide), num32_enc' h⟩
  | unk u => exact unk_enc h

/-- C81. `UnixFs::try_from` on bytes which may be absent: accepted exactly if they are a sequence of well-formed UnixFS fields. Absent
and empty ones are accepted too, unlike by `try_parse`, as the default message. -/
theorem C81_unixfs (data : Option Bytes) (u : UnixFs) : UnixFs.tryFrom data = .ok u ↔
    ∃ ds, IsUnixFs (data.getD []) ds ∧ u = unixFsOf ds := by
  have key : UnixFs.tryFrom data = UnixFs.tryFrom (some (data.getD [])) := by cases data <;> rfl
  rw [key, unixFs_iff]

/-- C81. `UnixFs::try_from` on the node which a block was read as: it is the last Data field of the block which counts. -/
theorem C81_of_node (block : Bytes) (node : PBNode) (hn : PBNode.tryFrom block = .ok node) (u : UnixFs) :
    UnixFs.tryFromNode node = .ok u ↔ ∃ ns ds, IsNode block ns ∧ IsUnixFs ((nodeData ns).getD []) ds ∧ u = unixFsOf ds := by
  unfold UnixFs.tryFromNode
  rw [C81_unixfs]
  obtain ⟨ns, e1, e2, e3⟩ := (node_iff block node.Links (node.Data.map (·.val))).1 ⟨node, hn, rfl, rfl⟩
  constructor
  · rintro ⟨ds, h1, h2⟩
    exact ⟨ns, ds, e1, by rw [e3]; exact h1, h2⟩
  · rintro ⟨ns', ds, h1, h2, h3⟩
    obtain ⟨node', f1, f2, f3⟩ := (node_iff block (nodeLinks ns') (nodeData ns')).2 ⟨ns', h1, rfl, rfl⟩
    rw [hn] at f1
    cases f1
    exact ⟨ds, by rw [f3]; exact h2, h3⟩

/-- C81. The two ways to read a block agree: the node first and its data then, or both with `try_parse`, when there is data at all. -/
theorem C81_agree (block : Bytes) (node : PBNode) (hn : PBNode.tryFrom block = .ok node) (d : Bytes)
    (hd : dagNodeData block = .ok (some d)) (hne : d ≠ []) (u : UnixFs) :
    UnixFs.tryFromNode node = .ok u ↔ FlatUnixFs.tryParse block = .ok ⟨node.Links, u⟩ := by
  obtain ⟨ns, h1, h2⟩ := (C81_node_data block (some d)).1 hd
  obtain ⟨node', f1, f2, f3⟩ := (node_iff block (nodeLinks ns) (some d)).2 ⟨ns, h1, rfl, h2⟩
  rw [hn] at f1
  cases f1
  unfold UnixFs.tryFromNode FlatUnixFs.tryParse
  rw [hn]
  simp only
  cases hs : node.Data with
  | none => rw [hs] at f3; cases f3
  | some s =>
    rw [hs] at f3
    cases f3
    simp only [Option.map_some]
    rw [if_neg hne]
    cases UnixFs.tryFrom (some s.val) with
    | error e => exact ⟨fun h => (by cases h), fun h => (by cases h)⟩
    | ok v => exact ⟨fun h => by cases h; rfl, fun h => by cases h; rfl⟩

/-- A block of which the parts are padded: the type as a three byte varint, the length of the data as a two byte one. -/
def paddedBlock : Bytes := [0x0a, 0x8a, 0x00, 0x08, 0x82, 0x80, 0x00, 0x12, 0x01, 0x61, 0x18, 0x81, 0x00]

/-- It is accepted as the file with the content `a`. -/
theorem padded_accepted : FlatUnixFs.tryParse paddedBlock = .ok ⟨[], { Ty := .File, Data := some [0x61], filesize := some 1 }⟩ := by
  decide +kernel
example : ∃ node, PBNode.tryFrom paddedBlock = .ok node ∧ dagNodeData paddedBlock = .ok (some [0x08, 0x82, 0x80, 0x00, 0x12, 0x01, 0x61, 0x18, 0x81, 0x00]) ∧
    UnixFs.tryFromNode node = .ok { Ty := .File, Data := some [0x61], filesize := some 1 } :=
  ⟨⟨[], some ⟨3, [0x08, 0x82, 0x80, 0x00, 0x12, 0x01, 0x61, 0x18, 0x81, 0x00]⟩⟩, by decide +kernel, by decide +kernel, by decide +kernel⟩

/-- A node without data: the default message for the one, refused by the other. -/
example : UnixFs.tryFromNode {} = .ok {} ∧ PBNode.tryFrom [] = .ok {} ∧ FlatUnixFs.tryParse [] = .error (.NoData {}) := by decide +kernel

example : ∃ ns d ds, IsNode paddedBlock ns ∧ nodeData ns = some d ∧ IsUnixFs d ds ∧ ds ≠ [] ∧
    (⟨[], { Ty := .File, Data := some [0x61], filesize := some 1 }⟩ : FlatUnixFs) = ⟨nodeLinks ns, unixFsOf ds⟩ :=
  (C81_accepted _ _).1 padded_accepted
/-- A link which claims two bytes but whose hash reaches further: refused, so there are no fields of which it consists. -/
example : ¬ ∃ ns, IsNode [0x12, 0x02, 0x0a, 0x03, 1, 2, 3] ns := (C81_not_dagpb _).1 ⟨.unexpectedEnd, by decide +kernel⟩
/-- Data which is no UnixFS. -/
example : ∃ ns d, IsNode [0x0a, 0x01, 0x08] ns ∧ nodeData ns = some d ∧ d ≠ [] ∧ (¬ ∃ ds, IsUnixFs d ds) ∧ nodeLinks ns = [] :=
  (C81_not_unixfs _ _).1 ⟨.unexpectedEnd, ⟨[], some ⟨2, [0x08]⟩⟩, by decide +kernel, rfl⟩

/-! ### C82 -/

/-- Two blocks with the same links and the same UnixFS values. -/
structure SameFields (a b : Bytes) : Prop where
  same : ∃ ns d ds ms e es, IsNode a ns ∧ nodeData ns = some d ∧ IsUnixFs d ds ∧ ds ≠ [] ∧
    IsNode b ms ∧ nodeData ms = some e ∧ IsUnixFs e es ∧ es ≠ [] ∧ nodeLinks ns = nodeLinks ms ∧ unixFsOf ds = unixFsOf es

theorem SameFields.parse {a b : Bytes} (h : SameFields a b) : ∃ m, FlatUnixFs.tryParse a = .ok m ∧ FlatUnixFs.tryParse b = .ok m := by
  obtain ⟨ns, d, ds, ms, e, es, a1, a2, a3, a4, b1, b2, b3, b4, h1, h2⟩ := h
  exact ⟨⟨nodeLinks ns, unixFsOf ds⟩, (C81_accepted _ _).2 ⟨ns, d, ds, a1, a2, a3, a4, rfl⟩,
    (C81_accepted _ _).2 ⟨ms, e, es, b1, b2, b3, b4, by rw [h1, h2]⟩⟩

/-- C82. However they are encoded: for two blocks with the same links and the same UnixFS values, every function which takes a block
gives the same answer, in every state. -/
theorem C82_same_answers (a b : Bytes) (h : SameFields a b) :
    (∀ v : IdleFileVisit, v.start a = v.start b) ∧
    (∀ (v : FileVisit) cache, v.continueWalk a cache = v.continueWalk b cache) ∧
    (∀ (w : Walker) cache, w.step a cache = w.step b cache) ∧
    (∀ name cache, resolve a name cache = resolve b name cache) ∧
    (∀ (l : ShardedLookup) cache, l.continueWalk a cache = l.continueWalk b cache) := by
  obtain ⟨m, ha, hb⟩ := h.parse
  have hcont : ∀ (v : FileVisit) cache, v.continueWalk a cache = v.continueWalk b cache := by
    intro v cache
    unfold FileVisit.continueWalk Traversal.continueWalk FileReader.fromContinued
    rw [ha, hb]
  refine ⟨fun v => ?_, hcont, fun w cache => ?_, fun name cache => ?_, fun l cache => ?_⟩
  · unfold IdleFileVisit.start FileReader.fromBlock
    rw [ha, hb]
  · unfold Walker.step Walker.nextFile Walker.nextBlock
    rw [ha, hb]
    simp only [hcont]
  · unfold resolve
    rw [ha, hb]
  · unfold ShardedLookup.continueWalk
    rw [ha, hb]

/-- The two ways to write the file of one byte are the same to the library. -/
example : SameFields paddedBlock [0x0a, 0x07, 0x08, 0x02, 0x12, 0x01, 0x61, 0x18, 0x01] := by
  obtain ⟨ns, d, ds, h1, h2, h3, h4, h5⟩ := (C81_accepted _ _).1 padded_accepted
  obtain ⟨ms, e, es, g1, g2, g3, g4, g5⟩ := (C81_accepted [0x0a, 0x07, 0x08, 0x02, 0x12, 0x01, 0x61, 0x18, 0x01]
    ⟨[], { Ty := .File, Data := some [0x61], filesize := some 1 }⟩).1 (by decide +kernel)
  rw [h5] at g5
  injection g5 with g5 g6
  exact ⟨ns, d, ds, ms, e, es, h1, h2, h3, h4, g1, g2, g3, g4, g5, g6⟩

/-- C49, in general: a block which declares an undefined type (any number above 5), whatever else it has, is treated by every
function as a block which declares the type `Raw` (and has the same links and other fields). -/
theorem C49_undefined_is_raw (a b : Bytes) (ns ms : List NodeField) (d e : Bytes) (before after : List DataField) (n : Nat) (hn : 5 < n)
    (ha : IsNode a ns ∧ nodeData ns = some d ∧ IsUnixFs d (before ++ .type n :: after))
    (hb : IsNode b ms ∧ nodeData ms = some e ∧ IsUnixFs e (before ++ .type 0 :: after))
    (hlinks : nodeLinks ns = nodeLinks ms) :
    (∀ v : IdleFileVisit, v.start a = v.start b) ∧
    (∀ (v : FileVisit) cache, v.continueWalk a cache = v.continueWalk b cache) ∧
    (∀ (w : Walker) cache, w.step a cache = w.step b cache) ∧
    (∀ name cache, resolve a name cache = resolve b name cache) ∧
    (∀ (l : ShardedLookup) cache, l.continueWalk a cache = l.continueWalk b cache) := by
  refine C82_same_answers a b ⟨ns, d, _, ms, e, _, ha.1, ha.2.1, ha.2.2, by simp, hb.1, hb.2.1, hb.2.2, by simp, hlinks, ?_⟩
  have hlt : n < U32 := by
    have aux : ∀ (fs : List DataField) (x : Bytes), IsUnixFs x fs → ∀ n, DataField.type n ∈ fs → n < U32 := by
      intro fs x h
      induction h with
      | nil => intro n hn; cases hn
      | cons h1 _ ih =>
        intro n hn
        rcases List.mem_cons.1 hn with rfl | hn
        · obtain ⟨_, _, _, _, h⟩ := h1; exact Num32_lt h
        · exact ih n hn
    exact aux _ _ ha.2.2 n (by simp)
  have htype : typeOf n = typeOf 0 := by
    unfold typeOf
    rw [Nat.mod_eq_of_lt hlt]
    rw [if_neg (by omega), if_neg (by omega), if_neg (by omega), if_neg (by omega), if_neg (by omega)]
    rfl
  simp only [unixFsOf, List.foldl_append, List.foldl_cons]
  rw [DataField.apply, DataField.apply, htype]

/-- The hypotheses are met by the block of the counterexample, and the same block with type 0. -/
example : (∃ ns d before after, IsNode (blockOfType 6) ns ∧ nodeData ns = some d ∧ IsUnixFs d (before ++ .type 6 :: after)) ∧
    ∃ ns d before after, IsNode (blockOfType 0) ns ∧ nodeData ns = some d ∧ IsUnixFs d (before ++ .type 0 :: after) := by
  have key : ∀ n : Nat, n < 128 → IsUnixFs (encVarint 8 ++ encVarint n ++ (encVarint 24 ++ encVarint 0)) ([] ++ .type n :: [.filesize 0]) := by
    intro n hn
    refine .cons ⟨_, _, rfl, num32_enc' (by decide), num32_enc' (Nat.lt_trans hn (by decide))⟩ ?_
    have : Fields DataField.Enc [.filesize 0] (encVarint 24 ++ encVarint 0 ++ []) :=
      .cons ⟨_, _, rfl, num32_enc' (by decide), num64_enc (by decide)⟩ .nil
    rwa [List.append_nil] at this
  have node : ∀ d : Bytes, d.length < U32 → IsNode (encVarint 10 ++ (encVarint d.length ++ d) ++ []) [.data d] := fun d hd =>
    .cons ⟨_, _, rfl, num32_enc' (by decide), num32_enc' hd⟩ .nil
  exact ⟨⟨[.data [8, 6, 24, 0]], [8, 6, 24, 0], [], [.filesize 0], node _ (by decide), rfl, key 6 (by decide)⟩,
    ⟨[.data [8, 0, 24, 0]], [8, 0, 24, 0], [], [.filesize 0], node _ (by decide), rfl, key 0 (by decide)⟩⟩

/-! ### C51: the panic of the protobuf library -/

/-- The full statement of C51: parsing never panics (`overflow` stands for the panic inside of quick-protobuf). -/
def C51_full : Prop := ∀ b, FlatUnixFs.tryParse b ≠ .error (.InvalidDagPb .overflow) ∧ ∀ n, FlatUnixFs.tryParse b ≠ .error (.InvalidUnixFs .overflow n)

/-- A link of claimed length two, whose hash is three bytes long, followed by an unknown field: quick-protobuf reads behind the end of
the link and then subtracts the position from the end, which overflows. -/
theorem C51_overflow_panics : FlatUnixFs.tryParse [0x12, 0x02, 0x0a, 0x03, 1, 2, 3, 0x22, 0x00] = .error (.InvalidDagPb .overflow) := by
  decide +kernel

theorem C51_full_false : ¬ C51_full := fun h => (h _).1 C51_overflow_panics

/-- What holds: this happens for no block which is a sequence of well-formed fields, so for no block which has ever been written by
this crate; such blocks, and those which are not UnixFS for another reason, are never subject to it. -/
theorem C51_overflow_partial (b : Bytes) (ns : List NodeField) (h : IsNode b ns) :
    FlatUnixFs.tryParse b ≠ .error (.InvalidDagPb .overflow) ∧
    ∀ d ds, nodeData ns = some d → IsUnixFs d ds → ∀ n, FlatUnixFs.tryParse b ≠ .error (.InvalidUnixFs .overflow n) := by
  refine ⟨fun h' => (C81_not_dagpb b).1 ⟨_, h'⟩ ⟨ns, h⟩, fun d ds hd hds n hn => ?_⟩
  by_cases hnil : ds = []
  · have : d = [] := (fields_nil dataStep_exact.pos hds).2 hnil
    obtain ⟨n', h', -⟩ := (C81_no_data b (nodeLinks ns)).2 ⟨ns, h, .inr (by rw [hd, this]), rfl⟩
    rw [h'] at hn; cases hn
  · rw [(C81_accepted b _).2 ⟨ns, d, ds, h, hd, hds, hnil, rfl⟩] at hn
    cases hn

/-- Exactly which blocks panic while being read as dag-pb: those which begin with proper fields, followed by a link whose end is skipped
and behind whose end an unknown field with a length stands. -/
theorem C51_exact_partial (b : Bytes) : FlatUnixFs.tryParse b = .error (.InvalidDagPb .overflow) ↔ NodeOverrun b := by
  rw [← node_overflow]
  unfold FlatUnixFs.tryParse
  cases hn : PBNode.tryFrom b with
  | error e =>
    constructor
    · intro h; cases h; rfl
    · intro h; cases h; rfl
  | ok node =>
    refine ⟨fun h => ?_, fun h => by cases h⟩
    simp only at h
    split at h
    · split at h
      · cases h
      · split at h <;> cases h
    · cases h

/-- And exactly which panic while their Data is read as UnixFS: the same with a modification time. -/
theorem C51_exact_data_partial (b : Bytes) : (∃ n, FlatUnixFs.tryParse b = .error (.InvalidUnixFs .overflow n)) ↔
    ∃ ns d, IsNode b ns ∧ nodeData ns = some d ∧ d ≠ [] ∧ DataOverrun d := by
  constructor
  · rintro ⟨n, h⟩
    unfold FlatUnixFs.tryParse at h
    cases hn : PBNode.tryFrom b with
    | error e => rw [hn] at h; cases h
    | ok node =>
      rw [hn] at h
      simp only at h
      obtain ⟨ns, e1, e2, e3⟩ := (node_iff b node.Links (node.Data.map (·.val))).1 ⟨node, hn, rfl, rfl⟩
      cases hd : node.Data with
      | none => rw [hd] at h; cases h
      | some s =>
        rw [hd] at h e3
        simp only at h
        by_cases hs : s.val = []
        · rw [if_pos hs] at h; cases h
        · rw [if_neg hs] at h
          cases hu : UnixFs.tryFrom (some s.val) with
          | ok u => rw [hu] at h; cases h
          | error e =>
            rw [hu] at h
            cases h
            exact ⟨ns, s.val, e1, e3, hs, (unixFs_overflow _).1 hu⟩
  · rintro ⟨ns, d, h1, h2, h3, h4⟩
    obtain ⟨node, e1, e2, e3⟩ := (node_iff b (nodeLinks ns) (some d)).2 ⟨ns, h1, rfl, h2⟩
    unfold FlatUnixFs.tryParse
    rw [e1]
    simp only
    cases hd : node.Data with
    | none => rw [hd] at e3; cases e3
    | some s =>
      rw [hd] at e3
      cases e3
      simp only
      rw [if_neg h3, (unixFs_overflow _).2 h4]
      exact ⟨node, rfl⟩

/-- Both happen: the link of `C51_overflow_panics`, and a modification time of claimed length one whose seconds take two bytes, followed by
an unknown field. -/
theorem C51_exact_example : NodeOverrun [0x12, 0x02, 0x0a, 0x03, 1, 2, 3, 0x22, 0x00] ∧
    (∃ ns d, IsNode [0x0a, 0x06, 0x42, 0x01, 0x08, 0x05, 0x12, 0x00] ns ∧ nodeData ns = some d ∧ d ≠ [] ∧ DataOverrun d) ∧
    ¬ NodeOverrun [0x12, 0x05, 0x0a, 0x03, 1, 2, 3, 0x22, 0x00] := by
  refine ⟨(C51_exact_partial _).1 C51_overflow_panics, (C51_exact_data_partial _).1 ?_, fun h => ?_⟩
  · have h : (match FlatUnixFs.tryParse [0x0a, 0x06, 0x42, 0x01, 0x08, 0x05, 0x12, 0x00] with
      | .error (.InvalidUnixFs .overflow _) => true | _ => false) = true := by decide +kernel
    split at h
    · next n e => exact ⟨n, e⟩
    · cases h
  · have := (C51_exact_partial _).2 h
    revert this
    decide +kernel

end Verif.Props
