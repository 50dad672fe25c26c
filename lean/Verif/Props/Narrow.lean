import Verif.NarrowExact
import Verif.NarrowOverflow
import Verif.Props.Parsing
/-
C110: blocks on platforms with 32 bits.
-/
namespace Verif.Props
open Verif Verif.Spec

theorem bytesField_len {tag : Nat} {x b : Bytes} (h : BytesField tag x b) : x.length ≤ b.length := by
  obtain ⟨tb, lb, rfl, -, -⟩ := h
  rw [List.length_append, List.length_append]; omega

theorem nodeData_le32 {b : Bytes} {ns : List NodeField} (h : IsNode32 b ns) {d : Bytes} (hd : nodeData ns = some d) : d.length ≤ b.length := by
  have hmem : NodeField.data d ∈ ns := by
    unfold nodeData at hd
    have := List.mem_of_getLast? hd
    rw [List.mem_filterMap] at this
    obtain ⟨f, hf, e⟩ := this
    cases f <;> simp at e
    subst e; exact hf
  clear hd
  unfold IsNode32 at h
  induction h with
  | nil => cases hmem
  | @cons f fs b bs hE _ ih =>
    rw [List.length_append]
    cases hmem with
    | head => have := bytesField_len (show BytesField 10 d b from hE); omega
    | tail _ hm => have := ih hm; omega

/-- C110. A block is accepted as a UnixFS node exactly if it is a sequence of well-formed dag-pb fields, of which the last Data field
is a non-empty sequence of well-formed UnixFS fields; and the result has the links of the one and the values of the other. -/
theorem C110_accepted (block : Bytes) (hb : block.length < U32) (m : FlatUnixFs) : FlatUnixFs.tryParse32 block = .ok m ↔
    ∃ ns d ds, IsNode32 block ns ∧ nodeData ns = some d ∧ IsUnixFs32 d ds ∧ ds ≠ [] ∧ m = ⟨nodeLinks ns, unixFsOf ds⟩ := by
  unfold FlatUnixFs.tryParse32
  constructor
  · intro h
    cases hn : PBNode.tryFrom32 block with
    | error e => rw [hn] at h; cases h
    | ok node =>
      rw [hn] at h
      simp only at h
      obtain ⟨ns, e1, e2, e3⟩ := (node_iff32 block hb node.Links (node.Data.map (·.val))).1 ⟨node, hn, rfl, rfl⟩
      cases hd : node.Data with
      | none => rw [hd] at h; cases h
      | some s =>
        rw [hd] at h e3
        simp only at h
        by_cases hs : s.val = []
        · rw [if_pos hs] at h; cases h
        · rw [if_neg hs] at h
          cases hu : UnixFs.tryFrom32 (some s.val) with
          | error e => rw [hu] at h; cases h
          | ok u =>
            rw [hu] at h
            cases h
            obtain ⟨ds, d1, d2⟩ := (unixFs_iff32 _ (Nat.lt_of_le_of_lt (nodeData_le32 e1 e3) hb) _).1 hu
            exact ⟨ns, s.val, ds, e1, e3, d1, fun e => hs ((fields_nil dataStep_exact32.pos d1).2 e), by rw [e2, d2]⟩
  · rintro ⟨ns, d, ds, h1, h2, h3, h4, rfl⟩
    obtain ⟨node, e1, e2, e3⟩ := (node_iff32 block hb (nodeLinks ns) (some d)).2 ⟨ns, h1, rfl, h2⟩
    rw [e1]
    simp only
    cases hd : node.Data with
    | none => rw [hd] at e3; cases e3
    | some s =>
      rw [hd] at e3
      cases e3
      simp only
      rw [if_neg (fun e => h4 ((fields_nil dataStep_exact32.pos h3).1 e)), (unixFs_iff32 _ (Nat.lt_of_le_of_lt (nodeData_le32 h1 h2) hb) _).2 ⟨ds, h3, rfl⟩, e2]

/-- C110. A block is refused as not being dag-pb exactly if it is not a sequence of well-formed dag-pb fields. -/
theorem C110_not_dagpb (block : Bytes) (hb : block.length < U32) : (∃ e, FlatUnixFs.tryParse32 block = .error (.InvalidDagPb e)) ↔ ¬ ∃ ns, IsNode32 block ns := by
  unfold FlatUnixFs.tryParse32
  cases hn : PBNode.tryFrom32 block with
  | error e =>
    simp only
    refine ⟨fun _ => ?_, fun _ => ⟨e, rfl⟩⟩
    rintro ⟨ns, h⟩
    obtain ⟨node, e1, -⟩ := (node_iff32 block hb (nodeLinks ns) (nodeData ns)).2 ⟨ns, h, rfl, rfl⟩
    rw [hn] at e1; cases e1
  | ok node =>
    simp only
    obtain ⟨ns, e1, -⟩ := (node_iff32 block hb node.Links (node.Data.map (·.val))).1 ⟨node, hn, rfl, rfl⟩
    refine ⟨?_, fun h => absurd ⟨ns, e1⟩ h⟩
    rintro ⟨e, h⟩
    cases hd : node.Data with
    | none => rw [hd] at h; cases h
    | some s =>
      rw [hd] at h
      simp only at h
      split at h
      · cases h
      · split at h <;> cases h

/-- C110. It is refused for having no data exactly if it is dag-pb with no Data field, or with the last one empty; the links come with
the error. -/
theorem C110_no_data (block : Bytes) (hb : block.length < U32) (links : List PBLink) :
    (∃ n, FlatUnixFs.tryParse32 block = .error (.NoData n) ∧ n.Links = links) ↔
      ∃ ns, IsNode32 block ns ∧ (nodeData ns = none ∨ nodeData ns = some []) ∧ nodeLinks ns = links := by
  unfold FlatUnixFs.tryParse32
  constructor
  · rintro ⟨n, h, hl⟩
    cases hn : PBNode.tryFrom32 block with
    | error e => rw [hn] at h; cases h
    | ok node =>
      rw [hn] at h
      simp only at h
      obtain ⟨ns, e1, e2, e3⟩ := (node_iff32 block hb node.Links (node.Data.map (·.val))).1 ⟨node, hn, rfl, rfl⟩
      cases hd : node.Data with
      | none => rw [hd] at h e3; cases h; exact ⟨ns, e1, .inl e3, by rw [e2, hl]⟩
      | some s =>
        rw [hd] at h e3
        simp only at h
        by_cases hs : s.val = []
        · rw [if_pos hs] at h; cases h; exact ⟨ns, e1, .inr (by rw [e3, Option.map_some, hs]), by rw [e2, hl]⟩
        · rw [if_neg hs] at h
          split at h <;> cases h
  · rintro ⟨ns, h1, h2, rfl⟩
    obtain ⟨node, e1, e2, e3⟩ := (node_iff32 block hb (nodeLinks ns) (nodeData ns)).2 ⟨ns, h1, rfl, rfl⟩
    rw [e1]
    simp only
    refine ⟨node, ?_, e2⟩
    cases hd : node.Data with
    | none => rfl
    | some s =>
      rw [hd] at e3
      rcases h2 with h2 | h2
      · rw [h2] at e3; cases e3
      · rw [h2] at e3
        simp only
        rw [if_pos (Option.some.inj e3)]

/-- C110. It is refused as not being UnixFS exactly if it is dag-pb whose last Data field is neither empty nor a sequence of well-formed
UnixFS fields; the links come with the error. -/
theorem C110_not_unixfs (block : Bytes) (hb : block.length < U32) (links : List PBLink) :
    (∃ e n, FlatUnixFs.tryParse32 block = .error (.InvalidUnixFs e n) ∧ n.Links = links) ↔
      ∃ ns d, IsNode32 block ns ∧ nodeData ns = some d ∧ d ≠ [] ∧ (¬ ∃ ds, IsUnixFs32 d ds) ∧ nodeLinks ns = links := by
  unfold FlatUnixFs.tryParse32
  constructor
  · rintro ⟨e, n, h, hl⟩
    cases hn : PBNode.tryFrom32 block with
    | error e => rw [hn] at h; cases h
    | ok node =>
      rw [hn] at h
      simp only at h
      obtain ⟨ns, e1, e2, e3⟩ := (node_iff32 block hb node.Links (node.Data.map (·.val))).1 ⟨node, hn, rfl, rfl⟩
      cases hd : node.Data with
      | none => rw [hd] at h; cases h
      | some s =>
        rw [hd] at h e3
        simp only at h
        by_cases hs : s.val = []
        · rw [if_pos hs] at h; cases h
        · rw [if_neg hs] at h
          cases hu : UnixFs.tryFrom32 (some s.val) with
          | ok u => rw [hu] at h; cases h
          | error e =>
            rw [hu] at h
            cases h
            refine ⟨ns, s.val, e1, e3, hs, ?_, by rw [e2, hl]⟩
            rintro ⟨ds, h⟩
            rw [(unixFs_iff32 _ (Nat.lt_of_le_of_lt (nodeData_le32 e1 e3) hb) _).2 ⟨ds, h, rfl⟩] at hu
            cases hu
  · rintro ⟨ns, d, h1, h2, h3, h4, rfl⟩
    obtain ⟨node, e1, e2, e3⟩ := (node_iff32 block hb (nodeLinks ns) (some d)).2 ⟨ns, h1, rfl, h2⟩
    rw [e1]
    simp only
    cases hd : node.Data with
    | none => rw [hd] at e3; cases e3
    | some s =>
      rw [hd] at e3
      cases e3
      simp only
      rw [if_neg h3]
      cases hu : UnixFs.tryFrom32 (some s.val) with
      | ok u => exact absurd (((unixFs_iff32 _ (Nat.lt_of_le_of_lt (nodeData_le32 h1 h2) hb) _).1 hu).imp fun _ h => h.1) h4
      | error e => exact ⟨e, node, rfl, e2⟩


/-! ### compared with 64 bits -/

theorem unk_narrow {known : List Nat} {u : Unk} {b : Bytes} (h : u.Enc known b) (hb : b.length < U32) : u.Enc32 known b := by
  obtain ⟨hk, tb, pb, rfl, h1, h2⟩ := h
  rw [List.length_append] at hb
  refine ⟨hk, tb, pb, rfl, h1, ?_⟩
  revert h2
  generalize u.payload = p
  intro h2
  cases h2 with
  | varint h => exact .varint h
  | fixed64 h => exact .fixed64 h
  | fixed32 h => exact .fixed32 h
  | @bytes x lb h =>
    rw [List.length_append] at hb
    have := num64_cut h
    rw [Nat.mod_eq_of_lt (by omega)] at this
    exact .bytes this

theorem fields_narrow {F : Type} {E E' : F → Bytes → Prop} (hE : ∀ {f b}, E f b → b.length < U32 → E' f b) {fs : List F} {b : Bytes}
    (h : Fields E fs b) (hb : b.length < U32) : Fields E' fs b := by
  induction h with
  | nil => exact .nil
  | cons h1 _ ih => rw [List.length_append] at hb; exact .cons (hE h1 (by omega)) (ih (by omega))

theorem link_narrow {f : LinkField} {b : Bytes} (h : f.Enc b) (hb : b.length < U32) : f.Enc32 b := by
  cases f with
  | unk u => exact unk_narrow h hb
  | _ => exact h

theorem time_narrow {f : TimeField} {b : Bytes} (h : f.Enc b) (hb : b.length < U32) : f.Enc32 b := by
  cases f with
  | unk u => exact unk_narrow h hb
  | _ => exact h

theorem node_narrow {f : NodeField} {b : Bytes} (h : f.Enc b) (hb : b.length < U32) : f.Enc32 b := by
  cases f with
  | unk u => exact unk_narrow h hb
  | link fs =>
    obtain ⟨x, h1, h2⟩ := h
    exact ⟨x, h1, fields_narrow link_narrow h2 (by have := bytesField_len h1; omega)⟩
  | data x => exact h

theorem data_narrow {f : DataField} {b : Bytes} (h : f.Enc b) (hb : b.length < U32) : f.Enc32 b := by
  cases f with
  | unk u => exact unk_narrow h hb
  | mtime fs =>
    obtain ⟨x, h1, h2⟩ := h
    exact ⟨x, h1, fields_narrow time_narrow h2 (by have := bytesField_len h1; omega)⟩
  | _ => exact h

/-- C110. What is accepted with 64 bits is accepted with 32, as the same. -/
theorem C110_same (block : Bytes) (hb : block.length < U32) (m : FlatUnixFs) (h : FlatUnixFs.tryParse block = .ok m) :
    FlatUnixFs.tryParse32 block = .ok m := by
  obtain ⟨ns, d, ds, h1, h2, h3, h4, h5⟩ := (C81_accepted block m).1 h
  have h1' : IsNode32 block ns := fields_narrow node_narrow h1 hb
  exact (C110_accepted block hb m).2 ⟨ns, d, ds, h1', h2,
    fields_narrow data_narrow h3 (Nat.lt_of_le_of_lt (nodeData_le32 h1' h2) hb), h4, h5⟩

theorem unk_widen {known : List Nat} {u : Unk} {b : Bytes} (h : u.Enc32 known b) : u.Enc known b ∨ u.Cut b := by
  obtain ⟨hk, tb, pb, rfl, h1, h2⟩ := h
  have key : ∀ p, UnkPayload.Enc32 p pb → p.Enc pb ∨ ∃ lb x k, p = .bytes x ∧ pb = lb ++ x ∧ Num64 lb k ∧ U32 ≤ k ∧ k % U32 = x.length := by
    intro p h
    cases h with
    | varint h => exact .inl (.varint h)
    | fixed64 h => exact .inl (.fixed64 h)
    | fixed32 h => exact .inl (.fixed32 h)
    | @bytes x lb h =>
      obtain ⟨k, hk, he⟩ := num32_uncut h
      by_cases hlt : k < U32
      · rw [Nat.mod_eq_of_lt hlt] at he
        exact .inl (.bytes (he ▸ hk))
      · exact .inr ⟨lb, x, k, rfl, rfl, hk, by omega, he⟩
  rcases key _ h2 with h | ⟨lb, x, k, e1, e2, e3, e4, e5⟩
  · exact .inl ⟨hk, tb, pb, rfl, h1, h⟩
  · exact .inr ⟨tb, lb, x, k, e1, by rw [e2], h1, e3, e4, e5⟩

theorem fields_widen {F : Type} {E E' Cut : F → Bytes → Prop} (hE : ∀ {f b}, E f b → E' f b ∨ Cut f b) {fs : List F} {b : Bytes}
    (h : Fields E fs b) : Fields E' fs b ∨ SomeCut E Cut b := by
  induction h with
  | nil => exact .inl .nil
  | @cons f fs b bs h1 h2 ih =>
    rcases hE h1 with h | h
    · rcases ih with ih | ⟨before, g, x, after, fs', gs, rfl, c1, c2, c3, c4⟩
      · exact .inl (.cons h ih)
      · exact .inr ⟨b ++ before, g, x, after, f :: fs', gs, by rw [List.append_assoc], .cons h1 c1, c2, c3, c4⟩
    · exact .inr ⟨[], f, b, bs, [], fs, rfl, .nil, h1, h, h2⟩

theorem link_widen {f : LinkField} {b : Bytes} (h : f.Enc32 b) : f.Enc b ∨ f.Cut b := by
  cases f with
  | unk u => exact (unk_widen h).imp id fun h => ⟨u, rfl, h⟩
  | _ => exact .inl h

theorem time_widen {f : TimeField} {b : Bytes} (h : f.Enc32 b) : f.Enc b ∨ f.Cut b := by
  cases f with
  | unk u => exact (unk_widen h).imp id fun h => ⟨u, rfl, h⟩
  | _ => exact .inl h

theorem node_widen {f : NodeField} {b : Bytes} (h : f.Enc32 b) : f.Enc b ∨ f.Cut b := by
  cases f with
  | unk u => exact (unk_widen h).imp id fun h => .inl ⟨u, rfl, h⟩
  | link fs =>
    obtain ⟨x, h1, h2⟩ := h
    exact (fields_widen link_widen h2).imp (fun h => ⟨x, h1, h⟩) fun h => .inr ⟨fs, x, rfl, h1, h⟩
  | data x => exact .inl h

theorem data_widen {f : DataField} {b : Bytes} (h : f.Enc32 b) : f.Enc b ∨ f.Cut b := by
  cases f with
  | unk u => exact (unk_widen h).imp id fun h => .inl ⟨u, rfl, h⟩
  | mtime fs =>
    obtain ⟨x, h1, h2⟩ := h
    exact (fields_widen time_widen h2).imp (fun h => ⟨x, h1, h⟩) fun h => .inr ⟨fs, x, rfl, h1, h⟩
  | _ => exact .inl h

/-- C110. What is accepted with 32 bits is accepted with 64 as the same, or refused there; and then the length of some unknown field has
been cut. -/
theorem C110_more (block : Bytes) (hb : block.length < U32) (m : FlatUnixFs) (h : FlatUnixFs.tryParse32 block = .ok m) :
    FlatUnixFs.tryParse block = .ok m ∨ ((∃ e, FlatUnixFs.tryParse block = .error e) ∧ BlockCut block) := by
  cases hp : FlatUnixFs.tryParse block with
  | ok m' => rw [C110_same block hb m' hp] at h; cases h; exact .inl rfl
  | error e =>
    refine .inr ⟨⟨e, rfl⟩, ?_⟩
    obtain ⟨ns, d, ds, h1, h2, h3, h4, h5⟩ := (C110_accepted block hb m).1 h
    rcases fields_widen node_widen h1 with h1' | h1'
    · rcases fields_widen data_widen h3 with h3' | h3'
      · rw [(C81_accepted block m).2 ⟨ns, d, ds, h1', h2, h3', h4, h5⟩] at hp; cases hp
      · exact .inr ⟨ns, d, h1, h2, h3'⟩
    · exact .inl h1'

/-- A file with the content `a` before which there stands an unknown field, of the length 2^32 + 1: with 64 bits there is no such block,
with 32 it is read as if the length were 1. -/
def cutBlock : Bytes := [0x22, 0x81, 0x80, 0x80, 0x80, 0x10, 0x78, 0x0a, 0x07, 0x08, 0x02, 0x12, 0x01, 0x61, 0x18, 0x01]

theorem C110_cut_example : FlatUnixFs.tryParse32 cutBlock = .ok ⟨[], { Ty := .File, Data := some [0x61], filesize := some 1 }⟩ ∧
    FlatUnixFs.tryParse cutBlock = .error (.InvalidDagPb .varint) := by
  constructor <;> decide +kernel

example : BlockCut cutBlock := by
  rcases C110_more cutBlock (by decide +kernel) _ C110_cut_example.1 with h | h
  · rw [C110_cut_example.2] at h; cases h
  · exact h.2

/-! ### panics -/

theorem outer_sound32 {M V F : Type} {step : Nat → M → Reader → Except PbError (M × Reader)} {view : M → V} {E : F → Bytes → Prop}
    {apply : V → F → V} {special : Nat} {Sub : Nat → Bytes → Prop} (hs : StepExact32 step view E apply)
    (ho : ∀ {m : M} {r : Reader}, Sub r.pos r.rest → step special m r = .error .overflow) {fs : List F} {before : Bytes} (hf : Fields E fs before) :
    ∀ (fuel : Nat) (m : M) (r : Reader) (tb x : Bytes), r.stop = r.pos + r.rest.length → r.stop < U32 → r.rest = before ++ (tb ++ x) → Num32 tb special →
      Sub (r.pos + before.length + tb.length) x → r.rest.length < fuel → readLoop step fuel m r = .error .overflow := by
  induction hf with
  | nil =>
    intro fuel m r tb x hr hu hrest ht hx hfuel
    obtain ⟨fuel, rfl⟩ : ∃ k, fuel = k + 1 := ⟨fuel - 1, by omega⟩
    have hpos := Num32_pos ht
    have hl : 0 < r.rest.length := by rw [hrest, List.nil_append, List.length_append]; omega
    rw [readLoop, if_neg (by omega)]
    rw [(readVarint32_iff r special ⟨r.pos + tb.length, r.stop, x⟩).2 ⟨tb, ht, by simpa using hrest, rfl, rfl⟩]
    simp only [except_ok_bind]
    rw [ho (by simpa using hx)]
    rfl
  | @cons f fs b bs hE _ ih =>
    intro fuel m r tb x hr hu hrest ht hx hfuel
    obtain ⟨fuel, rfl⟩ : ∃ k, fuel = k + 1 := ⟨fuel - 1, by omega⟩
    have hpos := hs.pos hE
    rw [List.append_assoc] at hrest
    have hl : r.rest.length = b.length + (bs ++ (tb ++ x)).length := by rw [hrest, List.length_append]
    rw [readLoop, if_neg (by omega)]
    obtain ⟨tag, r1, m1, e1, e2, -⟩ := hs.sound hE m r ⟨r.pos + b.length, r.stop, bs ++ (tb ++ x)⟩ ⟨hrest, rfl, rfl⟩ (by simp only; omega) hu
    rw [e1]
    simp only [except_ok_bind, e2]
    refine ih fuel m1 _ tb x (by simp only; omega) hu rfl ht ?_ (by simp only; omega)
    rw [List.length_append] at hx
    simp only
    rw [show r.pos + b.length + bs.length + tb.length = r.pos + (b.length + bs.length) + tb.length by omega]
    exact hx

/-- C110. A block panics with 32 bits (a panic is `overflow` here) if the end of the data or of a link in it would lie behind 4 GiB,
which six bytes suffice for. -/
theorem C110_panics (block : Bytes) (hb : block.length < U32) (h : NodeBeyond block) :
    FlatUnixFs.tryParse32 block = .error (.InvalidDagPb .overflow) := by
  obtain ⟨before, ns, tag, tb, lb, n, x, rfl, h1, h2, h3, h4, h5⟩ := h
  have key : PBNode.tryFrom32 (before ++ (tb ++ (lb ++ x))) = .error .overflow := by
    unfold PBNode.tryFrom32 parseMessage fromReader
    rw [outer_sound32 (Sub := fun p y => ∃ lb n x, y = lb ++ x ∧ Num32 lb n ∧ U32 ≤ p + lb.length + n) (special := tag) nodeStep_exact32 ?_ h1 _ _ _ tb (lb ++ x)
      (by simp [Reader.ofBytes]) (by simpa [Reader.ofBytes] using hb) rfl h2 ⟨lb, n, x, rfl, h4, by simpa [Reader.ofBytes] using h5⟩ (by simp [Reader.ofBytes])]
    · rfl
    · rintro m ⟨pos, stop, rest⟩ ⟨lb, n, x, hx, hn, hu⟩
      simp only at hx hu
      subst hx
      have hr := (readVarint32_iff ⟨pos, stop, lb ++ x⟩ n ⟨pos + lb.length, stop, x⟩).2 ⟨lb, hn, rfl, rfl, rfl⟩
      rcases h3 with rfl | rfl
      · have : Reader.readBytes32 ⟨pos, stop, lb ++ x⟩ = .error .overflow := by
          unfold Reader.readBytes32
          rw [hr]; simp only [except_ok_bind]; rw [if_pos hu]
        show (Reader.readBytes32 ⟨pos, stop, lb ++ x⟩ >>= _) = _
        rw [this]; rfl
      · have : Reader.readMessage32 PBLink.step32 {} ⟨pos, stop, lb ++ x⟩ = .error .overflow := by
          unfold Reader.readMessage32
          rw [hr]; simp only [except_ok_bind]; rw [if_pos hu]
        show (Reader.readMessage32 PBLink.step32 {} ⟨pos, stop, lb ++ x⟩ >>= _) = _
        rw [this]; rfl
  unfold FlatUnixFs.tryParse32
  rw [key]

/-- Data of the claimed length 2^32 - 1: refused with 64 bits, a panic with 32. -/
theorem C110_panics_example : NodeBeyond [0x0a, 0xff, 0xff, 0xff, 0xff, 0x0f] ∧
    FlatUnixFs.tryParse [0x0a, 0xff, 0xff, 0xff, 0xff, 0x0f] = .error (.InvalidDagPb .unexpectedEnd) := by
  refine ⟨⟨[], [], 10, [0x0a], [0xff, 0xff, 0xff, 0xff, 0x0f], 0xffffffff, [], rfl, .nil, ?_, .inl rfl, ?_, by decide⟩, by decide +kernel⟩
  · have := num32_enc' (n := 10) (by decide)
    have e : encVarint 10 = [0x0a] := by decide +kernel
    rwa [e] at this
  · have := num32_enc' (n := 0xffffffff) (by decide)
    have e : encVarint 0xffffffff = [0xff, 0xff, 0xff, 0xff, 0x0f] := by decide +kernel
    rwa [e] at this

/-- C110. Exactly which blocks panic with 32 bits while being read as dag-pb (no allocation has 2^31 bytes or more there): those which begin with
proper fields, followed by data or a link of which the end would lie at or behind 2^32, or by a link whose fields do the same or go on behind its
end until an unknown field with a length. -/
theorem C110_panics_exact (block : Bytes) (hb : block.length < 2 ^ 31) :
    FlatUnixFs.tryParse32 block = .error (.InvalidDagPb .overflow) ↔ NodeBeyond block ∨ NodeOverrun32 block := by
  rw [← node_overflow32 block hb]
  unfold FlatUnixFs.tryParse32
  cases hn : PBNode.tryFrom32 block with
  | error e =>
    constructor
    · intro h; cases h; rfl
    · intro h; cases h; rfl
  | ok node =>
    refine ⟨fun h => ?_, fun h => by cases h⟩
    simp only at h
    split at h
    · split at h
      · cases h
      · split at h <;> cases h
    · cases h

/-- C110. And exactly which panic while their Data is read as UnixFS. -/
theorem C110_panics_data (block : Bytes) (hb : block.length < 2 ^ 31) : (∃ n, FlatUnixFs.tryParse32 block = .error (.InvalidUnixFs .overflow n)) ↔
    ∃ ns d, IsNode32 block ns ∧ nodeData ns = some d ∧ d ≠ [] ∧ (DataBeyond d ∨ DataOverrun32 d) := by
  have hU : block.length < U32 := by have := u32_eq; omega
  constructor
  · rintro ⟨n, h⟩
    unfold FlatUnixFs.tryParse32 at h
    cases hn : PBNode.tryFrom32 block with
    | error e => rw [hn] at h; cases h
    | ok node =>
      rw [hn] at h
      simp only at h
      obtain ⟨ns, e1, e2, e3⟩ := (node_iff32 block hU node.Links (node.Data.map (·.val))).1 ⟨node, hn, rfl, rfl⟩
      cases hd : node.Data with
      | none => rw [hd] at h; cases h
      | some s =>
        rw [hd] at h e3
        simp only at h
        by_cases hs : s.val = []
        · rw [if_pos hs] at h; cases h
        · rw [if_neg hs] at h
          cases hu : UnixFs.tryFrom32 (some s.val) with
          | ok u => rw [hu] at h; cases h
          | error e =>
            rw [hu] at h
            cases h
            exact ⟨ns, s.val, e1, e3, hs, (unixFs_overflow32 _ (Nat.lt_of_le_of_lt (nodeData_le32 e1 e3) hb)).1 hu⟩
  · rintro ⟨ns, d, h1, h2, h3, h4⟩
    obtain ⟨node, e1, e2, e3⟩ := (node_iff32 block hU (nodeLinks ns) (some d)).2 ⟨ns, h1, rfl, h2⟩
    unfold FlatUnixFs.tryParse32
    rw [e1]
    simp only
    cases hd : node.Data with
    | none => rw [hd] at e3; cases e3
    | some s =>
      rw [hd] at e3
      cases e3
      simp only
      rw [if_neg h3, (unixFs_overflow32 _ (Nat.lt_of_le_of_lt (nodeData_le32 h1 h2) hb)).2 h4]
      exact ⟨node, rfl⟩

theorem overruns_narrow {F : Type} {E E' : F → Bytes → Prop} (hE : ∀ {f b}, E f b → b.length < U32 → E' f b) {D : F → Prop} {known lens : List Nat}
    {base n p : Nat} {x : Bytes} (h : Overruns E D known n p x) (hx : x.length < U32) : Overruns32 E' D known lens base n p x := by
  induction h with
  | now h1 h2 h3 h4 h5 h6 => exact .now h1 h2 h3 h4 h5 h6
  | later h1 h2 h3 _ ih =>
    rw [List.length_append] at hx
    exact .later h1 (hE h2 (by omega)) h3 (ih (by omega))

/-- C110. What panics with 64 bits panics with 32 too. -/
theorem C110_panics_same (block : Bytes) (hb : block.length < 2 ^ 31) :
    (FlatUnixFs.tryParse block = .error (.InvalidDagPb .overflow) → FlatUnixFs.tryParse32 block = .error (.InvalidDagPb .overflow)) ∧
    ((∃ n, FlatUnixFs.tryParse block = .error (.InvalidUnixFs .overflow n)) → ∃ n, FlatUnixFs.tryParse32 block = .error (.InvalidUnixFs .overflow n)) := by
  have hU : block.length < U32 := by have := u32_eq; omega
  constructor
  · intro h
    obtain ⟨before, ns, tb, lb, n, x, rfl, h1, h2, h3, h4⟩ := (C51_exact_partial block).1 h
    simp only [List.length_append] at hU
    exact (C110_panics_exact _ hb).2 (.inr ⟨before, ns, tb, lb, n, x, rfl, fields_narrow node_narrow h1 (by omega), h2, h3,
      overruns_narrow link_narrow h4 (by omega)⟩)
  · intro h
    obtain ⟨ns, d, h1, h2, h3, before, ds, tb, lb, n, x, rfl, h4, h5, h6, h7⟩ := (C51_exact_data_partial block).1 h
    have h1' : IsNode32 block ns := fields_narrow node_narrow h1 hU
    have hd := Nat.lt_of_le_of_lt (nodeData_le32 h1' h2) hU
    simp only [List.length_append] at hd
    exact (C110_panics_data _ hb).2 ⟨ns, _, h1', h2, h3, .inr ⟨before, ds, tb, lb, n, x, rfl, fields_narrow data_narrow h4 (by omega), h5, h6,
      overruns_narrow time_narrow h7 (by omega)⟩⟩

/-- All four kinds: data, the hash in a link, the data in the data, and the time of C51 (which panics on every platform); and a block which does
not panic. -/
theorem C110_exact_example : NodeBeyond [0x0a, 0xff, 0xff, 0xff, 0xff, 0x0f] ∧ NodeOverrun32 [0x12, 0x06, 0x0a, 0xff, 0xff, 0xff, 0xff, 0x0f] ∧
    (∃ ns d, IsNode32 [0x0a, 0x06, 0x12, 0xff, 0xff, 0xff, 0xff, 0x0f] ns ∧ nodeData ns = some d ∧ d ≠ [] ∧ (DataBeyond d ∨ DataOverrun32 d)) ∧
    (∃ ns d, IsNode32 [0x0a, 0x06, 0x42, 0x01, 0x08, 0x05, 0x12, 0x00] ns ∧ nodeData ns = some d ∧ d ≠ [] ∧ (DataBeyond d ∨ DataOverrun32 d)) ∧
    ¬ NodeBeyond [0x0a, 0xff, 0xff, 0xff, 0x7f] ∧ ¬ NodeOverrun32 [0x0a, 0xff, 0xff, 0xff, 0x7f] := by
  have isData : ∀ b : Bytes, (match FlatUnixFs.tryParse32 b with | .error (.InvalidUnixFs .overflow _) => true | _ => false) = true →
      ∃ n, FlatUnixFs.tryParse32 b = .error (.InvalidUnixFs .overflow n) := by
    intro b h
    split at h
    · rename_i n hn; exact ⟨n, hn⟩
    · cases h
  have none : FlatUnixFs.tryParse32 [0x0a, 0xff, 0xff, 0xff, 0x7f] = .error (.InvalidDagPb .unexpectedEnd) := by decide +kernel
  have no := fun h => (C110_panics_exact [0x0a, 0xff, 0xff, 0xff, 0x7f] (by decide)).2 h
  rw [none] at no
  refine ⟨C110_panics_example.1, ?_, (C110_panics_data _ (by decide)).1 (isData _ (by decide +kernel)),
    (C110_panics_data _ (by decide)).1 (isData _ (by decide +kernel)), fun h => (nomatch no (.inl h)), fun h => (nomatch no (.inr h))⟩
  have h18 := num32_enc' (n := 18) (by decide)
  have e18 : encVarint 18 = [0x12] := by decide +kernel
  have h6 := num32_enc' (n := 6) (by decide)
  have e6 : encVarint 6 = [0x06] := by decide +kernel
  have h10 := num32_enc' (n := 10) (by decide)
  have e10 : encVarint 10 = [0x0a] := by decide +kernel
  have hbig := num32_enc' (n := 0xffffffff) (by decide)
  have ebig : encVarint 0xffffffff = [0xff, 0xff, 0xff, 0xff, 0x0f] := by decide +kernel
  rw [e18] at h18; rw [e6] at h6; rw [e10] at h10; rw [ebig] at hbig
  exact ⟨[], [], [0x12], [0x06], 6, [0x0a, 0xff, 0xff, 0xff, 0xff, 0x0f], rfl, .nil, h18, h6,
    Overruns32.beyond (tb := [0x0a]) (lb := [0xff, 0xff, 0xff, 0xff, 0x0f]) (rest := []) (by decide) h10 (by decide) hbig (by decide)⟩

end Verif.Props
