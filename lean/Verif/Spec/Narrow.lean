import Verif.Spec.Loose
import Verif.Narrow
/-
What a platform with 32 bits takes for a sequence of fields: as `Spec/Loose.lean`, but the lengths of unknown fields are cut to 32 bits, as all
other lengths are on every platform.
-/
namespace Verif.Spec
open Verif

/-- The payload of an unknown field. -/
inductive UnkPayload.Enc32 : UnkPayload → Bytes → Prop
  | varint {n b} : Num64 b n → Enc32 (.varint n) b
  | fixed64 {b} : b.length = 8 → Enc32 (.fixed64 b) b
  | bytes {b lb} : Num32 lb b.length → Enc32 (.bytes b) (lb ++ b)
  | fixed32 {b} : b.length = 4 → Enc32 (.fixed32 b) b

/-- An unknown field: its tag is none of the known ones. -/
def Unk.Enc32 (known : List Nat) (u : Unk) (b : Bytes) : Prop :=
  u.tag ∉ known ∧ ∃ tb pb, b = tb ++ pb ∧ Num32 tb u.tag ∧ u.payload.Enc32 pb

def LinkField.Enc32 : LinkField → Bytes → Prop
  | .unk u, b => u.Enc32 [10, 18, 24] b
  | f, b => f.Enc b

def NodeField.Enc32 : NodeField → Bytes → Prop
  | .link fs, b => ∃ x, BytesField 18 x b ∧ Fields LinkField.Enc32 fs x
  | .unk u, b => u.Enc32 [18, 10] b
  | f, b => f.Enc b

def TimeField.Enc32 : TimeField → Bytes → Prop
  | .unk u, b => u.Enc32 [8, 21] b
  | f, b => f.Enc b

def DataField.Enc32 : DataField → Bytes → Prop
  | .mtime fs, b => ∃ x, BytesField 66 x b ∧ Fields TimeField.Enc32 fs x
  | .unk u, b => u.Enc32 [8, 18, 24, 32, 40, 48, 56, 66] b
  | f, b => f.Enc b

/-- The block is a dag-pb node of these fields. -/
def IsNode32 (block : Bytes) (ns : List NodeField) : Prop := Fields NodeField.Enc32 ns block
/-- The bytes are a UnixFS message of these fields. -/
def IsUnixFs32 (b : Bytes) (ds : List DataField) : Prop := Fields DataField.Enc32 ds b

/-! ### lengths which are cut -/

/-- An unknown field of which the length as written is not the length it is taken to have. -/
def Unk.Cut (u : Unk) (b : Bytes) : Prop :=
  ∃ tb lb x k, u.payload = .bytes x ∧ b = tb ++ (lb ++ x) ∧ Num32 tb u.tag ∧ Num64 lb k ∧ U32 ≤ k ∧ k % U32 = x.length

/-- Some field of a message is cut. -/
def SomeCut {F : Type} (E Cut : F → Bytes → Prop) (b : Bytes) : Prop :=
  ∃ before f x after fs gs, b = before ++ (x ++ after) ∧ Fields E fs before ∧ E f x ∧ Cut f x ∧ Fields E gs after

def LinkField.Cut (f : LinkField) (b : Bytes) : Prop := ∃ u, f = .unk u ∧ u.Cut b
def TimeField.Cut (f : TimeField) (b : Bytes) : Prop := ∃ u, f = .unk u ∧ u.Cut b
/-- A field of a node: itself, or in the link it is. -/
def NodeField.Cut (f : NodeField) (b : Bytes) : Prop :=
  (∃ u, f = .unk u ∧ u.Cut b) ∨ ∃ fs x, f = .link fs ∧ BytesField 18 x b ∧ SomeCut LinkField.Enc32 LinkField.Cut x
/-- A field of a UnixFS message: itself, or in the modification time it is. -/
def DataField.Cut (f : DataField) (b : Bytes) : Prop :=
  (∃ u, f = .unk u ∧ u.Cut b) ∨ ∃ fs x, f = .mtime fs ∧ BytesField 66 x b ∧ SomeCut TimeField.Enc32 TimeField.Cut x

/-- A length of the block, or of the data in it, is cut. -/
def BlockCut (block : Bytes) : Prop :=
  SomeCut NodeField.Enc32 NodeField.Cut block ∨
    ∃ ns d, IsNode32 block ns ∧ nodeData ns = some d ∧ SomeCut DataField.Enc32 DataField.Cut d

/-- A node begins with proper fields, and then comes data or a link of which the end has no position in 32 bits. -/
def NodeBeyond (block : Bytes) : Prop :=
  ∃ before ns tag tb lb n x, block = before ++ (tb ++ (lb ++ x)) ∧ IsNode32 before ns ∧ Num32 tb tag ∧ (tag = 10 ∨ tag = 18) ∧ Num32 lb n ∧
    U32 ≤ before.length + tb.length + lb.length + n

end Verif.Spec
