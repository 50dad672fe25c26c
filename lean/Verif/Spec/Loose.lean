import Verif.Spec.Wire
import Verif.Spec.Text
/-
Specification of what counts as an encoding of a sequence of fields: as in `Spec/Wire.lean`, but with every encoding the
protobuf format leaves open. Numbers may be written with more bytes than needed (up to ten) and are cut to 32 or 64 bits.
-/
namespace Verif.Spec
open Verif

/-- Groups of seven bits, the least significant first; all bytes but the last have the top bit set. -/
inductive Groups : Bytes → Nat → Prop
  | last (x : UInt8) : x.toNat < 128 → Groups [x] x.toNat
  | more (x : UInt8) (b : Bytes) (v : Nat) : 128 ≤ x.toNat → Groups b v → Groups (x :: b) (x.toNat - 128 + 128 * v)

/-- A varint: at most ten bytes. -/
def IsVarint (b : Bytes) (v : Nat) : Prop := b.length ≤ 10 ∧ Groups b v

/-- A number of 32 bits (tags, lengths, modes, types). -/
def Num32 (b : Bytes) (n : Nat) : Prop := ∃ v, IsVarint b v ∧ v % U32 = n
/-- A number of 64 bits. -/
def Num64 (b : Bytes) (n : Nat) : Prop := ∃ v, IsVarint b v ∧ v % U64 = n

/-- A number of 32 bits as four bytes, the least significant first. -/
def Fixed32 (b : Bytes) (n : Nat) : Prop := ∃ p q r s : UInt8, b = [p, q, r, s] ∧
  p.toNat + 256 * q.toNat + 65536 * r.toNat + 16777216 * s.toNat = n

/-- A sequence of fields, one after the other. -/
inductive Fields {F : Type} (E : F → Bytes → Prop) : List F → Bytes → Prop
  | nil : Fields E [] []
  | cons {f fs b bs} : E f b → Fields E fs bs → Fields E (f :: fs) (b ++ bs)

/-- The payload of an unknown field. -/
inductive UnkPayload.Enc : UnkPayload → Bytes → Prop
  | varint {n b} : Num64 b n → Enc (.varint n) b
  | fixed64 {b} : b.length = 8 → Enc (.fixed64 b) b
  | bytes {b lb} : Num64 lb b.length → Enc (.bytes b) (lb ++ b)
  | fixed32 {b} : b.length = 4 → Enc (.fixed32 b) b

/-- An unknown field: its tag is none of the known ones. -/
def Unk.Enc (known : List Nat) (u : Unk) (b : Bytes) : Prop :=
  u.tag ∉ known ∧ ∃ tb pb, b = tb ++ pb ∧ Num32 tb u.tag ∧ u.payload.Enc pb

/-- A field whose payload is a number. -/
def NumField (tag : Nat) (Num : Bytes → Nat → Prop) (n : Nat) (b : Bytes) : Prop := ∃ tb nb, b = tb ++ nb ∧ Num32 tb tag ∧ Num nb n
/-- A field whose payload is bytes, after their number. -/
def BytesField (tag : Nat) (x : Bytes) (b : Bytes) : Prop := ∃ tb lb, b = tb ++ (lb ++ x) ∧ Num32 tb tag ∧ Num32 lb x.length

def LinkField.Enc : LinkField → Bytes → Prop
  | .hash x, b => BytesField 10 x b
  | .name x, b => BytesField 18 x b ∧ IsText x
  | .tsize n, b => NumField 24 Num64 n b
  | .unk u, b => u.Enc [10, 18, 24] b

def NodeField.Enc : NodeField → Bytes → Prop
  | .link fs, b => ∃ x, BytesField 18 x b ∧ Fields LinkField.Enc fs x
  | .data x, b => BytesField 10 x b
  | .unk u, b => u.Enc [18, 10] b

def TimeField.Enc : TimeField → Bytes → Prop
  | .seconds n, b => NumField 8 Num64 n b
  | .nanos n, b => NumField 21 Fixed32 n b
  | .unk u, b => u.Enc [8, 21] b

def DataField.Enc : DataField → Bytes → Prop
  | .type n, b => NumField 8 Num32 n b
  | .data x, b => BytesField 18 x b
  | .filesize n, b => NumField 24 Num64 n b
  | .blocksize n, b => NumField 32 Num64 n b
  | .hashType n, b => NumField 40 Num64 n b
  | .fanout n, b => NumField 48 Num64 n b
  | .mode n, b => NumField 56 Num32 n b
  | .mtime fs, b => ∃ x, BytesField 66 x b ∧ Fields TimeField.Enc fs x
  | .unk u, b => u.Enc [8, 18, 24, 32, 40, 48, 56, 66] b

/-- The block is a dag-pb node of these fields. -/
def IsNode (block : Bytes) (ns : List NodeField) : Prop := Fields NodeField.Enc ns block
/-- The bytes are a UnixFS message of these fields. -/
def IsUnixFs (b : Bytes) (ds : List DataField) : Prop := Fields DataField.Enc ds b

end Verif.Spec
