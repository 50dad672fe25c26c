import Verif.Messages
/-
Specification of the protobuf wire format of dag-pb nodes and UnixFS data as *sequences of fields*, independent of
the readers and the writers of the model: a block is the concatenation of the encodings of its fields, and its meaning
is obtained by applying the fields one after the other ("last one wins" for optional fields, appending for repeated
ones, unknown fields ignored).
-/
namespace Verif.Spec
open Verif

/-- The payload of a field this crate does not know, for the four wire types protobuf still has. -/
inductive UnkPayload where
  | varint (n : Nat)
  | fixed64 (b : Bytes)
  | bytes (b : Bytes)
  | fixed32 (b : Bytes)

/-- An unknown field: number and payload. -/
structure Unk where
  num : Nat
  payload : UnkPayload

/-- The tag: field number and wire type. -/
def Unk.tag (u : Unk) : Nat :=
  u.num * 8 + match u.payload with
    | .varint _ => 0 | .fixed64 _ => 1 | .bytes _ => 2 | .fixed32 _ => 5

def Unk.enc (u : Unk) : Bytes :=
  encVarint u.tag ++ match u.payload with
    | .varint n => encVarint n
    | .fixed64 b => b
    | .bytes b => encVarint b.length ++ b
    | .fixed32 b => b

/-- Well-formed, and not one of the `known` tags. -/
def Unk.WF (known : List Nat) (u : Unk) : Prop :=
  u.tag < U32 ∧ u.tag ∉ known ∧ match u.payload with
    | .varint n => n < U64
    | .fixed64 b => b.length = 8
    | .bytes b => b.length < U64
    | .fixed32 b => b.length = 4

/-- Fields of a dag-pb link. -/
inductive LinkField where
  | hash (b : Bytes)
  | name (b : Bytes)
  | tsize (n : Nat)
  | unk (u : Unk)

def LinkField.enc : LinkField → Bytes
  | .hash b => encVarint 10 ++ (encVarint b.length ++ b)
  | .name b => encVarint 18 ++ (encVarint b.length ++ b)
  | .tsize n => encVarint 24 ++ encVarint n
  | .unk u => u.enc

def LinkField.WF : LinkField → Prop
  | .hash b => b.length < U32
  | .name b => b.length < U32 ∧ validUtf8 b = true
  | .tsize n => n < U64
  | .unk u => u.WF [10, 18, 24]

def LinkField.apply (m : PBLink) : LinkField → PBLink
  | .hash b => { m with Hash := some b }
  | .name b => { m with Name := some b }
  | .tsize n => { m with Tsize := some n }
  | .unk _ => m

/-- The link described by a sequence of fields. -/
def linkOf (fs : List LinkField) : PBLink := fs.foldl LinkField.apply {}

/-- Fields of a dag-pb node. -/
inductive NodeField where
  | link (fs : List LinkField)
  | data (b : Bytes)
  | unk (u : Unk)

def NodeField.enc : NodeField → Bytes
  | .link fs => encVarint 18 ++ (encVarint (fs.flatMap LinkField.enc).length ++ fs.flatMap LinkField.enc)
  | .data b => encVarint 10 ++ (encVarint b.length ++ b)
  | .unk u => u.enc

def NodeField.WF : NodeField → Prop
  | .link fs => (∀ f ∈ fs, f.WF) ∧ (fs.flatMap LinkField.enc).length < U32
  | .data b => b.length < U32
  | .unk u => u.WF [18, 10]

/-- The links of a node, in order. -/
def nodeLinks (fs : List NodeField) : List PBLink :=
  fs.filterMap (fun f => match f with | .link l => some (linkOf l) | _ => none)

/-- The data of a node: the last data field. -/
def nodeData (fs : List NodeField) : Option Bytes :=
  (fs.filterMap (fun f => match f with | .data b => some b | _ => none)).getLast?

/-- Fields of a UnixFS timestamp. -/
inductive TimeField where
  | seconds (n : Nat)
  | nanos (n : Nat)
  | unk (u : Unk)

def TimeField.enc : TimeField → Bytes
  | .seconds n => encVarint 8 ++ encVarint n
  | .nanos n => encVarint 21 ++ wFixed32 n
  | .unk u => u.enc

def TimeField.WF : TimeField → Prop
  | .seconds n => n < U64
  | .nanos n => n < U32
  | .unk u => u.WF [8, 21]

def TimeField.apply (m : UnixTime) : TimeField → UnixTime
  | .seconds n => { m with Seconds := u64AsI64 n }
  | .nanos n => { m with FractionalNanoseconds := some n }
  | .unk _ => m

/-- Fields of a UnixFS message. -/
inductive DataField where
  | type (n : Nat)
  | data (b : Bytes)
  | filesize (n : Nat)
  | blocksize (n : Nat)
  | hashType (n : Nat)
  | fanout (n : Nat)
  | mode (n : Nat)
  | mtime (fs : List TimeField)
  | unk (u : Unk)

def DataField.enc : DataField → Bytes
  | .type n => encVarint 8 ++ encVarint n
  | .data b => encVarint 18 ++ (encVarint b.length ++ b)
  | .filesize n => encVarint 24 ++ encVarint n
  | .blocksize n => encVarint 32 ++ encVarint n
  | .hashType n => encVarint 40 ++ encVarint n
  | .fanout n => encVarint 48 ++ encVarint n
  | .mode n => encVarint 56 ++ encVarint n
  | .mtime fs => encVarint 66 ++ (encVarint (fs.flatMap TimeField.enc).length ++ fs.flatMap TimeField.enc)
  | .unk u => u.enc

def DataField.WF : DataField → Prop
  | .type n => n < U64
  | .data b => b.length < U32
  | .filesize n => n < U64
  | .blocksize n => n < U64
  | .hashType n => n < U64
  | .fanout n => n < U64
  | .mode n => n < U64
  | .mtime fs => (∀ f ∈ fs, f.WF) ∧ (fs.flatMap TimeField.enc).length < U32
  | .unk u => u.WF [8, 18, 24, 32, 40, 48, 56, 66]

/-- The node type a number stands for; 32-bit truncation as protobuf enums are `int32`, undefined numbers are read as
`Raw` by this crate. -/
def typeOf (n : Nat) : DataType :=
  if n % U32 = 1 then .Directory
  else if n % U32 = 2 then .File
  else if n % U32 = 3 then .Metadata
  else if n % U32 = 4 then .Symlink
  else if n % U32 = 5 then .HAMTShard
  else .Raw

def DataField.apply (m : UnixFs) : DataField → UnixFs
  | .type n => { m with Ty := typeOf n }
  | .data b => { m with Data := some b }
  | .filesize n => { m with filesize := some n }
  | .blocksize n => { m with blocksizes := m.blocksizes ++ [n] }
  | .hashType n => { m with hashType := some n }
  | .fanout n => { m with fanout := some n }
  | .mode n => { m with mode := some (n % U32) }
  | .mtime fs => { m with mtime := some (fs.foldl TimeField.apply {}) }
  | .unk _ => m

/-- The UnixFS message described by a sequence of fields. -/
def unixFsOf (fs : List DataField) : UnixFs := fs.foldl DataField.apply {}

end Verif.Spec
