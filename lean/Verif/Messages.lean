import Verif.Pb
/-
Model of `/repo/src/pb/merkledag.rs`, `/repo/src/pb/unixfs.rs` and the message part of `/repo/src/pb.rs`.
-/
namespace Verif

/-- `src/pb/merkledag.rs:19-23` (`Cow`s as owned values). -/
structure PBLink where
  Hash : Option Bytes := none
  Name : Option Bytes := none
  Tsize : Option Nat := none
  deriving DecidableEq, Repr

/-- `src/pb/merkledag.rs:64-67`. `Data` keeps the offset of the borrowed slice. -/
structure PBNode where
  Links : List PBLink := []
  Data : Option Slice := none
  deriving DecidableEq, Repr

/-- `src/pb/unixfs.rs:111-118`. -/
inductive DataType where
  | Raw | Directory | File | Metadata | Symlink | HAMTShard
  deriving DecidableEq, Repr

/-- `src/pb/unixfs.rs:164-167`. -/
structure UnixTime where
  Seconds : Int := 0
  FractionalNanoseconds : Option Nat := none
  deriving DecidableEq, Repr

/-- `src/pb/unixfs.rs:20-29` (`Data`, re-exported as `UnixFs`; the field `Type` is called `Ty`). -/
structure UnixFs where
  Ty : DataType := .Raw
  Data : Option Bytes := none
  filesize : Option Nat := none
  blocksizes : List Nat := []
  hashType : Option Nat := none
  fanout : Option Nat := none
  mode : Option Nat := none
  mtime : Option UnixTime := none
  deriving DecidableEq, Repr

/-- `src/pb/unixfs.rs:199-201` (`unixfs::Metadata`; not used elsewhere in the crate). -/
structure MimeMetadata where
  MimeType : Option Bytes := none
  deriving DecidableEq, Repr

/-- `src/pb.rs:87-90`. -/
structure FlatUnixFs where
  links : List PBLink := []
  data : UnixFs := {}
  deriving DecidableEq, Repr

/-- `src/pb.rs:20-24`. -/
inductive ParsingFailed where
  | InvalidDagPb (e : PbError)
  | NoData (node : PBNode)
  | InvalidUnixFs (e : PbError) (node : PBNode)
  deriving DecidableEq, Repr

/-! ### enum conversions -/

/-- `impl From<DataType> for i32`, `src/pb/unixfs.rs:150-161`; the same numbers are the discriminants used by
`as i32`/`as u64` in `unixfs.rs:55,84`. -/
def DataType.toNat : DataType → Nat
  | .Raw => 0 | .Directory => 1 | .File => 2 | .Metadata => 3 | .Symlink => 4 | .HAMTShard => 5

/-- `impl From<i32> for DataType`, `src/pb/unixfs.rs:124-136`, on the 32-bit pattern of the `i32`. -/
def DataType.ofI32 : Nat → DataType
  | 0 => .Raw | 1 => .Directory | 2 => .File | 3 => .Metadata | 4 => .Symlink | 5 => .HAMTShard
  | _ => .Raw

/-! ### readers -/

/-- One field of `PBLink::from_reader`, `src/pb/merkledag.rs:28-36`. -/
def PBLink.step (tag : Nat) (m : PBLink) (r : Reader) : Except PbError (PBLink × Reader) :=
  match tag with
  | 10 => do let (s, r) ← r.readBytes; .ok ({ m with Hash := some s.val }, r)
  | 18 => do let (s, r) ← r.readString; .ok ({ m with Name := some s }, r)
  | 24 => do let (n, r) ← r.readVarint64; .ok ({ m with Tsize := some n }, r)
  | t => do let r ← r.readUnknown t; .ok (m, r)

/-- One field of `PBNode::from_reader`, `src/pb/merkledag.rs:72-79`. -/
def PBNode.step (tag : Nat) (m : PBNode) (r : Reader) : Except PbError (PBNode × Reader) :=
  match tag with
  | 18 => do let (l, r) ← r.readMessage PBLink.step {}; .ok ({ m with Links := m.Links ++ [l] }, r)
  | 10 => do let (s, r) ← r.readBytes; .ok ({ m with Data := some s }, r)
  | t => do let r ← r.readUnknown t; .ok (m, r)

/-- One field of `UnixTime::from_reader`, `src/pb/unixfs.rs:172-179`. -/
def UnixTime.step (tag : Nat) (m : UnixTime) (r : Reader) : Except PbError (UnixTime × Reader) :=
  match tag with
  | 8 => do let (n, r) ← r.readVarint64; .ok ({ m with Seconds := u64AsI64 n }, r)
  | 21 => do let (n, r) ← r.readFixed32; .ok ({ m with FractionalNanoseconds := some n }, r)
  | t => do let r ← r.readUnknown t; .ok (m, r)

/-- One field of `Data::from_reader`, `src/pb/unixfs.rs:34-47`. -/
def UnixFs.step (tag : Nat) (m : UnixFs) (r : Reader) : Except PbError (UnixFs × Reader) :=
  match tag with
  | 8 => do let (n, r) ← r.readVarint32; .ok ({ m with Ty := DataType.ofI32 n }, r)
  | 18 => do let (s, r) ← r.readBytes; .ok ({ m with Data := some s.val }, r)
  | 24 => do let (n, r) ← r.readVarint64; .ok ({ m with filesize := some n }, r)
  | 32 => do let (n, r) ← r.readVarint64; .ok ({ m with blocksizes := m.blocksizes ++ [n] }, r)
  | 40 => do let (n, r) ← r.readVarint64; .ok ({ m with hashType := some n }, r)
  | 48 => do let (n, r) ← r.readVarint64; .ok ({ m with fanout := some n }, r)
  | 56 => do let (n, r) ← r.readVarint32; .ok ({ m with mode := some n }, r)
  | 66 => do let (t, r) ← r.readMessage UnixTime.step {}; .ok ({ m with mtime := some t }, r)
  | t => do let r ← r.readUnknown t; .ok (m, r)

/-- One field of `Metadata::from_reader`, `src/pb/unixfs.rs:206-212`. -/
def MimeMetadata.step (tag : Nat) (m : MimeMetadata) (r : Reader) : Except PbError (MimeMetadata × Reader) :=
  match tag with
  | 10 => do let (s, r) ← r.readString; .ok ({ m with MimeType := some s }, r)
  | t => do let r ← r.readUnknown t; .ok (m, r)

/-- `impl TryFrom<&[u8]> for PBNode`, `src/pb.rs:76-83`. -/
def PBNode.tryFrom (data : Bytes) : Except PbError PBNode := parseMessage PBNode.step {} data

/-- `impl TryFrom<Option<&[u8]>> for UnixFs`, `src/pb.rs:63-73`. -/
def UnixFs.tryFrom (data : Option Bytes) : Except PbError UnixFs := parseMessage UnixFs.step {} (data.getD [])

/-- `impl TryFrom<&PBNode> for UnixFs`, `src/pb.rs:54-60`. -/
def UnixFs.tryFromNode (node : PBNode) : Except PbError UnixFs := UnixFs.tryFrom (node.Data.map (·.val))

/-- `FlatUnixFs::try_parse` = `impl TryFrom<&[u8]> for FlatUnixFs`, `src/pb.rs:121-147`. `Cow::Owned` never occurs for
freshly read nodes, so `unreachable!()` at line 135 has no counterpart. -/
def FlatUnixFs.tryParse (data : Bytes) : Except ParsingFailed FlatUnixFs :=
  match PBNode.tryFrom data with
  | .error e => .error (.InvalidDagPb e)
  | .ok node =>
    match node.Data with
    | some s =>
      if s.val = [] then .error (.NoData node)
      else match UnixFs.tryFrom (some s.val) with
        | .ok d => .ok { links := node.Links, data := d }
        | .error e => .error (.InvalidUnixFs e node)
    | none => .error (.NoData node)

/-! ### sizes -/

/-- `m.map_or(0, f)` (`src/pb/merkledag.rs:24-102`, `src/pb/unixfs.rs:28-228`.) -/
def optSize {α : Type} (o : Option α) (f : α → Nat) : Nat := match o with | none => 0 | some a => f a

/-- `PBLink::get_size`, `src/pb/merkledag.rs:42-49`. -/
def PBLink.getSize (m : PBLink) : Nat :=
  optSize m.Hash (fun b => 1 + sizeofLen b.length)
  + optSize m.Name (fun b => 1 + sizeofLen b.length)
  + optSize m.Tsize (fun n => 1 + sizeofVarint n)

/-- `PBNode::get_size`, `src/pb/merkledag.rs:85-92`. -/
def PBNode.getSize (m : PBNode) : Nat :=
  (m.Links.map (fun l => 1 + sizeofLen l.getSize)).sum + optSize m.Data (fun s => 1 + sizeofLen s.val.length)

/-- `UnixTime::get_size`, `src/pb/unixfs.rs:185-189`. -/
def UnixTime.getSize (m : UnixTime) : Nat :=
  1 + sizeofVarint (i64AsU64 m.Seconds) + optSize m.FractionalNanoseconds (fun _ => 1 + 4)

/-- `Data::get_size`, `src/pb/unixfs.rs:53-82`. -/
def UnixFs.getSize (m : UnixFs) : Nat :=
  1 + sizeofVarint m.Ty.toNat
  + optSize m.Data (fun b => 1 + sizeofLen b.length)
  + optSize m.filesize (fun n => 1 + sizeofVarint n)
  + (m.blocksizes.map (fun n => 1 + sizeofVarint n)).sum
  + optSize m.hashType (fun n => 1 + sizeofVarint n)
  + optSize m.fanout (fun n => 1 + sizeofVarint n)
  + optSize m.mode (fun n => 1 + sizeofVarint n)
  + optSize m.mtime (fun t => 1 + sizeofLen t.getSize)

/-- `Metadata::get_size`, `src/pb/unixfs.rs:218-223`. -/
def MimeMetadata.getSize (m : MimeMetadata) : Nat := optSize m.MimeType (fun b => 1 + sizeofLen b.length)

/-- `FlatUnixFs::get_size`, `src/pb.rs:93-104`. -/
def FlatUnixFs.getSize (m : FlatUnixFs) : Nat :=
  (m.links.map (fun l => 1 + sizeofLen l.getSize)).sum + (1 + sizeofLen m.data.getSize)

/-! ### writers: the bytes appended to the output -/

/-- `if let Some(ref s) = x { .. }` (`src/pb/merkledag.rs:24-102`, `src/pb/unixfs.rs:28-228`.) -/
def wOpt {α : Type} (o : Option α) (f : α → Bytes) : Bytes := match o with | none => [] | some a => f a

/-- `PBLink::write_message`, `src/pb/merkledag.rs:50-61`. -/
def PBLink.write (m : PBLink) : Bytes :=
  wOpt m.Hash (fun b => wTag 10 (wBytes b))
  ++ wOpt m.Name (fun b => wTag 18 (wBytes b))
  ++ wOpt m.Tsize (fun n => wTag 24 (encVarint n))

/-- `PBNode::write_message`, `src/pb/merkledag.rs:93-101`. -/
def PBNode.write (m : PBNode) : Bytes :=
  m.Links.flatMap (fun l => wTag 18 (wMessage l.getSize l.write))
  ++ wOpt m.Data (fun s => wTag 10 (wBytes s.val))

/-- `UnixTime::write_message`, `src/pb/unixfs.rs:190-196`. -/
def UnixTime.write (m : UnixTime) : Bytes :=
  wTag 8 (encVarint (i64AsU64 m.Seconds)) ++ wOpt m.FractionalNanoseconds (fun n => wTag 21 (wFixed32 n))

/-- `Data::write_message`, `src/pb/unixfs.rs:83-107`. -/
def UnixFs.write (m : UnixFs) : Bytes :=
  wTag 8 (encVarint m.Ty.toNat)
  ++ wOpt m.Data (fun b => wTag 18 (wBytes b))
  ++ wOpt m.filesize (fun n => wTag 24 (encVarint n))
  ++ m.blocksizes.flatMap (fun n => wTag 32 (encVarint n))
  ++ wOpt m.hashType (fun n => wTag 40 (encVarint n))
  ++ wOpt m.fanout (fun n => wTag 48 (encVarint n))
  ++ wOpt m.mode (fun n => wTag 56 (encVarint n))
  ++ wOpt m.mtime (fun t => wTag 66 (wMessage t.getSize t.write))

/-- `Metadata::write_message`, `src/pb/unixfs.rs:224-229`. -/
def MimeMetadata.write (m : MimeMetadata) : Bytes := wOpt m.MimeType (fun b => wTag 10 (wBytes b))

/-- `FlatUnixFs::write_message`, `src/pb.rs:106-118`. -/
def FlatUnixFs.write (m : FlatUnixFs) : Bytes :=
  m.links.flatMap (fun l => wTag 18 (wMessage l.getSize l.write))
  ++ wTag 10 (wMessage m.data.getSize m.data.write)

/-! ### values that fit the Rust types and the wire format's 32-bit lengths -/

/-- `∀ a, o = some a → p a`, decidable. (not part of `src/*.rs`; the types are in `src/pb/merkledag.rs:24-102`, `src/pb/unixfs.rs:28-228`.) -/
def optAll {α : Type} (o : Option α) (p : α → Prop) : Prop := ∀ a, o = some a → p a

instance {α : Type} (o : Option α) (p : α → Prop) [DecidablePred p] : Decidable (optAll o p) :=
  match o with
  | none => isTrue (by intro a h; cases h)
  | some a => if h : p a then isTrue (by intro b hb; cases hb; exact h) else isFalse (fun hh => h (hh a rfl))

/-- A `PBLink` value of the Rust type whose byte strings have lengths that the 32-bit length prefix can express;
names are `str`s, hence UTF-8. (not part of `src/*.rs`; the types are in `src/pb/merkledag.rs:24-102`, `src/pb/unixfs.rs:28-228`.) -/
def PBLink.Fits (m : PBLink) : Prop :=
  optAll m.Hash (fun b => b.length < U32)
  ∧ optAll m.Name (fun b => b.length < U32 ∧ validUtf8 b = true)
  ∧ optAll m.Tsize (fun n => n < U64)
  ∧ m.getSize < U32

/-- As `PBLink.Fits`, for `PBNode`. (not part of `src/*.rs`; the types are in `src/pb/merkledag.rs:24-102`, `src/pb/unixfs.rs:28-228`.) -/
def PBNode.Fits (m : PBNode) : Prop :=
  (∀ l ∈ m.Links, l.Fits) ∧ optAll m.Data (fun s => s.val.length < U32)

/-- As `PBLink.Fits`, for `UnixTime`: an `i64` and a `u32`.
(not part of `src/*.rs`; the types are in `src/pb/merkledag.rs:24-102`, `src/pb/unixfs.rs:28-228`.) -/
def UnixTime.Fits (m : UnixTime) : Prop :=
  (-(2 ^ 63 : Int) ≤ m.Seconds ∧ m.Seconds < (2 ^ 63 : Int)) ∧ optAll m.FractionalNanoseconds (fun n => n < U32)

/-- As `PBLink.Fits`, for `UnixFs`. (not part of `src/*.rs`; the types are in `src/pb/merkledag.rs:24-102`, `src/pb/unixfs.rs:28-228`.) -/
def UnixFs.Fits (m : UnixFs) : Prop :=
  optAll m.Data (fun b => b.length < U32)
  ∧ optAll m.filesize (fun n => n < U64)
  ∧ (∀ n ∈ m.blocksizes, n < U64)
  ∧ optAll m.hashType (fun n => n < U64)
  ∧ optAll m.fanout (fun n => n < U64)
  ∧ optAll m.mode (fun n => n < U32)
  ∧ optAll m.mtime (fun t => t.Fits)

/-- As `PBLink.Fits`, for `FlatUnixFs`: additionally the embedded UnixFS message is shorter than 2^32 bytes.
(not part of `src/*.rs`; the types are in `src/pb/merkledag.rs:24-102`, `src/pb/unixfs.rs:28-228`.) -/
def FlatUnixFs.Fits (m : FlatUnixFs) : Prop :=
  (∀ l ∈ m.links, l.Fits) ∧ m.data.Fits ∧ m.data.getSize < U32

instance (m : PBLink) : Decidable m.Fits := by unfold PBLink.Fits; infer_instance
instance (m : PBNode) : Decidable m.Fits := by unfold PBNode.Fits; infer_instance
instance (m : UnixTime) : Decidable m.Fits := by unfold UnixTime.Fits; infer_instance
instance (m : UnixFs) : Decidable m.Fits := by unfold UnixFs.Fits; infer_instance
instance (m : FlatUnixFs) : Decidable m.Fits := by unfold FlatUnixFs.Fits; infer_instance

end Verif
