import Verif.DagPb
import Verif.Builder
import Verif.Walk
/-
Model of the accessors of `/repo/src/lib.rs` (`UnexpectedNodeType`, `Metadata`), of `NodeData` in `/repo/src/dagpb.rs`, of the
setters of `TreeOptions` in `/repo/src/dir/builder.rs` and of the remaining error conversions and error sources.
-/
namespace Verif

/-- `UnexpectedNodeType`, `src/lib.rs:94-96`; the 32-bit pattern of the `i32`. -/
structure UnexpectedNodeType where
  raw : Nat
  deriving DecidableEq, Repr

/-- `impl From<UnixFsType> for UnexpectedNodeType`, `src/lib.rs:110-114`. -/
def UnexpectedNodeType.of (t : DataType) : UnexpectedNodeType := ⟨t.toNat⟩

/-- `UnexpectedNodeType::is_directory`, `src/lib.rs:118-123`. -/
def UnexpectedNodeType.isDirectory (self : UnexpectedNodeType) : Bool :=
  match DataType.ofI32 self.raw with
  | .Directory | .HAMTShard => true
  | _ => false

/-- `UnexpectedNodeType::is_file`, `src/lib.rs:126-128`. -/
def UnexpectedNodeType.isFile (self : UnexpectedNodeType) : Bool :=
  match DataType.ofI32 self.raw with
  | .File => true
  | _ => false

/-- The derived `Debug` of `UnixFsType`, `src/pb/unixfs.rs:110-118`. -/
def DataType.debug : DataType → String
  | .Raw => "Raw" | .Directory => "Directory" | .File => "File" | .Metadata => "Metadata" | .Symlink => "Symlink"
  | .HAMTShard => "HAMTShard"

/-- `impl From<&str> for DataType`, `src/pb/unixfs.rs:137-149`. -/
def DataType.ofStr (s : String) : DataType :=
  if s = "Raw" then .Raw else if s = "Directory" then .Directory else if s = "File" then .File
  else if s = "Metadata" then .Metadata else if s = "Symlink" then .Symlink else if s = "HAMTShard" then .HAMTShard
  else .Raw

/-- `impl Debug for UnexpectedNodeType`, `src/lib.rs:98-108`. -/
def UnexpectedNodeType.debug (self : UnexpectedNodeType) : String :=
  let converted := DataType.ofI32 self.raw
  if converted = .Raw ∧ self.raw ≠ 0 then toString self.raw ++ " or <unknown>"
  else toString self.raw ++ " or " ++ converted.debug

/-- `Metadata::mode`, `src/lib.rs:149-151`. -/
def Metadata.getMode (self : Metadata) : Option Nat := self.mode
/-- `Metadata::mtime`, `src/lib.rs:158-160`. -/
def Metadata.getMtime (self : Metadata) : Option (Int × Nat) := self.mtime

/-- `NodeData::get_ref`, `src/dagpb.rs:87-89`, and `NodeData::into_inner`, `:92-94`. -/
def NodeData.intoInner (self : NodeData) : Bytes := self.inner

/-- `impl PartialEq<B> for NodeData`, `src/dagpb.rs:97-101`. -/
def NodeData.eq (self : NodeData) (other : Bytes) : Res Unit Bool := do
  let d ← self.get
  .ok (d == other)

/-- `TreeOptions::block_size_limit`, `src/dir/builder.rs:72-74`. -/
def TreeOptions.setBlockSizeLimit (self : TreeOptions) (limit : Option Nat) : TreeOptions := { self with block_size_limit := limit }

/-- `TreeOptions::wrap_with_directory`, `src/dir/builder.rs:78-80`. -/
def TreeOptions.setWrapWithDirectory (self : TreeOptions) : TreeOptions := { self with wrap_with_directory := true }

/-- `LookupError::into_resolve_error`, `src/dir/sharded_lookup.rs:284-287` (via `src/dir.rs:163-167`). -/
def LookupError.intoResolveError (self : LookupError) : ResolveError := .Lookup self

/-- What `Error::source` can be: a parsing error of `quick_protobuf`, or the link whose Cid is invalid.
(`src/file.rs:50-57`, `src/dir.rs:132-139`, `src/dir/sharded_lookup.rs:327-333`.) -/
inductive ErrorSource where
  | protobuf (e : PbError)
  | link (e : InvalidCidInLink)
  deriving DecidableEq, Repr

/-- `FileReadFailed::source`, `src/file.rs:49-57`. -/
def FileReadFailed.source : FileReadFailed → Option ErrorSource
  | .InvalidCid e => some (.link e)
  | .Read (some e) => some (.protobuf e)
  | _ => none

/-- `LookupError::source`, `src/dir/sharded_lookup.rs:326-333`. -/
def LookupError.source : LookupError → Option ErrorSource
  | .Read (some e) => some (.protobuf e)
  | _ => none

/-- `ResolveError::source`, `src/dir.rs:134-141`. -/
def ResolveError.source : ResolveError → Option ErrorSource
  | .Read e => some (.protobuf e)
  | .Lookup (.Read (some e)) => some (.protobuf e)
  | _ => none

end Verif
