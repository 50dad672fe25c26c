import Verif.ErrorText
/-
The causes of the errors of the crate: the implementations of `std::error::Error`.
-/
namespace Verif

/-- A `&dyn std::error::Error` of this crate, or of the two crates whose errors are held in those of this one.
(`src/lib.rs:89-93`, `src/pb.rs:41-51`, `src/file.rs:49-58`, `src/dir.rs:131-140`, `src/dir/sharded_lookup.rs:326-334`.) -/
inductive AnyError where
  /-- `quick_protobuf::Error` -/
  | pb (e : PbError)
  /-- `libipld::cid::Error` -/
  | cid (e : CidError)
  | link (e : InvalidCidInLink)
  | file (e : FileError)
  | read (e : FileReadFailed)
  | parse (e : ParsingFailed)
  | shard (e : ShardError)
  | lookup (e : LookupError)
  | resolve (e : ResolveError)
  | walk (e : WalkError)
  | building (e : TreeBuildingFailed)
  | construction (e : TreeConstructionFailed)

/-- The errors which are sources of `FileReadFailed`, `LookupError` and `ResolveError` (`Access.lean`).
(`src/file.rs:50-57`, `src/dir.rs:132-139`, `src/dir/sharded_lookup.rs:327-333`.) -/
def ErrorSource.toAny : ErrorSource → AnyError
  | .protobuf e => .pb e
  | .link e => .link e

/-- `Error::source` of `ParsingFailed`, `src/pb.rs:41-51`. -/
def ParsingFailed.source : ParsingFailed → Option AnyError
  | .InvalidDagPb e => some (.pb e)
  | .InvalidUnixFs e _ => some (.pb e)
  | .NoData _ => none

/-- `Error::source`: `InvalidCidInLink` is `src/lib.rs:89-93`; the types without a `source` of their own have that of the trait, which is
`None` (`src/file.rs:140`, `src/dir/sharded_lookup.rs:265`, `src/walk.rs:728`, `src/dir/builder.rs:125,148`). The errors of other crates are
the ends of the chain here. -/
def AnyError.source : AnyError → Option AnyError
  | .pb _ | .cid _ | .file _ | .shard _ | .walk _ | .building _ | .construction _ => none
  | .link e => some (.cid e.source)
  | .read e => e.source.map ErrorSource.toAny
  | .parse e => e.source
  | .lookup e => e.source.map ErrorSource.toAny
  | .resolve e => e.source.map ErrorSource.toAny

/-- `{}` of an error. (`src/lib.rs:79-87`, `src/pb.rs:25-39`, `src/file.rs:35-47`, `src/dir.rs:119-129`.) -/
def AnyError.display (env : FmtEnv) : AnyError → Text
  | .pb e => env.pb e
  | .cid e => env.cidError e
  | .link e => e.display env
  | .file e => e.display
  | .read e => e.display env
  | .parse e => e.display env
  | .shard e => e.display
  | .lookup e => e.display env
  | .resolve e => e.display env
  | .walk e => e.display env
  | .building e => e.display env
  | .construction e => e.display env

end Verif
