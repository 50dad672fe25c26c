import Verif.ErrorText
/-
What `{:?}` prints of the errors, of the items of a walk and of the results of a lookup: derived and written `Debug` implementations.
A derived one prints the name of the variant or structure, then `(a, b)` or ` { x: a, y: b }`.
-/
namespace Verif

/-- What `{:?}` prints of the values of other crates, in addition: of `quick_protobuf::Error`, and `{}` of `Cid`. (`pb` is given the kind of
the error, which is all that is modelled of it.) (as `FmtEnv`; for the derived `Debug` in `src/file.rs`, `src/dir.rs`, `src/walk.rs`.) -/
structure DebugEnv extends FmtEnv where
  pbDebug : PbError → Text
  cidDisplay : Cid → Text

/-- `{:?}` of a `bool`. (std, used for the messages of `src/lib.rs:79-110`, `src/file.rs:35-47`, `src/dir.rs:119-129`, `src/walk.rs:710-726`.) -/
def boolText (b : Bool) : Text := if b then lit "true" else lit "false"

/-- `{:?}` of an `Option`. (std, used for the messages of `src/lib.rs:79-110`, `src/file.rs:35-47`, `src/dir.rs:119-129`, `src/walk.rs:710-726`.) -/
def someText {α : Type} (f : α → Text) : Option α → Text
  | none => lit "None"
  | some a => lit "Some(" ++ f a ++ lit ")"

/-- `{:?}` of a `Vec`. (std, used for the messages of `src/lib.rs:79-110`, `src/file.rs:35-47`, `src/dir.rs:119-129`, `src/walk.rs:710-726`.) -/
def listText {α : Type} (f : α → Text) (l : List α) : Text := lit "[" ++ commas (l.map f) ++ lit "]"

/-- The derived `Debug` of `PBLink`, `src/pb/merkledag.rs:18-23`. A `Cow` prints what it holds. -/
def PBLink.debugText (env : DebugEnv) (l : PBLink) : Text :=
  lit "PBLink { Hash: " ++ someText bytesText l.Hash ++ lit ", Name: " ++ someText env.str l.Name ++ lit ", Tsize: " ++ optText l.Tsize ++ lit " }"

/-- The derived `Debug` of `PBNode`, `src/pb/merkledag.rs:63-67`. -/
def PBNode.debugText (env : DebugEnv) (n : PBNode) : Text :=
  lit "PBNode { Links: " ++ listText (PBLink.debugText env) n.Links ++ lit ", Data: " ++ someText bytesText (n.Data.map (·.val)) ++ lit " }"

/-- The derived `Debug` of `ParsingFailed`, `src/pb.rs:19-24`. -/
def ParsingFailed.debugText (env : DebugEnv) : ParsingFailed → Text
  | .InvalidDagPb e => lit "InvalidDagPb(" ++ env.pbDebug e ++ lit ")"
  | .NoData n => lit "NoData(" ++ n.debugText env ++ lit ")"
  | .InvalidUnixFs e n => lit "InvalidUnixFs(" ++ env.pbDebug e ++ lit ", " ++ n.debugText env ++ lit ")"

/-- The derived `Debug` of `FileError`, `src/file.rs:72-104`. -/
def FileError.debugText : FileError → Text
  | .LinksAndBlocksizesMismatch => lit "LinksAndBlocksizesMismatch"
  | .NoLinksNoContent => lit "NoLinksNoContent"
  | .NonRootDefinesMetadata m => lit "NonRootDefinesMetadata(" ++ m.debugText ++ lit ")"
  | .IntermediateNodeWithoutFileSize => lit "IntermediateNodeWithoutFileSize"
  | .TreeExpandsOnLinks => lit "TreeExpandsOnLinks"
  | .TreeOverlapsBetweenLinks => lit "TreeOverlapsBetweenLinks"
  | .EarlierLink => lit "EarlierLink"
  | .TreeJumpsBetweenLinks => lit "TreeJumpsBetweenLinks"
  | .UnexpectedRawOrFileProperties hash_type fanout =>
    lit "UnexpectedRawOrFileProperties { hash_type: " ++ optText hash_type ++ lit ", fanout: " ++ optText fanout ++ lit " }"

/-- The derived `Debug` of `FileReadFailed`, `src/file.rs:21-33`. -/
def FileReadFailed.debugText (env : DebugEnv) : FileReadFailed → Text
  | .File e => lit "File(" ++ e.debugText ++ lit ")"
  | .UnexpectedType t => lit "UnexpectedType(" ++ typeText t ++ lit ")"
  | .Read e => lit "Read(" ++ someText env.pbDebug e ++ lit ")"
  | .InvalidCid e => lit "InvalidCid(" ++ e.debugText env.toFmtEnv ++ lit ")"

/-- The derived `Debug` of `UnexpectedDirectoryProperties`, `src/dir/directory.rs:29-41`. -/
def UnexpectedDirectoryProperties.debugText (e : UnexpectedDirectoryProperties) : Text :=
  lit "UnexpectedDirectoryProperties { filesize: " ++ optText e.filesize ++ lit ", blocksizes: " ++ listText numText e.blocksizes ++
    lit ", hash_type: " ++ optText e.hash_type ++ lit ", fanout: " ++ optText e.fanout ++ lit ", data: " ++ someText bytesText e.data ++ lit " }"

/-- The derived `Debug` of `ShardError`, `src/dir/sharded_lookup.rs:225-241`. -/
def ShardError.debugText : ShardError → Text
  | .UnsupportedProperties hash_type fanout =>
    lit "UnsupportedProperties { hash_type: " ++ optText hash_type ++ lit ", fanout: " ++ optText fanout ++ lit " }"
  | .UnexpectedProperties filesize blocksizes =>
    lit "UnexpectedProperties { filesize: " ++ optText filesize ++ lit ", blocksizes: " ++ listText numText blocksizes ++ lit " }"

/-- The derived `Debug` of `LookupError`, `src/dir/sharded_lookup.rs:268-280`. -/
def LookupError.debugText (env : DebugEnv) : LookupError → Text
  | .Multiple m => lit "Multiple(" ++ m.debugText env.toFmtEnv ++ lit ")"
  | .InvalidCid e => lit "InvalidCid(" ++ e.debugText env.toFmtEnv ++ lit ")"
  | .UnexpectedBucketType t => lit "UnexpectedBucketType(" ++ typeText t ++ lit ")"
  | .Shard e => lit "Shard(" ++ e.debugText ++ lit ")"
  | .Read e => lit "Read(" ++ someText env.pbDebug e ++ lit ")"

/-- The derived `Debug` of `ResolveError`, `src/dir.rs:99-111`. -/
def ResolveError.debugText (env : DebugEnv) : ResolveError → Text
  | .UnexpectedType t => lit "UnexpectedType(" ++ typeText t ++ lit ")"
  | .UnexpectedDirProperties e => lit "UnexpectedDirProperties(" ++ e.debugText ++ lit ")"
  | .Read e => lit "Read(" ++ env.pbDebug e ++ lit ")"
  | .Lookup e => lit "Lookup(" ++ e.debugText env ++ lit ")"

/-- The derived `Debug` of `Error`, `src/walk.rs:637-667`. -/
def WalkError.debugText (env : DebugEnv) : WalkError → Text
  | .UnsupportedType t => lit "UnsupportedType(" ++ typeText t ++ lit ")"
  | .UnexpectedType t => lit "UnexpectedType(" ++ typeText t ++ lit ")"
  | .DagPbParsingFailed e => lit "DagPbParsingFailed(" ++ env.pbDebug e ++ lit ")"
  | .UnixFsParsingFailed e => lit "UnixFsParsingFailed(" ++ env.pbDebug e ++ lit ")"
  | .EmptyDagPbNode => lit "EmptyDagPbNode"
  | .InvalidCid e => lit "InvalidCid(" ++ e.debugText env.toFmtEnv ++ lit ")"
  | .File e => lit "File(" ++ e.debugText ++ lit ")"
  | .UnsupportedDirectory e => lit "UnsupportedDirectory(" ++ e.debugText ++ lit ")"
  | .UnsupportedHAMTShard e => lit "UnsupportedHAMTShard(" ++ e.debugText ++ lit ")"

/-- The derived `Debug` of `TreeBuildingFailed`, `src/dir/builder.rs:85-100`. -/
def TreeBuildingFailed.debugText (env : DebugEnv) : TreeBuildingFailed → Text
  | .RootedPath s => lit "RootedPath(" ++ env.str s ++ lit ")"
  | .RepeatSlashesInPath s => lit "RepeatSlashesInPath(" ++ env.str s ++ lit ")"
  | .PathEndsInSlash s => lit "PathEndsInSlash(" ++ env.str s ++ lit ")"
  | .TooManyRootLevelEntries => lit "TooManyRootLevelEntries"
  | .DuplicatePath s => lit "DuplicatePath(" ++ env.str s ++ lit ")"
  | .LeafAsDirectory s => lit "LeafAsDirectory(" ++ env.str s ++ lit ")"

/-- The derived `Debug` of `TreeConstructionFailed`, `src/dir/builder.rs:128-135`. -/
def TreeConstructionFailed.debugText (env : DebugEnv) : TreeConstructionFailed → Text
  | .Protobuf => lit "Protobuf(" ++ env.pbDebug .outputBufferTooSmall ++ lit ")"
  | .TooLargeBlock size => lit "TooLargeBlock(" ++ numText size ++ lit ")"

/-! ### results -/

/-- The derived `Debug` of `FileSegment`, `src/walk.rs:585-590`. -/
def FileSegment.debugText (s : FileSegment) : Text :=
  lit "FileSegment { bytes: " ++ bytesText s.bytes ++ lit ", first_block: " ++ boolText s.first_block ++ lit ", last_block: " ++
    boolText s.last_block ++ lit " }"

/-- The derived `Debug` of `ContinuedWalk`, `src/walk.rs:554-569`. -/
def ContinuedWalk.debugText (env : DebugEnv) : ContinuedWalk → Text
  | .Bucket c p => lit "Bucket(" ++ env.cid c ++ lit ", " ++ env.path p.bytes ++ lit ")"
  | .Directory c p m => lit "Directory(" ++ env.cid c ++ lit ", " ++ env.path p.bytes ++ lit ", " ++ m.debugText ++ lit ")"
  | .File s c p m n => lit "File(" ++ s.debugText ++ lit ", " ++ env.cid c ++ lit ", " ++ env.path p.bytes ++ lit ", " ++ m.debugText ++
      lit ", " ++ numText n ++ lit ")"
  | .RootDirectory c p m => lit "RootDirectory(" ++ env.cid c ++ lit ", " ++ env.path p.bytes ++ lit ", " ++ m.debugText ++ lit ")"
  | .Symlink t c p m => lit "Symlink(" ++ bytesText t ++ lit ", " ++ env.cid c ++ lit ", " ++ env.path p.bytes ++ lit ", " ++ m.debugText ++ lit ")"

/-- `impl Debug for ShardedLookup`, `src/dir/sharded_lookup.rs:37-46`. -/
def ShardedLookup.debugText (env : DebugEnv) (l : ShardedLookup) : Text :=
  lit "ShardedLookup { links: " ++ numText l.links.length ++ lit ", needle: " ++ env.str l.needle ++ lit " }"

/-- The derived `Debug` of `MaybeResolved`, `src/dir.rs:85-95`. -/
def MaybeResolved.debugText (env : DebugEnv) : MaybeResolved → Text
  | .Found c => lit "Found(" ++ env.cid c ++ lit ")"
  | .NeedToLoadMore l => lit "NeedToLoadMore(" ++ l.debugText env ++ lit ")"
  | .NotFound => lit "NotFound"

/-- `impl Debug for TreeNode`, `src/dir/builder/iter.rs:325-334`. -/
def TreeNode.debugText (env : DebugEnv) (n : TreeNode) : Text :=
  lit "TreeNode { path: " ++ env.str n.path ++ lit ", cid: " ++ env.cidDisplay n.cid ++ lit ", total_size: " ++ numText n.total_size ++
    lit ", size: " ++ numText n.block.length ++ lit " }"

end Verif
