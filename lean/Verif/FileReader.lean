import Verif.Messages
import Verif.Cid
/-
Model of `/repo/src/file/reader.rs`, of `RangeLinks` in `/repo/src/pb.rs`, of the error types of `/repo/src/file.rs` and of
`Metadata`, `InvalidCidInLink` in `/repo/src/lib.rs`.
-/
namespace Verif

/-- `core::ops::Range<u64>` (`start` is `lo`, `end` is `hi`). (e.g. `src/file/visit.rs:17`, `:127`.) -/
structure Rng where
  lo : Nat
  hi : Nat
  deriving DecidableEq, Repr

/-- `Metadata`, `src/lib.rs:133-137`. -/
structure Metadata where
  mode : Option Nat := none
  mtime : Option (Int × Nat) := none
  deriving DecidableEq, Repr

/-- `impl From<&UnixFs> for Metadata`, `src/lib.rs:169-179`. -/
def Metadata.ofUnixFs (d : UnixFs) : Metadata :=
  { mode := d.mode, mtime := d.mtime.map (fun t => (t.Seconds, t.FractionalNanoseconds.getD 0)) }

/-- `InvalidCidInLink`, `src/lib.rs:39-53`. -/
structure InvalidCidInLink where
  nth : Nat
  hash : Bytes
  name : Bytes
  source : CidError
  deriving DecidableEq, Repr

/-- `impl From<(usize, PBLink, cid::Error)> for InvalidCidInLink`, `src/lib.rs:55-77`. -/
def InvalidCidInLink.of (nth : Nat) (l : PBLink) (e : CidError) : InvalidCidInLink :=
  { nth := nth, hash := l.Hash.getD [], name := l.Name.getD [], source := e }

/-- `FileError`, `src/file.rs:72-104`. -/
inductive FileError where
  | LinksAndBlocksizesMismatch
  | NoLinksNoContent
  | NonRootDefinesMetadata (m : Metadata)
  | IntermediateNodeWithoutFileSize
  | TreeExpandsOnLinks
  | TreeOverlapsBetweenLinks
  | EarlierLink
  | TreeJumpsBetweenLinks
  | UnexpectedRawOrFileProperties (hash_type fanout : Option Nat)
  deriving DecidableEq, Repr

/-- `FileReadFailed`, `src/file.rs:21-33`. `UnexpectedNodeType(i32)` always comes from a `UnixFsType`
(`src/lib.rs:111-115`) and is represented by it. -/
inductive FileReadFailed where
  | File (e : FileError)
  | UnexpectedType (t : DataType)
  | Read (e : Option PbError)
  | InvalidCid (e : InvalidCidInLink)
  deriving DecidableEq, Repr

/-- `impl From<ParsingFailed> for FileReadFailed`, `src/file.rs:60-69`. -/
def FileReadFailed.ofParsing : ParsingFailed → FileReadFailed
  | .InvalidDagPb e => .Read (some e)
  | .InvalidUnixFs e _ => .Read (some e)
  | .NoData _ => .Read none

/-- `Ending`, `src/file/reader.rs:36-42`. -/
inductive Ending where
  | TreeCoverage (e : Nat)
  | Chunk (e : Nat)
  deriving DecidableEq, Repr

/-- `Ending::check_is_suitable_next`, `src/file/reader.rs:46-70`. -/
def Ending.checkIsSuitableNext (self : Ending) (offset : Nat) (next : Rng) : Except FileError Unit :=
  match self with
  | .TreeCoverage cover_end =>
    if next.lo ≤ offset ∧ next.hi > cover_end then .error .TreeExpandsOnLinks
    else if next.lo < cover_end ∧ next.hi > cover_end then .error .TreeOverlapsBetweenLinks
    else if next.lo < offset then .error .EarlierLink
    else .ok ()
  | .Chunk chunk_end => if next.lo ≠ chunk_end then .error .TreeJumpsBetweenLinks else .ok ()

/-- `FileReader`, `src/file/reader.rs:18-26`. -/
structure FileReader where
  offset : Nat
  ending : Ending
  links : List PBLink
  data : Bytes
  blocksizes : List Nat
  metadata : Metadata
  file_size : Nat
  deriving DecidableEq, Repr

/-- `Traversal`, `src/file/reader.rs:187-194`. -/
structure Traversal where
  last_ending : Ending
  last_offset : Nat
  file_size : Nat
  metadata : Metadata
  deriving DecidableEq, Repr

/-- Checked `u64` addition: overflow panics (the crate's dev and test profiles; in release builds it would wrap). (e.g. `src/pb.rs:191-193`.) -/
def add64 {ε : Type} (p : Panic) (a b : Nat) : Res ε Nat := if a + b < U64 then .ok (a + b) else .panic p

/-- The computation of `end`, `src/file/reader.rs:133-143`. -/
def FileReader.endOf (inner : FlatUnixFs) (offset : Nat) (data : Bytes) : Res FileReadFailed Ending :=
  if inner.links = [] then
    (add64 .readerOverflow offset (inner.data.filesize.getD data.length)).map .Chunk
  else
    match inner.data.filesize with
    | some filesize => (add64 .readerOverflow offset filesize).map .TreeCoverage
    | none => .err (.File .IntermediateNodeWithoutFileSize)

/-- `FileReader::from_parts`, `src/file/reader.rs:102-154`. -/
def FileReader.fromParts (inner : FlatUnixFs) (offset : Nat) (metadata : Metadata) : Res FileReadFailed FileReader :=
  let empty_or_no_content := inner.data.Data.getD [] = []
  let is_zero_bytes := inner.data.filesize.getD 0 = 0
  if inner.data.Ty ≠ .File ∧ inner.data.Ty ≠ .Raw then .err (.UnexpectedType inner.data.Ty)
  else if inner.links.length ≠ inner.data.blocksizes.length then .err (.File .LinksAndBlocksizesMismatch)
  else if empty_or_no_content ∧ ¬ is_zero_bytes ∧ inner.links = [] then .err (.File .NoLinksNoContent)
  else
    let data := inner.data.Data.getD []
    if inner.data.hashType.isSome ∨ inner.data.fanout.isSome then
      .err (.File (.UnexpectedRawOrFileProperties inner.data.hashType inner.data.fanout))
    else do
      let e ← FileReader.endOf inner offset data
      match inner.data.filesize with
      | none => .panic .readerFilesize
      | some fs => .ok (.mk offset e inner.links data inner.data.blocksizes metadata fs)

/-- `FileReader::from_parsed`, `src/file/reader.rs:81-84`. -/
def FileReader.fromParsed (inner : FlatUnixFs) : Res FileReadFailed FileReader :=
  FileReader.fromParts inner 0 (Metadata.ofUnixFs inner.data)

/-- `FileReader::from_block`, `src/file/reader.rs:75-79`. -/
def FileReader.fromBlock (data : Bytes) : Res FileReadFailed FileReader :=
  match FlatUnixFs.tryParse data with
  | .error e => .err (.ofParsing e)
  | .ok inner => FileReader.fromParts inner 0 (Metadata.ofUnixFs inner.data)

/-- `FileReader::from_continued`, `src/file/reader.rs:87-100`. -/
def FileReader.fromContinued (traversal : Traversal) (offset : Nat) (data : Bytes) : Res FileReadFailed FileReader :=
  match FlatUnixFs.tryParse data with
  | .error e => .err (.ofParsing e)
  | .ok inner =>
    if inner.data.mode.isSome ∨ inner.data.mtime.isSome then
      .err (.File (.NonRootDefinesMetadata (Metadata.ofUnixFs inner.data)))
    else FileReader.fromParts inner offset traversal.metadata

/-- `FileContent`, `src/file/reader.rs:228-239`. The lazy `RangeLinks` iterator is represented by its starting offset and
the zipped links and block sizes; it is run by `collectLinks` of `Verif.Visit`. -/
inductive FileContent where
  | Bytes (b : Bytes)
  | Links (base : Nat) (zipped : List (PBLink × Nat))
  deriving DecidableEq, Repr

/-- `FileReader::content`, `src/file/reader.rs:158-183`. -/
def FileReader.content (self : FileReader) : FileContent × Traversal :=
  let traversal : Traversal := .mk self.ending self.offset self.file_size self.metadata
  if self.links = [] then (.Bytes self.data, traversal)
  else (.Links self.offset (self.links.zip self.blocksizes), traversal)

/-- `Traversal::continue_walk`, `src/file/reader.rs:204-212`. -/
def Traversal.continueWalk (self : Traversal) (next_block : Bytes) (tree_range : Rng) : Res FileReadFailed FileReader :=
  match self.last_ending.checkIsSuitableNext self.last_offset tree_range with
  | .error e => .err (.File e)
  | .ok () => FileReader.fromContinued self tree_range.lo next_block

end Verif
