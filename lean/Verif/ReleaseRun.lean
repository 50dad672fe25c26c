import Verif.ReleaseParse
import Verif.Dir
/-
Visits, walkers and look-ups in the release profile on arbitrary blocks: as in `Release.lean` and `Dir.lean`, but with blocks read as
in `ReleaseParse.lean`. The suffix `P` means that the block has been parsed, the suffix `Rel` that it is parsed as a release build does:
`none` if that never ends.
-/
namespace Verif

/-- `FileReader::from_block` after parsing, `src/file/reader.rs:75-79`. -/
def FileReader.fromBlockP : Except ParsingFailed FlatUnixFs → Res FileReadFailed FileReader
  | .error e => .err (.ofParsing e)
  | .ok inner => FileReader.fromPartsR inner 0 (Metadata.ofUnixFs inner.data)

/-- `FileReader::from_continued` after parsing, `src/file/reader.rs:87-100`. -/
def FileReader.fromContinuedP (traversal : Traversal) (offset : Nat) : Except ParsingFailed FlatUnixFs → Res FileReadFailed FileReader
  | .error e => .err (.ofParsing e)
  | .ok inner =>
    if inner.data.mode.isSome ∨ inner.data.mtime.isSome then
      .err (.File (.NonRootDefinesMetadata (Metadata.ofUnixFs inner.data)))
    else FileReader.fromPartsR inner offset traversal.metadata

/-- `IdleFileVisit::start` after parsing, `src/file/visit.rs:32-35`. -/
def IdleFileVisit.startP (self : IdleFileVisit) (parsed : Except ParsingFailed FlatUnixFs) : Res FileReadFailed FileVisitResult :=
  do let fr ← FileReader.fromBlockP parsed
     (self.startFromReaderR fr none).1

/-- `IdleFileVisit::start`, `src/file/visit.rs:32-35`. -/
def IdleFileVisit.startRel (self : IdleFileVisit) (block : Bytes) : Option (Res FileReadFailed FileVisitResult) :=
  (FlatUnixFs.tryParseR block).map self.startP

/-- `FileVisit::continue_walk` with the interval of the block, after it has been made a reader, `src/file/visit.rs:157-196`. -/
def FileVisit.continueWith (self : FileVisit) (range : Rng) (fr : Res FileReadFailed FileReader) (cache : Option VisitCache) :
    Res FileReadFailed (Bytes × Option FileVisit) × Option VisitCache :=
  let pending := self.pending.dropLast
  match fr with
  | .err e => (.err e, cache)
  | .panic p => (.panic p, cache)
  | .ok fr =>
    match fr.content with
    | (.Bytes content, traversal) =>
      match maybeTargetSliceR content range self.range with
      | .err e => (.err e, cache)
      | .panic p => (.panic p, cache)
      | .ok content =>
        if pending ≠ [] then (.ok (content, some (.mk pending self.range traversal)), cache)
        else (.ok (content, none), some (.ofVec pending))
    | (.Links base zipped, traversal) =>
      match collectLinksR self.range 0 base zipped with
      | .err e => (.err e, cache)
      | .panic p => (.panic p, cache)
      | .ok ps => (.ok ([], some (.mk (pending ++ ps.reverse) self.range traversal)), cache)

/-- `FileVisit::continue_walk`, `src/file/visit.rs:152-196`, with `Traversal::continue_walk`, `src/file/reader.rs:204-212`: the block is
parsed only if there is an interval for it, which follows the last one. -/
def FileVisit.continueWalkRel (self : FileVisit) (next : Bytes) (cache : Option VisitCache) :
    Option (Res FileReadFailed (Bytes × Option FileVisit) × Option VisitCache) :=
  match self.pending.getLast? with
  | none => some (.panic .visitNoNext, cache)
  | some (_, range) =>
    match self.state.last_ending.checkIsSuitableNext self.state.last_offset range with
    | .error e => some (.err (.File e), cache)
    | .ok () => (FlatUnixFs.tryParseR next).map (fun x => self.continueWith range (FileReader.fromContinuedP self.state range.lo x) cache)

/-- The branch of `Walker::next` for an ongoing file visit after the visit, `src/walk.rs:137-155`. -/
def Walker.nextFileP (self : Walker) (ie : InnerEntry) (sz : Nat) :
    Res FileReadFailed (Bytes × Option FileVisit) × Option VisitCache → WalkStep
  | (.panic p, cache) => (.panic p, self, cache)
  | (.err e, cache) =>
    (WalkError.ofFileReadFailed e,
      { self with current := some { ie with kind := .File none sz }, should_continue := false }, cache)
  | (.ok (content, step), cache) =>
    let file_continues := step.isSome
    (.ok (.File (.later content (!file_continues)) ie.cid ie.path ie.metadata sz),
      { self with current := some { ie with kind := .File step sz }, should_continue := file_continues || self.next.isSome },
      cache)

/-- `Walker::next` when there is no ongoing file visit, after parsing, `src/walk.rs:157-304`. -/
def Walker.nextBlockP (self : Walker) (cache : Option VisitCache) (parsed : Except ParsingFailed FlatUnixFs) : WalkStep :=
  let stopped := { self with should_continue := false }
  match parsed with
  | .error e => (.err (.ofParsing e), stopped, cache)
  | .ok flat =>
    let metadata := Metadata.ofUnixFs flat.data
    match flat.data.Ty with
    | .Directory =>
      match checkDirectorySupported flat with
      | .error e => (.err (.UnsupportedDirectory e), stopped, cache)
      | .ok flat =>
        self.nextDir flat.links (fun depth nth l => convertLink (depth + 1) nth l) (self.enterDirectoryR metadata) cache
    | .HAMTShard =>
      match checkHamtshardSupported flat with
      | .panic p => (.panic p, self, cache)
      | .err e => (.err (.UnsupportedHAMTShard e), stopped, cache)
      | .ok flat =>
        self.nextDir flat.links (fun depth nth l => convertShardedLink (depth + 1) depth nth l) (self.enterShardR metadata) cache
    | .Raw | .File => self.nextFirstR flat cache
    | .Metadata => (.err (.UnsupportedType flat.data.Ty), stopped, cache)
    | .Symlink => self.nextSymlinkR flat metadata cache

/-- `Walker::next`, `src/walk.rs:121-305`. -/
def Walker.stepRel (self : Walker) (bytes : Bytes) (cache : Option VisitCache) : Option WalkStep :=
  match self.current with
  | some ⟨cid, .File (some visit) sz, path, metadata, depth⟩ =>
    (visit.continueWalkRel bytes cache).map (self.nextFileP ⟨cid, .File (some visit) sz, path, metadata, depth⟩ sz)
  | _ => (FlatUnixFs.tryParseR bytes).map (self.nextBlockP cache)

/-- `ShardedLookup::continue_walk` after parsing, `src/dir/sharded_lookup.rs:62-99`. -/
def ShardedLookup.continueP (self : ShardedLookup) (queue : List Cid) (cache : Option LookupCache) :
    Except ParsingFailed FlatUnixFs → Res LookupError MaybeResolved × Option LookupCache
  | .error (.InvalidDagPb e) => (.err (.Read (some e)), some (.ofQueue queue))
  | .error (.InvalidUnixFs e _) => (.err (.Read (some e)), some (.ofQueue queue))
  | .error (.NoData _) => (.err (.Read none), some (.ofQueue queue))
  | .ok hamt =>
    if hamt.data.Ty ≠ .HAMTShard then (.err (.UnexpectedBucketType hamt.data.Ty), cache)
    else
      match checkShardSupported hamt with
      | .panic p => (.panic p, cache)
      | .err e => (.err (.Shard e), cache)
      | .ok () => ShardedLookup.finishStep self.needle hamt.links queue cache

/-- `ShardedLookup::continue_walk`, `src/dir/sharded_lookup.rs:57-99`. (The `debug_assert!` at `:63` only fails if
the `expect` after it does.) -/
def ShardedLookup.continueWalkRel (self : ShardedLookup) (next : Bytes) (cache : Option LookupCache) :
    Option (Res LookupError MaybeResolved × Option LookupCache) :=
  match self.links with
  | [] => some (.panic .shardNoLinks, cache)
  | _ :: queue => (FlatUnixFs.tryParseR next).map (self.continueP queue cache)

/-- `resolve` after parsing, `src/dir.rs:42-77`. -/
def resolveP (needle : Bytes) (cache : Option LookupCache) :
    Except ParsingFailed FlatUnixFs → Res ResolveError MaybeResolved × Option LookupCache
  | .ok flat =>
    match flat.data.Ty with
    | .HAMTShard =>
      let (r, cache) := ShardedLookup.lookupOrStart flat needle cache
      (r.mapErr .Lookup, cache)
    | .Directory =>
      match checkDirectorySupported flat with
      | .error e => (.err (.UnexpectedDirProperties e), cache)
      | .ok flat => (resolveInLinks flat.links needle, cache)
    | t => (.err (.UnexpectedType t), cache)
  | .error (.InvalidUnixFs _ node) => (resolveInLinks node.Links needle, cache)
  | .error (.NoData node) => (resolveInLinks node.Links needle, cache)
  | .error (.InvalidDagPb e) => (.err (.Read e), cache)

/-- `resolve`, `src/dir.rs:36-77`. -/
def resolveRel (block : Bytes) (needle : Bytes) (cache : Option LookupCache) :
    Option (Res ResolveError MaybeResolved × Option LookupCache) :=
  (FlatUnixFs.tryParseR block).map (resolveP needle cache)

end Verif
