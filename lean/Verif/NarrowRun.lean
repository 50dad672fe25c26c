import Verif.Narrow
import Verif.Walk
/-
Visits, walkers and look-ups on platforms with 32 bits: blocks are read as in `Narrow.lean`, and the offsets of a target range are cut
(`as usize`). All else is as in `FileReader.lean`, `Visit.lean`, `Walk.lean` and `Dir.lean`. (Sizes and offsets of files are `u64` on every
platform; `src/file/visit.rs` and the parser are the only places where a `u64` is made a `usize`. Adding files and building trees go the
other way.)
-/
namespace Verif

/-- `target_slice`, `src/file/visit.rs:251-278`: `as usize` cuts to 32 bits; `start + ..` may overflow. -/
def targetSlice32 {ε : Type} (content : Bytes) (block target : Rng) : Res ε Bytes :=
  if blockIsInTargetRange block (some target) = false then .ok []
  else if target.lo < block.lo then do
    let stop ← sub64 (min target.hi block.hi) block.lo
    sliceChecked content 0 (stop % U32)
  else if target.hi > block.hi then do
    let start ← sub64 target.lo block.lo
    let stop ← sub64 (min target.hi block.hi) block.lo
    sliceChecked content (start % U32) (stop % U32)
  else do
    let start ← sub64 target.lo block.lo
    let len ← sub64 target.hi target.lo
    if U32 ≤ start % U32 + len % U32 then .panic .visitUnderflow
    else sliceChecked content (start % U32) (start % U32 + len % U32)

/-- `maybe_target_slice`, `src/file/visit.rs:239-249`. -/
def maybeTargetSlice32 {ε : Type} (content : Bytes) (block : Rng) : Option Rng → Res ε Bytes
  | some target => targetSlice32 content block target
  | none => .ok content

/-- `FileReader::from_block`, `src/file/reader.rs:75-79`. -/
def FileReader.fromBlock32 (data : Bytes) : Res FileReadFailed FileReader :=
  match FlatUnixFs.tryParse32 data with
  | .error e => .err (.ofParsing e)
  | .ok inner => FileReader.fromParts inner 0 (Metadata.ofUnixFs inner.data)

/-- `FileReader::from_continued`, `src/file/reader.rs:87-100`. -/
def FileReader.fromContinued32 (traversal : Traversal) (offset : Nat) (data : Bytes) : Res FileReadFailed FileReader :=
  match FlatUnixFs.tryParse32 data with
  | .error e => .err (.ofParsing e)
  | .ok inner =>
    if inner.data.mode.isSome ∨ inner.data.mtime.isSome then
      .err (.File (.NonRootDefinesMetadata (Metadata.ofUnixFs inner.data)))
    else FileReader.fromParts inner offset traversal.metadata

/-- `Traversal::continue_walk`, `src/file/reader.rs:204-212`. -/
def Traversal.continueWalk32 (self : Traversal) (next_block : Bytes) (tree_range : Rng) : Res FileReadFailed FileReader :=
  match self.last_ending.checkIsSuitableNext self.last_offset tree_range with
  | .error e => .err (.File e)
  | .ok () => FileReader.fromContinued32 self tree_range.lo next_block

/-- `IdleFileVisit::start_from_reader`, `src/file/visit.rs:46-97`. -/
def IdleFileVisit.startFromReader32 (self : IdleFileVisit) (fr : FileReader) (cache : Option VisitCache) :
    Res FileReadFailed FileVisitResult × Option VisitCache :=
  let metadata := fr.metadata
  match fr.content with
  | (.Bytes content, traversal) =>
    (do let content ← maybeTargetSlice32 content (.mk 0 content.length) self.range
        .ok (.mk content traversal.file_size metadata none), cache)
  | (.Links base zipped, traversal) =>
    let links := (cache.getD {}).inner
    match collectLinks self.range 0 base zipped with
    | .err e => (.err e, none)
    | .panic p => (.panic p, none)
    | .ok ps =>
      let links := (links ++ ps).reverse
      if links = [] then (.ok (.mk [] traversal.file_size metadata none), some (.ofVec links))
      else (.ok (.mk [] traversal.file_size metadata (some (.mk links self.range traversal))), none)

/-- `IdleFileVisit::start`, `src/file/visit.rs:32-35`. -/
def IdleFileVisit.start32 (self : IdleFileVisit) (block : Bytes) : Res FileReadFailed FileVisitResult :=
  do let fr ← FileReader.fromBlock32 block
     (self.startFromReader32 fr none).1

/-- `FileVisit::continue_walk`, `src/file/visit.rs:152-196`. -/
def FileVisit.continueWalk32 (self : FileVisit) (next : Bytes) (cache : Option VisitCache) :
    Res FileReadFailed (Bytes × Option FileVisit) × Option VisitCache :=
  match self.pending.getLast? with
  | none => (.panic .visitNoNext, cache)
  | some (_, range) =>
    let pending := self.pending.dropLast
    match self.state.continueWalk32 next range with
    | .err e => (.err e, cache)
    | .panic p => (.panic p, cache)
    | .ok fr =>
      match fr.content with
      | (.Bytes content, traversal) =>
        match maybeTargetSlice32 content range self.range with
        | .err e => (.err e, cache)
        | .panic p => (.panic p, cache)
        | .ok content =>
          if pending ≠ [] then (.ok (content, some (.mk pending self.range traversal)), cache)
          else (.ok (content, none), some (.ofVec pending))
      | (.Links base zipped, traversal) =>
        match collectLinks self.range 0 base zipped with
        | .err e => (.err e, cache)
        | .panic p => (.panic p, cache)
        | .ok ps => (.ok ([], some (.mk (pending ++ ps.reverse) self.range traversal)), cache)

/-- The branch of `Walker::next` for an ongoing file visit, `src/walk.rs:131-155`. -/
def Walker.nextFile32 (self : Walker) (ie : InnerEntry) (visit : FileVisit) (sz : Nat) (bytes : Bytes)
    (cache : Option VisitCache) : WalkStep :=
  match visit.continueWalk32 bytes cache with
  | (.panic p, cache) => (.panic p, self, cache)
  | (.err e, cache) =>
    (WalkError.ofFileReadFailed e,
      { self with current := some { ie with kind := .File none sz }, should_continue := false }, cache)
  | (.ok (content, step), cache) =>
    let file_continues := step.isSome
    (.ok (.File (.later content (!file_continues)) ie.cid ie.path ie.metadata sz),
      { self with current := some { ie with kind := .File step sz }, should_continue := file_continues || self.next.isSome },
      cache)

/-- `Walker::next` when there is no ongoing file visit, `src/walk.rs:157-304`. (A file is started without a target range, so
`nextFirst` is as on 64 bits.) -/
def Walker.nextBlock32 (self : Walker) (bytes : Bytes) (cache : Option VisitCache) : WalkStep :=
  let stopped := { self with should_continue := false }
  match FlatUnixFs.tryParse32 bytes with
  | .error e => (.err (.ofParsing e), stopped, cache)
  | .ok flat =>
    let metadata := Metadata.ofUnixFs flat.data
    match flat.data.Ty with
    | .Directory =>
      match checkDirectorySupported flat with
      | .error e => (.err (.UnsupportedDirectory e), stopped, cache)
      | .ok flat =>
        self.nextDir flat.links (fun depth nth l => convertLink (depth + 1) nth l) (self.enterDirectory metadata) cache
    | .HAMTShard =>
      match checkHamtshardSupported flat with
      | .panic p => (.panic p, self, cache)
      | .err e => (.err (.UnsupportedHAMTShard e), stopped, cache)
      | .ok flat =>
        self.nextDir flat.links (fun depth nth l => convertShardedLink (depth + 1) depth nth l) (self.enterShard metadata) cache
    | .Raw | .File => self.nextFirst flat cache
    | .Metadata => (.err (.UnsupportedType flat.data.Ty), stopped, cache)
    | .Symlink => self.nextSymlink flat metadata cache

/-- `Walker::next`, `src/walk.rs:121-305`. -/
def Walker.step32 (self : Walker) (bytes : Bytes) (cache : Option VisitCache) : WalkStep :=
  match self.current with
  | some ⟨cid, .File (some visit) sz, path, metadata, depth⟩ =>
    self.nextFile32 ⟨cid, .File (some visit) sz, path, metadata, depth⟩ visit sz bytes cache
  | _ => self.nextBlock32 bytes cache

/-- `ShardedLookup::continue_walk`, `src/dir/sharded_lookup.rs:57-99`. -/
def ShardedLookup.continueWalk32 (self : ShardedLookup) (next : Bytes) (cache : Option LookupCache) :
    Res LookupError MaybeResolved × Option LookupCache :=
  match self.links with
  | [] => (.panic .shardNoLinks, cache)
  | _ :: queue =>
    match FlatUnixFs.tryParse32 next with
    | .error (.InvalidDagPb e) => (.err (.Read (some e)), some (.ofQueue queue))
    | .error (.InvalidUnixFs e _) => (.err (.Read (some e)), some (.ofQueue queue))
    | .error (.NoData _) => (.err (.Read none), some (.ofQueue queue))
    | .ok hamt =>
      if hamt.data.Ty ≠ .HAMTShard then (.err (.UnexpectedBucketType hamt.data.Ty), cache)
      else
        match checkShardSupported hamt with
        | .panic p => (.panic p, cache)
        | .err e => (.err (.Shard e), cache)
        | .ok () => ShardedLookup.finishStep self.needle hamt.links queue cache

/-- `resolve`, `src/dir.rs:36-77`. -/
def resolve32 (block : Bytes) (needle : Bytes) (cache : Option LookupCache) :
    Res ResolveError MaybeResolved × Option LookupCache :=
  match FlatUnixFs.tryParse32 block with
  | .ok flat =>
    match flat.data.Ty with
    | .HAMTShard =>
      let (r, cache) := ShardedLookup.lookupOrStart flat needle cache
      (r.mapErr .Lookup, cache)
    | .Directory =>
      match checkDirectorySupported flat with
      | .error e => (.err (.UnexpectedDirProperties e), cache)
      | .ok flat => (resolveInLinks flat.links needle, cache)
    | t => (.err (.UnexpectedType t), cache)
  | .error (.InvalidUnixFs _ node) => (resolveInLinks node.Links needle, cache)
  | .error (.NoData node) => (resolveInLinks node.Links needle, cache)
  | .error (.InvalidDagPb e) => (.err (.Read e), cache)

end Verif
