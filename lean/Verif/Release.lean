import Verif.Visit
import Verif.Walk
import Verif.BuilderIter
import Verif.Adder
/-
The same code in the release profile: `u64`/`usize` arithmetic wraps around and `debug_assert!` is compiled out. (The other
files model the dev and test profiles, where both panic.) Only functions which are affected, and those which call them, are
repeated here, with an `R` at the end of their name; everything else is the same in both profiles.
-/
namespace Verif

/-- The panic sites which exist only with overflow checks and debug assertions.
(`debug_assert!` at `src/file/adder.rs:567`, `:606`, `src/dir/sharded_lookup.rs:63`, `src/dir/builder/iter.rs:394`, `src/walk.rs:408`, `:421`, and all arithmetic.) -/
def Panic.checked : Panic → Bool
  | .adderAcceptUnderflow | .adderReused | .adderLevelLeft | .adderOverflow | .readerOverflow | .rangeOverflow
  | .visitUnderflow | .iterOverflow | .walkPathDepth => true
  | _ => false

/-- Wrapping `u64` addition. (`+` in `src/**/*.rs`.) -/
def addW (a b : Nat) : Nat := (a + b) % U64

/-- Wrapping `u64` subtraction of values below 2^64. (`-` in `src/**/*.rs`.) -/
def subW (a b : Nat) : Nat := (a + U64 - b) % U64

/-! ### `src/file/reader.rs` -/

/-- The computation of `end`, `src/file/reader.rs:133-143`. -/
def FileReader.endOfR (inner : FlatUnixFs) (offset : Nat) (data : Bytes) : Res FileReadFailed Ending :=
  if inner.links = [] then .ok (.Chunk (addW offset (inner.data.filesize.getD data.length)))
  else
    match inner.data.filesize with
    | some filesize => .ok (.TreeCoverage (addW offset filesize))
    | none => .err (.File .IntermediateNodeWithoutFileSize)

/-- `FileReader::from_parts`, `src/file/reader.rs:102-154`. -/
def FileReader.fromPartsR (inner : FlatUnixFs) (offset : Nat) (metadata : Metadata) : Res FileReadFailed FileReader :=
  let empty_or_no_content := inner.data.Data.getD [] = []
  let is_zero_bytes := inner.data.filesize.getD 0 = 0
  if inner.data.Ty ≠ .File ∧ inner.data.Ty ≠ .Raw then .err (.UnexpectedType inner.data.Ty)
  else if inner.links.length ≠ inner.data.blocksizes.length then .err (.File .LinksAndBlocksizesMismatch)
  else if empty_or_no_content ∧ ¬ is_zero_bytes ∧ inner.links = [] then .err (.File .NoLinksNoContent)
  else
    let data := inner.data.Data.getD []
    if inner.data.hashType.isSome ∨ inner.data.fanout.isSome then
      .err (.File (.UnexpectedRawOrFileProperties inner.data.hashType inner.data.fanout))
    else do
      let e ← FileReader.endOfR inner offset data
      match inner.data.filesize with
      | none => .panic .readerFilesize
      | some fs => .ok (.mk offset e inner.links data inner.data.blocksizes metadata fs)

/-- `FileReader::from_parsed`, `src/file/reader.rs:81-84`. -/
def FileReader.fromParsedR (inner : FlatUnixFs) : Res FileReadFailed FileReader :=
  FileReader.fromPartsR inner 0 (Metadata.ofUnixFs inner.data)

/-- `FileReader::from_block`, `src/file/reader.rs:75-79`. -/
def FileReader.fromBlockR (data : Bytes) : Res FileReadFailed FileReader :=
  match FlatUnixFs.tryParse data with
  | .error e => .err (.ofParsing e)
  | .ok inner => FileReader.fromPartsR inner 0 (Metadata.ofUnixFs inner.data)

/-- `FileReader::from_continued`, `src/file/reader.rs:87-100`. -/
def FileReader.fromContinuedR (traversal : Traversal) (offset : Nat) (data : Bytes) : Res FileReadFailed FileReader :=
  match FlatUnixFs.tryParse data with
  | .error e => .err (.ofParsing e)
  | .ok inner =>
    if inner.data.mode.isSome ∨ inner.data.mtime.isSome then
      .err (.File (.NonRootDefinesMetadata (Metadata.ofUnixFs inner.data)))
    else FileReader.fromPartsR inner offset traversal.metadata

/-- `Traversal::continue_walk`, `src/file/reader.rs:204-212`. -/
def Traversal.continueWalkR (self : Traversal) (next_block : Bytes) (tree_range : Rng) : Res FileReadFailed FileReader :=
  match self.last_ending.checkIsSuitableNext self.last_offset tree_range with
  | .error e => .err (.File e)
  | .ok () => FileReader.fromContinuedR self tree_range.lo next_block

/-! ### `src/file/visit.rs` -/

/-- `target_slice`, `src/file/visit.rs:251-278`. -/
def targetSliceR {ε : Type} (content : Bytes) (block target : Rng) : Res ε Bytes :=
  if blockIsInTargetRange block (some target) = false then .ok []
  else if target.lo < block.lo then sliceChecked content 0 (subW (min target.hi block.hi) block.lo)
  else if target.hi > block.hi then sliceChecked content (subW target.lo block.lo) (subW (min target.hi block.hi) block.lo)
  else sliceChecked content (subW target.lo block.lo) (addW (subW target.lo block.lo) (subW target.hi target.lo))

/-- `maybe_target_slice`, `src/file/visit.rs:239-249`. -/
def maybeTargetSliceR {ε : Type} (content : Bytes) (block : Rng) : Option Rng → Res ε Bytes
  | some target => targetSliceR content block target
  | none => .ok content

/-- Running the `RangeLinks` iterator (`src/pb.rs:189-195`), the filter by target range and `to_pending`
(`src/file/visit.rs:65-75` and `:181-187`). -/
def collectLinksR (target : Option Rng) : Nat → Nat → List (PBLink × Nat) → Res FileReadFailed (List Pending)
  | _, _, [] => .ok []
  | nth, base, (link, blocksize) :: rest =>
    let stop := addW base blocksize
    let range : Rng := .mk base stop
    if blockIsInTargetRange range target = false then collectLinksR target (nth + 1) stop rest
    else do
      let p ← toPending nth link range
      let ps ← collectLinksR target (nth + 1) stop rest
      .ok (p :: ps)

/-- `IdleFileVisit::start_from_reader`, `src/file/visit.rs:46-97`; returns the result and the new value of `cache`. -/
def IdleFileVisit.startFromReaderR (self : IdleFileVisit) (fr : FileReader) (cache : Option VisitCache) :
    Res FileReadFailed FileVisitResult × Option VisitCache :=
  let metadata := fr.metadata
  match fr.content with
  | (.Bytes content, traversal) =>
    (do let content ← maybeTargetSliceR content (.mk 0 content.length) self.range
        .ok (.mk content traversal.file_size metadata none), cache)
  | (.Links base zipped, traversal) =>
    let links := (cache.getD {}).inner
    match collectLinksR self.range 0 base zipped with
    | .err e => (.err e, none)
    | .panic p => (.panic p, none)
    | .ok ps =>
      let links := (links ++ ps).reverse
      if links = [] then (.ok (.mk [] traversal.file_size metadata none), some (.ofVec links))
      else (.ok (.mk [] traversal.file_size metadata (some (.mk links self.range traversal))), none)

/-- `IdleFileVisit::start`, `src/file/visit.rs:32-35`. -/
def IdleFileVisit.startR (self : IdleFileVisit) (block : Bytes) : Res FileReadFailed FileVisitResult :=
  do let fr ← FileReader.fromBlockR block
     (self.startFromReaderR fr none).1

/-- `IdleFileVisit::start_from_parsed`, `src/file/visit.rs:37-44`. -/
def IdleFileVisit.startFromParsedR (self : IdleFileVisit) (block : FlatUnixFs) (cache : Option VisitCache) :
    Res FileReadFailed FileVisitResult × Option VisitCache :=
  match FileReader.fromParsedR block with
  | .ok fr => self.startFromReaderR fr cache
  | .err e => (.err e, cache)
  | .panic p => (.panic p, cache)

/-- `FileVisit::continue_walk`, `src/file/visit.rs:152-196`; returns the result and the new value of `cache`. -/
def FileVisit.continueWalkR (self : FileVisit) (next : Bytes) (cache : Option VisitCache) :
    Res FileReadFailed (Bytes × Option FileVisit) × Option VisitCache :=
  match self.pending.getLast? with
  | none => (.panic .visitNoNext, cache)
  | some (_, range) =>
    let pending := self.pending.dropLast
    match self.state.continueWalkR next range with
    | .err e => (.err e, cache)
    | .panic p => (.panic p, cache)
    | .ok fr =>
      match fr.content with
      | (.Bytes content, traversal) =>
        match maybeTargetSliceR content range self.range with
        | .err e => (.err e, cache)
        | .panic p => (.panic p, cache)
        | .ok content =>
          if pending ≠ [] then (.ok (content, some (.mk pending self.range traversal)), cache)
          else (.ok (content, none), some (.ofVec pending))
      | (.Links base zipped, traversal) =>
        match collectLinksR self.range 0 base zipped with
        | .err e => (.err e, cache)
        | .panic p => (.panic p, cache)
        | .ok ps => (.ok ([], some (.mk (pending ++ ps.reverse) self.range traversal)), cache)

/-! ### `src/walk.rs` -/

/-- `InnerEntry::set_path`, `src/walk.rs:406-422`. -/
def InnerEntry.setPathR {ε : Type} (self : InnerEntry) (name : Bytes) (depth : Nat) : Res ε InnerEntry := do
  let path ← popWhileGe depth self.depth self.path
  .ok { self with path := path.push name, depth := depth }

/-- `InnerEntry::as_directory`, `as_bucket_root`, `as_file`, `as_symlink`, `src/walk.rs:424-460` and `:490-538`. -/
def InnerEntry.asKindR {ε : Type} (self : InnerEntry) (kind : InnerKind) (cid : Cid) (name : Bytes) (depth : Nat)
    (metadata : Metadata) : Res ε InnerEntry :=
  match self.kind with
  | .File (some _) _ => .panic .walkKind
  | _ => do
    let ie ← { self with cid := cid, kind := kind }.setPathR name depth
    .ok { ie with metadata := metadata }

/-- The branch for an ongoing file visit, `src/walk.rs:137-155`. -/
def Walker.nextFileR (self : Walker) (ie : InnerEntry) (visit : FileVisit) (sz : Nat) (bytes : Bytes)
    (cache : Option VisitCache) : WalkStep :=
  match visit.continueWalkR bytes cache with
  | (.panic p, cache) => (.panic p, self, cache)
  | (.err e, cache) =>
    (WalkError.ofFileReadFailed e,
      { self with current := some { ie with kind := .File none sz }, should_continue := false }, cache)
  | (.ok (content, step), cache) =>
    let file_continues := step.isSome
    (.ok (.File (.later content (!file_continues)) ie.cid ie.path ie.metadata sz),
      { self with current := some { ie with kind := .File step sz }, should_continue := file_continues || self.next.isSome },
      cache)

/-- The entry and the answer for a plain directory, `src/walk.rs:181-191`. -/
def Walker.enterDirectoryR (self : Walker) (metadata : Metadata) (n : WalkLink) : Res WalkError (InnerEntry × ContinuedWalk) :=
  match self.current with
  | none =>
    let ie := InnerEntry.newRoot .RootDirectory n.cid metadata n.name n.depth
    .ok (ie, .RootDirectory ie.cid ie.path ie.metadata)
  | some ie => do
    let ie ← ie.asKindR .Directory n.cid n.name n.depth metadata
    .ok (ie, .Directory ie.cid ie.path ie.metadata)

/-- The entry and the answer for a sharded directory or bucket, `src/walk.rs:219-237`. -/
def Walker.enterShardR (self : Walker) (metadata : Metadata) (n : WalkLink) : Res WalkError (InnerEntry × ContinuedWalk) :=
  match self.current with
  | none =>
    let ie := InnerEntry.newRoot .BucketAtRoot n.cid metadata n.name n.depth
    .ok (ie, .RootDirectory ie.cid ie.path ie.metadata)
  | some ie =>
    if n.name = [] then do
      let ie ← ie.asBucket n.cid n.depth
      .ok (ie, .Bucket ie.cid ie.path)
    else do
      let ie ← ie.asKindR .RootBucket n.cid n.name n.depth metadata
      .ok (ie, .RootDirectory ie.cid ie.path ie.metadata)

/-- The new current entry for a file or symlink, `src/walk.rs:245-255` and `:281-289`. -/
def Walker.enterLeafR (self : Walker) (kind : InnerKind) (metadata : Metadata) (n : WalkLink) : Res WalkError InnerEntry :=
  match self.current with
  | none => .ok (InnerEntry.newRoot kind n.cid metadata n.name n.depth)
  | some ie => ie.asKindR kind n.cid n.name n.depth metadata

/-- The branch for the first block of a file, `src/walk.rs:238-272`. -/
def Walker.nextFirstR (self : Walker) (flat : FlatUnixFs) (cache : Option VisitCache) : WalkStep :=
  match IdleFileVisit.startFromParsedR {} flat cache with
  | (.panic p, cache) => (.panic p, self, cache)
  | (.err e, cache) => (WalkError.ofFileReadFailed e, { self with should_continue := false }, cache)
  | (.ok r, cache) =>
    match self.next with
    | none => (.panic .walkNoNext, self, cache)
    | some n =>
      let file_continues := r.next.isSome
      match self.enterLeafR (.File r.next r.total_size) r.metadata n with
      | .panic p => (.panic p, self, cache)
      | .err e => (.err e, self, cache)
      | .ok ie =>
        let w := Walker.popNext (some ie) self.pending
        (.ok (.File (.first r.content (!file_continues)) ie.cid ie.path ie.metadata r.total_size),
          { w with should_continue := file_continues || w.next.isSome }, cache)

/-- The branch for a symlink, `src/walk.rs:274-303`. -/
def Walker.nextSymlinkR (self : Walker) (flat : FlatUnixFs) (metadata : Metadata) (cache : Option VisitCache) : WalkStep :=
  let contents := flat.data.Data.getD []
  match self.next with
  | none => (.panic .walkNoNext, self, cache)
  | some n =>
    match self.enterLeafR .Symlink metadata n with
    | .panic p => (.panic p, self, cache)
    | .err e => (.err e, self, cache)
    | .ok ie => (.ok (.Symlink contents ie.cid ie.path ie.metadata), Walker.popNext (some ie) self.pending, cache)

/-- `Walker::next` when there is no ongoing file visit, `src/walk.rs:157-304`. -/
def Walker.nextBlockR (self : Walker) (bytes : Bytes) (cache : Option VisitCache) : WalkStep :=
  let stopped := { self with should_continue := false }
  match FlatUnixFs.tryParse bytes with
  | .error e => (.err (.ofParsing e), stopped, cache)
  | .ok flat =>
    let metadata := Metadata.ofUnixFs flat.data
    match flat.data.Ty with
    | .Directory =>
      match checkDirectorySupported flat with
      | .error e => (.err (.UnsupportedDirectory e), stopped, cache)
      | .ok flat =>
        self.nextDir flat.links (fun depth nth l => convertLink (depth + 1) nth l) (self.enterDirectoryR metadata) cache
    | .HAMTShard =>
      match checkHamtshardSupported flat with
      | .panic p => (.panic p, self, cache)
      | .err e => (.err (.UnsupportedHAMTShard e), stopped, cache)
      | .ok flat =>
        self.nextDir flat.links (fun depth nth l => convertShardedLink (depth + 1) depth nth l) (self.enterShardR metadata) cache
    | .Raw | .File => self.nextFirstR flat cache
    | .Metadata => (.err (.UnsupportedType flat.data.Ty), stopped, cache)
    | .Symlink => self.nextSymlinkR flat metadata cache

/-- `Walker::next`, `src/walk.rs:121-305`. -/
def Walker.stepR (self : Walker) (bytes : Bytes) (cache : Option VisitCache) : WalkStep :=
  match self.current with
  | some ⟨cid, .File (some visit) sz, path, metadata, depth⟩ =>
    self.nextFileR ⟨cid, .File (some visit) sz, path, metadata, depth⟩ visit sz bytes cache
  | _ => self.nextBlockR bytes cache

/-! ### `src/dir/builder/iter.rs` -/

/-- `PostOrderIterator::render_directory`, `src/dir/builder/iter.rs:83-162`. (`update_full_path` has a `debug_assert!` at
`:394`, but what it checks is checked again by the `assert_eq!` at `:404`.) -/
def renderDirectoryR (sha : Bytes → Bytes) (links : Leaves) (buffer : Bytes) (block_size_limit : Option Nat) :
    Res TreeConstructionFailed (Cid × Nat) × Bytes :=
  match unwrapAll links with
  | none => (.panic .customPbMissing, buffer)
  | some ls =>
    let size := customSize ls directoryData
    if exceedsLimit block_size_limit size then
      (.err (.TooLargeBlock size), buffer)
    else
      let buffer := buffer ++ List.replicate (size - buffer.length) 0
      let written := customWrite ls directoryData
      if buffer.length < written.length then (.err .Protobuf, buffer)
      else
        let buffer := (written ++ buffer.drop written.length).take size
        (.ok (cidOf sha buffer, addW buffer.length (ls.map (·.total_size)).sum), buffer)

/-- One iteration of the loop of `PostOrderIterator::next_borrowed`, `src/dir/builder/iter.rs:168-295`. -/
def PostOrderIterator.stepR (sha : Bytes → Bytes) (self : PostOrderIterator) : IterStep :=
  match self.pending with
  | [] => .done self
  | visited :: pending =>
    match updateFullPath self.full_path self.old_depth visited.nameDepth.1 visited.nameDepth.2 with
    | .panic p => .panic p
    | .err () => .panic .iterDepth
    | .ok (full_path, old_depth) =>
      let self := { self with full_path := full_path, old_depth := old_depth, pending := pending }
      match visited with
      | .DescentRoot node =>
        let (leaves, children) := partitionChildrenLeaves 0 0 node.nodes
        let (persisted, leaves) := stashLeaves self.persisted_cids node.id leaves children
        .continue { self with persisted_cids := persisted, pending := children.reverse ++ .PostRoot leaves :: pending }
      | .Descent node name depth index =>
        let (leaves, children) := partitionChildrenLeaves depth 0 node.nodes
        match node.parent_id with
        | none => .panic .iterParentId
        | some parent_id =>
          let (persisted, leaves) := stashLeaves self.persisted_cids node.id leaves children
          .continue { self with
            persisted_cids := persisted
            pending := children.reverse ++ .Post parent_id depth name index leaves :: pending }
      | .Post parent_id _ name index leaves =>
        match leaves.intoInner self.persisted_cids with
        | .panic p => .panic p
        | .err () => .panic .iterStash
        | .ok (leaves, persisted) =>
          match renderDirectoryR sha leaves self.block_buffer self.opts.block_size_limit with
          | (.panic p, _) => .panic p
          | (.err e, buffer) => .failed { self with persisted_cids := persisted, block_buffer := buffer } e
          | (.ok (cid, total), buffer) =>
            match persisted parent_id with
            | none => .panic .iterNoParentLeaves
            | some vec =>
              match vec[index]? with
              | none => .panic .iterIndex
              | some (some _) => .panic .iterCell
              | some none =>
                let persisted := hmInsert persisted parent_id (vec.set index (some ⟨name, cid, total⟩))
                .item { self with persisted_cids := persisted, block_buffer := buffer } ⟨full_path, cid, total, buffer⟩
      | .PostRoot leaves =>
        match leaves.intoInner self.persisted_cids with
        | .panic p => .panic p
        | .err () => .panic .iterStash
        | .ok (leaves, persisted) =>
          if self.opts.wrap_with_directory = false then .done { self with persisted_cids := persisted }
          else
            match renderDirectoryR sha leaves self.block_buffer self.opts.block_size_limit with
            | (.panic p, _) => .panic p
            | (.err e, buffer) => .failed { self with persisted_cids := persisted, block_buffer := buffer } e
            | (.ok (cid, total), buffer) =>
              .item { self with persisted_cids := persisted, block_buffer := buffer } ⟨full_path, cid, total, buffer⟩

/-- `PostOrderIterator::next_borrowed` = `Iterator::next`, `src/dir/builder/iter.rs:167-306`. -/
def PostOrderIterator.nextR (sha : Bytes → Bytes) (self : PostOrderIterator) : Option (IterNext × PostOrderIterator) :=
  match self.stepR sha with
  | .continue it => PostOrderIterator.nextR sha it
  | .item it node => some (.item node, it)
  | .failed it e => some (.failed e, it)
  | .done it => some (.finished, it)
  | .panic p => some (.panic p, self)
partial_fixpoint

/-! ### `src/file/adder.rs` -/

/-- `Chunker::accept`, `src/file/adder.rs:336-347`. -/
def chunkerAcceptR (max : Nat) (input buffered : Bytes) : Bytes × Bool :=
  let l := Nat.min input.length (subW max buffered.length)
  (input.take l, decide (max ≤ addW buffered.length l))

/-- `partition_link`, `src/file/adder.rs:623-638`. -/
def partitionLinkR (link : Link) (n : Nested) : Nested :=
  let links := n.links ++ [{ Hash := some link.target.toBytes, Name := some [], Tsize := some link.total_size }]
  let blocksizes := n.blocksizes ++ [link.file_size]
  ⟨links, blocksizes, addW n.size link.file_size, addW n.total link.total_size⟩

/-- The `for` loop over `pending[first_at..last]`, `src/file/adder.rs:548-565`. -/
def partitionLinksR (level : Nat) : List Link → Nested → Res Unit Nested
  | [], n => .ok n
  | l :: ls, n => if l.depth ≠ level then .panic .adderDepth else partitionLinksR level ls (partitionLinkR l n)

/-- The inner `while let` loop of `flush_links`, `src/file/adder.rs:524-598`. -/
def flushLevelR (sha : Bytes → Bytes) (bf level : Nat) (finishing : Bool) (starting_point : Nat)
    (last_overwrite : Option Nat) (s : FlushState) : Run LevelEnd :=
  match (s.pending.drop starting_point).findIdx? (fun l => l.depth == level) with
  | none => some (.ok (.next s last_overwrite))
  | some rel =>
    let first_at := rel + starting_point
    if finishing = false ∧ (s.pending.drop first_at).length ≤ bf then
      match last_overwrite with
      | none => some (.ok (.breakOuter s))
      | some o =>
        match drain s.pending (o + 1) first_at with
        | .ok p => some (.ok (.breakOuter { s with pending := p }))
        | .err e => some (.err e)
        | .panic p => some (.panic p)
    else
      let last := Nat.min (first_at + bf) s.pending.length
      match partitionLinksR level ((s.pending.take last).drop first_at) {} with
      | .err e => some (.err e)
      | .panic p => some (.panic p)
      | .ok n =>
        let (cid, vec) := renderAndHash sha (linkMessage n)
        let index := match last_overwrite with | some i => i + 1 | none => first_at
        if s.pending.length ≤ index then some (.panic .adderIndex)
        else
          let link : Link :=
            { depth := level + 1, target := cid, total_size := addW n.total vec.length, file_size := n.size }
          flushLevelR sha bf level finishing last (some index)
            { pending := s.pending.set index link, ret := s.ret ++ [(cid, vec)],
              reused_links := n.links, reused_blocksizes := n.blocksizes }
partial_fixpoint

/-- The outer loop `'outer: for level in 0..` of `flush_links`, `src/file/adder.rs:501-612`. -/
def flushLevelsR (sha : Bytes → Bytes) (bf : Nat) (finishing : Bool) (level : Nat) (s : FlushState) :
    Run FlushState :=
  if (s.pending.length = 1 ∧ finishing = true) ∨ (s.pending.length ≤ bf ∧ finishing = false) then some (.ok s)
  else
    match flushLevelR sha bf level finishing 0 none s with
    | none => none
    | some (.err e) => some (.err e)
    | some (.panic p) => some (.panic p)
    | some (.ok (.breakOuter s)) => some (.ok s)
    | some (.ok (.next s last_overwrite)) =>
      let pending := match last_overwrite with | some o => s.pending.take (o + 1) | none => s.pending
      flushLevelsR sha bf finishing (level + 1) { s with pending := pending }
partial_fixpoint

/-- `BalancedCollector::flush_links`, `src/file/adder.rs:439-619`. -/
def flushLinksR (sha : Bytes → Bytes) (bc : BalancedCollector) (pending : List Link) (finishing : Bool) :
    Run (BalancedCollector × List Link × List (Cid × Bytes)) :=
  match flushLevelsR sha bc.branching_factor finishing 0
      { pending := pending, reused_links := bc.reused_links, reused_blocksizes := bc.reused_blocksizes } with
  | none => none
  | some (.err e) => some (.err e)
  | some (.panic p) => some (.panic p)
  | some (.ok s) =>
    some (.ok ({ bc with reused_links := s.reused_links, reused_blocksizes := s.reused_blocksizes }, s.pending, s.ret))

/-- The part of `push` after a chunk became ready (`src/file/adder.rs:171-178` and `:191-204`). -/
def FileAdder.flushChunkR (sha : Bytes → Bytes) (a : FileAdder) (chunk : Bytes) :
    Run (FileAdder × List (Cid × Bytes)) :=
  match flushBufferedLeaf sha chunk a.unflushed_links false with
  | (none, _) => some (.panic .adderNoLeaf)
  | (some leaf, unflushed) =>
    match flushLinksR sha a.collector unflushed false with
    | none => none
    | some (.err e) => some (.err e)
    | some (.panic p) => some (.panic p)
    | some (.ok (collector, unflushed, links)) =>
      some (.ok ({ a with collector := collector, block_buffer := [], unflushed_links := unflushed }, leaf :: links))

/-- `FileAdder::push`, `src/file/adder.rs:161-207`. -/
def FileAdder.pushR (sha : Bytes → Bytes) (a : FileAdder) (input : Bytes) :
    Run (FileAdder × List (Cid × Bytes) × Nat) :=
  match chunkerAcceptR a.chunkMax input a.block_buffer with
  | (accepted, ready) =>
    if a.block_buffer = [] ∧ ready = true then
      match a.flushChunkR sha accepted with
      | none => none
      | some (.err e) => some (.err e)
      | some (.panic p) => some (.panic p)
      | some (.ok (a', blocks)) => some (.ok (a', blocks, accepted.length))
    else
      let buffer := a.block_buffer ++ accepted
      let written := accepted.length
      if ready = false then some (.ok ({ a with block_buffer := buffer }, [], written))
      else
        match a.flushChunkR sha buffer with
        | none => none
        | some (.err e) => some (.err e)
        | some (.panic p) => some (.panic p)
        | some (.ok (a', blocks)) => some (.ok (a', blocks, written))

/-- `FileAdder::finish`, `src/file/adder.rs:215-224`. -/
def FileAdder.finishR (sha : Bytes → Bytes) (a : FileAdder) : Run (List (Cid × Bytes)) :=
  let (lastLeaf, unflushed) := flushBufferedLeaf sha a.block_buffer a.unflushed_links true
  match flushLinksR sha a.collector unflushed true with
  | none => none
  | some (.err e) => some (.err e)
  | some (.panic p) => some (.panic p)
  | some (.ok (_, _, rootLinks)) => some (.ok (lastLeaf.toList ++ rootLinks))

end Verif
