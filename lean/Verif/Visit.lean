import Verif.FileReader
/-
Model of `/repo/src/file/visit.rs`.
-/
namespace Verif

/-- An element of the pending stack: `(Cid, Range<u64>)`. (`src/file/visit.rs:127`.) -/
abbrev Pending := Cid × Rng

/-- `block_is_in_target_range`, `src/file/visit.rs:227-235`. -/
def blockIsInTargetRange (block : Rng) : Option Rng → Bool
  | some target => decide (max block.lo target.lo ≤ min block.hi target.hi)
  | none => true

/-- `a - b` on `u64`; underflow panics. (`src/file/visit.rs:251-280`.) -/
def sub64 {ε : Type} (a b : Nat) : Res ε Nat := if b ≤ a then .ok (a - b) else .panic .visitUnderflow

/-- `&content[start..end]`; out of bounds panics. (`src/file/visit.rs:251-280`.) -/
def sliceChecked {ε : Type} (content : Bytes) (start stop : Nat) : Res ε Bytes :=
  if start ≤ stop ∧ stop ≤ content.length then .ok ((content.take stop).drop start) else .panic .visitSlice

/-- `target_slice`, `src/file/visit.rs:251-278` (`as usize` is the identity on 64-bit targets). -/
def targetSlice {ε : Type} (content : Bytes) (block target : Rng) : Res ε Bytes :=
  if blockIsInTargetRange block (some target) = false then .ok []
  else if target.lo < block.lo then do
    let stop ← sub64 (min target.hi block.hi) block.lo
    sliceChecked content 0 stop
  else if target.hi > block.hi then do
    let start ← sub64 target.lo block.lo
    let stop ← sub64 (min target.hi block.hi) block.lo
    sliceChecked content start stop
  else do
    let start ← sub64 target.lo block.lo
    let len ← sub64 target.hi target.lo
    sliceChecked content start (start + len)

/-- `maybe_target_slice`, `src/file/visit.rs:239-249`. -/
def maybeTargetSlice {ε : Type} (content : Bytes) (block : Rng) : Option Rng → Res ε Bytes
  | some target => targetSlice content block target
  | none => .ok content

/-- `to_pending`, `src/file/visit.rs:210-223`. -/
def toPending (nth : Nat) (link : PBLink) (range : Rng) : Res FileReadFailed Pending :=
  match Cid.tryFrom (link.Hash.getD []) with
  | .ok cid => .ok (cid, range)
  | .error e => .err (.InvalidCid (.of nth link e))

/-- Running the `RangeLinks` iterator (`src/pb.rs:189-195`), the filter by target range and `to_pending`
(`src/file/visit.rs:65-75` and `:181-187`): the links in order, with their ranges; the first bad link or overflow
ends the iteration. `nth` is the index given by `enumerate`. -/
def collectLinks (target : Option Rng) : Nat → Nat → List (PBLink × Nat) → Res FileReadFailed (List Pending)
  | _, _, [] => .ok []
  | nth, base, (link, blocksize) :: rest => do
    let stop ← add64 .rangeOverflow base blocksize
    let range : Rng := .mk base stop
    if blockIsInTargetRange range target = false then collectLinks target (nth + 1) stop rest
    else do
      let p ← toPending nth link range
      let ps ← collectLinks target (nth + 1) stop rest
      .ok (p :: ps)

/-- `Cache`, `src/file/visit.rs:102-105`. -/
structure VisitCache where
  inner : List Pending := []
  deriving DecidableEq, Repr

/-- `impl From<Vec<_>> for Cache`, `src/file/visit.rs:107-112`: the vector is cleared. -/
def VisitCache.ofVec (_inner : List Pending) : VisitCache := { inner := [] }

/-- `FileVisit`, `src/file/visit.rs:121-132`. The last element of `pending` is the next one. -/
structure FileVisit where
  pending : List Pending
  range : Option Rng
  state : Traversal
  deriving DecidableEq, Repr

/-- `FileVisitResult`, `src/file/visit.rs:20`. -/
structure FileVisitResult where
  content : Bytes
  total_size : Nat
  metadata : Metadata
  next : Option FileVisit
  deriving DecidableEq, Repr

/-- `IdleFileVisit`, `src/file/visit.rs:15-18`. -/
structure IdleFileVisit where
  range : Option Rng := none
  deriving DecidableEq, Repr

/-- `IdleFileVisit::with_target_range`, `src/file/visit.rs:24-26`. -/
def IdleFileVisit.withTargetRange (_self : IdleFileVisit) (range : Rng) : IdleFileVisit := { range := some range }

/-- `IdleFileVisit::start_from_reader`, `src/file/visit.rs:46-97`; returns the result and the new value of `cache`. -/
def IdleFileVisit.startFromReader (self : IdleFileVisit) (fr : FileReader) (cache : Option VisitCache) :
    Res FileReadFailed FileVisitResult × Option VisitCache :=
  let metadata := fr.metadata
  match fr.content with
  | (.Bytes content, traversal) =>
    (do let content ← maybeTargetSlice content (.mk 0 content.length) self.range
        .ok (.mk content traversal.file_size metadata none), cache)
  | (.Links base zipped, traversal) =>
    let links := (cache.getD {}).inner
    match collectLinks self.range 0 base zipped with
    | .err e => (.err e, none)
    | .panic p => (.panic p, none)
    | .ok ps =>
      let links := (links ++ ps).reverse
      if links = [] then (.ok (.mk [] traversal.file_size metadata none), some (.ofVec links))
      else (.ok (.mk [] traversal.file_size metadata (some (.mk links self.range traversal))), none)

/-- `IdleFileVisit::start`, `src/file/visit.rs:32-35`. -/
def IdleFileVisit.start (self : IdleFileVisit) (block : Bytes) : Res FileReadFailed FileVisitResult :=
  do let fr ← FileReader.fromBlock block
     (self.startFromReader fr none).1

/-- `IdleFileVisit::start_from_parsed`, `src/file/visit.rs:37-44`. -/
def IdleFileVisit.startFromParsed (self : IdleFileVisit) (block : FlatUnixFs) (cache : Option VisitCache) :
    Res FileReadFailed FileVisitResult × Option VisitCache :=
  match FileReader.fromParsed block with
  | .ok fr => self.startFromReader fr cache
  | .err e => (.err e, cache)
  | .panic p => (.panic p, cache)

/-- `FileVisit::pending_links`, `src/file/visit.rs:140-146`. -/
def FileVisit.pendingLinks (self : FileVisit) : Res Unit (Cid × List Cid) :=
  match self.pending.reverse.map (·.1) with
  | first :: rest => .ok (first, rest)
  | [] => .panic .visitNoPending

/-- `FileVisit::continue_walk`, `src/file/visit.rs:152-196`; returns the result and the new value of `cache`. -/
def FileVisit.continueWalk (self : FileVisit) (next : Bytes) (cache : Option VisitCache) :
    Res FileReadFailed (Bytes × Option FileVisit) × Option VisitCache :=
  match self.pending.getLast? with
  | none => (.panic .visitNoNext, cache)
  | some (_, range) =>
    let pending := self.pending.dropLast
    match self.state.continueWalk next range with
    | .err e => (.err e, cache)
    | .panic p => (.panic p, cache)
    | .ok fr =>
      match fr.content with
      | (.Bytes content, traversal) =>
        match maybeTargetSlice content range self.range with
        | .err e => (.err e, cache)
        | .panic p => (.panic p, cache)
        | .ok content =>
          if pending ≠ [] then (.ok (content, some (.mk pending self.range traversal)), cache)
          else (.ok (content, none), some (.ofVec pending))
      | (.Links base zipped, traversal) =>
        match collectLinks self.range 0 base zipped with
        | .err e => (.err e, cache)
        | .panic p => (.panic p, cache)
        | .ok ps => (.ok ([], some (.mk (pending ++ ps.reverse) self.range traversal)), cache)

/-- `FileVisit::file_size`, `src/file/visit.rs:199-201`. -/
def FileVisit.fileSize (self : FileVisit) : Nat := self.state.file_size

/-- `impl AsRef<Metadata> for FileVisit`, `src/file/visit.rs:204-208`. -/
def FileVisit.metadata (self : FileVisit) : Metadata := self.state.metadata

end Verif
