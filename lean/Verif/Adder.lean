import Verif.Messages
import Verif.Cid
/-
Model of `/repo/src/file/adder.rs`. `sha` is the hash function (`Code::Sha2_256.digest`).
A `Run` may diverge (`none`), return, or panic.
-/
namespace Verif

/-- Outcome of code that may also diverge: `none` is divergence. (for `src/file/adder.rs:439-617`.) -/
abbrev Run (α : Type) := Option (Res Unit α)

/-- `Link`, `src/file/adder.rs:88-97`. -/
structure Link where
  /-- 0 for leaves, "depth is relative to the leaf level" -/
  depth : Nat
  target : Cid
  total_size : Nat
  file_size : Nat
  deriving DecidableEq, Repr

/-- `BalancedCollector`, `src/file/adder.rs:387-393`. -/
structure BalancedCollector where
  branching_factor : Nat
  reused_links : List PBLink := []
  reused_blocksizes : List Nat := []
  deriving DecidableEq, Repr

/-- `BalancedCollector::with_branching_factor`, `src/file/adder.rs:426-434`. -/
def BalancedCollector.withBranchingFactor (bf : Nat) : Res Unit BalancedCollector :=
  if 0 < bf then .ok { branching_factor := bf } else .panic .adderBranching

/-- `FileAdder`, `src/file/adder.rs:17-27`. `chunkMax` is the payload of `Chunker::Size`, the only chunker. -/
structure FileAdder where
  chunkMax : Nat
  collector : BalancedCollector
  block_buffer : Bytes := []
  unflushed_links : List Link := []
  deriving DecidableEq, Repr

/-- `FileAdder::builder().with_chunker(Chunker::Size(max)).with_collector(collector).build()`,
`src/file/adder.rs:118-142`. -/
def FileAdder.build (max : Nat) (collector : BalancedCollector) : FileAdder := ⟨max, collector, [], []⟩

/-- `impl Default for FileAdder` through the defaults of `Chunker` (`src/file/adder.rs:328-333`) and
`BalancedCollector` (`:404-416`). -/
def FileAdder.default : FileAdder := FileAdder.build (256 * 1024) { branching_factor := 174 }

/-- `FileAdder::size_hint`, `src/file/adder.rs:153-155`. -/
def FileAdder.sizeHint (a : FileAdder) : Nat := a.chunkMax

/-- `Chunker::accept`, `src/file/adder.rs:336-347`: the accepted part of the input and whether a chunk is ready. -/
def chunkerAccept (max : Nat) (input buffered : Bytes) : Res Unit (Bytes × Bool) :=
  if max < buffered.length then .panic .adderAcceptUnderflow
  else
    let l := Nat.min input.length (max - buffered.length)
    .ok (input.take l, decide (max ≤ buffered.length + l))

/-- `render_and_hash`, `src/file/adder.rs:308-319`. -/
def renderAndHash (sha : Bytes → Bytes) (flat : FlatUnixFs) : Cid × Bytes :=
  let out := flat.write
  (cidOf sha out, out)

/-- The message written for a leaf, `src/file/adder.rs:240-253`. -/
def leafMessage (input : Bytes) : FlatUnixFs :=
  { links := []
    data := { Ty := .File, Data := if input ≠ [] then some input else none, filesize := some input.length } }

/-- `flush_buffered_leaf`, `src/file/adder.rs:228-272`: the block, if any, and the new `unflushed_links`. -/
def flushBufferedLeaf (sha : Bytes → Bytes) (input : Bytes) (unflushed : List Link) (finishing : Bool) :
    Option (Cid × Bytes) × List Link :=
  if input = [] ∧ (finishing = false ∨ unflushed ≠ []) then (none, unflushed)
  else
    let (cid, vec) := renderAndHash sha (leafMessage input)
    let link : Link := { depth := 0, target := cid, total_size := vec.length, file_size := input.length }
    (some (cid, vec), unflushed ++ [link])

/-- The four accumulators of `partition_link`. (`src/file/adder.rs:623-639`.) -/
structure Nested where
  links : List PBLink := []
  blocksizes : List Nat := []
  size : Nat := 0
  total : Nat := 0
  deriving DecidableEq, Repr

/-- `partition_link`, `src/file/adder.rs:623-638`. -/
def partitionLink (link : Link) (n : Nested) : Res Unit Nested :=
  let links := n.links ++ [{ Hash := some link.target.toBytes, Name := some [], Tsize := some link.total_size }]
  let blocksizes := n.blocksizes ++ [link.file_size]
  if U64 ≤ n.size + link.file_size then .panic .adderOverflow
  else if U64 ≤ n.total + link.total_size then .panic .adderOverflow
  else .ok ⟨links, blocksizes, n.size + link.file_size, n.total + link.total_size⟩

/-- The `for` loop over `pending[first_at..last]`, `src/file/adder.rs:548-565`. -/
def partitionLinks (level : Nat) : List Link → Nested → Res Unit Nested
  | [], n => .ok n
  | l :: ls, n => do
    if l.depth ≠ level then .panic .adderDepth
    else
      let n ← partitionLink l n
      partitionLinks level ls n

/-- The message written for a link block, `src/file/adder.rs:569-577`. -/
def linkMessage (n : Nested) : FlatUnixFs :=
  { links := n.links, data := { Ty := .File, filesize := some n.size, blocksizes := n.blocksizes } }

/-- The variables changed by the loops of `flush_links`. (`src/file/adder.rs:486-522`.) -/
structure FlushState where
  pending : List Link
  ret : List (Cid × Bytes) := []
  reused_links : List PBLink := []
  reused_blocksizes : List Nat := []
  deriving DecidableEq, Repr

/-- How the inner `while` loop ended: normally (with the final `last_overwrite`) or by `break 'outer`. (`src/file/adder.rs:524-602`.) -/
inductive LevelEnd where
  | next (s : FlushState) (last_overwrite : Option Nat)
  | breakOuter (s : FlushState)
  deriving DecidableEq, Repr

/-- `pending.drain(a..b)`: panics when out of range. (`src/file/adder.rs:535`.) -/
def drain (l : List Link) (a b : Nat) : Res Unit (List Link) :=
  if a ≤ b ∧ b ≤ l.length then .ok (l.take a ++ l.drop b) else .panic .adderDrain

/-- The inner `while let` loop of `flush_links`, `src/file/adder.rs:524-598`. -/
def flushLevel (sha : Bytes → Bytes) (bf level : Nat) (finishing : Bool) (starting_point : Nat)
    (last_overwrite : Option Nat) (s : FlushState) : Run LevelEnd :=
  match (s.pending.drop starting_point).findIdx? (fun l => l.depth == level) with
  | none => some (.ok (.next s last_overwrite))
  | some rel =>
    let first_at := rel + starting_point
    if finishing = false ∧ (s.pending.drop first_at).length ≤ bf then
      match last_overwrite with
      | none => some (.ok (.breakOuter s))
      | some o =>
        match drain s.pending (o + 1) first_at with
        | .ok p => some (.ok (.breakOuter { s with pending := p }))
        | .err e => some (.err e)
        | .panic p => some (.panic p)
    else
      let last := Nat.min (first_at + bf) s.pending.length
      match partitionLinks level ((s.pending.take last).drop first_at) {} with
      | .err e => some (.err e)
      | .panic p => some (.panic p)
      | .ok n =>
        if n.links.length ≠ n.blocksizes.length then some (.panic .adderReused)
        else
          let (cid, vec) := renderAndHash sha (linkMessage n)
          let index := match last_overwrite with | some i => i + 1 | none => first_at
          if U64 ≤ n.total + vec.length then some (.panic .adderOverflow)
          else if s.pending.length ≤ index then some (.panic .adderIndex)
          else
            let link : Link :=
              { depth := level + 1, target := cid, total_size := n.total + vec.length, file_size := n.size }
            flushLevel sha bf level finishing last (some index)
              { pending := s.pending.set index link, ret := s.ret ++ [(cid, vec)],
                reused_links := n.links, reused_blocksizes := n.blocksizes }
partial_fixpoint

/-- The outer loop `'outer: for level in 0..` of `flush_links`, `src/file/adder.rs:501-612`. -/
def flushLevels (sha : Bytes → Bytes) (bf : Nat) (finishing : Bool) (level : Nat) (s : FlushState) :
    Run FlushState :=
  if (s.pending.length = 1 ∧ finishing = true) ∨ (s.pending.length ≤ bf ∧ finishing = false) then some (.ok s)
  else
    match flushLevel sha bf level finishing 0 none s with
    | none => none
    | some (.err e) => some (.err e)
    | some (.panic p) => some (.panic p)
    | some (.ok (.breakOuter s)) => some (.ok s)
    | some (.ok (.next s last_overwrite)) =>
      let pending := match last_overwrite with | some o => s.pending.take (o + 1) | none => s.pending
      if pending.any (fun l => l.depth == level) then some (.panic .adderLevelLeft)
      else flushLevels sha bf finishing (level + 1) { s with pending := pending }
partial_fixpoint

/-- `BalancedCollector::flush_links`, `src/file/adder.rs:439-619`: the new collector, the new `pending`, the returned
blocks. The two `mem::take`s and the final stores keep the reused buffers in the collector. -/
def flushLinks (sha : Bytes → Bytes) (bc : BalancedCollector) (pending : List Link) (finishing : Bool) :
    Run (BalancedCollector × List Link × List (Cid × Bytes)) :=
  match flushLevels sha bc.branching_factor finishing 0
      { pending := pending, reused_links := bc.reused_links, reused_blocksizes := bc.reused_blocksizes } with
  | none => none
  | some (.err e) => some (.err e)
  | some (.panic p) => some (.panic p)
  | some (.ok s) =>
    some (.ok ({ bc with reused_links := s.reused_links, reused_blocksizes := s.reused_blocksizes }, s.pending, s.ret))

/-- The part of `push` after a chunk became ready (`src/file/adder.rs:171-178` and `:191-204`): emit the leaf, then the
link blocks. -/
def FileAdder.flushChunk (sha : Bytes → Bytes) (a : FileAdder) (chunk : Bytes) :
    Run (FileAdder × List (Cid × Bytes)) :=
  match flushBufferedLeaf sha chunk a.unflushed_links false with
  | (none, _) => some (.panic .adderNoLeaf)
  | (some leaf, unflushed) =>
    match flushLinks sha a.collector unflushed false with
    | none => none
    | some (.err e) => some (.err e)
    | some (.panic p) => some (.panic p)
    | some (.ok (collector, unflushed, links)) =>
      some (.ok ({ a with collector := collector, block_buffer := [], unflushed_links := unflushed }, leaf :: links))

/-- `FileAdder::push`, `src/file/adder.rs:161-207`: the new adder, the blocks, and the number of bytes consumed. -/
def FileAdder.push (sha : Bytes → Bytes) (a : FileAdder) (input : Bytes) :
    Run (FileAdder × List (Cid × Bytes) × Nat) :=
  match chunkerAccept a.chunkMax input a.block_buffer with
  | .err e => some (.err e)
  | .panic p => some (.panic p)
  | .ok (accepted, ready) =>
    if a.block_buffer = [] ∧ ready = true then
      match a.flushChunk sha accepted with
      | none => none
      | some (.err e) => some (.err e)
      | some (.panic p) => some (.panic p)
      | some (.ok (a', blocks)) => some (.ok (a', blocks, accepted.length))
    else
      let buffer := a.block_buffer ++ accepted
      let written := accepted.length
      if ready = false then some (.ok ({ a with block_buffer := buffer }, [], written))
      else
        match a.flushChunk sha buffer with
        | none => none
        | some (.err e) => some (.err e)
        | some (.panic p) => some (.panic p)
        | some (.ok (a', blocks)) => some (.ok (a', blocks, written))

/-- `FileAdder::finish`, `src/file/adder.rs:215-224`: the last blocks. -/
def FileAdder.finish (sha : Bytes → Bytes) (a : FileAdder) : Run (List (Cid × Bytes)) :=
  let (lastLeaf, unflushed) := flushBufferedLeaf sha a.block_buffer a.unflushed_links true
  match flushLinks sha a.collector unflushed true with
  | none => none
  | some (.err e) => some (.err e)
  | some (.panic p) => some (.panic p)
  | some (.ok (_, _, rootLinks)) => some (.ok (lastLeaf.toList ++ rootLinks))

/-! ### drivers -/

/-- The documented feeding loop (`src/file/adder.rs:284-305`, `examples/add.rs`): push (a part of) what is left until
everything is written, then finish. The i-th call is offered `sizes i` bytes (at least one, at most all that is left). -/
def FileAdder.feed (sha : Bytes → Bytes) (sizes : Nat → Nat) (i : Nat) (a : FileAdder) (content : Bytes) :
    Run (List (Cid × Bytes)) :=
  if content = [] then a.finish sha
  else
    match a.push sha (content.take (max 1 (sizes i))) with
    | none => none
    | some (.err e) => some (.err e)
    | some (.panic p) => some (.panic p)
    | some (.ok (a', blocks, n)) =>
      bind (m := Option) (feed sha sizes (i + 1) a' (content.drop n)) fun r => some (Res.map (blocks ++ ·) r)
partial_fixpoint

end Verif
