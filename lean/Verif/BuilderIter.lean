import Verif.Builder
/-
Model of `/repo/src/dir/builder/custom_pb.rs` and `/repo/src/dir/builder/iter.rs`.
-/
namespace Verif

/-- `NamedLeaf(String, Cid, u64)`, `src/dir/builder.rs:151`. -/
structure NamedLeaf where
  name : Bytes
  link : Cid
  total_size : Nat
  deriving DecidableEq, Repr

/-- `WriteableCid::get_size`, `src/dir/builder/custom_pb.rs:69-82`. -/
def writeableCidSize (c : Cid) : Nat :=
  match c.version with
  | .v0 => c.hashBytes.length
  | .v1 => 1 + sizeofVarint c.codec + c.hashBytes.length

/-- `WriteableCid::write_message`, `src/dir/builder/custom_pb.rs:84-104`. -/
def writeableCidWrite (c : Cid) : Bytes :=
  match c.version with
  | .v0 => c.hashBytes
  | .v1 => 1 :: (encVarint c.codec ++ c.hashBytes)

/-- `NamedLeafAsPBLink::get_size`, `src/dir/builder/custom_pb.rs:45-55`. -/
def NamedLeaf.getSize (l : NamedLeaf) : Nat :=
  1 + sizeofLen l.name.length + 1 + sizeofLen (writeableCidSize l.link) + 1 + sizeofVarint l.total_size

/-- `NamedLeafAsPBLink::write_message`, `src/dir/builder/custom_pb.rs:57-63`. -/
def NamedLeaf.write (l : NamedLeaf) : Bytes :=
  wTag 10 (wMessage (writeableCidSize l.link) (writeableCidWrite l.link))
  ++ wTag 18 (wBytes l.name)
  ++ wTag 24 (encVarint l.total_size)

/-- `CustomFlatUnixFs::get_size`, `src/dir/builder/custom_pb.rs:24-33`, on links which are all present. -/
def customSize (links : List NamedLeaf) (data : UnixFs) : Nat :=
  (links.map (fun l => 1 + sizeofLen l.getSize)).sum + 1 + sizeofLen data.getSize

/-- `CustomFlatUnixFs::write_message`, `src/dir/builder/custom_pb.rs:35-39`, on links which are all present. -/
def customWrite (links : List NamedLeaf) (data : UnixFs) : Bytes :=
  links.flatMap (fun l => wTag 18 (wMessage l.getSize l.write)) ++ wTag 10 (wMessage data.getSize data.write)

/-- `Leaves`, `src/dir/builder/iter.rs:35`. -/
abbrev Leaves := List (Option NamedLeaf)

/-- `.map(..unwrap())` over all links, `src/dir/builder/custom_pb.rs:15-19`. -/
def unwrapAll : Leaves → Option (List NamedLeaf)
  | [] => some []
  | none :: _ => none
  | some l :: ls => (unwrapAll ls).map (l :: ·)

/-- `LeafStorage`, `src/dir/builder/iter.rs:437-440`. -/
inductive LeafStorage where
  | Direct (leaves : Leaves)
  | Stashed (id : Nat)
  deriving Repr

/-- `Visited`, `src/dir/builder/iter.rs:43-65`. -/
inductive Visited where
  | DescentRoot (node : DirBuilder)
  | Descent (node : DirBuilder) (name : Bytes) (depth : Nat) (index : Nat)
  | Post (parent_id : Nat) (depth : Nat) (name : Bytes) (index : Nat) (leaves : LeafStorage)
  | PostRoot (leaves : LeafStorage)
  deriving Repr

/-- `TreeConstructionFailed`, `src/dir/builder.rs:128-134`; the only error of writing to a slice is its being too short. -/
inductive TreeConstructionFailed where
  | Protobuf
  | TooLargeBlock (size : Nat)
  deriving DecidableEq, Repr

/-- `OwnedTreeNode`, `src/dir/builder/iter.rs:346-355` (and `TreeNode`, `:309-318`). -/
structure TreeNode where
  path : Bytes
  cid : Cid
  total_size : Nat
  block : Bytes
  deriving DecidableEq, Repr

/-- `PostOrderIterator`, `src/dir/builder/iter.rs:15-29`. The head of `pending` is the top of the stack (the end of the
`Vec`). `persisted_cids` is the `HashMap` as a function. `reused_children` is empty between the iterations of the loop
and left out; `cid` and `total_size` are only read right after being written and left out. -/
structure PostOrderIterator where
  full_path : Bytes
  old_depth : Nat
  block_buffer : Bytes
  pending : List Visited
  persisted_cids : Nat → Option Leaves
  opts : TreeOptions

/-- `PostOrderIterator::new`, `src/dir/builder/iter.rs:68-81` (`longest_path` is only a capacity). -/
def PostOrderIterator.new (root : DirBuilder) (opts : TreeOptions) : PostOrderIterator :=
  .mk [] 0 [] [.DescentRoot root] (fun _ => none) opts

/-- `BufferingTreeBuilder::build`, `src/dir/builder/buffered.rs:180-182`. -/
def BufferingTreeBuilder.build (self : BufferingTreeBuilder) : PostOrderIterator :=
  PostOrderIterator.new self.root_builder self.opts

/-- `HashMap::insert`, and writing through `get_mut`. (`src/dir/builder/iter.rs:185`, `:206`, `:247`.) -/
def hmInsert (m : Nat → Option Leaves) (k : Nat) (v : Leaves) : Nat → Option Leaves :=
  fun i => if i = k then some v else m i

/-- `HashMap::remove`. (`src/dir/builder/iter.rs:450`.) -/
def hmRemove (m : Nat → Option Leaves) (k : Nat) : Nat → Option Leaves :=
  fun i => if i = k then none else m i

/-- The UnixFS part of every rendered directory, `src/dir/builder/iter.rs:107-110`. -/
def directoryData : UnixFs := { Ty := .Directory }

/-- `Some(limit)` with `size > limit`, `src/dir/builder/iter.rs:115-121`. -/
def exceedsLimit : Option Nat → Nat → Bool
  | some limit, size => decide (limit < size)
  | none, _ => false

/-- `PostOrderIterator::render_directory`, `src/dir/builder/iter.rs:83-162`: the `Leaf` (Cid and total size), and the
buffer afterwards. The buffer is extended with zeroes to at least `size` bytes, overwritten from the start and cut to
`size`. -/
def renderDirectory (sha : Bytes → Bytes) (links : Leaves) (buffer : Bytes) (block_size_limit : Option Nat) :
    Res TreeConstructionFailed (Cid × Nat) × Bytes :=
  match unwrapAll links with
  | none => (.panic .customPbMissing, buffer)
  | some ls =>
    let size := customSize ls directoryData
    if exceedsLimit block_size_limit size then
      (.err (.TooLargeBlock size), buffer)
    else
      let buffer := buffer ++ List.replicate (size - buffer.length) 0
      let written := customWrite ls directoryData
      if buffer.length < written.length then (.err .Protobuf, buffer)
      else
        let buffer := (written ++ buffer.drop written.length).take size
        (do let total ← add64 .iterOverflow buffer.length (ls.map (·.total_size)).sum
            .ok (cidOf sha buffer, total), buffer)

/-- `bytes().rposition(|ch| ch == b'/')`. (`src/dir/builder/iter.rs:374`.) -/
def rposSlash (b : Bytes) : Option Nat :=
  match b.reverse.findIdx? (· == slash) with
  | none => none
  | some i => some (b.length - 1 - i)

/-- The loop of `update_full_path`, `src/dir/builder/iter.rs:371-392`; `true` means the early `return` at line 379. -/
def popPath (name : Option Bytes) (depth : Nat) : Nat → Bytes → Res Unit (Bytes × Nat × Bool)
  | 0, full_path => .ok (full_path, 0, false)
  | old_depth + 1, full_path =>
    if depth ≤ old_depth + 1 then
      match rposSlash full_path with
      | some slash_at =>
        if old_depth + 1 = depth ∧ some (full_path.drop (slash_at + 1)) = name then .ok (full_path, old_depth + 1, true)
        else popPath name depth old_depth (full_path.take slash_at)
      | none => .panic .iterNoSlash
    else .ok (full_path, old_depth + 1, false)

/-- `update_full_path` after the loop, `src/dir/builder/iter.rs:394-404`. -/
def pushName (full_path : Bytes) (old_depth : Nat) (name : Option Bytes) (depth : Nat) : Res Unit (Bytes × Nat) :=
  if depth < old_depth then .panic .iterDepth
  else
    let (full_path, old_depth) : Bytes × Nat :=
      match name with
      | some name => ((if full_path ≠ [] then full_path ++ [slash] else full_path) ++ name, old_depth + 1)
      | none => (full_path, old_depth)
    if old_depth ≠ depth then .panic .iterDepth else .ok (full_path, old_depth)

/-- `update_full_path`, `src/dir/builder/iter.rs:357-405`. -/
def updateFullPath (full_path : Bytes) (old_depth : Nat) (name : Option Bytes) (depth : Nat) : Res Unit (Bytes × Nat) :=
  if depth < 2 then pushName [] 0 name depth
  else
    match popPath name depth old_depth full_path with
    | .panic p => .panic p
    | .err e => .err e
    | .ok (full_path, old_depth, true) => .ok (full_path, old_depth)
    | .ok (full_path, old_depth, false) => pushName full_path old_depth name depth

/-- `partition_children_leaves`, `src/dir/builder/iter.rs:409-434`: the leaves, and the children in the order pushed. -/
def partitionChildrenLeaves (depth : Nat) : Nat → List DNode → Leaves × List Visited
  | _, [] => ([], [])
  | i, .dir k nodes md pid id :: rest =>
    let (leaves, children) := partitionChildrenLeaves depth (i + 1) rest
    (none :: leaves, .Descent ⟨nodes, md, pid, id⟩ k (depth + 1) i :: children)
  | i, .leaf k link total_size :: rest =>
    let (leaves, children) := partitionChildrenLeaves depth (i + 1) rest
    (some ⟨k, link, total_size⟩ :: leaves, children)

/-- `LeafStorage::into_inner`, `src/dir/builder/iter.rs:442-455`. -/
def LeafStorage.intoInner (self : LeafStorage) (stash : Nat → Option Leaves) : Res Unit (Leaves × (Nat → Option Leaves)) :=
  match self with
  | .Direct leaves => .ok (leaves, stash)
  | .Stashed id =>
    match stash id with
    | some leaves => .ok (leaves, hmRemove stash id)
    | none => .panic .iterStash

/-- `name` and `depth` of a stack item, `src/dir/builder/iter.rs:169-174`. -/
def Visited.nameDepth : Visited → Option Bytes × Nat
  | .DescentRoot _ => (none, 0)
  | .Descent _ name depth _ => (some name, depth)
  | .Post _ depth name _ _ => (some name, depth)
  | .PostRoot _ => (none, 0)

/-- What one iteration of the loop in `next_borrowed` does: go on, return an item, an error or `None`, or panic. (`src/dir/builder/iter.rs:158-300`.) -/
inductive IterStep where
  | continue (it : PostOrderIterator)
  | item (it : PostOrderIterator) (node : TreeNode)
  | failed (it : PostOrderIterator) (e : TreeConstructionFailed)
  | done (it : PostOrderIterator)
  | panic (p : Panic)

/-- Storing the leaves of a directory being descended into, `src/dir/builder/iter.rs:180-190` and `:200-210`. -/
def stashLeaves (persisted : Nat → Option Leaves) (id : Nat) (leaves : Leaves) (children : List Visited) :
    (Nat → Option Leaves) × LeafStorage :=
  if children ≠ [] then (hmInsert persisted id leaves, .Stashed id) else (persisted, .Direct leaves)

/-- One iteration of the loop of `PostOrderIterator::next_borrowed`, `src/dir/builder/iter.rs:168-295`. -/
def PostOrderIterator.step (sha : Bytes → Bytes) (self : PostOrderIterator) : IterStep :=
  match self.pending with
  | [] => .done self
  | visited :: pending =>
    match updateFullPath self.full_path self.old_depth visited.nameDepth.1 visited.nameDepth.2 with
    | .panic p => .panic p
    | .err () => .panic .iterDepth
    | .ok (full_path, old_depth) =>
      let self := { self with full_path := full_path, old_depth := old_depth, pending := pending }
      match visited with
      | .DescentRoot node =>
        let (leaves, children) := partitionChildrenLeaves 0 0 node.nodes
        let (persisted, leaves) := stashLeaves self.persisted_cids node.id leaves children
        .continue { self with persisted_cids := persisted, pending := children.reverse ++ .PostRoot leaves :: pending }
      | .Descent node name depth index =>
        let (leaves, children) := partitionChildrenLeaves depth 0 node.nodes
        match node.parent_id with
        | none => .panic .iterParentId
        | some parent_id =>
          let (persisted, leaves) := stashLeaves self.persisted_cids node.id leaves children
          .continue { self with
            persisted_cids := persisted
            pending := children.reverse ++ .Post parent_id depth name index leaves :: pending }
      | .Post parent_id _ name index leaves =>
        match leaves.intoInner self.persisted_cids with
        | .panic p => .panic p
        | .err () => .panic .iterStash
        | .ok (leaves, persisted) =>
          match renderDirectory sha leaves self.block_buffer self.opts.block_size_limit with
          | (.panic p, _) => .panic p
          | (.err e, buffer) => .failed { self with persisted_cids := persisted, block_buffer := buffer } e
          | (.ok (cid, total), buffer) =>
            match persisted parent_id with
            | none => .panic .iterNoParentLeaves
            | some vec =>
              match vec[index]? with
              | none => .panic .iterIndex
              | some (some _) => .panic .iterCell
              | some none =>
                let persisted := hmInsert persisted parent_id (vec.set index (some ⟨name, cid, total⟩))
                .item { self with persisted_cids := persisted, block_buffer := buffer } ⟨full_path, cid, total, buffer⟩
      | .PostRoot leaves =>
        match leaves.intoInner self.persisted_cids with
        | .panic p => .panic p
        | .err () => .panic .iterStash
        | .ok (leaves, persisted) =>
          if self.opts.wrap_with_directory = false then .done { self with persisted_cids := persisted }
          else
            match renderDirectory sha leaves self.block_buffer self.opts.block_size_limit with
            | (.panic p, _) => .panic p
            | (.err e, buffer) => .failed { self with persisted_cids := persisted, block_buffer := buffer } e
            | (.ok (cid, total), buffer) =>
              .item { self with persisted_cids := persisted, block_buffer := buffer } ⟨full_path, cid, total, buffer⟩

/-- Result of a call of `next`: `Some(Ok(node))`, `Some(Err(e))`, `None`, or a panic. (`src/dir/builder/iter.rs:304-311`.) -/
inductive IterNext where
  | item (node : TreeNode)
  | failed (e : TreeConstructionFailed)
  | finished
  | panic (p : Panic)
  deriving DecidableEq, Repr

/-- `PostOrderIterator::next_borrowed` = `Iterator::next`, `src/dir/builder/iter.rs:167-306`: the answer and the iterator
afterwards. `none` would be an endless loop. -/
def PostOrderIterator.next (sha : Bytes → Bytes) (self : PostOrderIterator) : Option (IterNext × PostOrderIterator) :=
  match self.step sha with
  | .continue it => PostOrderIterator.next sha it
  | .item it node => some (.item node, it)
  | .failed it e => some (.failed e, it)
  | .done it => some (.finished, it)
  | .panic p => some (.panic p, self)
partial_fixpoint

end Verif
