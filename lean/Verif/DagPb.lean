import Verif.Messages
/-
Model of `/repo/src/dagpb.rs` and `/repo/src/symlink.rs`.
-/
namespace Verif

/-- `node_data`, `src/dagpb.rs:10-17`. The slice keeps its position in the block. `Cow::Owned` never occurs for
freshly read nodes, so `unreachable!` at line 14 has no counterpart. -/
def nodeDataSlice (block : Bytes) : Except PbError (Option Slice) := do
  let doc ← PBNode.tryFrom block
  .ok doc.Data

/-- The value a caller of `node_data` sees. (`src/dagpb.rs:10-17`.) -/
def dagNodeData (block : Bytes) : Except PbError (Option Bytes) := do
  let d ← nodeDataSlice block
  .ok (d.map (·.val))

/-- `subslice_to_range`, `src/dagpb.rs:34-55`, for a `sub` which was sliced out of `full` at `sub.off` (the pointer
difference), so that `checked_sub` always succeeds. -/
def subsliceToRange (full : Bytes) (sub : Slice) : Option (Nat × Nat) :=
  let max := full.length
  let amt := sub.val.length
  if max < amt then none
  else if max ≤ sub.off then none
  else some (sub.off, sub.off + amt)

/-- `NodeData`, `src/dagpb.rs:59-62`. -/
structure NodeData where
  inner : Bytes
  range : Option (Nat × Nat)
  deriving DecidableEq, Repr

/-- `wrap_node_data`, `src/dagpb.rs:21-32`. -/
def wrapNodeData (block : Bytes) : Res PbError NodeData :=
  match nodeDataSlice block with
  | .error e => .err e
  | .ok none => .ok ⟨block, none⟩
  | .ok (some d) =>
    match subsliceToRange block d with
    | none => .panic .dagpbNotInRange
    | some r => .ok ⟨block, some r⟩

/-- `NodeData::node_data`, `src/dagpb.rs:78-84`; the index expression panics out of bounds. -/
def NodeData.get (n : NodeData) : Res Unit Bytes :=
  match n.range with
  | none => .ok []
  | some (s, e) =>
    if s ≤ e ∧ e ≤ n.inner.length then .ok ((n.inner.take e).drop s) else .panic .dagpbSlice

/-- `serialize_symlink_block`, `src/symlink.rs:13-31`: the new contents of `block_buffer`. `Writer::new(&mut Vec)`
appends. -/
def serializeSymlinkBlock (targetPath : Bytes) (buffer : Bytes) : Bytes :=
  let node : FlatUnixFs := { links := [], data := { Ty := .Symlink, Data := some targetPath } }
  buffer ++ node.write

end Verif
