import Verif.Spec.Adding
/-
Which piece of a content stands behind which block.
-/
namespace Verif.Spec
open Verif

/-- The bytes below a block at level `k` (leaves are at level 0) of which all children are there. -/
def span (c bf k : Nat) : Nat := c * bf ^ k

/-- The subtree over one piece of the content, at level `k`: a leaf, or a link block over the subtrees of the pieces one level below. -/
def pieceTree (c bf : Nat) : Nat → Bytes → FTree
  | 0, d => .leaf d
  | k + 1, d => .node ((chunks (span c bf k) d).map (pieceTree c bf k))

/-- The blocks at level `k`: one for each piece of `span c bf k` bytes, the last one possibly shorter. -/
def levelBlocks (sha : Bytes → Bytes) (c bf : Nat) (x : Bytes) (k : Nat) : List (Cid × Bytes) :=
  (chunks (span c bf k) x).map (fun d => (pieceTree c bf k d).entry sha)

/-- The level of the root: the first one where a single block spans the content. -/
def RootLevel (c bf : Nat) (x : Bytes) (h : Nat) : Prop := x.length ≤ span c bf h ∧ ∀ k, k < h → span c bf k < x.length

/-- The blocks which have to be stored, given that those in the second list are already there. -/
def newBlocks (blocks there : List (Cid × Bytes)) : List (Cid × Bytes) := blocks.filter (fun e => decide (e ∉ there))

end Verif.Spec
