import Verif.Spec.Adding
/-
The balanced layout, level by level.
-/
namespace Verif.Spec
open Verif

/-- `Layered bf ts T`: putting link blocks of `bf` children each (the last one possibly smaller) over the trees `ts`, then
over these link blocks, and so on until a single tree is left, ends with `T`. -/
inductive Layered (bf : Nat) : List FTree → FTree → Prop
  | one (T : FTree) : Layered bf [T] T
  | up {ts : List FTree} {T : FTree} : 2 ≤ ts.length → Layered bf ((groups bf ts).map .node) T → Layered bf ts T

/-- The balanced tree of a content: the layout over its chunks. -/
def BalancedTree (c bf : Nat) (x : Bytes) (T : FTree) : Prop := Layered bf ((chunks c x).map .leaf) T

/-- The size of a tree (the sum of the lengths of its blocks) fits into 64 bits; nothing is asked of a single leaf, whose size
the code never adds up. -/
def Fits (sha : Bytes → Bytes) (t : FTree) : Prop := ∀ ts, t = .node ts → t.total sha < U64

end Verif.Spec
