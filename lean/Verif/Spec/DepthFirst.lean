import Verif.Spec.Logs
/-
Going through everything below a block, depth first, in the order of the links.
-/
namespace Verif.Spec
open Verif

/-- The Cids of all links of a block, in order; each of them can be read. The links of a symlink do not count. -/
def LinksAre (block : Bytes) (cids : List Cid) : Prop :=
  ∃ m, FlatUnixFs.tryParse block = .ok m ∧
    if m.data.Ty = .Symlink then cids = [] else m.links.map (fun l => Cid.tryFrom (l.Hash.getD [])) = cids.map .ok

mutual
/-- `DepthFirst get c order`: all blocks below `c` are in the store, and `order` is `c` itself, then everything below its first link, then
everything below its second link, and so on. A block which can be reached in two ways is there twice. -/
inductive DepthFirst (get : Cid → Option Bytes) : Cid → List Cid → Prop
  | block {c : Cid} {b : Bytes} {links order : List Cid} : get c = some b → LinksAre b links → DepthFirstL get links order →
      DepthFirst get c (c :: order)
/-- The same for several Cids, one after the other. -/
inductive DepthFirstL (get : Cid → Option Bytes) : List Cid → List Cid → Prop
  | nil : DepthFirstL get [] []
  | cons {c : Cid} {cs o1 o2 : List Cid} : DepthFirst get c o1 → DepthFirstL get cs o2 → DepthFirstL get (c :: cs) (o1 ++ o2)
end

/-- `LinkedTo get c d`: some chain of links, none of them of a symlink, leads from `c` to `d`. -/
inductive LinkedTo (get : Cid → Option Bytes) : Cid → Cid → Prop
  | here (c : Cid) : LinkedTo get c c
  | link {c k d : Cid} {b : Bytes} {links : List Cid} : get c = some b → LinksAre b links → k ∈ links → LinkedTo get k d → LinkedTo get c d

end Verif.Spec
