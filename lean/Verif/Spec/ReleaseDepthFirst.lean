import Verif.Spec.ReleaseEnds
import Verif.Spec.Logs
/-
Going through everything below a block depth first, as a release build reads the blocks.
-/
namespace Verif.Spec
open Verif

/-- The Cids of all links of a block, in order, as a release build reads them; each of them is valid. The links of a symlink do not count. -/
def LinksAreRel (block : Bytes) (cids : List Cid) : Prop :=
  ∃ m, Reads block m ∧ if m.data.Ty = .Symlink then cids = [] else m.links.map (fun l => Cid.tryFrom (l.Hash.getD [])) = cids.map .ok

mutual
/-- As `DepthFirst`: all blocks below `c` are in the store, and `order` is `c` itself, then everything below its first link, then
everything below its second link, and so on. A block which can be reached in two ways is there twice. -/
inductive DepthFirstRel (get : Cid → Option Bytes) : Cid → List Cid → Prop
  | block {c : Cid} {b : Bytes} {links order : List Cid} : get c = some b → LinksAreRel b links → DepthFirstRelL get links order →
      DepthFirstRel get c (c :: order)
/-- The same for several Cids, one after the other. -/
inductive DepthFirstRelL (get : Cid → Option Bytes) : List Cid → List Cid → Prop
  | nil : DepthFirstRelL get [] []
  | cons {c : Cid} {cs o1 o2 : List Cid} : DepthFirstRel get c o1 → DepthFirstRelL get cs o2 → DepthFirstRelL get (c :: cs) (o1 ++ o2)
end

/-- As `LinkedTo`: some chain of links, none of them of a symlink, leads from `c` to `d`. -/
inductive LinkedToRel (get : Cid → Option Bytes) : Cid → Cid → Prop
  | here (c : Cid) : LinkedToRel get c c
  | link {c k d : Cid} {b : Bytes} {links : List Cid} : get c = some b → LinksAreRel b links → k ∈ links → LinkedToRel get k d → LinkedToRel get c d

/-- Walking: as `walkLog`. -/
def walkLogRel (get : Cid → Option Bytes) (w : Walker) (cache : Option VisitCache) :
    Option (List (Cid × ContinuedWalk) × Stop WalkError) :=
  if w.shouldContinue = false then some ([], .finished)
  else match w.pendingLinks with
  | .panic p => some ([], .panicked p)
  | .err () => some ([], .noLinks)
  | .ok (first, _) =>
    match get first with
    | none => some ([], .missing first)
    | some block => do
      let x ← w.stepRel block cache
      match x with
      | (.panic p, _, _) => some ([], .panicked p)
      | (.err e, _, _) => some ([], .failed e)
      | (.ok item, w', cache') => do
        let r ← walkLogRel get w' cache'
        some ((first, item) :: r.1, r.2)
partial_fixpoint

end Verif.Spec
