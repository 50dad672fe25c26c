import Verif.Spec.FsTree
import Verif.Spec.Reading
import Verif.Spec.Stores
/-
The client loops of `Spec/Reading.lean` and `Spec/FsTree.lean`, keeping what happened before they stopped.
-/
namespace Verif.Spec
open Verif

/-- How a loop stops. -/
inductive Stop (E : Type) where
  | finished
  | missing (c : Cid)
  | failed (e : E)
  | noLinks
  | panicked (p : Panic)

/-- Reading on (`examples/cat.rs:77-103`): for each block, its Cid and the bytes it gave; and how the loop stopped. -/
def readLog (get : Cid → Option Bytes) (v : FileVisit) : Option (List (Cid × Bytes) × Stop FileReadFailed) :=
  match v.pendingLinks with
  | .panic p => some ([], .panicked p)
  | .err () => some ([], .noLinks)
  | .ok (first, _) =>
    match get first with
    | none => some ([], .missing first)
    | some block =>
      match (v.continueWalk block none).1 with
      | .panic p => some ([], .panicked p)
      | .err e => some ([], .failed e)
      | .ok (content, none) => some ([(first, content)], .finished)
      | .ok (content, some v') => do
        let r ← readLog get v'
        some ((first, content) :: r.1, r.2)
partial_fixpoint

/-- Walking (`examples/get.rs:57-68`): for each block, its Cid and what was reported for it; and how the loop stopped. -/
def walkLog (get : Cid → Option Bytes) (w : Walker) (cache : Option VisitCache) :
    Option (List (Cid × ContinuedWalk) × Stop WalkError) :=
  if w.shouldContinue = false then some ([], .finished)
  else match w.pendingLinks with
  | .panic p => some ([], .panicked p)
  | .err () => some ([], .noLinks)
  | .ok (first, _) =>
    match get first with
    | none => some ([], .missing first)
    | some block =>
      match w.step block cache with
      | (.panic p, _, _) => some ([], .panicked p)
      | (.err e, _, _) => some ([], .failed e)
      | (.ok item, w', cache') => do
        let r ← walkLog get w' cache'
        some ((first, item) :: r.1, r.2)
partial_fixpoint

end Verif.Spec
