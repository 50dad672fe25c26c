import Verif.ReleaseRun
import Verif.Spec.Release
import Verif.Spec.ReleaseParse
/-
Clients of a release build over arbitrary blocks, and when a release build panics or never answers.
-/
namespace Verif.Spec
open Verif

/-- Reading on: as `readFromR`. -/
def readFromRel (get : Cid → Option Bytes) (v : FileVisit) : Option (Res ReadError (Bytes × List Cid)) :=
  match v.pendingLinks with
  | .panic p => some (.panic p)
  | .err () => some (.err .noLinks)
  | .ok (first, _) =>
    match get first with
    | none => some (.err (.missing first))
    | some block => do
      let x ← v.continueWalkRel block none
      match x.1 with
      | .panic p => some (.panic p)
      | .err e => some (.err (.failed e))
      | .ok (content, none) => some (.ok (content, [first]))
      | .ok (content, some v') => do
        let r ← readFromRel get v'
        some (r.map (fun (c, q) => (content ++ c, first :: q)))
partial_fixpoint

/-- Reading a file: as `readFileR`. -/
def readFileRel (get : Cid → Option Bytes) (idle : IdleFileVisit) (root : Bytes) : Option (Res ReadError (Bytes × List Cid)) :=
  match idle.startRel root with
  | none => none
  | some (.panic p) => some (.panic p)
  | some (.err e) => some (.err (.failed e))
  | some (.ok ⟨content, _, _, none⟩) => some (.ok (content, []))
  | some (.ok ⟨content, _, _, some v⟩) => do
    let r ← readFromRel get v
    some (r.map (fun (c, q) => (content ++ c, q)))

/-- Walking: as `walkFromR`. -/
def walkFromRel (get : Cid → Option Bytes) (w : Walker) (cache : Option VisitCache) : Option (Res WalkFail (List ContinuedWalk)) :=
  if w.shouldContinue = false then some (.ok [])
  else match w.pendingLinks with
  | .panic p => some (.panic p)
  | .err () => some (.err .noLinks)
  | .ok (first, _) =>
    match get first with
    | none => some (.err (.missing first))
    | some block => do
      let x ← w.stepRel block cache
      match x with
      | (.panic p, _, _) => some (.panic p)
      | (.err e, _, _) => some (.err (.failed e))
      | (.ok item, w', cache') => do
        let r ← walkFromRel get w' cache'
        some (r.map (fun items => item :: items))
partial_fixpoint

/-- A store of blocks which nothing overruns. -/
def Kept (b : Bytes) : Prop := b.length < 2 ^ 63 ∧ ¬ Overrun b

/-- Reading the block never ends. -/
def Endless (b : Bytes) : Prop := FlatUnixFs.tryParseR b = none

/-- A release build reads this from the block. -/
def Reads (b : Bytes) (m : FlatUnixFs) : Prop := FlatUnixFs.tryParseR b = some (.ok m)

/-- As `StartPanicsR`. -/
def StartPanicsRel (b : Bytes) : Prop := ∃ m, Reads b m ∧ Passed m ∧ m.links = [] ∧ m.data.filesize = none

/-- As `ContinuePanicsR`. -/
def ContinuePanicsRel (v : FileVisit) (b : Bytes) : Prop :=
  nextInterval v = none ∨
  ∃ i m, nextInterval v = some i ∧ Follows v.state.last_ending v.state.last_offset i ∧ Reads b m ∧
    m.data.mode = none ∧ m.data.mtime = none ∧ Passed m ∧ m.links = [] ∧
    (m.data.filesize = none ∨
     ∃ r, v.range = some r ∧ i.lo ≤ i.hi ∧ touches r i = true ∧ i.lo + (m.data.Data.getD []).length < min r.hi i.hi)

/-- If the block is a leaf it declares its size. -/
def LeafSizedRel (b : Bytes) : Prop := ∀ m, Reads b m → m.links = [] → m.data.filesize ≠ none

end Verif.Spec
