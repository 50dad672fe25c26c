import Verif.Release
import Verif.Spec.Adding
import Verif.Spec.Building
import Verif.Spec.FsTree
import Verif.Spec.Panics
/-
Release builds and checked builds: how their answers are compared, and the loops of clients running a release build.
-/
namespace Verif.Spec
open Verif

/-- What a checked build answers (`d`) and what a release build answers (`r`): the same, unless the checked build panics where
the release build has no check. -/
def Agree {ε α : Type} (d r : Res ε α) : Prop := (∃ p, d = .panic p ∧ p.checked = true) ∨ r = d

/-- The same for answers which come with a new state. -/
def AgreeS {ε α σ : Type} (d r : Res ε α × σ) : Prop := (∃ p, d.1 = .panic p ∧ p.checked = true) ∨ r = d

/-- The same for code which may diverge (`none`): it does so in both builds or in neither. -/
def AgreeRun {ε α : Type} (d r : Option (Res ε α)) : Prop := (∃ p, d = some (.panic p) ∧ p.checked = true) ∨ r = d

/-- The ends of a target range are `u64`s. -/
def RangeFits (r : Option Rng) : Prop := ∀ t, r = some t → t.lo < U64 ∧ t.hi < U64

/-! ### Clients of a release build: as `readFrom`, `readFile`, `walkFrom`, `nexts`, `Reaches` and `Adds` -/

/-- Reading on. -/
def readFromR (get : Cid → Option Bytes) (v : FileVisit) : Option (Res ReadError (Bytes × List Cid)) :=
  match v.pendingLinks with
  | .panic p => some (.panic p)
  | .err () => some (.err .noLinks)
  | .ok (first, _) =>
    match get first with
    | none => some (.err (.missing first))
    | some block =>
      match (v.continueWalkR block none).1 with
      | .panic p => some (.panic p)
      | .err e => some (.err (.failed e))
      | .ok (content, none) => some (.ok (content, [first]))
      | .ok (content, some v') => do
        let r ← readFromR get v'
        some (r.map (fun (c, q) => (content ++ c, first :: q)))
partial_fixpoint

/-- Reading a file. -/
def readFileR (get : Cid → Option Bytes) (idle : IdleFileVisit) (root : Bytes) : Option (Res ReadError (Bytes × List Cid)) :=
  match idle.startR root with
  | .panic p => some (.panic p)
  | .err e => some (.err (.failed e))
  | .ok ⟨content, _, _, none⟩ => some (.ok (content, []))
  | .ok ⟨content, _, _, some v⟩ => do
    let r ← readFromR get v
    some (r.map (fun (c, q) => (content ++ c, q)))

/-- Walking. -/
def walkFromR (get : Cid → Option Bytes) (w : Walker) (cache : Option VisitCache) : Option (Res WalkFail (List ContinuedWalk)) :=
  if w.shouldContinue = false then some (.ok [])
  else match w.pendingLinks with
  | .panic p => some (.panic p)
  | .err () => some (.err .noLinks)
  | .ok (first, _) =>
    match get first with
    | none => some (.err (.missing first))
    | some block =>
      match w.stepR block cache with
      | (.panic p, _, _) => some (.panic p)
      | (.err e, _, _) => some (.err (.failed e))
      | (.ok item, w', cache') => do
        let r ← walkFromR get w' cache'
        some (r.map (fun items => item :: items))
partial_fixpoint

/-- Building a directory tree. -/
def nextsR (sha : Bytes → Bytes) : Nat → PostOrderIterator → Option (List IterNext)
  | 0, _ => some []
  | n + 1, it =>
    match PostOrderIterator.nextR sha it with
    | none => none
    | some (.panic _, _) => none
    | some (a, it) => (nextsR sha n it).map (a :: ·)

/-- Pushing. -/
inductive ReachesR (sha : Bytes → Bytes) (c bf : Nat) : Bytes → List (Cid × Bytes) → FileAdder → Prop
  | start : ReachesR sha c bf [] [] (newAdder c bf)
  | push {x bs a} (input : Bytes) {a' bs' n} : ReachesR sha c bf x bs a →
      a.pushR sha input = some (.ok (a', bs', n)) → ReachesR sha c bf (x ++ input.take n) (bs ++ bs') a'

/-- Adding a file. -/
def AddsR (sha : Bytes → Bytes) (c bf : Nat) (x : Bytes) (blocks : List (Cid × Bytes)) : Prop :=
  ∃ bs a bs', ReachesR sha c bf x bs a ∧ a.finishR sha = some (.ok bs') ∧ blocks = bs ++ bs'

/-! ### When reading panics in a release build -/

/-- The first block makes the visit panic: all is right with it, and it has no links and declares no file size. -/
def StartPanicsR (b : Bytes) : Prop :=
  ∃ m, FlatUnixFs.tryParse b = .ok m ∧ Passed m ∧ m.links = [] ∧ m.data.filesize = none

/-- A continuation block makes the visit panic: it is expected for no interval at all; or, while all is right with it
otherwise, it is a leaf which declares no size, or one which is shorter than the part of its interval which is wanted. The
interval may be reversed; then no part of it is wanted. -/
def ContinuePanicsR (v : FileVisit) (b : Bytes) : Prop :=
  nextInterval v = none ∨
  ∃ i m, nextInterval v = some i ∧ Follows v.state.last_ending v.state.last_offset i ∧ FlatUnixFs.tryParse b = .ok m ∧
    m.data.mode = none ∧ m.data.mtime = none ∧ Passed m ∧ m.links = [] ∧
    (m.data.filesize = none ∨
     ∃ r, v.range = some r ∧ i.lo ≤ i.hi ∧ touches r i = true ∧ i.lo + (m.data.Data.getD []).length < min r.hi i.hi)

/-- If the block is a leaf it declares its size. -/
def LeafSized (b : Bytes) : Prop := ∀ m, FlatUnixFs.tryParse b = .ok m → m.links = [] → m.data.filesize ≠ none

/-- The path in a report of a walker. -/
def pathOf : ContinuedWalk → PathBuf
  | .Bucket _ p => p
  | .Directory _ p _ => p
  | .File _ _ p _ _ => p
  | .RootDirectory _ p _ => p
  | .Symlink _ _ p _ => p

end Verif.Spec
