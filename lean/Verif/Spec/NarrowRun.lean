import Verif.NarrowRun
import Verif.Spec.Narrow
import Verif.Spec.Reading
import Verif.Spec.FsTree
/-
Clients on a platform with 32 bits, and when their answers may differ from those with 64.
-/
namespace Verif.Spec
open Verif

/-- Reading on: as `readFrom`. -/
def readFrom32 (get : Cid → Option Bytes) (v : FileVisit) : Option (Res ReadError (Bytes × List Cid)) :=
  match v.pendingLinks with
  | .panic p => some (.panic p)
  | .err () => some (.err .noLinks)
  | .ok (first, _) =>
    match get first with
    | none => some (.err (.missing first))
    | some block =>
      match (v.continueWalk32 block none).1 with
      | .panic p => some (.panic p)
      | .err e => some (.err (.failed e))
      | .ok (content, none) => some (.ok (content, [first]))
      | .ok (content, some v') => do
        let r ← readFrom32 get v'
        some (r.map (fun (c, q) => (content ++ c, first :: q)))
partial_fixpoint

/-- Reading a file: as `readFile`. -/
def readFile32 (get : Cid → Option Bytes) (idle : IdleFileVisit) (root : Bytes) :
    Option (Res ReadError (Bytes × List Cid)) :=
  match idle.start32 root with
  | .panic p => some (.panic p)
  | .err e => some (.err (.failed e))
  | .ok ⟨content, _, _, none⟩ => some (.ok (content, []))
  | .ok ⟨content, _, _, some v⟩ => do
    let r ← readFrom32 get v
    some (r.map (fun (c, q) => (content ++ c, q)))

/-- Walking: as `walkFrom`. -/
def walkFrom32 (get : Cid → Option Bytes) (w : Walker) (cache : Option VisitCache) : Option (Res WalkFail (List ContinuedWalk)) :=
  if w.shouldContinue = false then some (.ok [])
  else match w.pendingLinks with
  | .panic p => some (.panic p)
  | .err () => some (.err .noLinks)
  | .ok (first, _) =>
    match get first with
    | none => some (.err (.missing first))
    | some block =>
      match w.step32 block cache with
      | (.panic p, _, _) => some (.panic p)
      | (.err e, _, _) => some (.err (.failed e))
      | (.ok item, w', cache') => do
        let r ← walkFrom32 get w' cache'
        some (r.map (fun items => item :: items))
partial_fixpoint

/-- All blocks have a length in 32 bits. -/
def Short (get : Cid → Option Bytes) : Prop := ∀ c b, get c = some b → b.length < U32

/-- The block is accepted (with 64 bits). -/
def Taken (b : Bytes) : Prop := ∃ m, FlatUnixFs.tryParse b = .ok m

/-- Reading ends with a block which is refused, or with the panic for a block with fewer bytes than the range asks for. -/
def ReadStops (r : Res ReadError (Bytes × List Cid)) : Prop := (∃ e, r = .err (.failed (.Read e))) ∨ r = .panic .visitSlice

/-- Walking ends with a block which is refused (in the middle of a file that is a panic, C27). -/
def WalkStops (r : Res WalkFail (List ContinuedWalk)) : Prop :=
  (∃ e, r = .err (.failed (.DagPbParsingFailed e))) ∨ (∃ e, r = .err (.failed (.UnixFsParsingFailed e))) ∨
    r = .err (.failed .EmptyDagPbNode) ∨ r = .panic .walkRead

end Verif.Spec
