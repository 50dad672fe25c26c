import Verif.Visit
import Verif.Spec.FileAt
/-
What it means for a client to read a file: the loop of the crate's documentation (`examples/cat.rs:77-103`), and what the
answers should be in terms of file trees.
-/
namespace Verif.Spec
open Verif

/-- Why reading a file can fail. -/
inductive ReadError where
  | missing (c : Cid)
  | failed (e : FileReadFailed)
  | noLinks

/-- The loop: ask for the first pending link, fetch its block, continue. `none`: the loop does not terminate. The result
is the concatenation of the returned bytes and the list of fetched Cids. -/
def readFrom (get : Cid → Option Bytes) (v : FileVisit) : Option (Res ReadError (Bytes × List Cid)) :=
  match v.pendingLinks with
  | .panic p => some (.panic p)
  | .err () => some (.err .noLinks)
  | .ok (first, _) =>
    match get first with
    | none => some (.err (.missing first))
    | some block =>
      match (v.continueWalk block none).1 with
      | .panic p => some (.panic p)
      | .err e => some (.err (.failed e))
      | .ok (content, none) => some (.ok (content, [first]))
      | .ok (content, some v') => do
        let r ← readFrom get v'
        some (r.map (fun (c, q) => (content ++ c, first :: q)))
partial_fixpoint

/-- Start a visit at the root block and read to the end. -/
def readFile (get : Cid → Option Bytes) (idle : IdleFileVisit) (root : Bytes) :
    Option (Res ReadError (Bytes × List Cid)) :=
  match idle.start root with
  | .panic p => some (.panic p)
  | .err e => some (.err (.failed e))
  | .ok ⟨content, _, _, none⟩ => some (.ok (content, []))
  | .ok ⟨content, _, _, some v⟩ => do
    let r ← readFrom get v
    some (r.map (fun (c, q) => (content ++ c, q)))

/-- The part of `x` inside the half open range `s..e`. -/
def slice (x : Bytes) (r : Rng) : Bytes := (x.take r.hi).drop r.lo

/-- The closed intervals `[i.lo, i.hi]` and `[r.lo, r.hi]` have a point in common. -/
def touches (r : Rng) (i : Rng) : Bool := decide (r.lo ≤ r.hi ∧ i.lo ≤ r.hi ∧ r.lo ≤ i.hi)

/-- With no target everything is of interest. -/
def touchesO : Option Rng → Rng → Bool
  | none, _ => true
  | some r, i => touches r i

mutual
/-- The blocks below the root of a file tree (the root's block being `b` and starting at byte `off` of the file), depth
first, in link order, each with the interval of the file's bytes it covers. -/
def below (get : Cid → Option Bytes) : FTree → Bytes → Nat → List (Cid × Rng)
  | .leaf _, _, _ => []
  | .node ts, b, off =>
    match FlatUnixFs.tryParse b with
    | .ok m => belowL get ts m.links off
    | .error _ => []
def belowL (get : Cid → Option Bytes) : List FTree → List PBLink → Nat → List (Cid × Rng)
  | t :: ts, l :: ls, off =>
    (match Cid.tryFrom (l.Hash.getD []) with
      | .ok cid => (cid, ⟨off, off + t.content.length⟩) ::
          (match get cid with
            | some b => below get t b off
            | none => [])
      | .error _ => []) ++ belowL get ts ls (off + t.content.length)
  | _, _, _ => []
end

end Verif.Spec
