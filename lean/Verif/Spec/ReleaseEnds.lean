import Verif.Spec.ReleaseRun
import Verif.Spec.Chains
import Verif.Spec.Hamt
/-
How the blocks of a store hang together for a release build, and a client which looks a name up with one.
-/
namespace Verif.Spec
open Verif

/-- The Cids which a release build finds in a block, in the order of the links. -/
def linkCidsRel (block : Bytes) : List Cid :=
  match FlatUnixFs.tryParseR block with
  | some (.ok m) => m.links.filterMap (fun l => (Cid.tryFrom (l.Hash.getD [])).toOption)
  | _ => []

/-- In the store, the block of `c` has a link to `c'`, as a release build reads it. -/
def RefersToRel (get : Cid → Option Bytes) (c c' : Cid) : Prop := ∃ block, get c = some block ∧ c' ∈ linkCidsRel block

/-- There is no endless chain of links which starts at `c`. -/
def ChainsEndRel (get : Cid → Option Bytes) (c : Cid) : Prop :=
  ¬ ∃ chain : Nat → Cid, chain 0 = c ∧ ∀ n, RefersToRel get (chain n) (chain (n + 1))

/-- There is a chain of links, maybe an empty one, from one Cid to another. -/
inductive LeadsToRel (get : Cid → Option Bytes) : Cid → Cid → Prop
  | here (c : Cid) : LeadsToRel get c c
  | further {a b c : Cid} : RefersToRel get a b → LeadsToRel get b c → LeadsToRel get a c

/-- No chain of links leads from `c` to a block which a release build never stops reading. -/
def NoneEndless (get : Cid → Option Bytes) (c : Cid) : Prop := ∀ c' b, LeadsToRel get c c' → get c' = some b → ¬ Endless b

/-- `CountRel get cs n`: `n` is the number of chains of links, as a release build reads them, which start at one of `cs`; that is, the number of
blocks, each counted once for every way to get to it. -/
inductive CountRel (get : Cid → Option Bytes) : List Cid → Nat → Prop
  | nil : CountRel get [] 0
  | missing {c : Cid} {cs : List Cid} {k : Nat} : get c = none → CountRel get cs k → CountRel get (c :: cs) (k + 1)
  | block {c : Cid} {b : Bytes} {cs : List Cid} {n k : Nat} : get c = some b → CountRel get (linkCidsRel b) n → CountRel get cs k →
      CountRel get (c :: cs) (n + k + 1)

/-- Looking up a name in a sharded directory: as `lookupFrom`. -/
def lookupFromRel (get : Cid → Option Bytes) (l : ShardedLookup) (cache : Option LookupCache) :
    Option (Res LookupFail (Option Cid × List Cid)) :=
  match l.pendingLinks with
  | .panic p => some (.panic p)
  | .err () => some (.err .noLinks)
  | .ok (first, _) =>
    match get first with
    | none => some (.err (.missing first))
    | some block => do
      let x ← l.continueWalkRel block cache
      match x with
      | (.panic p, _) => some (.panic p)
      | (.err e, _) => some (.err (.resolving (.Lookup e)))
      | (.ok (.Found c), _) => some (.ok (some c, [first]))
      | (.ok .NotFound, _) => some (.ok (none, [first]))
      | (.ok (.NeedToLoadMore l'), cache) => do
        let r ← lookupFromRel get l' cache
        some (r.map (fun (c, q) => (c, first :: q)))
partial_fixpoint

/-- Looking up a name in a directory whose block is `block`: as `lookupName`. -/
def lookupNameRel (get : Cid → Option Bytes) (block : Bytes) (needle : Bytes) (cache : Option LookupCache) :
    Option (Res LookupFail (Option Cid × List Cid)) :=
  match resolveRel block needle cache with
  | none => none
  | some (.panic p, _) => some (.panic p)
  | some (.err e, _) => some (.err (.resolving e))
  | some (.ok (.Found c), _) => some (.ok (some c, []))
  | some (.ok .NotFound, _) => some (.ok (none, []))
  | some (.ok (.NeedToLoadMore l), cache) => lookupFromRel get l cache

end Verif.Spec
