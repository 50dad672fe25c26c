import Verif.Dir
import Verif.Spec.Logs
import Verif.Spec.Visiting
/-
How the blocks of a store hang together: chains of links, and how many blocks there are below one, counting a block once for every
way to get to it.
-/
namespace Verif.Spec
open Verif

/-- The Cids which a block links to, in the order of its links; none if it is not a UnixFS node. -/
def linkCids (block : Bytes) : List Cid :=
  match FlatUnixFs.tryParse block with
  | .ok m => m.links.filterMap (fun l => (Cid.tryFrom (l.Hash.getD [])).toOption)
  | .error _ => []

/-- In the store, the block of `c` has a link to `c'`. -/
def RefersTo (get : Cid → Option Bytes) (c c' : Cid) : Prop := ∃ block, get c = some block ∧ c' ∈ linkCids block

/-- There is no endless chain of links which starts at `c`. -/
def ChainsEnd (get : Cid → Option Bytes) (c : Cid) : Prop :=
  ¬ ∃ chain : Nat → Cid, chain 0 = c ∧ ∀ n, RefersTo get (chain n) (chain (n + 1))

mutual
/-- `Unfolds get c n`: there are `n` chains of links from `c` to a Cid, the empty one included. This is the size of the tree which
one gets by following all links, without noticing that some lead to the same block. -/
inductive Unfolds (get : Cid → Option Bytes) : Cid → Nat → Prop
  | missing {c : Cid} : get c = none → Unfolds get c 1
  | block {c : Cid} {b : Bytes} {n : Nat} : get c = some b → UnfoldsL get (linkCids b) n → Unfolds get c (n + 1)
/-- The same for all of several Cids. -/
inductive UnfoldsL (get : Cid → Option Bytes) : List Cid → Nat → Prop
  | nil : UnfoldsL get [] 0
  | cons {c : Cid} {cs : List Cid} {n k : Nat} : Unfolds get c n → UnfoldsL get cs k → UnfoldsL get (c :: cs) (n + k)
end

/-- `Bounded get B h c`: starting at `c`, chains of links have at most `h` links, and blocks at most `B` links each. -/
def Bounded (get : Cid → Option Bytes) (B : Nat) : Nat → Cid → Prop
  | 0, c => ∀ b, get c = some b → linkCids b = []
  | h + 1, c => ∀ b, get c = some b → (linkCids b).length ≤ B ∧ ∀ c' ∈ linkCids b, Bounded get B h c'

/-- `ReadsAt get idle c v`: a visit started with the block of `c`, and always continued with the block of the first pending link,
as it is in the store, has come to `v`. -/
inductive ReadsAt (get : Cid → Option Bytes) (idle : IdleFileVisit) (c : Cid) : FileVisit → Prop
  | start {root : Bytes} {r : FileVisitResult} {v : FileVisit} : get c = some root → idle.start root = .ok r → r.next = some v →
      ReadsAt get idle c v
  | next {v v' : FileVisit} {first : Cid} {rest : List Cid} {block x : Bytes} {cache : Option VisitCache} : ReadsAt get idle c v →
      v.pendingLinks = .ok (first, rest) → get first = some block → (v.continueWalk block cache).1 = .ok (x, some v') →
      ReadsAt get idle c v'

/-- The same for walks. -/
inductive WalksAt (get : Cid → Option Bytes) (c : Cid) (name : Bytes) : Walker → Prop
  | start : WalksAt get c name (Walker.new c name)
  | next {w w' : Walker} {first : Cid} {rest : List Cid} {block : Bytes} {item : ContinuedWalk} {cache cache' : Option VisitCache} :
      WalksAt get c name w → w.shouldContinue = true → w.pendingLinks = .ok (first, rest) → get first = some block →
      (∀ k, cache = some k → CacheObtainable k) → w.step block cache = (.ok item, w', cache') → WalksAt get c name w'

/-- Looking up a name in a sharded directory: the Cids of the blocks which were asked for, and how the loop stopped. -/
inductive LookupStop where
  | found (c : Cid)
  | notFound
  | missing (c : Cid)
  | failed (e : LookupError)
  | noLinks
  | panicked (p : Panic)

/-- The loop of `examples/resolve.rs:196-217`, keeping what happened before it stopped. -/
def lookupLog (get : Cid → Option Bytes) (l : ShardedLookup) (cache : Option LookupCache) : Option (List Cid × LookupStop) :=
  match l.pendingLinks with
  | .panic p => some ([], .panicked p)
  | .err () => some ([], .noLinks)
  | .ok (first, _) =>
    match get first with
    | none => some ([], .missing first)
    | some block =>
      match l.continueWalk block cache with
      | (.panic p, _) => some ([], .panicked p)
      | (.err e, _) => some ([], .failed e)
      | (.ok (.Found c), _) => some ([first], .found c)
      | (.ok .NotFound, _) => some ([first], .notFound)
      | (.ok (.NeedToLoadMore l'), cache) => do
        let r ← lookupLog get l' cache
        some (first :: r.1, r.2)
partial_fixpoint

end Verif.Spec
