import Verif.Spec.ShardStep
/-
The shards of a sharded directory level by level, and what it means to have asked for some of them.
-/
namespace Verif.Spec
open Verif

/-- The shards which the block of `c` links to, in the order of its links. -/
def bucketsOf (get : Cid → Option Bytes) (c : Cid) : List Cid :=
  match get c with
  | none => []
  | some b => match FlatUnixFs.tryParse b with
    | .ok m => bucketCids m.links
    | .error _ => []

/-- Level `n`: what is linked `n` links below the shards `first`, from left to right. -/
def levelOf (get : Cid → Option Bytes) (first : List Cid) : Nat → List Cid
  | 0 => first
  | n + 1 => (levelOf get first n).flatMap (bucketsOf get)

/-- The first `n` levels, one after the other. -/
def levelOrder (get : Cid → Option Bytes) (first : List Cid) (n : Nat) : List Cid := (List.range n).flatMap (levelOf get first)

/-- One of the links of the block is the entry `needle`, and it leads to `c`. -/
def HasEntry (block needle : Bytes) (c : Cid) : Prop :=
  ∃ m l, FlatUnixFs.tryParse block = .ok m ∧ l ∈ m.links ∧ IsHit needle l ∧ Cid.tryFrom (l.Hash.getD []) = .ok c

/-- The block has no entry `needle`. -/
def NoEntry (block needle : Bytes) : Prop :=
  ∀ m l, FlatUnixFs.tryParse block = .ok m → l ∈ m.links → ¬ IsHit needle l

/-- The look-up `l` of `needle` in the directory `block` was obtained by giving the blocks of `q` one after the other, each being
the first which was asked for. Caches may be passed or not, and the name may be copied at any time. -/
inductive Asked (get : Cid → Option Bytes) (block needle : Bytes) : List Cid → ShardedLookup → Prop
  | start {cache cache' l} : (∀ k, cache = some k → k.buffer = []) → resolve block needle cache = (.ok (.NeedToLoadMore l), cache') →
      Asked get block needle [] l
  | more {q l c rest b cache cache' l'} : Asked get block needle q l → l.pendingLinks = .ok (c, rest) → get c = some b →
      l.continueWalk b cache = (.ok (.NeedToLoadMore l'), cache') → Asked get block needle (q ++ [c]) l'
  | owned {q l} : Asked get block needle q l → Asked get block needle q l.withOwnedNeedle

end Verif.Spec
