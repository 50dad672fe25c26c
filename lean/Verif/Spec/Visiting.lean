import Verif.Spec.Reading
/-
Arbitrary use of a file visit: the caller may supply any bytes as blocks.
-/
namespace Verif.Spec
open Verif

/-- The interval of file bytes which the parent's block sizes assign to the block asked for next. -/
def nextInterval (v : FileVisit) : Option Rng := v.pending.getLast?.map (·.2)

/-- A leaf accepted by a visit: the offset assigned to it and the size it declares itself. -/
structure Leaf where
  start : Nat
  size : Nat
  deriving DecidableEq, Repr

/-- `Visiting target root ls v`: a visit was started on block `root` with the given target and continued with arbitrary
blocks, all accepted; it has met the leaves `ls`, in order, and is now at `v`. -/
inductive Visiting (target : Option Rng) (root : Bytes) : List Leaf → FileVisit → Prop
  | start {r : FileVisitResult} {v : FileVisit} :
      (IdleFileVisit.mk target).start root = .ok r → r.next = some v → Visiting target root [] v
  | link {ls : List Leaf} {v v' : FileVisit} {block c : Bytes} {cache : Option VisitCache} {m : FlatUnixFs} :
      Visiting target root ls v → (v.continueWalk block cache).1 = .ok (c, some v') →
      FlatUnixFs.tryParse block = .ok m → m.links ≠ [] → Visiting target root ls v'
  | leaf {ls : List Leaf} {v v' : FileVisit} {block c : Bytes} {cache : Option VisitCache} {m : FlatUnixFs} {i : Rng} {n : Nat} :
      Visiting target root ls v → (v.continueWalk block cache).1 = .ok (c, some v') →
      FlatUnixFs.tryParse block = .ok m → m.links = [] → nextInterval v = some i → m.data.filesize = some n →
      Visiting target root (ls ++ [⟨i.lo, n⟩]) v'

/-- Each leaf starts exactly where the preceding one ended, the first at `o`. -/
def Contiguous : Nat → List Leaf → Prop
  | _, [] => True
  | o, l :: ls => l.start = o ∧ Contiguous (o + l.size) ls

/-- Each leaf starts at or after the end of the preceding one. -/
def Forward : Nat → List Leaf → Prop
  | _, [] => True
  | o, l :: ls => o ≤ l.start ∧ Forward (l.start + l.size) ls

/-- The last leaf's end, or `o`. -/
def endOf (o : Nat) : List Leaf → Nat
  | [] => o
  | l :: ls => endOf (l.start + l.size) ls

/-- The caches a client can get hold of: the default one, ones made from a vector, and ones the crate hands back (which
are made from a vector). -/
def CacheObtainable (c : VisitCache) : Prop := c = {} ∨ ∃ vec, c = VisitCache.ofVec vec

end Verif.Spec
