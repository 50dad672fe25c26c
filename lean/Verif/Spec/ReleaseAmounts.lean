import Verif.Spec.ReleaseRun
/-
How much a read of a release build returns, when the blocks can be anything.
-/
namespace Verif.Spec
open Verif

/-- As `Returned`, for a release build: a visit with the given target was started on `root` and continued with blocks, all of them
satisfying `P`; up to now it has returned the bytes `out`, and it can go on with `next`. -/
inductive ReturnedRel (P : Bytes → Prop) (target : Option Rng) (root : Bytes) : Bytes → Option FileVisit → Prop
  | start {r : FileVisitResult} : P root → (IdleFileVisit.mk target).startRel root = some (.ok r) → ReturnedRel P target root r.content r.next
  | more {out c block : Bytes} {v : FileVisit} {next : Option FileVisit} {cache cache' : Option VisitCache} :
      ReturnedRel P target root out (some v) → P block → v.continueWalkRel block cache = some (.ok (c, next), cache') →
      ReturnedRel P target root (out ++ c) next

/-- A block which, if it is a leaf, declares the size of its data. -/
def HonestLeafRel (b : Bytes) : Prop :=
  ∀ m, Reads b m → m.links = [] → m.data.filesize = some (m.data.Data.getD []).length

/-- As before, and the block is so short that, placed at the end of the range, it ends before 2^64. -/
def ShortLeafRel (t : Rng) (b : Bytes) : Prop := HonestLeafRel b ∧ t.hi + b.length < 2 ^ 64

end Verif.Spec
