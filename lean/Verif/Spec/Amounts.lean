import Verif.Spec.Visiting
/-
How much a read returns, when the blocks can be anything.
-/
namespace Verif.Spec
open Verif

/-- `Returned P target root out next`: a visit with the given target was started on `root` and continued with blocks, all of them
satisfying `P`; up to now it has returned the bytes `out`, and it can go on with `next`. -/
inductive Returned (P : Bytes → Prop) (target : Option Rng) (root : Bytes) : Bytes → Option FileVisit → Prop
  | start {r : FileVisitResult} : P root → (IdleFileVisit.mk target).start root = .ok r → Returned P target root r.content r.next
  | more {out c block : Bytes} {v : FileVisit} {next : Option FileVisit} {cache : Option VisitCache} :
      Returned P target root out (some v) → P block → (v.continueWalk block cache).1 = .ok (c, next) →
      Returned P target root (out ++ c) next

/-- A block which, if it is a leaf, declares the size of its data. -/
def HonestLeaf (b : Bytes) : Prop :=
  ∀ m, FlatUnixFs.tryParse b = .ok m → m.links = [] → m.data.filesize = some (m.data.Data.getD []).length

end Verif.Spec
