import Verif.Spec.Holding
import Verif.ReleaseRun
/-
Blocks given to visits, walks and look-ups of a release build.
-/
namespace Verif.Spec
open Verif

/-- `VisitFedRel blocks v`: as `VisitFed`, in a release build. The blocks have less than 2^63 bytes, as all slices have. -/
inductive VisitFedRel : List Bytes → FileVisit → Prop
  | start {idle : IdleFileVisit} {root : Bytes} {r : FileVisitResult} {v : FileVisit} : root.length < 2 ^ 63 → idle.startRel root = some (.ok r) →
      r.next = some v → VisitFedRel [root] v
  | next {blocks : List Bytes} {v v' : FileVisit} {block x : Bytes} {cache cache' : Option VisitCache} : VisitFedRel blocks v → block.length < 2 ^ 63 →
      v.continueWalkRel block cache = some (.ok (x, some v'), cache') → VisitFedRel (block :: blocks) v'

/-- `WalkFedRel c name blocks w`: as `WalkFed`, in a release build. -/
inductive WalkFedRel (c : Cid) (name : Bytes) : List Bytes → Walker → Prop
  | new : WalkFedRel c name [] (Walker.new c name)
  | next {blocks : List Bytes} {w w' : Walker} {block : Bytes} {r : Res WalkError ContinuedWalk} {cache cache' : Option VisitCache} :
      WalkFedRel c name blocks w → block.length < 2 ^ 63 → (∀ k, cache = some k → CacheObtainable k) →
      w.stepRel block cache = some (r, w', cache') → (∀ p, r ≠ .panic p) → WalkFedRel c name (block :: blocks) w'

/-- `LookupFedRel needle blocks l`: as `LookupFed`, in a release build. -/
inductive LookupFedRel (needle : Bytes) : List Bytes → ShardedLookup → Prop
  | start {block : Bytes} {l : ShardedLookup} {cache cache' : Option LookupCache} : block.length < 2 ^ 63 → (∀ k, cache = some k → k.buffer = []) →
      resolveRel block needle cache = some (.ok (.NeedToLoadMore l), cache') → LookupFedRel needle [block] l
  | next {blocks : List Bytes} {l l' : ShardedLookup} {block : Bytes} {cache cache' : Option LookupCache} : LookupFedRel needle blocks l →
      block.length < 2 ^ 63 → l.continueWalkRel block cache = some (.ok (.NeedToLoadMore l'), cache') → LookupFedRel needle (block :: blocks) l'
  | owned {blocks : List Bytes} {l : ShardedLookup} : LookupFedRel needle blocks l → LookupFedRel needle blocks l.withOwnedNeedle

end Verif.Spec
