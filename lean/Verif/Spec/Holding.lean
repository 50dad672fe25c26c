import Verif.Spec.Chains
/-
How much is kept of the blocks which were given to a visit, a walk or a look-up, in bytes.
-/
namespace Verif.Spec
open Verif

/-- The bytes of a message which a block was read as: for each link two, its hash and its name, the data, and two for each blocksize. -/
def messageSize (m : FlatUnixFs) : Nat :=
  (m.links.map (fun l => (l.Hash.getD []).length + (l.Name.getD []).length + 2)).sum + (m.data.Data.getD []).length + 2 * m.data.blocksizes.length

/-- What a Cid kept together with a name is counted for: its digest, the name, and four bytes. -/
def linkSize (c : Cid) (name : Bytes) : Nat := c.digest.length + name.length + 4

/-- The same for all of several Cids without names. -/
def cidsSize (cs : List Cid) : Nat := (cs.map (fun c => linkSize c [])).sum

/-- What a visit keeps: its pending links. -/
def visitSize (v : FileVisit) : Nat := cidsSize (v.pending.map (·.1))

/-- The names in a path. -/
def pathSize (p : PathBuf) : Nat := (p.comps.map List.length).sum

/-- What is kept of the current entry of a walk: its Cid, the path, and the visit of the file if it is not at its end. -/
def entrySize (e : InnerEntry) : Nat :=
  linkSize e.cid [] + pathSize e.path + match e.kind with | .File (some v) _ => visitSize v | _ => 0

/-- What a walk keeps: the current entry and all links which were not taken yet. -/
def walkSize (w : Walker) : Nat :=
  (w.current.map entrySize).getD 0 + ((w.next.toList ++ w.pending).map (fun l => linkSize l.cid l.name)).sum

/-- `VisitFed blocks v`: a visit which was given these blocks (the first one last) has come to `v`. They may be any blocks. -/
inductive VisitFed : List Bytes → FileVisit → Prop
  | start {idle : IdleFileVisit} {root : Bytes} {r : FileVisitResult} {v : FileVisit} : idle.start root = .ok r → r.next = some v → VisitFed [root] v
  | next {blocks : List Bytes} {v v' : FileVisit} {block x : Bytes} {cache : Option VisitCache} : VisitFed blocks v →
      (v.continueWalk block cache).1 = .ok (x, some v') → VisitFed (block :: blocks) v'

/-- `WalkFed c name blocks w`: the same for a walk; steps may have failed, but not panicked. -/
inductive WalkFed (c : Cid) (name : Bytes) : List Bytes → Walker → Prop
  | new : WalkFed c name [] (Walker.new c name)
  | next {blocks : List Bytes} {w w' : Walker} {block : Bytes} {r : Res WalkError ContinuedWalk} {cache cache' : Option VisitCache} :
      WalkFed c name blocks w → (∀ k, cache = some k → CacheObtainable k) → w.step block cache = (r, w', cache') → (∀ p, r ≠ .panic p) →
      WalkFed c name (block :: blocks) w'

/-- `LookupFed needle blocks l`: the same for the look-up of a name in a sharded directory. -/
inductive LookupFed (needle : Bytes) : List Bytes → ShardedLookup → Prop
  | start {block : Bytes} {l : ShardedLookup} {cache cache' : Option LookupCache} : (∀ k, cache = some k → k.buffer = []) →
      resolve block needle cache = (.ok (.NeedToLoadMore l), cache') → LookupFed needle [block] l
  | next {blocks : List Bytes} {l l' : ShardedLookup} {block : Bytes} {cache cache' : Option LookupCache} : LookupFed needle blocks l →
      l.continueWalk block cache = (.ok (.NeedToLoadMore l'), cache') → LookupFed needle (block :: blocks) l'
  | owned {blocks : List Bytes} {l : ShardedLookup} : LookupFed needle blocks l → LookupFed needle blocks l.withOwnedNeedle

end Verif.Spec
