import Verif.Spec.ReleaseRun
import Verif.Spec.Escaping
import Verif.Spec.RootNames
import Verif.Spec.WalkPanics
/-
Walks of a release build over arbitrary blocks.
-/
namespace Verif.Spec
open Verif

/-- The walker can be reached by walking in a release build from `cid` as `name`; the list has the blocks which were given to it, and what it
answered. Any block can be given, with any cache. -/
inductive WalkedRel (cid : Cid) (name : Bytes) : List (Bytes × ContinuedWalk) → Walker → Prop
  | new : WalkedRel cid name [] (Walker.new cid name)
  | next {h : List (Bytes × ContinuedWalk)} {w w' : Walker} {block : Bytes} {cache cache' : Option VisitCache} {item : ContinuedWalk} :
      WalkedRel cid name h w → w.shouldContinue = true → w.stepRel block cache = some (.ok item, w', cache') →
      WalkedRel cid name (h ++ [(block, item)]) w'

/-- The same, with the blocks taken from a store: each time the one which the walker asks for. -/
inductive WalkedIn (get : Cid → Option Bytes) (cid : Cid) (name : Bytes) : List (Bytes × ContinuedWalk) → Walker → Prop
  | new : WalkedIn get cid name [] (Walker.new cid name)
  | next {h : List (Bytes × ContinuedWalk)} {w w' : Walker} {first : Cid} {rest : List Cid} {block : Bytes} {cache cache' : Option VisitCache}
      {item : ContinuedWalk} : WalkedIn get cid name h w → w.shouldContinue = true → w.pendingLinks = .ok (first, rest) →
      get first = some block → (∀ k, cache = some k → CacheObtainable k) → w.stepRel block cache = some (.ok item, w', cache') → WalkedIn get cid name (h ++ [(block, item)]) w'

/-- As `GivesName`, as a release build reads the block. -/
def GivesNameRel (b n : Bytes) : Prop :=
  ∃ m l x, Reads b m ∧ l ∈ m.links ∧ l.Name = some x ∧
    ((m.data.Ty = .Directory ∧ n = x) ∨ (m.data.Ty = .HAMTShard ∧ 2 < x.length ∧ n = x.drop 2))

/-- Links of shards with two bytes for a name lead to shards. -/
def BucketsAreShards (get : Cid → Option Bytes) : Prop :=
  ∀ c b m, get c = some b → Reads b m → m.data.Ty = .HAMTShard → ∀ l ∈ m.links, ∀ x, l.Name = some x → x.length = 2 →
    ∀ c' b' m', Cid.tryFrom (l.Hash.getD []) = .ok c' → get c' = some b' → Reads b' m' → m'.data.Ty = .HAMTShard

/-- The block is in a sharded directory: a shard links to it, or a directory which is in a sharded directory. -/
inductive InSharded (get : Cid → Option Bytes) : Cid → Prop
  | slot {c c' : Cid} {b : Bytes} {m : FlatUnixFs} {l : PBLink} : get c = some b → Reads b m → m.data.Ty = .HAMTShard → l ∈ m.links →
      Cid.tryFrom (l.Hash.getD []) = .ok c' → InSharded get c'
  | deeper {c c' : Cid} {b : Bytes} {m : FlatUnixFs} {l : PBLink} : InSharded get c → get c = some b → Reads b m → m.data.Ty = .Directory → l ∈ m.links →
      Cid.tryFrom (l.Hash.getD []) = .ok c' → InSharded get c'

/-- What keeps a walk in a release build from panicking, whatever else is wrong with the blocks of the store. -/
structure WalkSafe (get : Cid → Option Bytes) : Prop where
  /-- Names of entries are not empty and have no slash; none is called `.`. -/
  entries : ∀ c b m, get c = some b → Reads b m → m.data.Ty = .Directory → ∀ l ∈ m.links, EntryLabel l.Name
  slots : ∀ c b m, get c = some b → Reads b m → m.data.Ty = .HAMTShard → ∀ l ∈ m.links, SlotLabel l.Name
  noDot : ∀ c b, get c = some b → ¬ GivesNameRel b dot
  /-- What a shard links to with a label only is a shard, and no directory in a sharded directory is empty. -/
  buckets : BucketsAreShards get
  noEmpty : ∀ c b m, InSharded get c → get c = some b → Reads b m → m.data.Ty = .Directory → m.links ≠ []
  /-- Leaves of files declare their size. -/
  sized : ∀ c b m, get c = some b → Reads b m → m.data.Ty = .File ∨ m.data.Ty = .Raw → m.links = [] → m.data.filesize ≠ none
  /-- What files link to is not refused as a block. -/
  parts : ∀ c b m, get c = some b → Reads b m → m.data.Ty = .File ∨ m.data.Ty = .Raw → ∀ l ∈ m.links,
    ∀ c' b', Cid.tryFrom (l.Hash.getD []) = .ok c' → get c' = some b' → ∀ e, FlatUnixFs.tryParseR b' ≠ some (.error e)

/-- The seven conditions of `WalkSafe`, numbered in that order. -/
def SafeCondition (get : Cid → Option Bytes) : Fin 7 → Prop
  | 0 => ∀ c b m, get c = some b → Reads b m → m.data.Ty = .Directory → ∀ l ∈ m.links, EntryLabel l.Name
  | 1 => ∀ c b m, get c = some b → Reads b m → m.data.Ty = .HAMTShard → ∀ l ∈ m.links, SlotLabel l.Name
  | 2 => ∀ c b, get c = some b → ¬ GivesNameRel b dot
  | 3 => BucketsAreShards get
  | 4 => ∀ c b m, InSharded get c → get c = some b → Reads b m → m.data.Ty = .Directory → m.links ≠ []
  | 5 => ∀ c b m, get c = some b → Reads b m → m.data.Ty = .File ∨ m.data.Ty = .Raw → m.links = [] → m.data.filesize ≠ none
  | 6 => ∀ c b m, get c = some b → Reads b m → m.data.Ty = .File ∨ m.data.Ty = .Raw → ∀ l ∈ m.links,
    ∀ c' b', Cid.tryFrom (l.Hash.getD []) = .ok c' → get c' = some b' → ∀ e, FlatUnixFs.tryParseR b' ≠ some (.error e)

end Verif.Spec
