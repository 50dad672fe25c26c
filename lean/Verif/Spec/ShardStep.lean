import Verif.Spec.Hamt
import Verif.Spec.WalkPanics
/-
What one step of a lookup in a sharded directory must answer, for arbitrary blocks.
-/
namespace Verif.Spec
open Verif

/-- The name of a link in a shard, a missing one counting as empty. -/
def shardName (l : PBLink) : Bytes := l.Name.getD []

/-- A link to a further shard has a name of two bytes. -/
def IsBucket (l : PBLink) : Prop := (shardName l).length = 2

/-- The name is longer than two bytes, but its third byte is in the middle of a character. -/
def Uncuttable (l : PBLink) : Prop := 2 < (shardName l).length ∧ isCharBoundary (shardName l) 2 = false

/-- The link is the entry named `needle`: two bytes and the name. -/
def IsHit (needle : Bytes) (l : PBLink) : Prop :=
  2 < (shardName l).length ∧ isCharBoundary (shardName l) 2 = true ∧ (shardName l).drop 2 = needle

/-- Links among which there is no entry named `needle`, and nothing to complain about: Cids matter only for buckets. -/
def Quiet (needle : Bytes) (ls : List PBLink) : Prop := ∀ l ∈ ls, ¬ Uncuttable l ∧ ¬ IsHit needle l ∧ (IsBucket l → CidOk l)

/-- Links among which there is at most one entry named `needle`, and nothing to complain about. -/
def Tidy (needle : Bytes) (ls : List PBLink) : Prop :=
  Quiet needle ls ∨ ∃ before l after, ls = before ++ l :: after ∧ Quiet needle before ∧ IsHit needle l ∧ CidOk l ∧ Quiet needle after

/-- The Cids of the buckets among the links, in order. -/
def bucketCids (ls : List PBLink) : List Cid :=
  (ls.filter (fun l => (shardName l).length = 2)).filterMap (fun l => (Cid.tryFrom (l.Hash.getD [])).toOption)

/-- What reading the links of a shard gives, when the shards `queue` are still to be read. -/
inductive ShardRead (needle : Bytes) (queue : List Cid) (links : List PBLink) : Res LookupError MaybeResolved → Prop
  | found {before l after c} : links = before ++ l :: after → Quiet needle before → IsHit needle l →
      Cid.tryFrom (l.Hash.getD []) = .ok c → Quiet needle after → ShardRead needle queue links (.ok (.Found c))
  | notFound : Quiet needle links → queue ++ bucketCids links = [] → ShardRead needle queue links (.ok .NotFound)
  | more : Quiet needle links → queue ++ bucketCids links ≠ [] →
      ShardRead needle queue links (.ok (.NeedToLoadMore ⟨queue ++ bucketCids links, needle⟩))
  /-- A link which is needed (a bucket, or the first entry of the name) has no Cid. -/
  | invalid {before l after e} : links = before ++ l :: after → (IsBucket l ∧ Tidy needle before) ∨ (IsHit needle l ∧ Quiet needle before) →
      Cid.tryFrom (l.Hash.getD []) = .error e →
      ShardRead needle queue links (.err (.InvalidCid ⟨before.length, l.Hash.getD [], shardName l, e⟩))
  /-- Two entries of the name; the Cid of the second may be valid or not. -/
  | two {before l between l' after c c'} : links = before ++ l :: (between ++ l' :: after) → Quiet needle before → IsHit needle l →
      Cid.tryFrom (l.Hash.getD []) = .ok c → Quiet needle between → IsHit needle l' → Cid.tryFrom (l'.Hash.getD []) = .ok c' →
      ShardRead needle queue links (.err (.Multiple (.Two (before.length, c) (before.length + 1 + between.length, c'))))
  | oneValid {before l between l' after c e} : links = before ++ l :: (between ++ l' :: after) → Quiet needle before → IsHit needle l →
      Cid.tryFrom (l.Hash.getD []) = .ok c → Quiet needle between → IsHit needle l' → Cid.tryFrom (l'.Hash.getD []) = .error e →
      ShardRead needle queue links (.err (.Multiple (.OneValid (before.length, c)
        ⟨before.length + 1 + between.length, l'.Hash.getD [], shardName l', e⟩)))
  /-- The code panics at a name which it cannot cut. -/
  | panic {before l after} : links = before ++ l :: after → Tidy needle before → Uncuttable l →
      ShardRead needle queue links (.panic .shardBoundary)

/-- What reading a parsed shard gives: first its properties are looked at. -/
inductive ShardNodeRead (needle : Bytes) (queue : List Cid) (m : FlatUnixFs) : Res LookupError MaybeResolved → Prop
  | kind : m.data.fanout ≠ some 256 ∨ m.data.hashType ≠ some 34 →
      ShardNodeRead needle queue m (.err (.Shard (.UnsupportedProperties m.data.hashType m.data.fanout)))
  | properties : m.data.fanout = some 256 → m.data.hashType = some 34 → m.data.filesize ≠ none ∨ m.data.blocksizes ≠ [] →
      ShardNodeRead needle queue m (.err (.Shard (.UnexpectedProperties m.data.filesize m.data.blocksizes)))
  | links {r} : ShardNode m → ShardRead needle queue m.links r → ShardNodeRead needle queue m r

/-- What continuing a lookup with a block gives. -/
inductive BucketRead (needle : Bytes) (queue : List Cid) (block : Bytes) : Res LookupError MaybeResolved → Prop
  | dagPb {e} : FlatUnixFs.tryParse block = .error (.InvalidDagPb e) → BucketRead needle queue block (.err (.Read (some e)))
  | unixFs {e n} : FlatUnixFs.tryParse block = .error (.InvalidUnixFs e n) → BucketRead needle queue block (.err (.Read (some e)))
  | noData {n} : FlatUnixFs.tryParse block = .error (.NoData n) → BucketRead needle queue block (.err (.Read none))
  | type {m} : FlatUnixFs.tryParse block = .ok m → m.data.Ty ≠ .HAMTShard →
      BucketRead needle queue block (.err (.UnexpectedBucketType m.data.Ty))
  | shard {m r} : FlatUnixFs.tryParse block = .ok m → m.data.Ty = .HAMTShard → ShardNodeRead needle queue m r →
      BucketRead needle queue block r

end Verif.Spec
