import Verif.Spec.ReleaseEnds
import Verif.Spec.ShardStep
/-
What resolving and looking up names gives in a release build, for arbitrary blocks.
-/
namespace Verif.Spec
open Verif

/-- No link is named `needle`; a missing name counts as empty. -/
def NotNamed (needle : Bytes) (links : List PBLink) : Prop := ∀ l ∈ links, l.Name.getD [] ≠ needle

/-- What looking for a name among the links of a plain directory gives. -/
inductive PlainRead (needle : Bytes) (links : List PBLink) : Res ResolveError MaybeResolved → Prop
  | notFound : NotNamed needle links → PlainRead needle links (.ok .NotFound)
  | found {before l after c} : links = before ++ l :: after → NotNamed needle before → l.Name.getD [] = needle → NotNamed needle after →
      Cid.tryFrom (l.Hash.getD []) = .ok c → PlainRead needle links (.ok (.Found c))
  | invalid {before l after e} : links = before ++ l :: after → NotNamed needle before → l.Name.getD [] = needle →
      Cid.tryFrom (l.Hash.getD []) = .error e → PlainRead needle links (.err (.Lookup (.InvalidCid ⟨before.length, l.Hash.getD [], needle, e⟩)))
  | two {before l between l' after c c'} : links = before ++ l :: (between ++ l' :: after) → NotNamed needle before → l.Name.getD [] = needle →
      Cid.tryFrom (l.Hash.getD []) = .ok c → NotNamed needle between → l'.Name.getD [] = needle → Cid.tryFrom (l'.Hash.getD []) = .ok c' →
      PlainRead needle links (.err (.Lookup (.Multiple (.Two (before.length, c) (before.length + 1 + between.length, c')))))
  | oneValid {before l between l' after c e} : links = before ++ l :: (between ++ l' :: after) → NotNamed needle before → l.Name.getD [] = needle →
      Cid.tryFrom (l.Hash.getD []) = .ok c → NotNamed needle between → l'.Name.getD [] = needle → Cid.tryFrom (l'.Hash.getD []) = .error e →
      PlainRead needle links (.err (.Lookup (.Multiple (.OneValid (before.length, c) ⟨before.length + 1 + between.length, l'.Hash.getD [], needle, e⟩))))

/-- What resolving a name in a block which a release build reads as `x` gives. -/
inductive ResolveRead (needle : Bytes) : Except ParsingFailed FlatUnixFs → Res ResolveError MaybeResolved → Prop
  | dagPb {e} : ResolveRead needle (.error (.InvalidDagPb e)) (.err (.Read e))
  /-- A dag-pb node which is not UnixFS is a directory. -/
  | unixFs {e n r} : PlainRead needle n.Links r → ResolveRead needle (.error (.InvalidUnixFs e n)) r
  | noData {n r} : PlainRead needle n.Links r → ResolveRead needle (.error (.NoData n)) r
  | directory {m r} : m.data.Ty = .Directory → m.data.filesize = none → m.data.blocksizes = [] → m.data.hashType = none → m.data.fanout = none →
      m.data.Data.getD [] = [] → PlainRead needle m.links r → ResolveRead needle (.ok m) r
  | properties {m} : m.data.Ty = .Directory →
      m.data.filesize ≠ none ∨ m.data.blocksizes ≠ [] ∨ m.data.hashType ≠ none ∨ m.data.fanout ≠ none ∨ m.data.Data.getD [] ≠ [] →
      ResolveRead needle (.ok m) (.err (.UnexpectedDirProperties ⟨m.data.filesize, m.data.blocksizes, m.data.hashType, m.data.fanout, m.data.Data⟩))
  | shard {m r} : m.data.Ty = .HAMTShard → ShardNodeRead needle [] m r → ResolveRead needle (.ok m) (r.mapErr .Lookup)
  | other {m} : m.data.Ty ≠ .Directory → m.data.Ty ≠ .HAMTShard → ResolveRead needle (.ok m) (.err (.UnexpectedType m.data.Ty))

/-- What continuing a look-up with a block which a release build reads as `x` gives. -/
inductive ContinueRead (needle : Bytes) (queue : List Cid) : Except ParsingFailed FlatUnixFs → Res LookupError MaybeResolved → Prop
  | dagPb {e} : ContinueRead needle queue (.error (.InvalidDagPb e)) (.err (.Read (some e)))
  | unixFs {e n} : ContinueRead needle queue (.error (.InvalidUnixFs e n)) (.err (.Read (some e)))
  | noData {n} : ContinueRead needle queue (.error (.NoData n)) (.err (.Read none))
  | type {m} : m.data.Ty ≠ .HAMTShard → ContinueRead needle queue (.ok m) (.err (.UnexpectedBucketType m.data.Ty))
  | shard {m r} : m.data.Ty = .HAMTShard → ShardNodeRead needle queue m r → ContinueRead needle queue (.ok m) r

/-- Arbitrary use of a look-up in a release build: as `Looking`. -/
inductive LookingRel (needle : Bytes) : ShardedLookup → Prop
  | start {block : Bytes} {cache cache' : Option LookupCache} {l : ShardedLookup} :
      resolveRel block needle cache = some (.ok (.NeedToLoadMore l), cache') → LookingRel needle l
  | more {l l' : ShardedLookup} {block : Bytes} {cache cache' : Option LookupCache} :
      LookingRel needle l → l.continueWalkRel block cache = some (.ok (.NeedToLoadMore l'), cache') → LookingRel needle l'
  | owned {l : ShardedLookup} : LookingRel needle l → LookingRel needle l.withOwnedNeedle

/-- The shards which the block of `c` links to, in the order of its links. -/
def bucketsOfRel (get : Cid → Option Bytes) (c : Cid) : List Cid :=
  match get c with
  | none => []
  | some b => match FlatUnixFs.tryParseR b with
    | some (.ok m) => bucketCids m.links
    | _ => []

/-- Level `n`: what is linked `n` links below the shards `first`, from left to right. -/
def levelOfRel (get : Cid → Option Bytes) (first : List Cid) : Nat → List Cid
  | 0 => first
  | n + 1 => (levelOfRel get first n).flatMap (bucketsOfRel get)

/-- The first `n` levels, one after the other. -/
def levelOrderRel (get : Cid → Option Bytes) (first : List Cid) (n : Nat) : List Cid := (List.range n).flatMap (levelOfRel get first)

/-- One of the links of the block is the entry `needle`, and it leads to `c`. -/
def HasEntryRel (block needle : Bytes) (c : Cid) : Prop :=
  ∃ m l, Reads block m ∧ l ∈ m.links ∧ IsHit needle l ∧ Cid.tryFrom (l.Hash.getD []) = .ok c

/-- The block has no entry `needle`. -/
def NoEntryRel (block needle : Bytes) : Prop :=
  ∀ m l, Reads block m → l ∈ m.links → ¬ IsHit needle l

/-- The look-up `l` of `needle` in the directory `block` was obtained by giving the blocks of `q` one after the other, each being
the first which was asked for: as `Asked`. -/
inductive AskedRel (get : Cid → Option Bytes) (block needle : Bytes) : List Cid → ShardedLookup → Prop
  | start {cache cache' l} : (∀ k, cache = some k → k.buffer = []) → resolveRel block needle cache = some (.ok (.NeedToLoadMore l), cache') →
      AskedRel get block needle [] l
  | more {q l c rest b cache cache' l'} : AskedRel get block needle q l → l.pendingLinks = .ok (c, rest) → get c = some b →
      l.continueWalkRel b cache = some (.ok (.NeedToLoadMore l'), cache') → AskedRel get block needle (q ++ [c]) l'
  | owned {q l} : AskedRel get block needle q l → AskedRel get block needle q l.withOwnedNeedle

end Verif.Spec
