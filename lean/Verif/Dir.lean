import Verif.FileReader
import Verif.Utf8
/-
Model of `/repo/src/dir.rs`, `/repo/src/dir/directory.rs` and `/repo/src/dir/sharded_lookup.rs`.
-/
namespace Verif

/-- `UnexpectedDirectoryProperties`, `src/dir/directory.rs:29-41`. -/
structure UnexpectedDirectoryProperties where
  filesize : Option Nat
  blocksizes : List Nat
  hash_type : Option Nat
  fanout : Option Nat
  data : Option Bytes
  deriving DecidableEq, Repr

/-- `check_directory_supported`, `src/dir/directory.rs:5-26`. -/
def checkDirectorySupported (flat : FlatUnixFs) : Except UnexpectedDirectoryProperties FlatUnixFs :=
  let data := flat.data.Data
  if flat.data.filesize.isSome ∨ flat.data.blocksizes ≠ [] ∨ flat.data.hashType.isSome ∨ flat.data.fanout.isSome
      ∨ data.getD [] ≠ [] then
    .error ⟨flat.data.filesize, flat.data.blocksizes, flat.data.hashType, flat.data.fanout, data⟩
  else .ok flat

/-- `ShardError`, `src/dir/sharded_lookup.rs:227-245`. -/
inductive ShardError where
  | UnsupportedProperties (hash_type fanout : Option Nat)
  | UnexpectedProperties (filesize : Option Nat) (blocksizes : List Nat)
  deriving DecidableEq, Repr

/-- `MultipleMatchingLinks`, `src/dir.rs:169-186`. -/
inductive MultipleMatchingLinks where
  | Two (first second : Nat × Cid)
  | OneValid (first : Nat × Cid) (second : InvalidCidInLink)
  deriving DecidableEq, Repr

/-- `LookupError`, `src/dir/sharded_lookup.rs:274-287`. -/
inductive LookupError where
  | Multiple (m : MultipleMatchingLinks)
  | InvalidCid (e : InvalidCidInLink)
  | UnexpectedBucketType (t : DataType)
  | Shard (e : ShardError)
  | Read (e : Option PbError)
  deriving DecidableEq, Repr

/-- `ResolveError`, `src/dir.rs:99-111`. -/
inductive ResolveError where
  | UnexpectedType (t : DataType)
  | UnexpectedDirProperties (e : UnexpectedDirectoryProperties)
  | Read (e : PbError)
  | Lookup (e : LookupError)
  deriving DecidableEq, Repr

/-- `try_convert_cid`, `src/dir.rs:79-82`. -/
def tryConvertCid (nth : Nat) (link : PBLink) : Except InvalidCidInLink Cid :=
  match Cid.tryFrom (link.Hash.getD []) with
  | .ok c => .ok c
  | .error e => .error (.of nth link e)

/-- `impl From<((usize, Cid), (usize, PBLink))> for MultipleMatchingLinks`, `src/dir.rs:188-203`. -/
def MultipleMatchingLinks.of (first : Nat × Cid) (j : Nat) (second : PBLink) : MultipleMatchingLinks :=
  match tryConvertCid j second with
  | .ok c => .Two first (j, c)
  | .error e => .OneValid first e

/-- `MultipleMatchingLinks::into_inner`, `src/dir.rs:207-212`. -/
def MultipleMatchingLinks.intoInner : MultipleMatchingLinks → Cid
  | .Two first _ => first.2
  | .OneValid first _ => first.2

/-- `Cache`, `src/dir/sharded_lookup.rs:12-14`. -/
structure LookupCache where
  buffer : List Cid := []
  deriving DecidableEq, Repr

/-- `impl From<VecDeque<Cid>> for Cache`, `src/dir/sharded_lookup.rs:16-21`: the queue is cleared. -/
def LookupCache.ofQueue (_buffer : List Cid) : LookupCache := { buffer := [] }

/-- `ShardedLookup`, `src/dir/sharded_lookup.rs:30-35`; the head of `links` is the front of the queue. -/
structure ShardedLookup where
  links : List Cid
  needle : Bytes
  deriving DecidableEq, Repr

/-- `MaybeResolved`, `src/dir.rs:86-95`. -/
inductive MaybeResolved where
  | Found (c : Cid)
  | NeedToLoadMore (l : ShardedLookup)
  | NotFound
  deriving DecidableEq, Repr

/-- `ShardedLookup::pending_links`, `src/dir/sharded_lookup.rs:50-54`. -/
def ShardedLookup.pendingLinks (self : ShardedLookup) : Res Unit (Cid × List Cid) :=
  match self.links with
  | first :: rest => .ok (first, rest)
  | [] => .panic .shardNoLinks

/-- `ShardedLookup::with_owned_needle`, `src/dir/sharded_lookup.rs:103-107`. -/
def ShardedLookup.withOwnedNeedle (self : ShardedLookup) : ShardedLookup := ⟨self.links, self.needle⟩

/-- `ShardedLookup::check_supported`, `src/dir/sharded_lookup.rs:140-156`. -/
def checkShardSupported (hamt : FlatUnixFs) : Res ShardError Unit :=
  if hamt.data.Ty ≠ .HAMTShard then .panic .shardType
  else if hamt.data.fanout ≠ some 256 ∨ hamt.data.hashType ≠ some 34 then
    .err (.UnsupportedProperties hamt.data.hashType hamt.data.fanout)
  else if hamt.data.filesize.isSome ∨ hamt.data.blocksizes ≠ [] then
    .err (.UnexpectedProperties hamt.data.filesize hamt.data.blocksizes)
  else .ok ()

/-- `check_hamtshard_supported`, `src/dir.rs:16-21`. -/
def checkHamtshardSupported (flat : FlatUnixFs) : Res ShardError FlatUnixFs := do
  checkShardSupported flat
  .ok flat

/-- The loop of `ShardedLookup::partition`, `src/dir/sharded_lookup.rs:162-188`: `i` is the index given by `enumerate`,
`found` and `work` the mutable variables. `PartitioningError` is represented by the `LookupError` it is always converted
to (`:213-221`). `&name[2..]` panics when byte 2 is not a char boundary. -/
def partitionShardLinks (needle : Bytes) : Nat → Option (Nat × Cid) → List Cid → List PBLink →
    Res LookupError (Option Cid × List Cid)
  | _, found, work, [] => .ok (found.map (·.2), work)
  | i, found, work, link :: rest =>
    let name := link.Name.getD []
    if 2 < name.length ∧ isCharBoundary name 2 = false then .panic .shardBoundary
    else if 2 < name.length ∧ name.drop 2 = needle then
      match found with
      | some first => .err (.Multiple (.of first i link))
      | none =>
        match tryConvertCid i link with
        | .error e => .err (.InvalidCid e)
        | .ok c => partitionShardLinks needle (i + 1) (some (i, c)) work rest
    else if name.length = 2 then
      match tryConvertCid i link with
      | .error e => .err (.InvalidCid e)
      | .ok c => partitionShardLinks needle (i + 1) found (work ++ [c]) rest
    else partitionShardLinks needle (i + 1) found work rest

/-- The common tail of `continue_walk` (`src/dir/sharded_lookup.rs:83-98`) and `lookup_or_start` (`:119-134`): the result
and the new value of `cache`. -/
def ShardedLookup.finishStep (needle : Bytes) (links : List PBLink) (queue : List Cid) (cache : Option LookupCache) :
    Res LookupError MaybeResolved × Option LookupCache :=
  match partitionShardLinks needle 0 none queue links with
  | .panic p => (.panic p, cache)
  | .err e => (.err e, cache)
  | .ok (some c, work) => (.ok (.Found c), some (.ofQueue work))
  | .ok (none, work) =>
    if work = [] then (.ok .NotFound, some (.ofQueue work))
    else (.ok (.NeedToLoadMore ⟨work, needle⟩), cache)

/-- `ShardedLookup::continue_walk`, `src/dir/sharded_lookup.rs:57-99`; the result and the new value of `cache`. -/
def ShardedLookup.continueWalk (self : ShardedLookup) (next : Bytes) (cache : Option LookupCache) :
    Res LookupError MaybeResolved × Option LookupCache :=
  match self.links with
  | [] => (.panic .shardNoLinks, cache)
  | _ :: queue =>
    match FlatUnixFs.tryParse next with
    | .error (.InvalidDagPb e) => (.err (.Read (some e)), some (.ofQueue queue))
    | .error (.InvalidUnixFs e _) => (.err (.Read (some e)), some (.ofQueue queue))
    | .error (.NoData _) => (.err (.Read none), some (.ofQueue queue))
    | .ok hamt =>
      if hamt.data.Ty ≠ .HAMTShard then (.err (.UnexpectedBucketType hamt.data.Ty), cache)
      else
        match checkShardSupported hamt with
        | .panic p => (.panic p, cache)
        | .err e => (.err (.Shard e), cache)
        | .ok () => ShardedLookup.finishStep self.needle hamt.links queue cache

/-- `ShardedLookup::lookup_or_start`, `src/dir/sharded_lookup.rs:112-135`; the cache is taken before partitioning. -/
def ShardedLookup.lookupOrStart (hamt : FlatUnixFs) (needle : Bytes) (cache : Option LookupCache) :
    Res LookupError MaybeResolved × Option LookupCache :=
  match checkShardSupported hamt with
  | .panic p => (.panic p, cache)
  | .err e => (.err (.Shard e), cache)
  | .ok () => ShardedLookup.finishStep needle hamt.links (cache.getD {}).buffer none

/-- The links with their indices whose name is the needle: the iterator `matching`, `src/dir.rs:60-65`. -/
def matchingLinks (links : List PBLink) (needle : Bytes) : List (Nat × PBLink) :=
  (links.zipIdx.map (fun (l, i) => (i, l))).filter (fun (_, l) => l.Name.getD [] = needle)

/-- The search in a plain directory's links, `src/dir.rs:60-76`. -/
def resolveInLinks (links : List PBLink) (needle : Bytes) : Res ResolveError MaybeResolved :=
  match matchingLinks links needle with
  | [] => .ok .NotFound
  | (i, first) :: rest =>
    match tryConvertCid i first with
    | .error e => .err (.Lookup (.InvalidCid e))
    | .ok c =>
      match rest with
      | (j, second) :: _ => .err (.Lookup (.Multiple (.of (i, c) j second)))
      | [] => .ok (.Found c)

/-- `resolve`, `src/dir.rs:36-77`; the result and the new value of `cache`. -/
def resolve (block : Bytes) (needle : Bytes) (cache : Option LookupCache) :
    Res ResolveError MaybeResolved × Option LookupCache :=
  match FlatUnixFs.tryParse block with
  | .ok flat =>
    match flat.data.Ty with
    | .HAMTShard =>
      let (r, cache) := ShardedLookup.lookupOrStart flat needle cache
      (r.mapErr .Lookup, cache)
    | .Directory =>
      match checkDirectorySupported flat with
      | .error e => (.err (.UnexpectedDirProperties e), cache)
      | .ok flat => (resolveInLinks flat.links needle, cache)
    | t => (.err (.UnexpectedType t), cache)
  | .error (.InvalidUnixFs _ node) => (resolveInLinks node.Links needle, cache)
  | .error (.NoData node) => (resolveInLinks node.Links needle, cache)
  | .error (.InvalidDagPb e) => (.err (.Read e), cache)

end Verif
