import Verif.Dir
/-
What it means for a client to look up a name in a directory (the loop of `examples/resolve.rs:154-222` for one path
segment), and what the answers should be in terms of the directory's entries.
-/
namespace Verif.Spec
open Verif

/-- Why a lookup can fail. -/
inductive LookupFail where
  | missing (c : Cid)
  | resolving (e : ResolveError)
  | noLinks

/-- The loop: ask for the first pending link, fetch its block, continue. `none`: the loop does not terminate. The result
is the Cid found, if any, and the list of fetched Cids. -/
def lookupFrom (get : Cid → Option Bytes) (l : ShardedLookup) (cache : Option LookupCache) :
    Option (Res LookupFail (Option Cid × List Cid)) :=
  match l.pendingLinks with
  | .panic p => some (.panic p)
  | .err () => some (.err .noLinks)
  | .ok (first, _) =>
    match get first with
    | none => some (.err (.missing first))
    | some block =>
      match l.continueWalk block cache with
      | (.panic p, _) => some (.panic p)
      | (.err e, _) => some (.err (.resolving (.Lookup e)))
      | (.ok (.Found c), _) => some (.ok (some c, [first]))
      | (.ok .NotFound, _) => some (.ok (none, [first]))
      | (.ok (.NeedToLoadMore l'), cache) => do
        let r ← lookupFrom get l' cache
        some (r.map (fun (c, q) => (c, first :: q)))
partial_fixpoint

/-- Look up one name in the directory whose root block is `block`. -/
def lookupName (get : Cid → Option Bytes) (block : Bytes) (needle : Bytes) (cache : Option LookupCache) :
    Option (Res LookupFail (Option Cid × List Cid)) :=
  match resolve block needle cache with
  | (.panic p, _) => some (.panic p)
  | (.err e, _) => some (.err (.resolving e))
  | (.ok (.Found c), _) => some (.ok (some c, []))
  | (.ok .NotFound, _) => some (.ok (none, []))
  | (.ok (.NeedToLoadMore l), cache) => lookupFrom get l cache

/-- A sharded directory: what the links of a shard block lead to, entries and further shards. -/
inductive HTree where
  | entry (name : Bytes) (cid : Cid)
  | shard (kids : List HTree)

namespace HTree

mutual
/-- The entries of a sharded directory. -/
def entries : HTree → List (Bytes × Cid)
  | entry n c => [(n, c)]
  | shard ks => entriesL ks
def entriesL : List HTree → List (Bytes × Cid)
  | [] => []
  | k :: ks => entries k ++ entriesL ks
end

mutual
/-- The number of shard blocks. -/
def shards : HTree → Nat
  | entry _ _ => 0
  | shard ks => 1 + shardsL ks
def shardsL : List HTree → Nat
  | [] => 0
  | k :: ks => shards k + shardsL ks
end

end HTree

mutual
/-- `ShardAt get t b`: block `b` is the root of a well-formed sharded directory `t` (fanout 256, hash type 34, no file
properties), all shards below being in the store `get`. -/
def ShardAt (get : Cid → Option Bytes) : HTree → Bytes → Prop
  | .entry _ _, _ => False
  | .shard ks, b => ∃ m, FlatUnixFs.tryParse b = .ok m ∧ m.data.Ty = .HAMTShard ∧ m.data.fanout = some 256 ∧
      m.data.hashType = some 34 ∧ m.data.filesize = none ∧ m.data.blocksizes = [] ∧ KidsAt get ks m.links
/-- The links of a shard: an entry's link is named by a two character ASCII prefix followed by the (non-empty, UTF-8)
entry name, a bucket's link by two characters only. -/
def KidsAt (get : Cid → Option Bytes) : List HTree → List PBLink → Prop
  | [], [] => True
  | .entry n c :: ks, l :: ls => (n ≠ [] ∧ validUtf8 n = true ∧
      (∃ p q, p ≤ 0x7F ∧ q ≤ 0x7F ∧ l.Name = some (p :: q :: n)) ∧
      Cid.tryFrom (l.Hash.getD []) = .ok c) ∧ KidsAt get ks ls
  | .shard ks' :: ks, l :: ls => (∃ nm cid b, l.Name = some nm ∧ nm.length = 2 ∧
      Cid.tryFrom (l.Hash.getD []) = .ok cid ∧ get cid = some b ∧ ShardAt get (.shard ks') b) ∧ KidsAt get ks ls
  | _, _ => False
end

/-- A plain directory: the links among which names are searched. Either a UnixFS `Directory` without the properties of
files and shards, or a dag-pb node whose data (if any) is not UnixFS. -/
def PlainDir (block : Bytes) (links : List PBLink) : Prop :=
  (∃ m, FlatUnixFs.tryParse block = .ok m ∧ m.data.Ty = .Directory ∧ m.data.filesize = none ∧
    m.data.blocksizes = [] ∧ m.data.hashType = none ∧ m.data.fanout = none ∧ m.data.Data.getD [] = [] ∧
    links = m.links) ∨
  (∃ n, PBNode.tryFrom block = .ok n ∧ links = n.Links ∧
    (n.Data = none ∨ ∃ s, n.Data = some s ∧ (s.val = [] ∨ ∃ e, UnixFs.tryFrom (some s.val) = .error e)))

/-- Arbitrary use of a sharded lookup: the caller may supply any bytes as blocks and any cache. -/
inductive Looking (needle : Bytes) : ShardedLookup → Prop
  | start {block : Bytes} {cache cache' : Option LookupCache} {l : ShardedLookup} :
      resolve block needle cache = (.ok (.NeedToLoadMore l), cache') → Looking needle l
  | more {l l' : ShardedLookup} {block : Bytes} {cache cache' : Option LookupCache} :
      Looking needle l → l.continueWalk block cache = (.ok (.NeedToLoadMore l'), cache') → Looking needle l'
  | owned {l : ShardedLookup} : Looking needle l → Looking needle l.withOwnedNeedle

/-- Every link name longer than two bytes can be cut after two bytes: byte 2 starts a character. -/
def CutsAtTwo (links : List PBLink) : Prop :=
  ∀ l ∈ links, 2 < (l.Name.getD []).length → isCharBoundary (l.Name.getD []) 2 = true

end Verif.Spec
