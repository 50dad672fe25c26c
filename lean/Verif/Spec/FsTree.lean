import Verif.Spec.Walking
import Verif.Spec.FileAt
/-
File system trees in a block store, what walking one should report, and the client's loop. Independent of the walker's
internals; blocks are only looked at through parsing.
-/
namespace Verif.Spec
open Verif

/-- What every file, symlink and directory has: its first block's Cid, its name and its metadata. -/
structure Entry where
  cid : Cid
  name : Bytes
  md : Metadata

/-- A file system tree. A `bucket` is a block of a sharded directory other than its first. -/
inductive FsTree where
  | file (e : Entry) (content : FTree)
  | symlink (e : Entry) (target : Bytes)
  | dir (e : Entry) (kids : List FsTree)
  | sharded (e : Entry) (kids : List FsTree)
  | bucket (cid : Cid) (kids : List FsTree)

/-- The Cid of the (first) block. -/
def FsTree.cid : FsTree → Cid
  | file e _ => e.cid
  | symlink e _ => e.cid
  | dir e _ => e.cid
  | sharded e _ => e.cid
  | bucket c _ => c

/-- The name; buckets have none. -/
def FsTree.name : FsTree → Bytes
  | file e _ => e.name
  | symlink e _ => e.name
  | dir e _ => e.name
  | sharded e _ => e.name
  | bucket _ _ => []

/-- Something with a name of its own. -/
def FsTree.Named : FsTree → Prop
  | bucket _ _ => False
  | _ => True

/-- A name of an entry of a directory: not empty, not `.`, without `/`, UTF-8. -/
def GoodName (n : Bytes) : Prop := n ≠ [] ∧ n ≠ dot ∧ slash ∉ n ∧ validUtf8 n = true

/-- A UnixFS `Directory` block without the properties of files and shards. -/
def DirNode (m : FlatUnixFs) : Prop := m.data.Ty = .Directory ∧ m.data.filesize = none ∧ m.data.blocksizes = [] ∧
  m.data.hashType = none ∧ m.data.fanout = none ∧ m.data.Data.getD [] = []

/-- A UnixFS `HAMTShard` block: fanout 256, hash type 34, no file properties. -/
def ShardNode (m : FlatUnixFs) : Prop := m.data.Ty = .HAMTShard ∧ m.data.fanout = some 256 ∧ m.data.hashType = some 34 ∧
  m.data.filesize = none ∧ m.data.blocksizes = []

/-- How a link in a sharded directory is named: two characters for a bucket; for an entry, two characters and its name. -/
def SlotName : FsTree → Option Bytes → Prop
  | .bucket _ _, n => ∃ s, n = some s ∧ s.length = 2
  | t, n => GoodName t.name ∧ ∃ p q : UInt8, p ≤ 0x7F ∧ q ≤ 0x7F ∧ n = some (p :: q :: t.name)

mutual
/-- All blocks of a well-formed file system tree are in the store. -/
def FsAt (get : Cid → Option Bytes) : FsTree → Prop
  | .file e t => ∃ b m, get e.cid = some b ∧ FlatUnixFs.tryParse b = .ok m ∧ e.md = metaOf m.data ∧ FileAt get t b
  | .symlink e target => ∃ b m, get e.cid = some b ∧ FlatUnixFs.tryParse b = .ok m ∧ e.md = metaOf m.data ∧
      m.data.Ty = .Symlink ∧ m.data.Data.getD [] = target
  | .dir e kids => ∃ b m, get e.cid = some b ∧ FlatUnixFs.tryParse b = .ok m ∧ e.md = metaOf m.data ∧
      DirNode m ∧ EntriesAt get kids m.links
  | .sharded e kids => ∃ b m, get e.cid = some b ∧ FlatUnixFs.tryParse b = .ok m ∧ e.md = metaOf m.data ∧
      ShardNode m ∧ SlotsAt get kids m.links
  | .bucket c kids => ∃ b m, get c = some b ∧ FlatUnixFs.tryParse b = .ok m ∧ ShardNode m ∧ SlotsAt get kids m.links
/-- The links of a plain directory, one for each entry. -/
def EntriesAt (get : Cid → Option Bytes) : List FsTree → List PBLink → Prop
  | [], [] => True
  | k :: ks, l :: ls => (k.Named ∧ GoodName k.name ∧ l.Name = some k.name ∧ Cid.tryFrom (l.Hash.getD []) = .ok k.cid ∧ FsAt get k) ∧
      EntriesAt get ks ls
  | _, _ => False
/-- The links of a shard, one for each entry or bucket. -/
def SlotsAt (get : Cid → Option Bytes) : List FsTree → List PBLink → Prop
  | [], [] => True
  | k :: ks, l :: ls => (SlotName k l.Name ∧ Cid.tryFrom (l.Hash.getD []) = .ok k.cid ∧ FsAt get k) ∧ SlotsAt get ks ls
  | _, _ => False
end

mutual
/-- The bytes of content in each block of a file, in the order of visiting: none in a block with links. -/
def FTree.pieces : FTree → List Bytes
  | .leaf d => [d]
  | .node ts => [] :: FTree.piecesL ts
def FTree.piecesL : List FTree → List Bytes
  | [] => []
  | t :: ts => FTree.pieces t ++ FTree.piecesL ts
end

/-- Segments of a file: the last one is flagged as such, and the first one if `first`. -/
def segments (first : Bool) : List Bytes → List FileSegment
  | [] => []
  | [p] => [⟨p, first, true⟩]
  | p :: q :: ps => ⟨p, first, false⟩ :: segments false (q :: ps)

mutual
/-- What is to be reported for a tree in a directory at path `parent`: depth first, in link order. (The first item for a
sharded directory is `RootDirectory`, as documented: it is the root of the directory's buckets.) -/
def FsTree.items (parent : List Bytes) : FsTree → List ContinuedWalk
  | .file e t => (segments true t.pieces).map (fun s => .File s e.cid ⟨false, parent ++ rootPath e.name⟩ e.md t.content.length)
  | .symlink e target => [.Symlink target e.cid ⟨false, parent ++ rootPath e.name⟩ e.md]
  | .dir e kids => .Directory e.cid ⟨false, parent ++ rootPath e.name⟩ e.md :: FsTree.itemsL (parent ++ rootPath e.name) kids
  | .sharded e kids => .RootDirectory e.cid ⟨false, parent ++ rootPath e.name⟩ e.md :: FsTree.itemsL (parent ++ rootPath e.name) kids
  | .bucket c kids => .Bucket c ⟨false, parent⟩ :: FsTree.itemsL parent kids
def FsTree.itemsL (parent : List Bytes) : List FsTree → List ContinuedWalk
  | [] => []
  | t :: ts => FsTree.items parent t ++ FsTree.itemsL parent ts
end

/-- What is to be reported for a whole walk: a root which is a directory is reported as `RootDirectory`. -/
def FsTree.walkItems (t : FsTree) : List ContinuedWalk :=
  match t.items [] with
  | .Directory c p m :: rest => .RootDirectory c p m :: rest
  | items => items

/-- Why walking can fail. -/
inductive WalkFail where
  | missing (c : Cid)
  | failed (e : WalkError)
  | noLinks

/-- The loop of `examples/get.rs:57-68`: while there is something to visit, ask for the first pending link, fetch its
block, give it to the walker. `none`: the loop does not terminate. The result is the list of reported items. -/
def walkFrom (get : Cid → Option Bytes) (w : Walker) (cache : Option VisitCache) : Option (Res WalkFail (List ContinuedWalk)) :=
  if w.shouldContinue = false then some (.ok [])
  else match w.pendingLinks with
  | .panic p => some (.panic p)
  | .err () => some (.err .noLinks)
  | .ok (first, _) =>
    match get first with
    | none => some (.err (.missing first))
    | some block =>
      match w.step block cache with
      | (.panic p, _, _) => some (.panic p)
      | (.err e, _, _) => some (.err (.failed e))
      | (.ok item, w', cache') => do
        let r ← walkFrom get w' cache'
        some (r.map (fun items => item :: items))
partial_fixpoint

/-- A bucket item. -/
def isBucket : ContinuedWalk → Bool
  | .Bucket _ _ => true
  | _ => false

/-- A plain directory other than the root. -/
def isDirectory : ContinuedWalk → Bool
  | .Directory _ _ _ => true
  | _ => false

/-- The item with another Cid, if it is a bucket. -/
def withBucketCid (c : Cid) : ContinuedWalk → ContinuedWalk
  | .Bucket _ p => .Bucket c p
  | item => item

/-- The items actually reported: buckets reported right after the root have the root's Cid. -/
def rootCids (cid : Cid) : List ContinuedWalk → List ContinuedWalk
  | [] => []
  | item :: items => item :: (items.takeWhile isBucket).map (withBucketCid cid) ++ items.dropWhile isBucket

/-- Somewhere a bucket is reported right after a plain directory (which is then empty, and an entry of the sharded
directory). -/
def DirThenBucket (items : List ContinuedWalk) : Prop :=
  ∃ before d b after, items = before ++ d :: b :: after ∧ isDirectory d = true ∧ isBucket b = true

end Verif.Spec
