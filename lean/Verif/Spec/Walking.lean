import Verif.Walk
import Verif.Spec.Visiting
/-
Arbitrary use of a walker: what must be asked for and reported, given the blocks supplied so far.
-/
namespace Verif.Spec
open Verif

/-- `Walked cid name h w`: the walker made by `Walker::new(cid, name)` was given the blocks of `h`, whatever they are, and
answered with the items of `h`; it is now `w`. -/
inductive Walked (cid : Cid) (name : Bytes) : List (Bytes × ContinuedWalk) → Walker → Prop
  | new : Walked cid name [] (Walker.new cid name)
  | next {h : List (Bytes × ContinuedWalk)} {w w' : Walker} {block : Bytes} {cache cache' : Option VisitCache}
      {item : ContinuedWalk} : Walked cid name h w → w.shouldContinue = true → (∀ k, cache = some k → CacheObtainable k) →
      w.step block cache = (.ok item, w', cache') → Walked cid name (h ++ [(block, item)]) w'

/-- What a block is to be: the first block of something with a name of its own, more of a sharded directory, or more of a
file. -/
inductive What where
  | entry
  | bucket
  | fileBlock
  deriving DecidableEq, Repr

/-- A block which is still to be visited, and the path of what it belongs to. -/
structure Awaited where
  cid : Cid
  path : List Bytes
  what : What
  deriving DecidableEq, Repr

/-- Following a link. -/
def linkTo (path : List Bytes) (what : What) (l : PBLink) : Option Awaited :=
  match Cid.tryFrom (l.Hash.getD []) with
  | .ok cid => some ⟨cid, path, what⟩
  | .error _ => none

/-- What a link of a node leads to. In a directory, to an entry with the link's name; in a sharded directory names have a
prefix of two characters, and a name consisting only of the prefix is a bucket; in a file, to more of it. -/
def follow (a : Awaited) (m : FlatUnixFs) (l : PBLink) : Option Awaited :=
  let name := l.Name.getD []
  if a.what = .fileBlock then linkTo a.path .fileBlock l
  else match m.data.Ty with
    | .Directory => linkTo (a.path ++ [name]) .entry l
    | .HAMTShard => if name.length = 2 then linkTo a.path .bucket l else linkTo (a.path ++ [name.drop 2]) .entry l
    | .File | .Raw => linkTo a.path .fileBlock l
    | _ => none

/-- Visiting a block: what its links lead to is visited next, in order, before everything else. -/
def visit (todo : List Awaited) (block : Bytes) : List Awaited :=
  match todo, FlatUnixFs.tryParse block with
  | a :: rest, .ok m => m.links.filterMap (follow a m) ++ rest
  | _, _ => todo

/-- The path given to the root. -/
def rootPath (name : Bytes) : List Bytes := if name = [] then [] else [name]

/-- What is to be visited after the given blocks were. -/
def awaited (cid : Cid) (name : Bytes) (blocks : List Bytes) : List Awaited :=
  blocks.foldl visit [⟨cid, rootPath name, .entry⟩]

/-- The bytes of file content in a block: blocks with links have none. -/
def blockContent (m : FlatUnixFs) : Bytes := if m.links = [] then m.data.Data.getD [] else []

/-- What must be reported for an accepted block: `before` is what was reported for the preceding blocks, `last` tells
whether no more blocks of the same file follow. -/
def itemFor (before : List ContinuedWalk) (a : Awaited) (m : FlatUnixFs) (last : Bool) : Option ContinuedWalk :=
  let path : PathBuf := ⟨false, a.path⟩
  let md := metaOf m.data
  match a.what, m.data.Ty with
  | .fileBlock, _ =>
    match before.getLast? with
    | some (.File _ cid path md size) => some (.File ⟨blockContent m, false, last⟩ cid path md size)
    | _ => none
  | .bucket, .HAMTShard => some (.Bucket a.cid path)
  | .entry, .HAMTShard => some (.RootDirectory a.cid path md)
  | .entry, .Directory => if before = [] then some (.RootDirectory a.cid path md) else some (.Directory a.cid path md)
  | .entry, .Symlink => some (.Symlink (m.data.Data.getD []) a.cid path md)
  | .entry, .File => some (.File ⟨blockContent m, true, last⟩ a.cid path md (m.data.filesize.getD 0))
  | .entry, .Raw => some (.File ⟨blockContent m, true, last⟩ a.cid path md (m.data.filesize.getD 0))
  | _, _ => none

/-- The path is of an entry called `.` which is not at the very top of the walk. -/
def DotDeep (path : List Bytes) : Prop := 2 ≤ path.length ∧ path.getLast? = some dot

/-- The reported item is a bucket of a sharded directory which is the root of the walk, and nothing else than such buckets
has been reported since the root. -/
def RootBuckets (before : List ContinuedWalk) : Prop :=
  before ≠ [] ∧ ∀ item ∈ before.drop 1, ∃ c p, item = .Bucket c p

end Verif.Spec
