import Verif.Spec.ReleaseWalk
/-
Walks of a release build over arbitrary blocks: what is asked for, what is reported and when exactly they panic.
-/
namespace Verif.Spec
open Verif

/-- As `WalkedRel`, with caches as callers can have them. -/
inductive RoamedRel (cid : Cid) (name : Bytes) : List (Bytes × ContinuedWalk) → Walker → Prop
  | new : RoamedRel cid name [] (Walker.new cid name)
  | next {h : List (Bytes × ContinuedWalk)} {w w' : Walker} {block : Bytes} {cache cache' : Option VisitCache} {item : ContinuedWalk} :
      RoamedRel cid name h w → w.shouldContinue = true → (∀ k, cache = some k → CacheObtainable k) →
      w.stepRel block cache = some (.ok item, w', cache') → RoamedRel cid name (h ++ [(block, item)]) w'

/-- A block which is still to be visited: what it is, the name under which it is entered (none for buckets), and its level, which is one
more than the number of names on the way from the root; for more of a file, those of the file. -/
structure Place where
  cid : Cid
  level : Nat
  name : Bytes
  what : What
  deriving DecidableEq, Repr

/-- Following a link. -/
def placeAt (level : Nat) (name : Bytes) (what : What) (l : PBLink) : Option Place :=
  match Cid.tryFrom (l.Hash.getD []) with
  | .ok cid => some ⟨cid, level, name, what⟩
  | .error _ => none

/-- What a link of a node leads to: as `follow`. -/
def followRel (a : Place) (m : FlatUnixFs) (l : PBLink) : Option Place :=
  let name := l.Name.getD []
  if a.what = .fileBlock then placeAt a.level a.name .fileBlock l
  else match m.data.Ty with
    | .Directory => placeAt (a.level + 1) name .entry l
    | .HAMTShard => if name.length = 2 then placeAt a.level [] .bucket l else placeAt (a.level + 1) (name.drop 2) .entry l
    | .File | .Raw => placeAt a.level a.name .fileBlock l
    | _ => none

/-- Visiting a block, as a release build reads it. -/
def visitRel (todo : List Place) (block : Bytes) : List Place :=
  match todo, FlatUnixFs.tryParseR block with
  | a :: rest, some (.ok m) => m.links.filterMap (followRel a m) ++ rest
  | _, _ => todo

/-- What is to be visited after the given blocks were. -/
def placesRel (cid : Cid) (name : Bytes) (blocks : List Bytes) : List Place :=
  blocks.foldl visitRel [⟨cid, if name = [] then 1 else 2, name, .entry⟩]

/-- The level of what the last of the blocks was for. -/
def lastLevel (cid : Cid) (name : Bytes) (blocks : List Bytes) : Nat :=
  match placesRel cid name blocks.dropLast with
  | a :: _ => a.level
  | [] => 0

/-- The path without its last `k` components, if it has as many. -/
def upBy (k : Nat) (p : PathBuf) : Option PathBuf :=
  if k ≤ p.comps.length then some ⟨p.absolute, p.comps.take (p.comps.length - k)⟩ else none

/-- The path with one more component. No name, or `.` unless it is the first of a relative path, adds nothing. -/
def into (p : PathBuf) (n : Bytes) : PathBuf :=
  if n = [] ∨ (n = dot ∧ (p.absolute = true ∨ p.comps ≠ [])) then p else ⟨p.absolute, p.comps ++ [n]⟩

/-- The path of what is at place `a`: that of the root for the first block; otherwise it is made from the path reported last, of
something at the level `level`: as many components are removed as levels are left, and the name is added. (`bucket` tells that it is a
bucket, which belongs to the directory above.) -/
def pathTo (root : PathBuf) (last : Option ContinuedWalk) (level : Nat) (a : Place) (bucket : Prop) [Decidable bucket] : Option PathBuf :=
  match last with
  | none => some root
  | some item => if bucket then upBy (level - a.level) (pathOf item) else (upBy (level + 1 - a.level) (pathOf item)).map (into · a.name)

/-- What is reported for a block which is read as `m`: as `itemFor`. (`c` is the Cid which is reported if it is a bucket.) -/
def itemRel (root : PathBuf) (before : List ContinuedWalk) (level : Nat) (a : Place) (c : Cid) (m : FlatUnixFs) (last : Bool) : Option ContinuedWalk :=
  let md := metaOf m.data
  if a.what = .fileBlock then
    match before.getLast? with
    | some (.File _ cid path md size) => some (.File ⟨blockContent m, false, last⟩ cid path md size)
    | _ => none
  else match pathTo root before.getLast? level a (a.what = .bucket ∧ m.data.Ty = .HAMTShard) with
  | none => none
  | some path =>
    match m.data.Ty with
    | .HAMTShard => if a.what = .bucket then some (.Bucket c path) else some (.RootDirectory a.cid path md)
    | .Directory => if before = [] then some (.RootDirectory a.cid path md) else some (.Directory a.cid path md)
    | .Symlink => some (.Symlink (m.data.Data.getD []) a.cid path md)
    | .File | .Raw => some (.File ⟨blockContent m, true, last⟩ a.cid path md (m.data.filesize.getD 0))
    | .Metadata => none

/-- No block of a file which is being read is waited for. -/
def fileEnds (todo : List Place) : Bool :=
  match todo with
  | a :: _ => decide (a.what ≠ .fileBlock)
  | [] => true

/-- The first block of a file with which nothing is wrong. -/
def FirstFine (m : FlatUnixFs) : Prop := Passed m ∧ m.data.filesize ≠ none ∧ ∀ l ∈ m.links, CidOk l

/-- A block other than one of a file being read makes a walker of a release build panic: by its type. As `EntryPanics`, but instead of
names which are `.` what matters is whether the path reported last has as many components as have to be removed. -/
def EntryPanicsRel (last : Option ContinuedWalk) (level : Nat) (a : Place) (m : FlatUnixFs) : Prop :=
  let short : Prop := ∃ item, last = some item ∧ (pathOf item).comps.length < level + 1 - a.level
  match m.data.Ty with
  | .Directory => DirNode m ∧ (NameTrouble EntryLabel m.links ∨ (AllFine EntryLabel m.links ∧ short))
  | .HAMTShard => ShardNode m ∧ (NameTrouble SlotLabel m.links ∨ (AllFine SlotLabel m.links ∧
      ((a.what = .bucket ∧ ∃ item, last = some item ∧ ((∃ c p md, item = .Directory c p md) ∨ (pathOf item).comps.length < level - a.level)) ∨
       (a.what = .entry ∧ short))))
  | .File | .Raw => (Passed m ∧ m.links = [] ∧ m.data.filesize = none) ∨ (FirstFine m ∧ short)
  | .Symlink => short
  | .Metadata => False

/-- A block makes a walker of a release build panic: as `WalkPanics`. -/
def WalkPanicsRel (last : Option ContinuedWalk) (level : Nat) (a : Place) (v : Option FileVisit) (block : Bytes) : Prop :=
  match a.what with
  | .fileBlock => ∃ v', v = some v' ∧ (ContinuePanicsRel v' block ∨
      ((∃ i, nextInterval v' = some i ∧ Follows v'.state.last_ending v'.state.last_offset i) ∧ ∃ e, FlatUnixFs.tryParseR block = some (.error e)))
  | _ => ∃ m, Reads block m ∧ EntryPanicsRel last level a m

/-- A walker of a release build never answers: when the block is parsed and that never ends. -/
def WalkHangsRel (a : Place) (v : Option FileVisit) (block : Bytes) : Prop :=
  Endless block ∧ (a.what = .fileBlock → ∃ v' i, v = some v' ∧ nextInterval v' = some i ∧ Follows v'.state.last_ending v'.state.last_offset i)

end Verif.Spec
