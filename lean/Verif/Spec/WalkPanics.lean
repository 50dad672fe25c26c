import Verif.Spec.FsTree
import Verif.Spec.Panics
/-
When exactly a walker panics.
-/
namespace Verif.Spec
open Verif

/-- A name which the walker can handle on a link of a plain directory: there, not empty, without `/`. -/
def EntryLabel (n : Option Bytes) : Prop := ∃ s, n = some s ∧ s ≠ [] ∧ slash ∉ s

/-- A name which the walker can handle on a link of a shard: two or more bytes; if more, then the remainder starts at a
character and has no `/`. -/
def SlotLabel (n : Option Bytes) : Prop := ∃ s, n = some s ∧ 2 ≤ s.length ∧ (2 < s.length → isCharBoundary s 2 = true ∧ slash ∉ s.drop 2)

/-- The link's hash is a Cid. -/
def CidOk (l : PBLink) : Prop := ∃ c, Cid.tryFrom (l.Hash.getD []) = .ok c

/-- Nothing is wrong with any link. -/
def AllFine (label : Option Bytes → Prop) (links : List PBLink) : Prop := ∀ l ∈ links, CidOk l ∧ label l.Name

/-- Looking at the links from the last to the first, the first one with which something is wrong has a valid Cid, but a name
which is not as it should be. -/
def NameTrouble (label : Option Bytes → Prop) (links : List PBLink) : Prop :=
  ∃ before l after, links = before ++ l :: after ∧ CidOk l ∧ ¬ label l.Name ∧ AllFine label after

/-- A block other than one of a file being read makes a walker panic, given that `a` is awaited and the previous item was
`last`: by its type. -/
def EntryPanics (last : Option ContinuedWalk) (a : Awaited) (block : Bytes) (m : FlatUnixFs) : Prop :=
  match m.data.Ty with
  | .Directory => DirNode m ∧ (NameTrouble EntryLabel m.links ∨ (AllFine EntryLabel m.links ∧ (a.what = .bucket ∨ DotDeep a.path)))
  | .HAMTShard => ShardNode m ∧ (NameTrouble SlotLabel m.links ∨ (AllFine SlotLabel m.links ∧
      ((a.what = .bucket ∧ ∃ c p md, last = some (.Directory c p md)) ∨ (a.what = .entry ∧ DotDeep a.path))))
  | .File | .Raw => StartPanics none block ∨ ((∀ e, ¬ Refused none block e) ∧ (a.what = .bucket ∨ DotDeep a.path))
  | .Symlink => a.what = .bucket ∨ DotDeep a.path
  | .Metadata => False

/-- A block makes a walker panic. For more of a file (the visit `v` is going on): when the visit itself panics, or when the
block is not one of UnixFS although nothing else is wrong. Blocks for anything else: only when they parse. -/
def WalkPanics (last : Option ContinuedWalk) (a : Awaited) (v : Option FileVisit) (block : Bytes) : Prop :=
  match a.what with
  | .fileBlock => ∃ v', v = some v' ∧ (ContinuePanics none v' block ∨
      ((∃ i, nextInterval v' = some i ∧ Follows v'.state.last_ending v'.state.last_offset i) ∧ ∃ e, FlatUnixFs.tryParse block = .error e))
  | _ => ∃ m, FlatUnixFs.tryParse block = .ok m ∧ EntryPanics last a block m

end Verif.Spec
