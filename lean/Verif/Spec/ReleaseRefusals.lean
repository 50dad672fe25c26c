import Verif.Spec.ReleasePlaces
import Verif.Spec.Refusals
/-
The reasons for which visits and walkers of a release build refuse blocks.
-/
namespace Verif.Spec
open Verif

/-- Where the offsets have got after these sizes; they wrap around at 2^64. -/
def wrappedEnd (base : Nat) (sizes : List Nat) : Nat := sizes.foldl (fun a b => (a + b) % 2 ^ 64) base

/-- The interval assigned to link `k`: as `intervalOf`. -/
def intervalW (base : Nat) (sizes : List Nat) (k : Nat) : Rng := .mk (wrappedEnd base (sizes.take k)) (wrappedEnd base (sizes.take (k + 1)))

/-- A block at this interval is wanted. One at an interval which wraps around is wanted only without a range. -/
def Wanted (target : Option Rng) (i : Rng) : Prop := ∀ r, target = some r → i.lo ≤ i.hi ∧ touches r i = true

/-- The block is not read. -/
inductive ParseRefused (b : Bytes) : FileReadFailed → Prop
  | dagPb {e} : FlatUnixFs.tryParseR b = some (.error (.InvalidDagPb e)) → ParseRefused b (.Read (some e))
  | unixFs {e n} : FlatUnixFs.tryParseR b = some (.error (.InvalidUnixFs e n)) → ParseRefused b (.Read (some e))
  | noData {n} : FlatUnixFs.tryParseR b = some (.error (.NoData n)) → ParseRefused b (.Read none)

/-- A block which is read as `m` is refused as a block of a file which starts at offset `base`. -/
inductive NodeRefused (target : Option Rng) (base : Nat) (m : FlatUnixFs) : FileReadFailed → Prop
  | type : m.data.Ty ≠ .File → m.data.Ty ≠ .Raw → NodeRefused target base m (.UnexpectedType m.data.Ty)
  | mismatch : m.links.length ≠ m.data.blocksizes.length → NodeRefused target base m (.File .LinksAndBlocksizesMismatch)
  | noContent {n} : m.links = [] → m.data.Data.getD [] = [] → m.data.filesize = some n → n ≠ 0 → NodeRefused target base m (.File .NoLinksNoContent)
  | properties : m.data.hashType ≠ none ∨ m.data.fanout ≠ none →
      NodeRefused target base m (.File (.UnexpectedRawOrFileProperties m.data.hashType m.data.fanout))
  | noFilesize : m.links ≠ [] → m.data.filesize = none → NodeRefused target base m (.File .IntermediateNodeWithoutFileSize)
  | cid {k l e} : m.links[k]? = some l → Wanted target (intervalW base m.data.blocksizes k) → Cid.tryFrom (l.Hash.getD []) = .error e →
      NodeRefused target base m (.InvalidCid ⟨k, l.Hash.getD [], l.Name.getD [], e⟩)

/-- A reason to refuse the first block of a file: as `Refused`. -/
inductive StartRefusedRel (target : Option Rng) (b : Bytes) (e : FileReadFailed) : Prop
  | parse : ParseRefused b e → StartRefusedRel target b e
  | node {m} : Reads b m → NodeRefused target 0 m e → StartRefusedRel target b e

/-- The interval does not come next. -/
inductive OutOfPlace (v : FileVisit) (i : Rng) : FileReadFailed → Prop
  | jumps {e} : v.state.last_ending = .Chunk e → i.lo ≠ e → OutOfPlace v i (.File .TreeJumpsBetweenLinks)
  | expands {e} : v.state.last_ending = .TreeCoverage e → i.lo ≤ v.state.last_offset → e < i.hi → OutOfPlace v i (.File .TreeExpandsOnLinks)
  | overlaps {e} : v.state.last_ending = .TreeCoverage e → i.lo < e → e < i.hi → OutOfPlace v i (.File .TreeOverlapsBetweenLinks)
  | earlier {e} : v.state.last_ending = .TreeCoverage e → i.lo < v.state.last_offset → OutOfPlace v i (.File .EarlierLink)

/-- A reason to refuse a further block of a file, awaited for the interval `i`: as `ContinueRefused`. -/
inductive ContinueRefusedRel (v : FileVisit) (i : Rng) (b : Bytes) : FileReadFailed → Prop
  | place {e} : OutOfPlace v i e → ContinueRefusedRel v i b e
  | parse {e} : ParseRefused b e → ContinueRefusedRel v i b e
  | metadata {m} : Reads b m → m.data.mode ≠ none ∨ m.data.mtime ≠ none →
      ContinueRefusedRel v i b (.File (.NonRootDefinesMetadata ⟨m.data.mode, m.data.mtime.map (fun t => (t.Seconds, t.FractionalNanoseconds.getD 0))⟩))
  | node {m e} : Reads b m → NodeRefused v.range i.lo m e → ContinueRefusedRel v i b e

/-- A reason for which a walker refuses a block which is read as `m` and is not one of a file being read: as `EntryRefused`. -/
inductive EntryNodeRefused (m : FlatUnixFs) : WalkError → Prop
  | metadata : m.data.Ty = .Metadata → EntryNodeRefused m (.UnsupportedType .Metadata)
  | directory : m.data.Ty = .Directory → ¬ DirNode m →
      EntryNodeRefused m (.UnsupportedDirectory ⟨m.data.filesize, m.data.blocksizes, m.data.hashType, m.data.fanout, m.data.Data⟩)
  | directoryLink {k l e} : m.data.Ty = .Directory → CidTrouble EntryLabel m.links k l e → EntryNodeRefused m (.InvalidCid ⟨k, l.Hash.getD [], l.Name.getD [], e⟩)
  | shardKind : m.data.Ty = .HAMTShard → m.data.fanout ≠ some 256 ∨ m.data.hashType ≠ some 34 →
      EntryNodeRefused m (.UnsupportedHAMTShard (.UnsupportedProperties m.data.hashType m.data.fanout))
  | shard : m.data.Ty = .HAMTShard → m.data.filesize ≠ none ∨ m.data.blocksizes ≠ [] →
      EntryNodeRefused m (.UnsupportedHAMTShard (.UnexpectedProperties m.data.filesize m.data.blocksizes))
  | shardLink {k l e} : m.data.Ty = .HAMTShard → CidTrouble SlotLabel m.links k l e → EntryNodeRefused m (.InvalidCid ⟨k, l.Hash.getD [], l.Name.getD [], e⟩)
  | file {e e'} : m.data.Ty = .File ∨ m.data.Ty = .Raw → NodeRefused none 0 m e → AsWalkError e e' → EntryNodeRefused m e'

inductive EntryRefusedRel (b : Bytes) : WalkError → Prop
  | dagPb {e} : FlatUnixFs.tryParseR b = some (.error (.InvalidDagPb e)) → EntryRefusedRel b (.DagPbParsingFailed e)
  | unixFs {e n} : FlatUnixFs.tryParseR b = some (.error (.InvalidUnixFs e n)) → EntryRefusedRel b (.UnixFsParsingFailed e)
  | noData {n} : FlatUnixFs.tryParseR b = some (.error (.NoData n)) → EntryRefusedRel b .EmptyDagPbNode
  | node {m e} : Reads b m → EntryNodeRefused m e → EntryRefusedRel b e

/-- A reason for which a walker of a release build refuses a block: as `WalkRefused`. -/
def WalkRefusedRel (a : Place) (v : Option FileVisit) (block : Bytes) (e : WalkError) : Prop :=
  match a.what with
  | .fileBlock => ∃ v' i e', v = some v' ∧ nextInterval v' = some i ∧ ContinueRefusedRel v' i block e' ∧ AsWalkError e' e
  | _ => EntryRefusedRel block e

end Verif.Spec
