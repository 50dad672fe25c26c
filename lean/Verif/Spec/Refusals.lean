import Verif.Spec.WalkPanics
/-
The reasons for which a block in the middle of a file, or any block given to a walker, is refused.
-/
namespace Verif.Spec
open Verif

/-- A reason to refuse the block `b`, which is awaited by the visit `v` for the interval `i`, and the error which tells it. -/
inductive ContinueRefused (v : FileVisit) (i : Rng) (b : Bytes) : FileReadFailed → Prop
  /-- What comes next leaves a hole after the preceding leaf (or goes back). -/
  | jumps {e} : v.state.last_ending = .Chunk e → i.lo ≠ e → ContinueRefused v i b (.File .TreeJumpsBetweenLinks)
  /-- It reaches beyond what the preceding link block covers. -/
  | expands {e} : v.state.last_ending = .TreeCoverage e → i.lo ≤ v.state.last_offset → e < i.hi →
      ContinueRefused v i b (.File .TreeExpandsOnLinks)
  | overlaps {e} : v.state.last_ending = .TreeCoverage e → i.lo < e → e < i.hi → ContinueRefused v i b (.File .TreeOverlapsBetweenLinks)
  | earlier {e} : v.state.last_ending = .TreeCoverage e → i.lo < v.state.last_offset → ContinueRefused v i b (.File .EarlierLink)
  | dagPb {e} : FlatUnixFs.tryParse b = .error (.InvalidDagPb e) → ContinueRefused v i b (.Read (some e))
  | unixFs {e n} : FlatUnixFs.tryParse b = .error (.InvalidUnixFs e n) → ContinueRefused v i b (.Read (some e))
  | noData {n} : FlatUnixFs.tryParse b = .error (.NoData n) → ContinueRefused v i b (.Read none)
  /-- Only the first block may have metadata. -/
  | metadata {m} : FlatUnixFs.tryParse b = .ok m → m.data.mode ≠ none ∨ m.data.mtime ≠ none →
      ContinueRefused v i b (.File (.NonRootDefinesMetadata
        ⟨m.data.mode, m.data.mtime.map (fun t => (t.Seconds, t.FractionalNanoseconds.getD 0))⟩))
  | type {m} : FlatUnixFs.tryParse b = .ok m → m.data.Ty ≠ .File → m.data.Ty ≠ .Raw →
      ContinueRefused v i b (.UnexpectedType m.data.Ty)
  | mismatch {m} : FlatUnixFs.tryParse b = .ok m → m.links.length ≠ m.data.blocksizes.length →
      ContinueRefused v i b (.File .LinksAndBlocksizesMismatch)
  | noContent {m n} : FlatUnixFs.tryParse b = .ok m → m.links = [] → m.data.Data.getD [] = [] → m.data.filesize = some n →
      n ≠ 0 → ContinueRefused v i b (.File .NoLinksNoContent)
  | properties {m} : FlatUnixFs.tryParse b = .ok m → m.data.hashType ≠ none ∨ m.data.fanout ≠ none →
      ContinueRefused v i b (.File (.UnexpectedRawOrFileProperties m.data.hashType m.data.fanout))
  | noFilesize {m} : FlatUnixFs.tryParse b = .ok m → m.links ≠ [] → m.data.filesize = none →
      ContinueRefused v i b (.File .IntermediateNodeWithoutFileSize)
  | cid {m k l e} : FlatUnixFs.tryParse b = .ok m → m.links[k]? = some l →
      touchesO v.range (intervalOf i.lo m.data.blocksizes k) = true →
      Cid.tryFrom (l.Hash.getD []) = .error e → ContinueRefused v i b (.InvalidCid ⟨k, l.Hash.getD [], l.Name.getD [], e⟩)

/-- How a walker passes on the error of a file visit (parsing errors are not passed on). -/
inductive AsWalkError : FileReadFailed → WalkError → Prop
  | file {e} : AsWalkError (.File e) (.File e)
  | type {t} : AsWalkError (.UnexpectedType t) (.UnexpectedType t)
  | cid {e} : AsWalkError (.InvalidCid e) (.InvalidCid e)

/-- Looking at the links from the last to the first, the first one with which something is wrong is `l` at index `k`, and its
hash is not a Cid. -/
def CidTrouble (label : Option Bytes → Prop) (links : List PBLink) (k : Nat) (l : PBLink) (e : CidError) : Prop :=
  ∃ before after, links = before ++ l :: after ∧ k = before.length ∧ Cid.tryFrom (l.Hash.getD []) = .error e ∧ AllFine label after

/-- A reason for which a walker refuses a block which is not one of a file being read. -/
inductive EntryRefused (block : Bytes) : WalkError → Prop
  | dagPb {e} : FlatUnixFs.tryParse block = .error (.InvalidDagPb e) → EntryRefused block (.DagPbParsingFailed e)
  | unixFs {e n} : FlatUnixFs.tryParse block = .error (.InvalidUnixFs e n) → EntryRefused block (.UnixFsParsingFailed e)
  | noData {n} : FlatUnixFs.tryParse block = .error (.NoData n) → EntryRefused block .EmptyDagPbNode
  | metadata {m} : FlatUnixFs.tryParse block = .ok m → m.data.Ty = .Metadata → EntryRefused block (.UnsupportedType .Metadata)
  /-- A directory must not have properties of files or shards. -/
  | directory {m} : FlatUnixFs.tryParse block = .ok m → m.data.Ty = .Directory → ¬ DirNode m →
      EntryRefused block (.UnsupportedDirectory ⟨m.data.filesize, m.data.blocksizes, m.data.hashType, m.data.fanout, m.data.Data⟩)
  | directoryLink {m k l e} : FlatUnixFs.tryParse block = .ok m → m.data.Ty = .Directory → CidTrouble EntryLabel m.links k l e →
      EntryRefused block (.InvalidCid ⟨k, l.Hash.getD [], l.Name.getD [], e⟩)
  /-- Other hash functions or fan-outs are not supported. -/
  | shardKind {m} : FlatUnixFs.tryParse block = .ok m → m.data.Ty = .HAMTShard →
      m.data.fanout ≠ some 256 ∨ m.data.hashType ≠ some 34 →
      EntryRefused block (.UnsupportedHAMTShard (.UnsupportedProperties m.data.hashType m.data.fanout))
  | shard {m} : FlatUnixFs.tryParse block = .ok m → m.data.Ty = .HAMTShard →
      m.data.filesize ≠ none ∨ m.data.blocksizes ≠ [] →
      EntryRefused block (.UnsupportedHAMTShard (.UnexpectedProperties m.data.filesize m.data.blocksizes))
  | shardLink {m k l e} : FlatUnixFs.tryParse block = .ok m → m.data.Ty = .HAMTShard → CidTrouble SlotLabel m.links k l e →
      EntryRefused block (.InvalidCid ⟨k, l.Hash.getD [], l.Name.getD [], e⟩)
  | file {m e e'} : FlatUnixFs.tryParse block = .ok m → m.data.Ty = .File ∨ m.data.Ty = .Raw → Refused none block e → AsWalkError e e' →
      EntryRefused block e'

/-- A reason for which a walker refuses a block: `a` is awaited, and `v` is the file visit going on, if any. -/
def WalkRefused (a : Awaited) (v : Option FileVisit) (block : Bytes) (e : WalkError) : Prop :=
  match a.what with
  | .fileBlock => ∃ v' i e', v = some v' ∧ nextInterval v' = some i ∧ ContinueRefused v' i block e' ∧ AsWalkError e' e
  | _ => EntryRefused block e

end Verif.Spec
