import Verif.Spec.Visiting
/-
When reading a file fails, and when exactly it panics.
-/
namespace Verif.Spec
open Verif

/-- The documented reasons for which a visit refuses its first block. -/
inductive Refused (target : Option Rng) (b : Bytes) : FileReadFailed → Prop
  | dagPb {e} : FlatUnixFs.tryParse b = .error (.InvalidDagPb e) → Refused target b (.Read (some e))
  | unixFs {e n} : FlatUnixFs.tryParse b = .error (.InvalidUnixFs e n) → Refused target b (.Read (some e))
  | noData {n} : FlatUnixFs.tryParse b = .error (.NoData n) → Refused target b (.Read none)
  | type {m} : FlatUnixFs.tryParse b = .ok m → m.data.Ty ≠ .File → m.data.Ty ≠ .Raw →
      Refused target b (.UnexpectedType m.data.Ty)
  | mismatch {m} : FlatUnixFs.tryParse b = .ok m → m.links.length ≠ m.data.blocksizes.length →
      Refused target b (.File .LinksAndBlocksizesMismatch)
  | noContent {m n} : FlatUnixFs.tryParse b = .ok m → m.links = [] → m.data.Data.getD [] = [] → m.data.filesize = some n →
      n ≠ 0 → Refused target b (.File .NoLinksNoContent)
  | properties {m} : FlatUnixFs.tryParse b = .ok m → m.data.hashType ≠ none ∨ m.data.fanout ≠ none →
      Refused target b (.File (.UnexpectedRawOrFileProperties m.data.hashType m.data.fanout))
  | noFilesize {m} : FlatUnixFs.tryParse b = .ok m → m.links ≠ [] → m.data.filesize = none →
      Refused target b (.File .IntermediateNodeWithoutFileSize)
  | cid {m k l e} : FlatUnixFs.tryParse b = .ok m → m.links[k]? = some l →
      touchesO target ⟨(m.data.blocksizes.take k).sum, (m.data.blocksizes.take (k + 1)).sum⟩ = true →
      Cid.tryFrom (l.Hash.getD []) = .error e → Refused target b (.InvalidCid ⟨k, l.Hash.getD [], l.Name.getD [], e⟩)

/-- A parsed block with which the reader finds nothing wrong, apart from the file size it declares or does not declare. -/
structure Passed (m : FlatUnixFs) : Prop where
  type : m.data.Ty = .File ∨ m.data.Ty = .Raw
  sizes : m.links.length = m.data.blocksizes.length
  content : m.links = [] → m.data.Data.getD [] = [] → m.data.filesize.getD 0 = 0
  hashType : m.data.hashType = none
  fanout : m.data.fanout = none

/-- The interval assigned to link `k` of a block starting at offset `base` with these block sizes. -/
def intervalOf (base : Nat) (sizes : List Nat) (k : Nat) : Rng := .mk (base + (sizes.take k).sum) (base + (sizes.take (k + 1)).sum)

/-- While computing the intervals of the links one ends beyond 2^64, and no link before it is wanted and has an invalid Cid. -/
def IntervalOverflows (target : Option Rng) (base : Nat) (m : FlatUnixFs) : Prop :=
  ∃ k, k < m.links.length ∧ U64 ≤ (intervalOf base m.data.blocksizes k).hi ∧
    ∀ j l, j < k → m.links[j]? = some l → touchesO target (intervalOf base m.data.blocksizes j) = true →
      ∃ cid, Cid.tryFrom (l.Hash.getD []) = .ok cid

/-- The first block makes the visit panic. -/
def StartPanics (target : Option Rng) (b : Bytes) : Prop :=
  ∃ m, FlatUnixFs.tryParse b = .ok m ∧ Passed m ∧
    ((m.links = [] ∧ m.data.filesize = none) ∨
     (m.links ≠ [] ∧ m.data.filesize ≠ none ∧ IntervalOverflows target 0 m))

/-- The block for interval `i` may come after the preceding block: exactly at the end of a leaf; inside of what a link block
covers, or after it. -/
def Follows (prev : Ending) (offset : Nat) (i : Rng) : Prop :=
  match prev with
  | .Chunk e => i.lo = e
  | .TreeCoverage e => offset ≤ i.lo ∧ (i.hi ≤ e ∨ (offset < i.lo ∧ e ≤ i.lo))

/-- A continuation block makes the visit panic: it is expected for no interval at all; or, while all is right with it
otherwise, it is a leaf which does not declare its size, one which ends beyond 2^64 by its own declaration or by that of
its links, or a leaf which is shorter than the part of its interval which is wanted. -/
def ContinuePanics (target : Option Rng) (v : FileVisit) (b : Bytes) : Prop :=
  nextInterval v = none ∨
  ∃ i m, nextInterval v = some i ∧ Follows v.state.last_ending v.state.last_offset i ∧ FlatUnixFs.tryParse b = .ok m ∧
    m.data.mode = none ∧ m.data.mtime = none ∧ Passed m ∧
    ((m.links = [] ∧ m.data.filesize = none) ∨
     (∃ n, m.data.filesize = some n ∧ U64 ≤ i.lo + n) ∨
     (m.links ≠ [] ∧ m.data.filesize ≠ none ∧ IntervalOverflows target i.lo m) ∨
     (m.links = [] ∧ ∃ r, target = some r ∧ touches r i = true ∧ i.lo + (m.data.Data.getD []).length < min r.hi i.hi))

end Verif.Spec
