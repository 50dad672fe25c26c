import Verif.Spec.FileTree
import Verif.FileReader
/-
What it means for a block (together with a block store) to represent a file tree. Independent of adder and reader;
blocks are only looked at through parsing.
-/
namespace Verif.Spec
open Verif

/-- A file node: UnixFS type `File` or `Raw`, no HAMT properties. -/
def FileNode (m : FlatUnixFs) : Prop :=
  (m.data.Ty = .File ∨ m.data.Ty = .Raw) ∧ m.data.hashType = none ∧ m.data.fanout = none

/-- No `mode` and no `mtime`. -/
def NoMeta (m : FlatUnixFs) : Prop := m.data.mode = none ∧ m.data.mtime = none

/-- The metadata in a block: its mode, and its mtime as seconds and nanoseconds (zero when absent). -/
def metaOf (d : UnixFs) : Metadata :=
  { mode := d.mode, mtime := d.mtime.map (fun t => (t.Seconds, t.FractionalNanoseconds.getD 0)) }

/-- The library's conversion agrees. -/
theorem ofUnixFs_eq (d : UnixFs) : Metadata.ofUnixFs d = metaOf d := rfl

mutual
/-- `FileAt get t b`: block `b` is the root of a well-formed file with tree `t`, all blocks below being in the store
`get`. -/
def FileAt (get : Cid → Option Bytes) : FTree → Bytes → Prop
  | .leaf d, b => ∃ m, FlatUnixFs.tryParse b = .ok m ∧ FileNode m ∧ m.links = [] ∧ m.data.blocksizes = [] ∧
      m.data.Data.getD [] = d ∧ m.data.filesize = some d.length
  | .node ts, b => ∃ m, FlatUnixFs.tryParse b = .ok m ∧ FileNode m ∧ ts ≠ [] ∧ m.data.Data.getD [] = [] ∧
      m.data.filesize = some (FTree.contents ts).length ∧
      m.data.blocksizes = ts.map (fun t => t.content.length) ∧ FilesAt get ts m.links
/-- The links of a file node lead to the given subtrees; blocks below the root define no metadata. -/
def FilesAt (get : Cid → Option Bytes) : List FTree → List PBLink → Prop
  | [], [] => True
  | t :: ts, l :: ls => (∃ cid b m, Cid.tryFrom (l.Hash.getD []) = .ok cid ∧ get cid = some b ∧
      FlatUnixFs.tryParse b = .ok m ∧ NoMeta m ∧ FileAt get t b) ∧ FilesAt get ts ls
  | _, _ => False
end

/-- The store holds the given blocks under their Cids. -/
def Holds (get : Cid → Option Bytes) (blocks : List (Cid × Bytes)) : Prop := ∀ e ∈ blocks, get e.1 = some e.2

end Verif.Spec
