import Verif.Spec.Building
import Verif.Spec.FsTree
import Verif.Spec.Adding
import Verif.AdderFacts
/-
What a built directory tree is as a file system tree, given what its links lead to; and what a walk says about a path.
-/
namespace Verif.Spec
open Verif

mutual
/-- The file system tree of an entry of the directory at `path`, where the link at path `p` leads to `target p`.
Directories have no metadata. -/
def graft (sha : Bytes → Bytes) (target : List Bytes → FsTree) (path : List Bytes) : DTree → FsTree
  | .link n _ _ => target (path ++ [n])
  | .dir n ks => .dir ⟨cidOf sha (dirBlock (DTree.items sha ks)), n, {}⟩ (graftL sha target (path ++ [n]) ks)
def graftL (sha : Bytes → Bytes) (target : List Bytes → FsTree) (path : List Bytes) : List DTree → List FsTree
  | [] => []
  | k :: ks => graft sha target path k :: graftL sha target path ks
end

/-- The bytes of the file segments reported at a path, in order. -/
def bytesAt (path : List Bytes) (items : List ContinuedWalk) : Bytes :=
  (items.filterMap (fun i => match i with
    | .File seg _ p _ _ => if p = ⟨false, path⟩ then some seg.bytes else none
    | _ => none)).flatten

/-- Something was reported as a file at a path. -/
def FileReported (path : List Bytes) (items : List ContinuedWalk) : Prop :=
  ∃ seg c md size, ContinuedWalk.File seg c ⟨false, path⟩ md size ∈ items

/-- Something was reported as a directory at a path. -/
def DirReported (path : List Bytes) (items : List ContinuedWalk) : Prop :=
  ∃ c md, ContinuedWalk.Directory c ⟨false, path⟩ md ∈ items ∨ ContinuedWalk.RootDirectory c ⟨false, path⟩ md ∈ items

/-- Some content was added, with any configuration and any history of calls; all blocks are in the store, and `c` is the Cid
of the last one. -/
def AddedAs (sha : Bytes → Bytes) (get : Cid → Option Bytes) (c : Cid) (x : Bytes) : Prop :=
  ∃ chunk bf blocks root, 0 < chunk ∧ 0 < bf ∧ BelowLimit blocks ∧ Adds sha chunk bf x blocks ∧ Holds get blocks ∧
    blocks.getLast? = some root ∧ root.1 = c

end Verif.Spec
