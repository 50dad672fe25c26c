import Verif.Spec.FsTree
import Verif.Spec.DirTree
import Verif.Examples
/-
What the example program `get` should list: one line for every directory, file and symlink, in the order of a depth first walk.
-/
namespace Verif.Spec
open Verif Verif.Examples

/-- The last twelve bits of the mode, which are the permissions. -/
def permissions (default : Nat) (m : Metadata) : Nat := (m.mode.getD default) % 4096

/-- The seconds of the modification time; 0 if there is none. -/
def seconds (m : Metadata) : Int :=
  match m.mtime with
  | some (s, _) => s
  | none => 0

mutual
/-- The lines for a tree in a directory at path `parent`. -/
def FsTree.listing (parent : List Bytes) : FsTree → List Line
  | .file e t => [.f (permissions 0o644 e.md) (seconds e.md) t.content.length ⟨false, parent ++ rootPath e.name⟩]
  | .symlink e target => [.s (permissions 0o755 e.md) (seconds e.md) ⟨false, parent ++ rootPath e.name⟩ target]
  | .dir e kids => .d (permissions 0o755 e.md) (seconds e.md) ⟨false, parent ++ rootPath e.name⟩ ::
      FsTree.listingL (parent ++ rootPath e.name) kids
  | .sharded e kids => .d (permissions 0o755 e.md) (seconds e.md) ⟨false, parent ++ rootPath e.name⟩ ::
      FsTree.listingL (parent ++ rootPath e.name) kids
  | .bucket _ kids => FsTree.listingL parent kids
def FsTree.listingL (parent : List Bytes) : List FsTree → List Line
  | [] => []
  | t :: ts => FsTree.listing parent t ++ FsTree.listingL parent ts
end

mutual
/-- The targets of all symlinks, in the order of the walk. -/
def FsTree.targets : FsTree → List Bytes
  | .file _ _ => []
  | .symlink _ target => [target]
  | .dir _ kids => FsTree.targetsL kids
  | .sharded _ kids => FsTree.targetsL kids
  | .bucket _ kids => FsTree.targetsL kids
def FsTree.targetsL : List FsTree → List Bytes
  | [] => []
  | t :: ts => FsTree.targets t ++ FsTree.targetsL ts
end

mutual
/-- The lines for an entry of a tree of directories and files, in the directory at `path`; `size` gives the sizes of the files. -/
def DTree.lines (size : Cid → Nat) (path : List Bytes) : DTree → List Line
  | .link n c _ => [.f 0o644 0 (size c) ⟨false, path ++ [n]⟩]
  | .dir n ks => .d 0o755 0 ⟨false, path ++ [n]⟩ :: DTree.linesL size (path ++ [n]) ks
def DTree.linesL (size : Cid → Nat) (path : List Bytes) : List DTree → List Line
  | [] => []
  | k :: ks => DTree.lines size path k ++ DTree.linesL size path ks
end

end Verif.Spec
