import Verif.Spec.AtPath
import Verif.Spec.DirTree
/-
Root names of walks which are not single names: what path a name is, and what it changes.
-/
namespace Verif.Spec
open Verif

/-- The pieces of a text between slashes: at least one, possibly empty. -/
def Pieces (name : Bytes) (ps : List Bytes) : Prop := ps ≠ [] ∧ (∀ p ∈ ps, slash ∉ p) ∧ name = joinSlash ps

/-- The path which a text with these pieces is (`std::path::Path`): absolute if there is a slash in front; its components are the
pieces which are not empty, and not `.` unless in front. -/
def namePath (ps : List Bytes) : PathBuf :=
  ⟨decide (1 < ps.length ∧ ps.head? = some []), (ps.take 1).filter (fun p => p ≠ []) ++ (ps.drop 1).filter (fun p => p ≠ [] ∧ p ≠ dot)⟩

/-- The item with its path made absolute (`a`) or relative. -/
def rooted (a : Bool) : ContinuedWalk → ContinuedWalk
  | .File seg c p m s => .File seg c ⟨a, p.comps⟩ m s
  | .Directory c p m => .Directory c ⟨a, p.comps⟩ m
  | .RootDirectory c p m => .RootDirectory c ⟨a, p.comps⟩ m
  | .Symlink t c p m => .Symlink t c ⟨a, p.comps⟩ m
  | .Bucket c p => .Bucket c ⟨a, p.comps⟩

/-- An item which belongs to something reported before: more of a file, or more of a sharded directory. -/
def MoreOfTheSame : ContinuedWalk → Prop
  | .File seg _ _ _ _ => seg.first_block = false
  | .Bucket _ _ => True
  | _ => False

end Verif.Spec
