import Verif.Spec.Grafting
/-
The items a walk reports for one path.
-/
namespace Verif.Spec
open Verif

/-- The path of an item. -/
def itemPath : ContinuedWalk → PathBuf
  | .File _ _ p _ _ => p
  | .Directory _ p _ => p
  | .RootDirectory _ p _ => p
  | .Symlink _ _ p _ => p
  | .Bucket _ p => p

/-- The items reported for the path with these components, in order. -/
def atPath (cs : List Bytes) (items : List ContinuedWalk) : List ContinuedWalk :=
  items.filter (fun i => decide (itemPath i = ⟨false, cs⟩))

/-- What there can be at a path. -/
inductive Content where
  | file (bytes : Bytes)
  | symlink (target : Bytes)
  | dir
  deriving DecidableEq, Repr

/-- The block of a symlink. -/
def symlinkBlock (target : Bytes) : Bytes :=
  FlatUnixFs.write { links := [], data := { Ty := .Symlink, Data := some target } }

/-- The link with the Cid `c` leads to that content: to the last block of a file which was added, with any configuration and in any
pieces, or to the block of a symlink. -/
def StoredAs (sha : Bytes → Bytes) (get : Cid → Option Bytes) (c : Cid) : Content → Prop
  | .file x => AddedAs sha get c x
  | .symlink t => get c = some (symlinkBlock t) ∧ t.length < 2 ^ 31
  | .dir => False

/-- What a walk must report at the path `cs`, and all it must report there: the content of a file in segments, of which exactly the first
and the last are flagged as such; one symlink with its target; or one directory. All with the Cid, without metadata. -/
def ShownAs (c : Cid) (cs : List Bytes) (items : List ContinuedWalk) : Content → Prop
  | .file x => ∃ pieces : List Bytes, pieces ≠ [] ∧ pieces.flatten = x ∧
      atPath cs items = (segments true pieces).map (fun s => .File s c ⟨false, cs⟩ {} x.length)
  | .symlink t => atPath cs items = [.Symlink t c ⟨false, cs⟩ {}]
  | .dir => atPath cs items = [.Directory c ⟨false, cs⟩ {}]

end Verif.Spec
