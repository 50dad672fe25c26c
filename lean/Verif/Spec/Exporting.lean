import Verif.Spec.Archives
/-
Making an archive from what a walk reports.
-/
namespace Verif.Spec
open Verif Verif.Ingest

/-- What an item gives rise to in an archive: a directory an entry with a slash at the end, a symlink an entry with its target, the
first segment of a file an entry with all bytes reported for its path. Nothing for the root directory, buckets and later segments. -/
def exportItem (items : List ContinuedWalk) : ContinuedWalk → Option TarEntry
  | .File s _ p _ _ => if s.first_block then some ⟨joinSlash p.comps, none, [bytesAt p.comps items]⟩ else none
  | .Symlink t _ p _ => some ⟨joinSlash p.comps, some t, []⟩
  | .Directory _ p _ => some ⟨joinSlash p.comps ++ [slash], none, []⟩
  | .RootDirectory _ _ _ => none
  | .Bucket _ _ => none

/-- The archive of all that was reported, in that order. -/
def exportItems (items : List ContinuedWalk) : List TarEntry := items.filterMap (exportItem items)

end Verif.Spec
