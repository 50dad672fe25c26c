import Verif.Walk
/-
What a walk says is where.
-/
namespace Verif.Spec
open Verif

/-- The Cid and the path of a reported file, directory or symlink. Buckets are parts of directories and do not count. -/
def whereIs : ContinuedWalk → Option (Cid × PathBuf)
  | .File _ c p _ _ => some (c, p)
  | .RootDirectory c p _ => some (c, p)
  | .Directory c p _ => some (c, p)
  | .Symlink _ c p _ => some (c, p)
  | .Bucket _ _ => none

end Verif.Spec
