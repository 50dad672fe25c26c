import Verif.Walk
/-
Where a walk begins something: every file, directory and symlink is begun once, though a file may be reported in several pieces.
-/
namespace Verif.Spec
open Verif

/-- The Cid and the path of a directory, of a symlink, or of a file of which this is the first piece. -/
def opens : ContinuedWalk → Option (Cid × PathBuf)
  | .File seg c p _ _ => if seg.first_block then some (c, p) else none
  | .RootDirectory c p _ => some (c, p)
  | .Directory c p _ => some (c, p)
  | .Symlink _ c p _ => some (c, p)
  | .Bucket _ _ => none

/-- All that a walk has begun, in order. -/
def opened (log : List (Cid × ContinuedWalk)) : List (Cid × PathBuf) := log.filterMap (fun x => opens x.2)

/-- No path was begun twice. -/
def PathsOnce (log : List (Cid × ContinuedWalk)) : Prop := ((opened log).map (·.2)).Nodup

/-- Two things were begun at the path. -/
def BegunTwice (log : List (Cid × ContinuedWalk)) (p : PathBuf) : Prop := ∃ d d', [(d, p), (d', p)].Sublist (opened log)

end Verif.Spec
