import Verif.Spec.RootNames
import Verif.Spec.Refusals
/-
Root names of walks which are paths of no component or of several: the items which are reported of the root.
-/
namespace Verif.Spec
open Verif

/-- The item with another path. -/
def placedAt (p : PathBuf) : ContinuedWalk → ContinuedWalk
  | .File seg c _ m s => .File seg c p m s
  | .Directory c _ m => .Directory c p m
  | .RootDirectory c _ m => .RootDirectory c p m
  | .Symlink t c _ m => .Symlink t c p m
  | .Bucket c _ => .Bucket c p

/-- The history with another path for all that was reported. -/
def historyAt (p : PathBuf) (h : List (Bytes × ContinuedWalk)) : List (Bytes × ContinuedWalk) := h.map (fun y => (y.1, placedAt p y.2))

/-- With a root name which is not a path of one component, entries of the root cannot be entered: their blocks make the walker panic
unless they are refused. (`after` tells that something was reported already, so that what is awaited is not the root.) -/
def CannotEnter (name : Bytes) (path : PathBuf) (after : Prop) (a : Awaited) (v : Option FileVisit) (block : Bytes) : Prop :=
  name ≠ [] ∧ path.comps.length ≠ 1 ∧ after ∧ a.what = .entry ∧ ∀ e, ¬ WalkRefused a v block e

end Verif.Spec
