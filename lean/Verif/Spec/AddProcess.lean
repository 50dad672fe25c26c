import Verif.Basic
/-
What was read from an input whose reads may fail.
-/
namespace Verif.Spec
open Verif

/-- The bytes before the end, which is the first empty read; none if a read fails before that. -/
def inputRead : List (Option Bytes) → Option Bytes
  | [] => some []
  | none :: _ => none
  | some x :: rest => if x = [] then some [] else (inputRead rest).map (x ++ ·)

end Verif.Spec
