import Verif.Spec.Building
/-
When calls of the builder do not exclude one another.
-/
namespace Verif.Spec
open Verif

/-- The call puts a link. -/
def Op.isPut : Op → Prop
  | .putLink _ _ _ => True
  | .setMetadata _ _ => False

/-- Two calls which can both be successful in one history: nothing else may be at or below the path of a link. -/
def Compatible (a b : Op) : Prop :=
  ∀ p q, PathOf a.path p → PathOf b.path q → (a.isPut → ¬ p <+: q) ∧ (b.isPut → ¬ q <+: p)

/-- The same path, and the same thing wanted there (metadata do not matter). -/
def SameCall (a b : Op) : Prop := a.path = b.path ∧ a.thing = b.thing

end Verif.Spec
