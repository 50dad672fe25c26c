import Verif.Spec.Narrow
import Verif.Spec.Overrun
/-
Which blocks make the reader of a platform with 32 bits panic: those of `Spec/Overrun.lean`, and those with a length of which the end has no
position in 32 bits.
-/
namespace Verif.Spec
open Verif

/-- `Overruns32 E D known lens base n p x`: as `Overruns`, for a message which begins at the position `base` of the buffer, and also if a field
whose tag is among `lens` (those which are read with their length) would end at or behind `2 ^ 32`. -/
inductive Overruns32 {F : Type} (E : F → Bytes → Prop) (D : F → Prop) (known lens : List Nat) (base n : Nat) : Nat → Bytes → Prop
  | now {p tag k tb lb rest} : p ≠ n → Num32 tb tag → tag ∉ known → tag % 8 = 2 → Num64 lb k → n < p + tb.length + lb.length →
      Overruns32 E D known lens base n p (tb ++ (lb ++ rest))
  | beyond {p tag k tb lb rest} : p ≠ n → Num32 tb tag → tag ∈ lens → Num32 lb k → U32 ≤ base + p + tb.length + lb.length + k →
      Overruns32 E D known lens base n p (tb ++ (lb ++ rest))
  | later {p f b rest} : p ≠ n → E f b → (D f → p + b.length ≤ n) → Overruns32 E D known lens base n (p + b.length) rest →
      Overruns32 E D known lens base n p (b ++ rest)

/-- A dag-pb node begins with proper fields, followed by a link of some length which is overrun. -/
def NodeOverrun32 (b : Bytes) : Prop :=
  ∃ before ns tb lb n x, b = before ++ (tb ++ (lb ++ x)) ∧ IsNode32 before ns ∧ Num32 tb 18 ∧ Num32 lb n ∧
    Overruns32 LinkField.Enc32 LinkField.Delimited [10, 18, 24] [10, 18] (before.length + tb.length + lb.length) n 0 x

/-- A UnixFS message begins with proper fields, and then comes data or a modification time of which the end has no position in 32 bits. -/
def DataBeyond (b : Bytes) : Prop :=
  ∃ before ds tag tb lb n x, b = before ++ (tb ++ (lb ++ x)) ∧ IsUnixFs32 before ds ∧ Num32 tb tag ∧ (tag = 18 ∨ tag = 66) ∧ Num32 lb n ∧
    U32 ≤ before.length + tb.length + lb.length + n

/-- A UnixFS message begins with proper fields, followed by a modification time of some length which is overrun. -/
def DataOverrun32 (b : Bytes) : Prop :=
  ∃ before ds tb lb n x, b = before ++ (tb ++ (lb ++ x)) ∧ IsUnixFs32 before ds ∧ Num32 tb 66 ∧ Num32 lb n ∧
    Overruns32 TimeField.Enc32 TimeField.Delimited [8, 21] [] (before.length + tb.length + lb.length) n 0 x

end Verif.Spec
