import Verif.Spec.Loose
/-
Which blocks make quick-protobuf subtract more than there is: nested messages whose fields go on behind their end.
-/
namespace Verif.Spec
open Verif

/-- The fields which a reader of a message with an end at `n` does not expect to find going beyond: those it does not know and
which come with their length. -/
def LinkField.Delimited : LinkField → Prop
  | .unk ⟨_, .bytes _⟩ => True
  | _ => False

def TimeField.Delimited : TimeField → Prop
  | .unk ⟨_, .bytes _⟩ => True
  | _ => False

/-- `Overruns E D known n p x`: reading fields (encoded as `E` says) from `x`, which is at position `p` of a message of length `n`, the
end is never met exactly, but skipped by some field, until an unknown field (its tag not among `known`) with a length is met: its
length prefix ends behind `n`. Unknown fields with a length before it (`D`) keep inside. -/
inductive Overruns {F : Type} (E : F → Bytes → Prop) (D : F → Prop) (known : List Nat) (n : Nat) : Nat → Bytes → Prop
  | now {p tag k tb lb rest} : p ≠ n → Num32 tb tag → tag ∉ known → tag % 8 = 2 → Num64 lb k → n < p + tb.length + lb.length →
      Overruns E D known n p (tb ++ (lb ++ rest))
  | later {p f b rest} : p ≠ n → E f b → (D f → p + b.length ≤ n) → Overruns E D known n (p + b.length) rest → Overruns E D known n p (b ++ rest)

/-- A dag-pb node begins with proper fields, followed by a link of some length which is overrun. -/
def NodeOverrun (b : Bytes) : Prop :=
  ∃ before ns tb lb n x, b = before ++ (tb ++ (lb ++ x)) ∧ IsNode before ns ∧ Num32 tb 18 ∧ Num32 lb n ∧
    Overruns LinkField.Enc LinkField.Delimited [10, 18, 24] n 0 x

/-- A UnixFS message begins with proper fields, followed by a modification time of some length which is overrun. -/
def DataOverrun (b : Bytes) : Prop :=
  ∃ before ds tb lb n x, b = before ++ (tb ++ (lb ++ x)) ∧ IsUnixFs before ds ∧ Num32 tb 66 ∧ Num32 lb n ∧
    Overruns TimeField.Enc TimeField.Delimited [8, 21] n 0 x

end Verif.Spec
