import Verif.Adder
import Verif.Spec.FileTree
/-
What it means for a client to use a `FileAdder`.
-/
namespace Verif.Spec
open Verif

/-- A freshly built adder with chunk size `c` and branching factor `bf`. -/
def newAdder (c bf : Nat) : FileAdder := FileAdder.build c { branching_factor := bf }

/-- `Reaches sha c bf x bs a`: some history of `push` calls (with arbitrary inputs, whose consumed prefixes concatenate
to `x`) on a freshly built adder leads to adder `a` and has returned the blocks `bs`. -/
inductive Reaches (sha : Bytes → Bytes) (c bf : Nat) : Bytes → List (Cid × Bytes) → FileAdder → Prop
  | start : Reaches sha c bf [] [] (newAdder c bf)
  | push {x bs a} (input : Bytes) {a' bs' n} : Reaches sha c bf x bs a →
      a.push sha input = some (.ok (a', bs', n)) → Reaches sha c bf (x ++ input.take n) (bs ++ bs') a'

/-- `Adds sha c bf x blocks`: some history of pushes with content `x`, followed by `finish`, returned `blocks`. -/
def Adds (sha : Bytes → Bytes) (c bf : Nat) (x : Bytes) (blocks : List (Cid × Bytes)) : Prop :=
  ∃ bs a bs', Reaches sha c bf x bs a ∧ a.finish sha = some (.ok bs') ∧ blocks = bs ++ bs'

/-- Every block is shorter than 4 GiB. (Lengths have 32 bits in the protobuf reader, so that longer blocks cannot be read.) -/
def BelowLimit (blocks : List (Cid × Bytes)) : Prop := ∀ e ∈ blocks, e.2.length < 2 ^ 32

/-- The consecutive chunks of a content; the empty content has one empty chunk. -/
def chunks (c : Nat) (x : Bytes) : List Bytes := if x = [] then [[]] else groups c x

end Verif.Spec
