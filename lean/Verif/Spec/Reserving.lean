import Verif.Reserve
import Verif.Spec.Adding
/-
A `FileAdder` and its buffers.
-/
namespace Verif.Spec
open Verif

/-- As `Reaches`, with the capacities of the adder's buffers. The inputs are slices, which have at most `isize::MAX` bytes. -/
inductive ReachesWith (sha : Bytes → Bytes) (size c bf : Nat) : Bytes → List (Cid × Bytes) → FileAdder → Capacities → Prop
  | start : ReachesWith sha size c bf [] [] (newAdder c bf) {}
  | push {x bs a caps} (input : Bytes) {a' caps' bs' n} : ReachesWith sha size c bf x bs a caps → input.length ≤ isizeMax →
      a.pushReserving sha size caps input = some (.ok (.ok ((a', caps'), bs', n))) → ReachesWith sha size c bf (x ++ input.take n) (bs ++ bs') a' caps'

/-- The buffers for links, of `size` bytes each, are too large for any allocation. -/
def TooManyLinks (size bf : Nat) : Prop := 2 ^ 63 ≤ max 4 bf * size

/-- The chunk is too large for any allocation. -/
def ChunkTooLarge (c : Nat) : Prop := 2 ^ 63 ≤ c

end Verif.Spec
