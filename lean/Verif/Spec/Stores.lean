import Verif.Basic
import Verif.Cid
/-
Stores which hold a part of the blocks of another one: what is on disk before everything was fetched, or after some blocks were
lost.
-/
namespace Verif.Spec
open Verif

/-- Every block of `part` is in `full`. -/
def PartOf (part full : Cid → Option Bytes) : Prop := ∀ c b, part c = some b → full c = some b

/-- The number of bytes of the block with this Cid. -/
def sizeOf (get : Cid → Option Bytes) (c : Cid) : Nat := ((get c).getD []).length

end Verif.Spec
