import Verif.Spec.Walking
import Verif.Spec.AtPath
import Verif.Spec.Text
/-
Paths which lead out of the directory they are taken relative to.
-/
namespace Verif.Spec
open Verif

/-- The name of the parent directory. -/
def dotdot : Bytes := [0x2e, 0x2e]

/-- Following the components from a directory which is `depth` levels below the start, one gets above the start. -/
def Escapes : Nat → List Bytes → Prop
  | _, [] => False
  | depth, c :: cs =>
    if c = dotdot then
      match depth with
      | 0 => True
      | d + 1 => Escapes d cs
    else Escapes (if c = dot then depth else depth + 1) cs

/-- The block gives the name to something: it is a directory with such a link, or a shard with such a link after the two byte label. -/
def GivesName (b n : Bytes) : Prop :=
  ∃ m l x, FlatUnixFs.tryParse b = .ok m ∧ l ∈ m.links ∧ l.Name = some x ∧
    ((m.data.Ty = .Directory ∧ n = x) ∨ (m.data.Ty = .HAMTShard ∧ 2 < x.length ∧ n = x.drop 2))

end Verif.Spec
