import Verif.Spec.Logs
import Verif.Spec.Hamt
import Verif.Examples
/-
Stores whose blocks were checked against their Cids.
-/
namespace Verif.Spec
open Verif

/-- Every block in the store has the sha2-256 which its Cid says. -/
def Verified (sha : Bytes → Bytes) (get : Cid → Option Bytes) : Prop :=
  ∀ c b, get c = some b → c.code = 0x12 ∧ c.digest = sha b

/-- No block of one of the stores has the same hash as another block of the other one. -/
def NoClash (sha : Bytes → Bytes) (get get' : Cid → Option Bytes) : Prop :=
  ∀ c c' b b', get c = some b → get' c' = some b' → sha b = sha b' → b = b'

/-- The second of two results of a client is the same as the first one, or it stopped because its store has no block for a Cid, or the first
did. -/
def SameOrMissing {E X : Type} (get get' : Cid → Option Bytes) (missing : Cid → E) (x : Res E X) (y : Option (Res E X)) : Prop :=
  y = some x ∨ (∃ c, y = some (.err (missing c)) ∧ get' c = none) ∨ ∃ c, x = .err (missing c) ∧ get c = none

end Verif.Spec
