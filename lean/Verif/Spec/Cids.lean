import Verif.Spec.Loose
import Verif.Cid
/-
What bytes are those of a Cid.
-/
namespace Verif.Spec
open Verif

/-- A number as the `unsigned-varint` library takes it: a varint of at most ten bytes the last of which is not zero, unless it is the
only one; the number is cut to 64 bits. -/
def Uvarint (e : Bytes) (n : Nat) : Prop := Num64 e n ∧ (e.length = 1 ∨ e.getLast? ≠ some 0)

/-- The bytes begin with those of the Cid `c`: the numbers 0x12, 0x20 and a digest of 32 bytes (version 0); or the numbers 1, of the codec, of
the hash function and of the length of the digest (at most 64), and the digest (version 1); or the same with the number 0
in front, the codec dag-pb and the hash function sha2-256 (version 0). -/
inductive CidBytes : Bytes → Cid → Prop
  | short {v k d t : Bytes} : Uvarint v 0x12 → Uvarint k 0x20 → d.length = 32 → CidBytes (v ++ (k ++ (d ++ t))) ⟨.v0, 0x70, 0x12, d⟩
  | one {v k h s d t : Bytes} {codec code : Nat} : Uvarint v 1 → Uvarint k codec → Uvarint h code → Uvarint s d.length → d.length ≤ 64 →
      CidBytes (v ++ (k ++ (h ++ (s ++ (d ++ t))))) ⟨.v1, codec, code, d⟩
  | zero {v k h s d t : Bytes} : Uvarint v 0 → Uvarint k 0x70 → Uvarint h 0x12 → Uvarint s d.length → d.length ≤ 64 →
      CidBytes (v ++ (k ++ (h ++ (s ++ (d ++ t))))) ⟨.v0, 0x70, 0x12, d⟩

end Verif.Spec
