import Verif.CidText
import Verif.Spec.Resolving
/-
Texts of Cids.
-/
namespace Verif.Spec
open Verif

/-- A letter or a digit of ASCII; in particular no slash, no space and nothing a shell would treat specially. -/
def Alphanumeric (c : UInt8) : Prop :=
  ('0'.toNat ≤ c.toNat ∧ c.toNat ≤ '9'.toNat) ∨ ('A'.toNat ≤ c.toNat ∧ c.toNat ≤ 'Z'.toNat) ∨ ('a'.toNat ≤ c.toNat ∧ c.toNat ≤ 'z'.toNat)

instance (c : UInt8) : Decidable (Alphanumeric c) := by unfold Alphanumeric; infer_instance

/-- ASCII characters. -/
def asciiOf (s : String) : Bytes := s.toList.map (fun c => UInt8.ofNat c.toNat)

/-- The number with these digits, the most significant first. -/
def ofDigits (base : Nat) : List Nat → Nat
  | [] => 0
  | d :: ds => d * base ^ ds.length + ofDigits base ds

/-- `Written letters ds t`: `t` has these digits, the letters standing for 0, 1, 2, ... -/
def Written (letters : String) (ds : List Nat) (t : Bytes) : Prop :=
  (∀ d ∈ ds, d < (asciiOf letters).length) ∧ t.map some = ds.map ((asciiOf letters)[·]?)

/-- `InBase32 letters bytes t`: the bits of the bytes, filled up with fewer than five zeros to a multiple of five, as a number with base 32. -/
def InBase32 (letters : String) (bytes t : Bytes) : Prop :=
  ∃ ds p, Written letters ds t ∧ p < 5 ∧ 5 * ds.length = 8 * bytes.length + p ∧ ofDigits 32 ds = ofDigits 256 (bytes.map (·.toNat)) * 2 ^ p

/-- How many zeros there are at the beginning. -/
def leadingZeros : List Nat → Nat
  | 0 :: t => leadingZeros t + 1
  | _ => 0

/-- `InBase58 letters bytes t`: the bytes as a number with base 58, and a zero digit for each zero byte at the beginning. -/
def InBase58 (letters : String) (bytes t : Bytes) : Prop :=
  ∃ ds, Written letters ds t ∧ ofDigits 58 ds = ofDigits 256 (bytes.map (·.toNat)) ∧ leadingZeros ds = leadingZeros (bytes.map (·.toNat))

/-- Digits and letters without `0`, `O`, `I` and `l`. -/
def letters58 : String := "123456789ABCDEFGHJKLMNPQRSTUVWXYZabcdefghijkmnopqrstuvwxyz"

/-- Small letters, then the digits from 2 to 7. -/
def letters32 : String := "abcdefghijklmnopqrstuvwxyz234567"

/-- `CidDigits other bytes t`: `t` are the digits of these bytes. A text of 46 characters which begins with `Qm` is in base 58; any other text has a
letter for the base in front, `b` for base 32, `z` for base 58, and other bases with other letters. -/
inductive CidDigits (other : UInt8 → Bytes → Option Bytes) (bytes : Bytes) : Bytes → Prop
  | v0 {t} : t.length = 46 → asciiOf "Qm" <+: t → InBase58 letters58 bytes t → CidDigits other bytes t
  | base32 {t} : InBase32 letters32 bytes t → CidDigits other bytes (asciiOf "b" ++ t)
  | base58 {t} : InBase58 letters58 bytes t → CidDigits other bytes (asciiOf "z" ++ t)
  | other {x t} : t ≠ [] → ¬ (t.length = 45 ∧ asciiOf "Qm" <+: x :: t) → asciiOf "b" ≠ [x] → asciiOf "z" ≠ [x] → other x t = some bytes →
      CidDigits other bytes (x :: t)

end Verif.Spec
