import Verif.Examples
/-
Cids as text: `Cid::try_from(&str)` and `Display` of the crate `cid` 0.8.3, with `multibase` 0.9.1 (`base-x` 0.2.8 and `data-encoding` 2.3.2
below it), as used by the arguments and the output of the examples, `/repo/examples/cat.rs:9`, `/repo/examples/get.rs:9`,
`/repo/examples/resolve.rs:44,142`, `/repo/examples/add.rs:126-138`, and by every message which contains a Cid. Texts are their UTF-8 bytes.
-/
namespace Verif
open Verif.Examples

/-! ### base 58 (`base-x`) -/

/-- The alphabet of base58btc. (crates cid, multibase, base-x; used at `examples/cat.rs:8-15`, `examples/resolve.rs:100-140` and in messages.) -/
def alphabet58 : Bytes := "123456789ABCDEFGHJKLMNPQRSTUVWXYZabcdefghijkmnopqrstuvwxyz".toList.map (fun c => UInt8.ofNat c.toNat)

/-- Digits of a number, the least significant first, none for zero.
(crates cid, multibase, base-x; used at `examples/cat.rs:8-15`, `examples/resolve.rs:100-140` and in messages.) -/
def digitsLE (base : Nat) : Nat → Nat → List Nat
  | 0, _ => []
  | fuel + 1, n => if n = 0 then [] else n % base :: digitsLE base fuel (n / base)

/-- The number with these digits, the most significant first.
(crates cid, multibase, base-x; used at `examples/cat.rs:8-15`, `examples/resolve.rs:100-140` and in messages.) -/
def valueBE (base : Nat) (ds : List Nat) : Nat := ds.foldl (fun n d => n * base + d) 0

/-- `base_x::encode` with the alphabet of base58btc: the number in base 58 (a single digit for zero), and a `1` for each zero byte at the
beginning, except the last byte. Two digits are enough for a byte. (The crate divides by powers of 58 which fit into 32 bits.)
(crates cid, multibase, base-x; used at `examples/cat.rs:8-15`, `examples/resolve.rs:100-140` and in messages.) -/
def encode58 (b : Bytes) : Bytes :=
  let n := valueBE 256 (b.map (·.toNat))
  let digits := if n = 0 ∧ b ≠ [] then [0] else (digitsLE 58 (2 * b.length) n).reverse
  ((b.dropLast.takeWhile (· == 0)).map (fun _ => 0) ++ digits).map (fun d => alphabet58.getD d 0)

/-- Position of a character in the alphabet.
(crates cid, multibase, base-x; used at `examples/cat.rs:8-15`, `examples/resolve.rs:100-140` and in messages.) -/
def position (alphabet : Bytes) (c : UInt8) : Option Nat := alphabet.findIdx? (· == c)

/-- All values, if each is there. (crates cid, multibase, base-x; used at `examples/cat.rs:8-15`, `examples/resolve.rs:100-140` and in messages.) -/
def allSome {α : Type} : List (Option α) → Option (List α)
  | [] => some []
  | none :: _ => none
  | some a :: t => (allSome t).map (a :: ·)

/-- `base_x::decode` with the alphabet of base58btc: the bytes of the number, and a zero byte for each `1` at the beginning.
(crates cid, multibase, base-x; used at `examples/cat.rs:8-15`, `examples/resolve.rs:100-140` and in messages.) -/
def decode58 (t : Bytes) : Option Bytes :=
  match allSome (t.map (position alphabet58)) with
  | none => none
  | some ds =>
    some (List.replicate (ds.takeWhile (· == 0)).length 0 ++ ((digitsLE 256 ds.length (valueBE 58 ds)).reverse.map UInt8.ofNat))

/-! ### base 32 (`data-encoding`) -/

/-- Digits of `Base32Lower`: `a-z2-7`. (crates cid, multibase, base-x; used at `examples/cat.rs:8-15`, `examples/resolve.rs:100-140` and in messages.) -/
def alphabet32 : Bytes := "abcdefghijklmnopqrstuvwxyz234567".toList.map (fun c => UInt8.ofNat c.toNat)

/-- `a-z2-7` for `A-Z2-7`. (crates cid, multibase, base-x; used at `examples/cat.rs:8-15`, `examples/resolve.rs:100-140` and in messages.) -/
def lower (c : UInt8) : UInt8 := if 0x41 ≤ c.toNat ∧ c.toNat ≤ 0x5A then UInt8.ofNat (c.toNat + 32) else c

/-- `Base32Lower.encode`. (crates cid, multibase, base-x; used at `examples/cat.rs:8-15`, `examples/resolve.rs:100-140` and in messages.) -/
def encode32 (b : Bytes) : Bytes := (encodeKey b).map lower

/-- The five bits of a digit. (crates cid, multibase, base-x; used at `examples/cat.rs:8-15`, `examples/resolve.rs:100-140` and in messages.) -/
def bits5 (n : Nat) : List Bool := (List.range 5).map (fun i => n.testBit (4 - i))

/-- Eight bits for a byte. The bits which remain must be too few for a digit, and zero.
(crates cid, multibase, base-x; used at `examples/cat.rs:8-15`, `examples/resolve.rs:100-140` and in messages.) -/
def packBits : List Bool → Option Bytes
  | a :: b :: c :: d :: e :: f :: g :: h :: t => (packBits t).map (UInt8.ofNat (fromBits [a, b, c, d, e, f, g, h]) :: ·)
  | rest => if rest.length < 5 ∧ rest.all (· == false) then some [] else none

/-- `Base32Lower.decode`. (crates cid, multibase, base-x; used at `examples/cat.rs:8-15`, `examples/resolve.rs:100-140` and in messages.) -/
def decode32 (t : Bytes) : Option Bytes :=
  match allSome (t.map (position alphabet32)) with
  | none => none
  | some ds => packBits (ds.flatMap bits5)

/-! ### Cids -/

/-- `Cid::to_string_v0`, `Cid::to_string_v1` and `impl Display for Cid`.
(crates cid, multibase, base-x; used at `examples/cat.rs:8-15`, `examples/resolve.rs:100-140` and in messages.) -/
def Cid.text (c : Cid) : Bytes :=
  match c.version with
  | .v0 => encode58 c.hashBytes
  | .v1 => 0x62 :: encode32 c.toBytes

/-- `cid::Error` of reading a text, coarsened.
(crates cid, multibase, base-x; used at `examples/cat.rs:8-15`, `examples/resolve.rs:100-140` and in messages.) -/
inductive CidTextError where
  | inputTooShort
  | base
  | cid (e : CidError)
  deriving DecidableEq, Repr

/-- `multibase::decode`. Of the bases only base 32 in lower case and base58btc are spelled out; `other` are the remaining ones, by the code.
(crates cid, multibase, base-x; used at `examples/cat.rs:8-15`, `examples/resolve.rs:100-140` and in messages.) -/
def multibaseDecode (other : UInt8 → Bytes → Option Bytes) : Bytes → Option Bytes
  | [] => none
  | code :: t => if code = 0x62 then decode32 t else if code = 0x7A then decode58 t else other code t

/-- `Version::is_v0_str`. (crates cid, multibase, base-x; used at `examples/cat.rs:8-15`, `examples/resolve.rs:100-140` and in messages.) -/
def isV0Str (t : Bytes) : Bool := t.length == 46 && [0x51, 0x6D].isPrefixOf t

/-- `Cid::try_from(&str)`: what is before and with the first `/ipfs/` is left out.
(crates cid, multibase, base-x; used at `examples/cat.rs:8-15`, `examples/resolve.rs:100-140` and in messages.) -/
def Cid.ofText (other : UInt8 → Bytes → Option Bytes) (text : Bytes) : Except CidTextError Cid :=
  let hash := (splitOnce ipfsSep text).2.getD text
  if hash.length < 2 then .error .inputTooShort
  else
    match (if isV0Str hash then decode58 hash else multibaseDecode other hash) with
    | none => .error .base
    | some b =>
      match Cid.tryFrom b with
      | .ok c => .ok c
      | .error e => .error (.cid e)

end Verif
