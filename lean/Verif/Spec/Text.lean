import Verif.Basic
/-
Specification: text, and how it is written in bytes. Independent of the automaton in `Verif.Utf8`.
-/
namespace Verif.Spec

/-- The UTF-8 encoding of a sequence of Unicode scalar values. A `Char` of Lean is a number below `0x110000` which is not a surrogate,
and `String.utf8EncodeChar` (of Lean's prelude) is its UTF-8 encoding. -/
def encodeText (cs : List Char) : Bytes := cs.flatMap String.utf8EncodeChar

/-- The bytes are text. -/
def IsText (b : Bytes) : Prop := ∃ cs, b = encodeText cs

/-- A position between two characters of the text, or at one of its ends. -/
def BetweenChars (b : Bytes) (i : Nat) : Prop := ∃ l r, b = encodeText (l ++ r) ∧ (encodeText l).length = i

end Verif.Spec
