import Verif.Basic
/-
UTF-8 validity (`core::str::from_utf8`) and char boundaries (`str` indexing), as used through
`BytesReader::read_string` and `&name[2..]`. These are part of Rust's `core`, modelled from the UTF-8 definition
(RFC 3629 / Unicode table 3-7, which is what `core::str::validations` implements).
-/
namespace Verif

/-- Continuation byte `10xxxxxx`. (std, used by `read_string` in `src/pb/merkledag.rs:30`; slicing of names at `src/walk.rs:63-69`.) -/
def isCont (b : UInt8) : Bool := 0x80 ≤ b && b ≤ 0xBF

/-- States of the UTF-8 automaton: between characters; `tail n` expects `n + 1` more continuation bytes; after the
lead bytes `E0`, `ED`, `F0`, `F4` the next byte has a restricted range; `bad` is the sink.
(std, used by `read_string` in `src/pb/merkledag.rs:30`; slicing of names at `src/walk.rs:63-69`.) -/
inductive U8 where
  | start | tail1 | tail2 | tail3 | e0 | ed | f0 | f4 | bad
  deriving DecidableEq, Repr

/-- One byte of UTF-8 validation (Unicode table 3-7). (std, used by `read_string` in `src/pb/merkledag.rs:30`; slicing of names at `src/walk.rs:63-69`.) -/
def U8.step : U8 → UInt8 → U8
  | .start, b =>
    if b ≤ 0x7F then .start
    else if 0xC2 ≤ b && b ≤ 0xDF then .tail1
    else if b == 0xE0 then .e0
    else if b == 0xED then .ed
    else if 0xE1 ≤ b && b ≤ 0xEF then .tail2
    else if b == 0xF0 then .f0
    else if b == 0xF4 then .f4
    else if 0xF1 ≤ b && b ≤ 0xF3 then .tail3
    else .bad
  | .tail1, b => if isCont b then .start else .bad
  | .tail2, b => if isCont b then .tail1 else .bad
  | .tail3, b => if isCont b then .tail2 else .bad
  | .e0, b => if isCont b && 0xA0 ≤ b then .tail1 else .bad
  | .ed, b => if isCont b && b ≤ 0x9F then .tail1 else .bad
  | .f0, b => if isCont b && 0x90 ≤ b then .tail2 else .bad
  | .f4, b => if isCont b && b ≤ 0x8F then .tail2 else .bad
  | .bad, _ => .bad

/-- `core::str::from_utf8(b).is_ok()`. (std, used by `read_string` in `src/pb/merkledag.rs:30`; slicing of names at `src/walk.rs:63-69`.) -/
def validUtf8 (s : Bytes) : Bool := s.foldl U8.step .start == .start

/-- `str::is_char_boundary(i)`: start, end, or a byte which is not a continuation byte.
(std, used by `read_string` in `src/pb/merkledag.rs:30`; slicing of names at `src/walk.rs:63-69`.) -/
def isCharBoundary (s : Bytes) (i : Nat) : Bool :=
  i == 0 || (match s[i]? with
    | none => i == s.length
    | some b => !isCont b)

theorem U8.foldl_bad (s : Bytes) : s.foldl U8.step .bad = .bad := by
  induction s with
  | nil => rfl
  | cons b s ih => simpa [U8.step] using ih

theorem isCont_ascii {c : UInt8} (hc : c ≤ 0x7F) : isCont c = false := by
  have h1 : c.toNat ≤ 0x7F := by simpa [UInt8.le_iff_toNat_le] using hc
  have h2 : ¬ (0x80 : UInt8) ≤ c := by rw [UInt8.le_iff_toNat_le]; simp; omega
  unfold isCont
  rw [Bool.and_eq_false_imp]
  intro h; exact absurd (by simpa using h) h2

/-- ASCII strings are valid UTF-8. -/
theorem validUtf8_ascii (s : Bytes) (h : ∀ b ∈ s, b ≤ 0x7F) : validUtf8 s = true := by
  induction s with
  | nil => rfl
  | cons b s ih =>
    simp only [List.mem_cons, forall_eq_or_imp] at h
    have := ih h.2
    simpa [validUtf8, U8.step, h.1] using this

theorem validUtf8_nil : validUtf8 [] = true := rfl

/-- Splitting a string at an ASCII byte: both halves are valid iff the whole is. -/
theorem validUtf8_split (c : UInt8) (hc : c ≤ 0x7F) (a b : Bytes) :
    validUtf8 (a ++ c :: b) = (validUtf8 a && validUtf8 b) := by
  have nc := isCont_ascii hc
  unfold validUtf8
  rw [List.foldl_append, List.foldl_cons]
  generalize a.foldl U8.step .start = st
  cases st <;> simp [U8.step, hc, nc, U8.foldl_bad] <;> rfl

end Verif
