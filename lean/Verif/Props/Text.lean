import Verif.TextLemmas
import Verif.Props.Codec
import Verif.Props.DirExact
/-
C91: strings are checked to be UTF-8, exactly.
-/
namespace Verif.Props
open Verif Verif.Spec

/-- C91: exactly text passes the check of strings. -/
theorem C91_text (b : Bytes) : validUtf8 b = true ↔ IsText b := validUtf8_iff b

/-- C91: text can be cut exactly between characters. -/
theorem C91_boundary (b : Bytes) (hb : IsText b) (i : Nat) : isCharBoundary b i = true ↔ BetweenChars b i := by
  obtain ⟨cs, rfl⟩ := hb
  constructor
  · intro h
    induction cs generalizing i with
    | nil =>
      simp [isCharBoundary, encodeText] at h
      exact ⟨[], [], rfl, by simp [encodeText]; omega⟩
    | cons c cs ih =>
      by_cases h0 : i = 0
      · exact ⟨[], c :: cs, rfl, h0.symm⟩
      obtain ⟨x, t, hxt, -, ht⟩ := char_bytes c
      by_cases hi : i < (x :: t).length
      · simp only [isCharBoundary, encodeText_cons, hxt] at h
        rw [List.getElem?_append_left hi, List.getElem?_eq_getElem hi] at h
        have : (x :: t)[i] ∈ t := by
          obtain ⟨j, rfl⟩ : ∃ j, i = j + 1 := ⟨i - 1, by omega⟩
          simp
        simp [h0, ht _ this] at h
      · have hsub : isCharBoundary (encodeText cs) (i - (x :: t).length) = true := by
          simp only [isCharBoundary, encodeText_cons, hxt] at h ⊢
          rw [List.getElem?_append_right (by omega)] at h
          cases hg : (encodeText cs)[i - (x :: t).length]? with
          | some y =>
            simp only [hg] at h ⊢
            simpa [h0] using .inr (by simpa [h0] using h)
          | none =>
            simp only [hg, List.length_append] at h ⊢
            simp [h0] at h
            simp
            right; simp at hi; omega
        obtain ⟨l, r, h1, h2⟩ := ih _ hsub
        refine ⟨c :: l, r, ?_, ?_⟩
        · rw [List.cons_append, encodeText_cons, encodeText_cons, h1]
        · rw [encodeText_cons, List.length_append, h2, hxt]; omega
  · rintro ⟨l, r, h1, rfl⟩
    rw [h1, encodeText_append]
    unfold isCharBoundary
    rw [List.getElem?_append_right (Nat.le_refl _), Nat.sub_self]
    cases r with
    | nil => simp [encodeText]
    | cons c r =>
      obtain ⟨x, t, hxt, hx, -⟩ := char_bytes c
      rw [encodeText_cons, hxt]
      simp [hx]

/-- C91: the names in an accepted block are text. -/
theorem C91_names (b : Bytes) (m : FlatUnixFs) (h : FlatUnixFs.tryParse b = .ok m) (l : PBLink) (hl : l ∈ m.links) (n : Bytes)
    (hn : l.Name = some n) : IsText n :=
  (C91_text n).1 (((C51_flat b).2.2 m h).2.2.2 l hl |>.2 n hn).2

/-- C91: a name which is in an accepted block, and is longer than a slot label, cannot be cut after the label exactly if a character
goes across. -/
theorem C91_uncuttable (b : Bytes) (m : FlatUnixFs) (h : FlatUnixFs.tryParse b = .ok m) (l : PBLink) (hl : l ∈ m.links) :
    Uncuttable l ↔ 2 < (shardName l).length ∧ ¬ BetweenChars (shardName l) 2 := by
  have ht : IsText (shardName l) := by
    unfold shardName
    cases hn : l.Name with
    | none => exact ⟨[], rfl⟩
    | some n => exact C91_names b m h l hl n hn
  unfold Uncuttable
  rw [← C91_boundary _ ht 2]
  simp

/-- Text of one, two, three and four byte characters: `aß€𝄞`, and positions in it. -/
example : IsText [0x61, 0xC3, 0x9F, 0xE2, 0x82, 0xAC, 0xF0, 0x9D, 0x84, 0x9E] ∧
    BetweenChars [0x61, 0xC3, 0x9F, 0xE2, 0x82, 0xAC, 0xF0, 0x9D, 0x84, 0x9E] 3 ∧
    ¬ BetweenChars [0x61, 0xC3, 0x9F, 0xE2, 0x82, 0xAC, 0xF0, 0x9D, 0x84, 0x9E] 2 := by
  have h : IsText [0x61, 0xC3, 0x9F, 0xE2, 0x82, 0xAC, 0xF0, 0x9D, 0x84, 0x9E] := (C91_text _).1 (by decide)
  exact ⟨h, (C91_boundary _ h 3).1 (by decide), fun h' => by have := (C91_boundary _ h 2).2 h'; revert this; decide⟩

/-- A surrogate, an overlong encoding, a number above `0x10FFFF` and an unfinished character are not text. -/
example : ¬ IsText [0xED, 0xA0, 0x80] ∧ ¬ IsText [0xC0, 0x80] ∧ ¬ IsText [0xF4, 0x90, 0x80, 0x80] ∧ ¬ IsText [0xE2, 0x82] := by
  refine ⟨?_, ?_, ?_, ?_⟩ <;> (rw [← C91_text]; decide)

end Verif.Props
