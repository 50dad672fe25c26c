import Verif.Spec.Cids
import Verif.ParseExact
import Verif.Props.Codec
/-
C53: exactly which bytes are read as which Cid.
-/
namespace Verif.Props
open Verif Verif.Spec

theorem decUvarint_iff (b : Bytes) (n : Nat) (t : Bytes) : decUvarint b = some (n, t) ↔ ∃ e, Uvarint e n ∧ b = e ++ t := by
  unfold decUvarint
  constructor
  · intro h
    split at h
    · cases h
    next v l t' hd =>
    obtain ⟨e, hg, rfl, hle, rfl⟩ := (decVarintF_iff ..).1 hd
    split at h
    · cases h
    next hmin =>
    cases h
    refine ⟨e, ⟨⟨v, ⟨hle, hg⟩, rfl⟩, ?_⟩, rfl⟩
    have hp := hg.pos
    by_cases h1 : e.length = 1
    · exact .inl h1
    · refine .inr fun h0 => hmin ⟨by omega, ?_⟩
      rw [List.getElem?_append_left (by omega), ← List.getLast?_eq_getElem?]
      exact h0
  · rintro ⟨e, ⟨⟨v, ⟨hle, hg⟩, rfl⟩, hmin⟩, rfl⟩
    have hd := (decVarintF_iff 10 (e ++ t) v e.length t).2 ⟨e, hg, rfl, hle, rfl⟩
    have hp := hg.pos
    simp only [hd]
    rw [if_neg]
    rintro ⟨h1, h2⟩
    rw [List.getElem?_append_left (by omega), ← List.getLast?_eq_getElem?] at h2
    rcases hmin with h | h
    · omega
    · exact h h2

/-- C53. Exactly which bytes are read as which Cid. -/
theorem C53_exact (b : Bytes) (c : Cid) : Cid.tryFrom b = .ok c ↔ CidBytes b c := by
  unfold Cid.tryFrom
  constructor
  · intro h
    split at h
    · cases h
    next version t1 h1 =>
    split at h
    · cases h
    next codec t2 h2 =>
    obtain ⟨v, hv, rfl⟩ := (decUvarint_iff ..).1 h1
    obtain ⟨k, hk, rfl⟩ := (decUvarint_iff ..).1 h2
    split at h
    next h3 =>
      split at h
      next h4 =>
        cases h
        obtain ⟨rfl, rfl⟩ := h3
        have := CidBytes.short (t := t2.drop 32) (d := t2.take 32) hv hk (by rw [List.length_take]; omega)
        rwa [List.take_append_drop] at this
      · cases h
    next h3 =>
    split at h
    next h4 =>
      split at h
      · cases h
      next code t3 h5 =>
      obtain ⟨f, hf, rfl⟩ := (decUvarint_iff ..).1 h5
      split at h
      · cases h
      next size t4 h6 =>
      obtain ⟨s, hs, rfl⟩ := (decUvarint_iff ..).1 h6
      split at h
      · cases h
      split at h
      · cases h
      next h7 h8 =>
      have hl : (t4.take size).length = size := by rw [List.length_take]; omega
      have ht : t4 = t4.take size ++ t4.drop size := (List.take_append_drop _ _).symm
      split at h
      next h9 =>
        cases h
        subst h9
        rw [ht]
        have := CidBytes.one (t := t4.drop size) (d := t4.take size) hv hk hf (by rw [hl]; exact hs) (by omega)
        rwa [List.take_append_drop] at this ⊢
      next h9 =>
      split at h
      next h10 =>
        cases h
        obtain ⟨rfl, rfl⟩ := h10
        have h0 : version = 0 := by omega
        subst h0
        have := CidBytes.zero (t := t4.drop size) (d := t4.take size) hv hk hf (by rw [hl]; exact hs) (by omega)
        rwa [List.take_append_drop] at this
      · cases h
    · cases h
  · intro h
    cases h with
    | @short v k d t hv hk hd =>
      simp only [(decUvarint_iff _ _ _).2 ⟨v, hv, rfl⟩, (decUvarint_iff _ _ _).2 ⟨k, hk, rfl⟩]
      rw [if_pos ⟨trivial, trivial⟩, if_pos (by simp; omega), ← hd, List.take_left]
    | @one v k h s d t codec code hv hk hh hs hd =>
      simp only [(decUvarint_iff _ _ _).2 ⟨v, hv, rfl⟩, (decUvarint_iff _ _ _).2 ⟨k, hk, rfl⟩, (decUvarint_iff _ _ _).2 ⟨h, hh, rfl⟩,
        (decUvarint_iff _ _ _).2 ⟨s, hs, rfl⟩]
      rw [if_neg (by omega), if_pos (.inr trivial), if_neg (by omega), if_neg (by simp), if_pos trivial, List.take_left]
    | @zero v k h s d t hv hk hh hs hd =>
      simp only [(decUvarint_iff _ _ _).2 ⟨v, hv, rfl⟩, (decUvarint_iff _ _ _).2 ⟨k, hk, rfl⟩, (decUvarint_iff _ _ _).2 ⟨h, hh, rfl⟩,
        (decUvarint_iff _ _ _).2 ⟨s, hs, rfl⟩]
      rw [if_neg (by omega), if_pos (.inl trivial), if_neg (by omega), if_neg (by simp), if_neg (by omega), if_pos ⟨trivial, trivial⟩, List.take_left]

/-- All three forms occur, and others are refused: a digest which is cut, a length of 65, version 2. -/
example : let d : Bytes := List.replicate 32 7
    CidBytes (0x12 :: 0x20 :: d) ⟨.v0, 0x70, 0x12, d⟩ ∧ CidBytes (1 :: 0x71 :: 0 :: 3 :: [7, 8, 9, 10]) ⟨.v1, 0x71, 0, [7, 8, 9]⟩ ∧
    CidBytes (0 :: 0x70 :: 0x12 :: 0x20 :: d) ⟨.v0, 0x70, 0x12, d⟩ ∧
    (∀ c, ¬ CidBytes (0x12 :: 0x20 :: d.tail) c) ∧ (∀ c, ¬ CidBytes (1 :: 0x70 :: 0 :: 65 :: List.replicate 65 7) c) ∧ (∀ c, ¬ CidBytes [2, 0x70, 0, 0] c) := by
  simp only [← C53_exact]
  refine ⟨by decide +kernel, by decide +kernel, by decide +kernel, ?_, ?_, ?_⟩ <;> intro c h <;> cases h

end Verif.Props
