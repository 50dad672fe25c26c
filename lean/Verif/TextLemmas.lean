import Verif.Utf8
import Verif.Spec.Text
/-
UTF-8: the automaton of `Verif.Utf8` accepts exactly the encodings of `Spec/Text.lean`.
-/
namespace Verif
open Spec

/-- `U8.step` on numbers. -/
def stepN : U8 → Nat → U8
  | .start, b =>
    if b ≤ 0x7F then .start
    else if 0xC2 ≤ b ∧ b ≤ 0xDF then .tail1
    else if b = 0xE0 then .e0
    else if b = 0xED then .ed
    else if 0xE1 ≤ b ∧ b ≤ 0xEF then .tail2
    else if b = 0xF0 then .f0
    else if b = 0xF4 then .f4
    else if 0xF1 ≤ b ∧ b ≤ 0xF3 then .tail3
    else .bad
  | .tail1, b => if 0x80 ≤ b ∧ b ≤ 0xBF then .start else .bad
  | .tail2, b => if 0x80 ≤ b ∧ b ≤ 0xBF then .tail1 else .bad
  | .tail3, b => if 0x80 ≤ b ∧ b ≤ 0xBF then .tail2 else .bad
  | .e0, b => if 0xA0 ≤ b ∧ b ≤ 0xBF then .tail1 else .bad
  | .ed, b => if 0x80 ≤ b ∧ b ≤ 0x9F then .tail1 else .bad
  | .f0, b => if 0x90 ≤ b ∧ b ≤ 0xBF then .tail2 else .bad
  | .f4, b => if 0x80 ≤ b ∧ b ≤ 0x8F then .tail2 else .bad
  | .bad, _ => .bad

theorem step_eq (s : U8) (b : UInt8) : U8.step s b = stepN s b.toNat := by
  have hb : b = UInt8.ofNat b.toNat := by simp
  have h255 : b.toNat < 256 := b.toNat_lt
  have key : ∀ n : Fin 256, U8.step s (UInt8.ofNat n.val) = stepN s n.val := by cases s <;> decide +kernel
  rw [hb]
  simpa using key ⟨b.toNat, h255⟩

theorem step_ofNat (s : U8) (n : Nat) (h : n < 256) : U8.step s (UInt8.ofNat n) = stepN s n := by
  rw [step_eq, UInt8.toNat_ofNat_of_lt' h]

theorem toNat_split (b : UInt8) : ∃ n, n < 256 ∧ b = UInt8.ofNat n := ⟨b.toNat, b.toNat_lt, by simp⟩

theorem char_valid (c : Char) : c.val.toNat < 0xd800 ∨ (0xdfff < c.val.toNat ∧ c.val.toNat < 0x110000) := c.valid

theorem encode_le1 (c : Char) (h : c.val.toNat ≤ 0x7f) : String.utf8EncodeChar c = [UInt8.ofNat c.val.toNat] := by
  unfold String.utf8EncodeChar
  simp only []
  rw [if_pos h]
theorem encode_le2 (c : Char) (h1 : 0x7f < c.val.toNat) (h2 : c.val.toNat ≤ 0x7ff) : String.utf8EncodeChar c =
    [UInt8.ofNat (c.val.toNat / 64 % 32 + 0xc0), UInt8.ofNat (c.val.toNat % 64 + 0x80)] := by
  unfold String.utf8EncodeChar
  simp only []
  rw [if_neg (by omega), if_pos h2]
theorem encode_le3 (c : Char) (h1 : 0x7ff < c.val.toNat) (h2 : c.val.toNat ≤ 0xffff) : String.utf8EncodeChar c =
    [UInt8.ofNat (c.val.toNat / 4096 % 16 + 0xe0), UInt8.ofNat (c.val.toNat / 64 % 64 + 0x80), UInt8.ofNat (c.val.toNat % 64 + 0x80)] := by
  unfold String.utf8EncodeChar
  simp only []
  rw [if_neg (by omega), if_neg (by omega), if_pos h2]
theorem encode_le4 (c : Char) (h1 : 0xffff < c.val.toNat) : String.utf8EncodeChar c =
    [UInt8.ofNat (c.val.toNat / 262144 % 8 + 0xf0), UInt8.ofNat (c.val.toNat / 4096 % 64 + 0x80),
      UInt8.ofNat (c.val.toNat / 64 % 64 + 0x80), UInt8.ofNat (c.val.toNat % 64 + 0x80)] := by
  unfold String.utf8EncodeChar
  simp only []
  rw [if_neg (by omega), if_neg (by omega), if_neg (by omega)]

theorem foldl_char (c : Char) : (String.utf8EncodeChar c).foldl U8.step .start = .start := by
  have hv := char_valid c
  generalize hn : c.val.toNat = v at hv
  by_cases h1 : v ≤ 0x7f
  · rw [encode_le1 c (by omega), hn]
    simp only [List.foldl_cons, List.foldl_nil]
    rw [step_ofNat _ _ (by omega)]
    simp [stepN, h1]
  by_cases h2 : v ≤ 0x7ff
  · rw [encode_le2 c (by omega) (by omega), hn]
    simp only [List.foldl_cons, List.foldl_nil]
    rw [step_ofNat _ _ (by omega), step_ofNat _ _ (by omega)]
    have : stepN .start (v / 64 % 32 + 0xc0) = .tail1 := by
      unfold stepN; simp only []; rw [if_neg (by omega), if_pos (by omega)]
    rw [this]
    unfold stepN; simp only []; rw [if_pos (by omega)]
  by_cases h3 : v ≤ 0xffff
  · rw [encode_le3 c (by omega) (by omega), hn]
    simp only [List.foldl_cons, List.foldl_nil]
    rw [step_ofNat _ _ (by omega), step_ofNat _ _ (by omega), step_ofNat _ _ (by omega)]
    have h2' : stepN (stepN .start (v / 4096 % 16 + 0xe0)) (v / 64 % 64 + 0x80) = .tail1 := by
      by_cases e0 : v / 4096 % 16 + 0xe0 = 0xE0
      · rw [e0, show stepN .start 0xE0 = .e0 from rfl]
        unfold stepN; simp only []; rw [if_pos (by omega)]
      by_cases ed : v / 4096 % 16 + 0xe0 = 0xED
      · rw [ed, show stepN .start 0xED = .ed from rfl]
        unfold stepN; simp only []; rw [if_pos (by omega)]
      have : stepN .start (v / 4096 % 16 + 0xe0) = .tail2 := by
        unfold stepN; simp only []
        rw [if_neg (by omega), if_neg (by omega), if_neg e0, if_neg ed, if_pos (by omega)]
      rw [this]
      unfold stepN; simp only []; rw [if_pos (by omega)]
    rw [h2']
    unfold stepN; simp only []; rw [if_pos (by omega)]
  · rw [encode_le4 c (by omega), hn]
    simp only [List.foldl_cons, List.foldl_nil]
    rw [step_ofNat _ _ (by omega), step_ofNat _ _ (by omega), step_ofNat _ _ (by omega), step_ofNat _ _ (by omega)]
    have h2' : stepN (stepN .start (v / 262144 % 8 + 0xf0)) (v / 4096 % 64 + 0x80) = .tail2 := by
      by_cases f0 : v / 262144 % 8 + 0xf0 = 0xF0
      · rw [f0, show stepN .start 0xF0 = .f0 from rfl]
        unfold stepN; simp only []; rw [if_pos (by omega)]
      by_cases f4 : v / 262144 % 8 + 0xf0 = 0xF4
      · rw [f4, show stepN .start 0xF4 = .f4 from rfl]
        unfold stepN; simp only []; rw [if_pos (by omega)]
      have : stepN .start (v / 262144 % 8 + 0xf0) = .tail3 := by
        unfold stepN; simp only []
        rw [if_neg (by omega), if_neg (by omega), if_neg (by omega), if_neg (by omega), if_neg (by omega), if_neg f0, if_neg f4,
          if_pos (by omega)]
      rw [this]
      unfold stepN; simp only []; rw [if_pos (by omega)]
    rw [h2']
    have h3' : stepN .tail2 (v / 64 % 64 + 0x80) = .tail1 := by
      unfold stepN; simp only []; rw [if_pos (by omega)]
    rw [h3']
    unfold stepN; simp only []; rw [if_pos (by omega)]

theorem foldl_encode (cs : List Char) : (encodeText cs).foldl U8.step .start = .start := by
  induction cs with
  | nil => rfl
  | cons c cs ih =>
    simp only [encodeText, List.flatMap_cons, List.foldl_append, foldl_char]
    exact ih

/-- What the states stand for: the numbers which can still complete the character. -/
theorem tail1_next {s : Bytes} (h : s.foldl U8.step .tail1 = .start) :
    ∃ n s', n < 64 ∧ s = UInt8.ofNat (n + 0x80) :: s' ∧ s'.foldl U8.step .start = .start := by
  cases s with
  | nil => cases h
  | cons b s =>
    obtain ⟨n, hn, rfl⟩ := toNat_split b
    rw [List.foldl_cons, step_ofNat _ _ hn] at h
    unfold stepN at h
    simp only [] at h
    split at h
    · exact ⟨n - 0x80, s, by omega, by rw [show n - 0x80 + 0x80 = n by omega], h⟩
    · rw [U8.foldl_bad] at h; cases h

theorem next2 {st : U8} {lo hi : Nat} (hst : ∀ n, stepN st n = if lo ≤ n ∧ n ≤ hi then .tail1 else .bad) (hne : st ≠ .start)
    (hlo : 0x80 ≤ lo) (_ : hi ≤ 0xBF) {s : Bytes} (h : s.foldl U8.step st = .start) :
    ∃ n m s', lo ≤ n + 0x80 ∧ n + 0x80 ≤ hi ∧ m < 64 ∧ s = UInt8.ofNat (n + 0x80) :: UInt8.ofNat (m + 0x80) :: s' ∧
      s'.foldl U8.step .start = .start := by
  cases s with
  | nil => exact absurd h hne
  | cons b s =>
    obtain ⟨n, hn, rfl⟩ := toNat_split b
    rw [List.foldl_cons, step_ofNat _ _ hn, hst] at h
    split at h
    · obtain ⟨m, s', h1, rfl, h3⟩ := tail1_next h
      exact ⟨n - 0x80, m, s', by omega, by omega, h1, by rw [show n - 0x80 + 0x80 = n by omega], h3⟩
    · rw [U8.foldl_bad] at h; cases h

theorem next3 {st : U8} {lo hi : Nat} (hst : ∀ n, stepN st n = if lo ≤ n ∧ n ≤ hi then .tail2 else .bad) (hne : st ≠ .start)
    (hlo : 0x80 ≤ lo) (hhi : hi ≤ 0xBF) {s : Bytes} (h : s.foldl U8.step st = .start) :
    ∃ n m k s', lo ≤ n + 0x80 ∧ n + 0x80 ≤ hi ∧ m < 64 ∧ k < 64 ∧
      s = UInt8.ofNat (n + 0x80) :: UInt8.ofNat (m + 0x80) :: UInt8.ofNat (k + 0x80) :: s' ∧ s'.foldl U8.step .start = .start := by
  cases s with
  | nil => exact absurd h hne
  | cons b s =>
    obtain ⟨n, hn, rfl⟩ := toNat_split b
    rw [List.foldl_cons, step_ofNat _ _ hn, hst] at h
    split at h
    · obtain ⟨m, k, s', h1, h2, h3, rfl, h5⟩ := next2 (lo := 0x80) (hi := 0xBF) (fun _ => rfl) (by decide) (by decide) (by decide) h
      exact ⟨n - 0x80, m, k, s', by omega, by omega, by omega, h3, by rw [show n - 0x80 + 0x80 = n by omega], h5⟩
    · rw [U8.foldl_bad] at h; cases h

theorem exists_char {v : Nat} (h : v < 0xd800 ∨ (0xdfff < v ∧ v < 0x110000)) : ∃ c : Char, c.val.toNat = v :=
  ⟨Char.ofNatAux v h, by simp [Char.ofNatAux]⟩

theorem first_char {s : Bytes} (hne : s ≠ []) (h : s.foldl U8.step .start = .start) :
    ∃ c s', s = String.utf8EncodeChar c ++ s' ∧ s'.foldl U8.step .start = .start := by
  cases s with
  | nil => exact absurd rfl hne
  | cons b s =>
    obtain ⟨n, hn, rfl⟩ := toNat_split b
    rw [List.foldl_cons, step_ofNat _ _ hn] at h
    by_cases h1 : n ≤ 0x7f
    · have : stepN .start n = .start := by unfold stepN; simp only []; rw [if_pos h1]
      rw [this] at h
      obtain ⟨c, rfl⟩ := exists_char (v := n) (by omega)
      exact ⟨c, s, by rw [encode_le1 c h1]; rfl, h⟩
    by_cases h2 : 0xC2 ≤ n ∧ n ≤ 0xDF
    · have : stepN .start n = .tail1 := by unfold stepN; simp only []; rw [if_neg h1, if_pos h2]
      rw [this] at h
      obtain ⟨m, s', hm, rfl, h'⟩ := tail1_next h
      obtain ⟨c, hc⟩ := exists_char (v := (n - 0xC0) * 64 + m) (by omega)
      refine ⟨c, s', ?_, h'⟩
      rw [encode_le2 c (by omega) (by omega), hc, show ((n - 0xC0) * 64 + m) / 64 % 32 + 0xc0 = n by omega,
        show ((n - 0xC0) * 64 + m) % 64 = m by omega]
      rfl
    have three : ∀ m k s', m < 64 → k < 64 → 0xE0 ≤ n → n ≤ 0xEF → (n = 0xE0 → 0xA0 ≤ m + 0x80) → (n = 0xED → m + 0x80 ≤ 0x9F) →
        s = UInt8.ofNat (m + 0x80) :: UInt8.ofNat (k + 0x80) :: s' → s'.foldl U8.step .start = .start →
        ∃ c s', UInt8.ofNat n :: s = String.utf8EncodeChar c ++ s' ∧ s'.foldl U8.step .start = .start := by
      intro m k s' hm hk hl hu he0 hed hs h'
      subst hs
      obtain ⟨c, hc⟩ := exists_char (v := (n - 0xE0) * 4096 + m * 64 + k) (by omega)
      refine ⟨c, s', ?_, h'⟩
      rw [encode_le3 c (by omega) (by omega), hc, show ((n - 0xE0) * 4096 + m * 64 + k) / 4096 % 16 + 0xe0 = n by omega,
        show ((n - 0xE0) * 4096 + m * 64 + k) / 64 % 64 = m by omega, show ((n - 0xE0) * 4096 + m * 64 + k) % 64 = k by omega]
      rfl
    by_cases e0 : n = 0xE0
    · have : stepN .start n = .e0 := by rw [e0]; rfl
      rw [this] at h
      obtain ⟨m, k, s', a1, a2, a3, hs, h'⟩ := next2 (lo := 0xA0) (hi := 0xBF) (fun _ => rfl) (by decide) (by decide) (by decide) h
      exact three m k s' (by omega) a3 (by omega) (by omega) (by omega) (by omega) hs h'
    by_cases ed : n = 0xED
    · have : stepN .start n = .ed := by rw [ed]; rfl
      rw [this] at h
      obtain ⟨m, k, s', a1, a2, a3, hs, h'⟩ := next2 (lo := 0x80) (hi := 0x9F) (fun _ => rfl) (by decide) (by decide) (by decide) h
      exact three m k s' (by omega) a3 (by omega) (by omega) (by omega) (by omega) hs h'
    by_cases h3 : 0xE1 ≤ n ∧ n ≤ 0xEF
    · have : stepN .start n = .tail2 := by
        unfold stepN; simp only []; rw [if_neg h1, if_neg h2, if_neg e0, if_neg ed, if_pos h3]
      rw [this] at h
      obtain ⟨m, k, s', a1, a2, a3, hs, h'⟩ := next2 (lo := 0x80) (hi := 0xBF) (fun _ => rfl) (by decide) (by decide) (by decide) h
      exact three m k s' (by omega) a3 (by omega) (by omega) (by omega) (by omega) hs h'
    have four : ∀ m k l s', m < 64 → k < 64 → l < 64 → 0xF0 ≤ n → n ≤ 0xF4 → (n = 0xF0 → 0x90 ≤ m + 0x80) → (n = 0xF4 → m + 0x80 ≤ 0x8F) →
        s = UInt8.ofNat (m + 0x80) :: UInt8.ofNat (k + 0x80) :: UInt8.ofNat (l + 0x80) :: s' → s'.foldl U8.step .start = .start →
        ∃ c s', UInt8.ofNat n :: s = String.utf8EncodeChar c ++ s' ∧ s'.foldl U8.step .start = .start := by
      intro m k l s' hm hk hl4 hl hu he0 hed hs h'
      subst hs
      obtain ⟨c, hc⟩ := exists_char (v := (n - 0xF0) * 262144 + m * 4096 + k * 64 + l) (by omega)
      refine ⟨c, s', ?_, h'⟩
      rw [encode_le4 c (by omega), hc, show ((n - 0xF0) * 262144 + m * 4096 + k * 64 + l) / 262144 % 8 + 0xf0 = n by omega,
        show ((n - 0xF0) * 262144 + m * 4096 + k * 64 + l) / 4096 % 64 = m by omega,
        show ((n - 0xF0) * 262144 + m * 4096 + k * 64 + l) / 64 % 64 = k by omega,
        show ((n - 0xF0) * 262144 + m * 4096 + k * 64 + l) % 64 = l by omega]
      rfl
    by_cases f0 : n = 0xF0
    · have : stepN .start n = .f0 := by rw [f0]; rfl
      rw [this] at h
      obtain ⟨m, k, l, s', a1, a2, a3, a4, hs, h'⟩ := next3 (lo := 0x90) (hi := 0xBF) (fun _ => rfl) (by decide) (by decide) (by decide) h
      exact four m k l s' (by omega) a3 a4 (by omega) (by omega) (by omega) (by omega) hs h'
    by_cases f4 : n = 0xF4
    · have : stepN .start n = .f4 := by rw [f4]; rfl
      rw [this] at h
      obtain ⟨m, k, l, s', a1, a2, a3, a4, hs, h'⟩ := next3 (lo := 0x80) (hi := 0x8F) (fun _ => rfl) (by decide) (by decide) (by decide) h
      exact four m k l s' (by omega) a3 a4 (by omega) (by omega) (by omega) (by omega) hs h'
    by_cases h4 : 0xF1 ≤ n ∧ n ≤ 0xF3
    · have : stepN .start n = .tail3 := by
        unfold stepN; simp only []; rw [if_neg h1, if_neg h2, if_neg e0, if_neg ed, if_neg h3, if_neg f0, if_neg f4, if_pos h4]
      rw [this] at h
      obtain ⟨m, k, l, s', a1, a2, a3, a4, hs, h'⟩ := next3 (lo := 0x80) (hi := 0xBF) (fun _ => rfl) (by decide) (by decide) (by decide) h
      exact four m k l s' (by omega) a3 a4 (by omega) (by omega) (by omega) (by omega) hs h'
    · have : stepN .start n = .bad := by
        unfold stepN; simp only []; rw [if_neg h1, if_neg h2, if_neg e0, if_neg ed, if_neg h3, if_neg f0, if_neg f4, if_neg h4]
      rw [this, U8.foldl_bad] at h
      cases h

theorem encode_ne_nil (c : Char) : String.utf8EncodeChar c ≠ [] := by
  unfold String.utf8EncodeChar
  dsimp only
  repeat' split
  all_goals nofun

theorem text_of_foldl (N : Nat) : ∀ s : Bytes, s.length ≤ N → s.foldl U8.step .start = .start → IsText s := by
  induction N with
  | zero => intro s hs _; exact ⟨[], by cases s with | nil => rfl | cons => simp at hs⟩
  | succ N ih =>
    intro s hs h
    by_cases hne : s = []
    · exact ⟨[], hne⟩
    obtain ⟨c, s', rfl, h'⟩ := first_char hne h
    have := List.length_pos_iff.mpr (encode_ne_nil c)
    obtain ⟨cs, rfl⟩ := ih s' (by rw [List.length_append] at hs; omega) h'
    exact ⟨c :: cs, by simp [encodeText]⟩

theorem validUtf8_iff (b : Bytes) : validUtf8 b = true ↔ IsText b := by
  constructor
  · intro h
    exact text_of_foldl b.length b (Nat.le_refl _) (by simpa [validUtf8] using h)
  · rintro ⟨cs, rfl⟩
    simp [validUtf8, foldl_encode]

/-- The first byte of a character is not a continuation byte, the others are. -/
theorem char_bytes (c : Char) : ∃ x t, String.utf8EncodeChar c = x :: t ∧ isCont x = false ∧ ∀ y ∈ t, isCont y = true := by
  have hx : ∀ n : Fin 256, isCont (UInt8.ofNat n.val) = decide (0x80 ≤ n.val ∧ n.val ≤ 0xBF) := by decide +kernel
  have cont : ∀ n, n < 256 → isCont (UInt8.ofNat n) = decide (0x80 ≤ n ∧ n ≤ 0xBF) := fun n h => hx ⟨n, h⟩
  have hv := char_valid c
  generalize hn : c.val.toNat = v at hv
  by_cases h1 : v ≤ 0x7f
  · refine ⟨_, _, encode_le1 c (by omega), ?_, nofun⟩
    rw [hn, cont _ (by omega)]; simp <;> omega
  by_cases h2 : v ≤ 0x7ff
  · refine ⟨_, _, encode_le2 c (by omega) (by omega), ?_, ?_⟩
    · rw [hn, cont _ (by omega)]; simp <;> omega
    · rintro y hy
      simp only [List.mem_singleton] at hy
      rw [hy, hn, cont _ (by omega)]; simp <;> omega
  by_cases h3 : v ≤ 0xffff
  · refine ⟨_, _, encode_le3 c (by omega) (by omega), ?_, ?_⟩
    · rw [hn, cont _ (by omega)]; simp <;> omega
    · rintro y hy
      simp only [List.mem_cons, List.not_mem_nil, or_false] at hy
      rcases hy with rfl | rfl <;> (rw [hn, cont _ (by omega)]; simp <;> omega)
  · refine ⟨_, _, encode_le4 c (by omega), ?_, ?_⟩
    · rw [hn, cont _ (by omega)]; simp <;> omega
    · rintro y hy
      simp only [List.mem_cons, List.not_mem_nil, or_false] at hy
      rcases hy with rfl | rfl | rfl <;> (rw [hn, cont _ (by omega)]; simp <;> omega)

theorem encodeText_cons (c : Char) (cs : List Char) : encodeText (c :: cs) = String.utf8EncodeChar c ++ encodeText cs := by
  simp [encodeText]

theorem encodeText_append (a b : List Char) : encodeText (a ++ b) = encodeText a ++ encodeText b := by
  simp [encodeText]

end Verif
