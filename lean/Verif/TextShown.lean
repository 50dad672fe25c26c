import Verif.ErrorText
import Verif.TextLemmas
/-
Lemmas about printed text.
-/
namespace Verif
open Spec

/-! ### decoding -/

theorem ofNat_toNat (c : Char) : Char.ofNat c.val.toNat = c := by
  have h : Char.ofNat c.toNat = c := Char.ofNat_toNat c
  exact h

theorem decode_char (c : Char) (t : Bytes) : decodeText (String.utf8EncodeChar c ++ t) = c :: decodeText t := by
  have hv := char_valid c
  by_cases h1 : c.val.toNat ≤ 0x7f
  · rw [encode_le1 c h1]
    have e : (UInt8.ofNat c.val.toNat).toNat = c.val.toNat := UInt8.toNat_ofNat_of_lt' (by show _ < 256; omega)
    rw [List.cons_append, List.nil_append, decodeText.eq_def]
    simp only [e]
    rw [if_pos (by omega), ofNat_toNat]
  by_cases h2 : c.val.toNat ≤ 0x7ff
  · rw [encode_le2 c (by omega) h2]
    have e1 : (UInt8.ofNat (c.val.toNat / 64 % 32 + 0xc0)).toNat = c.val.toNat / 64 % 32 + 0xc0 := by simp; omega
    have e2 : (UInt8.ofNat (c.val.toNat % 64 + 0x80)).toNat = c.val.toNat % 64 + 0x80 := by simp; omega
    simp only [List.cons_append, List.nil_append]
    rw [decodeText.eq_def]
    simp only [e1, e2]
    rw [if_neg (by omega), if_pos (by omega),
      show (c.val.toNat / 64 % 32 + 192) % 32 * 64 + (c.val.toNat % 64 + 128) % 64 = c.val.toNat by omega, ofNat_toNat]
  by_cases h3 : c.val.toNat ≤ 0xffff
  · rw [encode_le3 c (by omega) h3]
    have e1 : (UInt8.ofNat (c.val.toNat / 4096 % 16 + 0xe0)).toNat = c.val.toNat / 4096 % 16 + 0xe0 := by simp; omega
    have e2 : (UInt8.ofNat (c.val.toNat / 64 % 64 + 0x80)).toNat = c.val.toNat / 64 % 64 + 0x80 := by simp; omega
    have e3 : (UInt8.ofNat (c.val.toNat % 64 + 0x80)).toNat = c.val.toNat % 64 + 0x80 := by simp; omega
    simp only [List.cons_append, List.nil_append]
    rw [decodeText.eq_def]
    simp only [e1, e2, e3]
    rw [if_neg (by omega), if_neg (by omega), if_pos (by omega),
      show (c.val.toNat / 4096 % 16 + 224) % 16 * 4096 + (c.val.toNat / 64 % 64 + 128) % 64 * 64 + (c.val.toNat % 64 + 128) % 64 =
        c.val.toNat by omega, ofNat_toNat]
  · rw [encode_le4 c (by omega)]
    have e1 : (UInt8.ofNat (c.val.toNat / 262144 % 8 + 0xf0)).toNat = c.val.toNat / 262144 % 8 + 0xf0 := by simp; omega
    have e2 : (UInt8.ofNat (c.val.toNat / 4096 % 64 + 0x80)).toNat = c.val.toNat / 4096 % 64 + 0x80 := by simp; omega
    have e3 : (UInt8.ofNat (c.val.toNat / 64 % 64 + 0x80)).toNat = c.val.toNat / 64 % 64 + 0x80 := by simp; omega
    have e4 : (UInt8.ofNat (c.val.toNat % 64 + 0x80)).toNat = c.val.toNat % 64 + 0x80 := by simp; omega
    simp only [List.cons_append, List.nil_append]
    rw [decodeText.eq_def]
    simp only [e1, e2, e3, e4]
    rw [if_neg (by omega), if_neg (by omega), if_neg (by omega),
      show (c.val.toNat / 262144 % 8 + 240) % 8 * 262144 + (c.val.toNat / 4096 % 64 + 128) % 64 * 4096 +
        (c.val.toNat / 64 % 64 + 128) % 64 * 64 + (c.val.toNat % 64 + 128) % 64 = c.val.toNat by omega, ofNat_toNat]

theorem decode_encode (cs : List Char) : decodeText (encodeText cs) = cs := by
  induction cs with
  | nil => rfl
  | cons c cs ih =>
    show decodeText (String.utf8EncodeChar c ++ encodeText cs) = _
    rw [decode_char, ih]

theorem decode_inj {a b : Bytes} (ha : IsText a) (hb : IsText b) (h : decodeText a = decodeText b) : a = b := by
  obtain ⟨x, rfl⟩ := ha
  obtain ⟨y, rfl⟩ := hb
  rw [decode_encode, decode_encode] at h
  rw [h]

theorem _root_.Verif.Spec.IsText.append {a b : Bytes} (ha : IsText a) (hb : IsText b) : IsText (a ++ b) := by
  obtain ⟨x, rfl⟩ := ha
  obtain ⟨y, rfl⟩ := hb
  exact ⟨x ++ y, by simp [encodeText]⟩

theorem isText_nil : IsText [] := ⟨[], rfl⟩

/-! ### digits -/

/-- The value of a hexadecimal digit. -/
def digitVal (c : Char) : Nat := if c.toNat < 58 then c.toNat - 48 else c.toNat - 87

theorem digitVal_digitChar : ∀ n < 16, digitVal (Nat.digitChar n) = n := by decide

theorem digits_val {b : Nat} (hb : 1 < b) (hb' : b ≤ 16) (n : Nat) :
    (Nat.toDigits b n).foldl (fun a c => a * b + digitVal c) 0 = n := by
  induction n using Nat.strongRecOn with
  | ind n ih =>
    by_cases h : n < b
    · rw [Nat.toDigits_of_lt_base h]; simp [digitVal_digitChar n (by omega)]
    · have h : b ≤ n := by omega
      have hlt := Nat.mod_lt n (show 0 < b by omega)
      rw [Nat.toDigits_of_base_le hb h, List.foldl_append, ih _ (Nat.div_lt_self (by omega) hb)]
      simp [digitVal_digitChar _ (show n % b < 16 by omega)]
      exact Nat.div_add_mod' n b

theorem digits_inj {b : Nat} (hb : 1 < b) (hb' : b ≤ 16) {n m : Nat} (h : Nat.toDigits b n = Nat.toDigits b m) : n = m := by
  rw [← digits_val hb hb' n, h, digits_val hb hb']

/-- A digit or a letter from `a` to `f`. -/
def IsHex (c : Char) : Prop := (48 ≤ c.toNat ∧ c.toNat < 58) ∨ (97 ≤ c.toNat ∧ c.toNat < 103)

instance (c : Char) : Decidable (IsHex c) := by unfold IsHex; infer_instance

theorem isHex_digitChar : ∀ n < 16, IsHex (Nat.digitChar n) := by decide

theorem digits_hex {b : Nat} (hb : 1 < b) (hb' : b ≤ 16) (n : Nat) : ∀ c ∈ Nat.toDigits b n, IsHex c := by
  induction n using Nat.strongRecOn with
  | ind n ih =>
    intro c hc
    by_cases h : n < b
    · rw [Nat.toDigits_of_lt_base h, List.mem_singleton] at hc
      subst hc; exact isHex_digitChar n (by omega)
    · have h : b ≤ n := by omega
      have hlt := Nat.mod_lt n (show 0 < b by omega)
      rw [Nat.toDigits_of_base_le hb h, List.mem_append, List.mem_singleton] at hc
      rcases hc with hc | hc
      · exact ih _ (Nat.div_lt_self (by omega) hb) c hc
      · subst hc; exact isHex_digitChar _ (by omega)

theorem not_mem_digits {b : Nat} (hb : 1 < b) (hb' : b ≤ 16) (n : Nat) {c : Char} (hc : ¬ IsHex c) : c ∉ Nat.toDigits b n :=
  fun h => hc (digits_hex hb hb' n c h)

/-- What ends at the first `s`. -/
theorem cut_at {s : Char} : ∀ {a b x y : Text}, s ∉ a → s ∉ b → a ++ s :: x = b ++ s :: y → a = b ∧ x = y
  | [], [], _, _, _, _, h => by simpa using h
  | [], c :: b, _, _, _, hb, h => by
    simp at h; exact absurd (List.mem_cons.2 (.inl h.1)) hb
  | c :: a, [], _, _, ha, _, h => by
    simp at h; exact absurd (List.mem_cons.2 (.inl h.1.symm)) ha
  | c :: a, d :: b, x, y, ha, hb, h => by
    simp at h ha hb
    obtain ⟨e1, e2⟩ := cut_at ha.2 hb.2 h.2
    exact ⟨by rw [h.1, e1], e2⟩

theorem num_cut {n m : Nat} {s : Char} (hs : ¬ IsHex s) {x y : Text} (h : numText n ++ s :: x = numText m ++ s :: y) : n = m ∧ x = y := by
  obtain ⟨e1, e2⟩ := cut_at (not_mem_digits (by omega) (by omega) n hs) (not_mem_digits (by omega) (by omega) m hs) h
  exact ⟨digits_inj (by omega) (by omega) e1, e2⟩

theorem oct_cut {n m : Nat} {s : Char} (hs : ¬ IsHex s) {x y : Text}
    (h : Nat.toDigits 8 n ++ s :: x = Nat.toDigits 8 m ++ s :: y) : n = m ∧ x = y := by
  obtain ⟨e1, e2⟩ := cut_at (not_mem_digits (by omega) (by omega) n hs) (not_mem_digits (by omega) (by omega) m hs) h
  exact ⟨digits_inj (by omega) (by omega) e1, e2⟩

theorem not_mem_intText (i : Int) {s : Char} (hs : ¬ IsHex s) (hd : s ≠ '-') : s ∉ intText i := by
  cases i with
  | ofNat n => exact not_mem_digits (by omega) (by omega) n hs
  | negSucc n =>
    intro h
    rcases List.mem_cons.1 h with h | h
    · exact hd h
    · exact not_mem_digits (by omega) (by omega) _ hs h

theorem intText_inj {i j : Int} (h : intText i = intText j) : i = j := by
  have key : ∀ n m : Nat, numText n ≠ '-' :: numText m := by
    intro n m e
    exact not_mem_digits (b := 10) (by omega) (by omega) n (c := '-') (by decide) (by unfold numText at e; rw [e]; simp)
  cases i with
  | ofNat n => cases j with
    | ofNat m => rw [digits_inj (b := 10) (by omega) (by omega) h]
    | negSucc m => exact (key _ _ h).elim
  | negSucc n => cases j with
    | ofNat m => exact (key _ _ h.symm).elim
    | negSucc m =>
      have h := List.tail_eq_of_cons_eq h
      have := digits_inj (b := 10) (by omega) (by omega) h
      rw [show n = m by omega]

theorem intText_ne_nil (i : Int) : intText i ≠ [] := by
  cases i with
  | ofNat n => exact Nat.toDigits_ne_nil
  | negSucc n => exact nofun

theorem pad_cut {w : Nat} {t u : Text} (ht : ' ' ∉ t) (hu : ' ' ∉ u) (ht' : t ≠ []) (hu' : u ≠ []) {x y : Text}
    (h : padLeft w t ++ ' ' :: x = padLeft w u ++ ' ' :: y) : t = u ∧ x = y := by
  unfold padLeft at h
  have key : ∀ (n m : Nat), List.replicate n ' ' ++ t ++ ' ' :: x = List.replicate m ' ' ++ u ++ ' ' :: y → t = u ∧ x = y := by
    intro n
    induction n with
    | zero =>
      intro m h
      cases m with
      | zero => exact cut_at ht hu (by simpa using h)
      | succ m =>
        cases t with
        | nil => exact absurd rfl ht'
        | cons c t =>
          simp [List.replicate_succ] at h
          exact absurd (List.mem_cons.2 (.inl h.1.symm)) ht
    | succ n ih =>
      intro m h
      cases m with
      | zero =>
        cases u with
        | nil => exact absurd rfl hu'
        | cons c u =>
          simp [List.replicate_succ] at h
          exact absurd (List.mem_cons.2 (.inl h.1)) hu
      | succ m =>
        refine ih m ?_
        simpa [List.replicate_succ] using h
  exact key _ _ h

/-! ### quoting -/

/-- The character an escape of one letter stands for. -/
def unescape (k : Char) : Char :=
  if k = '0' then Char.ofNat 0 else if k = 't' then '\t' else if k = 'r' then '\r' else if k = 'n' then '\n' else k

theorem escape_cases (p : Char → Bool) (s : Bool) (c : Char) :
    (escapeChar p s c = [c] ∧ c ≠ '\\' ∧ c ≠ '"' ∧ ((0x20 ≤ c.toNat ∧ c.toNat < 0x7F) ∨ (0x7F ≤ c.toNat ∧ p c = true))) ∨
    (∃ k, escapeChar p s c = ['\\', k] ∧ k ≠ 'u' ∧ unescape k = c ∧ 0x20 ≤ k.toNat ∧ k.toNat < 0x7F) ∨
    escapeChar p s c = '\\' :: 'u' :: '{' :: (Nat.toDigits 16 c.toNat ++ ['}']) := by
  unfold escapeChar
  split
  next h => exact .inr (.inl ⟨'0', rfl, by decide, by rw [h]; rfl, by decide, by decide⟩)
  split
  next h => exact .inr (.inl ⟨'t', rfl, by decide, by rw [h]; rfl, by decide, by decide⟩)
  split
  next h => exact .inr (.inl ⟨'r', rfl, by decide, by rw [h]; rfl, by decide, by decide⟩)
  split
  next h => exact .inr (.inl ⟨'n', rfl, by decide, by rw [h]; rfl, by decide, by decide⟩)
  split
  next h =>
    refine .inr (.inl ⟨c, rfl, ?_⟩)
    rcases h with h | h | h
    · subst h; decide
    · subst h; decide
    · have := h.1; subst this; decide
  next hq =>
    split
    next h => exact .inl ⟨rfl, fun e => hq (.inl e), fun e => hq (.inr (.inl e)), h⟩
    next => exact .inr (.inr rfl)

theorem escape_prefix (p : Char → Bool) (s : Bool) {c d : Char} {x y : Text} (h : escapeChar p s c ++ x = escapeChar p s d ++ y) :
    c = d ∧ x = y := by
  rcases escape_cases p s c with ⟨e, h1, -, -⟩ | ⟨k, e, h1, h2, -⟩ | e <;>
    rcases escape_cases p s d with ⟨e', h1', -, -⟩ | ⟨k', e', h1', h2', -⟩ | e' <;> rw [e, e'] at h <;>
    simp only [List.cons_append, List.nil_append, List.cons.injEq, List.append_assoc] at h
  · exact h
  · exact absurd h.1 h1
  · exact absurd h.1 h1
  · exact absurd h.1.symm h1'
  · exact ⟨by rw [← h2, ← h2', h.2.1], h.2.2⟩
  · exact absurd h.2.1 h1
  · exact absurd h.1.symm h1'
  · exact absurd h.2.1.symm h1'
  · obtain ⟨e1, e2⟩ := cut_at (not_mem_digits (by omega) (by omega) _ (by decide)) (not_mem_digits (by omega) (by omega) _ (by decide)) h.2.2.2
    exact ⟨Char.toNat_inj.1 (digits_inj (by omega) (by omega) e1), e2⟩

theorem escape_head (p : Char → Bool) (s : Bool) (c : Char) : ∃ k t, escapeChar p s c = k :: t ∧ k ≠ '"' := by
  rcases escape_cases p s c with ⟨e, -, h, -⟩ | ⟨k, e, -⟩ | e
  · exact ⟨c, [], e, h⟩
  · exact ⟨'\\', [k], e, by decide⟩
  · exact ⟨'\\', _, e, by decide⟩

theorem escaped_cut (p : Char → Bool) (s : Bool) : ∀ {cs ds x y : Text},
    escaped p s cs ++ '"' :: x = escaped p s ds ++ '"' :: y → cs = ds ∧ x = y
  | [], [], _, _, h => by simpa [escaped] using h
  | [], d :: ds, _, _, h => by
    obtain ⟨k, t, e, hk⟩ := escape_head p s d
    simp [escaped, e] at h
    exact absurd h.1.symm hk
  | c :: cs, [], _, _, h => by
    obtain ⟨k, t, e, hk⟩ := escape_head p s c
    simp [escaped, e] at h
    exact absurd h.1 hk
  | c :: cs, d :: ds, x, y, h => by
    simp only [escaped, List.flatMap_cons, List.append_assoc] at h
    obtain ⟨e1, e2⟩ := escape_prefix p s h
    obtain ⟨e3, e4⟩ := escaped_cut p s e2
    exact ⟨by rw [e1, e3], e4⟩

theorem quoted_cut {p : Char → Bool} {s : Bool} {a b : Bytes} (ha : IsText a) (hb : IsText b) {x y : Text}
    (h : (['"'] ++ escaped p s (decodeText a) ++ ['"']) ++ x = (['"'] ++ escaped p s (decodeText b) ++ ['"']) ++ y) : a = b ∧ x = y := by
  simp only [List.cons_append, List.nil_append, List.append_assoc, List.cons.injEq, true_and] at h
  obtain ⟨e1, e2⟩ := escaped_cut p s h
  exact ⟨decode_inj ha hb e1, e2⟩

theorem str_cut {env : FmtEnv} {a b : Bytes} (ha : IsText a) (hb : IsText b) {x y : Text} (h : env.str a ++ x = env.str b ++ y) :
    a = b ∧ x = y := quoted_cut ha hb h

theorem path_cut {env : FmtEnv} {a b : Bytes} (ha : IsText a) (hb : IsText b) {x y : Text} (h : env.path a ++ x = env.path b ++ y) :
    a = b ∧ x = y := quoted_cut ha hb h

end Verif
