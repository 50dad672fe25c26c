import Verif.Spec.CidTexts
import Verif.Props.IpfsPaths
import Verif.Props.StorePath
/-
Property C104: Cids as text.
-/
namespace Verif.Props
open Verif Verif.Spec Verif.Examples

/-! ### numbers in a base -/

/-- The number with these digits, the least significant first. -/
def valueLE (base : Nat) : List Nat → Nat
  | [] => 0
  | d :: t => d + base * valueLE base t

theorem valueLE_append (base : Nat) (a b : List Nat) : valueLE base (a ++ b) = valueLE base a + base ^ a.length * valueLE base b := by
  induction a with
  | nil => simp [valueLE]
  | cons d t ih =>
    simp only [List.cons_append, valueLE, ih, List.length_cons, Nat.pow_succ, Nat.mul_add]
    rw [Nat.mul_comm (base ^ t.length) base, Nat.mul_assoc]
    omega

theorem valueBE_acc (base : Nat) (ds : List Nat) (n : Nat) :
    ds.foldl (fun n d => n * base + d) n = valueLE base ds.reverse + base ^ ds.length * n := by
  induction ds generalizing n with
  | nil => simp [valueLE]
  | cons d t ih =>
    rw [List.foldl_cons, ih, List.reverse_cons, valueLE_append]
    simp only [valueLE, List.length_cons, List.length_reverse, Nat.pow_succ, Nat.mul_add, Nat.mul_zero, Nat.add_zero]
    rw [Nat.mul_comm n base, Nat.mul_assoc]
    omega

theorem valueBE_eq (base : Nat) (ds : List Nat) : valueBE base ds = valueLE base ds.reverse := by
  have := valueBE_acc base ds 0
  simpa [valueBE] using this

theorem valueLE_digits (base : Nat) (hb : 0 < base) : ∀ (fuel n : Nat), n < base ^ fuel → valueLE base (digitsLE base fuel n) = n
  | 0, n, h => by
    have : n = 0 := by simpa using h
    subst this; rfl
  | fuel + 1, n, h => by
    unfold digitsLE
    by_cases hn : n = 0
    · rw [if_pos hn, hn]; rfl
    · rw [if_neg hn, valueLE, valueLE_digits base hb fuel]
      · exact Nat.mod_add_div n base
      · rw [Nat.div_lt_iff_lt_mul hb, ← Nat.pow_succ]; exact h

theorem valueLE_pos {base : Nat} {ds : List Nat} (hl : ds.getLast? ≠ some 0) (hne : ds ≠ []) (hb : 0 < base) : 0 < valueLE base ds := by
  induction ds with
  | nil => exact (hne rfl).elim
  | cons d t ih =>
    simp only [valueLE]
    cases t with
    | nil =>
      have : d ≠ 0 := by simpa using hl
      simp only [valueLE]; omega
    | cons e t =>
      have := ih (by simpa [List.getLast?_cons_cons] using hl) (by simp)
      have := Nat.mul_pos hb this
      omega

theorem digits_valueLE (base : Nat) (hb : 0 < base) : ∀ (ds : List Nat) (fuel : Nat), (∀ d ∈ ds, d < base) → ds.getLast? ≠ some 0 →
    ds.length ≤ fuel → digitsLE base fuel (valueLE base ds) = ds
  | [], fuel, _, _, _ => by cases fuel <;> simp [digitsLE, valueLE]
  | d :: t, 0, _, _, h => by simp at h
  | d :: t, fuel + 1, hd, hl, h => by
    have hpos := valueLE_pos hl (by simp) hb
    unfold digitsLE
    rw [if_neg (by omega)]
    simp only [valueLE]
    have hlt : d < base := hd d (by simp)
    rw [Nat.add_mul_mod_self_left, Nat.mod_eq_of_lt hlt, Nat.add_mul_div_left _ _ hb, Nat.div_eq_of_lt hlt, Nat.zero_add]
    rw [digits_valueLE base hb t fuel (fun x hx => hd x (by simp [hx])) ?_ (by simpa using h)]
    cases t with
    | nil => simp
    | cons e t => simpa [List.getLast?_cons_cons] using hl

theorem digitsLE_lt (base : Nat) (hb : 0 < base) : ∀ (fuel n : Nat), ∀ d ∈ digitsLE base fuel n, d < base
  | 0, _, d, h => by simp [digitsLE] at h
  | fuel + 1, n, d, h => by
    unfold digitsLE at h
    split at h
    · simp at h
    · rcases List.mem_cons.1 h with rfl | h
      · exact Nat.mod_lt _ hb
      · exact digitsLE_lt base hb fuel _ d h

theorem digitsLE_last (base : Nat) (hb : 1 < base) : ∀ (fuel n : Nat), n < base ^ fuel → (digitsLE base fuel n).getLast? ≠ some 0
  | 0, _, _ => by simp [digitsLE]
  | fuel + 1, n, h => by
    unfold digitsLE
    split
    · simp
    · rename_i hn
      have hlt : n / base < base ^ fuel := by
        rw [Nat.div_lt_iff_lt_mul (by omega), ← Nat.pow_succ]; exact h
      have ih := digitsLE_last base hb fuel (n / base) hlt
      cases hd : digitsLE base fuel (n / base) with
      | nil =>
        have hv := valueLE_digits base (by omega) fuel (n / base) hlt
        rw [hd] at hv
        have h0 : n / base = 0 := hv.symm
        have : n < base := by
          rcases Nat.lt_or_ge n base with h | h
          · exact h
          · have := Nat.div_pos h (by omega : 0 < base); omega
        simp [Nat.mod_eq_of_lt this, hn]
      | cons e t =>
        rw [List.getLast?_cons_cons, ← hd]
        exact ih

theorem valueLE_lt (base : Nat) (ds : List Nat) (h : ∀ d ∈ ds, d < base) : valueLE base ds < base ^ ds.length := by
  induction ds with
  | nil => simp [valueLE]
  | cons d t ih =>
    have h1 := h d (by simp)
    have h2 := ih (fun x hx => h x (by simp [hx]))
    simp only [valueLE, List.length_cons, Nat.pow_succ]
    have h3 : base * (valueLE base t + 1) ≤ base * base ^ t.length := Nat.mul_le_mul_left _ h2
    rw [Nat.mul_comm (base ^ t.length) base]
    rw [Nat.mul_add] at h3
    omega

theorem valueLE_ge (base : Nat) (hb : 0 < base) : ∀ (ds : List Nat), ds ≠ [] → ds.getLast? ≠ some 0 → base ^ (ds.length - 1) ≤ valueLE base ds
  | [], h, _ => (h rfl).elim
  | [d], _, hl => by
    have : d ≠ 0 := by simpa using hl
    simp only [valueLE, List.length_cons, List.length_nil, Nat.zero_add, Nat.sub_self, Nat.pow_zero]; omega
  | d :: e :: t, _, hl => by
    have := valueLE_ge base hb (e :: t) (by simp) (by simpa [List.getLast?_cons_cons] using hl)
    simp only [List.length_cons, Nat.add_sub_cancel] at this ⊢
    rw [valueLE, Nat.pow_succ, Nat.mul_comm]
    have := Nat.mul_le_mul_left base this
    omega

/-! ### alphabets -/

theorem position_58 : ∀ d : Fin 58, position alphabet58 (alphabet58.getD d.val 0) = some d.val := by decide +kernel
theorem position_32 : ∀ d : Fin 32, position alphabet32 (alphabet32.getD d.val 0) = some d.val := by decide +kernel

theorem allSome_map {α β : Type} (f : α → Option β) (g : β → α) (ds : List β) (h : ∀ d ∈ ds, f (g d) = some d) :
    allSome ((ds.map g).map f) = some ds := by
  induction ds with
  | nil => rfl
  | cons d t ih =>
    simp only [List.map_cons, h d (by simp), allSome, ih (fun x hx => h x (by simp [hx])), Option.map_some]

/-! ### base 58 -/

theorem bytes_lt (b : Bytes) : ∀ d ∈ b.map (·.toNat), d < 256 := by
  intro d hd
  obtain ⟨x, -, rfl⟩ := List.mem_map.1 hd
  exact x.toNat_lt

theorem value_bytes_lt (b : Bytes) : valueBE 256 (b.map (·.toNat)) < 58 ^ (2 * b.length) := by
  rw [valueBE_eq]
  have h := valueLE_lt 256 (b.map (·.toNat)).reverse (by
    intro d hd
    exact bytes_lt b d (List.mem_reverse.1 hd))
  rw [List.length_reverse, List.length_map] at h
  refine Nat.lt_of_lt_of_le h ?_
  rw [Nat.pow_mul]
  exact Nat.pow_le_pow_left (by decide) _

theorem ofNat_toNat_map (b : Bytes) : (b.map (·.toNat)).map UInt8.ofNat = b := by
  induction b with
  | nil => rfl
  | cons x t ih => simp only [List.map_cons, ih]; simp

/-- The digits of bytes which do not begin with a zero. -/
def digits58 (b : Bytes) : List Nat := (digitsLE 58 (2 * b.length) (valueBE 256 (b.map (·.toNat)))).reverse

theorem first_nonzero_value {x : UInt8} {t : Bytes} (hx : x ≠ 0) : 0 < valueBE 256 ((x :: t).map (·.toNat)) := by
  rw [valueBE_eq]
  refine valueLE_pos ?_ (by simp) (by decide)
  simp only [List.map_cons, List.reverse_cons, List.getLast?_concat, ne_eq, Option.some.injEq]
  intro h
  exact hx (UInt8.toNat_inj.1 (by simpa using h))

theorem encode58_eq {x : UInt8} {t : Bytes} (hx : x ≠ 0) :
    encode58 (x :: t) = (digits58 (x :: t)).map (fun d => alphabet58.getD d 0) := by
  have hv := first_nonzero_value (t := t) hx
  unfold encode58
  simp only
  rw [if_neg (by omega)]
  congr 1
  cases t with
  | nil => rfl
  | cons y t =>
    rw [List.dropLast_cons_cons, List.takeWhile_cons, if_neg (by simpa using hx)]
    rfl

theorem digits58_value (b : Bytes) : valueBE 58 (digits58 b) = valueBE 256 (b.map (·.toNat)) := by
  rw [valueBE_eq, digits58, List.reverse_reverse, valueLE_digits 58 (by decide) _ _ (value_bytes_lt b)]

theorem digits58_lt (b : Bytes) : ∀ d ∈ digits58 b, d < 58 := fun d hd =>
  digitsLE_lt 58 (by decide) _ _ d (List.mem_reverse.1 hd)

theorem digits58_head (b : Bytes) : (digits58 b).head? ≠ some 0 := by
  rw [digits58, List.head?_reverse]
  exact digitsLE_last 58 (by decide) _ _ (value_bytes_lt b)

theorem length_le_of_value {a b : Nat} (hb : 1 < b) (h : b ^ a ≤ c) (h' : c < b ^ d) : a < d := by
  rcases Nat.lt_or_ge a d with h1 | h1
  · exact h1
  · have := Nat.pow_le_pow_right (by omega : 0 < b) h1
    omega

theorem decode58_encode58 {x : UInt8} {t : Bytes} (hx : x ≠ 0) : decode58 (encode58 (x :: t)) = some (x :: t) := by
  rw [encode58_eq hx]
  unfold decode58
  rw [allSome_map _ _ _ (fun d hd => position_58 ⟨d, digits58_lt _ d hd⟩)]
  simp only
  have htw : (digits58 (x :: t)).takeWhile (· == 0) = [] := by
    cases hd : digits58 (x :: t) with
    | nil => rfl
    | cons d ds =>
      have := digits58_head (x :: t)
      rw [hd] at this
      rw [List.takeWhile_cons, if_neg (by simpa using this)]
  rw [htw, digits58_value]
  have hlast : ((x :: t).map (·.toNat)).reverse.getLast? ≠ some 0 := by
    simp only [List.map_cons, List.reverse_cons, List.getLast?_concat, ne_eq, Option.some.injEq]
    intro h
    exact hx (UInt8.toNat_inj.1 (by simpa using h))
  have hlen : (x :: t).length ≤ (digits58 (x :: t)).length := by
    have h1 := valueLE_ge 256 (by decide) ((x :: t).map (·.toNat)).reverse (by simp) hlast
    rw [← valueBE_eq, ← digits58_value, valueBE_eq] at h1
    have h2 := valueLE_lt 58 (digits58 (x :: t)).reverse (fun d hd => digits58_lt _ d (List.mem_reverse.1 hd))
    have h3 : 58 ^ (digits58 (x :: t)).reverse.length ≤ 256 ^ (digits58 (x :: t)).reverse.length := Nat.pow_le_pow_left (by decide) _
    have := length_le_of_value (by decide : 1 < 256) h1 (Nat.lt_of_lt_of_le h2 h3)
    simp only [List.length_reverse, List.length_map, List.length_cons] at this ⊢
    omega
  rw [valueBE_eq, digits_valueLE 256 (by decide) _ _ (fun d hd => bytes_lt _ d (List.mem_reverse.1 hd)) hlast
    (by simpa using hlen), List.reverse_reverse, ofNat_toNat_map]
  rfl

/-! ### base 32 -/

theorem lower_digit : ∀ n : Fin 32, lower (digit32 n.val) = alphabet32.getD n.val 0 := by decide +kernel

theorem fromBits_lt5 : ∀ a b c d e : Bool, fromBits [a, b, c, d, e] < 32 := by decide
theorem bits5_fromBits : ∀ a b c d e : Bool, bits5 (fromBits [a, b, c, d, e]) = [a, b, c, d, e] := by decide

/-- Bits in groups of five, the last filled up. -/
theorem encodeBits_digits : ∀ (l : List Bool), ∃ ds : List Nat, ∃ p : Nat, (∀ d ∈ ds, d < 32) ∧ p < 5 ∧
    encodeBits l = ds.map digit32 ∧ ds.flatMap bits5 = l ++ List.replicate p false
  | [] => ⟨[], 0, by simp, by decide, rfl, rfl⟩
  | [a] => ⟨[fromBits [a, false, false, false, false]], 4, by simpa using fromBits_lt5 a _ _ _ _, by decide,
      by rw [encodeBits] <;> simp, by simp [bits5_fromBits]⟩
  | [a, b] => ⟨[fromBits [a, b, false, false, false]], 3, by simpa using fromBits_lt5 a b _ _ _, by decide,
      by rw [encodeBits] <;> simp, by simp [bits5_fromBits]⟩
  | [a, b, c] => ⟨[fromBits [a, b, c, false, false]], 2, by simpa using fromBits_lt5 a b c _ _, by decide,
      by rw [encodeBits] <;> simp, by simp [bits5_fromBits]⟩
  | [a, b, c, d] => ⟨[fromBits [a, b, c, d, false]], 1, by simpa using fromBits_lt5 a b c d _, by decide,
      by rw [encodeBits] <;> simp, by simp [bits5_fromBits]⟩
  | a :: b :: c :: d :: e :: t => by
    obtain ⟨ds, p, h1, h2, h3, h4⟩ := encodeBits_digits t
    refine ⟨fromBits [a, b, c, d, e] :: ds, p, ?_, h2, ?_, ?_⟩
    · intro x hx
      rcases List.mem_cons.1 hx with rfl | hx
      · exact fromBits_lt5 a b c d e
      · exact h1 x hx
    · rw [encodeBits, h3]; rfl
    · simp [List.flatMap_cons, bits5_fromBits, h4]

theorem ofNat_bits : ∀ n : Fin 256, UInt8.ofNat (fromBits (bitsOf (UInt8.ofNat n.val))) = UInt8.ofNat n.val := by decide +kernel

theorem packBits_byte (x : UInt8) (t : List Bool) : packBits (bitsOf x ++ t) = (packBits t).map (x :: ·) := by
  have h := ofNat_bits ⟨x.toNat, x.toNat_lt⟩
  simp only [UInt8.ofNat_toNat] at h
  have hl : bitsOf x = [x.toNat.testBit 7, x.toNat.testBit 6, x.toNat.testBit 5, x.toNat.testBit 4, x.toNat.testBit 3, x.toNat.testBit 2,
      x.toNat.testBit 1, x.toNat.testBit 0] := rfl
  rw [hl] at h ⊢
  simp only [List.cons_append, List.nil_append, packBits, h]

theorem packBits_zeros (p : Nat) (h : p < 5) : packBits (List.replicate p false) = some [] := by
  have : p = 0 ∨ p = 1 ∨ p = 2 ∨ p = 3 ∨ p = 4 := by omega
  rcases this with rfl | rfl | rfl | rfl | rfl <;> rfl

theorem packBits_bits (k : Bytes) (p : Nat) (h : p < 5) : packBits (k.flatMap bitsOf ++ List.replicate p false) = some k := by
  induction k with
  | nil => exact packBits_zeros p h
  | cons x t ih => rw [List.flatMap_cons, List.append_assoc, packBits_byte, ih]; rfl

theorem encode32_digits (k : Bytes) : ∃ ds : List Nat, ∃ p : Nat, (∀ d ∈ ds, d < 32) ∧ p < 5 ∧
    encode32 k = ds.map (fun d => alphabet32.getD d 0) ∧ ds.flatMap bits5 = k.flatMap bitsOf ++ List.replicate p false := by
  obtain ⟨ds, p, h1, h2, h3, h4⟩ := encodeBits_digits (k.flatMap bitsOf)
  refine ⟨ds, p, h1, h2, ?_, h4⟩
  rw [encode32, encodeKey, h3, List.map_map]
  exact List.map_congr_left fun d hd => lower_digit ⟨d, h1 d hd⟩

theorem decode32_encode32 (k : Bytes) : decode32 (encode32 k) = some k := by
  obtain ⟨ds, p, h1, h2, h3, h4⟩ := encode32_digits k
  unfold decode32
  rw [h3, allSome_map _ _ _ (fun d hd => position_32 ⟨d, h1 d hd⟩)]
  simp only
  rw [h4, packBits_bits k p h2]

/-! ### texts of Cids -/

theorem alphabet58_alnum : ∀ d : Fin 58, Alphanumeric (alphabet58.getD d.val 0) := by decide +kernel
theorem alphabet32_alnum : ∀ d : Fin 32, Alphanumeric (alphabet32.getD d.val 0) := by decide +kernel

theorem hashBytes_v0 {c : Cid} (h : c.Fits) (hv : c.version = .v0) : c.hashBytes = 0x12 :: 0x20 :: c.digest := by
  obtain ⟨-, h2, h3⟩ := h.2.2.2 hv
  rw [Cid.hashBytes, h2, h3]
  rfl

/-- The value of the bytes of a Cid of version 0. -/
theorem value_v0 {d : Bytes} (hd : d.length = 32) :
    0x1220 * 256 ^ 32 ≤ valueBE 256 ((0x12 :: 0x20 :: d).map (·.toNat)) ∧
      valueBE 256 ((0x12 :: 0x20 :: d).map (·.toNat)) < 0x1221 * 256 ^ 32 := by
  have h1 := valueLE_lt 256 (d.map (·.toNat)).reverse (fun x hx => bytes_lt d x (List.mem_reverse.1 hx))
  rw [List.length_reverse, List.length_map, hd] at h1
  have : valueBE 256 ((0x12 :: 0x20 :: d).map (·.toNat)) = valueLE 256 (d.map (·.toNat)).reverse + 256 ^ 32 * 0x1220 := by
    have := valueBE_acc 256 (d.map (·.toNat)) 0x1220
    rw [List.length_map, hd] at this
    rw [← this]
    rfl
  rw [this]
  omega

theorem digits_v0 {d : Bytes} (hd : d.length = 32) :
    ∃ ds, digits58 (0x12 :: 0x20 :: d) = 23 :: 44 :: ds ∧ ds.length = 44 := by
  have hv := value_v0 hd
  rw [← digits58_value, valueBE_eq] at hv
  have hlt := fun x hx => digits58_lt (0x12 :: 0x20 :: d) x hx
  have hhead := digits58_head (0x12 :: 0x20 :: d)
  revert hv hlt hhead
  generalize digits58 (0x12 :: 0x20 :: d) = l
  intro hv hlt hhead
  have hlt' : ∀ x ∈ l.reverse, x < 58 := fun x hx => hlt x (List.mem_reverse.1 hx)
  have hne : l ≠ [] := by
    rintro rfl
    have := hv.1
    revert this
    decide +kernel
  have h1 := valueLE_lt 58 l.reverse hlt'
  have h2 := valueLE_ge 58 (by decide) l.reverse (by simpa using hne) (by rw [List.getLast?_reverse]; exact hhead)
  rw [List.length_reverse] at h1 h2
  have h3 : 45 < l.length := by
    refine length_le_of_value (by decide : 1 < 58) (Nat.le_trans ?_ hv.1) h1
    decide +kernel
  have h4 : l.length - 1 < 46 := by
    refine length_le_of_value (by decide : 1 < 58) h2 (Nat.lt_of_lt_of_le hv.2 ?_)
    decide +kernel
  match l, h3, h4 with
  | a :: b :: ds, h3, h4 =>
    have hl : ds.length = 44 := by simp only [List.length_cons] at h3 h4; omega
    have ha : a < 58 := hlt a (by simp)
    have hb : b < 58 := hlt b (by simp)
    have h5 := valueLE_lt 58 ds.reverse (fun x hx => hlt x (by simp [List.mem_reverse.1 hx]))
    rw [List.length_reverse, hl] at h5
    have h6 : valueLE 58 (a :: b :: ds).reverse = valueLE 58 ds.reverse + 58 ^ 44 * (b + 58 * a) := by
      rw [List.reverse_cons, List.reverse_cons, List.append_assoc, valueLE_append, List.length_reverse, hl]
      rfl
    rw [h6] at hv
    have h7 : 1378 * 58 ^ 44 ≤ 0x1220 * 256 ^ 32 := by decide +kernel
    have h8 : 0x1221 * 256 ^ 32 ≤ 1379 * 58 ^ 44 := by decide +kernel
    have h9 : b + 58 * a = 1378 := by
      generalize 58 ^ 44 = k at h5 h7 h8 hv
      have e1 : 1378 * k < k * (b + 58 * a + 1) := by
        have := hv.1
        rw [Nat.mul_add]
        omega
      have e2 : k * (b + 58 * a) < 1379 * k := by
        have := hv.2
        omega
      rw [Nat.mul_comm] at e1
      have e1 := Nat.lt_of_mul_lt_mul_left e1
      rw [Nat.mul_comm 1379] at e2
      have e2 := Nat.lt_of_mul_lt_mul_left e2
      omega
    obtain rfl : a = 23 := by omega
    obtain rfl : b = 44 := by omega
    exact ⟨ds, rfl, hl⟩

/-- C104. The text of a Cid consists of letters and digits. With version 0 it has 46 of them and begins with `Qm`; with version 1 it begins
with `b`. -/
theorem C104_shape (c : Cid) (h : c.Fits) :
    (∀ x ∈ c.text, Alphanumeric x) ∧
    (c.version = .v0 → c.text.length = 46 ∧ asciiOf "Qm" <+: c.text) ∧
    (c.version = .v1 → asciiOf "b" <+: c.text) := by
  cases hv : c.version with
  | v0 =>
    have he : c.text = (digits58 (0x12 :: 0x20 :: c.digest)).map (fun d => alphabet58.getD d 0) := by
      simp only [Cid.text, hv, hashBytes_v0 h hv]
      exact encode58_eq (by decide)
    refine ⟨?_, fun _ => ?_, fun h => by cases h⟩
    · intro x hx
      rw [he] at hx
      obtain ⟨d, hd, rfl⟩ := List.mem_map.1 hx
      exact alphabet58_alnum ⟨d, digits58_lt _ d hd⟩
    · obtain ⟨ds, h1, h2⟩ := digits_v0 (h.2.2.2 hv).2.2
      rw [he, h1]
      refine ⟨by simp [h2], ds.map (fun d => alphabet58.getD d 0), ?_⟩
      simp only [List.map_cons]
      rw [show alphabet58.getD 23 0 = 0x51 by decide +kernel, show alphabet58.getD 44 0 = 0x6D by decide +kernel]
      rfl
  | v1 =>
    refine ⟨?_, (fun h => by cases h), fun _ => ?_⟩
    · intro x hx
      simp only [Cid.text, hv] at hx
      rcases List.mem_cons.1 hx with rfl | hx
      · decide
      · obtain ⟨ds, p, h1, -, h3, -⟩ := encode32_digits c.toBytes
        rw [h3] at hx
        obtain ⟨d, hd, rfl⟩ := List.mem_map.1 hx
        exact alphabet32_alnum ⟨d, h1 d hd⟩
    · simp only [Cid.text, hv]
      exact ⟨_, rfl⟩

theorem slash_not_alnum : ¬ Alphanumeric slash := by decide

theorem text_no_slash {c : Cid} (h : c.Fits) : slash ∉ c.text := fun hx => slash_not_alnum ((C104_shape c h).1 _ hx)

theorem text_no_ipfs {t : Bytes} (h : slash ∉ t) : ¬ Occurs ipfsText t := by
  rintro ⟨u, v, rfl⟩
  exact h (by simp [ipfsText])

/-- What is read when `/ipfs/` does not occur. -/
theorem ofText_hash (t : Bytes) (h : slash ∉ t) (pre : Bytes)
    (hp : pre = [] ∨ ∃ u, pre = u ++ ipfsText ∧ ¬ Occurs ipfsText (u ++ ipfsText.dropLast)) :
    (splitOnce ipfsSep (pre ++ t)).2.getD (pre ++ t) = t := by
  rcases hp with rfl | ⟨u, rfl, hu⟩
  · rw [List.nil_append, ipfsSep_eq, splitOnce_none (text_no_ipfs h)]
    rfl
  · have key : ∀ u : Bytes, ¬ Occurs ipfsText (u ++ ipfsText.dropLast) → ∃ a, splitOnce ipfsSep (u ++ ipfsText ++ t) = (a, some t) := by
      intro u
      induction u with
      | nil => intro _; exact ⟨[], by rw [List.nil_append, ipfsSep_eq, splitOnce_prefix]⟩
      | cons x u ih =>
        intro hu
        obtain ⟨a, ha⟩ := ih (by
          rintro ⟨v, w, hw⟩
          exact hu ⟨x :: v, w, by rw [List.cons_append, hw]; rfl⟩)
        refine ⟨x :: a, ?_⟩
        rw [List.cons_append, List.cons_append, splitOnce, if_neg, ha]
        intro hpre
        obtain ⟨w, hw⟩ := List.isPrefixOf_iff_prefix.1 hpre
        have hlen : ipfsSep.length ≤ ((x :: u) ++ ipfsText.dropLast).length := by
          simp [ipfsSep, ipfsText]
        refine hu ⟨[], ((x :: u) ++ ipfsText.dropLast).drop ipfsSep.length, ?_⟩
        have htake : ((x :: u) ++ ipfsText.dropLast).take ipfsSep.length = ipfsSep := by
          have h1 : ((x :: u) ++ ipfsText.dropLast) <+: x :: (u ++ ipfsText ++ t) := by
            refine ⟨[slash] ++ t, ?_⟩
            simp [ipfsText, slash]
          obtain ⟨z, hz⟩ := h1
          have := congrArg (List.take ipfsSep.length) (hz.trans hw.symm)
          rw [List.take_append_of_le_length hlen, List.take_left] at this
          exact this
        rw [List.nil_append]
        conv => lhs; rw [← List.take_append_drop ipfsSep.length ((x :: u) ++ ipfsText.dropLast)]
        rw [htake]
        rfl
    obtain ⟨a, ha⟩ := key u hu
    rw [ha]
    rfl

theorem isV0Str_v0 {c : Cid} (h : c.Fits) (hv : c.version = .v0) : isV0Str c.text = true := by
  obtain ⟨h1, h2⟩ := (C104_shape c h).2.1 hv
  rw [isV0Str, h1]
  have h3 : [0x51, 0x6D].isPrefixOf c.text = true := List.isPrefixOf_iff_prefix.2 h2
  simp [h3]

theorem isV0Str_v1 {c : Cid} (hv : c.version = .v1) : isV0Str c.text = false := by
  simp only [Cid.text, hv, isV0Str]
  simp [List.isPrefixOf]

theorem text_length {c : Cid} (h : c.Fits) : 2 ≤ c.text.length := by
  cases hv : c.version with
  | v0 => rw [((C104_shape c h).2.1 hv).1]; decide
  | v1 =>
    simp only [Cid.text, hv, List.length_cons, encode32, List.length_map, encodeKey_length]
    have : 1 ≤ c.toBytes.length := by
      simp only [Cid.toBytes, hv, List.length_append]
      have := encVarint_pos 1
      omega
    omega

/-- The text of a Cid, possibly behind something which ends with the first `/ipfs/`. -/
theorem ofText_text (other : UInt8 → Bytes → Option Bytes) (c : Cid) (h : c.Fits) (pre : Bytes)
    (hp : pre = [] ∨ ∃ u, pre = u ++ ipfsText ∧ ¬ Occurs ipfsText (u ++ ipfsText.dropLast)) :
    Cid.ofText other (pre ++ c.text) = .ok c := by
  unfold Cid.ofText
  simp only
  rw [ofText_hash c.text (text_no_slash h) pre hp, if_neg (by have := text_length h; omega)]
  have hb := Cid.tryFrom_toBytes c h []
  rw [List.append_nil] at hb
  cases hv : c.version with
  | v0 =>
    rw [if_pos (isV0Str_v0 h hv)]
    have he : c.text = encode58 (0x12 :: 0x20 :: c.digest) := by simp only [Cid.text, hv, hashBytes_v0 h hv]
    have ht : c.toBytes = 0x12 :: 0x20 :: c.digest := by simp only [Cid.toBytes, hv, hashBytes_v0 h hv]
    rw [he, decode58_encode58 (by decide), ← ht]
    simp only [hb]
  | v1 =>
    rw [if_neg (by rw [isV0Str_v1 hv]; decide)]
    have he : c.text = 0x62 :: encode32 c.toBytes := by simp only [Cid.text, hv]
    rw [he, multibaseDecode, if_pos rfl, decode32_encode32]
    simp only [hb]

/-- C104. The text of a Cid, read again, is the Cid. -/
theorem C104_roundtrip (other : UInt8 → Bytes → Option Bytes) (c : Cid) (h : c.Fits) : Cid.ofText other c.text = .ok c :=
  ofText_text other c h [] (.inl rfl)

/-- C104. So it is behind `/ipfs/`, and behind anything else which ends with the first `/ipfs/` in it, as in an URL of a gateway. -/
theorem C104_behind (other : UInt8 → Bytes → Option Bytes) (c : Cid) (h : c.Fits) (host : Bytes)
    (hh : ¬ Occurs ipfsText (host ++ ipfsText.dropLast)) : Cid.ofText other (host ++ ipfsText ++ c.text) = .ok c :=
  ofText_text other c h _ (.inr ⟨host, rfl, hh⟩)

/-- C104. Different Cids have different texts. -/
theorem C104_injective (a b : Cid) (ha : a.Fits) (hb : b.Fits) (h : a.text = b.text) : a = b := by
  have h1 := C104_roundtrip (fun _ _ => none) a ha
  rw [h, C104_roundtrip _ b hb] at h1
  exact (Except.ok.inj h1).symm

/-- C104. A path as `resolve` prints it and takes it: the text of a Cid, possibly behind `/ipfs/`, and names behind slashes. -/
theorem C104_path (other : UInt8 → Bytes → Option Bytes) (c : Cid) (h : c.Fits) (names : List Bytes)
    (hn : ∀ n ∈ names, n ≠ [] ∧ slash ∉ n) :
    IpfsPath.tryFrom (fun t => (Cid.ofText other t).toOption) (ipfsText ++ c.text ++ names.flatMap (slash :: ·)) = .ok ⟨c, names⟩ ∧
    (¬ Occurs ipfsText (c.text ++ names.flatMap (slash :: ·)) →
      IpfsPath.tryFrom (fun t => (Cid.ofText other t).toOption) (c.text ++ names.flatMap (slash :: ·)) = .ok ⟨c, names⟩) := by
  have hp : pathText c.text (names.map (fun n => (0, n))) 0 = c.text ++ names.flatMap (slash :: ·) := by
    simp [pathText, List.flatMap_map]
  have hns : ∀ p ∈ names.map (fun n => ((0 : Nat), n)), p.2 ≠ [] ∧ slash ∉ p.2 := by
    intro p hp
    obtain ⟨n, hn', rfl⟩ := List.mem_map.1 hp
    exact hn n hn'
  have hm : (names.map (fun n => ((0 : Nat), n))).map (·.2) = names := by
    rw [List.map_map]
    exact (List.map_congr_left (fun _ _ => rfl)).trans (List.map_id names)
  have hr : (Cid.ofText other c.text).toOption = some c := by rw [C104_roundtrip other c h]; rfl
  constructor
  · have := C78_prefixed (fun t => (Cid.ofText other t).toOption) c.text (text_no_slash h) _ 0 hns
    rw [hp, hm] at this
    rw [List.append_assoc, this, hr]
  · intro ho
    have := C78_plain (fun t => (Cid.ofText other t).toOption) c.text (by have := text_length h; intro h0; rw [h0] at this; simp at this)
      (text_no_slash h) _ 0 hns (by rw [hp]; exact ho)
    rw [hp, hm] at this
    rw [this, hr]

/-- C104. The Cid of every block this library makes has a text of 59 characters which begins with `bafybei`. -/
theorem C104_bafybei (sha : Bytes → Bytes) (hsha : ∀ b, (sha b).length = 32) (block : Bytes) :
    (cidOf sha block).text.length = 59 ∧ asciiOf "bafybei" <+: (cidOf sha block).text := by
  have hb : (cidOf sha block).toBytes = 0x01 :: 0x70 :: 0x12 :: 0x20 :: sha block := by
    simp only [cidOf, Cid.toBytes, Cid.hashBytes, hsha]
    rfl
  have ht : (cidOf sha block).text = 0x62 :: encode32 (0x01 :: 0x70 :: 0x12 :: 0x20 :: sha block) := by
    rw [← hb]
    rfl
  rw [ht]
  constructor
  · simp [encode32, encodeKey_length, hsha]
  · refine ⟨(encodeBits (false :: false :: (sha block).flatMap bitsOf)).map lower, ?_⟩
    rw [encode32, encodeKey]
    simp only [List.flatMap_cons]
    rw [show bitsOf 0x01 = [false, false, false, false, false, false, false, true] by decide,
      show bitsOf 0x70 = [false, true, true, true, false, false, false, false] by decide,
      show bitsOf 0x12 = [false, false, false, true, false, false, true, false] by decide,
      show bitsOf 0x20 = [false, false, true, false, false, false, false, false] by decide]
    simp only [List.cons_append, List.nil_append]
    rw [encodeBits, encodeBits, encodeBits, encodeBits, encodeBits, encodeBits]
    rfl

/-- C104. Reading takes the same Cid in base 58 as well. -/
theorem C104_base58 (other : UInt8 → Bytes → Option Bytes) (c : Cid) (h : c.Fits) :
    Cid.ofText other (asciiOf "z" ++ encode58 c.toBytes) = .ok c := by
  have hne : ∃ x t, c.toBytes = x :: t ∧ x ≠ 0 := by
    cases hv : c.version with
    | v0 => exact ⟨0x12, 0x20 :: c.digest, by simp only [Cid.toBytes, hv, hashBytes_v0 h hv], by decide⟩
    | v1 => exact ⟨0x01, encVarint c.codec ++ c.hashBytes, by simp only [Cid.toBytes, hv]; rfl, by decide⟩
  obtain ⟨x, t, hx, h0⟩ := hne
  have hal : ∀ y ∈ encode58 c.toBytes, Alphanumeric y := by
    intro y hy
    rw [hx, encode58_eq h0] at hy
    obtain ⟨d, hd, rfl⟩ := List.mem_map.1 hy
    exact alphabet58_alnum ⟨d, digits58_lt _ d hd⟩
  have hs : slash ∉ asciiOf "z" ++ encode58 c.toBytes := by
    intro hm
    rcases List.mem_append.1 hm with hm | hm
    · revert hm; decide
    · exact slash_not_alnum (hal _ hm)
  have hd := decode58_encode58 (t := t) h0
  rw [← hx] at hd
  have hl : 1 ≤ (encode58 c.toBytes).length := by
    rcases Nat.eq_zero_or_pos (encode58 c.toBytes).length with h1 | h1
    · rw [List.length_eq_zero_iff.1 h1, hx] at hd
      have h2 : decode58 [] = some [] := by decide
      rw [h2] at hd
      cases hd
    · exact h1
  have hb := Cid.tryFrom_toBytes c h []
  rw [List.append_nil] at hb
  unfold Cid.ofText
  have hh := ofText_hash _ hs [] (.inl rfl)
  rw [List.nil_append] at hh
  simp only [hh]
  rw [if_neg (by rw [List.length_append, show (asciiOf "z").length = 1 from rfl]; omega)]
  have hz : asciiOf "z" ++ encode58 c.toBytes = 0x7A :: encode58 c.toBytes := rfl
  rw [hz, if_neg (by simp [isV0Str, List.isPrefixOf]), multibaseDecode, if_neg (by decide), if_pos rfl, hd]
  simp only [hb]

/-- C104. But a text which is read as a Cid need not be its text: digits behind it, which encode more bytes, are ignored. -/
theorem C104_longer (other : UInt8 → Bytes → Option Bytes) (c : Cid) (h : c.Fits) (hv : c.version = .v1) (more : Bytes) :
    Cid.ofText other (asciiOf "b" ++ encode32 (c.toBytes ++ more)) = .ok c := by
  have hs : slash ∉ asciiOf "b" ++ encode32 (c.toBytes ++ more) := by
    intro hm
    rcases List.mem_append.1 hm with hm | hm
    · revert hm; decide
    · obtain ⟨ds, p, h1, -, h3, -⟩ := encode32_digits (c.toBytes ++ more)
      rw [h3] at hm
      obtain ⟨d, hd, e⟩ := List.mem_map.1 hm
      exact slash_not_alnum (e ▸ alphabet32_alnum ⟨d, h1 d hd⟩)
  unfold Cid.ofText
  have hh := ofText_hash _ hs [] (.inl rfl)
  rw [List.nil_append] at hh
  simp only [hh]
  have hl : 1 ≤ c.toBytes.length := by
    simp only [Cid.toBytes, hv, List.length_append]
    have := encVarint_pos 1
    omega
  have hl2 : 1 ≤ (encode32 (c.toBytes ++ more)).length := by
    simp only [encode32, List.length_map, encodeKey_length, List.length_append]
    omega
  rw [if_neg (by rw [List.length_append, show (asciiOf "b").length = 1 from rfl]; omega)]
  have hz : asciiOf "b" ++ encode32 (c.toBytes ++ more) = 0x62 :: encode32 (c.toBytes ++ more) := rfl
  rw [hz, if_neg (by simp [isV0Str, List.isPrefixOf]), multibaseDecode, if_pos rfl, decode32_encode32]
  simp only [Cid.tryFrom_toBytes c h more]

/-! ### texts of version 0 -/

theorem findIdx?_some {a : Bytes} {c : UInt8} {n : Nat} (h : a.findIdx? (· == c) = some n) : n < a.length ∧ a.getD n 0 = c := by
  rw [List.findIdx?_eq_some_iff_getElem] at h
  obtain ⟨hn, h1, -⟩ := h
  refine ⟨hn, ?_⟩
  rw [List.getD_eq_getElem?_getD, List.getElem?_eq_getElem hn]
  simpa using h1

theorem allSome_positions {a : Bytes} : ∀ {t : Bytes} {ds : List Nat}, allSome (t.map (position a)) = some ds →
    (∀ d ∈ ds, d < a.length) ∧ t = ds.map (fun d => a.getD d 0)
  | [], ds, h => by
    simp only [List.map_nil, allSome, Option.some.injEq] at h
    subst h
    simp
  | c :: t, ds, h => by
    rw [List.map_cons] at h
    cases hp : position a c with
    | none => rw [hp] at h; simp [allSome] at h
    | some n =>
      rw [hp, allSome] at h
      obtain ⟨ds', h', rfl⟩ := Option.map_eq_some_iff.1 h
      obtain ⟨h1, h2⟩ := allSome_positions h'
      obtain ⟨h3, h4⟩ := findIdx?_some hp
      refine ⟨?_, ?_⟩
      · intro d hd
        rcases List.mem_cons.1 hd with rfl | hd
        · exact h3
        · exact h1 d hd
      · rw [List.map_cons, h4, ← h2]

/-- What the bytes of a text are which does not begin with `1`. -/
theorem decode58_value {t b : Bytes} (h : decode58 t = some b) (h1 : t.head? ≠ some 0x31) :
    ∃ ds, (∀ d ∈ ds, d < 58) ∧ ds.head? ≠ some 0 ∧ t = ds.map (fun d => alphabet58.getD d 0) ∧
      valueBE 256 (b.map (·.toNat)) = valueBE 58 ds ∧ b.head? ≠ some 0 := by
  unfold decode58 at h
  cases ha : allSome (t.map (position alphabet58)) with
  | none => rw [ha] at h; cases h
  | some ds =>
    rw [ha] at h
    simp only [Option.some.injEq] at h
    obtain ⟨h2, h3⟩ := allSome_positions ha
    have h2 : ∀ d ∈ ds, d < 58 := h2
    have hd : ds.head? ≠ some 0 := by
      intro h0
      apply h1
      cases ds with
      | nil => cases h0
      | cons d ds =>
        simp only [List.head?_cons, Option.some.injEq] at h0
        subst h0
        rw [h3, List.map_cons, List.head?_cons]
        exact (by decide +kernel : some (alphabet58.getD 0 0) = some 0x31)
    have htw : ds.takeWhile (· == 0) = [] := by
      cases ds with
      | nil => rfl
      | cons d ds => rw [List.takeWhile_cons, if_neg (by simpa using hd)]
    rw [htw] at h
    have hv : valueBE 58 ds < 256 ^ ds.length := by
      rw [valueBE_eq]
      have h4 := valueLE_lt 58 ds.reverse (fun d hd => h2 d (List.mem_reverse.1 hd))
      rw [List.length_reverse] at h4
      exact Nat.lt_of_lt_of_le h4 (Nat.pow_le_pow_left (by decide) _)
    have hb : b = (digitsLE 256 ds.length (valueBE 58 ds)).reverse.map UInt8.ofNat := h.symm
    have hlt := digitsLE_lt 256 (by decide) ds.length (valueBE 58 ds)
    have hbn : b.map (·.toNat) = (digitsLE 256 ds.length (valueBE 58 ds)).reverse := by
      rw [hb, List.map_map]
      refine (List.map_congr_left (g := id) (fun x hx => ?_)).trans (List.map_id _)
      exact toNat_ofNat_lt (hlt x (List.mem_reverse.1 hx))
    refine ⟨ds, h2, hd, h3, ?_, ?_⟩
    · rw [hbn, valueBE_eq 256, List.reverse_reverse, valueLE_digits 256 (by decide) _ _ hv]
    · intro h0
      have h5 := digitsLE_last 256 (by decide) _ _ hv
      rw [← List.head?_reverse, ← hbn, List.head?_map, h0] at h5
      exact h5 rfl

theorem encode58_decode58 {t b : Bytes} (h : decode58 t = some b) (h1 : t.head? ≠ some 0x31) (hne : b ≠ []) : encode58 b = t := by
  obtain ⟨ds, h2, h3, h4, h5, h6⟩ := decode58_value h h1
  cases b with
  | nil => exact absurd rfl hne
  | cons x r =>
    have hx : x ≠ 0 := by
      rintro rfl
      exact h6 rfl
    rw [encode58_eq hx, h4]
    congr 1
    rw [digits58, h5, valueBE_eq, digits_valueLE 58 (by decide) _ _ (fun d hd => h2 d (List.mem_reverse.1 hd))
      (by rw [List.getLast?_reverse]; exact h3), List.reverse_reverse]
    have hlt := value_bytes_lt (x :: r)
    rw [h5, valueBE_eq] at hlt
    rcases List.eq_nil_or_concat ds with rfl | _
    · simp
    · have hge := valueLE_ge 58 (by decide) ds.reverse (by rintro h; simp_all) (by rw [List.getLast?_reverse]; exact h3)
      have := length_le_of_value (by decide : 1 < 58) hge hlt
      rw [List.length_reverse] at this ⊢
      omega

theorem letter_Q : ∀ d : Fin 58, alphabet58.getD d.val 0 = 0x51 → d.val = 23 := by decide +kernel
theorem letter_m : ∀ d : Fin 58, alphabet58.getD d.val 0 = 0x6D → d.val = 44 := by decide +kernel

/-- C104. A text of the form of version 0 is read as a Cid only if it is the text of this Cid, and that has version 0. -/
theorem C104_v0_only (other : UInt8 → Bytes → Option Bytes) (t : Bytes) (hl : t.length = 46) (hq : asciiOf "Qm" <+: t)
    (hs : slash ∉ t) (c : Cid) (h : Cid.ofText other t = .ok c) : c.version = .v0 ∧ c.Fits ∧ c.text = t := by
  unfold Cid.ofText at h
  have hh := ofText_hash t hs [] (.inl rfl)
  rw [List.nil_append] at hh
  simp only [hh] at h
  have hv : isV0Str t = true := by
    have : [0x51, 0x6D].isPrefixOf t = true := List.isPrefixOf_iff_prefix.2 hq
    simp [isV0Str, hl, this]
  rw [if_neg (by omega), if_pos hv] at h
  cases hd : decode58 t with
  | none => rw [hd] at h; cases h
  | some b =>
    rw [hd] at h
    simp only at h
    have h31 : t.head? ≠ some 0x31 := by
      obtain ⟨r, rfl⟩ := hq
      exact (by decide : some (0x51 : UInt8) ≠ some 0x31)
    obtain ⟨ds, h2, h3, h4, h5, h6⟩ := decode58_value hd h31
    have hdl : ds.length = 46 := by
      have := congrArg List.length h4
      rw [hl, List.length_map] at this
      exact this.symm
    match ds, hdl, h2, h4, h5 with
    | a :: e :: r, hdl, h2, h4, h5 =>
      have hr : r.length = 44 := by simpa using hdl
      obtain ⟨w, hw⟩ := hq
      rw [h4] at hw
      simp only [List.map_cons] at hw
      have hqm : asciiOf "Qm" = [0x51, 0x6D] := rfl
      rw [hqm] at hw
      simp only [List.cons_append, List.cons.injEq] at hw
      obtain rfl : a = 23 := letter_Q ⟨a, h2 a (by simp)⟩ hw.1.symm
      obtain rfl : e = 44 := letter_m ⟨e, h2 e (by simp)⟩ hw.2.1.symm
      have hlt := valueLE_lt 58 r.reverse (fun x hx => h2 x (by simp [List.mem_reverse.1 hx]))
      rw [List.length_reverse, hr] at hlt
      have hval : valueBE 58 (23 :: 44 :: r) = valueLE 58 r.reverse + 58 ^ 44 * 1378 := by
        rw [valueBE_eq, List.reverse_cons, List.reverse_cons, List.append_assoc, valueLE_append, List.length_reverse, hr]
        rfl
      rw [hval] at h5
      have hbn : b ≠ [] := by
        rintro rfl
        have : valueBE 256 (([] : Bytes).map (·.toNat)) = 0 := rfl
        rw [this] at h5
        have : 0 < 58 ^ 44 * 1378 := by decide +kernel
        omega
      have htext := encode58_decode58 hd h31 hbn
      have hbl := valueLE_lt 256 (b.map (·.toNat)).reverse (fun x hx => bytes_lt b x (List.mem_reverse.1 hx))
      have hbg := valueLE_ge 256 (by decide) (b.map (·.toNat)).reverse (by simpa using hbn)
        (by
          rw [List.getLast?_reverse, List.head?_map]
          intro h0
          obtain ⟨x, hx, hx0⟩ := Option.map_eq_some_iff.1 h0
          obtain rfl : x = 0 := UInt8.toNat_inj.1 (by simpa using hx0)
          exact h6 hx)
      rw [← valueBE_eq, h5, List.length_reverse, List.length_map] at hbl hbg
      have hk1 : 256 ^ 33 ≤ 58 ^ 44 * 1378 := by decide +kernel
      have hk2 : 58 ^ 44 * 1379 ≤ 256 ^ 34 := by decide +kernel
      have hk5 : 256 ^ 32 * 0x121E ≤ 58 ^ 44 * 1378 := by decide +kernel
      have hk6 : 58 ^ 44 * 1379 ≤ 256 ^ 32 * 0x1223 := by decide +kernel
      have hlen : b.length = 34 := by
        have e1 : 33 < b.length := length_le_of_value (by decide : 1 < 256) (Nat.le_trans hk1 (Nat.le_add_left _ _)) hbl
        have e2 : b.length - 1 < 34 := length_le_of_value (by decide : 1 < 256) hbg (Nat.lt_of_lt_of_le (by
          rw [show (58 ^ 44 * 1379 : Nat) = 58 ^ 44 + 58 ^ 44 * 1378 by rw [show (1379 : Nat) = 1 + 1378 from rfl, Nat.mul_add, Nat.mul_one]]
          exact Nat.add_lt_add_right hlt _) hk2)
        omega
      match b, hlen with
      | x :: y :: d, hlen =>
        have hdl : d.length = 32 := by simpa using hlen
        have hbv : valueBE 256 ((x :: y :: d).map (·.toNat)) = valueLE 256 (d.map (·.toNat)).reverse + 256 ^ 32 * (y.toNat + 256 * x.toNat) := by
          have := valueBE_acc 256 (d.map (·.toNat)) (y.toNat + 256 * x.toNat)
          rw [List.length_map, hdl] at this
          rw [← this]
          simp only [valueBE, List.map_cons, List.foldl_cons]
          congr 1
          omega
        have hdlt := valueLE_lt 256 (d.map (·.toNat)).reverse (fun x hx => bytes_lt d x (List.mem_reverse.1 hx))
        rw [List.length_reverse, List.length_map, hdl] at hdlt
        rw [hbv] at h5
        have hy := y.toNat_lt
        have hxy : 0x121E ≤ y.toNat + 256 * x.toNat ∧ y.toNat + 256 * x.toNat < 0x1223 := by
          generalize y.toNat + 256 * x.toNat = z at h5
          generalize 58 ^ 44 = k at h5 hlt hk5 hk6
          have e1 : 256 ^ 32 * 0x121E < 256 ^ 32 * (z + 1) := by rw [Nat.mul_add]; omega
          have e2 : 256 ^ 32 * z < 256 ^ 32 * 0x1223 := by omega
          have e1 := Nat.lt_of_mul_lt_mul_left e1
          have e2 := Nat.lt_of_mul_lt_mul_left e2
          omega
        obtain rfl : x = 0x12 := UInt8.toNat_inj.1 (by show x.toNat = 18; omega)
        have hy1 : y.toNat < 128 := by omega
        have hu1 : decUvarint (0x12 :: y :: d) = some (0x12, y :: d) := decUvarint_enc (n := 0x12) (by decide) (y :: d)
        have hu2 : decUvarint (y :: d) = some (y.toNat, d) := by
          have := decUvarint_enc (n := y.toNat) (Nat.lt_of_lt_of_le hy1 (by decide)) d
          rw [encVarint_small hy1] at this
          simpa using this
        simp only [Cid.tryFrom, hu1, hu2] at h
        by_cases h20 : y.toNat = 0x20
        · rw [if_pos ⟨trivial, h20⟩, if_pos (by omega)] at h
          simp only [Except.ok.injEq] at h
          have hy20 : y = 0x20 := UInt8.toNat_inj.1 h20
          subst hy20
          subst h
          have hf : (Cid.mk .v0 0x70 0x12 (d.take 32)).Fits := by
            refine ⟨(by decide : (0x70 : Nat) < U64), (by decide : (0x12 : Nat) < U64), ?_, fun _ => ⟨rfl, rfl, ?_⟩⟩ <;>
              simp only [List.length_take] <;> omega
          refine ⟨rfl, hf, ?_⟩
          simp only [Cid.text]
          rw [hashBytes_v0 hf rfl, List.take_of_length_le (by omega)]
          exact htext
        · rw [if_neg (fun h => h20 h.2), if_neg (by omega)] at h
          cases h

/-! ### what the digits are -/

theorem ofDigits_eq (base : Nat) (ds : List Nat) : ofDigits base ds = valueBE base ds := by
  rw [valueBE_eq]
  induction ds with
  | nil => rfl
  | cons d t ih =>
    rw [ofDigits, ih, List.reverse_cons, valueLE_append, List.length_reverse, valueLE, valueLE, Nat.mul_zero, Nat.add_zero,
      Nat.mul_comm, Nat.add_comm]

theorem written_of {letters : String} {ds : List Nat} (h : ∀ d ∈ ds, d < (asciiOf letters).length) :
    Written letters ds (ds.map (fun d => (asciiOf letters).getD d 0)) := by
  refine ⟨h, ?_⟩
  rw [List.map_map]
  refine List.map_congr_left fun d hd => ?_
  simp only [Function.comp]
  rw [List.getD_eq_getElem?_getD, List.getElem?_eq_getElem (h d hd)]
  rfl

theorem ofDigits_append (base : Nat) (a b : List Nat) : ofDigits base (a ++ b) = ofDigits base a * base ^ b.length + ofDigits base b := by
  induction a with
  | nil => simp [ofDigits]
  | cons d t ih =>
    simp only [List.cons_append, ofDigits, ih, List.length_append, Nat.pow_add, Nat.add_mul]
    rw [Nat.mul_assoc, Nat.add_assoc]

theorem ofDigits_bits5 : ∀ d : Fin 32, ofDigits 2 ((bits5 d.val).map (·.toNat)) = d.val := by decide +kernel

theorem ofDigits_bits8 : ∀ n : Fin 256, ofDigits 2 ((bitsOf (UInt8.ofNat n.val)).map (·.toNat)) = n.val := by decide +kernel

/-- Groups of bits are digits. -/
theorem ofDigits_group {α : Type} (k : Nat) (bits : α → List Bool) (val : α → Nat) :
    ∀ l : List α, (∀ x ∈ l, (bits x).length = k ∧ ofDigits 2 ((bits x).map (·.toNat)) = val x) →
      ofDigits 2 ((l.flatMap bits).map (·.toNat)) = ofDigits (2 ^ k) (l.map val) ∧ (l.flatMap bits).length = k * l.length
  | [], _ => by simp [ofDigits]
  | x :: l, h => by
    obtain ⟨h1, h2⟩ := ofDigits_group k bits val l (fun y hy => h y (by simp [hy]))
    obtain ⟨h3, h4⟩ := h x (by simp)
    refine ⟨?_, ?_⟩
    · rw [List.flatMap_cons, List.map_append, ofDigits_append, h1, h4, List.map_cons, ofDigits, List.length_map, h2, List.length_map,
        Nat.pow_mul]
    · rw [List.flatMap_cons, List.length_append, h2, h3, List.length_cons, Nat.mul_add, Nat.mul_one, Nat.add_comm]

theorem ofDigits_zeros (p : Nat) : ofDigits 2 ((List.replicate p false).map (·.toNat)) = 0 := by
  induction p with
  | zero => rfl
  | succ p ih => rw [List.replicate_succ, List.map_cons, ofDigits, ih]; simp

/-- C104. The text of a Cid of version 0 is the number of its bytes `0x12 0x20 <digest>`, written with base 58. -/
theorem C104_digits_v0 (c : Cid) (h : c.Fits) (hv : c.version = .v0) :
    ∃ ds, Written letters58 ds c.text ∧ ofDigits 58 ds = ofDigits 256 (0x12 :: 0x20 :: c.digest.map (·.toNat)) := by
  have he : c.text = (digits58 (0x12 :: 0x20 :: c.digest)).map (fun d => alphabet58.getD d 0) := by
    simp only [Cid.text, hv, hashBytes_v0 h hv]
    exact encode58_eq (by decide)
  refine ⟨digits58 (0x12 :: 0x20 :: c.digest), ?_, ?_⟩
  · rw [he]
    exact written_of (fun d hd => digits58_lt _ d hd)
  · rw [ofDigits_eq, ofDigits_eq, digits58_value]
    rfl

theorem inBase32 {letters : String} {k t : Bytes} {ds : List Nat} {p : Nat} (h1 : ∀ d ∈ ds, d < 32) (h2 : p < 5)
    (h4 : ds.flatMap bits5 = k.flatMap bitsOf ++ List.replicate p false) (h5 : Written letters ds t) : InBase32 letters k t := by
  have g5 := ofDigits_group 5 bits5 id ds (fun d hd => ⟨by simp [bits5], ofDigits_bits5 ⟨d, h1 d hd⟩⟩)
  have g8 := ofDigits_group 8 bitsOf UInt8.toNat k (fun x _ => ⟨by simp [bitsOf], by
    have := ofDigits_bits8 ⟨x.toNat, x.toNat_lt⟩
    simpa using this⟩)
  rw [h4, List.map_append, ofDigits_append, ofDigits_zeros, g8.1, List.map_id, List.length_append, List.length_replicate, List.length_map,
    List.length_replicate, g8.2] at g5
  exact ⟨ds, p, h5, h2, g5.2.symm, g5.1.symm⟩

/-- C104. The text of a Cid of version 1 is a `b` and its bytes with base 32. -/
theorem C104_digits_v1 (c : Cid) (hv : c.version = .v1) : ∃ t, c.text = asciiOf "b" ++ t ∧ InBase32 letters32 c.toBytes t := by
  obtain ⟨ds, p, h1, h2, h3, h4⟩ := encode32_digits c.toBytes
  refine ⟨encode32 c.toBytes, by simp only [Cid.text, hv]; rfl, inBase32 h1 h2 h4 ?_⟩
  rw [h3]
  exact written_of (fun d hd => h1 d hd)

/-- Two Cids of the repository's tests (`src/file/adder.rs:698`, `src/symlink.rs:83`): both fit, are printed like there, and are read back. -/
theorem C104_example :
    let a : Cid := ⟨.v0, 0x70, 0x12, [43, 247, 247, 91, 118, 227, 54, 243, 74, 4, 171, 216, 106, 244, 35, 181, 6, 54, 40, 255, 217, 30, 83, 146,
      68, 64, 120, 133, 29, 195, 22, 85]⟩
    let b : Cid := ⟨.v1, 0x70, 0x12, [50, 2, 217, 0, 77, 114, 224, 128, 161, 117, 21, 75, 119, 128, 90, 97, 247, 143, 220, 204, 219, 221, 181,
      73, 125, 206, 99, 87, 61, 80, 217, 53]⟩
    a.Fits ∧ b.Fits ∧
    a.text = asciiOf "QmRJHYTNvC3hmd9gJQARxLR1QMEincccBV53bBw524yyq6" ∧
    b.text = asciiOf "bafybeibsalmqatls4cakc5ivjn3yawtb66h5ztg33w2us7oomnlt2ugzgu" ∧
    Cid.ofText (fun _ _ => none) (asciiOf "QmRJHYTNvC3hmd9gJQARxLR1QMEincccBV53bBw524yyq6") = .ok a ∧
    Cid.ofText (fun _ _ => none) (asciiOf "/ipfs/bafybeibsalmqatls4cakc5ivjn3yawtb66h5ztg33w2us7oomnlt2ugzgu") = .ok b ∧
    Cid.ofText (fun _ _ => none) (asciiOf "bafybeibsalmqatls4cakc5ivjn3yawtb66h5ztg33w2us7oomnlt2ugzguaa") = .ok b ∧
    Cid.ofText (fun _ _ => none) (asciiOf "Qm") = .error .base ∧
    Cid.ofText (fun _ _ => none) (asciiOf "/ipfs/Q") = .error .inputTooShort := by
  decide +kernel

end Verif.Props
