import Verif.Props.CidText
import Verif.Props.Cids
/-
Property C104, continued: exactly which texts are read as which Cid.
-/
namespace Verif.Props
open Verif Verif.Spec Verif.Examples

theorem asciiOf_58 : asciiOf letters58 = alphabet58 := rfl
theorem asciiOf_32 : asciiOf letters32 = alphabet32 := rfl

/-- Digits are read if and only if they are written. -/
theorem allSome_written {letters : String} {n : Nat} (hn : (asciiOf letters).length = n)
    (hp : ∀ d : Fin n, position (asciiOf letters) ((asciiOf letters).getD d.val 0) = some d.val) (t : Bytes) (ds : List Nat) :
    allSome (t.map (position (asciiOf letters))) = some ds ↔ Written letters ds t := by
  constructor
  · intro h
    obtain ⟨h1, h2⟩ := allSome_positions h
    rw [h2]
    exact written_of h1
  · rintro ⟨h1, h2⟩
    have : t = ds.map (fun d => (asciiOf letters).getD d 0) := by
      have h3 := congrArg (List.map (fun x : Option UInt8 => x.getD 0)) h2
      simp only [List.map_map] at h3
      have e1 : (fun x : Option UInt8 => x.getD 0) ∘ some = id := rfl
      rw [e1, List.map_id] at h3
      rw [h3]
      refine List.map_congr_left fun d hd => ?_
      simp only [Function.comp, List.getD_eq_getElem?_getD]
    rw [this]
    exact allSome_map _ _ _ (fun d hd => hp ⟨d, hn ▸ h1 d hd⟩)

theorem written_32 (t : Bytes) (ds : List Nat) : allSome (t.map (position alphabet32)) = some ds ↔ Written letters32 ds t :=
  allSome_written (letters := letters32) (n := 32) (by decide +kernel) position_32 t ds

theorem written_58 (t : Bytes) (ds : List Nat) : allSome (t.map (position alphabet58)) = some ds ↔ Written letters58 ds t :=
  allSome_written (letters := letters58) (n := 58) (by decide +kernel) position_58 t ds

/-! ### base 32 -/

theorem bits_byte : ∀ a b c d e f g h : Bool, bitsOf (UInt8.ofNat (fromBits [a, b, c, d, e, f, g, h])) = [a, b, c, d, e, f, g, h] := by
  decide +kernel

theorem all_false {l : List Bool} (h : l.all (· == false) = true) : l = List.replicate l.length false := by
  rw [List.eq_replicate_iff]
  refine ⟨rfl, fun b hb => ?_⟩
  simpa using List.all_eq_true.1 h b hb

theorem packBits_short {l b} (hl : l.length < 8) (h : packBits l = some b) : b = [] ∧ ∃ p, p < 5 ∧ l = List.replicate p false := by
  have : packBits l = if l.length < 5 ∧ l.all (· == false) then some [] else none := by
    unfold packBits
    split
    · simp only [List.length_cons] at hl; omega
    · rfl
  rw [this] at h
  split at h
  · rename_i hc
    cases h
    exact ⟨rfl, _, hc.1, all_false hc.2⟩
  · cases h

theorem packBits_inv : ∀ (n : Nat) (l : List Bool) (b : Bytes), l.length ≤ n → packBits l = some b →
    ∃ p, p < 5 ∧ l = b.flatMap bitsOf ++ List.replicate p false
  | n, l, b, hn, h => by
    by_cases hl : l.length < 8
    · obtain ⟨rfl, p, hp, e⟩ := packBits_short hl h
      exact ⟨p, hp, e⟩
    · match l, hl with
      | a :: b1 :: c :: d :: e :: f :: g :: i :: t, _ =>
        rw [packBits] at h
        obtain ⟨b', h', rfl⟩ := Option.map_eq_some_iff.1 h
        cases n with
        | zero => simp at hn
        | succ n =>
          obtain ⟨p, hp, e⟩ := packBits_inv n t b' (by simp only [List.length_cons] at hn; omega) h'
          refine ⟨p, hp, ?_⟩
          rw [List.flatMap_cons, bits_byte, e]
          rfl
      | [], hl | [_], hl | [_, _], hl | [_, _, _], hl | [_, _, _, _], hl | [_, _, _, _, _], hl | [_, _, _, _, _, _], hl
      | [_, _, _, _, _, _, _], hl => exact absurd (by simp only [List.length_cons, List.length_nil]; omega) hl

/-- Digits of the same number are the same. -/
theorem ofDigits_injective (base : Nat) : ∀ (a b : List Nat), a.length = b.length → (∀ d ∈ a, d < base) → (∀ d ∈ b, d < base) →
    ofDigits base a = ofDigits base b → a = b := by
  have hlt : ∀ l : List Nat, (∀ d ∈ l, d < base) → ofDigits base l < base ^ l.length := by
    intro l hl
    rw [ofDigits_eq, valueBE_eq]
    have := valueLE_lt base l.reverse (fun d hd => hl d (List.mem_reverse.1 hd))
    rwa [List.length_reverse] at this
  intro a
  induction a with
  | nil => intro b h _ _ _; exact (List.length_eq_zero_iff.1 h.symm).symm
  | cons d a ih =>
    intro b h ha hb he
    cases b with
    | nil => cases h
    | cons e b =>
      have hl : a.length = b.length := by simpa using h
      rw [ofDigits, ofDigits, hl] at he
      have h1 := hlt a (fun x hx => ha x (by simp [hx]))
      have h2 := hlt b (fun x hx => hb x (by simp [hx]))
      rw [hl] at h1
      generalize base ^ b.length = k at *
      have hk : 0 < k := by omega
      have e1 : (d * k + ofDigits base a) / k = d := by
        rw [Nat.mul_comm, Nat.mul_add_div hk, Nat.div_eq_of_lt h1, Nat.add_zero]
      have e2 : (e * k + ofDigits base b) / k = e := by
        rw [Nat.mul_comm, Nat.mul_add_div hk, Nat.div_eq_of_lt h2, Nat.add_zero]
      have hde : d = e := by rw [← e1, he, e2]
      subst hde
      rw [ih b hl (fun x hx => ha x (by simp [hx])) (fun x hx => hb x (by simp [hx])) (by omega)]

theorem bits_lt (l : List Bool) : ∀ d ∈ l.map (·.toNat), d < 2 := by
  intro d hd
  obtain ⟨x, -, rfl⟩ := List.mem_map.1 hd
  cases x <;> decide

theorem toNat_inj_map {a b : List Bool} (h : a.map (·.toNat) = b.map (·.toNat)) : a = b := by
  induction a generalizing b with
  | nil => cases b with
    | nil => rfl
    | cons _ _ => cases h
  | cons x a ih => cases b with
    | nil => cases h
    | cons y b =>
      simp only [List.map_cons, List.cons.injEq] at h
      have hxy : x = y := by
        have := h.1
        revert this
        clear ih h
        revert x y
        decide
      rw [ih h.2, hxy]

/-- Base 32 is read if and only if it is written. -/
theorem decode32_iff (t b : Bytes) : decode32 t = some b ↔ InBase32 letters32 b t := by
  unfold decode32
  constructor
  · intro h
    cases ha : allSome (t.map (position alphabet32)) with
    | none => rw [ha] at h; cases h
    | some ds =>
      rw [ha] at h
      have hw := (written_32 t ds).1 ha
      obtain ⟨p, hp, e⟩ := packBits_inv _ _ _ (Nat.le_refl _) h
      exact inBase32 (fun d hd => hw.1 d hd) hp e hw
  · rintro ⟨ds, p, hw, hp, hl, hv⟩
    rw [(written_32 t ds).2 hw]
    simp only
    have g5 := ofDigits_group 5 bits5 id ds (fun d hd => ⟨by simp [bits5], ofDigits_bits5 ⟨d, hw.1 d hd⟩⟩)
    have g8 := ofDigits_group 8 bitsOf UInt8.toNat b (fun x _ => ⟨by simp [bitsOf], by
      have := ofDigits_bits8 ⟨x.toNat, x.toNat_lt⟩
      simpa using this⟩)
    have : ds.flatMap bits5 = b.flatMap bitsOf ++ List.replicate p false := by
      apply toNat_inj_map
      refine ofDigits_injective 2 _ _ ?_ (bits_lt _) (bits_lt _) ?_
      · simp only [List.length_map, List.length_append, List.length_replicate, g5.2, g8.2]
        exact hl
      · rw [g5.1, List.map_append, ofDigits_append, ofDigits_zeros, g8.1, List.map_id, List.length_map, List.length_replicate]
        exact hv
    rw [this, packBits_bits b p hp]

/-! ### base 58 -/

theorem leadingZeros_eq (l : List Nat) : leadingZeros l = (l.takeWhile (· == 0)).length := by
  induction l with
  | nil => rfl
  | cons d l ih =>
    cases d with
    | zero => rw [leadingZeros, List.takeWhile_cons, if_pos (by decide), List.length_cons, ih]
    | succ d => rw [leadingZeros, List.takeWhile_cons, if_neg (by simp)]; rfl; simp

theorem leadingZeros_split (l : List Nat) : ∃ r, l = List.replicate (leadingZeros l) 0 ++ r ∧ r.head? ≠ some 0 := by
  induction l with
  | nil => exact ⟨[], rfl, by simp⟩
  | cons d l ih =>
    cases d with
    | zero =>
      obtain ⟨r, h1, h2⟩ := ih
      refine ⟨r, ?_, h2⟩
      rw [leadingZeros, List.replicate_succ, List.cons_append, ← h1]
    | succ d => exact ⟨(d + 1) :: l, by rw [leadingZeros]; rfl; simp, by simp⟩

theorem leadingZeros_of {z : Nat} {r : List Nat} (h : r.head? ≠ some 0) : leadingZeros (List.replicate z 0 ++ r) = z := by
  induction z with
  | zero =>
    cases r with
    | nil => rfl
    | cons d r =>
      cases d with
      | zero => exact (h rfl).elim
      | succ d => rw [List.replicate_zero, List.nil_append, leadingZeros]; simp
  | succ z ih => rw [List.replicate_succ, List.cons_append, leadingZeros, ih]

theorem ofDigits_leading (base z : Nat) (r : List Nat) : ofDigits base (List.replicate z 0 ++ r) = ofDigits base r := by
  induction z with
  | zero => rfl
  | succ z ih => rw [List.replicate_succ, List.cons_append, ofDigits, ih, Nat.zero_mul, Nat.zero_add]

/-- Base 58 is read if and only if it is written. -/
theorem decode58_iff (t b : Bytes) : decode58 t = some b ↔ InBase58 letters58 b t := by
  unfold decode58
  have key : ∀ ds : List Nat, (∀ d ∈ ds, d < 58) →
      (some (List.replicate (ds.takeWhile (· == 0)).length 0 ++ ((digitsLE 256 ds.length (valueBE 58 ds)).reverse.map UInt8.ofNat)) = some b ↔
        ofDigits 58 ds = ofDigits 256 (b.map (·.toNat)) ∧ leadingZeros ds = leadingZeros (b.map (·.toNat))) := by
    intro ds hd
    have hv : valueBE 58 ds < 256 ^ ds.length := by
      rw [valueBE_eq]
      have h4 := valueLE_lt 58 ds.reverse (fun d h => hd d (List.mem_reverse.1 h))
      rw [List.length_reverse] at h4
      exact Nat.lt_of_lt_of_le h4 (Nat.pow_le_pow_left (by decide) _)
    have hlt := digitsLE_lt 256 (by decide) ds.length (valueBE 58 ds)
    have hlast := digitsLE_last 256 (by decide) _ _ hv
    have hval := valueLE_digits 256 (by decide) _ _ hv
    rw [← leadingZeros_eq, Option.some.injEq]
    constructor
    · intro h
      have hbn : b.map (·.toNat) = List.replicate (leadingZeros ds) 0 ++ (digitsLE 256 ds.length (valueBE 58 ds)).reverse := by
        rw [← h, List.map_append, List.map_replicate, List.map_map]
        congr 1
        refine (List.map_congr_left (g := id) (fun x hx => ?_)).trans (List.map_id _)
        exact toNat_ofNat_lt (hlt x (List.mem_reverse.1 hx))
      rw [hbn, ofDigits_leading, leadingZeros_of (by rw [List.head?_reverse]; exact hlast), ofDigits_eq, ofDigits_eq 256, valueBE_eq 256,
        List.reverse_reverse, hval]
      exact ⟨rfl, rfl⟩
    · rintro ⟨h1, h2⟩
      obtain ⟨r, hr, hr0⟩ := leadingZeros_split (b.map (·.toNat))
      have hrlt : ∀ d ∈ r, d < 256 := fun d h => bytes_lt b d (hr ▸ List.mem_append_right _ h)
      have hrev : r.reverse.getLast? ≠ some 0 := by rw [List.getLast?_reverse]; exact hr0
      have hrv : valueLE 256 r.reverse = valueBE 58 ds := by
        rw [← valueBE_eq, ← ofDigits_eq, ← ofDigits_eq, h1, hr, ofDigits_leading]
      have hlen : r.reverse.length ≤ ds.length := by
        rcases Nat.eq_zero_or_pos r.length with h0 | h0
        · rw [List.length_reverse]; omega
        · have := valueLE_ge 256 (by decide) r.reverse (by intro h'; rw [List.reverse_eq_nil_iff] at h'; rw [h'] at h0; exact absurd h0 (by decide)) hrev
          rw [hrv] at this
          have := length_le_of_value (by decide : 1 < 256) this hv
          omega
      have hdig : digitsLE 256 ds.length (valueBE 58 ds) = r.reverse := by
        rw [← hrv]
        exact digits_valueLE 256 (by decide) _ _ (fun d h => hrlt d (List.mem_reverse.1 h)) hrev hlen
      rw [hdig, List.reverse_reverse, h2]
      have := congrArg (List.map UInt8.ofNat) hr
      rw [ofNat_toNat_map, List.map_append, List.map_replicate] at this
      exact this.symm
  constructor
  · intro h
    cases ha : allSome (t.map (position alphabet58)) with
    | none => rw [ha] at h; cases h
    | some ds =>
      rw [ha] at h
      have hw := (written_58 t ds).1 ha
      exact ⟨ds, hw, (key ds (fun d hd => hw.1 d hd)).1 h⟩
  · rintro ⟨ds, hw, h⟩
    rw [(written_58 t ds).2 hw]
    exact (key ds (fun d hd => hw.1 d hd)).2 h

/-! ### texts -/

theorem isV0Str_iff (t : Bytes) : isV0Str t = true ↔ t.length = 46 ∧ asciiOf "Qm" <+: t := by
  unfold isV0Str
  rw [Bool.and_eq_true, beq_iff_eq, List.isPrefixOf_iff_prefix]
  rfl

theorem cidBytes_ne {b : Bytes} {c : Cid} (h : Cid.tryFrom b = .ok c) : b ≠ [] := by
  rintro rfl
  revert h
  rw [show Cid.tryFrom [] = .error .parse from by decide]
  nofun

theorem inBase32_nil {b : Bytes} (h : InBase32 letters32 b []) : b = [] := by
  have := (decode32_iff [] b).2 h
  rw [show decode32 [] = some [] from by decide] at this
  exact (Option.some.inj this).symm

theorem inBase58_nil {b : Bytes} (h : InBase58 letters58 b []) : b = [] := by
  have := (decode58_iff [] b).2 h
  rw [show decode58 [] = some [] from by decide] at this
  exact (Option.some.inj this).symm

/-- C104. Exactly which texts are read as which Cid: those which are digits of bytes which begin with those of the Cid. -/
theorem C104_exact (other : UInt8 → Bytes → Option Bytes) (t : Bytes) (hs : ¬ Occurs ipfsText t) (c : Cid) :
    Cid.ofText other t = .ok c ↔ ∃ bytes, CidDigits other bytes t ∧ CidBytes bytes c := by
  have hh : (splitOnce ipfsSep t).2.getD t = t := by rw [ipfsSep_eq, splitOnce_none hs]; rfl
  unfold Cid.ofText
  simp only [hh]
  constructor
  · intro h
    split at h
    · cases h
    rename_i hl
    split at h
    · cases h
    rename_i b hb
    cases hc : Cid.tryFrom b with
    | error e => rw [hc] at h; cases h
    | ok c' =>
      rw [hc] at h
      cases h
      refine ⟨b, ?_, (C53_exact b _).1 hc⟩
      split at hb
      · rename_i hv
        obtain ⟨h1, h2⟩ := (isV0Str_iff t).1 hv
        exact .v0 h1 h2 ((decode58_iff t b).1 hb)
      · rename_i hv
        cases t with
        | nil => simp at hl
        | cons x t =>
          rw [multibaseDecode] at hb
          split at hb
          · rename_i hx
            subst hx
            exact .base32 ((decode32_iff t b).1 hb)
          · split at hb
            · rename_i hx
              subst hx
              exact .base58 ((decode58_iff t b).1 hb)
            · rename_i h1 h2
              refine .other ?_ ?_ ?_ ?_ hb
              · rintro rfl
                simp at hl
              · rintro ⟨h3, h4⟩
                exact hv ((isV0Str_iff _).2 ⟨by rw [List.length_cons, h3], h4⟩)
              · intro h3
                exact h1 (List.cons.inj h3).1.symm
              · intro h3
                exact h2 (List.cons.inj h3).1.symm
  · rintro ⟨b, hd, hb⟩
    have hc := (C53_exact b c).2 hb
    have hne := cidBytes_ne hc
    cases hd with
    | v0 h1 h2 h3 =>
      rw [if_neg (by omega), if_pos ((isV0Str_iff t).2 ⟨h1, h2⟩), (decode58_iff t b).2 h3]
      simp only [hc]
    | @base32 t h =>
      have htn : t ≠ [] := by rintro rfl; exact hne (inBase32_nil h)
      have hz : asciiOf "b" ++ t = 0x62 :: t := rfl
      have := List.length_pos_iff.mpr htn
      rw [hz, if_neg (by rw [List.length_cons]; omega), if_neg (by simp [isV0Str, List.isPrefixOf]), multibaseDecode, if_pos rfl,
        (decode32_iff t b).2 h]
      simp only [hc]
    | @base58 t h =>
      have htn : t ≠ [] := by rintro rfl; exact hne (inBase58_nil h)
      have hz : asciiOf "z" ++ t = 0x7A :: t := rfl
      have := List.length_pos_iff.mpr htn
      rw [hz, if_neg (by rw [List.length_cons]; omega), if_neg (by simp [isV0Str, List.isPrefixOf]), multibaseDecode, if_neg (by decide), if_pos rfl,
        (decode58_iff t b).2 h]
      simp only [hc]
    | @other x t h1 h2 h3 h4 h5 =>
      have := List.length_pos_iff.mpr h1
      rw [if_neg (by rw [List.length_cons]; omega), if_neg, multibaseDecode, if_neg, if_neg, h5]
      · simp only [hc]
      · rintro rfl; exact h4 rfl
      · rintro rfl; exact h3 rfl
      · intro hv
        obtain ⟨e1, e2⟩ := (isV0Str_iff _).1 hv
        exact h2 ⟨by rw [List.length_cons] at e1; omega, e2⟩

/-- C104_exact is not vacuous, and excludes texts: the first is read, and so are its digits. If the last digit has bits which belong to no byte, if
there is one digit more, or if a letter is large, it is not. -/
theorem C104_exact_example :
    (∃ c, Cid.ofText (fun _ _ => none) (asciiOf "bafybeibsalmqatls4cakc5ivjn3yawtb66h5ztg33w2us7oomnlt2ugzgu") = .ok c ∧ c.version = .v1) ∧
    (∃ bytes c, CidDigits (fun _ _ => none) bytes (asciiOf "bafybeibsalmqatls4cakc5ivjn3yawtb66h5ztg33w2us7oomnlt2ugzgu") ∧ CidBytes bytes c) ∧
    Cid.ofText (fun _ _ => none) (asciiOf "bafybeibsalmqatls4cakc5ivjn3yawtb66h5ztg33w2us7oomnlt2ugzgv") = .error .base ∧
    Cid.ofText (fun _ _ => none) (asciiOf "bafybeibsalmqatls4cakc5ivjn3yawtb66h5ztg33w2us7oomnlt2ugzgua") = .error .base ∧
    Cid.ofText (fun _ _ => none) (asciiOf "bafybeibsalmqatls4cakc5ivjn3yawtb66h5ztg33w2us7oomnlt2ugzgU") = .error .base := by
  have hr : Cid.ofText (fun _ _ => none) (asciiOf "bafybeibsalmqatls4cakc5ivjn3yawtb66h5ztg33w2us7oomnlt2ugzgu") = .ok
      ⟨.v1, 0x70, 0x12, [50, 2, 217, 0, 77, 114, 224, 128, 161, 117, 21, 75, 119, 128, 90, 97, 247, 143, 220, 204, 219, 221, 181,
      73, 125, 206, 99, 87, 61, 80, 217, 53]⟩ := by decide +kernel
  have hs : ¬ Occurs ipfsText (asciiOf "bafybeibsalmqatls4cakc5ivjn3yawtb66h5ztg33w2us7oomnlt2ugzgu") :=
    text_no_ipfs (by decide +kernel)
  obtain ⟨bytes, hb⟩ := (C104_exact _ _ hs _).1 hr
  exact ⟨⟨_, hr, rfl⟩, ⟨bytes, _, hb⟩, by decide +kernel, by decide +kernel, by decide +kernel⟩

end Verif.Props
