import Verif.Examples
import Verif.Props.Codec
/-
Property C75: where the examples look for a block.
-/
namespace Verif.Props
open Verif Verif.Spec Verif.Examples

theorem bitsOf_length (b : UInt8) : (bitsOf b).length = 8 := by simp [bitsOf]

theorem bitsOf_inj {a b : UInt8} (h : bitsOf a = bitsOf b) : a = b := by
  apply UInt8.toNat.inj
  apply Nat.eq_of_testBit_eq
  intro i
  by_cases hi : i < 8
  · have := congrArg (fun l => l[7 - i]?) h
    simp only [bitsOf, List.getElem?_map, List.getElem?_range (show 7 - i < 8 by omega), Option.map_some, Option.some.injEq] at this
    rw [show 7 - (7 - i) = i by omega] at this
    exact this
  · have ha := a.toNat_lt
    have hb := b.toNat_lt
    have : 2 ^ 8 ≤ 2 ^ i := Nat.pow_le_pow_right (by omega) (by omega)
    rw [Nat.testBit_lt_two_pow (by omega), Nat.testBit_lt_two_pow (by omega)]

theorem bits_length (k : Bytes) : (k.flatMap bitsOf).length = 8 * k.length := by
  induction k with
  | nil => rfl
  | cons b t ih => rw [List.flatMap_cons, List.length_append, bitsOf_length, ih, List.length_cons]; omega

theorem bits_inj : ∀ (k l : Bytes), k.flatMap bitsOf = l.flatMap bitsOf → k = l
  | [], [], _ => rfl
  | [], b :: t, h => by
    have := congrArg List.length h
    rw [bits_length, bits_length] at this
    simp at this
  | a :: s, [], h => by
    have := congrArg List.length h
    rw [bits_length, bits_length] at this
    simp at this
  | a :: s, b :: t, h => by
    rw [List.flatMap_cons, List.flatMap_cons] at h
    obtain ⟨h1, h2⟩ := List.append_inj h (by rw [bitsOf_length, bitsOf_length])
    rw [bitsOf_inj h1, bits_inj s t h2]

theorem digits_inj : ∀ a b c d e a' b' c' d' e' : Bool,
    digit32 (fromBits [a, b, c, d, e]) = digit32 (fromBits [a', b', c', d', e']) → [a, b, c, d, e] = [a', b', c', d', e'] := by
  decide +kernel

theorem encodeBits_length : ∀ (l : List Bool), (encodeBits l).length = (l.length + 4) / 5
  | [] => rfl
  | [_] => by rw [encodeBits] <;> simp
  | [_, _] => by rw [encodeBits] <;> simp
  | [_, _, _] => by rw [encodeBits] <;> simp
  | [_, _, _, _] => by rw [encodeBits] <;> simp
  | a :: b :: c :: d :: e :: t => by
    show (digit32 (fromBits [a, b, c, d, e]) :: encodeBits t).length = _
    rw [List.length_cons, encodeBits_length t]
    simp only [List.length_cons]
    omega

theorem encodeBits_inj : ∀ (l m : List Bool), l.length = m.length → encodeBits l = encodeBits m → l = m
  | [], [], _, _ => rfl
  | [a], [a'], _, h => by
    have := digits_inj _ _ _ _ _ _ _ _ _ _ (List.cons.inj h).1
    simp_all
  | [a, b], [a', b'], _, h => by
    have := digits_inj _ _ _ _ _ _ _ _ _ _ (List.cons.inj h).1
    simp_all
  | [a, b, c], [a', b', c'], _, h => by
    have := digits_inj _ _ _ _ _ _ _ _ _ _ (List.cons.inj h).1
    simp_all
  | [a, b, c, d], [a', b', c', d'], _, h => by
    have := digits_inj _ _ _ _ _ _ _ _ _ _ (List.cons.inj h).1
    simp_all
  | a :: b :: c :: d :: e :: t, a' :: b' :: c' :: d' :: e' :: t', hl, h => by
    have h : digit32 (fromBits [a, b, c, d, e]) :: encodeBits t = digit32 (fromBits [a', b', c', d', e']) :: encodeBits t' := h
    have h1 := digits_inj _ _ _ _ _ _ _ _ _ _ (List.cons.inj h).1
    have h2 := encodeBits_inj t t' (by simpa using hl) (List.cons.inj h).2
    simp_all
  | [], _ :: _, hl, _ => by simp at hl
  | _ :: _, [], hl, _ => by simp at hl
  | [_], _ :: _ :: _, hl, _ => by simp at hl
  | _ :: _ :: _, [_], hl, _ => by simp at hl
  | [_, _], _ :: _ :: _ :: _, hl, _ => by simp at hl
  | _ :: _ :: _ :: _, [_, _], hl, _ => by simp at hl
  | [_, _, _], _ :: _ :: _ :: _ :: _, hl, _ => by simp at hl
  | _ :: _ :: _ :: _ :: _, [_, _, _], hl, _ => by simp at hl
  | [_, _, _, _], _ :: _ :: _ :: _ :: _ :: _, hl, _ => by simp at hl
  | _ :: _ :: _ :: _ :: _ :: _, [_, _, _, _], hl, _ => by simp at hl

theorem encodeKey_length (k : Bytes) : (encodeKey k).length = (8 * k.length + 4) / 5 := by
  rw [encodeKey, encodeBits_length, bits_length]

theorem encodeKey_inj {k l : Bytes} (h : encodeKey k = encodeKey l) : k = l := by
  have hl := congrArg List.length h
  rw [encodeKey_length, encodeKey_length] at hl
  exact bits_inj k l (encodeBits_inj _ _ (by rw [bits_length, bits_length]; omega) h)

/-- The characters of RFC 4648 base 32: `A` to `Z` and `2` to `7`. -/
def base32Alphabet : Bytes := "ABCDEFGHIJKLMNOPQRSTUVWXYZ234567".toList.map (fun c => UInt8.ofNat c.toNat)

theorem digit32_mem : ∀ a b c d e : Bool, digit32 (fromBits [a, b, c, d, e]) ∈ base32Alphabet := by decide +kernel

theorem encodeBits_mem : ∀ (l : List Bool), ∀ x ∈ encodeBits l, x ∈ base32Alphabet
  | [] => by intro x hx; cases hx
  | [a] => by intro x hx; obtain rfl := List.mem_singleton.1 hx; exact digit32_mem _ _ _ _ _
  | [a, b] => by intro x hx; obtain rfl := List.mem_singleton.1 hx; exact digit32_mem _ _ _ _ _
  | [a, b, c] => by intro x hx; obtain rfl := List.mem_singleton.1 hx; exact digit32_mem _ _ _ _ _
  | [a, b, c, d] => by intro x hx; obtain rfl := List.mem_singleton.1 hx; exact digit32_mem _ _ _ _ _
  | a :: b :: c :: d :: e :: t => by
    intro x hx
    have hx : x ∈ digit32 (fromBits [a, b, c, d, e]) :: encodeBits t := hx
    rcases List.mem_cons.1 hx with rfl | hx
    · exact digit32_mem _ _ _ _ _
    · exact encodeBits_mem t x hx

theorem encodeKey_mem (k : Bytes) : ∀ x ∈ encodeKey k, x ∈ base32Alphabet := encodeBits_mem _

/-- C75. For every key of at least two bytes (as every Cid) there is a path: a directory with a name of two characters (the next to last two of the
file name) and a file with a name ending in `.data`; apart from this suffix only the characters `A-Z2-7` occur, so that the path
stays below the root of the store. -/
theorem C75_path (key : Bytes) (hk : 2 ≤ key.length) :
    ∃ dir name, asPath key = .ok [dir, name ++ dotData] ∧ dir.length = 2 ∧ (∃ u l, name = u ++ dir ++ [l]) ∧
      (∀ x ∈ dir, x ∈ base32Alphabet) ∧ (∀ x ∈ name, x ∈ base32Alphabet) := by
  have hl := encodeKey_length key
  have hd : (((encodeKey key).take ((encodeKey key).length - 1)).drop ((encodeKey key).length - 3)).length = 2 := by
    rw [List.length_drop, List.length_take]; omega
  refine ⟨((encodeKey key).take ((encodeKey key).length - 1)).drop ((encodeKey key).length - 3), encodeKey key, ?_, hd, ?_, ?_,
    encodeKey_mem key⟩
  · show (if (encodeKey key).length < 3 then _ else _) = _
    rw [if_neg (by omega)]
    exact if_neg (by rw [hd]; exact fun h => h rfl)
  · generalize encodeKey key = e at hl hd
    have h1 : e = e.take (e.length - 1) ++ e.drop (e.length - 1) := (List.take_append_drop _ _).symm
    obtain ⟨l, h2⟩ : ∃ l, e.drop (e.length - 1) = [l] := List.length_eq_one_iff.1 (by rw [List.length_drop]; omega)
    refine ⟨(e.take (e.length - 1)).take (e.length - 3), l, ?_⟩
    rw [List.take_append_drop, ← h2]
    exact h1
  · intro x hx
    exact encodeKey_mem key x (List.mem_of_mem_take (List.mem_of_mem_drop hx))

/-- C75: different keys have different paths, so that a block put under one key is never found under another. -/
theorem C75_injective (key key' : Bytes) (path : List Bytes) (h : asPath key = .ok path) (h' : asPath key' = .ok path) :
    key = key' := by
  have get : ∀ k, asPath k = .ok path → ∃ d, path = [d, encodeKey k ++ dotData] := by
    intro k hk
    unfold asPath at hk
    dsimp only at hk
    split at hk
    · cases hk
    · split at hk
      · cases hk
      · cases hk; exact ⟨_, rfl⟩
  obtain ⟨d, h1⟩ := get key h
  obtain ⟨d', h2⟩ := get key' h'
  rw [h1] at h2
  simp only [List.cons.injEq, and_true] at h2
  exact encodeKey_inj (List.append_cancel_right h2.2)

/-- C75, the paths of Cids: every Cid has one, and different Cids have different ones. -/
theorem C75_cids (a b : Cid) (ha : a.Fits) (hb : b.Fits) :
    ∃ p q, asPath a.toBytes = .ok p ∧ asPath b.toBytes = .ok q ∧ (p = q → a = b) := by
  have two : ∀ c : Cid, c.Fits → 2 ≤ c.toBytes.length := by
    intro c _
    have h1 := encVarint_pos c.code
    have h2 := encVarint_pos c.digest.length
    have h3 : 2 ≤ c.hashBytes.length := by
      rw [Cid.hashBytes]; simp only [List.length_append]; omega
    rw [Cid.toBytes]
    cases c.version <;> simp only [List.length_append] <;> omega
  obtain ⟨d, n, h1, -⟩ := C75_path a.toBytes (two a ha)
  obtain ⟨d', n', h2, -⟩ := C75_path b.toBytes (two b hb)
  refine ⟨_, _, h1, h2, ?_⟩
  intro h
  rw [← h] at h2
  exact C53_injective a b ha hb (C75_injective _ _ _ h1 h2)

/-- Keys of less than two bytes: `len - 3` underflows. -/
theorem C75_short (key : Bytes) (hk : key.length < 2) : asPath key = .panic .examplePath := by
  have hl := encodeKey_length key
  show (if (encodeKey key).length < 3 then _ else _) = _
  exact if_pos (by omega)

/-- The path of a short key: `MFRGG`, as for `abc` in RFC 4648. -/
example : asPath [0x61, 0x62, 0x63] = .ok ["RG".toUTF8.data.toList, "MFRGG.data".toUTF8.data.toList] := by decide +kernel

end Verif.Props
