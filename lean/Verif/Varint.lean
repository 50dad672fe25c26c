import Verif.Basic
/-
Model of the varint primitives of the external crate quick-protobuf 0.8.0
(`Writer::write_varint`, `sizeofs::sizeof_varint`, `BytesReader::read_varint32/64`), which the generated
code in `/repo/src/pb/merkledag.rs` and `/repo/src/pb/unixfs.rs` calls.
-/
namespace Verif

/-- Errors of quick-protobuf (`quick_protobuf::Error`), restricted to those its reader can return, plus two markers of the
model: `fuel` for "the loop bound of the model was hit" (proved unreachable in `Verif/Props/Codec.lean`), and `overflow` for
the overflow of a subtraction inside of quick-protobuf, which in builds with overflow checks is a panic (`C51_overflow_panics`).
(quick-protobuf 0.8.0, called from `src/pb/merkledag.rs:25-39`, `:69-82` and `src/pb/unixfs.rs:31-49`, `:169-181`.) -/
inductive PbError where
  | unexpectedEnd
  | varint
  | utf8
  | deprecated
  | unknownWireType
  | outputBufferTooSmall
  | overflow
  | fuel
  deriving DecidableEq, Repr

/-- `Writer::write_varint`: 7 bits per byte, least significant group first. A `u64` needs at most 10 bytes, so the
recursion depth is fixed. (quick-protobuf 0.8.0, called from `src/pb/merkledag.rs:50-61`, `:93-101` and `src/pb/unixfs.rs:83-107`, `:190-196`.) -/
def encVarintF : Nat → Nat → Bytes
  | 0, n => [UInt8.ofNat (n % 128)]
  | k + 1, n => if n < 128 then [UInt8.ofNat n] else UInt8.ofNat (n % 128 + 128) :: encVarintF k (n / 128)

/-- `Writer::write_varint` on a `u64`.
(quick-protobuf 0.8.0, called from `src/pb/merkledag.rs:50-61`, `:93-101` and `src/pb/unixfs.rs:83-107`, `:190-196`.) -/
def encVarint (n : Nat) : Bytes := encVarintF 9 n

/-- `sizeofs::sizeof_varint`: the crate matches on ranges of the value.
(quick-protobuf 0.8.0, called from `src/pb/merkledag.rs:42-49`, `:85-92` and `src/pb/unixfs.rs:52-82`.) -/
def sizeofVarint (n : Nat) : Nat :=
  if n ≤ 0x7F then 1
  else if n ≤ 0x3FFF then 2
  else if n ≤ 0x1FFFFF then 3
  else if n ≤ 0xFFFFFFF then 4
  else if n ≤ 0x7FFFFFFFF then 5
  else if n ≤ 0x3FFFFFFFFFF then 6
  else if n ≤ 0x1FFFFFFFFFFFF then 7
  else if n ≤ 0xFFFFFFFFFFFFFF then 8
  else if n ≤ 0x7FFFFFFFFFFFFFFF then 9
  else 10

/-- `sizeofs::sizeof_len`: a length prefix and the payload.
(quick-protobuf 0.8.0, called from `src/pb/merkledag.rs:42-49`, `:85-92` and `src/pb/unixfs.rs:52-82`.) -/
def sizeofLen (n : Nat) : Nat := sizeofVarint n + n

/-- State of `quick_protobuf::BytesReader` together with the bytes it is used on: `pos` and `stop` are its fields
`start` and `end`; `rest` is `bytes[start..]`, the tail of the *whole* buffer (the reader does not clip reads to
`end`, it only compares `start` with `end` in `is_eof`).
(quick-protobuf 0.8.0, called from `src/pb/merkledag.rs:25-39`, `:69-82` and `src/pb/unixfs.rs:31-49`, `:169-181`.) -/
structure Reader where
  pos : Nat
  stop : Nat
  rest : Bytes
  deriving Repr, DecidableEq

/-- `BytesReader::from_bytes`. (quick-protobuf 0.8.0, called from `src/pb/merkledag.rs:25-39`, `:69-82` and `src/pb/unixfs.rs:31-49`, `:169-181`.) -/
def Reader.ofBytes (b : Bytes) : Reader := ⟨0, b.length, b⟩

/-- Raw varint reading: at most `k` bytes, no truncation. Returns the value, its length and the rest.
(quick-protobuf 0.8.0, called from `src/pb/merkledag.rs:25-39`, `:69-82` and `src/pb/unixfs.rs:31-49`, `:169-181`.) -/
def decVarintF : Nat → Bytes → Except PbError (Nat × Nat × Bytes)
  | 0, _ => .error .varint
  | _ + 1, [] => .error .unexpectedEnd
  | k + 1, b :: t =>
    if b.toNat < 128 then .ok (b.toNat, 1, t)
    else match decVarintF k t with
      | .error e => .error e
      | .ok (v, l, t') => .ok (b.toNat - 128 + 128 * v, l + 1, t')

/-- `BytesReader::read_varint64`: at most ten bytes, the value is truncated to 64 bits.
(quick-protobuf 0.8.0, called from `src/pb/merkledag.rs:25-39`, `:69-82` and `src/pb/unixfs.rs:31-49`, `:169-181`.) -/
def Reader.readVarint64 (r : Reader) : Except PbError (Nat × Reader) :=
  match decVarintF 10 r.rest with
  | .error e => .error e
  | .ok (v, l, t) => .ok (v % U64, { r with pos := r.pos + l, rest := t })

/-- `BytesReader::read_varint32`: at most ten bytes, the value is truncated to 32 bits.
(quick-protobuf 0.8.0, called from `src/pb/merkledag.rs:25-39`, `:69-82` and `src/pb/unixfs.rs:31-49`, `:169-181`.) -/
def Reader.readVarint32 (r : Reader) : Except PbError (Nat × Reader) :=
  match decVarintF 10 r.rest with
  | .error e => .error e
  | .ok (v, l, t) => .ok (v % U32, { r with pos := r.pos + l, rest := t })

/-! ### lemmas -/

theorem toNat_ofNat_lt {n : Nat} (h : n < 256) : (UInt8.ofNat n).toNat = n := by
  simp [UInt8.toNat_ofNat']; omega

theorem encVarintF_length (k n : Nat) (h : n < 128 ^ (k + 1)) :
    (encVarintF k n).length = Nat.succ (if n < 128 then 0 else (encVarintF (k - 1) (n / 128)).length) := by
  cases k with
  | zero => have : n < 128 := by simpa using h
            simp [encVarintF, this]
  | succ k => simp only [encVarintF]; split <;> simp

theorem encVarintF_pos (k n : Nat) : 0 < (encVarintF k n).length := by
  cases k <;> simp [encVarintF]; split <;> simp

theorem encVarint_pos (n : Nat) : 0 < (encVarint n).length := encVarintF_pos _ _

/-- Decoding what was encoded; the decoder has at least as much room as the encoder. -/
theorem decVarintF_enc (k j n : Nat) (t : Bytes) (hn : n < 128 ^ (k + 1)) (hj : k + 1 ≤ j) :
    decVarintF j (encVarintF k n ++ t) = .ok (n, (encVarintF k n).length, t) := by
  induction k generalizing n j with
  | zero =>
    obtain ⟨j, rfl⟩ : ∃ j', j = j' + 1 := ⟨j - 1, by omega⟩
    have hn' : n < 128 := by simpa using hn
    have : (UInt8.ofNat (n % 128)).toNat = n := by rw [toNat_ofNat_lt (by omega)]; omega
    simp [encVarintF, decVarintF, this, hn']
  | succ k ih =>
    obtain ⟨j, rfl⟩ : ∃ j', j = j' + 1 := ⟨j - 1, by omega⟩
    by_cases h : n < 128
    · have : (UInt8.ofNat n).toNat = n := toNat_ofNat_lt (by omega)
      simp [encVarintF, h, decVarintF, this]
    · have h1 : (UInt8.ofNat (n % 128 + 128)).toNat = n % 128 + 128 := toNat_ofNat_lt (by omega)
      have h2 : n / 128 < 128 ^ (k + 1) := by
        rw [Nat.div_lt_iff_lt_mul (by omega)]; rwa [Nat.pow_succ] at hn
      have h3 := ih j (n / 128) h2 (by omega)
      simp only [encVarintF, h, if_false, List.cons_append, decVarintF, h1, h3]
      rw [if_neg (by omega)]
      simp only [List.length_cons]
      congr 2
      omega

theorem decVarintF_encVarint (n : Nat) (t : Bytes) (hn : n < U64) :
    decVarintF 10 (encVarint n ++ t) = .ok (n, (encVarint n).length, t) :=
  decVarintF_enc 9 10 n t (Nat.lt_of_lt_of_le hn (by decide)) (by omega)

theorem encVarintF_len (j k n : Nat) (hjk : j ≤ k) (hlo : j = 0 ∨ 128 ^ j ≤ n) (hhi : n < 128 ^ (j + 1)) :
    (encVarintF k n).length = j + 1 := by
  induction j generalizing k n with
  | zero =>
    have : n < 128 := by simpa using hhi
    cases k <;> simp [encVarintF, this]
  | succ j ih =>
    obtain ⟨k, rfl⟩ : ∃ k', k = k' + 1 := ⟨k - 1, by omega⟩
    have hlo' : 128 ^ (j + 1) ≤ n := by simpa using hlo
    have h1 : 128 ≤ 128 ^ (j + 1) := by
      rw [Nat.pow_succ]; exact Nat.le_mul_of_pos_left _ (Nat.pow_pos (by omega))
    have h2 : n / 128 < 128 ^ (j + 1) := by
      rw [Nat.div_lt_iff_lt_mul (by omega)]; rwa [Nat.pow_succ] at hhi
    have h3 : 128 ^ j ≤ n / 128 := by
      rw [Nat.le_div_iff_mul_le (by omega)]; rwa [Nat.pow_succ] at hlo'
    simp only [encVarintF, if_neg (show ¬ n < 128 by omega), List.length_cons]
    rw [ih k (n / 128) (by omega) (Or.inr h3) h2]

/-- The declared varint size is the written one, for every `u64`. -/
theorem sizeofVarint_eq (n : Nat) (hn : n < U64) : sizeofVarint n = (encVarint n).length := by
  have hn' : n < 18446744073709551616 := by simpa using hn
  unfold encVarint sizeofVarint
  split
  · rw [encVarintF_len 0] <;> simp <;> omega
  split
  · rw [encVarintF_len 1] <;> simp <;> omega
  split
  · rw [encVarintF_len 2] <;> simp <;> omega
  split
  · rw [encVarintF_len 3] <;> simp <;> omega
  split
  · rw [encVarintF_len 4] <;> simp <;> omega
  split
  · rw [encVarintF_len 5] <;> simp <;> omega
  split
  · rw [encVarintF_len 6] <;> simp <;> omega
  split
  · rw [encVarintF_len 7] <;> simp <;> omega
  split
  · rw [encVarintF_len 8] <;> simp <;> omega
  · rw [encVarintF_len 9] <;> simp <;> omega

theorem decVarintF_rest {k : Nat} {b : Bytes} {v l : Nat} {t : Bytes}
    (h : decVarintF k b = .ok (v, l, t)) : 0 < l ∧ l ≤ b.length ∧ t = b.drop l := by
  induction k generalizing b v l t with
  | zero => simp [decVarintF] at h
  | succ k ih =>
    cases b with
    | nil => simp [decVarintF] at h
    | cons x b =>
      simp only [decVarintF] at h
      split at h
      · simp at h; obtain ⟨_, rfl, rfl⟩ := h; simp
      · split at h
        · simp at h
        · rename_i v' l' t' heq
          simp at h; obtain ⟨_, rfl, rfl⟩ := h
          have := ih heq
          exact ⟨by omega, by simp; omega, by simp [this.2.2]⟩

end Verif
