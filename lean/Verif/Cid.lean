import Verif.Varint
/-
Model of the external crates `cid`/`multihash` (re-exported by libipld) as used by `/repo`: `Cid::to_bytes`,
`Cid::try_from(&[u8])`, `Cid::new_v1`, `Code::Sha2_256.digest`.
-/
namespace Verif

/-- The versions of a Cid. (crate cid 0.8.3, used at `src/file/visit.rs:217`, `src/dir.rs:81`, `src/walk.rs:38`, `:59`) -/
inductive CidVersion where
  | v0 | v1
  deriving DecidableEq, Repr

/-- `libipld::Cid`: version, codec, and the multihash (code and digest).
(crate cid 0.8.3, used at `src/file/visit.rs:217`, `src/dir.rs:81`, `src/walk.rs:38`, `:59`.) -/
structure Cid where
  version : CidVersion
  codec : Nat
  code : Nat
  digest : Bytes
  deriving DecidableEq, Repr

/-- `libipld::cid::Error`, coarsened. (crate cid 0.8.3, used at `src/file/visit.rs:217`, `src/dir.rs:81`, `src/walk.rs:38`, `:59`.) -/
inductive CidError where
  | parse | invalidVersion | invalidV0
  deriving DecidableEq, Repr

/-- `Multihash::to_bytes`. (crate cid 0.8.3, used at `src/file/adder.rs:631`, `src/dir/builder/custom_pb.rs:65-103`.) -/
def Cid.hashBytes (c : Cid) : Bytes := encVarint c.code ++ (encVarint c.digest.length ++ c.digest)

/-- `Cid::to_bytes`. (crate cid 0.8.3, used at `src/file/adder.rs:631`, `src/dir/builder/custom_pb.rs:65-103`.) -/
def Cid.toBytes (c : Cid) : Bytes :=
  match c.version with
  | .v0 => c.hashBytes
  | .v1 => encVarint 1 ++ (encVarint c.codec ++ c.hashBytes)

/-- `unsigned_varint::io::read_u64`: at most ten bytes, rejects non-minimal encodings (a zero last byte after the
first). (crate cid 0.8.3, used at `src/file/visit.rs:217`, `src/dir.rs:81`, `src/walk.rs:38`, `:59`.) -/
def decUvarint (b : Bytes) : Option (Nat × Bytes) :=
  match decVarintF 10 b with
  | .error _ => none
  | .ok (v, l, t) => if 1 < l ∧ b[l - 1]? = some 0 then none else some (v % U64, t)

/-- `Cid::try_from(&[u8])` (`Cid::read_bytes`): bytes after the digest are ignored; digests of more than 64 bytes do
not fit the crate's multihash type. (crate cid 0.8.3, used at `src/file/visit.rs:217`, `src/dir.rs:81`, `src/walk.rs:38`, `:59`.) -/
def Cid.tryFrom (b : Bytes) : Except CidError Cid :=
  match decUvarint b with
  | none => .error .parse
  | some (version, t) =>
    match decUvarint t with
    | none => .error .parse
    | some (codec, t) =>
      if version = 0x12 ∧ codec = 0x20 then
        if 32 ≤ t.length then .ok ⟨.v0, 0x70, 0x12, t.take 32⟩ else .error .parse
      else if version = 0 ∨ version = 1 then
        match decUvarint t with
        | none => .error .parse
        | some (code, t) =>
          match decUvarint t with
          | none => .error .parse
          | some (size, t) =>
            if 64 < size then .error .parse
            else if t.length < size then .error .parse
            else if version = 1 then .ok ⟨.v1, codec, code, t.take size⟩
            else if codec = 0x70 ∧ code = 0x12 then .ok ⟨.v0, 0x70, code, t.take size⟩
            else .error .invalidV0
      else .error .invalidVersion

/-- `Cid::new_v1(DAG_PB, Code::Sha2_256.digest(block))`: `DAG_PB = 0x70` (`src/pb.rs:16`), the multihash code of
sha2-256 is `0x12`. `sha` is the hash function, a parameter of the model. -/
def cidOf (sha : Bytes → Bytes) (block : Bytes) : Cid := ⟨.v1, 0x70, 0x12, sha block⟩

/-- Values the Rust type can hold. (not part of `src/*.rs`.) -/
def Cid.Fits (c : Cid) : Prop :=
  c.codec < U64 ∧ c.code < U64 ∧ c.digest.length ≤ 64 ∧
    (c.version = .v0 → c.codec = 0x70 ∧ c.code = 0x12 ∧ c.digest.length = 32)

instance Cid.decFits (c : Cid) : Decidable c.Fits := by unfold Cid.Fits; infer_instance

/-! ### lemmas -/

theorem encVarintF_last (k n : Nat) (hn : n < 128 ^ (k + 1)) (h : 1 < (encVarintF k n).length) :
    (encVarintF k n)[(encVarintF k n).length - 1]? ≠ some 0 := by
  induction k generalizing n with
  | zero => simp [encVarintF] at h
  | succ k ih =>
    by_cases hlt : n < 128
    · simp [encVarintF, hlt] at h
    · have h2 : n / 128 < 128 ^ (k + 1) := by
        rw [Nat.div_lt_iff_lt_mul (by omega)]; rwa [Nat.pow_succ] at hn
      simp only [encVarintF, hlt, if_false, List.length_cons] at h ⊢
      have hp := encVarintF_pos k (n / 128)
      obtain ⟨l, hl⟩ : ∃ l, (encVarintF k (n / 128)).length = l + 1 := ⟨_, (Nat.succ_pred_eq_of_pos hp).symm⟩
      rw [hl]
      simp only [Nat.add_sub_cancel, List.getElem?_cons_succ]
      by_cases h1 : 1 < (encVarintF k (n / 128)).length
      · have := ih _ h2 h1; rw [hl] at this; simpa using this
      · have hl0 : l = 0 := by omega
        subst hl0
        have hsmall : n / 128 < 128 := by
          refine Decidable.byContradiction fun hge => ?_
          cases k with
          | zero => simp at h2; omega
          | succ k =>
            simp only [encVarintF, hge, if_false, List.length_cons] at hl
            have := encVarintF_pos k (n / 128 / 128); omega
        have hval : encVarintF k (n / 128) = [UInt8.ofNat (n / 128)] := by
          cases k with
          | zero => simp [encVarintF, Nat.mod_eq_of_lt hsmall]
          | succ k => simp [encVarintF, hsmall]
        rw [hval]
        simp only [List.getElem?_cons_zero, ne_eq, Option.some.injEq]
        intro h0
        have := congrArg UInt8.toNat h0
        rw [toNat_ofNat_lt (by omega)] at this
        have : n / 128 = 0 := by simpa using this
        omega

theorem decUvarint_enc {n : Nat} (hn : n < U64) (t : Bytes) : decUvarint (encVarint n ++ t) = some (n, t) := by
  unfold decUvarint
  rw [decVarintF_encVarint n t hn]
  simp only
  rw [if_neg, Nat.mod_eq_of_lt hn]
  rintro ⟨h1, h2⟩
  rw [List.getElem?_append_left (by have := encVarint_pos n; omega)] at h2
  exact encVarintF_last 9 n (Nat.lt_of_lt_of_le hn (by decide)) h1 h2

theorem encVarint_small {n : Nat} (h : n < 128) : encVarint n = [UInt8.ofNat n] := by
  simp [encVarint, encVarintF, h]

theorem Cid.tryFrom_toBytes (c : Cid) (h : c.Fits) (t : Bytes) : Cid.tryFrom (c.toBytes ++ t) = .ok c := by
  obtain ⟨v, codec, code, digest⟩ := c
  obtain ⟨h1, h2, h3, h4⟩ := h
  simp only at h1 h2 h3 h4
  have hd : digest.length < U64 := Nat.lt_of_le_of_lt h3 (by decide)
  cases v with
  | v0 =>
    obtain ⟨rfl, rfl, hl⟩ := h4 rfl
    simp only [Cid.toBytes, Cid.hashBytes, List.append_assoc, Cid.tryFrom, decUvarint_enc h2, decUvarint_enc hd]
    rw [if_pos ⟨trivial, hl⟩, if_pos (by simp only [List.length_append]; omega), ← hl, List.take_left]
  | v1 =>
    simp only [Cid.toBytes, Cid.hashBytes, List.append_assoc, Cid.tryFrom, decUvarint_enc (show 1 < U64 by decide),
      decUvarint_enc h1, decUvarint_enc h2, decUvarint_enc hd]
    rw [if_neg (by omega), if_pos (by simp), if_neg (by omega), if_neg (by simp only [List.length_append]; omega),
      if_pos trivial, List.take_left]

theorem cidOf_fits {sha : Bytes → Bytes} (hsha : ∀ b, (sha b).length = 32) (b : Bytes) : (cidOf sha b).Fits :=
  ⟨by show (0x70 : Nat) < U64; decide, by show (0x12 : Nat) < U64; decide,
    by show (sha b).length ≤ 64; rw [hsha]; decide, by intro h; cases h⟩

theorem Cid.toBytes_length_le (c : Cid) (h : c.Fits) : c.toBytes.length < 128 := by
  have hl : ∀ n, n < U64 → (encVarint n).length ≤ 10 := by
    intro n hn; rw [← sizeofVarint_eq n hn]; unfold sizeofVarint; repeat' split <;> try omega
  obtain ⟨h1, h2, h3, -⟩ := h
  have hd : c.digest.length < 128 := by omega
  have a := hl _ h1
  have b := hl _ h2
  have hs : (encVarint c.digest.length).length = 1 := by rw [encVarint_small hd]; rfl
  have h1' : (encVarint 1).length = 1 := rfl
  unfold Cid.toBytes Cid.hashBytes
  split <;> simp only [List.length_append] <;> omega

end Verif
