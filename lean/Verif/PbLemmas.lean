import Verif.Spec.Wire
/-
Reader lemmas: reading the concatenation of encoded fields.
-/
namespace Verif
open Spec

theorem readVarint32_enc {n : Nat} (hn : n < U32) (pos stop : Nat) (t : Bytes) :
    Reader.readVarint32 ⟨pos, stop, encVarint n ++ t⟩ = .ok (n, ⟨pos + (encVarint n).length, stop, t⟩) := by
  simp only [Reader.readVarint32, decVarintF_encVarint n t (Nat.lt_of_lt_of_le hn (by decide)), Nat.mod_eq_of_lt hn]

theorem readVarint32_enc' {n : Nat} (hn : n < U64) (pos stop : Nat) (t : Bytes) :
    Reader.readVarint32 ⟨pos, stop, encVarint n ++ t⟩ = .ok (n % U32, ⟨pos + (encVarint n).length, stop, t⟩) := by
  simp only [Reader.readVarint32, decVarintF_encVarint n t hn]

theorem readVarint64_enc {n : Nat} (hn : n < U64) (pos stop : Nat) (t : Bytes) :
    Reader.readVarint64 ⟨pos, stop, encVarint n ++ t⟩ = .ok (n, ⟨pos + (encVarint n).length, stop, t⟩) := by
  simp only [Reader.readVarint64, decVarintF_encVarint n t hn, Nat.mod_eq_of_lt hn]

theorem readBytes_enc {b : Bytes} (hb : b.length < U32) (pos stop : Nat) (t : Bytes) :
    Reader.readBytes ⟨pos, stop, encVarint b.length ++ (b ++ t)⟩ =
      .ok (⟨pos + (encVarint b.length).length, b⟩, ⟨pos + (encVarint b.length).length + b.length, stop, t⟩) := by
  simp only [Reader.readBytes, readVarint32_enc hb, except_ok_bind]
  simp

theorem readString_enc {b : Bytes} (hb : b.length < U32) (hu : validUtf8 b = true) (pos stop : Nat) (t : Bytes) :
    Reader.readString ⟨pos, stop, encVarint b.length ++ (b ++ t)⟩ =
      .ok (b, ⟨pos + (encVarint b.length).length + b.length, stop, t⟩) := by
  simp only [Reader.readString, readBytes_enc hb, except_ok_bind, hu, if_true]

theorem wFixed32_length (n : Nat) : (wFixed32 n).length = 4 := rfl

theorem le32_wFixed32 {n : Nat} (hn : n < U32) :
    le32 (UInt8.ofNat (n % 256)) (UInt8.ofNat (n / 256 % 256)) (UInt8.ofNat (n / 65536 % 256))
      (UInt8.ofNat (n / 16777216 % 256)) = n := by
  have hn' : n < 4294967296 := by simpa using hn
  simp only [le32]
  repeat rw [toNat_ofNat_lt (by omega)]
  omega

theorem readFixed32_enc {n : Nat} (hn : n < U32) (pos stop : Nat) (t : Bytes) :
    Reader.readFixed32 ⟨pos, stop, wFixed32 n ++ t⟩ = .ok (n, ⟨pos + 4, stop, t⟩) := by
  simp only [wFixed32, List.cons_append, List.nil_append, Reader.readFixed32, le32_wFixed32 hn]

/-- Fold over fields tracking the position of each field. -/
def foldFields {M F : Type} (enc : F → Bytes) (apply : Nat → M → F → M) : Nat → M → List F → M
  | _, m, [] => m
  | pos, m, f :: fs => foldFields enc apply (pos + (enc f).length) (apply pos m f) fs

theorem foldFields_eq_foldl {M F : Type} (enc : F → Bytes) (apply : M → F → M) (pos : Nat) (m : M) (fs : List F) :
    foldFields enc (fun _ => apply) pos m fs = fs.foldl apply m := by
  induction fs generalizing pos m with
  | nil => rfl
  | cons f fs ih => simp [foldFields, ih]

/-- One field is read as specified. -/
def StepOk {M F : Type} (step : Nat → M → Reader → Except PbError (M × Reader)) (enc : F → Bytes)
    (apply : Nat → M → F → M) (WF : F → Prop) : Prop :=
  ∀ f, WF f → 0 < (enc f).length ∧ ∀ m pos stop tail, pos + (enc f).length ≤ stop →
    (Reader.readVarint32 ⟨pos, stop, enc f ++ tail⟩ >>= fun p => step p.1 m p.2) =
      .ok (apply pos m f, ⟨pos + (enc f).length, stop, tail⟩)

theorem readLoop_fields {M F : Type} {step : Nat → M → Reader → Except PbError (M × Reader)} {enc : F → Bytes}
    {apply : Nat → M → F → M} {WF : F → Prop} (hs : StepOk step enc apply WF) (fs : List F) (hf : ∀ f ∈ fs, WF f)
    (fuel : Nat) (m : M) (pos stop : Nat) (tail : Bytes) (hstop : stop = pos + (fs.flatMap enc).length)
    (hfuel : fs.length < fuel) :
    readLoop step fuel m ⟨pos, stop, fs.flatMap enc ++ tail⟩ =
      .ok (foldFields enc apply pos m fs, ⟨stop, stop, tail⟩) := by
  induction fs generalizing fuel m pos with
  | nil =>
    obtain ⟨k, rfl⟩ : ∃ k, fuel = k + 1 := ⟨fuel - 1, by simp at hfuel; omega⟩
    simp at hstop; subst hstop
    simp [readLoop, foldFields]
  | cons f fs ih =>
    obtain ⟨k, rfl⟩ : ∃ k, fuel = k + 1 := ⟨fuel - 1, by simp at hfuel; omega⟩
    have hw := hs f (hf f (by simp))
    simp only [List.flatMap_cons, List.length_append] at hstop
    have h := hw.2 m pos stop (fs.flatMap enc ++ tail) (by omega)
    rw [readLoop]
    rw [if_neg (show ¬ pos = stop by have := hw.1; omega)]
    simp only [List.flatMap_cons, List.append_assoc]
    cases hv : Reader.readVarint32 ⟨pos, stop, enc f ++ (fs.flatMap enc ++ tail)⟩ with
    | error e => rw [hv] at h; simp at h
    | ok p =>
      rw [hv] at h
      simp only [except_ok_bind] at h ⊢
      rw [h]
      simp only [except_ok_bind, foldFields]
      exact ih (fun f hf' => hf f (by simp [hf'])) k _ _ (by omega) (by simp at hfuel; omega)

theorem flatMap_length_ge {F : Type} {enc : F → Bytes} (fs : List F) (h : ∀ f ∈ fs, 0 < (enc f).length) :
    fs.length ≤ (fs.flatMap enc).length := by
  induction fs with
  | nil => simp
  | cons f fs ih =>
    have h1 := h f (by simp)
    have h2 := ih (fun f hf => h f (by simp [hf]))
    simp only [List.flatMap_cons, List.length_append, List.length_cons]; omega

theorem fromReader_fields {M F : Type} {step : Nat → M → Reader → Except PbError (M × Reader)} {enc : F → Bytes}
    {apply : Nat → M → F → M} {WF : F → Prop} (hs : StepOk step enc apply WF) (fs : List F) (hf : ∀ f ∈ fs, WF f)
    (dflt : M) (pos stop : Nat) (tail : Bytes) (hstop : stop = pos + (fs.flatMap enc).length) :
    fromReader step dflt ⟨pos, stop, fs.flatMap enc ++ tail⟩ =
      .ok (foldFields enc apply pos dflt fs, ⟨stop, stop, tail⟩) := by
  unfold fromReader
  apply readLoop_fields hs fs hf _ _ _ _ _ hstop
  have := flatMap_length_ge fs (fun f h => (hs f (hf f h)).1)
  simp only [List.length_append]; omega

theorem readMessage_fields {M F : Type} {step : Nat → M → Reader → Except PbError (M × Reader)} {enc : F → Bytes}
    {apply : M → F → M} {WF : F → Prop} (hs : StepOk step enc (fun _ => apply) WF) (fs : List F) (hf : ∀ f ∈ fs, WF f)
    (dflt : M) (pos stop : Nat) (tail : Bytes) (hlen : (fs.flatMap enc).length < U32) :
    Reader.readMessage step dflt ⟨pos, stop, encVarint (fs.flatMap enc).length ++ (fs.flatMap enc ++ tail)⟩ =
      .ok (fs.foldl apply dflt,
        ⟨pos + (encVarint (fs.flatMap enc).length).length + (fs.flatMap enc).length, stop, tail⟩) := by
  simp only [Reader.readMessage, readVarint32_enc hlen, except_ok_bind]
  rw [fromReader_fields hs fs hf dflt _ _ tail rfl]
  simp only [except_ok_bind, foldFields_eq_foldl]

theorem parseMessage_fields {M F : Type} {step : Nat → M → Reader → Except PbError (M × Reader)} {enc : F → Bytes}
    {apply : Nat → M → F → M} {WF : F → Prop} (hs : StepOk step enc apply WF) (fs : List F) (hf : ∀ f ∈ fs, WF f)
    (dflt : M) : parseMessage step dflt (fs.flatMap enc) = .ok (foldFields enc apply 0 dflt fs) := by
  have h := fromReader_fields hs fs hf dflt 0 (fs.flatMap enc).length [] (by simp)
  simp only [List.append_nil] at h
  simp only [parseMessage, Reader.ofBytes, h, except_ok_bind]

/-! ### unknown fields -/

theorem unk_enc_pos (u : Unk) : 0 < u.enc.length := by
  have := encVarint_pos u.tag
  simp only [Unk.enc, List.length_append]; omega

theorem readUnknown_enc {known : List Nat} (u : Unk) (hu : u.WF known) (pos stop : Nat) (tail : Bytes)
    (hstop : pos + u.enc.length ≤ stop) :
    ∃ r1, Reader.readVarint32 ⟨pos, stop, u.enc ++ tail⟩ = .ok (u.tag, r1) ∧
      r1.readUnknown u.tag = .ok ⟨pos + u.enc.length, stop, tail⟩ := by
  obtain ⟨num, pl⟩ := u
  obtain ⟨ht, _, hp⟩ := hu
  refine ⟨⟨pos + (encVarint (Unk.mk num pl).tag).length, stop,
    (Unk.mk num pl).enc.drop (encVarint (Unk.mk num pl).tag).length ++ tail⟩, ?_, ?_⟩
  · simp only [Unk.enc, List.append_assoc, readVarint32_enc ht]
    simp
  · cases pl with
    | varint n =>
      have : (Unk.mk num (.varint n)).tag % 8 = 0 := by simp [Unk.tag]
      simp only [Reader.readUnknown, this, Unk.enc, List.drop_left, readVarint64_enc (show n < U64 from hp),
        except_ok_bind, List.length_append, Nat.add_assoc]
    | fixed64 b =>
      have : (Unk.mk num (.fixed64 b)).tag % 8 = 1 := by simp [Unk.tag]
      have hb : b.length = 8 := hp
      simp only [Reader.readUnknown, this, Unk.enc, List.drop_left, List.length_append, Nat.add_assoc, hb]
      rw [← hb, List.drop_left]
    | bytes b =>
      have : (Unk.mk num (.bytes b)).tag % 8 = 2 := by simp [Unk.tag]
      simp only [Reader.readUnknown, this, Unk.enc, List.drop_left, List.append_assoc,
        readVarint64_enc (show b.length < U64 from hp), except_ok_bind, List.length_append]
      simp only [Unk.enc, List.length_append] at hstop
      rw [if_neg (by omega), if_neg (by omega)]
      simp [Nat.add_assoc]
    | fixed32 b =>
      have : (Unk.mk num (.fixed32 b)).tag % 8 = 5 := by simp [Unk.tag]
      have hb : b.length = 4 := hp
      simp only [Reader.readUnknown, this, Unk.enc, List.drop_left, List.length_append, Nat.add_assoc, hb]
      rw [← hb, List.drop_left]

end Verif
