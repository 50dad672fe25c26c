import Verif.Spec.DirTree
import Verif.CodecLemmas
namespace Verif
open Spec

/-! ### custom_pb agrees with the general encoding -/

def NamedLeaf.toItem (l : NamedLeaf) : Item := ⟨l.name, l.link, l.total_size⟩
def Spec.Item.toLeaf (i : Item) : NamedLeaf := ⟨i.name, i.cid, i.total⟩

def Spec.Item.toPB (i : Item) : PBLink := { Hash := some i.cid.toBytes, Name := some i.name, Tsize := some i.total }

theorem dirMsg_links (is : List Item) : (dirMsg is).links = is.map Item.toPB := rfl

theorem writeableCidWrite_eq (c : Cid) : writeableCidWrite c = c.toBytes := by
  unfold writeableCidWrite Cid.toBytes
  cases c.version <;> rfl

theorem writeableCidSize_eq (c : Cid) (h : c.Fits) : writeableCidSize c = c.toBytes.length := by
  unfold writeableCidSize Cid.toBytes
  cases c.version
  · rfl
  · simp only [List.length_append]
    rw [sizeofVarint_eq _ h.1]
    have : (encVarint 1).length = 1 := rfl
    omega

theorem Spec.Item.size_eq (i : Item) (h : i.cid.Fits) : i.toLeaf.getSize = i.toPB.getSize := by
  simp only [NamedLeaf.getSize, PBLink.getSize, Item.toLeaf, Item.toPB, optSize, writeableCidSize_eq _ h]
  omega

theorem Spec.Item.write_eq (i : Item) (h : i.cid.Fits) : i.toLeaf.write = i.toPB.write := by
  simp only [NamedLeaf.write, PBLink.write, Item.toLeaf, Item.toPB, wOpt, writeableCidSize_eq _ h, writeableCidWrite_eq,
    wMessage, wBytes]

theorem customWrite_eq (is : List Item) (h : ∀ i ∈ is, i.cid.Fits) :
    customWrite (is.map Item.toLeaf) directoryData = dirBlock is := by
  unfold customWrite dirBlock FlatUnixFs.write
  rw [dirMsg_links]
  congr 1
  induction is with
  | nil => rfl
  | cons i is ih =>
    simp only [List.map_cons, List.flatMap_cons]
    rw [ih (fun j hj => h j (by simp [hj])), i.size_eq (h i (by simp)), i.write_eq (h i (by simp))]

theorem customSize_eq (is : List Item) (h : ∀ i ∈ is, i.cid.Fits) :
    customSize (is.map Item.toLeaf) directoryData = (dirMsg is).getSize := by
  unfold customSize FlatUnixFs.getSize
  rw [dirMsg_links]
  have : ((is.map Item.toLeaf).map (fun l => 1 + sizeofLen l.getSize)).sum
      = ((is.map Item.toPB).map (fun l => 1 + sizeofLen l.getSize)).sum := by
    induction is with
    | nil => rfl
    | cons i is ih =>
      simp only [List.map_cons, List.sum_cons]
      rw [ih (fun j hj => h j (by simp [hj])), i.size_eq (h i (by simp))]
  rw [this]
  have : (dirMsg is).data = directoryData := rfl
  rw [this]; omega

/-- What a directory entry must satisfy for the encoding: a Rust `Cid` and `u64`, and a name shorter than 2^31 bytes. -/
def Spec.Item.Ok (i : Item) : Prop := i.cid.Fits ∧ i.total < U64 ∧ i.name.length < 2 ^ 31 ∧ validUtf8 i.name = true

theorem sizeofVarint_le (n : Nat) : sizeofVarint n ≤ 10 := by unfold sizeofVarint; repeat' split <;> try omega

theorem Spec.Item.Ok.fits {i : Item} (h : i.Ok) : i.toPB.Fits := by
  obtain ⟨h1, h2, h3, h4⟩ := h
  have hl := Cid.toBytes_length_le _ h1
  have e : (2 ^ 31 : Nat) = 2147483648 := rfl
  have e' : U32 = 4294967296 := rfl
  refine ⟨?_, ?_, ?_, ?_⟩
  · intro b hb; simp only [Item.toPB, Option.some.injEq] at hb; subst hb; omega
  · intro b hb; simp only [Item.toPB, Option.some.injEq] at hb; subst hb; exact ⟨by omega, h4⟩
  · intro b hb; simp only [Item.toPB, Option.some.injEq] at hb; subst hb; exact h2
  · simp only [PBLink.getSize, Item.toPB, optSize, sizeofLen]
    have a := sizeofVarint_le i.cid.toBytes.length
    have b := sizeofVarint_le i.name.length
    have c := sizeofVarint_le i.total
    omega

theorem dirMsg_fits {is : List Item} (h : ∀ i ∈ is, i.Ok) : (dirMsg is).Fits := by
  refine ⟨?_, ?_, ?_⟩
  · intro l hl
    rw [dirMsg_links] at hl
    obtain ⟨i, hi, rfl⟩ := List.mem_map.1 hl
    exact (h i hi).fits
  · show UnixFs.Fits { Ty := .Directory }; decide
  · show UnixFs.getSize { Ty := .Directory } < U32; decide

theorem customSize_length {is : List Item} (h : ∀ i ∈ is, i.Ok) :
    customSize (is.map Item.toLeaf) directoryData = (dirBlock is).length := by
  rw [customSize_eq is (fun i hi => (h i hi).1)]
  exact (dirMsg_fits h).len.symm

theorem unwrapAll_some (ls : List NamedLeaf) : unwrapAll (ls.map some) = some ls := by
  induction ls with
  | nil => rfl
  | cons l ls ih => simp [unwrapAll, ih]

/-- Rendering a directory whose links are all there: exactly the specified block, independent of the buffer. -/
theorem renderDirectory_eq (sha : Bytes → Bytes) {is : List Item} (h : ∀ i ∈ is, i.Ok) (buffer : Bytes) (limit : Option Nat) :
    renderDirectory sha ((is.map Item.toLeaf).map some) buffer limit =
      if ∃ l, limit = some l ∧ l < (dirBlock is).length then (.err (.TooLargeBlock (dirBlock is).length), buffer)
      else (if dirTotal is < U64 then .ok (cidOf sha (dirBlock is), dirTotal is) else .panic .iterOverflow, dirBlock is) := by
  unfold renderDirectory
  rw [unwrapAll_some]
  simp only [customSize_length h, customWrite_eq is (fun i hi => (h i hi).1)]
  have hsum : ((is.map Item.toLeaf).map (·.total_size)).sum = (is.map (·.total)).sum := by
    rw [List.map_map]; rfl
  have hrest : ((if (buffer ++ List.replicate ((dirBlock is).length - buffer.length) 0).length < (dirBlock is).length then
      (Res.err .Protobuf, buffer ++ List.replicate ((dirBlock is).length - buffer.length) 0)
    else (do let total ← add64 .iterOverflow ((dirBlock is ++ (buffer ++ List.replicate ((dirBlock is).length - buffer.length) 0).drop (dirBlock is).length).take (dirBlock is).length).length ((is.map Item.toLeaf).map (·.total_size)).sum
             .ok (cidOf sha ((dirBlock is ++ (buffer ++ List.replicate ((dirBlock is).length - buffer.length) 0).drop (dirBlock is).length).take (dirBlock is).length), total),
          (dirBlock is ++ (buffer ++ List.replicate ((dirBlock is).length - buffer.length) 0).drop (dirBlock is).length).take (dirBlock is).length))
      : Res TreeConstructionFailed (Cid × Nat) × Bytes) =
      (if dirTotal is < U64 then .ok (cidOf sha (dirBlock is), dirTotal is) else .panic .iterOverflow, dirBlock is) := by
    rw [if_neg (by simp only [List.length_append, List.length_replicate]; omega)]
    simp only [List.take_left, hsum, add64]
    unfold dirTotal
    split <;> rfl
  cases limit with
  | none =>
    simp only [exceedsLimit, Bool.false_eq_true, if_false, reduceCtorEq, false_and, exists_false]
    exact hrest
  | some l =>
    have he : (∃ l', some l = some l' ∧ l' < (dirBlock is).length) ↔ l < (dirBlock is).length := by simp
    simp only [exceedsLimit, he, decide_eq_true_eq]
    by_cases hl : l < (dirBlock is).length
    · rw [if_pos hl, if_pos hl]
    · rw [if_neg hl, if_neg hl]
      exact hrest

/-! ### paths -/

theorem joinSlash_append {cs : List Bytes} (h : cs ≠ []) (n : Bytes) : joinSlash (cs ++ [n]) = joinSlash cs ++ slash :: n := by
  induction cs with
  | nil => exact absurd rfl h
  | cons x cs ih =>
    cases cs with
    | nil => rfl
    | cons y cs =>
      have := ih (by simp)
      simp only [List.cons_append] at this ⊢
      simp only [joinSlash, this, List.append_assoc, List.cons_append]

theorem joinSlash_ne_nil {cs : List Bytes} (h : cs ≠ []) (hne : ∀ c ∈ cs, c ≠ []) : joinSlash cs ≠ [] := by
  cases cs with
  | nil => exact absurd rfl h
  | cons x cs =>
    have := hne x (by simp)
    cases cs with
    | nil => simpa [joinSlash] using this
    | cons y cs => simp [joinSlash]

theorem rposSlash_append (a n : Bytes) (hn : slash ∉ n) : rposSlash (a ++ slash :: n) = some a.length := by
  unfold rposSlash
  have : (a ++ slash :: n).reverse.findIdx? (· == slash) = some n.length := by
    rw [List.reverse_append, List.reverse_cons, List.append_assoc]
    rw [List.findIdx?_append, List.findIdx?_eq_none_iff.2 (by
      intro x hx
      rw [List.mem_reverse] at hx
      simp only [beq_eq_false_iff_ne, ne_eq]
      rintro rfl; exact hn hx)]
    simp [List.findIdx?_cons]
  rw [this]
  simp

/-- The pop loop, from a path with components `cs ++ more`: it pops down to `cs`, or stops early at `cs ++ [name]`. -/
theorem popPath_spec (cs : List Bytes) (hcs : cs ≠ []) (name : Bytes) : ∀ (k : Nat) (more : List Bytes), more.length = k →
    (∀ x ∈ more, slash ∉ x) →
    popPath (some name) (cs.length + 1) (cs ++ more).length (joinSlash (cs ++ more)) = .ok (joinSlash cs, cs.length, false) ∨
    popPath (some name) (cs.length + 1) (cs ++ more).length (joinSlash (cs ++ more)) =
      .ok (joinSlash (cs ++ [name]), cs.length + 1, true) := by
  intro k
  induction k with
  | zero =>
    intro more hk _
    have : more = [] := List.length_eq_zero_iff.1 hk
    subst this
    left
    rw [List.append_nil]
    obtain ⟨n, hn⟩ : ∃ n, cs.length = n + 1 := ⟨cs.length - 1, by have := List.length_pos_iff.2 hcs; omega⟩
    rw [hn]; unfold popPath
    rw [if_neg (by omega)]
  | succ k ih =>
    intro more hk hm
    obtain ⟨ys, y, rfl⟩ : ∃ ys y, more = ys ++ [y] := by
      refine ⟨more.dropLast, more.getLast (by intro h; simp [h] at hk), (List.dropLast_concat_getLast _).symm⟩
    simp only [List.length_append, List.length_singleton] at hk
    have hys : ys.length = k := by omega
    have hy : slash ∉ y := hm y (by simp)
    rw [← List.append_assoc]
    have hne : cs ++ ys ≠ [] := by simp [hcs]
    rw [List.length_append (as := cs ++ ys), List.length_singleton, joinSlash_append hne]
    unfold popPath
    rw [if_pos (by simp only [List.length_append]; omega), rposSlash_append _ _ hy]
    simp only
    by_cases he : (cs ++ ys).length + 1 = cs.length + 1 ∧ some ((joinSlash (cs ++ ys) ++ slash :: y).drop ((joinSlash (cs ++ ys)).length + 1)) = some name
    · rw [if_pos he]
      right
      obtain ⟨h1, h2⟩ := he
      simp only [List.length_append] at h1
      have : ys = [] := List.length_eq_zero_iff.1 (by omega)
      subst this
      simp only [List.append_nil] at h2 ⊢
      rw [List.drop_append, List.drop_eq_nil_of_le (by omega)] at h2
      simp only [Nat.add_sub_cancel_left, List.drop_succ_cons, List.drop_zero, List.nil_append, Option.some.injEq] at h2
      rw [h2, joinSlash_append hcs]
    · rw [if_neg he, List.take_left]
      exact ih ys hys (fun x hx => hm x (by simp [hx]))

/-- `update_full_path` sets the path to the item's own, when the current path is anywhere below the item's parent. -/
theorem updateFullPath_spec (cs more : List Bytes) (name : Bytes) (hne : ∀ c ∈ cs, c ≠ [])
    (hm : ∀ x ∈ more, slash ∉ x) :
    updateFullPath (joinSlash (cs ++ more)) (cs ++ more).length (some name) (cs.length + 1) =
      .ok (joinSlash (cs ++ [name]), cs.length + 1) := by
  unfold updateFullPath
  by_cases hd : cs = []
  · subst hd
    rw [if_pos (by simp)]
    simp [pushName, joinSlash]
  · have hl := List.length_pos_iff.2 hd
    rw [if_neg (by omega)]
    rcases popPath_spec cs hd name _ more rfl hm with h | h
    · rw [h]
      simp only [pushName]
      rw [if_neg (by omega), if_pos (joinSlash_ne_nil hd hne)]
      simp only [ne_eq, not_true, if_false]
      rw [joinSlash_append hd]
      simp
    · rw [h]

theorem updateFullPath_root (fp : Bytes) (d : Nat) : updateFullPath fp d none 0 = .ok ([], 0) := by
  simp [updateFullPath, pushName]

end Verif
