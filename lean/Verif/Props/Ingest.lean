import Verif.Spec.Archives
import Verif.Props.Reported
import Verif.Props.Orders
import Verif.Props.AddExample
import Verif.Props.AdderFinish
/-
C86: what `benches/ingest-tar.rs` makes of an archive.
-/
namespace Verif.Props
open Verif Verif.Spec Verif.Ingest

/-! ### files -/

theorem bytesRead_eq : ∀ reads : List Bytes, bytesRead reads = inputOf reads
  | [] => rfl
  | [] :: _ => rfl
  | (b :: x) :: rest => by rw [bytesRead, inputOf, bytesRead_eq rest]

theorem lengths_append (a b : Saved) : lengths (a ++ b) = lengths a + lengths b := by simp [lengths]

/-- Pushing more and more. -/
theorem reaches_extend {sha : Bytes → Bytes} (hsha : ∀ b, (sha b).length = 32) :
    ∀ (n : Nat) (x : Bytes), x.length ≤ n → ∀ (y : Bytes) (bs : Saved) (a : FileAdder), Reaches sha 262144 174 y bs a →
      ∃ bs' a', Reaches sha 262144 174 (y ++ x) (bs ++ bs') a' := by
  intro n
  induction n with
  | zero =>
    intro x hx y bs a h
    have : x = [] := List.length_eq_zero_iff.1 (by omega)
    subst this
    exact ⟨[], a, by rw [List.append_nil, List.append_nil]; exact h⟩
  | succ n ih =>
    intro x hx y bs a h
    by_cases he : x = []
    · subst he
      exact ⟨[], a, by rw [List.append_nil, List.append_nil]; exact h⟩
    · obtain ⟨⟨a1, bs1, k⟩, hp⟩ := C09_push_no_panic_partial sha hsha 262144 174 (by decide) (by decide) (by decide) y bs a h x
      obtain ⟨h1, -, h2⟩ := C07_push_progress sha 262144 174 (by decide) y bs a h x a1 bs1 k hp
      have h2 := h2 he
      obtain ⟨bs', a', q⟩ := ih (x.drop k) (by rw [List.length_drop]; omega) _ _ _ (Reaches.push x h hp)
      rw [List.append_assoc, List.take_append_drop, List.append_assoc] at q
      exact ⟨_, _, q⟩

/-- The size of everything added is below 2^64. -/
theorem adds_lengths {sha : Bytes → Bytes} {x : Bytes} {blocks : Saved} (h : Adds sha 262144 174 x blocks) : lengths blocks < U64 := by
  obtain ⟨T, h1, h2, h3, -⟩ := C70_tree sha 262144 174 (by decide) (by decide) x blocks h
  have hs : lengths blocks = T.total sha := by
    have := (h3.map (fun e : Cid × Bytes => e.2.length)).sum_nat
    rw [List.map_map] at this
    exact this
  rw [hs]
  cases T with
  | node ts => exact h2 ts rfl
  | leaf d =>
    have hl := (C70_leaves 262144 174 (by decide) (by decide) x _ h1).1
    have hd : d.length ≤ 262144 := by
      have : d ∈ chunks 262144 x := by rw [← hl]; simp [FTree.leaves]
      exact ((C15_chunks 262144 (by decide) x).2.2.1 d this).1
    have := leafMsg_length_le d
    have e : (FTree.leaf d).total sha = (FTree.leafMsg d).write.length := by
      simp [FTree.total, FTree.nodes, FTree.block, FTree.info, FTree.leafInfo]
    rw [e]; show _ < 2 ^ 64; omega

/-- Nothing returned on the way to a tree which fits is too much. -/
theorem reaches_lengths {sha : Bytes → Bytes} (hsha : ∀ b, (sha b).length = 32) {y w : Bytes} {bs : Saved} {a : FileAdder}
    (h : Reaches sha 262144 174 y bs a) {T : FTree} (ht : BalancedTree 262144 174 (y ++ w) T) (hf : Fits sha T) : lengths bs < U64 := by
  obtain ⟨bs', a', h1⟩ := reaches_extend hsha _ w (Nat.le_refl _) y bs a h
  obtain ⟨bs2, h2⟩ := (C10_finish_exact_partial sha 262144 174 (by decide) (by decide) _ _ _ h1).2 ⟨T, ht, hf⟩
  have h3 := adds_lengths ⟨_, a', bs2, h1, h2, rfl⟩
  rw [lengths_append, lengths_append] at h3
  omega

theorem pushAll_cases {sha : Bytes → Bytes} (hsha : ∀ b, (sha b).length = 32) :
    ∀ (n : Nat) (x : Bytes), x.length ≤ n → ∀ (y : Bytes) (bs : Saved) (a : FileAdder), Reaches sha 262144 174 y bs a →
      (∃ bs' a', Reaches sha 262144 174 (y ++ x) bs' a' ∧
        pushAll sha a (lengths bs) bs x = some (.ok (a', lengths bs', bs'))) ∨
      (pushAll sha a (lengths bs) bs x = some (.panic .ingestOverflow) ∧
        ∃ z w bs' a', y ++ x = z ++ w ∧ Reaches sha 262144 174 z bs' a' ∧ U64 ≤ lengths bs') := by
  intro n
  have base : ∀ (y : Bytes) (bs : Saved) (a : FileAdder), Reaches sha 262144 174 y bs a → ∃ bs' a', Reaches sha 262144 174 (y ++ []) bs' a' ∧
        pushAll sha a (lengths bs) bs [] = some (.ok (a', lengths bs', bs')) := by
    intro y bs a h
    exact ⟨bs, a, by rw [List.append_nil]; exact h, by rw [pushAll.eq_1, if_pos rfl]⟩
  induction n with
  | zero =>
    intro x hx y bs a h
    have : x = [] := List.length_eq_zero_iff.1 (by omega)
    subst this
    exact .inl (base y bs a h)
  | succ n ih =>
    intro x hx y bs a h
    by_cases he : x = []
    · subst he; exact .inl (base y bs a h)
    · obtain ⟨⟨a1, bs1, k⟩, hp⟩ := C09_push_no_panic_partial sha hsha 262144 174 (by decide) (by decide) (by decide) y bs a h x
      obtain ⟨h1, -, h2⟩ := C07_push_progress sha 262144 174 (by decide) y bs a h x a1 bs1 k hp
      have h2 := h2 he
      have h3 := Reaches.push x h hp
      rw [pushAll.eq_1, if_neg he]
      simp only [hp]
      rw [← lengths_append]
      by_cases ho : U64 ≤ lengths (bs ++ bs1)
      · rw [if_pos ho]
        exact .inr ⟨rfl, y ++ x.take k, x.drop k, _, _, by rw [List.append_assoc, List.take_append_drop], h3, ho⟩
      · rw [if_neg ho]
        have := ih (x.drop k) (by rw [List.length_drop]; omega) _ _ _ h3
        rw [List.append_assoc, List.take_append_drop] at this
        exact this

/-- How reading a file with the content `x` to its end goes. -/
def ReadEnds (sha : Bytes → Bytes) (x : Bytes) (r : Run (Cid × Nat × Saved)) : Prop :=
  ∀ T, BalancedTree 262144 174 x T →
    (Fits sha T → x.length ≠ 262144 → ∃ blocks root, Adds sha 262144 174 x blocks ∧ blocks.getLast? = some root ∧
      r = some (.ok (root.1, lengths blocks, blocks))) ∧
    (Fits sha T → x.length = 262144 → r = some (.panic .ingestNoBlocks)) ∧
    (¬ Fits sha T → r = some (.panic .adderOverflow) ∨ r = some (.panic .ingestOverflow))

/-- Reading a file to its end. -/
theorem readAll_cases {sha : Bytes → Bytes} (hsha : ∀ b, (sha b).length = 32) : ∀ (reads : List Bytes) (y : Bytes) (bs : Saved)
    (a : FileAdder), Reaches sha 262144 174 y bs a → ReadEnds sha (y ++ bytesRead reads) (readAll sha a (lengths bs) bs reads) := by
  intro reads
  have base : ∀ (y : Bytes) (bs : Saved) (a : FileAdder), Reaches sha 262144 174 y bs a →
      ∀ r : Run (Cid × Nat × Saved), r = (match a.finish sha with
        | none => none
        | some (.err e) => some (.err e)
        | some (.panic p) => some (.panic p)
        | some (.ok blocks) =>
          match blocks.getLast? with
          | none => some (.panic .ingestNoBlocks)
          | some (cid, _) =>
            if U64 ≤ lengths bs + lengths blocks then some (.panic .ingestOverflow)
            else some (.ok (cid, lengths bs + lengths blocks, bs ++ blocks))) → ReadEnds sha (y ++ []) r := by
    intro y bs a h r hr T ht
    rw [List.append_nil] at ht ⊢
    refine ⟨fun hf hx => ?_, fun hf hx => ?_, fun hf => ?_⟩
    · obtain ⟨bs', h3⟩ := (C10_finish_exact_partial sha 262144 174 (by decide) (by decide) _ _ _ h).2 ⟨T, ht, hf⟩
      have ha : Adds sha 262144 174 y (bs ++ bs') := ⟨bs, a, bs', h, h3, rfl⟩
      have hlen := adds_lengths ha
      obtain ⟨U, -, hroot, -⟩ := C85_root_last sha 262144 174 (by decide) (by decide) _ _ _ _ h h3 hx
      refine ⟨_, U.entry sha, ha, by rw [List.getLast?_append, hroot]; rfl, ?_⟩
      rw [lengths_append] at hlen ⊢
      rw [hr, h3]
      simp only [hroot]
      rw [if_neg (by omega)]
    · rw [hr, (C85_one_chunk sha 262144 174 (by decide) (by decide) _ _ _ h hx).1]
      rfl
    · have h3 := (C10_finish_overflow_partial sha 262144 174 (by decide) (by decide) _ _ _ h).2 ⟨T, ht, hf⟩
      rw [hr, h3]
      exact .inl rfl
  induction reads with
  | nil => intro y bs a h; exact base y bs a h _ rfl
  | cons x rest ih =>
    intro y bs a h
    cases x with
    | nil => exact base y bs a h _ rfl
    | cons b x =>
      have e : y ++ bytesRead ((b :: x) :: rest) = y ++ b :: x ++ bytesRead rest := by simp [bytesRead]
      rw [e]
      have hr : readAll sha a (lengths bs) bs ((b :: x) :: rest) = (match pushAll sha a (lengths bs) bs (b :: x) with
        | none => none
        | some (.err e) => some (.err e)
        | some (.panic p) => some (.panic p)
        | some (.ok (adder, total_written, saved)) => readAll sha adder total_written saved rest) := rfl
      rcases pushAll_cases hsha _ (b :: x) (Nat.le_refl _) y bs a h with ⟨bs', a', h1, h2⟩ | ⟨h1, z, w, bs', a', h2, h3, h4⟩
      · rw [hr, h2]
        exact ih _ _ _ h1
      · rw [hr, h1]
        intro T ht
        have hnf : ¬ Fits sha T := by
          intro hf
          rw [h2, List.append_assoc] at ht
          have := reaches_lengths hsha h3 ht hf
          omega
        exact ⟨fun hf => absurd hf hnf, fun hf => absurd hf hnf, fun _ => .inr rfl⟩

/-- The same from the start. -/
theorem readAll_start {sha : Bytes → Bytes} (hsha : ∀ b, (sha b).length = 32) (reads : List Bytes) :
    ReadEnds sha (bytesRead reads) (readAll sha .default 0 [] reads) :=
  readAll_cases hsha reads [] [] FileAdder.default .start

end Verif.Props
