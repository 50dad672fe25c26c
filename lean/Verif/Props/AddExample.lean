import Verif.Examples
import Verif.Props.AdderExact
/-
Property C74: what `examples/add.rs` prints.
-/
namespace Verif.Props
open Verif Verif.Spec Verif.Examples

/-- The bytes read: everything before the first empty read. -/
def inputOf : List Bytes → Bytes
  | [] | [] :: _ => []
  | (b :: x) :: rest => b :: x ++ inputOf rest

/-- The default adder is the one with chunks of 256 KiB and 174 links in a block. -/
theorem default_adder : FileAdder.default = newAdder 262144 174 := rfl

theorem stats_process (s : Stats) (bs : List (Cid × Bytes)) :
    s.process bs = ⟨s.blocks + bs.length, s.block_bytes + (bs.map (·.2.length)).sum, (bs.getLast?.map (·.1)).or s.last⟩ := by
  induction bs generalizing s with
  | nil => simp [Stats.process]
  | cons e t ih =>
    show Stats.process ⟨s.blocks + 1, s.block_bytes + e.2.length, some e.1⟩ t = _
    rw [ih]
    simp only [Stats.mk.injEq, List.length_cons, List.map_cons, List.sum_cons, List.getLast?_cons]
    refine ⟨by omega, by omega, ?_⟩
    cases t.getLast? <;> rfl

/-- The statistics of a list of blocks. -/
def statsOf (bs : List (Cid × Bytes)) : Stats := ⟨bs.length, (bs.map (·.2.length)).sum, bs.getLast?.map (·.1)⟩

theorem statsOf_process (bs bs' : List (Cid × Bytes)) : (statsOf bs).process bs' = statsOf (bs ++ bs') := by
  rw [stats_process]
  simp only [statsOf, Stats.mk.injEq, List.length_append, List.map_append, List.sum_append, List.getLast?_append]
  refine ⟨trivial, trivial, ?_⟩
  cases bs'.getLast? <;> cases bs.getLast? <;> rfl

theorem addBuffer_ok {sha : Bytes → Bytes} (hsha : ∀ b, (sha b).length = 32) :
    ∀ (n : Nat) (x : Bytes), x.length ≤ n → ∀ (y : Bytes) (bs : List (Cid × Bytes)) (a : FileAdder),
      Reaches sha 262144 174 y bs a →
      ∃ bs' a', Reaches sha 262144 174 (y ++ x) bs' a' ∧
        addBuffer sha ⟨a, statsOf bs, y.length⟩ x = some (.ok ⟨a', statsOf bs', (y ++ x).length⟩) := by
  intro n
  induction n with
  | zero =>
    intro x hx y bs a h
    have : x = [] := List.length_eq_zero_iff.1 (by omega)
    subst this
    refine ⟨bs, a, by rw [List.append_nil]; exact h, ?_⟩
    rw [addBuffer.eq_1, if_pos rfl, List.append_nil]
  | succ n ih =>
    intro x hx y bs a h
    by_cases he : x = []
    · subst he
      refine ⟨bs, a, by rw [List.append_nil]; exact h, ?_⟩
      rw [addBuffer.eq_1, if_pos rfl, List.append_nil]
    · obtain ⟨⟨a1, bs1, k⟩, hp⟩ := C09_push_no_panic_partial sha hsha 262144 174 (by decide) (by decide) (by decide) y bs a h x
      obtain ⟨h1, -, h2⟩ := C07_push_progress sha 262144 174 (by decide) y bs a h x a1 bs1 k hp
      have h2 := h2 he
      have h3 := Reaches.push x h hp
      have hl : (y ++ x.take k).length = y.length + k := by
        rw [List.length_append, List.length_take]; omega
      obtain ⟨bs', a', q1, q2⟩ := ih (x.drop k) (by rw [List.length_drop]; omega) _ _ _ h3
      rw [List.append_assoc, List.take_append_drop] at q1 q2
      refine ⟨bs', a', q1, ?_⟩
      rw [addBuffer.eq_1, if_neg he]
      simp only [hp]
      rw [if_neg (by omega), statsOf_process, ← hl]
      exact q2

theorem addLoop_eq {sha : Bytes → Bytes} (hsha : ∀ b, (sha b).length = 32) : ∀ (reads : List Bytes) (y : Bytes)
    (bs : List (Cid × Bytes)) (a : FileAdder), Reaches sha 262144 174 y bs a →
      ∃ bs' a', Reaches sha 262144 174 (y ++ inputOf reads) bs' a' ∧
        addLoop sha ⟨a, statsOf bs, y.length⟩ reads =
          (match a'.finish sha with
          | none => none
          | some (.err e) => some (.err e)
          | some (.panic p) => some (.panic p)
          | some (.ok blocks) => some (.ok (statsOf (bs' ++ blocks), (y ++ inputOf reads).length))) := by
  intro reads
  have base : ∀ (y : Bytes) (bs : List (Cid × Bytes)) (a : FileAdder), Reaches sha 262144 174 y bs a →
      ∃ bs' a', Reaches sha 262144 174 (y ++ []) bs' a' ∧
        (match a.finish sha with
          | none => none
          | some (.err e) => some (.err e)
          | some (.panic p) => some (.panic p)
          | some (.ok blocks) => some (.ok ((statsOf bs).process blocks, y.length)) : Run (Stats × Nat)) =
          (match a'.finish sha with
          | none => none
          | some (.err e) => some (.err e)
          | some (.panic p) => some (.panic p)
          | some (.ok blocks) => some (.ok (statsOf (bs' ++ blocks), (y ++ []).length))) := by
    intro y bs a h
    refine ⟨bs, a, by rw [List.append_nil]; exact h, ?_⟩
    rw [List.append_nil]
    simp only [statsOf_process]
  induction reads with
  | nil => intro y bs a h; exact base y bs a h
  | cons x rest ih =>
    intro y bs a h
    cases x with
    | nil => exact base y bs a h
    | cons b x =>
      obtain ⟨bs1, a1, h1, h2⟩ := addBuffer_ok hsha _ (b :: x) (Nat.le_refl _) y bs a h
      obtain ⟨bs2, a2, h3, h4⟩ := ih _ _ _ h1
      have e : y ++ inputOf ((b :: x) :: rest) = y ++ b :: x ++ inputOf rest := by
        simp [inputOf]
      rw [e]
      refine ⟨bs2, a2, h3, ?_⟩
      show (match addBuffer sha ⟨a, statsOf bs, y.length⟩ (b :: x) with
        | none => none
        | some (.err e) => some (.err e)
        | some (.panic p) => some (.panic p)
        | some (.ok s) => addLoop sha s rest : Run (Stats × Nat)) = _
      rw [h2]
      exact h4

/-- C74. Whatever the sizes of the reads, the example adds the bytes read with the default configuration and prints the number of
blocks, the sum of their lengths, the Cid of the root (twice, since it is a v1 Cid already) and the number of bytes read; or, if the
size of the tree does not fit into 64 bits, it panics on the arithmetic overflow of the library. -/
theorem C74_add (sha : Bytes → Bytes) (hsha : ∀ b, (sha b).length = 32) (reads : List Bytes) :
    ∃ T, BalancedTree 262144 174 (inputOf reads) T ∧
      ((Fits sha T ∧ ∃ blocks root, Adds sha 262144 174 (inputOf reads) blocks ∧ blocks.getLast? = some root ∧
          addMain sha reads = some (.ok ((blocks.length, (blocks.map (·.2.length)).sum, root.1, root.1), (inputOf reads).length))) ∨
       (¬ Fits sha T ∧ addMain sha reads = some (.panic .adderOverflow))) := by
  obtain ⟨bs, a, h1, h2⟩ := addLoop_eq hsha reads [] [] _ .start
  rw [List.nil_append] at h1 h2
  obtain ⟨T, ht, -⟩ := C07_feed_exact sha 262144 174 (by decide) (by decide) (fun _ => 1) (inputOf reads)
  refine ⟨T, ht, ?_⟩
  by_cases hf : Fits sha T
  · refine .inl ⟨hf, ?_⟩
    obtain ⟨bs', h3⟩ := (C10_finish_exact_partial sha 262144 174 (by decide) (by decide) _ _ _ h1).2 ⟨T, ht, hf⟩
    have ha : Adds sha 262144 174 (inputOf reads) (bs ++ bs') := ⟨bs, a, bs', h1, h3, rfl⟩
    obtain ⟨T', -, hl, -⟩ := C12_tree sha 262144 174 (by decide) (by decide) _ _ ha
    have hc := C14_adder_cids sha 262144 174 (by decide) (by decide) _ _ ha _ (List.mem_of_getLast? hl)
    refine ⟨_, _, ha, hl, ?_⟩
    rw [addMain]
    have : addLoop sha ⟨FileAdder.default, {}, 0⟩ reads = _ := h2
    rw [this, h3]
    simp only [statsOf, hl, Stats.printed, Option.map_some]
    rw [hc]
  · refine .inr ⟨hf, ?_⟩
    have h3 := (C10_finish_overflow_partial sha 262144 174 (by decide) (by decide) _ _ _ h1).2 ⟨T, ht, hf⟩
    rw [addMain]
    have : addLoop sha ⟨FileAdder.default, {}, 0⟩ reads = _ := h2
    rw [this, h3]

/-- C74, inputs below 2^50 bytes: the blocks exist. -/
theorem C74_add_succeeds (sha : Bytes → Bytes) (hsha : ∀ b, (sha b).length = 32) (reads : List Bytes)
    (hx : (inputOf reads).length < maxContent) :
    ∃ blocks root, Adds sha 262144 174 (inputOf reads) blocks ∧ blocks.getLast? = some root ∧
      addMain sha reads = some (.ok ((blocks.length, (blocks.map (·.2.length)).sum, root.1, root.1), (inputOf reads).length)) := by
  obtain ⟨T, h1, h | h⟩ := C74_add sha hsha reads
  · exact h.2
  · obtain ⟨T', h2, h3⟩ := (adds_iff (sha := sha) (c := 262144) (bf := 174) (by decide) (by decide) (inputOf reads)).1
      ⟨_, adds_exists hsha (by decide) (by decide) _ hx⟩
    obtain rfl := layered_unique h1 h2
    exact absurd h3 h.1

/-- C74: only the bytes read matter, not how they were split up. -/
theorem C74_splitting (sha : Bytes → Bytes) (hsha : ∀ b, (sha b).length = 32) (reads reads' : List Bytes)
    (h : inputOf reads = inputOf reads') : addMain sha reads = addMain sha reads' := by
  obtain ⟨T, h1, h2⟩ := C74_add sha hsha reads
  obtain ⟨T', h3, h4⟩ := C74_add sha hsha reads'
  rw [h] at h1 h2
  obtain rfl := layered_unique h1 h3
  rcases h2 with ⟨h5, b, r, q1, q2, q3⟩ | ⟨h5, q3⟩
  · rcases h4 with ⟨-, b', r', q4, q5, q6⟩ | ⟨h6, -⟩
    · obtain rfl := C11_segmentation sha 262144 174 (by decide) (by decide) _ _ _ q1 q4
      rw [q2] at q5
      cases q5
      rw [q3, q6]
    · exact absurd h5 h6
  · rcases h4 with ⟨h6, -⟩ | ⟨-, q6⟩
    · exact absurd h6 h5
    · rw [q3, q6]

/-- Three reads and the end of the input. -/
example : inputOf [[1, 2], [3], [4, 5, 6], []] = [1, 2, 3, 4, 5, 6] := rfl

end Verif.Props
