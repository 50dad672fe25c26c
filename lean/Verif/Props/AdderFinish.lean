import Verif.Props.AdderExact
/-
Property C85: when `finish` returns no blocks.
-/
namespace Verif.Props
open Verif Verif.Spec

theorem finishT_nil {bf : Nat} (hbf : 0 < bf) (k : Nat) {A B : List FTree} (hB : B ≠ []) :
    finishT bf (k + 1) A B = [] ↔ A.length + B.length = 1 := by
  rw [finishT]
  by_cases h : A.length + B.length = 1
  · rw [if_pos h]; exact ⟨fun _ => h, fun _ => rfl⟩
  · rw [if_neg h]
    have := groups_ne_nil hbf hB
    simp [h, this]

/-- What is left to emit when everything was pushed. -/
theorem treesOf_rest {bf c : Nat} (hbf : 0 < bf) (hc : 0 < c) (ds : List Bytes) (hfull : ∀ d ∈ ds, d.length = c)
    (y : Bytes) (hy : y.length < c) :
    ∃ R, treesOf bf c (ds.flatten ++ y) = (runT bf ds).2 ++ R ∧ (R = [] ↔ ds.length = 1 ∧ y = []) := by
  have hgr := groups_append_full hc ds hfull y
  by_cases hbuf : y = [] ∧ ds ≠ []
  · obtain ⟨rfl, hds⟩ := hbuf
    have hne : ds.flatten ++ [] ≠ [] := by
      intro h
      obtain ⟨d, ds', rfl⟩ := List.exists_cons_of_ne_nil hds
      have := hfull d (by simp)
      have h2 := congrArg List.length h
      simp only [List.flatten_cons, List.length_append, List.length_nil] at h2
      omega
    obtain ⟨ds0, d, rfl⟩ : ∃ x y, ds = x ++ [y] := ⟨ds.dropLast, ds.getLast hds, (List.dropLast_concat_getLast hds).symm⟩
    have rinv := runT_inv hbf (ds0 ++ [d])
    have hRne := rinv.ne hds
    refine ⟨finishT bf ((runT bf ds0).1.1.length + (runT bf ds0).1.2.length + 1)
      (runT bf (ds0 ++ [d])).1.1 (runT bf (ds0 ++ [d])).1.2, ?_, ?_⟩
    · rw [← emission_flushed hbf]
      unfold treesOf chunks
      rw [if_neg hne, hgr, groups_nil, List.append_nil]
      simp
    · rw [finishT_nil hbf _ hRne]
      have h1 := rinv.full
      have h2 := rinv.len
      have hp := List.length_pos_iff.2 hRne
      constructor
      · intro h
        have hA : (runT bf (ds0 ++ [d])).1.1.length = 0 := by omega
        rw [hA] at h h1
        exact ⟨by omega, rfl⟩
      · rintro ⟨h, -⟩
        rw [h] at h1
        cases hA : (runT bf (ds0 ++ [d])).1.1.length with
        | zero => rw [hA] at h1; omega
        | succ n => rw [hA, Nat.mul_add, Nat.mul_one] at h1; omega
  · have htr : treesOf bf c (ds.flatten ++ y) = emission bf ds y := by
      unfold treesOf chunks
      by_cases he : y = []
      · have hds : ds = [] := Decidable.byContradiction fun h => hbuf ⟨he, h⟩
        subst hds; rw [he]; rfl
      · rw [if_neg (by simp [he]), hgr]
        have : groups c y = [y] := by
          rw [groups_cons hc he, List.take_of_length_le (by omega), List.drop_of_length_le (by omega)]; rfl
        rw [this]; simp
    refine ⟨_, by rw [htr, emission, List.append_assoc], ?_⟩
    constructor
    · intro h; simp at h
    · rintro ⟨h, rfl⟩
      exact absurd ⟨rfl, by intro h'; rw [h'] at h; simp at h⟩ hbuf

/-- C85. `finish` returns no block at all exactly when the content is as long as one chunk: then the only block was returned by
a push. For contents of every other length its last block is the root. -/
theorem C85_finish_empty (sha : Bytes → Bytes) (c bf : Nat) (hc : 0 < c) (hbf : 0 < bf) (x : Bytes) (bs bs' : List (Cid × Bytes))
    (a : FileAdder) (h : Reaches sha c bf x bs a) (hf : a.finish sha = some (.ok bs')) : bs' = [] ↔ x.length = c := by
  obtain ⟨ds, inv, h1, h2, -⟩ := reaches_inv hc hbf h
  have hs := inv.small
  have hxl : x.length = c * ds.length + a.block_buffer.length := by
    rw [h1, List.length_append, flatten_full ds inv.full]
  obtain ⟨hb, -, -⟩ := adds_trees hc hbf (⟨bs, a, bs', h, hf, rfl⟩ : Adds sha c bf x (bs ++ bs'))
  obtain ⟨R, e1, e2⟩ := treesOf_rest hbf hc ds inv.full _ hs
  rw [h1, e1, h2, List.map_append] at hb
  have hb := List.append_cancel_left hb
  rw [hb, List.map_eq_nil_iff, e2, hxl]
  constructor
  · rintro ⟨h, h'⟩; rw [h, h']; simp
  · intro h
    cases hd : ds.length with
    | zero => rw [hd] at h; omega
    | succ n =>
      rw [hd, Nat.mul_add, Nat.mul_one] at h
      cases n with
      | zero => exact ⟨rfl, List.length_eq_zero_iff.1 (by omega)⟩
      | succ n => rw [Nat.mul_add, Nat.mul_one] at h; omega

/-- C85. With exactly one chunk pushed, `finish` always returns, and returns nothing: the pushes returned the one block there is. -/
theorem C85_one_chunk (sha : Bytes → Bytes) (c bf : Nat) (hc : 0 < c) (hbf : 0 < bf) (x : Bytes) (bs : List (Cid × Bytes))
    (a : FileAdder) (h : Reaches sha c bf x bs a) (hx : x.length = c) :
    a.finish sha = some (.ok []) ∧ ∃ b, bs = [(cidOf sha b, b)] := by
  have hch : chunks c x = [x] := by
    have hne : x ≠ [] := by intro h; rw [h] at hx; simp at hx; omega
    rw [chunks, if_neg hne, groups_cons hc hne, List.take_of_length_le (by omega), List.drop_of_length_le (by omega)]; rfl
  obtain ⟨bs', hf⟩ := (C10_finish_exact_partial sha c bf hc hbf x bs a h).2
    ⟨.leaf x, by rw [BalancedTree, hch]; exact .one _, by intro ts h; cases h⟩
  have he := (C85_finish_empty sha c bf hc hbf x bs bs' a h hf).2 hx
  subst he
  refine ⟨hf, ?_⟩
  obtain ⟨T, h1, h2, h3⟩ := C12_tree sha c bf hc hbf x _ ⟨bs, a, [], h, hf, rfl⟩
  rw [List.append_nil] at h2 h3
  obtain ⟨hb, -, -⟩ := adds_trees hc hbf (⟨bs, a, [], h, hf, rfl⟩ : Adds sha c bf x (bs ++ []))
  rw [List.append_nil] at hb
  have : treesOf bf c x = [FTree.leaf x] := by
    unfold treesOf
    rw [hch]
    rfl
  rw [this] at hb
  exact ⟨_, hb⟩

/-- C85. When `finish` returns blocks, the last of them is the root: the block from which the whole content hangs. -/
theorem C85_root_last (sha : Bytes → Bytes) (c bf : Nat) (hc : 0 < c) (hbf : 0 < bf) (x : Bytes) (bs bs' : List (Cid × Bytes))
    (a : FileAdder) (h : Reaches sha c bf x bs a) (hf : a.finish sha = some (.ok bs')) (hx : x.length ≠ c) :
    ∃ T : FTree, T.content = x ∧ bs'.getLast? = some (T.entry sha) ∧ (bs ++ bs').Perm (T.nodes.map (FTree.entry sha)) := by
  obtain ⟨T, h1, h2, h3⟩ := C12_tree sha c bf hc hbf x _ ⟨bs, a, bs', h, hf, rfl⟩
  refine ⟨T, h1, ?_, h3⟩
  have hne : bs' ≠ [] := fun he => hx ((C85_finish_empty sha c bf hc hbf x bs bs' a h hf).1 he)
  rw [List.getLast?_append] at h2
  obtain ⟨b, hb⟩ : ∃ b, bs'.getLast? = some b := ⟨_, List.getLast?_eq_some_getLast hne⟩
  rw [hb] at h2 ⊢
  exact h2

/-- What a client which takes the root from the blocks of `finish` relies on: that there is a block. -/
def C85_expected : Prop := ∀ (sha : Bytes → Bytes), (∀ b, (sha b).length = 32) → ∀ (c bf : Nat), 0 < c → 0 < bf →
  ∀ (x : Bytes) (bs bs' : List (Cid × Bytes)) (a : FileAdder), Reaches sha c bf x bs a → a.finish sha = some (.ok bs') → bs' ≠ []

/-- C85. That is not so. -/
theorem C85_expected_false : ¬ C85_expected := by
  intro hc
  obtain ⟨bs, a, h⟩ := reaches_exists toySha_length (c := 3) (bf := 2) (by decide) (by decide) [1, 2, 3] (by decide)
  exact hc toySha toySha_length 3 2 (by decide) (by decide) _ _ _ _ h
    (C85_one_chunk toySha 3 2 (by decide) (by decide) _ _ _ h rfl).1 rfl

/-- C85 is not vacuous: contents of every length can be pushed, and finished. -/
example : ∃ bs a bs', Reaches toySha 3 2 [1, 2, 3, 4] bs a ∧ a.finish toySha = some (.ok bs') ∧ bs' ≠ [] := by
  obtain ⟨bs, a, h⟩ := reaches_exists toySha_length (c := 3) (bf := 2) (by decide) (by decide) [1, 2, 3, 4] (by decide)
  obtain ⟨bs', hf⟩ := (C10_finish_iff_partial toySha toySha_length 3 2 (by decide) (by decide) _ _ _ h (by decide)).2 (.inl (by decide))
  exact ⟨bs, a, bs', h, hf, fun he => absurd ((C85_finish_empty _ 3 2 (by decide) (by decide) _ _ _ _ h hf).1 he) (by decide)⟩

end Verif.Props
