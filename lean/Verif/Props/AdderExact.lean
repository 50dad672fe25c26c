import Verif.Props.AdderMore
/-
Property C70: which tree the adder builds, and for which contents it succeeds, exactly.

`BalancedTree c bf x T` (Spec/Balanced.lean): `T` is obtained by putting link blocks of `bf` children each over the chunks of
`x`, then over these link blocks and so on, until one is left. `Fits sha T`: the sum of the lengths of all blocks of `T` is less
than 2^64, or `T` is a single leaf.
-/
namespace Verif.Props
open Verif Verif.Spec

/-- There is at most one balanced tree. -/
theorem C70_unique (c bf : Nat) (x : Bytes) (T U : FTree) (h : BalancedTree c bf x T) (g : BalancedTree c bf x U) : T = U :=
  layered_unique h g

/-- There is one, unless the branching factor is one and there is more than one chunk. -/
theorem C70_exists (c bf : Nat) (hc : 0 < c) (hbf : 0 < bf) (x : Bytes) :
    (∃ T, BalancedTree c bf x T) ↔ 2 ≤ bf ∨ (chunks c x).length = 1 := by
  constructor
  · rintro ⟨T, h⟩
    by_cases hb : 2 ≤ bf
    · exact .inl hb
    · have : bf = 1 := by omega
      subst this
      exact .inr (by simpa using layered_one h)
  · rintro (h | h)
    · obtain ⟨T, h1, -⟩ := treesOf_layered hc h x
      exact ⟨T, h1⟩
    · obtain ⟨d, hd⟩ := List.length_eq_one_iff.1 h
      exact ⟨.leaf d, by unfold BalancedTree; rw [hd]; exact .one _⟩

/-- Its leaves are the chunks, in order. -/
theorem C70_leaves (c bf : Nat) (hc : 0 < c) (hbf : 0 < bf) (x : Bytes) (T : FTree) (h : BalancedTree c bf x T) :
    T.leaves = chunks c x ∧ T.content = x := by
  have key : T.leaves = chunks c x := by
    rcases (C70_exists c bf hc hbf x).1 ⟨T, h⟩ with hb | hb
    · obtain ⟨U, h1, h2⟩ := treesOf_layered hc hb x
      obtain rfl := layered_unique h h1
      obtain ⟨V, k, e⟩ := treesOf_spec hc x (.inl hb) hbf
      have : V = T := by have := e.last; rw [h2] at this; cases this; rfl
      subst this
      exact e.leaves
    · obtain ⟨d, hd⟩ := List.length_eq_one_iff.1 hb
      have h1 : BalancedTree c bf x (.leaf d) := by unfold BalancedTree; rw [hd]; exact .one _
      obtain rfl := layered_unique h h1
      rw [hd]; rfl
  exact ⟨key, by rw [← FTree.leaves_flatten, key, chunks_flatten hc x]⟩

/-- C70. Some history of pushes of the content `x` and `finish` returns blocks exactly if the balanced tree exists and fits. -/
theorem C70_succeeds_iff (sha : Bytes → Bytes) (c bf : Nat) (hc : 0 < c) (hbf : 0 < bf) (x : Bytes) :
    (∃ blocks, Adds sha c bf x blocks) ↔ ∃ T, BalancedTree c bf x T ∧ Fits sha T := adds_iff hc hbf x

/-- C70. Every history which returns blocks returns those of the balanced tree, each node once, its root last. -/
theorem C70_tree (sha : Bytes → Bytes) (c bf : Nat) (hc : 0 < c) (hbf : 0 < bf) (x : Bytes) (blocks : List (Cid × Bytes))
    (h : Adds sha c bf x blocks) : ∃ T, BalancedTree c bf x T ∧ Fits sha T ∧ blocks.Perm (T.nodes.map (FTree.entry sha)) ∧
      blocks.getLast? = some (T.entry sha) := by
  obtain ⟨h1, h2, h3⟩ := adds_trees hc hbf h
  obtain ⟨T, k, e⟩ := treesOf_spec hc x h2 hbf
  refine ⟨T, ?_, h3 T (e.perm.mem_iff.2 (FTree.self_mem_nodes T)), ?_, ?_⟩
  · rcases h2 with hb | hb
    · obtain ⟨U, h4, h5⟩ := treesOf_layered hc hb x
      have := e.last; rw [h5] at this; cases this
      exact h4
    · obtain ⟨U, hU⟩ := (C70_exists c bf hc hbf x).2 (.inr hb)
      obtain ⟨d, hd⟩ := List.length_eq_one_iff.1 hb
      have h1 : BalancedTree c bf x (.leaf d) := by unfold BalancedTree; rw [hd]; exact .one _
      have : T = .leaf d := by
        have := e.last
        unfold treesOf at this
        rw [hd] at this
        simpa [emission, runT, finishT, eq_comm] using this
      rw [this]; exact h1
  · rw [h1]; exact e.perm.map _
  · rw [h1, List.getLast?_map, e.last]; rfl

/-- Contents of less than 2^50 bytes fit ... -/
theorem C70_small_fits (sha : Bytes → Bytes) (hsha : ∀ b, (sha b).length = 32) (c bf : Nat) (hc : 0 < c) (hbf : 0 < bf)
    (x : Bytes) (hx : x.length < 2 ^ 50) (T : FTree) (h : BalancedTree c bf x T) : Fits sha T := by
  rcases (C70_exists c bf hc hbf x).1 ⟨T, h⟩ with hb | hb
  · obtain ⟨U, h1, h2⟩ := treesOf_layered hc hb x
    obtain rfl := layered_unique h h1
    exact fun _ _ => treesOf_total hsha hc hb hx T (List.mem_of_getLast? h2)
  · obtain ⟨d, hd⟩ := List.length_eq_one_iff.1 hb
    have h1 : BalancedTree c bf x (.leaf d) := by unfold BalancedTree; rw [hd]; exact .one _
    obtain rfl := layered_unique h h1
    intro ts hts; cases hts

/-- ... and contents of 2^64 bytes or more, in more than one chunk, do not: adding them ends in the overflow panic however they are
pushed. -/
theorem C70_large_panics (sha : Bytes → Bytes) (c bf : Nat) (hc : 0 < c) (hbf : 2 ≤ bf) (x : Bytes) (hx : 2 ^ 64 ≤ x.length)
    (hcx : c < x.length) (sizes : Nat → Nat) : (newAdder c bf).feed sha sizes 0 x = some (.panic .adderOverflow) := by
  obtain ⟨T, h1, h2 | h2⟩ := C07_feed_exact sha c bf hc hbf sizes x
  · exfalso
    obtain ⟨hl, hcont⟩ := C70_leaves c bf hc (by omega) x T h1
    have hle := size_le_total sha T
    rw [hcont] at hle
    cases T with
    | leaf d =>
      have := chunks_le hc x d (by rw [← hl]; simp [FTree.leaves])
      simp only [FTree.content] at hcont
      rw [hcont] at this
      omega
    | node ts => have := h2.1 ts rfl; simp only [U64] at this; omega
  · exact h2.2

/-- The balanced tree over five one-byte chunks with branching factor two, and its blocks. -/
def fiveTree : FTree :=
  .node [.node [.node [.leaf [1], .leaf [2]], .node [.leaf [3], .leaf [4]]], .node [.node [.leaf [5]]]]

theorem fiveTree_balanced : BalancedTree 1 2 [1, 2, 3, 4, 5] fiveTree := by
  have h : (chunks 1 [1, 2, 3, 4, 5]).map FTree.leaf = [.leaf [1], .leaf [2], .leaf [3], .leaf [4], .leaf [5]] := rfl
  unfold BalancedTree
  rw [h]
  exact .up (by decide) (.up (by decide) (.up (by decide) (.one _)))

example : ∃ blocks, Adds toySha 1 2 [1, 2, 3, 4, 5] blocks ∧ blocks.getLast? = some (fiveTree.entry toySha) := by
  obtain ⟨blocks, h⟩ := (C70_succeeds_iff toySha 1 2 (by decide) (by decide) [1, 2, 3, 4, 5]).2 ⟨fiveTree, fiveTree_balanced,
    C70_small_fits toySha toySha_length 1 2 (by decide) (by decide) _ (by decide) _ fiveTree_balanced⟩
  obtain ⟨T, h1, -, -, h2⟩ := C70_tree toySha 1 2 (by decide) (by decide) _ _ h
  rw [C70_unique _ _ _ _ _ h1 fiveTree_balanced] at h2
  exact ⟨blocks, h, h2⟩

/-- The hypotheses of `C70_large_panics` are met by some content. -/
example : ∃ x, (newAdder 262144 174).feed toySha (fun _ => 4096) 0 x = some (.panic .adderOverflow) := by
  obtain ⟨x, hx⟩ : ∃ x : Bytes, x.length = 2 ^ 64 := ⟨List.replicate _ 0, List.length_replicate⟩
  exact ⟨x, C70_large_panics toySha 262144 174 (by decide) (by decide) x (by omega) (by omega) _⟩

end Verif.Props
