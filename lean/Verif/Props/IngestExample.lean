import Verif.Props.IngestWalk
import Verif.Props.IngestOrder
import Verif.Props.AdderExact
/-
C86 is not vacuous: an archive with a directory, a file in it and a symlink.
-/
namespace Verif.Props
open Verif Verif.Spec Verif.Ingest

/-- `a/`, `a/b` with the bytes 1, 2, 3 in two reads, and `c`, a symlink to `a/b`. -/
def sampleTar : List TarEntry :=
  [⟨[97, 47], none, []⟩, ⟨[97, 47, 98], none, [[1, 2], [3], []]⟩, ⟨[99], some [97, 47, 98], []⟩]

/-- The tree of the file. -/
def threeLeaf : FTree := .leaf [1, 2, 3]

theorem threeLeaf_balanced : BalancedTree 262144 174 [1, 2, 3] threeLeaf := by
  have : (chunks 262144 [1, 2, 3]).map FTree.leaf = [threeLeaf] := by
    rw [chunks, if_neg (by decide)]
    have : groups 262144 ([1, 2, 3] : Bytes) = [[1, 2, 3]] := by decide +kernel
    rw [this]; rfl
  unfold BalancedTree
  rw [this]
  exact .one _

/-- The calls of the sample. -/
def sampleTarOps : List Op :=
  [.setMetadata [97] {}, .putLink [97, 47, 98] (threeLeaf.entry toySha).1 (threeLeaf.entry toySha).2.length,
    .putLink [99] (cidOf toySha (symlinkBlock [97, 47, 98])) (symlinkBlock [97, 47, 98]).length]

theorem three_blocks {blocks} (h : Adds toySha 262144 174 [1, 2, 3] blocks) : blocks = [threeLeaf.entry toySha] := by
  obtain ⟨T, t1, -, t3, -⟩ := C70_tree toySha 262144 174 (by decide) (by decide) _ _ h
  have := C70_unique _ _ _ _ _ t1 threeLeaf_balanced
  subst this
  exact List.perm_singleton.1 t3

theorem sampleTar_stored {ops bss} (h : StoredAll toySha sampleTar ops bss) : ops = sampleTarOps := by
  cases h with
  | cons h1 h =>
    cases h with
    | cons h2 h =>
      cases h with
      | cons h3 h =>
        cases h
        have e1 := (h1.unique (.dir (by decide))).1
        have e3 := (h3.unique (.symlink (t := [97, 47, 98]) (by decide))).1
        subst e1 e3
        have hc : (TarEntry.content ⟨[97, 47, 98], none, [[1, 2], [3], []]⟩) = .file [1, 2, 3] := by decide
        cases h2 with
        | file hx hadd hlast =>
          rw [hc] at hx
          cases hx
          have := three_blocks hadd
          subst this
          cases hlast
          rfl
        | symlink hx => rw [hc] at hx; cases hx
        | dir hx => rw [hc] at hx; cases hx

theorem sampleTar_paths : ∀ e ∈ sampleTar, ∃ cs, e.At cs ∧ cs ≠ [[]] ∧ dot ∉ cs := by
  intro e he
  refine ⟨splitSlash e.name, ?_⟩
  simp only [sampleTar, List.mem_cons, List.not_mem_nil, or_false] at he
  rcases he with rfl | rfl | rfl
  all_goals
    rw [TarEntry.At, PathOf]
    decide +kernel

theorem sampleTar_small : ∀ e ∈ sampleTar, e.Small := by
  intro e he
  simp only [sampleTar, List.mem_cons, List.not_mem_nil, or_false] at he
  rcases he with rfl | rfl | rfl <;> simp [TarEntry.Small]

theorem sampleTar_coexist : sampleTar.Pairwise CanCoexist := by
  have key : ∀ a b : TarEntry, (a.content ≠ .dir → ¬ splitSlash a.name <+: splitSlash b.name) →
      (b.content ≠ .dir → ¬ splitSlash b.name <+: splitSlash a.name) → CanCoexist a b := by
    intro a b h1 h2 p q hp hq
    rw [pathOf_unique hp, pathOf_unique hq] at h1 h2
    exact ⟨h1, h2⟩
  rw [sampleTar]
  simp only [List.pairwise_cons, List.mem_cons, List.not_mem_nil, or_false]
  refine ⟨?_, ?_, nofun, .nil⟩
  · rintro e (rfl | rfl) <;> exact key _ _ (by decide) (by decide)
  · rintro e rfl
    exact key _ _ (by decide) (by decide)

theorem sampleTar_ingested : ∃ r, ingestTar toySha sampleTar = some (.ok r) := by
  refine (C86_exactly toySha toySha_length sampleTar sampleTar_small).2 ⟨?_, ?_, sampleTar_coexist, ?_, ?_⟩
  · intro e he
    simp only [sampleTar, List.mem_cons, List.not_mem_nil, or_false] at he
    rcases he with rfl | rfl | rfl
    all_goals
      refine ⟨by decide +kernel, ?_⟩
      intro t ht
      cases ht
    decide +kernel
  · intro e he
    obtain ⟨cs, h, -⟩ := sampleTar_paths e he
    exact ⟨cs, h⟩
  · intro e he x hx
    simp only [sampleTar, List.mem_cons, List.not_mem_nil, or_false] at he
    rcases he with rfl | rfl | rfl
    · have : TarEntry.content ⟨[97, 47], none, []⟩ = .dir := by decide
      rw [this] at hx; cases hx
    · have : TarEntry.content ⟨[97, 47, 98], none, [[1, 2], [3], []]⟩ = .file [1, 2, 3] := by decide
      rw [this] at hx; cases hx
      exact ⟨by decide, threeLeaf, threeLeaf_balanced, nofun⟩
    · have : TarEntry.content ⟨[99], some [97, 47, 98], []⟩ = .symlink [97, 47, 98] := by decide
      rw [this] at hx; cases hx
  · intro ops bss hs
    rw [sampleTar_stored hs]
    decide +kernel

/-- All hypotheses of C86 at once: the sample can be ingested and walked, and the file is found. -/
example : ∃ root total size saved, ingestTar toySha sampleTar = some (.ok ((root, total, size), saved)) ∧
    ∀ get, Holds get saved → ∃ items, walkFrom get (Walker.new root []) none = some (.ok items) ∧
      (∃ c, ShownAs c [[97], [98]] items (.file [1, 2, 3])) ∧ (∃ c, ShownAs c [[99]] items (.symlink [97, 47, 98])) ∧
      (∃ c, ShownAs c [[97]] items .dir) ∧ atPath [[98]] items = [] := by
  obtain ⟨⟨⟨root, total, size⟩, saved⟩, h⟩ := sampleTar_ingested
  refine ⟨root, total, size, saved, h, fun get hget => ?_⟩
  have hwalkable : ∀ e ∈ sampleTar, ∀ cs, e.At cs → cs ≠ [[]] ∧ dot ∉ cs := by
    intro e he cs hcs
    obtain ⟨cs', h1, h2⟩ := sampleTar_paths e he
    rw [← pathOf_unique hcs, pathOf_unique h1]
    exact h2
  obtain ⟨items, q1, -, -, q2, -, q3⟩ := C86_walk toySha toySha_length sampleTar sampleTar_small root total size saved h hwalkable get hget none nofun
  refine ⟨items, q1, ?_, ?_, ?_, ?_⟩
  · exact q2 ⟨[97, 47, 98], none, [[1, 2], [3], []]⟩ (by decide) [[97], [98]] path_ab
  · exact q2 ⟨[99], some [97, 47, 98], []⟩ (by decide) [[99]] path_c
  · exact q2 ⟨[97, 47], none, []⟩ (by decide) [[97]] (by refine ⟨?_, by decide, by decide⟩ <;> decide)
  · refine q3 [[98]] (by decide) fun e he ds hds => ?_
    rw [← pathOf_unique hds]
    simp only [sampleTar, List.mem_cons, List.not_mem_nil, or_false] at he
    rcases he with rfl | rfl | rfl <;> decide

end Verif.Props
