import Verif.Props.Orders
import Verif.Props.Built
/-
The links of a directory tree, and the sum of their sizes.
-/
namespace Verif
open Spec Verif.Props

mutual
/-- The paths and sizes of the links in a tree. -/
def linkSizes (path : List Bytes) : DTree → List (List Bytes × Nat)
  | .link n _ s => [(path ++ [n], s)]
  | .dir n ks => linkSizesL (path ++ [n]) ks
def linkSizesL (path : List Bytes) : List DTree → List (List Bytes × Nat)
  | [] => []
  | k :: ks => linkSizes path k ++ linkSizesL path ks
end

/-- The lengths of the blocks of nodes. -/
def blockLengths (ns : List TreeNode) : Nat := (ns.map (·.block.length)).sum

theorem blockLengths_append (a b : List TreeNode) : blockLengths (a ++ b) = blockLengths a + blockLengths b := by
  simp [blockLengths]

mutual
/-- What is below an entry: the blocks of directories and the links. -/
theorem totalBelow_links (sha : Bytes → Bytes) (path : List Bytes) : ∀ k : DTree,
    totalBelow sha k = blockLengths (DTree.postOrder sha path k) + ((linkSizes path k).map (·.2)).sum
  | .link n c s => by simp [totalBelow, DTree.postOrder, blockLengths, linkSizes]
  | .dir n ks => by
    rw [totalBelow, DTree.postOrder, linkSizes, blockLengths_append, totalBelowL_links sha (path ++ [n]) ks]
    simp [blockLengths, nodeOf]
    omega
theorem totalBelowL_links (sha : Bytes → Bytes) (path : List Bytes) : ∀ ks : List DTree,
    totalBelowL sha ks = blockLengths (DTree.postOrderL sha path ks) + ((linkSizesL path ks).map (·.2)).sum
  | [] => by simp [totalBelowL, DTree.postOrderL, blockLengths, linkSizesL]
  | k :: ks => by
    rw [totalBelowL, DTree.postOrderL, linkSizesL, blockLengths_append, totalBelow_links sha path k, totalBelowL_links sha path ks,
      List.map_append, List.sum_append]
    omega
end

mutual
theorem mem_linkSizes (path : List Bytes) : ∀ k : DTree, Sorted k → ∀ q s, (q, s) ∈ linkSizes path k ↔
    ∃ r c, q = path ++ k.name :: r ∧ lookupPath (k.name :: r) [k] = some (.link c s)
  | .link n c s, _, q, s' => by
    have hk : kid n [DTree.link n c s] = some (.link n c s) := by simp [kid, DTree.name]
    simp only [linkSizes, List.mem_singleton, Prod.mk.injEq, DTree.name]
    constructor
    · rintro ⟨rfl, rfl⟩
      exact ⟨[], c, rfl, by rw [lookupPath_cons_link hk]; rfl⟩
    · rintro ⟨r, c', rfl, h⟩
      rw [lookupPath_cons_link hk] at h
      split at h
      · rename_i hr; subst hr; cases h; exact ⟨rfl, rfl⟩
      · cases h
  | .dir n ks, hs, q, s' => by
    have hk : kid n [DTree.dir n ks] = some (.dir n ks) := by simp [kid, DTree.name]
    rw [linkSizes, mem_linkSizesL (path ++ [n]) ks hs]
    simp only [DTree.name]
    constructor
    · rintro ⟨r, c, rfl, h⟩
      exact ⟨r, c, by simp, by rw [lookupPath_cons_dir hk]; exact h⟩
    · rintro ⟨r, c, rfl, h⟩
      rw [lookupPath_cons_dir hk] at h
      exact ⟨r, c, by simp, h⟩
theorem mem_linkSizesL (path : List Bytes) : ∀ ks : List DTree, SortedL ks → ∀ q s, (q, s) ∈ linkSizesL path ks ↔
    ∃ r c, q = path ++ r ∧ lookupPath r ks = some (.link c s)
  | [], _, q, s => by
    simp only [linkSizesL, List.not_mem_nil, false_iff]
    rintro ⟨r, c, -, h⟩
    cases r <;> simp [lookupPath, kid] at h
  | k :: ks, hs, q, s => by
    have hself : ∀ r, lookupPath (k.name :: r) (k :: ks) = lookupPath (k.name :: r) [k] := by
      intro r
      simp [lookupPath, kid]
    have hother : ∀ n r, n ≠ k.name → lookupPath (n :: r) (k :: ks) = lookupPath (n :: r) ks := by
      intro n r hn
      simp [lookupPath, kid, Ne.symm hn]
    rw [linkSizesL, List.mem_append, mem_linkSizes path k hs.2.1, mem_linkSizesL path ks hs.2.2]
    constructor
    · rintro (⟨r, c, rfl, h⟩ | ⟨r, c, rfl, h⟩)
      · exact ⟨_, c, rfl, by rw [hself]; exact h⟩
      · cases r with
        | nil => rw [lookupPath] at h; cases h
        | cons n r =>
          refine ⟨_, c, rfl, ?_⟩
          rw [hother n r ?_]; exact h
          rintro rfl
          cases hk : kid k.name ks with
          | none => rw [lookupPath_cons_none hk] at h; cases h
          | some k' =>
            have := hs.1 k' (kid_mem hk)
            rw [kid_name hk] at this
            exact List.lt_irrefl _ this
    · rintro ⟨r, c, rfl, h⟩
      cases r with
      | nil => rw [lookupPath] at h; cases h
      | cons n r =>
        by_cases hn : n = k.name
        · subst hn; rw [hself] at h; exact .inl ⟨r, c, rfl, h⟩
        · rw [hother n r hn] at h; exact .inr ⟨_, c, rfl, h⟩
end

mutual
theorem linkSizes_nodup (path : List Bytes) : ∀ k : DTree, Sorted k → ((linkSizes path k).map (·.1)).Nodup
  | .link n c s, _ => by simp [linkSizes]
  | .dir n ks, hs => by rw [linkSizes]; exact linkSizesL_nodup _ ks hs
theorem linkSizesL_nodup (path : List Bytes) : ∀ ks : List DTree, SortedL ks → ((linkSizesL path ks).map (·.1)).Nodup
  | [], _ => by simp [linkSizesL]
  | k :: ks, hs => by
    rw [linkSizesL, List.map_append, List.nodup_append]
    refine ⟨linkSizes_nodup path k hs.2.1, linkSizesL_nodup path ks hs.2.2, ?_⟩
    rintro a ha b hb rfl
    obtain ⟨⟨q, s⟩, h1, rfl⟩ := List.mem_map.1 ha
    obtain ⟨⟨q', s'⟩, h2, e⟩ := List.mem_map.1 hb
    dsimp only at e; subst e
    obtain ⟨r, c, rfl, -⟩ := (mem_linkSizes path k hs.2.1 _ _).1 h1
    obtain ⟨r', c', e, h⟩ := (mem_linkSizesL path ks hs.2.2 _ _).1 h2
    obtain rfl := List.append_cancel_left e
    cases hk : kid k.name ks with
    | none => rw [lookupPath_cons_none hk] at h; cases h
    | some k' =>
      have := hs.1 k' (kid_mem hk)
      rw [kid_name hk] at this
      exact List.lt_irrefl _ this
end

theorem perm_of_nodup {α} [DecidableEq α] : ∀ {a b : List α}, a.Nodup → b.Nodup → (∀ x, x ∈ a ↔ x ∈ b) → a.Perm b
  | [], b, _, _, h => by
    cases b with
    | nil => exact .refl _
    | cons y b => exact absurd ((h y).2 (by simp)) (by simp)
  | x :: a, b, ha, hb, h => by
    have hx : x ∈ b := (h x).1 (by simp)
    obtain ⟨hxa, ha'⟩ := List.nodup_cons.1 ha
    refine .trans (.cons x (perm_of_nodup ha' (hb.erase x) fun y => ?_)) (List.perm_cons_erase hx).symm
    rw [hb.mem_erase_iff]
    constructor
    · intro hy
      exact ⟨fun e => hxa (e ▸ hy), (h y).1 (List.mem_cons_of_mem _ hy)⟩
    · rintro ⟨hne, hy⟩
      rcases List.mem_cons.1 ((h y).2 hy) with e | e
      · exact absurd e hne
      · exact e

/-- What a call puts: its path and size. -/
def putSize : Op → Option (Bytes × Nat)
  | .putLink p _ s => some (p, s)
  | .setMetadata _ _ => none

/-- When all calls were successful (wrapping), the sizes of the links in the tree are the sizes put. -/
theorem link_sum (opts : TreeOptions) (hw : opts.wrap_with_directory = true) (ops : List Op) (hops : ∀ op ∈ ops, op.Ok)
    (hall : successes (.new opts) ops = ops) :
    ((linkSizesL [] (contents (runOps (.new opts) ops).2)).map (·.2)).sum = ((ops.filterMap putSize).map (·.2)).sum := by
  have hb : Obtainable (runOps (.new opts) ops).2 := ⟨opts, ops, hops, rfl⟩
  have hsorted := contents_sorted hb
  obtain ⟨hpaths, hcomp⟩ := (C62_all_successful opts hw ops hops).1 hall
  have hist := C31_history opts ops hops
  rw [hall] at hist
  obtain ⟨ks, hks⟩ : ∃ ks, contents (runOps (.new opts) ops).2 = ks := ⟨_, rfl⟩
  rw [hks] at hist hsorted ⊢
  have hmem := mem_linkSizesL [] ks hsorted
  simp only [List.nil_append] at hmem
  have hperm : ((linkSizesL [] ks).map (fun e => (joinSlash e.1, e.2))).Perm (ops.filterMap putSize) := by
    apply perm_of_nodup
    · have := linkSizesL_nodup [] ks hsorted
      rw [List.nodup_iff_pairwise_ne, List.pairwise_map] at this ⊢
      refine this.imp_of_mem ?_
      rintro ⟨a, s⟩ ⟨b, s'⟩ ha hb' hne e
      obtain ⟨_, c, rfl, h1⟩ := (hmem a s).1 ha
      obtain ⟨_, c', rfl, h2⟩ := (hmem b s').1 hb'
      obtain ⟨p, -, hp⟩ := ((hist _).1 _ _).1 h1
      obtain ⟨p', -, hp'⟩ := ((hist _).1 _ _).1 h2
      have e1 : joinSlash a = joinSlash b := (Prod.mk.inj e).1
      apply hne
      show a = b
      rw [← pathOf_unique hp, ← pathOf_unique hp', hp.1, hp'.1, e1]
    · rw [List.nodup_iff_pairwise_ne, List.pairwise_filterMap]
      refine hcomp.imp_of_mem ?_
      intro a b ha hb' hc x hx y hy e
      subst e
      cases a with
      | setMetadata => cases hx
      | putLink p c s =>
        cases b with
        | setMetadata => cases hy
        | putLink p' c' s' =>
          cases hx; cases hy
          obtain ⟨cs, hcs⟩ := hpaths _ ha
          exact (hc cs cs hcs hcs).1 trivial (List.prefix_refl _)
    · rintro ⟨p, s⟩
      rw [List.mem_map, List.mem_filterMap]
      constructor
      · rintro ⟨⟨q, s'⟩, h1, e⟩
        obtain ⟨_, c, rfl, h2⟩ := (hmem q s').1 h1
        obtain ⟨p', h3, hp⟩ := ((hist _).1 _ _).1 h2
        cases e
        exact ⟨_, h3, by rw [putSize, hp.1]⟩
      · rintro ⟨op, h1, h2⟩
        cases op with
        | setMetadata => cases h2
        | putLink p' c s' =>
          cases h2
          obtain ⟨cs, hcs⟩ := hpaths _ h1
          exact ⟨(cs, s), (hmem cs s).2 ⟨cs, c, rfl, ((hist cs).1 c s).2 ⟨_, h1, hcs⟩⟩, by rw [show p = _ from hcs.1]⟩
  have := (hperm.map (·.2)).sum_nat
  rw [List.map_map] at this
  exact this

end Verif
