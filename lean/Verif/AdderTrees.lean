import Verif.FileTreeLemmas
/-
The adder's algorithm on trees (no hashing): used as the refinement target of the model, and analysed here.
-/
namespace Verif.Spec
open Verif

/-- In the emitted list children come before their parents. -/
def ChildrenFirst (E : List FTree) : Prop := ∀ p t s, E = p ++ t :: s → ∀ c ∈ t.children, c ∈ p

theorem childrenFirst_append {E N : List FTree} (hE : ChildrenFirst E) (hN : ∀ n ∈ N, ∀ c ∈ n.children, c ∈ E) :
    ChildrenFirst (E ++ N) := by
  intro p t s h c hc
  rcases List.append_eq_append_iff.1 h with ⟨a, h1, h2⟩ | ⟨a, h1, h2⟩
  · -- p = E ++ a
    have : t ∈ N := by rw [h2]; simp
    rw [h1]; exact List.mem_append_left _ (hN t this c hc)
  · -- E = p ++ a
    cases a with
    | nil =>
      simp at h1 h2
      have : t ∈ N := by rw [← h2]; simp
      rw [← h1]; exact hN t this c hc
    | cons x a =>
      simp only [List.cons_append, List.cons.injEq] at h2
      obtain ⟨rfl, -⟩ := h2
      exact hE p t a h1 c hc

/-- Data of a leaf. -/
def leafData : FTree → Option Bytes
  | .leaf d => some d
  | .node _ => none

/-- One leaf is added: new pending trees (completed groups, leaves) and emitted trees. -/
def addT (bf : Nat) (st : (List FTree × List FTree) × List FTree) (d : Bytes) : (List FTree × List FTree) × List FTree :=
  let R := st.1.2 ++ [.leaf d]
  if R.length ≤ bf then ((st.1.1, R), st.2 ++ [.leaf d])
  else ((st.1.1 ++ [.node (R.take bf)], R.drop bf), st.2 ++ [.leaf d, .node (R.take bf)])

def runT (bf : Nat) (ds : List Bytes) : (List FTree × List FTree) × List FTree := ds.foldl (addT bf) (([], []), [])

/-- Emitted trees when finishing with pending trees `A` (next level) and `B` (this level). -/
def finishT (bf : Nat) : Nat → List FTree → List FTree → List FTree
  | 0, _, _ => []
  | k + 1, A, B =>
    if A.length + B.length = 1 then []
    else
      let N := (groups bf B).map FTree.node
      N ++ finishT bf k [] (A ++ N)

/-- What an adder emits for the chunks `ds ++ [d]`. -/
def emission (bf : Nat) (ds : List Bytes) (d : Bytes) : List FTree :=
  let st := runT bf ds
  st.2 ++ [.leaf d] ++ finishT bf (st.1.1.length + st.1.2.length + 1) st.1.1 (st.1.2 ++ [.leaf d])

/-- Everything known about the pending trees `A ++ B` and the trees `E` emitted so far. -/
structure ForestInv (bf : Nat) (ds : List Bytes) (E A B : List FTree) (h : Nat) : Prop where
  uniA : ∀ t ∈ A, t.Uniform (h + 1)
  uniB : ∀ t ∈ B, t.Uniform h
  ar : ∀ t ∈ A ++ B, t.Arity bf
  leaves : (A ++ B).flatMap FTree.leaves = ds
  perm : E.Perm ((A ++ B).flatMap FTree.nodes)
  cf : ChildrenFirst E
  lv : E.filterMap leafData = ds
  lo : bf ^ h * (bf * A.length + B.length - 1) < ds.length ∨ ds = []
  hi : ds.length ≤ bf ^ h * (bf * A.length + B.length)

theorem arity_node {bf : Nat} {g : List FTree} (h1 : 1 ≤ g.length) (h2 : g.length ≤ bf) (h : ∀ t ∈ g, t.Arity bf) :
    (FTree.node g).Arity bf := by
  intro s hs ts he
  simp only [FTree.nodes, FTree.nodesL_eq, List.mem_cons, List.mem_flatMap] at hs
  rcases hs with rfl | ⟨t, ht, hs⟩
  · cases he; exact ⟨h1, h2⟩
  · exact h t ht s hs ts he

theorem perm_nodes_groups (gs : List (List FTree)) :
    (gs.flatten.flatMap FTree.nodes ++ gs.map FTree.node).Perm ((gs.map FTree.node).flatMap FTree.nodes) := by
  induction gs with
  | nil => simp
  | cons g gs ih =>
    simp only [List.flatten_cons, List.flatMap_append, List.map_cons, List.flatMap_cons, FTree.nodes, FTree.nodesL_eq,
      List.cons_append, List.append_assoc]
    refine (List.Perm.append_left _ List.perm_middle).trans ?_
    refine List.perm_middle.trans (List.Perm.cons _ ?_)
    exact List.Perm.append_left _ ih

/-- Grouping one level preserves the invariant. -/
theorem ForestInv.step {bf : Nat} (hbf : 0 < bf) {ds : List Bytes} {E A B : List FTree} {h : Nat}
    (inv : ForestInv bf ds E A B h) (hB : B ≠ []) :
    ForestInv bf ds (E ++ (groups bf B).map FTree.node) [] (A ++ (groups bf B).map FTree.node) (h + 1) := by
  have hgl := groups_length hbf B
  have hgne := groups_ne_nil hbf hB
  obtain ⟨q, hq⟩ : ∃ q, (groups bf B).length = q + 1 :=
    ⟨_, (Nat.succ_pred_eq_of_pos (List.length_pos_iff.2 hgne)).symm⟩
  constructor
  · simp
  · intro t ht
    rcases List.mem_append.1 ht with ht | ht
    · exact inv.uniA t ht
    · obtain ⟨g, hg, rfl⟩ := List.mem_map.1 ht
      exact fun c hc => inv.uniB c (groups_mem_mem hbf hg hc)
  · intro t ht
    simp only [List.nil_append] at ht
    rcases List.mem_append.1 ht with ht | ht
    · exact inv.ar t (by simp [ht])
    · obtain ⟨g, hg, rfl⟩ := List.mem_map.1 ht
      have hm := groups_mem hbf B g hg
      exact arity_node hm.1 hm.2 fun c hc => inv.ar c (by simp [groups_mem_mem hbf hg hc])
  · have : ((groups bf B).map FTree.node).flatMap FTree.leaves = B.flatMap FTree.leaves := by
      conv => rhs; rw [← groups_flatten hbf B]
      generalize groups bf B = gs
      induction gs with
      | nil => rfl
      | cons g gs ih => simp only [List.map_cons, List.flatMap_cons, ih, List.flatten_cons, List.flatMap_append,
          FTree.leaves, FTree.leavesL_eq]
    simp only [List.nil_append, List.flatMap_append, this]
    rw [← List.flatMap_append]; exact inv.leaves
  · have h1 := perm_nodes_groups (groups bf B)
    rw [groups_flatten hbf] at h1
    simp only [List.nil_append, List.flatMap_append]
    refine (inv.perm.append_right _).trans ?_
    simp only [List.flatMap_append, List.append_assoc]
    exact List.Perm.append_left _ h1
  · refine childrenFirst_append inv.cf ?_
    intro n hn c hc
    obtain ⟨g, hg, rfl⟩ := List.mem_map.1 hn
    have hcB : c ∈ B := groups_mem_mem hbf hg hc
    refine inv.perm.mem_iff.2 (List.mem_flatMap.2 ⟨c, by simp [hcB], FTree.self_mem_nodes c⟩)
  · rw [List.filterMap_append, inv.lv]
    have : ((groups bf B).map FTree.node).filterMap leafData = [] := by
      generalize groups bf B = gs
      induction gs with
      | nil => rfl
      | cons g gs ih => simpa [leafData] using ih
    rw [this, List.append_nil]
  · rcases inv.lo with h1 | h1
    · left
      simp only [List.length_nil, Nat.mul_zero, Nat.zero_add, List.length_append, List.length_map]
      refine Nat.lt_of_le_of_lt ?_ h1
      rw [Nat.pow_succ, Nat.mul_assoc]
      refine Nat.mul_le_mul_left _ ?_
      have h2 := hgl.2 hB
      rw [hq] at h2 ⊢
      simp only [Nat.add_sub_cancel] at h2
      rw [show A.length + (q + 1) - 1 = A.length + q by omega, Nat.mul_add]
      omega
    · exact .inr h1
  · refine Nat.le_trans inv.hi ?_
    simp only [List.length_nil, Nat.mul_zero, Nat.zero_add, List.length_append, List.length_map]
    rw [Nat.pow_succ, Nat.mul_assoc, Nat.mul_add bf]
    exact Nat.mul_le_mul_left _ (Nat.add_le_add_left hgl.1 _)

theorem getLast?_append_ne {α : Type} (l : List α) {m : List α} (h : m ≠ []) : (l ++ m).getLast? = m.getLast? := by
  rw [List.getLast?_append, List.getLast?_eq_some_getLast h]; rfl

theorem groups_lt {bf : Nat} (hbf : 2 ≤ bf) {α : Type} {l : List α} (hl : 2 ≤ l.length) : (groups bf l).length < l.length := by
  have hne : l ≠ [] := by intro h; rw [h] at hl; simp at hl
  have h1 := (groups_length (show 0 < bf by omega) l).2 hne
  refine Decidable.byContradiction fun hc => ?_
  have h2 : bf * (l.length - 1) ≤ bf * ((groups bf l).length - 1) := Nat.mul_le_mul_left _ (by omega)
  have h3 : 2 * (l.length - 1) ≤ bf * (l.length - 1) := Nat.mul_le_mul_right _ hbf
  omega

/-- Finishing ends with a single tree. -/
theorem finishT_inv {bf : Nat} (hbf : 2 ≤ bf) (k : Nat) {ds : List Bytes} {E A B : List FTree} {h : Nat}
    (inv : ForestInv bf ds E A B h) (hB : B ≠ []) (hlast : E.getLast? = B.getLast?)
    (hmin : h = 0 ∨ bf ^ (h - 1) < ds.length) (hds : ds ≠ []) (hk : (A = [] ∧ B.length ≤ k + 1) ∨ A.length + B.length ≤ k) :
    ∃ T h', ForestInv bf ds (E ++ finishT bf k A B) [] [T] h' ∧ (E ++ finishT bf k A B).getLast? = some T ∧
      (h' = 0 ∨ bf ^ (h' - 1) < ds.length) := by
  induction k generalizing E A B h with
  | zero =>
    have hpos := List.length_pos_iff.2 hB
    rcases hk with ⟨rfl, hk⟩ | hk
    · have : B.length = 1 := by omega
      obtain ⟨T, rfl⟩ := List.length_eq_one_iff.1 this
      exact ⟨T, h, by simpa [finishT] using inv, by simpa [finishT] using hlast, hmin⟩
    · omega
  | succ k ih =>
    have hpos := List.length_pos_iff.2 hB
    by_cases h1 : A.length + B.length = 1
    · have hA' : A = [] := List.length_eq_zero_iff.1 (by omega)
      have : B.length = 1 := by omega
      obtain ⟨T, rfl⟩ := List.length_eq_one_iff.1 this
      subst hA'
      exact ⟨T, h, by simpa [finishT] using inv, by simpa [finishT] using hlast, hmin⟩
    · simp only [finishT, if_neg h1]
      rw [← List.append_assoc]
      have hgne : (groups bf B).map FTree.node ≠ [] := by simpa using groups_ne_nil (show 0 < bf by omega) hB
      refine ih (inv.step (by omega) hB) (by simp [groups_ne_nil (show 0 < bf by omega) hB])
        (by rw [getLast?_append_ne _ hgne, getLast?_append_ne _ hgne]) ?_ (.inl ⟨rfl, ?_⟩)
      · right
        rcases inv.lo with hlo | hlo
        · refine Nat.lt_of_le_of_lt ?_ hlo
          rw [Nat.add_sub_cancel]
          refine Nat.le_mul_of_pos_right _ ?_
          have : 2 * A.length ≤ bf * A.length := Nat.mul_le_mul_right _ hbf
          omega
        · exact absurd hlo hds
      · simp only [List.length_append, List.length_map]
        rcases hk with ⟨rfl, hk⟩ | hk
        · have := groups_lt hbf (l := B) (by simp at h1; omega)
          simp; omega
        · have : (groups bf B).length ≤ B.length := by
            by_cases hB2 : 2 ≤ B.length
            · exact Nat.le_of_lt (groups_lt hbf hB2)
            · have := (groups_length (show 0 < bf by omega) B).2 hB
              refine Decidable.byContradiction fun hc => ?_
              have h2 : bf * 1 ≤ bf * ((groups bf B).length - 1) := Nat.mul_le_mul_left _ (by omega)
              omega
          omega

/-- The invariant between pushes. -/
structure RunInv (bf : Nat) (ds : List Bytes) (st : (List FTree × List FTree) × List FTree) : Prop where
  forest : ForestInv bf ds st.2 st.1.1 st.1.2 0
  len : st.1.2.length ≤ bf
  ne : ds ≠ [] → st.1.2 ≠ []
  full : bf * st.1.1.length + st.1.2.length = ds.length

theorem forest_add_leaf {bf : Nat} {ds : List Bytes} {E A B : List FTree} (inv : ForestInv bf ds E A B 0) (d : Bytes)
    (full : bf * A.length + B.length = ds.length) :
    ForestInv bf (ds ++ [d]) (E ++ [.leaf d]) A (B ++ [.leaf d]) 0 := by
  constructor
  · exact inv.uniA
  · intro t ht
    rcases List.mem_append.1 ht with ht | ht
    · exact inv.uniB t ht
    · simp only [List.mem_singleton] at ht; subst ht; trivial
  · intro t ht
    rw [← List.append_assoc] at ht
    rcases List.mem_append.1 ht with ht | ht
    · exact inv.ar t ht
    · simp only [List.mem_singleton] at ht; subst ht
      intro s hs ts he
      simp only [FTree.nodes, List.mem_singleton] at hs
      subst hs; cases he
  · rw [← List.append_assoc, List.flatMap_append, inv.leaves]; simp [FTree.leaves]
  · rw [← List.append_assoc, List.flatMap_append]
    simpa [FTree.nodes] using inv.perm.append_right [FTree.leaf d]
  · refine childrenFirst_append inv.cf ?_
    intro n hn c hc
    simp only [List.mem_singleton] at hn; subst hn; simp [FTree.children] at hc
  · rw [List.filterMap_append, inv.lv]; simp [leafData]
  · left; simp; omega
  · simp; omega

theorem runT_snoc (bf : Nat) (ds : List Bytes) (d : Bytes) : runT bf (ds ++ [d]) = addT bf (runT bf ds) d := by
  simp [runT]

theorem runT_inv {bf : Nat} (hbf : 0 < bf) (ds : List Bytes) : RunInv bf ds (runT bf ds) := by
  generalize hn : ds.length = n
  induction n generalizing ds with
  | zero =>
    have : ds = [] := List.length_eq_zero_iff.1 hn
    subst this
    refine ⟨⟨?_, ?_, ?_, ?_, ?_, ?_, ?_, .inr rfl, ?_⟩, ?_, ?_, ?_⟩ <;> simp [runT]
    intro p t s h; simp at h
  | succ n ih =>
    obtain ⟨ds, d, rfl⟩ : ∃ a b, ds = a ++ [b] := by
      have hne : ds ≠ [] := by intro h; rw [h] at hn; simp at hn
      exact ⟨ds.dropLast, ds.getLast hne, (List.dropLast_concat_getLast hne).symm⟩
    have inv := ih ds (by simpa using hn)
    rw [runT_snoc]
    obtain ⟨⟨⟨A, B⟩, E⟩, hst⟩ : ∃ st, runT bf ds = st := ⟨_, rfl⟩
    rw [hst] at inv ⊢
    obtain ⟨f, h1, h2, h3⟩ := inv
    simp only at f h1 h2 h3
    have hf := forest_add_leaf f d h3
    unfold addT
    simp only
    split
    · rename_i hle
      exact ⟨hf, hle, by simp, by simp; omega⟩
    · rename_i hgt
      have hl : (B ++ [FTree.leaf d]).length = bf + 1 := by simp at hgt ⊢; omega
      have hB1 : B.length = bf := by simpa using hl
      generalize hR : B ++ [FTree.leaf d] = R at hf hl
      have hsplit : ∀ {β : Type} (f : FTree → List β), R.flatMap f = (R.take bf).flatMap f ++ (R.drop bf).flatMap f := by
        intro β f
        rw [← List.flatMap_append, List.take_append_drop]
      have hmem : ∀ t ∈ R.take bf, t ∈ R := fun t ht => List.mem_of_mem_take ht
      have hdl : (R.drop bf).length = 1 := by simp; omega
      refine ⟨?_, ?_, ?_, ?_⟩
      · constructor
        · intro t ht
          rcases List.mem_append.1 ht with ht | ht
          · exact hf.uniA t ht
          · simp only [List.mem_singleton] at ht; subst ht
            exact fun c hc => hf.uniB c (hmem c hc)
        · exact fun t ht => hf.uniB t (List.mem_of_mem_drop ht)
        · intro t ht
          simp only [List.append_assoc, List.mem_append, List.mem_singleton] at ht
          rcases ht with ht | rfl | ht
          · exact hf.ar t (by simp [ht])
          · refine arity_node (by simp; omega) (by simp; omega) fun c hc => hf.ar c ?_
            exact List.mem_append_right _ (hmem c hc)
          · exact hf.ar t (List.mem_append_right _ (List.mem_of_mem_drop ht))
        · have := hf.leaves
          rw [List.flatMap_append, hsplit] at this
          simp only [List.flatMap_append, List.flatMap_cons, List.flatMap_nil, FTree.leaves, FTree.leavesL_eq,
            List.append_nil, List.append_assoc]
          exact this
        · have := hf.perm
          have e : E ++ [FTree.leaf d, FTree.node (R.take bf)] = E ++ [FTree.leaf d] ++ [FTree.node (R.take bf)] := by simp
          rw [e]
          refine (this.append_right _).trans ?_
          rw [List.flatMap_append, hsplit]
          simp only [List.flatMap_append, List.append_assoc, List.flatMap_cons, List.flatMap_nil, FTree.nodes,
            FTree.nodesL_eq, List.cons_append, List.append_nil]
          refine List.Perm.append_left _ ?_
          rw [← List.append_assoc]
          exact List.perm_append_comm
        · have e : E ++ [FTree.leaf d, FTree.node (R.take bf)] = E ++ [FTree.leaf d] ++ [FTree.node (R.take bf)] := by simp
          rw [e]
          refine childrenFirst_append hf.cf ?_
          intro n hn c hc
          simp only [List.mem_singleton] at hn; subst hn
          refine hf.perm.mem_iff.2 (List.mem_flatMap.2 ⟨c, ?_, FTree.self_mem_nodes c⟩)
          exact List.mem_append_right _ (hmem c hc)
        · have := hf.lv
          simp only [List.filterMap_append] at this ⊢
          rw [← this]; simp [List.filterMap_cons, leafData]
        · left
          simp only [Nat.pow_zero, Nat.one_mul, List.length_append, List.length_cons, List.length_nil, hdl]
          rw [Nat.mul_add]; omega
        · simp only [Nat.pow_zero, Nat.one_mul, List.length_append, List.length_cons, List.length_nil, hdl]
          rw [Nat.mul_add]; omega
      · simp only [hdl]; omega
      · intro _ h; simp only at h; rw [h] at hdl; simp at hdl
      · simp only [List.length_append, List.length_cons, List.length_nil, hdl, Nat.mul_add]
        omega

/-- What is known about the trees emitted for the chunks `ds`, with root `T` of height `h`. -/
structure Emitted (bf : Nat) (ds : List Bytes) (E : List FTree) (T : FTree) (h : Nat) : Prop where
  uniform : T.Uniform h
  arity : T.Arity bf
  leaves : T.leaves = ds
  perm : E.Perm T.nodes
  childrenFirst : ChildrenFirst E
  leafOrder : E.filterMap leafData = ds
  last : E.getLast? = some T
  high : ds.length ≤ bf ^ h
  low : h = 0 ∨ bf ^ (h - 1) < ds.length

theorem emission_spec {bf : Nat} (hbf : 2 ≤ bf) (ds : List Bytes) (d : Bytes) :
    ∃ T h, Emitted bf (ds ++ [d]) (emission bf ds d) T h := by
  have inv := runT_inv (show 0 < bf by omega) ds
  unfold emission
  obtain ⟨⟨⟨A, B⟩, E⟩, hst⟩ : ∃ st, runT bf ds = st := ⟨_, rfl⟩
  rw [hst] at inv ⊢
  obtain ⟨f, h1, h2, h3⟩ := inv
  simp only at f h1 h2 h3 ⊢
  obtain ⟨T, h, hf, hl, hm⟩ := finishT_inv hbf (A.length + B.length + 1) (forest_add_leaf f d h3) (by simp)
    (by simp) (.inl rfl) (by simp) (.inr (by simp; omega))
  refine ⟨T, h, hf.uniB T (by simp), hf.ar T (by simp), by simpa using hf.leaves, by simpa using hf.perm, hf.cf, hf.lv,
    hl, by simpa using hf.hi, hm⟩

/-- The height is the least `h` with `bf ^ h ≥` the number of leaves. -/
theorem Emitted.minimal {bf : Nat} (hbf : 2 ≤ bf) {ds : List Bytes} {E : List FTree} {T : FTree} {h : Nat}
    (e : Emitted bf ds E T h) {h' : Nat} (hh : ds.length ≤ bf ^ h') : h ≤ h' := by
  rcases e.low with h0 | h1
  · omega
  · refine Decidable.byContradiction fun hc => ?_
    have : bf ^ h' ≤ bf ^ (h - 1) := Nat.pow_le_pow_right (by omega) (by omega)
    omega

end Verif.Spec
