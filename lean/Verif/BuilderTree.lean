import Verif.BuilderRun
namespace Verif
open Spec

/-! ### subdirectories -/

theorem entriesAt_dir {cs : List Bytes} : ∀ {ks es}, entriesAt cs ks = some es → ∀ q, lookupPath (cs ++ q) ks = lookupPath q es := by
  induction cs with
  | nil => intro ks es h q; cases h; rfl
  | cons n cs ih =>
    intro ks es h q
    rw [entriesAt] at h
    split at h
    · rename_i k ks' hk
      rw [List.cons_append, lookupPath_cons_dir hk]
      exact ih h q
    · cases h

theorem entriesAt_some {cs : List Bytes} : ∀ {ks}, lookupPath cs ks = some .dir ↔ ∃ es, entriesAt cs ks = some es := by
  induction cs with
  | nil => intro ks; simp [lookupPath_nil, entriesAt]
  | cons n cs ih =>
    intro ks
    rw [entriesAt]
    cases hk : kid n ks with
    | none => simp [lookupPath_cons_none hk]
    | some k =>
      cases k with
      | link k c s =>
        rw [lookupPath_cons_link hk]
        simp only [reduceCtorEq, exists_false, iff_false]
        split <;> simp
      | dir k ks' =>
        rw [lookupPath_cons_dir hk]
        exact ih

theorem entriesAt_append {cs ds : List Bytes} : ∀ {ks es}, entriesAt cs ks = some es → entriesAt (cs ++ ds) ks = entriesAt ds es := by
  induction cs with
  | nil => intro ks es h; cases h; rfl
  | cons n cs ih =>
    intro ks es h
    rw [entriesAt] at h
    rw [List.cons_append, entriesAt]
    split at h
    · rename_i k ks' hk
      exact ih h
    · cases h

/-- A property of all entries lists, inherited by subdirectories. -/
theorem entriesAt_induct {P : List DTree → Prop} (hP : ∀ ks, P ks → ∀ n k ks', kid n ks = some (.dir k ks') → P ks')
    {cs : List Bytes} : ∀ {ks es}, entriesAt cs ks = some es → P ks → P es := by
  induction cs with
  | nil => intro ks es h hp; cases h; exact hp
  | cons n cs ih =>
    intro ks es h hp
    rw [entriesAt] at h
    split at h
    · rename_i k ks' hk
      exact ih h (hP ks hp n k ks' hk)
    · cases h

theorem kid_name {n k} : ∀ {ks : List DTree}, kid n ks = some k → k.name = n := by
  intro ks
  induction ks with
  | nil => intro h; cases h
  | cons x ks ih =>
    intro h
    rw [kid] at h
    split at h
    · cases h; assumption
    · exact ih h

theorem kid_mem {n k} : ∀ {ks : List DTree}, kid n ks = some k → k ∈ ks := by
  intro ks
  induction ks with
  | nil => intro h; cases h
  | cons x ks ih =>
    intro h
    rw [kid] at h
    split at h
    · cases h; simp
    · simp [ih h]

theorem Spec.SortedL.mem {k} : ∀ {ks : List DTree}, SortedL ks → k ∈ ks → Sorted k := by
  intro ks
  induction ks with
  | nil => intro _ h; cases h
  | cons x ks ih =>
    intro h hk
    rcases List.mem_cons.1 hk with rfl | hk
    · exact h.2.1
    · exact ih h.2.2 hk

theorem TreeOkL.mem {k} : ∀ {ks : List DTree}, TreeOkL ks → k ∈ ks → TreeOk k := by
  intro ks
  induction ks with
  | nil => intro _ h; cases h
  | cons x ks ih =>
    intro h hk
    rcases List.mem_cons.1 hk with rfl | hk
    · exact h.1
    · exact ih h.2 hk

theorem entriesAt_sorted {cs ks es} (h : entriesAt cs ks = some es) (hs : SortedL ks) : SortedL es :=
  entriesAt_induct (fun _ hp _ _ _ hk => hp.mem (kid_mem hk)) h hs

theorem entriesAt_ok {cs ks es} (h : entriesAt cs ks = some es) (hs : TreeOkL ks) : TreeOkL es :=
  entriesAt_induct (P := TreeOkL) (fun _ hp _ _ _ hk => (hp.mem (kid_mem hk)).2.2.2) h hs

theorem kid_of_mem {k} : ∀ {ks : List DTree}, SortedL ks → k ∈ ks → kid k.name ks = some k := by
  intro ks
  induction ks with
  | nil => intro _ h; cases h
  | cons x ks ih =>
    intro h hk
    rw [kid]
    rcases List.mem_cons.1 hk with rfl | hk
    · rw [if_pos rfl]
    · have : x.name < k.name := h.1 k hk
      rw [if_neg (fun e => by rw [e] at this; exact List.lt_irrefl _ this)]
      exact ih h.2.2 hk

/-! ### sorted trees with the same paths are the same -/

theorem sorted_kid_ext : ∀ {as bs : List DTree}, SortedL as → SortedL bs → (∀ n, kid n as = kid n bs) → as = bs := by
  intro as
  induction as with
  | nil =>
    intro bs _ hb h
    cases bs with
    | nil => rfl
    | cons b bs => have := h b.name; rw [kid_of_mem hb (by simp)] at this; cases this
  | cons a as ih =>
    intro bs ha hb h
    cases bs with
    | nil => have := h a.name; rw [kid_of_mem ha (by simp)] at this; cases this
    | cons b bs =>
      have hab : a = b := by
        have h1 := h a.name
        rw [kid_of_mem ha (by simp)] at h1
        have h2 := h b.name
        rw [kid_of_mem hb (by simp)] at h2
        have m1 := List.mem_cons.1 (kid_mem h1.symm)
        have m2 := List.mem_cons.1 (kid_mem h2)
        rcases m1 with e | m1
        · exact e
        · rcases m2 with e | m2
          · exact e.symm
          · exact absurd (List.lt_trans (hb.1 a m1) (ha.1 b m2)) (List.lt_irrefl _)
      subst hab
      congr 1
      refine ih ha.2.2 hb.2.2 ?_
      intro n
      by_cases hn : a.name = n
      · have hno : ∀ ks : List DTree, (∀ k' ∈ ks, a.name < k'.name) → kid n ks = none := by
          intro ks hlt
          cases hk : kid n ks with
          | none => rfl
          | some k =>
            have := hlt k (kid_mem hk)
            rw [kid_name hk, hn] at this
            exact absurd this (List.lt_irrefl _)
        rw [hno as ha.1, hno bs hb.1]
      · have := h n
        rwa [kid, kid, if_neg hn, if_neg hn] at this

theorem lookup_ext (as bs : List DTree) (ha : SortedL as) (hb : SortedL bs)
    (h : ∀ q, lookupPath q as = lookupPath q bs) : as = bs := by
  refine sorted_kid_ext ha hb ?_
  intro n
  have h1 := h [n]
  cases ka : kid n as with
  | none =>
    rw [lookupPath_cons_none ka] at h1
    cases kb : kid n bs with
    | none => rfl
    | some k =>
      cases k with
      | link k c s => rw [lookupPath_cons_link kb] at h1; simp at h1
      | dir k ks => rw [lookupPath_cons_dir kb, lookupPath_nil] at h1; cases h1
  | some x =>
    cases kb : kid n bs with
    | none =>
      rw [lookupPath_cons_none kb] at h1
      cases x with
      | link k c s => rw [lookupPath_cons_link ka] at h1; simp at h1
      | dir k ks => rw [lookupPath_cons_dir ka, lookupPath_nil] at h1; cases h1
    | some y =>
      have na := kid_name ka
      have nb := kid_name kb
      have hsa := ha.mem (kid_mem ka)
      have hsb := hb.mem (kid_mem kb)
      have hmem := kid_mem ka
      congr 1
      cases x with
      | link k c s =>
        rw [lookupPath_cons_link ka] at h1
        cases y with
        | link k' c' s' =>
          rw [lookupPath_cons_link kb] at h1
          simp only [if_true, Option.some.injEq, Thing.link.injEq] at h1
          have e1 : k = n := na
          have e2 : k' = n := nb
          rw [e1, e2, h1.1, h1.2]
        | dir k' ks' => rw [lookupPath_cons_dir kb, lookupPath_nil] at h1; cases h1
      | dir k ks =>
        rw [lookupPath_cons_dir ka, lookupPath_nil] at h1
        cases y with
        | link k' c' s' => rw [lookupPath_cons_link kb] at h1; cases h1
        | dir k' ks' =>
          have e1 : k = n := na
          have e2 : k' = n := nb
          have : ks = ks' := by
            refine lookup_ext ks ks' hsa hsb ?_
            intro q
            have := h (n :: q)
            rwa [lookupPath_cons_dir ka, lookupPath_cons_dir kb] at this
          rw [e1, e2, this]
termination_by sizeOf as
decreasing_by
  have := List.sizeOf_lt_of_mem hmem
  simp at this
  omega

/-! ### the order of the nodes -/

mutual
/-- Paths of the directories, in the order of `DTree.postOrder`. -/
def postPaths (path : List Bytes) : DTree → List (List Bytes)
  | .link _ _ _ => []
  | .dir n ks => postPathsL (path ++ [n]) ks ++ [path ++ [n]]
def postPathsL (path : List Bytes) : List DTree → List (List Bytes)
  | [] => []
  | k :: ks => postPathsL path ks ++ postPaths path k
end

theorem lookupPath_tail {k : DTree} {ks : List DTree} {n : Bytes} {q : List Bytes} (h : k.name ≠ n) :
    lookupPath (n :: q) (k :: ks) = lookupPath (n :: q) ks := by
  rw [lookupPath, lookupPath, kid, if_neg h]

mutual
theorem mem_postPaths (path : List Bytes) : ∀ (k : DTree), Sorted k → ∀ cs,
    (cs ∈ postPaths path k ↔ ∃ n ks r, k = .dir n ks ∧ cs = path ++ n :: r ∧ lookupPath r ks = some .dir)
  | .link n c s, _, cs => by simp [postPaths]
  | .dir n ks, h, cs => by
    rw [postPaths, List.mem_append, mem_postPathsL (path ++ [n]) ks h cs, List.mem_singleton]
    constructor
    · rintro (⟨r, hr, rfl, hl⟩ | rfl)
      · exact ⟨n, ks, r, rfl, by simp, hl⟩
      · exact ⟨n, ks, [], rfl, rfl, lookupPath_nil ks⟩
    · rintro ⟨n', ks', r, he, rfl, hl⟩
      cases he
      by_cases hr : r = []
      · subst hr; exact .inr rfl
      · exact .inl ⟨r, hr, by simp, hl⟩
theorem mem_postPathsL (path : List Bytes) : ∀ (ks : List DTree), SortedL ks → ∀ cs,
    (cs ∈ postPathsL path ks ↔ ∃ r, r ≠ [] ∧ cs = path ++ r ∧ lookupPath r ks = some .dir)
  | [], _, cs => by
    simp only [postPathsL, List.not_mem_nil, false_iff, not_exists, not_and]
    intro r hr _
    cases r with
    | nil => exact absurd rfl hr
    | cons x r => simp [lookupPath, kid]
  | k :: ks, h, cs => by
    rw [postPathsL, List.mem_append, mem_postPathsL path ks h.2.2 cs, mem_postPaths path k h.2.1 cs]
    constructor
    · rintro (⟨r, hr, rfl, hl⟩ | ⟨n, ks', r, rfl, rfl, hl⟩)
      · cases r with
        | nil => exact absurd rfl hr
        | cons x r =>
          refine ⟨x :: r, by simp, rfl, ?_⟩
          rw [lookupPath_tail, hl]
          intro he
          cases hk : kid x ks with
          | none => rw [lookupPath_cons_none hk] at hl; cases hl
          | some y =>
            have := h.1 y (kid_mem hk)
            rw [kid_name hk, he] at this
            exact List.lt_irrefl _ this
      · refine ⟨n :: r, by simp, rfl, ?_⟩
        rw [lookupPath, kid, if_pos (show (DTree.dir n ks').name = n from rfl)]; exact hl
    · rintro ⟨r, hr, rfl, hl⟩
      cases r with
      | nil => exact absurd rfl hr
      | cons x r =>
        by_cases hx : k.name = x
        · right
          cases k with
          | link n c s => rw [lookupPath, kid, if_pos hx] at hl; simp at hl
          | dir n ks' =>
            rw [lookupPath, kid, if_pos hx] at hl
            exact ⟨n, ks', r, rfl, by rw [← hx]; rfl, hl⟩
        · left
          exact ⟨x :: r, by simp, rfl, by rwa [lookupPath_tail hx] at hl⟩
end

mutual
theorem postPaths_pairwise (path : List Bytes) : ∀ (k : DTree), Sorted k → (postPaths path k).Pairwise (fun a b => ¬ a <+: b)
  | .link _ _ _, _ => by simp [postPaths]
  | .dir n ks, h => by
    rw [postPaths, List.pairwise_append]
    refine ⟨postPathsL_pairwise (path ++ [n]) ks h, by simp, ?_⟩
    intro a ha b hb hp
    rw [List.mem_singleton] at hb
    subst hb
    obtain ⟨r, hr, rfl, _⟩ := (mem_postPathsL _ ks h a).1 ha
    have := hp.length_le
    have := List.length_pos_iff.2 hr
    simp only [List.length_append] at *
    omega
theorem postPathsL_pairwise (path : List Bytes) : ∀ (ks : List DTree), SortedL ks → (postPathsL path ks).Pairwise (fun a b => ¬ a <+: b)
  | [], _ => by simp [postPathsL]
  | k :: ks, h => by
    rw [postPathsL, List.pairwise_append]
    refine ⟨postPathsL_pairwise path ks h.2.2, postPaths_pairwise path k h.2.1, ?_⟩
    intro a ha b hb hp
    obtain ⟨r, hr, rfl, hl⟩ := (mem_postPathsL _ ks h.2.2 a).1 ha
    obtain ⟨n, ks', r', rfl, rfl, _⟩ := (mem_postPaths _ k h.2.1 b).1 hb
    cases r with
    | nil => exact absurd rfl hr
    | cons x r =>
      rw [List.prefix_append_right_inj, List.cons_prefix_cons] at hp
      cases hk : kid x ks with
      | none => rw [lookupPath_cons_none hk] at hl; cases hl
      | some y =>
        have := h.1 y (kid_mem hk)
        rw [kid_name hk, hp.1] at this
        exact List.lt_irrefl _ this
end

section
variable (sha : Bytes → Bytes)

mutual
/-- The nodes are those at the paths, in the same order. -/
theorem postOrder_at (ks0 : List DTree) (path : List Bytes) (full : List DTree) (hp : entriesAt path ks0 = some full) :
    ∀ (k : DTree), Sorted k → kid k.name full = some k →
    (DTree.postOrder sha path k).map some = (postPaths path k).map (fun cs => (entriesAt cs ks0).map (nodeOf sha cs))
  | .link _ _ _, _, _ => by simp [postPaths, DTree.postOrder]
  | .dir n ks, h, hk => by
    have he : entriesAt (path ++ [n]) ks0 = some ks := by
      have hk' : kid n full = some (.dir n ks) := hk
      rw [entriesAt_append hp, entriesAt, hk']; rfl
    rw [DTree.postOrder, postPaths, List.map_append, List.map_append,
      postOrderL_at ks0 (path ++ [n]) ks he ks h (fun k hk => kid_of_mem h hk)]
    simp [he]
theorem postOrderL_at (ks0 : List DTree) (path : List Bytes) (full : List DTree) (hp : entriesAt path ks0 = some full) :
    ∀ (ks : List DTree), SortedL ks → (∀ k ∈ ks, kid k.name full = some k) →
    (DTree.postOrderL sha path ks).map some = (postPathsL path ks).map (fun cs => (entriesAt cs ks0).map (nodeOf sha cs))
  | [], _, _ => rfl
  | k :: ks, h, hk => by
    rw [DTree.postOrderL, postPathsL, List.map_append, List.map_append,
      postOrderL_at ks0 path full hp ks h.2.2 (fun k' hk' => hk k' (by simp [hk'])),
      postOrder_at ks0 path full hp k h.2.1 (hk k (by simp))]
end

/-- The paths of all built directories in the order of their nodes. -/
def builtPaths (wrap : Bool) (ks : List DTree) : List (List Bytes) := postPathsL [] ks ++ if wrap then [[]] else []

theorem allNodes_at (wrap : Bool) {ks : List DTree} (h : SortedL ks) :
    (allNodes sha wrap ks).map some = (builtPaths wrap ks).map (fun cs => (entriesAt cs ks).map (nodeOf sha cs)) := by
  unfold allNodes builtPaths
  rw [List.map_append, List.map_append, postOrderL_at sha ks [] ks rfl ks h (fun k hk => kid_of_mem h hk)]
  congr 1
  cases wrap <;> simp [entriesAt]

theorem mem_builtPaths (wrap : Bool) {ks : List DTree} (h : SortedL ks) (cs : List Bytes) :
    cs ∈ builtPaths wrap ks ↔ lookupPath cs ks = some .dir ∧ (cs = [] → wrap = true) := by
  unfold builtPaths
  rw [List.mem_append, mem_postPathsL [] ks h]
  constructor
  · rintro (⟨r, hr, rfl, hl⟩ | hm)
    · exact ⟨hl, fun e => absurd e hr⟩
    · cases wrap with
      | false => simp at hm
      | true =>
        have : cs = [] := by simpa using hm
        subst this
        exact ⟨lookupPath_nil ks, fun _ => rfl⟩
  · rintro ⟨hl, hw⟩
    by_cases hc : cs = []
    · right; simp [hw hc, hc]
    · left; exact ⟨cs, hc, rfl, hl⟩

theorem builtPaths_pairwise (wrap : Bool) {ks : List DTree} (h : SortedL ks) : (builtPaths wrap ks).Pairwise (fun a b => ¬ a <+: b) := by
  unfold builtPaths
  rw [List.pairwise_append]
  refine ⟨postPathsL_pairwise [] ks h, by cases wrap <;> simp, ?_⟩
  intro a ha b hb hp
  obtain ⟨r, hr, rfl, _⟩ := (mem_postPathsL [] ks h a).1 ha
  cases wrap with
  | false => simp at hb
  | true =>
    have : b = [] := by simpa using hb
    subst this
    exact hr (by simpa using hp)

theorem mem_allNodes (wrap : Bool) {ks : List DTree} (h : SortedL ks) (x : TreeNode) :
    x ∈ allNodes sha wrap ks ↔ ∃ cs, (lookupPath cs ks = some .dir ∧ (cs = [] → wrap = true)) ∧ NodeAt sha ks cs x := by
  have : x ∈ allNodes sha wrap ks ↔ some x ∈ (allNodes sha wrap ks).map some := by simp
  rw [this, allNodes_at sha wrap h, List.mem_map]
  constructor
  · rintro ⟨cs, hcs, he⟩
    refine ⟨cs, (mem_builtPaths wrap h cs).1 hcs, ?_⟩
    cases hes : entriesAt cs ks with
    | none => rw [hes] at he; cases he
    | some es => rw [hes] at he; exact ⟨es, hes, by cases he; rfl⟩
  · rintro ⟨cs, hcs, es, hes, rfl⟩
    exact ⟨cs, (mem_builtPaths wrap h cs).2 hcs, by rw [hes]; rfl⟩

end

end Verif
