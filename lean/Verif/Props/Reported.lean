import Verif.Props.EndToEnd
import Verif.Spec.AtPath
/-
What a walk of a built directory reports for each path, exactly: files and symlinks at the links, one directory at each directory,
nothing elsewhere.
-/
namespace Verif.Props
open Verif Verif.Spec

section
variable {sha : Bytes → Bytes} {target : List Bytes → FsTree}

/-- A file or a symlink of that name. -/
def IsLeaf (n : Bytes) : FsTree → Prop
  | .file e _ => e.name = n
  | .symlink e _ => e.name = n
  | _ => False

/-- Every link leads to a file or a symlink of the right name. -/
def LeafTargets (target : List Bytes → FsTree) (path : List Bytes) (ks : List DTree) : Prop :=
  ∀ q n c s, lookupPath (q ++ [n]) ks = some (.link c s) → IsLeaf n (target (path ++ (q ++ [n])))

theorem LeafTargets.sub {path : List Bytes} {ks ks' : List DTree} {n k} (h : LeafTargets target path ks)
    (hk : kid n ks = some (.dir k ks')) : LeafTargets target (path ++ [n]) ks' := by
  intro q m c s hq
  have := h (n :: q) m c s (by rw [List.cons_append, lookupPath_cons_dir hk]; exact hq)
  rw [List.append_assoc]; exact this

theorem atPath_append (p : List Bytes) (a b : List ContinuedWalk) : atPath p (a ++ b) = atPath p a ++ atPath p b := by
  simp [atPath]

theorem atPath_nil {p : List Bytes} {items : List ContinuedWalk} (h : ∀ i ∈ items, itemPath i ≠ ⟨false, p⟩) : atPath p items = [] := by
  rw [atPath, List.filter_eq_nil_iff]
  intro i hi
  simpa using h i hi

theorem atPath_all {p : List Bytes} {items : List ContinuedWalk} (h : ∀ i ∈ items, itemPath i = ⟨false, p⟩) : atPath p items = items := by
  rw [atPath, List.filter_eq_self]
  intro i hi
  simpa using h i hi

theorem leaf_items {n : Bytes} (hn : n ≠ []) {t : FsTree} (h : IsLeaf n t) (path : List Bytes) :
    ∀ i ∈ t.items path, itemPath i = ⟨false, path ++ [n]⟩ := by
  intro i hi
  cases t with
  | file e T =>
    obtain rfl : e.name = n := h
    rw [FsTree.items, rootPath_ne hn] at hi
    obtain ⟨s, -, rfl⟩ := List.mem_map.1 hi
    rfl
  | symlink e tg =>
    obtain rfl : e.name = n := h
    rw [FsTree.items, rootPath_ne hn] at hi
    rw [List.mem_singleton] at hi
    subst hi
    rfl
  | _ => exact absurd h id

mutual
/-- Everything reported for an entry is at or below its path. -/
theorem entry_below (path : List Bytes) (ks : List DTree) (hf : LeafTargets target path ks) (hn : NonEmptyNames ks) :
    ∀ k : DTree, Sorted k → kid k.name ks = some k → ∀ i ∈ FsTree.items path (graft sha target path k),
      ∃ r, itemPath i = ⟨false, path ++ k.name :: r⟩
  | .link n c s, _, hk, i, hi => by
    have hk' : kid n ks = some (.link n c s) := hk
    have hl : lookupPath [n] ks = some (.link c s) := by rw [lookupPath_cons_link hk', if_pos rfl]
    have hne := hn [] n (by rw [List.nil_append, hl]; simp)
    exact ⟨[], leaf_items hne (hf [] n c s hl) path i hi⟩
  | .dir n ks', hs, hk, i, hi => by
    have hk' : kid n ks = some (.dir n ks') := hk
    have hr := rootPath_ne (hn [] n (by rw [List.nil_append, lookupPath_cons_dir hk', lookupPath_nil]; simp))
    rw [graft, FsTree.items] at hi
    simp only [hr] at hi
    rcases List.mem_cons.1 hi with rfl | hi
    · exact ⟨[], rfl⟩
    · obtain ⟨r, h⟩ := list_below (path ++ [n]) ks' (hf.sub hk') (hn.sub hk') ks' hs (fun k hk => kid_of_mem hs hk) i hi
      exact ⟨r, by rw [h, List.append_assoc]; rfl⟩
theorem list_below (path : List Bytes) (ks : List DTree) (hf : LeafTargets target path ks) (hn : NonEmptyNames ks) :
    ∀ part : List DTree, SortedL part → (∀ k ∈ part, kid k.name ks = some k) →
      ∀ i ∈ FsTree.itemsL path (graftL sha target path part), ∃ r, itemPath i = ⟨false, path ++ r⟩
  | [], _, _, i, hi => by cases hi
  | k :: rest, hs, hk, i, hi => by
    rw [graftL, FsTree.itemsL] at hi
    rcases List.mem_append.1 hi with hi | hi
    · obtain ⟨r, h⟩ := entry_below path ks hf hn k hs.2.1 (hk k (by simp)) i hi
      exact ⟨_, h⟩
    · exact list_below path ks hf hn rest hs.2.2 (fun k' hk' => hk k' (by simp [hk'])) i hi
end

/-- What is to be reported for a path of a directory tree, in the directory at `path`. -/
def reportAt (sha : Bytes → Bytes) (target : List Bytes → FsTree) (path : List Bytes) (ks : List DTree) (q : List Bytes) :
    List ContinuedWalk :=
  match lookupPath q ks, entriesAt q ks with
  | some (.link _ _), _ => (target (path ++ q)).items (path ++ q.dropLast)
  | some .dir, some es => [.Directory (cidOf sha (dirBlock (DTree.items sha es))) ⟨false, path ++ q⟩ {}]
  | _, _ => []

/-- The items reported at a path: exactly those. -/
theorem reported_exact : ∀ (q path : List Bytes) (ks : List DTree), q ≠ [] → SortedL ks → LeafTargets target path ks → NonEmptyNames ks →
    atPath (path ++ q) (FsTree.itemsL path (graftL sha target path ks)) = reportAt sha target path ks q := by
  intro q
  induction q with
  | nil => intro path ks hq; exact absurd rfl hq
  | cons n q ih =>
    intro path ks _ hs hf hn
    have hall : ∀ k' ∈ ks, kid k'.name ks = some k' := fun k' hk' => kid_of_mem hs hk'
    have other : ∀ k' ∈ ks, k'.name ≠ n → atPath (path ++ n :: q) (FsTree.items path (graft sha target path k')) = [] := by
      intro k' hk' hne
      refine atPath_nil fun i hi he => ?_
      obtain ⟨r, h⟩ := entry_below (sha := sha) path ks hf hn k' (hs.mem hk') (hall k' hk') i hi
      rw [he] at h
      have := List.append_cancel_left (PathBuf.mk.inj h).2
      cases this
      exact hne rfl
    have nil : ∀ l : List DTree, (∀ k' ∈ l, k' ∈ ks ∧ k'.name ≠ n) →
        atPath (path ++ n :: q) (l.flatMap (fun k => FsTree.items path (graft sha target path k))) = [] := by
      intro l hl
      induction l with
      | nil => rfl
      | cons k' l ihl =>
        rw [List.flatMap_cons, atPath_append, other k' (hl k' (by simp)).1 (hl k' (by simp)).2,
          ihl (fun k'' hk'' => hl k'' (by simp [hk'']))]; rfl
    cases hk : kid n ks with
    | none =>
      have : ∀ k' ∈ ks, k'.name ≠ n := by
        intro k' hk' he
        have := hall k' hk'
        rw [he, hk] at this; cases this
      rw [grafted_items, nil ks (fun k' hk' => ⟨hk', this k' hk'⟩), reportAt, lookupPath_cons_none hk]
    | some k =>
      have hkn := kid_name hk
      obtain ⟨before, after, hsplit⟩ := List.append_of_mem (kid_mem hk)
      have hdist : ∀ k' ∈ before ++ after, k'.name ≠ n := by
        intro k' hk' he
        have hm : k' ∈ ks := by rw [hsplit]; rcases List.mem_append.1 hk' with h | h <;> simp [h]
        have h1 := hall k' hm
        rw [he, hk] at h1
        cases h1
        have hp : ks.Pairwise (fun a b => a.name < b.name) := by
          clear ih hf hn hall other nil hsplit hk hm
          induction ks with
          | nil => exact .nil
          | cons a ks ihk => exact List.Pairwise.cons (fun b hb => hs.1 b hb) (ihk hs.2.2)
        rw [hsplit] at hp
        obtain ⟨-, hp2, hp3⟩ := List.pairwise_append.1 hp
        rcases List.mem_append.1 hk' with h | h
        · exact List.lt_irrefl _ (hp3 k h k (by simp))
        · exact List.lt_irrefl _ ((List.pairwise_cons.1 hp2).1 k h)
      rw [grafted_items]
      have hone : atPath (path ++ n :: q) (ks.flatMap (fun k => FsTree.items path (graft sha target path k))) =
          atPath (path ++ n :: q) (FsTree.items path (graft sha target path k)) := by
        have h1 := nil before (fun k' hk' => ⟨by rw [hsplit]; simp [hk'], hdist k' (by simp [hk'])⟩)
        have h2 := nil after (fun k' hk' => ⟨by rw [hsplit]; simp [hk'], hdist k' (by simp [hk'])⟩)
        conv => lhs; rw [hsplit]
        rw [List.flatMap_append, List.flatMap_cons, atPath_append, atPath_append, h1, h2, List.nil_append, List.append_nil]
      rw [hone]
      cases k with
      | link a c0 s0 =>
        obtain rfl : n = a := hkn.symm
        have hl : lookupPath ([] ++ [n]) ks = some (.link c0 s0) := by
          rw [List.nil_append, lookupPath_cons_link hk, if_pos rfl]
        have hne := hn [] n (by rw [hl]; simp)
        have hleaf := leaf_items hne (hf [] n c0 s0 hl) path
        rw [List.nil_append] at hleaf
        by_cases hq : q = []
        · subst hq
          rw [reportAt, lookupPath_cons_link hk, if_pos rfl]
          show atPath _ (FsTree.items path (target (path ++ [n]))) = _
          rw [atPath_all hleaf]
          simp
        · rw [reportAt, lookupPath_cons_link hk, if_neg hq]
          refine atPath_nil fun i hi he => ?_
          have h := hleaf i hi
          rw [he] at h
          have := List.append_cancel_left (PathBuf.mk.inj h).2
          cases this
          exact hq rfl
      | dir a ks' =>
        obtain rfl : n = a := hkn.symm
        have hr := rootPath_ne (hn [] n (by rw [List.nil_append, lookupPath_cons_dir hk, lookupPath_nil]; simp))
        have hsub := hs.mem (kid_mem hk)
        rw [graft, FsTree.items, hr]
        rw [show ∀ (a : ContinuedWalk) l, a :: l = [a] ++ l from fun _ _ => rfl, atPath_append]
        have hrep : reportAt sha target path ks (n :: q) =
            match lookupPath q ks', entriesAt q ks' with
            | some (.link _ _), _ => (target (path ++ n :: q)).items (path ++ (n :: q).dropLast)
            | some .dir, some es => [.Directory (cidOf sha (dirBlock (DTree.items sha es))) ⟨false, path ++ n :: q⟩ {}]
            | _, _ => [] := by
          rw [reportAt, lookupPath_cons_dir hk, entriesAt, hk]
        rw [hrep]
        by_cases hq : q = []
        · subst hq
          rw [lookupPath_nil, entriesAt]
          rw [atPath_all (items := [_]) (by intro i hi; rw [List.mem_singleton] at hi; subst hi; rfl)]
          rw [atPath_nil]
          · rfl
          · intro i hi he
            rw [itemsL_flatMap, graftL_map, List.flatMap_map] at hi
            obtain ⟨k', hk', hi⟩ := List.mem_flatMap.1 hi
            obtain ⟨r, h⟩ := entry_below (sha := sha) (path ++ [n]) ks' (hf.sub hk) (hn.sub hk) k' (SortedL.mem hsub hk') (kid_of_mem hsub hk') i hi
            rw [he] at h
            have := congrArg List.length (PathBuf.mk.inj h).2
            simp at this
        · have h1 := ih (path ++ [n]) ks' hq hsub (hf.sub hk) (hn.sub hk)
          rw [List.append_assoc, List.singleton_append] at h1
          rw [atPath_nil (items := [_]) (by
            intro i hi he
            rw [List.mem_singleton] at hi; subst hi
            have := congrArg List.length (PathBuf.mk.inj he).2
            simp only [List.length_append, List.length_cons, List.length_nil] at this
            have : q.length = 0 := by omega
            exact hq (List.length_eq_zero_iff.1 this)), List.nil_append, h1, reportAt]
          rw [List.append_assoc, List.singleton_append, List.append_assoc, List.singleton_append, List.dropLast_cons_of_ne_nil hq]
end

end Verif.Props
