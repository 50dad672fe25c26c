import Verif.IterRoot
import Verif.Spec.Answers
/-
The iterator gives all the answers of `Spec.allAnswers`.
-/
namespace Verif
open Spec

/-- How an entry appears among the parent's leaves. -/
def cell (sha : Bytes → Bytes) (lim : Option Nat) (k : DTree) : Option NamedLeaf :=
  if fate sha lim k = .filled then some (DTree.item sha k).toLeaf else none

section
variable (sha : Bytes → Bytes)

theorem worse_panicked {a b : Fate} : a.worse b = .panicked ↔ a = .panicked ∨ b = .panicked := by
  cases a <;> cases b <;> simp [Fate.worse]
theorem worse_filled {a b : Fate} : a.worse b = .filled ↔ a = .filled ∧ b = .filled := by
  cases a <;> cases b <;> simp [Fate.worse]

theorem fateL_filled {lim : Option Nat} {ks : List DTree} : fateL sha lim ks = .filled ↔ ∀ k ∈ ks, fate sha lim k = .filled := by
  induction ks with
  | nil => simp [fateL]
  | cons k ks ih => rw [fateL, worse_filled, ih]; simp [and_comm]

theorem tooLarge_iff {lim : Option Nat} {n : Nat} : tooLarge lim n = true ↔ ∃ l, lim = some l ∧ l < n := by
  cases lim <;> simp [tooLarge]

theorem within_iff {lim : Option Nat} {x : TreeNode} : Within lim x ↔ tooLarge lim x.block.length = false := by
  cases lim with
  | none => simp [Within, tooLarge]
  | some l => simp [Within, tooLarge]

theorem dirFate_filled {lim : Option Nat} {ks : List DTree} {f : Fate} : dirFate sha lim ks f = .filled ↔
    f = .filled ∧ tooLarge lim (dirBlock (DTree.items sha ks)).length = false ∧ dirTotal (DTree.items sha ks) < U64 := by
  cases f with
  | panicked => simp [dirFate]
  | missing => simp [dirFate]
  | filled =>
    unfold dirFate
    cases h : tooLarge lim (dirBlock (DTree.items sha ks)).length with
    | true => simp
    | false =>
      by_cases h2 : dirTotal (DTree.items sha ks) < U64
      · simp [h2]
      · simp [h2]

mutual
theorem fate_fits {lim : Option Nat} (path : List Bytes) : ∀ k : DTree, fate sha lim k = .filled →
    ∀ x ∈ DTree.postOrder sha path k, x.total_size < U64 ∧ Within lim x
  | .link _ _ _, _, x, hx => by cases hx
  | .dir n ks, h, x, hx => by
    rw [fate, dirFate_filled] at h
    rw [DTree.postOrder, List.mem_append, List.mem_singleton] at hx
    rcases hx with hx | rfl
    · exact fateL_fits (path ++ [n]) ks h.1 x hx
    · exact ⟨h.2.2, within_iff.2 h.2.1⟩
theorem fateL_fits {lim : Option Nat} (path : List Bytes) : ∀ ks : List DTree, fateL sha lim ks = .filled →
    ∀ x ∈ DTree.postOrderL sha path ks, x.total_size < U64 ∧ Within lim x
  | [], _, x, hx => by cases hx
  | k :: ks, h, x, hx => by
    rw [fateL, worse_filled] at h
    rw [DTree.postOrderL, List.mem_append] at hx
    rcases hx with hx | hx
    · exact fateL_fits path ks h.1 x hx
    · exact fate_fits path k h.2 x hx
end

theorem cells_filled {lim : Option Nat} {ks : List DTree} (h : fateL sha lim ks = .filled) :
    ks.map (cell sha lim) = ((DTree.items sha ks).map Item.toLeaf).map some := by
  induction ks with
  | nil => rfl
  | cons k ks ih =>
    rw [fateL, worse_filled] at h
    rw [List.map_cons, ih h.1, DTree.items, List.map_cons, List.map_cons, cell, if_pos h.2]

theorem cells_missing {lim : Option Nat} {ks : List DTree} (h : fateL sha lim ks ≠ .filled) : unwrapAll (ks.map (cell sha lim)) = none := by
  induction ks with
  | nil => exact absurd rfl h
  | cons k ks ih =>
    rw [List.map_cons, cell]
    by_cases hk : fate sha lim k = .filled
    · rw [if_pos hk, unwrapAll, ih (fun h' => h (by rw [fateL, worse_filled]; exact ⟨h', hk⟩))]; rfl
    · rw [if_neg hk, unwrapAll]

/-- Steps which give the given answers. -/
inductive RunsA : PostOrderIterator → List IterNext → PostOrderIterator → Prop
  | refl (it) : RunsA it [] it
  | cont {it it1 it2 out} : it.step sha = .continue it1 → RunsA it1 out it2 → RunsA it out it2
  | item {it it1 it2 n out} : it.step sha = .item it1 n → RunsA it1 out it2 → RunsA it (.item n :: out) it2
  | failed {it it1 it2 e out} : it.step sha = .failed it1 e → RunsA it1 out it2 → RunsA it (.failed e :: out) it2

theorem RunsA.trans {a b c x y} (h : RunsA sha a x b) (h' : RunsA sha b y c) : RunsA sha a (x ++ y) c := by
  induction h with
  | refl => exact h'
  | cont hs _ ih => exact .cont hs (ih h')
  | item hs _ ih => exact .item hs (ih h')
  | failed hs _ ih => exact .failed hs (ih h')

/-- The answers end with a panic; or the iterator ends in a state with `Q`. -/
def OutA (it : PostOrderIterator) (as : List IterNext) (f : Fate) (Q : PostOrderIterator → Prop) : Prop :=
  (f = .panicked ∧ ∃ before p it', as = before ++ [.panic p] ∧ RunsA sha it before it' ∧ it'.step sha = .panic p) ∨
  (f ≠ .panicked ∧ ∃ it', RunsA sha it as it' ∧ Q it')

theorem OutA.cont {it it1 as f Q} (hs : it.step sha = .continue it1) (h : OutA sha it1 as f Q) : OutA sha it as f Q := by
  rcases h with ⟨hf, before, p, it', h1, h2, h3⟩ | ⟨hf, it', h1, h2⟩
  · exact .inl ⟨hf, before, p, it', h1, .cont hs h2, h3⟩
  · exact .inr ⟨hf, it', .cont hs h1, h2⟩

theorem OutA.imp {it as f Q R} (h : OutA sha it as f Q) (hi : ∀ it', Q it' → R it') : OutA sha it as f R := by
  rcases h with h | ⟨hf, it', h1, h2⟩
  · exact .inl h
  · exact .inr ⟨hf, it', h1, hi _ h2⟩

/-- One thing after the other. -/
theorem OutA.append {it as bs f g h Q R} (h1 : OutA sha it as f Q) (hp : f = .panicked → bs = [] ∧ h = .panicked)
    (h2 : f ≠ .panicked → ∀ it', Q it' → OutA sha it' bs g R) (hh : f ≠ .panicked → (h = .panicked ↔ g = .panicked)) :
    OutA sha it (as ++ bs) h R := by
  rcases h1 with ⟨hf, before, p, it', e1, e2, e3⟩ | ⟨hf, it', e1, e2⟩
  · obtain ⟨rfl, rfl⟩ := hp hf
    exact .inl ⟨rfl, before, p, it', by rw [e1, List.append_nil], e2, e3⟩
  · rcases h2 hf it' e2 with ⟨hg, before, p, it2, g1, g2, g3⟩ | ⟨hg, it2, g1, g2⟩
    · exact .inl ⟨(hh hf).2 hg, as ++ before, p, it2, by rw [g1, List.append_assoc], e1.trans sha g2, g3⟩
    · exact .inr ⟨fun h => hg ((hh hf).1 h), it2, e1.trans sha g1, g2⟩

variable (hsha : ∀ b, (sha b).length = 32)
include hsha

/-- The step for a directory all of whose entries have been dealt with. -/
theorem all_post {it : PostOrderIterator} {P cs name depth idx parent ls leaves persisted vec opts} {ks : List DTree}
    (hp : it.pending = .Post parent depth name idx ls :: P) (hd : depth = cs.length + 1) (ho : it.opts = opts)
    (hg : GoodPath it cs) (hcs : ∀ c ∈ cs, c ≠ [])
    (hi : ls.intoInner it.persisted_cids = .ok (leaves, persisted))
    (hl : leaves = ks.map (cell sha opts.block_size_limit)) (hok : TreeOkL ks) (hn : slash ∉ name)
    (hnp : fateL sha opts.block_size_limit ks ≠ .panicked)
    (hv : persisted parent = some vec) (hc : vec[idx]? = some none) :
    OutA sha it (dirAnswer sha opts.block_size_limit (cs ++ [name]) ks (fateL sha opts.block_size_limit ks))
      (fate sha opts.block_size_limit (.dir name ks))
      (fun it' => it'.pending = P ∧ it'.opts = opts ∧ GoodPath it' cs ∧
        it'.persisted_cids parent = some (vec.set idx (cell sha opts.block_size_limit (.dir name ks))) ∧
        ∀ k ≠ parent, it'.persisted_cids k = persisted k) := by
  obtain ⟨more, hf, hdep, hm⟩ := hg
  have hu : updateFullPath it.full_path it.old_depth (some name) depth = .ok (joinSlash (cs ++ [name]), cs.length + 1) := by
    rw [hf, hdep, hd]; exact updateFullPath_spec cs more name hcs hm
  have hgood : ∀ it' : PostOrderIterator, it'.full_path = joinSlash (cs ++ [name]) → it'.old_depth = cs.length + 1 → GoodPath it' cs := by
    intro it' h1 h2
    refine ⟨[name], h1, by simp [h2], ?_⟩
    intro x hx; simp only [List.mem_singleton] at hx; subst hx; exact hn
  rw [fate]
  cases hfa : fateL sha opts.block_size_limit ks with
  | panicked => exact absurd hfa hnp
  | missing =>
    left
    refine ⟨rfl, [], .customPbMissing, it, rfl, .refl it, ?_⟩
    have hun := cells_missing sha (lim := opts.block_size_limit) (ks := ks) (by rw [hfa]; decide)
    unfold PostOrderIterator.step
    rw [hp]
    simp only [Visited.nameDepth, hu, hi, ho, hl, renderDirectory, hun]
  | filled =>
    have hitems := items_ok sha hsha (cs ++ [name]) ks hok (fun x hx => (fateL_fits sha _ ks hfa x hx).1)
    have hr := renderDirectory_eq sha hitems it.block_buffer opts.block_size_limit
    rw [← cells_filled sha hfa, ← hl] at hr
    unfold dirAnswer dirFate
    simp only
    by_cases hlim : tooLarge opts.block_size_limit (dirBlock (DTree.items sha ks)).length = true
    · rw [if_pos (tooLarge_iff.1 hlim)] at hr
      rw [if_pos hlim, if_pos hlim]
      right
      refine ⟨by simp, { it with
        full_path := joinSlash (cs ++ [name]), old_depth := cs.length + 1, pending := P, persisted_cids := persisted },
        .failed ?_ (.refl _), rfl, ho, hgood _ rfl rfl, ?_, fun _ _ => rfl⟩
      · unfold PostOrderIterator.step
        rw [hp]
        simp only [Visited.nameDepth, hu, hi, ho, hr]
      · have hcell : cell sha opts.block_size_limit (.dir name ks) = none := by
          rw [cell, fate, hfa, if_neg]
          rw [dirFate_filled]
          simp [hlim]
        show persisted parent = _
        rw [hv, hcell]
        congr 1
        refine List.ext_getElem? fun i => ?_
        rw [List.getElem?_set]
        by_cases hii : idx = i
        · subst hii
          rw [if_pos rfl, hc]
          have : idx < vec.length := by
            rcases Nat.lt_or_ge idx vec.length with h | h
            · exact h
            · rw [List.getElem?_eq_none h] at hc; cases hc
          simp [this]
        · rw [if_neg hii]
    · rw [if_neg (fun h => hlim (tooLarge_iff.2 h))] at hr
      rw [if_neg hlim, if_neg hlim]
      by_cases htot : dirTotal (DTree.items sha ks) < U64
      · rw [if_pos htot] at hr
        rw [if_pos htot, if_pos htot]
        right
        refine ⟨by simp, { it with
          full_path := joinSlash (cs ++ [name]), old_depth := cs.length + 1, pending := P,
          block_buffer := dirBlock (DTree.items sha ks),
          persisted_cids := hmInsert persisted parent (vec.set idx (some (DTree.item sha (.dir name ks)).toLeaf)) },
          .item ?_ (.refl _), rfl, ho, hgood _ rfl rfl, ?_, ?_⟩
        · unfold PostOrderIterator.step
          rw [hp]
          simp only [Visited.nameDepth, hu, hi, ho, hr, hv, hc]
          rfl
        · have hcell : cell sha opts.block_size_limit (.dir name ks) = some (DTree.item sha (.dir name ks)).toLeaf := by
            rw [cell, fate, hfa, if_pos]
            rw [dirFate_filled]
            simp [htot]
            simpa using hlim
          show hmInsert _ _ _ _ = _
          rw [hmInsert_self, hcell]
        · intro k hk
          show hmInsert _ _ _ _ = _
          rw [hmInsert_ne _ _ hk]
      · rw [if_neg htot] at hr
        rw [if_neg htot, if_neg htot]
        left
        refine ⟨rfl, [], .iterOverflow, it, rfl, .refl it, ?_⟩
        unfold PostOrderIterator.step
        rw [hp]
        simp only [Visited.nameDepth, hu, hi, ho, hr]

omit hsha in
/-- Without subdirectories nothing can go wrong. -/
theorem direct_all (lim : Option Nat) (depth : Nat) : ∀ (ns : List DNode) (i : Nat), (partitionChildrenLeaves depth i ns).2 = [] →
    (partitionChildrenLeaves depth i ns).1 = (stripL ns).map (cell sha lim) ∧
    fateL sha lim (stripL ns) = .filled ∧ ∀ path, answersL sha lim path (stripL ns) = []
  | [], _, _ => ⟨rfl, rfl, fun _ => rfl⟩
  | .leaf k c s :: ns, i, h => by
    obtain ⟨h1, h2, h3⟩ := direct_all lim depth ns (i + 1) h
    refine ⟨?_, ?_, ?_⟩
    · show some _ :: (partitionChildrenLeaves depth (i + 1) ns).1 = _
      rw [h1]; rfl
    · show (fateL sha lim (stripL ns)).worse _ = _
      rw [h2]; rfl
    · intro path
      show answersL sha lim path (stripL ns) ++ _ = _
      rw [h3, h2]; rfl
  | .dir k nodes md pid id :: ns, i, h => by cases h

mutual
theorem all_node (opts : TreeOptions) : ∀ (n : DNode) (k : Bytes) (ns : List DNode) (md : Metadata) (pid : Option Nat) (id : Nat)
    (it : PostOrderIterator) (P : List Visited) (parent idx : Nat) (vec : Leaves) (cs : List Bytes),
    n = .dir k ns md pid id → IdsOk parent n → TreeOk n.strip →
    it.pending = .Descent ⟨ns, md, pid, id⟩ k (cs.length + 1) idx :: P → it.opts = opts → GoodPath it cs → (∀ c ∈ cs, c ≠ []) →
    it.persisted_cids parent = some vec → vec[idx]? = some none →
    OutA sha it (answers sha opts.block_size_limit cs n.strip) (fate sha opts.block_size_limit n.strip)
      (NodePost opts P cs parent (vec.set idx (cell sha opts.block_size_limit n.strip)) it)
  | .leaf _ _ _, _, _, _, _, _, _, _, _, _, _, _, h, _, _, _, _, _, _, _, _ => by cases h
  | .dir k ns md pid id, _, _, _, _, _, it, P, parent, idx, vec, cs, rfl, hids, hok, hp, ho, hg, hcs, hv, hc => by
    obtain ⟨rfl, hlt, hidsL⟩ := hids
    obtain ⟨hname, hslash, hne, hokL⟩ := hok
    obtain ⟨more, hf, hdep, hm⟩ := hg
    have hu : updateFullPath it.full_path it.old_depth (some k) (cs.length + 1) = .ok (joinSlash (cs ++ [k]), cs.length + 1) := by
      rw [hf, hdep]; exact updateFullPath_spec cs more k hcs hm
    simp only [DNode.strip, answers]
    by_cases hch : (partitionChildrenLeaves (cs.length + 1) 0 ns).2 = []
    · obtain ⟨hl, hfill, hnone⟩ := direct_all sha opts.block_size_limit (cs.length + 1) ns 0 hch
      rw [hnone, List.nil_append]
      have hstep : it.step sha = .continue { it with
          full_path := joinSlash (cs ++ [k]), old_depth := cs.length + 1,
          pending := .Post parent (cs.length + 1) k idx (.Direct (partitionChildrenLeaves (cs.length + 1) 0 ns).1) :: P } := by
        unfold PostOrderIterator.step
        rw [hp]
        simp only [Visited.nameDepth, hu, stashLeaves, hch]
        simp
      refine OutA.cont sha hstep ?_
      refine OutA.imp sha (all_post sha hsha (it := { it with
          full_path := joinSlash (cs ++ [k]), old_depth := cs.length + 1,
          pending := .Post parent (cs.length + 1) k idx (.Direct (partitionChildrenLeaves (cs.length + 1) 0 ns).1) :: P })
          (opts := opts) (ks := stripL ns) rfl rfl ho
          (GoodPath.up hslash (GoodPath.mk' rfl rfl)) hcs rfl hl hokL hslash (by rw [hfill]; decide) hv hc) ?_
      rintro it' ⟨h1, h2, h3, h4, h5⟩
      exact ⟨h1, h2, h3, h4, fun i hi => h5 i (by omega)⟩
    · have hnsne : ns ≠ [] := by rintro rfl; exact hch rfl
      have hkne : k ≠ [] := hne (by rw [ne_eq, stripL_eq_nil]; exact hnsne)
      have hstep : it.step sha = .continue { it with
          full_path := joinSlash (cs ++ [k]), old_depth := cs.length + 1,
          persisted_cids := hmInsert it.persisted_cids id (partitionChildrenLeaves (cs.length + 1) 0 ns).1,
          pending := (partitionChildrenLeaves (cs.length + 1) 0 ns).2.reverse ++
            .Post parent (cs.length + 1) k idx (.Stashed id) :: P } := by
        unfold PostOrderIterator.step
        rw [hp]
        simp only [Visited.nameDepth, hu, stashLeaves, ne_eq, hch, not_false_eq_true, if_true]
      refine OutA.cont sha hstep ?_
      have hlist := all_list opts ns { it with
          full_path := joinSlash (cs ++ [k]), old_depth := cs.length + 1,
          persisted_cids := hmInsert it.persisted_cids id (partitionChildrenLeaves (cs.length + 1) 0 ns).1,
          pending := (partitionChildrenLeaves (cs.length + 1) 0 ns).2.reverse ++
            .Post parent (cs.length + 1) k idx (.Stashed id) :: P }
        (.Post parent (cs.length + 1) k idx (.Stashed id) :: P) id [] (cs ++ [k]) hidsL hokL
        (by simp) ho (GoodPath.mk' rfl rfl)
        (by intro c hc'; rcases List.mem_append.1 hc' with h | h
            · exact hcs c h
            · simp only [List.mem_singleton] at h; subst h; exact hkne)
        (by simp [hmInsert])
      refine OutA.append sha hlist (g := fate sha opts.block_size_limit (.dir k (stripL ns))) ?_ ?_ (fun _ => Iff.rfl)
      · intro hpan
        rw [hpan]; rw [fate, hpan]; exact ⟨rfl, rfl⟩
      · intro hnp it1 h1
        have hpar : it1.persisted_cids parent = some vec := by
          rw [h1.frame parent hlt]
          show hmInsert it.persisted_cids id _ parent = _
          rw [hmInsert_ne _ _ (by omega), hv]
        have hin : (LeafStorage.Stashed id).intoInner it1.persisted_cids =
            .ok ((stripL ns).map (cell sha opts.block_size_limit), hmRemove it1.persisted_cids id) := by
          simp only [LeafStorage.intoInner, h1.cells, List.nil_append]
        refine OutA.imp sha (all_post sha hsha (it := it1) (opts := opts) (ks := stripL ns) h1.pending rfl h1.opts (GoodPath.up hslash h1.good) hcs
          hin rfl hokL hslash hnp (by rw [hmRemove_ne _ (by omega)]; exact hpar) hc) ?_
        rintro it' ⟨g1, g2, g3, g4, g5⟩
        refine ⟨g1, g2, g3, g4, fun i hi => ?_⟩
        rw [g5 i (by omega), hmRemove_ne _ (by omega), h1.frame i (by omega)]
        show hmInsert it.persisted_cids id _ i = _
        rw [hmInsert_ne _ _ (by omega)]

theorem all_list (opts : TreeOptions) : ∀ (ns : List DNode) (it : PostOrderIterator) (P : List Visited) (parent : Nat)
    (pre : Leaves) (cs : List Bytes),
    IdsOkL parent ns → TreeOkL (stripL ns) →
    it.pending = (partitionChildrenLeaves cs.length pre.length ns).2.reverse ++ P → it.opts = opts → GoodPath it cs →
    (∀ c ∈ cs, c ≠ []) → it.persisted_cids parent = some (pre ++ (partitionChildrenLeaves cs.length pre.length ns).1) →
    OutA sha it (answersL sha opts.block_size_limit cs (stripL ns)) (fateL sha opts.block_size_limit (stripL ns))
      (NodePost opts P cs parent (pre ++ (stripL ns).map (cell sha opts.block_size_limit)) it)
  | [], it, P, parent, pre, cs, _, _, hp, ho, hg, _, hv => by
    refine .inr ⟨by simp [stripL, fateL], it, .refl it, by simpa [partitionChildrenLeaves] using hp, ho, hg, ?_, fun _ _ => rfl⟩
    rw [hv]; rfl
  | .leaf k c s :: ns, it, P, parent, pre, cs, hids, hok, hp, ho, hg, hcs, hv => by
    have := all_list opts ns it P parent (pre ++ [some ⟨k, c, s⟩]) cs hids.2 hok.2
      (by simpa [partitionChildrenLeaves] using hp) ho hg hcs (by rw [hv]; simp [partitionChildrenLeaves])
    have e1 : answersL sha opts.block_size_limit cs (stripL (.leaf k c s :: ns)) = answersL sha opts.block_size_limit cs (stripL ns) := by
      show _ ++ (if _ then [] else []) = _
      rw [ite_self, List.append_nil]
    have e2 : fateL sha opts.block_size_limit (stripL (.leaf k c s :: ns)) = fateL sha opts.block_size_limit (stripL ns) := by
      show (fateL sha opts.block_size_limit (stripL ns)).worse .filled = _
      cases fateL sha opts.block_size_limit (stripL ns) <;> rfl
    rw [e1, e2]
    refine OutA.imp sha this ?_
    intro it' h
    refine ⟨h.pending, h.opts, h.good, ?_, h.frame⟩
    rw [h.cells, List.append_assoc]
    rfl
  | .dir k nodes md pid id :: ns, it, P, parent, pre, cs, hids, hok, hp, ho, hg, hcs, hv => by
    have h1 := all_list opts ns it (.Descent ⟨nodes, md, pid, id⟩ k (cs.length + 1) pre.length :: P) parent (pre ++ [none]) cs
      hids.2 hok.2
      (by rw [hp]; simp [partitionChildrenLeaves]) ho hg hcs (by rw [hv]; simp [partitionChildrenLeaves])
    rw [stripL, answersL, fateL]
    refine OutA.append sha h1 (g := fate sha opts.block_size_limit (DNode.strip (.dir k nodes md pid id))) ?_ ?_ ?_
    · intro hpan
      rw [hpan]; exact ⟨rfl, rfl⟩
    · intro hnp it1 hq
      rw [if_neg hnp]
      have h2 := all_node opts (.dir k nodes md pid id) k nodes md pid id it1 P parent pre.length _ cs rfl hids.1 hok.1
        hq.pending hq.opts hq.good hcs hq.cells (by simp)
      refine OutA.imp sha h2 ?_
      intro it' h
      refine ⟨h.pending, h.opts, h.good, ?_, fun i hi => by rw [h.frame i hi, hq.frame i hi]⟩
      rw [h.cells]
      simp
    · intro hnp
      rw [worse_panicked]
      simp [hnp]
end

/-- The whole life of an iterator. -/
theorem all_root (root : DirBuilder) (opts : TreeOptions) (hids : IdsOkL root.id root.nodes) (hok : TreeOkL (stripL root.nodes)) :
    ∃ f, OutA sha (PostOrderIterator.new root opts) (allAnswers sha opts (stripL root.nodes)) f
      (fun it => ∃ it', it.step sha = .done it' ∧ it'.pending = []) := by
  have hlast : ∀ (it : PostOrderIterator) ls persisted, it.pending = [.PostRoot ls] → it.opts = opts →
      fateL sha opts.block_size_limit (stripL root.nodes) ≠ .panicked →
      ls.intoInner it.persisted_cids = .ok ((stripL root.nodes).map (cell sha opts.block_size_limit), persisted) →
      ∃ f, OutA sha it (if opts.wrap_with_directory then dirAnswer sha opts.block_size_limit [] (stripL root.nodes)
          (fateL sha opts.block_size_limit (stripL root.nodes)) else []) f
        (fun it => ∃ it', it.step sha = .done it' ∧ it'.pending = []) := by
    intro it ls persisted hp ho hnp hi
    by_cases hw : opts.wrap_with_directory = true
    · rw [if_pos hw]
      cases hfa : fateL sha opts.block_size_limit (stripL root.nodes) with
      | panicked => exact absurd hfa hnp
      | missing =>
        refine ⟨.panicked, .inl ⟨rfl, [], .customPbMissing, it, rfl, .refl it, ?_⟩⟩
        have hun := cells_missing sha (lim := opts.block_size_limit) (ks := stripL root.nodes) (by rw [hfa]; decide)
        unfold PostOrderIterator.step
        rw [hp]
        simp only [Visited.nameDepth, updateFullPath_root, hi, ho, hw, renderDirectory, hun]
        rfl
      | filled =>
        have hitems := items_ok sha hsha [] (stripL root.nodes) hok (fun x hx => (fateL_fits sha _ _ hfa x hx).1)
        have hr := renderDirectory_eq sha hitems it.block_buffer opts.block_size_limit
        rw [← cells_filled sha hfa] at hr
        unfold dirAnswer
        simp only
        by_cases hlim : tooLarge opts.block_size_limit (dirBlock (DTree.items sha (stripL root.nodes))).length = true
        · rw [if_pos (tooLarge_iff.1 hlim)] at hr
          rw [if_pos hlim]
          refine ⟨.missing, .inr ⟨by simp, { it with full_path := [], old_depth := 0, pending := [], persisted_cids := persisted },
            .failed ?_ (.refl _), _, by simp [PostOrderIterator.step]; rfl, rfl⟩⟩
          unfold PostOrderIterator.step
          rw [hp]
          simp only [Visited.nameDepth, updateFullPath_root, hi, ho, hr, hw]
          rfl
        · rw [if_neg (fun h => hlim (tooLarge_iff.2 h))] at hr
          rw [if_neg hlim]
          by_cases htot : dirTotal (DTree.items sha (stripL root.nodes)) < U64
          · rw [if_pos htot] at hr
            rw [if_pos htot]
            refine ⟨.filled, .inr ⟨by simp, { it with
              full_path := [], old_depth := 0, pending := [], persisted_cids := persisted,
              block_buffer := dirBlock (DTree.items sha (stripL root.nodes)) },
              .item ?_ (.refl _), _, by simp [PostOrderIterator.step]; rfl, rfl⟩⟩
            unfold PostOrderIterator.step
            rw [hp]
            simp only [Visited.nameDepth, updateFullPath_root, hi, ho, hr, hw]
            rfl
          · rw [if_neg htot] at hr
            rw [if_neg htot]
            refine ⟨.panicked, .inl ⟨rfl, [], .iterOverflow, it, rfl, .refl it, ?_⟩⟩
            unfold PostOrderIterator.step
            rw [hp]
            simp only [Visited.nameDepth, updateFullPath_root, hi, ho, hr, hw]
            rfl
    · rw [if_neg hw]
      refine ⟨.filled, .inr ⟨by simp, it, .refl it, { it with full_path := [], old_depth := 0, pending := [], persisted_cids := persisted }, ?_, rfl⟩⟩
      unfold PostOrderIterator.step
      rw [hp]
      have hw' : opts.wrap_with_directory = false := by simpa using hw
      simp only [Visited.nameDepth, updateFullPath_root, hi, ho, hw', if_true]
  unfold allAnswers
  by_cases hch : (partitionChildrenLeaves 0 0 root.nodes).2 = []
  · obtain ⟨hl, hfill, hnone⟩ := direct_all sha opts.block_size_limit 0 root.nodes 0 hch
    rw [hnone, List.nil_append]
    obtain ⟨f, h⟩ := hlast (.mk [] 0 [] [.PostRoot (.Direct (partitionChildrenLeaves 0 0 root.nodes).1)] (fun _ => none) opts)
      _ (fun _ => none) rfl rfl (by rw [hfill]; decide) (by simp only [LeafStorage.intoInner, hl])
    refine ⟨f, OutA.cont sha ?_ h⟩
    unfold PostOrderIterator.step PostOrderIterator.new
    simp only [Visited.nameDepth, updateFullPath_root, stashLeaves, hch]
    simp
  · have hstep : (PostOrderIterator.new root opts).step sha = .continue
        (.mk [] 0 [] ((partitionChildrenLeaves 0 0 root.nodes).2.reverse ++ [.PostRoot (.Stashed root.id)])
        (hmInsert (fun _ => none) root.id (partitionChildrenLeaves 0 0 root.nodes).1) opts) := by
      unfold PostOrderIterator.step PostOrderIterator.new
      simp only [Visited.nameDepth, updateFullPath_root, stashLeaves, ne_eq, hch, not_false_eq_true, if_true]
    have hlist := all_list sha hsha opts root.nodes (.mk [] 0 [] ((partitionChildrenLeaves 0 0 root.nodes).2.reverse ++ [.PostRoot (.Stashed root.id)])
        (hmInsert (fun _ => none) root.id (partitionChildrenLeaves 0 0 root.nodes).1) opts) [.PostRoot (.Stashed root.id)] root.id [] []
        hids hok rfl rfl ⟨[], rfl, rfl, by simp⟩ (by simp) (by simp [hmInsert])
    rcases hlist with ⟨hf, before, p, it', h1, h2, h3⟩ | ⟨hf, it', h1, h2⟩
    · refine ⟨.panicked, .inl ⟨rfl, before, p, it', ?_, .cont hstep h2, h3⟩⟩
      rw [h1, hf]
      simp [dirAnswer]
    · obtain ⟨f, h⟩ := hlast it' _ (hmRemove it'.persisted_cids root.id) h2.pending h2.opts hf
        (by simp only [LeafStorage.intoInner, h2.cells, List.nil_append])
      refine ⟨f, OutA.append sha (f := fateL sha opts.block_size_limit (stripL root.nodes)) (Q := fun i => i = it') (g := f) ?_
        (fun h => absurd h hf) (fun _ i hi => hi ▸ h) (fun _ => Iff.rfl)⟩
      exact .inr ⟨hf, it', .cont hstep h1, rfl⟩

end

end Verif
