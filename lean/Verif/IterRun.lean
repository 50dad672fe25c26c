import Verif.IterPath
import Verif.Spec.Building
namespace Verif
open Spec

mutual
/-- Identifiers increase towards the leaves and children know their parent's. -/
def IdsOk (parent : Nat) : DNode → Prop
  | .leaf _ _ _ => True
  | .dir _ ns _ pid id => pid = some parent ∧ parent < id ∧ IdsOkL id ns
def IdsOkL (parent : Nat) : List DNode → Prop
  | [] => True
  | n :: ns => IdsOk parent n ∧ IdsOkL parent ns
end

mutual
/-- Names and links are values of the Rust types; names of directories contain no slash, and only an empty directory can
have an empty name. -/
def TreeOk : DTree → Prop
  | .link n c s => NameOk n ∧ c.Fits ∧ s < U64
  | .dir n ks => NameOk n ∧ slash ∉ n ∧ (ks ≠ [] → n ≠ []) ∧ TreeOkL ks
def TreeOkL : List DTree → Prop
  | [] => True
  | k :: ks => TreeOk k ∧ TreeOkL ks
end

theorem stripL_eq_nil {ns : List DNode} : stripL ns = [] ↔ ns = [] := by cases ns <;> simp [stripL]

section
variable (sha : Bytes → Bytes)

theorem items_ok (hsha : ∀ b, (sha b).length = 32) (path : List Bytes) : ∀ ks : List DTree, TreeOkL ks →
    (∀ x ∈ DTree.postOrderL sha path ks, x.total_size < U64) → ∀ i ∈ DTree.items sha ks, i.Ok := by
  intro ks
  induction ks with
  | nil => intro _ _ i hi; simp [DTree.items] at hi
  | cons k ks ih =>
    intro hok ht i hi
    simp only [DTree.postOrderL, List.mem_append] at ht
    simp only [DTree.items, List.mem_cons] at hi
    rcases hi with rfl | hi
    · cases k with
      | link n c s => exact ⟨hok.1.2.1, hok.1.2.2, hok.1.1⟩
      | dir n ks' =>
        refine ⟨cidOf_fits hsha _, ?_, hok.1.1⟩
        have := ht (nodeOf sha (path ++ [n]) ks') (.inr (by simp [DTree.postOrder]))
        exact this
    · exact ih hok.2 (fun x hx => ht x (.inl hx)) i hi

/-- Steps of the iterator which return the given nodes. -/
inductive Runs : PostOrderIterator → List TreeNode → PostOrderIterator → Prop
  | refl (it) : Runs it [] it
  | cont {it it1 it2 out} : it.step sha = .continue it1 → Runs it1 out it2 → Runs it out it2
  | item {it it1 it2 n out} : it.step sha = .item it1 n → Runs it1 out it2 → Runs it (n :: out) it2

theorem Runs.trans {a b c x y} (h : Runs sha a x b) (h' : Runs sha b y c) : Runs sha a (x ++ y) c := by
  induction h with
  | refl => exact h'
  | cont hs _ ih => exact .cont hs (ih h')
  | item hs _ ih => exact .item hs (ih h')

/-- The nodes `E` are produced one after the other, ending in a state with `Q`; or up to the first one which is too large,
where the iterator fails. -/
def Out (lim : Option Nat) (it : PostOrderIterator) (E : List TreeNode) (Q : PostOrderIterator → Prop) : Prop :=
  ((∀ x ∈ E, Within lim x) ∧ ∃ it', Runs sha it E it' ∧ Q it') ∨
  (∃ E1 x E2 it1 it2, E = E1 ++ x :: E2 ∧ (∀ y ∈ E1, Within lim y) ∧ ¬ Within lim x ∧ Runs sha it E1 it1 ∧
    it1.step sha = .failed it2 (.TooLargeBlock x.block.length))

theorem Out.append {lim it E F Q R} (h : Out sha lim it E Q) (h' : ∀ it', Q it' → Out sha lim it' F R) :
    Out sha lim it (E ++ F) R := by
  rcases h with ⟨hE, it', hr, hq⟩ | ⟨E1, x, E2, it1, it2, rfl, h1, h2, h3, h4⟩
  · rcases h' it' hq with ⟨hF, it'', hr', hR⟩ | ⟨F1, x, F2, it1, it2, rfl, h1, h2, h3, h4⟩
    · left
      refine ⟨?_, it'', hr.trans sha hr', hR⟩
      intro x hx; rcases List.mem_append.1 hx with hx | hx
      · exact hE x hx
      · exact hF x hx
    · right
      refine ⟨E ++ F1, x, F2, it1, it2, by simp, ?_, h2, hr.trans sha h3, h4⟩
      intro x hx; rcases List.mem_append.1 hx with hx | hx
      · exact hE x hx
      · exact h1 x hx
  · right
    exact ⟨E1, x, E2 ++ F, it1, it2, by simp, h1, h2, h3, h4⟩

theorem Out.cont {lim it it1 E Q} (hs : it.step sha = .continue it1) (h : Out sha lim it1 E Q) : Out sha lim it E Q := by
  rcases h with ⟨hE, it', hr, hq⟩ | ⟨E1, x, E2, it1, it2, he, h1, h2, h3, h4⟩
  · exact .inl ⟨hE, it', .cont hs hr, hq⟩
  · exact .inr ⟨E1, x, E2, it1, it2, he, h1, h2, .cont hs h3, h4⟩

theorem Out.nil {lim it Q} (h : Q it) : Out sha lim it [] Q := .inl ⟨by simp, it, .refl it, h⟩

/-- The current path is somewhere below `cs`. -/
def GoodPath (it : PostOrderIterator) (cs : List Bytes) : Prop :=
  ∃ more, it.full_path = joinSlash (cs ++ more) ∧ it.old_depth = (cs ++ more).length ∧ ∀ x ∈ more, slash ∉ x

theorem GoodPath.mk' {it : PostOrderIterator} {cs : List Bytes} {n : Bytes} (h1 : it.full_path = joinSlash (cs ++ [n]))
    (h2 : it.old_depth = cs.length + 1) : GoodPath it (cs ++ [n]) :=
  ⟨[], by simpa using h1, by simpa using h2, by simp⟩

theorem GoodPath.up {it : PostOrderIterator} {cs : List Bytes} {n : Bytes} (hn : slash ∉ n) (h : GoodPath it (cs ++ [n])) : GoodPath it cs := by
  obtain ⟨more, h1, h2, h3⟩ := h
  refine ⟨n :: more, by simpa using h1, by simpa using h2, ?_⟩
  intro x hx; rcases List.mem_cons.1 hx with rfl | hx
  · exact hn
  · exact h3 x hx

theorem partition_direct (depth : Nat) : ∀ (ns : List DNode) (i : Nat), (partitionChildrenLeaves depth i ns).2 = [] →
    (partitionChildrenLeaves depth i ns).1 = ((DTree.items sha (stripL ns)).map Item.toLeaf).map some ∧
    ∀ path, DTree.postOrderL sha path (stripL ns) = [] := by
  intro ns
  induction ns with
  | nil => intro i _; exact ⟨rfl, fun _ => rfl⟩
  | cons n ns ih =>
    intro i h
    cases n with
    | dir k nodes md pid id => simp [partitionChildrenLeaves] at h
    | leaf k c s =>
      have := ih (i + 1) (by simpa [partitionChildrenLeaves] using h)
      refine ⟨?_, ?_⟩
      · simp only [partitionChildrenLeaves, this.1, stripL, DNode.strip, DTree.items, DTree.item, List.map_cons]
        rfl
      · intro path
        simp only [stripL, DNode.strip, DTree.postOrderL, DTree.postOrder, this.2 path, List.append_nil]

/-- After the subtree at the top of the stack: its cell in the parent's leaves is filled. -/
structure NodePost (opts : TreeOptions) (P : List Visited) (cs : List Bytes) (parent : Nat) (vec : Leaves)
    (it0 it : PostOrderIterator) : Prop where
  pending : it.pending = P
  opts : it.opts = opts
  good : GoodPath it cs
  cells : it.persisted_cids parent = some vec
  frame : ∀ k < parent, it.persisted_cids k = it0.persisted_cids k

theorem step_post {it : PostOrderIterator} {P cs name depth idx parent ls leaves persisted vec opts} {ks : List DTree}
    (hp : it.pending = .Post parent depth name idx ls :: P) (hd : depth = cs.length + 1) (ho : it.opts = opts)
    (hg : GoodPath it cs) (hcs : ∀ c ∈ cs, c ≠ [])
    (hi : ls.intoInner it.persisted_cids = .ok (leaves, persisted))
    (hl : leaves = ((DTree.items sha ks).map Item.toLeaf).map some) (hok : ∀ i ∈ DTree.items sha ks, i.Ok)
    (htot : dirTotal (DTree.items sha ks) < U64) (hn : slash ∉ name)
    (hv : persisted parent = some vec) (hc : vec[idx]? = some none) :
    Out sha opts.block_size_limit it [nodeOf sha (cs ++ [name]) ks]
      (fun it' => it'.pending = P ∧ it'.opts = opts ∧ GoodPath it' cs ∧
        it'.persisted_cids = hmInsert persisted parent (vec.set idx (some (DTree.item sha (.dir name ks)).toLeaf))) := by
  obtain ⟨more, hf, hdep, hm⟩ := hg
  have hu : updateFullPath it.full_path it.old_depth (some name) depth = .ok (joinSlash (cs ++ [name]), cs.length + 1) := by
    rw [hf, hdep, hd]; exact updateFullPath_spec cs more name hcs hm
  have hr := renderDirectory_eq sha hok it.block_buffer opts.block_size_limit
  rw [← hl] at hr
  by_cases hlim : ∃ l, opts.block_size_limit = some l ∧ l < (dirBlock (DTree.items sha ks)).length
  · rw [if_pos hlim] at hr
    right
    refine ⟨[], nodeOf sha (cs ++ [name]) ks, [], it, { it with
        full_path := joinSlash (cs ++ [name]), old_depth := cs.length + 1, pending := P, persisted_cids := persisted },
        rfl, by simp, ?_, .refl it, ?_⟩
    · intro hw
      obtain ⟨l, h1, h2⟩ := hlim
      have : (dirBlock (DTree.items sha ks)).length ≤ l := hw l h1
      omega
    · unfold PostOrderIterator.step
      rw [hp]
      simp only [Visited.nameDepth, hu, hi, ho, hr]
      rfl
  · rw [if_neg hlim, if_pos htot] at hr
    left
    refine ⟨?_, _, .item (it1 := { it with
        full_path := joinSlash (cs ++ [name]), old_depth := cs.length + 1, pending := P,
        block_buffer := dirBlock (DTree.items sha ks),
        persisted_cids := hmInsert persisted parent (vec.set idx (some (DTree.item sha (.dir name ks)).toLeaf)) }) ?_ (.refl _), ?_⟩
    · intro x hx l hl
      simp only [List.mem_singleton] at hx
      subst hx
      refine Nat.le_of_not_lt fun hlt => hlim ⟨l, hl, hlt⟩
    · unfold PostOrderIterator.step
      rw [hp]
      simp only [Visited.nameDepth, hu, hi, ho, hr, hv, hc]
      rfl
    · refine ⟨rfl, ho, ?_, rfl⟩
      refine ⟨[name], rfl, by simp, ?_⟩
      intro x hx; simp only [List.mem_singleton] at hx; subst hx; exact hn

theorem hmInsert_self (m : Nat → Option Leaves) (k : Nat) (v : Leaves) : hmInsert m k v k = some v := by simp [hmInsert]
theorem hmInsert_ne (m : Nat → Option Leaves) {k i : Nat} (v : Leaves) (h : i ≠ k) : hmInsert m k v i = m i := by simp [hmInsert, h]
theorem hmRemove_ne (m : Nat → Option Leaves) {k i : Nat} (h : i ≠ k) : hmRemove m k i = m i := by simp [hmRemove, h]

variable (hsha : ∀ b, (sha b).length = 32)
include hsha

mutual
theorem run_node (opts : TreeOptions) : ∀ (n : DNode) (k : Bytes) (ns : List DNode) (md : Metadata) (pid : Option Nat) (id : Nat)
    (it : PostOrderIterator) (P : List Visited) (parent idx : Nat) (vec : Leaves) (cs : List Bytes),
    n = .dir k ns md pid id → IdsOk parent n → TreeOk n.strip →
    (∀ x ∈ DTree.postOrder sha cs n.strip, x.total_size < U64) →
    it.pending = .Descent ⟨ns, md, pid, id⟩ k (cs.length + 1) idx :: P → it.opts = opts → GoodPath it cs → (∀ c ∈ cs, c ≠ []) →
    it.persisted_cids parent = some vec → vec[idx]? = some none →
    Out sha opts.block_size_limit it (DTree.postOrder sha cs n.strip)
      (NodePost opts P cs parent (vec.set idx (some (DTree.item sha n.strip).toLeaf)) it)
  | .leaf _ _ _, _, _, _, _, _, _, _, _, _, _, _, h, _, _, _, _, _, _, _, _, _ => by cases h
  | .dir k ns md pid id, _, _, _, _, _, it, P, parent, idx, vec, cs, rfl, hids, hok, ht, hp, ho, hg, hcs, hv, hc => by
    obtain ⟨rfl, hlt, hidsL⟩ := hids
    obtain ⟨hname, hslash, hne, hokL⟩ := hok
    have htL : ∀ x ∈ DTree.postOrderL sha (cs ++ [k]) (stripL ns), x.total_size < U64 := by
      intro x hx; apply ht; simp only [DNode.strip, DTree.postOrder, List.mem_append]; exact .inl hx
    have htot : dirTotal (DTree.items sha (stripL ns)) < U64 := by
      have := ht (nodeOf sha (cs ++ [k]) (stripL ns)) (by simp [DNode.strip, DTree.postOrder])
      exact this
    have hitems := items_ok sha hsha (cs ++ [k]) (stripL ns) hokL htL
    obtain ⟨more, hf, hdep, hm⟩ := hg
    have hu : updateFullPath it.full_path it.old_depth (some k) (cs.length + 1) = .ok (joinSlash (cs ++ [k]), cs.length + 1) := by
      rw [hf, hdep]; exact updateFullPath_spec cs more k hcs hm
    simp only [DNode.strip, DTree.postOrder]
    by_cases hch : (partitionChildrenLeaves (cs.length + 1) 0 ns).2 = []
    · -- no subdirectories
      obtain ⟨hl, hnone⟩ := partition_direct sha (cs.length + 1) ns 0 hch
      rw [hnone, List.nil_append]
      have hstep : it.step sha = .continue { it with
          full_path := joinSlash (cs ++ [k]), old_depth := cs.length + 1,
          pending := .Post parent (cs.length + 1) k idx (.Direct (partitionChildrenLeaves (cs.length + 1) 0 ns).1) :: P } := by
        unfold PostOrderIterator.step
        rw [hp]
        simp only [Visited.nameDepth, hu, stashLeaves, hch]
        simp
      refine Out.cont sha hstep ?_
      rcases step_post sha (it := { it with
          full_path := joinSlash (cs ++ [k]), old_depth := cs.length + 1,
          pending := .Post parent (cs.length + 1) k idx (.Direct (partitionChildrenLeaves (cs.length + 1) 0 ns).1) :: P })
          (opts := opts) (ks := stripL ns) rfl rfl ho
          (GoodPath.up hslash (GoodPath.mk' rfl rfl)) hcs rfl hl hitems htot hslash hv hc with ⟨h1, it', h2, h3⟩ | h
      · left
        refine ⟨h1, it', h2, h3.1, h3.2.1, h3.2.2.1, ?_, ?_⟩
        · rw [h3.2.2.2, hmInsert_self]
        · intro i hi
          rw [h3.2.2.2, hmInsert_ne _ _ (by omega)]
      · exact .inr h
    · have hnsne : ns ≠ [] := by rintro rfl; exact hch rfl
      have hkne : k ≠ [] := hne (by rw [ne_eq, stripL_eq_nil]; exact hnsne)
      have hstep : it.step sha = .continue { it with
          full_path := joinSlash (cs ++ [k]), old_depth := cs.length + 1,
          persisted_cids := hmInsert it.persisted_cids id (partitionChildrenLeaves (cs.length + 1) 0 ns).1,
          pending := (partitionChildrenLeaves (cs.length + 1) 0 ns).2.reverse ++
            .Post parent (cs.length + 1) k idx (.Stashed id) :: P } := by
        unfold PostOrderIterator.step
        rw [hp]
        simp only [Visited.nameDepth, hu, stashLeaves, ne_eq, hch, not_false_eq_true, if_true]
      refine Out.cont sha hstep ?_
      have hlist := run_list opts ns { it with
          full_path := joinSlash (cs ++ [k]), old_depth := cs.length + 1,
          persisted_cids := hmInsert it.persisted_cids id (partitionChildrenLeaves (cs.length + 1) 0 ns).1,
          pending := (partitionChildrenLeaves (cs.length + 1) 0 ns).2.reverse ++
            .Post parent (cs.length + 1) k idx (.Stashed id) :: P }
        (.Post parent (cs.length + 1) k idx (.Stashed id) :: P) id [] (cs ++ [k]) hidsL hokL htL
        (by simp) ho (GoodPath.mk' rfl rfl)
        (by intro c hc'; rcases List.mem_append.1 hc' with h | h
            · exact hcs c h
            · simp only [List.mem_singleton] at h; subst h; exact hkne)
        (by simp [hmInsert])
      refine Out.append sha hlist ?_
      intro it1 h1
      have hpar : it1.persisted_cids parent = some vec := by
        rw [h1.frame parent hlt]
        show hmInsert it.persisted_cids id _ parent = _
        rw [hmInsert_ne _ _ (by omega), hv]
      have hin : (LeafStorage.Stashed id).intoInner it1.persisted_cids =
          .ok (((DTree.items sha (stripL ns)).map Item.toLeaf).map some, hmRemove it1.persisted_cids id) := by
        simp only [LeafStorage.intoInner, h1.cells, List.nil_append]
      rcases step_post sha (it := it1) (opts := opts) (ks := stripL ns) h1.pending rfl h1.opts (GoodPath.up hslash h1.good) hcs
          hin rfl hitems htot hslash (by rw [hmRemove_ne _ (by omega)]; exact hpar) hc with ⟨h2, it', h3, h4⟩ | h
      · left
        refine ⟨h2, it', h3, h4.1, h4.2.1, h4.2.2.1, ?_, ?_⟩
        · rw [h4.2.2.2, hmInsert_self]
        · intro i hi
          rw [h4.2.2.2, hmInsert_ne _ _ (by omega), hmRemove_ne _ (by omega), h1.frame i (by omega)]
          show hmInsert it.persisted_cids id _ i = _
          rw [hmInsert_ne _ _ (by omega)]
      · exact .inr h

theorem run_list (opts : TreeOptions) : ∀ (ns : List DNode) (it : PostOrderIterator) (P : List Visited) (parent : Nat)
    (pre : Leaves) (cs : List Bytes),
    IdsOkL parent ns → TreeOkL (stripL ns) →
    (∀ x ∈ DTree.postOrderL sha cs (stripL ns), x.total_size < U64) →
    it.pending = (partitionChildrenLeaves cs.length pre.length ns).2.reverse ++ P → it.opts = opts → GoodPath it cs →
    (∀ c ∈ cs, c ≠ []) → it.persisted_cids parent = some (pre ++ (partitionChildrenLeaves cs.length pre.length ns).1) →
    Out sha opts.block_size_limit it (DTree.postOrderL sha cs (stripL ns))
      (NodePost opts P cs parent (pre ++ ((DTree.items sha (stripL ns)).map Item.toLeaf).map some) it)
  | [], it, P, parent, pre, cs, _, _, _, hp, ho, hg, _, hv => by
    refine Out.nil sha ⟨by simpa [partitionChildrenLeaves] using hp, ho, hg, ?_, fun _ _ => rfl⟩
    rw [hv]; rfl
  | .leaf k c s :: ns, it, P, parent, pre, cs, hids, hok, ht, hp, ho, hg, hcs, hv => by
    simp only [stripL, DNode.strip, DTree.postOrderL, DTree.postOrder, List.append_nil] at ht ⊢
    have := run_list opts ns it P parent (pre ++ [some ⟨k, c, s⟩]) cs hids.2 hok.2 ht
      (by simpa [partitionChildrenLeaves] using hp) ho hg hcs (by rw [hv]; simp [partitionChildrenLeaves])
    simpa [DTree.items, DTree.item, Item.toLeaf] using this
  | .dir k nodes md pid id :: ns, it, P, parent, pre, cs, hids, hok, ht, hp, ho, hg, hcs, hv => by
    simp only [stripL, DTree.postOrderL] at ht ⊢
    have h1 := run_list opts ns it (.Descent ⟨nodes, md, pid, id⟩ k (cs.length + 1) pre.length :: P) parent (pre ++ [none]) cs
      hids.2 hok.2 (fun x hx => ht x (by simp [hx]))
      (by rw [hp]; simp [partitionChildrenLeaves]) ho hg hcs (by rw [hv]; simp [partitionChildrenLeaves])
    refine Out.append sha h1 ?_
    intro it1 hq
    have h2 := run_node opts (.dir k nodes md pid id) k nodes md pid id it1 P parent pre.length _ cs rfl hids.1 hok.1
      (fun x hx => ht x (by simp [hx])) hq.pending hq.opts hq.good hcs hq.cells (by simp)
    rcases h2 with ⟨ha, it', hb, hc⟩ | h
    · left
      refine ⟨ha, it', hb, hc.pending, hc.opts, hc.good, ?_, ?_⟩
      · rw [hc.cells]
        simp [DTree.items]
      · intro i hi; rw [hc.frame i hi, hq.frame i hi]
    · exact .inr h
end

end

end Verif
