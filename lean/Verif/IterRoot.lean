import Verif.IterRun
namespace Verif
open Spec

section
variable (sha : Bytes → Bytes)

theorem next_eq (it : PostOrderIterator) : it.next sha = match it.step sha with
  | .continue it => it.next sha
  | .item it node => some (.item node, it)
  | .failed it e => some (.failed e, it)
  | .done it => some (.finished, it)
  | .panic p => some (.panic p, it) := PostOrderIterator.next.eq_1 sha it

theorem drain_cont {it it1} (h : it.step sha = .continue it1) : drainAll sha it = drainAll sha it1 := by
  rw [drainAll.eq_1, drainAll.eq_1 sha it1, next_eq sha it, h]

theorem drain_item {it it1 n} (h : it.step sha = .item it1 n) :
    drainAll sha it = (drainAll sha it1).map (fun r => (n :: r.1, r.2)) := by
  rw [drainAll.eq_1, next_eq sha it, h]
  simp only [bind, Option.bind]
  cases drainAll sha it1 with
  | none => rfl
  | some r => rfl

theorem drain_runs {it E it'} (h : Runs sha it E it') : drainAll sha it = (drainAll sha it').map (fun r => (E ++ r.1, r.2)) := by
  induction h with
  | refl it => cases drainAll sha it <;> rfl
  | cont hs _ ih => rw [drain_cont sha hs, ih]
  | item hs _ ih => rw [drain_item sha hs, ih]; simp [Option.map_map]; rfl

theorem drain_done {it it'} (h : it.step sha = .done it') : drainAll sha it = some ([], .finished, it') := by
  rw [drainAll.eq_1, next_eq sha it, h]

theorem drain_failed {it it' e} (h : it.step sha = .failed it' e) : drainAll sha it = some ([], .failed e, it') := by
  rw [drainAll.eq_1, next_eq sha it, h]

theorem drain_panic {it p} (h : it.step sha = .panic p) : drainAll sha it = some ([], .panic p, it) := by
  rw [drainAll.eq_1, next_eq sha it, h]

theorem next_nil {it : PostOrderIterator} (h : it.pending = []) : it.next sha = some (.finished, it) := by
  rw [next_eq]; simp [PostOrderIterator.step, h]

variable (hsha : ∀ b, (sha b).length = 32)
include hsha

/-- The whole run of an iterator over a tree. -/
theorem run_root (root : DirBuilder) (opts : TreeOptions) (hids : IdsOkL root.id root.nodes) (hok : TreeOkL (stripL root.nodes))
    (ht : ∀ x ∈ allNodes sha opts.wrap_with_directory (stripL root.nodes), x.total_size < U64) :
    Out sha opts.block_size_limit (PostOrderIterator.new root opts)
      (allNodes sha opts.wrap_with_directory (stripL root.nodes))
      (fun it => ∃ it', it.step sha = .done it' ∧ it'.pending = []) := by
  have htL : ∀ x ∈ DTree.postOrderL sha [] (stripL root.nodes), x.total_size < U64 := by
    intro x hx; apply ht; simp only [allNodes, List.mem_append]; exact .inl hx
  have hitems := items_ok sha hsha [] (stripL root.nodes) hok htL
  -- the last step
  have hlast : ∀ (it : PostOrderIterator) ls persisted, it.pending = [.PostRoot ls] → it.opts = opts →
      ls.intoInner it.persisted_cids = .ok (((DTree.items sha (stripL root.nodes)).map Item.toLeaf).map some, persisted) →
      Out sha opts.block_size_limit it (if opts.wrap_with_directory then [nodeOf sha [] (stripL root.nodes)] else [])
        (fun it => ∃ it', it.step sha = .done it' ∧ it'.pending = []) := by
    intro it ls persisted hp ho hi
    by_cases hw : opts.wrap_with_directory = true
    · rw [if_pos hw]
      have htot : dirTotal (DTree.items sha (stripL root.nodes)) < U64 := by
        have := ht (nodeOf sha [] (stripL root.nodes)) (by simp [allNodes, hw])
        exact this
      have hr := renderDirectory_eq sha hitems it.block_buffer opts.block_size_limit
      by_cases hlim : ∃ l, opts.block_size_limit = some l ∧ l < (dirBlock (DTree.items sha (stripL root.nodes))).length
      · rw [if_pos hlim] at hr
        right
        refine ⟨[], nodeOf sha [] (stripL root.nodes), [], it, { it with
          full_path := [], old_depth := 0, pending := [], persisted_cids := persisted }, rfl, by simp, ?_, .refl it, ?_⟩
        · intro hwi
          obtain ⟨l, h1, h2⟩ := hlim
          have : (dirBlock (DTree.items sha (stripL root.nodes))).length ≤ l := hwi l h1
          omega
        · unfold PostOrderIterator.step
          rw [hp]
          simp only [Visited.nameDepth, updateFullPath_root, hi, ho, hr, hw]
          rfl
      · rw [if_neg hlim, if_pos htot] at hr
        left
        refine ⟨?_, _, .item (it1 := { it with
          full_path := [], old_depth := 0, pending := [], persisted_cids := persisted,
          block_buffer := dirBlock (DTree.items sha (stripL root.nodes)) }) ?_ (.refl _), ?_⟩
        · intro x hx l hl
          simp only [List.mem_singleton] at hx
          subst hx
          refine Nat.le_of_not_lt fun hlt => hlim ⟨l, hl, hlt⟩
        · unfold PostOrderIterator.step
          rw [hp]
          simp only [Visited.nameDepth, updateFullPath_root, hi, ho, hr, hw]
          rfl
        · exact ⟨_, by simp [PostOrderIterator.step]; rfl, rfl⟩
    · rw [if_neg hw]
      refine Out.nil sha ⟨{ it with full_path := [], old_depth := 0, pending := [], persisted_cids := persisted }, ?_, rfl⟩
      unfold PostOrderIterator.step
      rw [hp]
      have hw' : opts.wrap_with_directory = false := by simpa using hw
      simp only [Visited.nameDepth, updateFullPath_root, hi, ho, hw', if_true]
  unfold allNodes
  by_cases hch : (partitionChildrenLeaves 0 0 root.nodes).2 = []
  · obtain ⟨hl, hnone⟩ := partition_direct sha 0 root.nodes 0 hch
    rw [hnone, List.nil_append]
    refine Out.cont sha (it1 := .mk [] 0 [] [.PostRoot (.Direct (partitionChildrenLeaves 0 0 root.nodes).1)] (fun _ => none) opts) ?_ ?_
    · unfold PostOrderIterator.step PostOrderIterator.new
      simp only [Visited.nameDepth, updateFullPath_root, stashLeaves, hch]
      simp
    · refine hlast _ _ (fun _ => none) rfl rfl ?_
      simp only [LeafStorage.intoInner, hl]
  · refine Out.cont sha (it1 := .mk [] 0 [] ((partitionChildrenLeaves 0 0 root.nodes).2.reverse ++ [.PostRoot (.Stashed root.id)])
        (hmInsert (fun _ => none) root.id (partitionChildrenLeaves 0 0 root.nodes).1) opts) ?_ ?_
    · unfold PostOrderIterator.step PostOrderIterator.new
      simp only [Visited.nameDepth, updateFullPath_root, stashLeaves, ne_eq, hch, not_false_eq_true, if_true]
    · have hlist := run_list sha hsha opts root.nodes (.mk [] 0 [] ((partitionChildrenLeaves 0 0 root.nodes).2.reverse ++ [.PostRoot (.Stashed root.id)])
        (hmInsert (fun _ => none) root.id (partitionChildrenLeaves 0 0 root.nodes).1) opts) [.PostRoot (.Stashed root.id)] root.id [] []
        hids hok htL rfl rfl ⟨[], rfl, rfl, by simp⟩ (by simp) (by simp [hmInsert])
      refine Out.append sha hlist ?_
      intro it1 h1
      refine hlast it1 _ (hmRemove it1.persisted_cids root.id) h1.pending h1.opts ?_
      simp only [LeafStorage.intoInner, h1.cells, List.nil_append]

/-- What draining the iterator over a tree gives. -/
theorem drain_root (root : DirBuilder) (opts : TreeOptions) (hids : IdsOkL root.id root.nodes) (hok : TreeOkL (stripL root.nodes))
    (ht : ∀ x ∈ allNodes sha opts.wrap_with_directory (stripL root.nodes), x.total_size < U64) :
    ((∀ x ∈ allNodes sha opts.wrap_with_directory (stripL root.nodes), Within opts.block_size_limit x) ∧
      ∃ it, drainAll sha (PostOrderIterator.new root opts) =
        some (allNodes sha opts.wrap_with_directory (stripL root.nodes), .finished, it) ∧ it.pending = []) ∨
    (∃ E1 x E2 it, allNodes sha opts.wrap_with_directory (stripL root.nodes) = E1 ++ x :: E2 ∧
      (∀ y ∈ E1, Within opts.block_size_limit y) ∧ ¬ Within opts.block_size_limit x ∧
      drainAll sha (PostOrderIterator.new root opts) = some (E1, .failed (.TooLargeBlock x.block.length), it)) := by
  rcases run_root sha hsha root opts hids hok ht with ⟨h1, it, h2, it', h3, h4⟩ | ⟨E1, x, E2, it1, it2, h1, h2, h3, h4, h5⟩
  · left
    refine ⟨h1, it', ?_, h4⟩
    rw [drain_runs sha h2, drain_done sha h3]; simp
  · right
    refine ⟨E1, x, E2, it2, h1, h2, h3, ?_⟩
    rw [drain_runs sha h4, drain_failed sha h5]; simp

end

end Verif
