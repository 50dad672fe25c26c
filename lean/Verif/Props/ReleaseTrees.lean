import Verif.Props.Release
import Verif.IterAllR
/-
What release builds build from a directory tree: C133.
-/
namespace Verif.Props
open Verif Verif.Spec Verif.RelTrees

namespace RT

theorem nextsR_runs {sha : Bytes → Bytes} {it out it'} (h : RelTrees.RunsA sha it out it') {rest : List IterNext}
    (hend : ∀ n, nextsR sha n it' = firstAnswers n rest) : ∀ n, nextsR sha n it = firstAnswers n (out ++ rest) := by
  induction h with
  | refl => exact hend
  | cont hs _ ih =>
    intro n
    rw [← ih hend n]
    cases n with
    | zero => rfl
    | succ n => rw [nextsR, nextsR, nextR_eq, hs]
  | item hs _ ih =>
    intro n
    cases n with
    | zero => rfl
    | succ n => rw [nextsR, nextR_eq, hs, List.cons_append, firstAnswers, ← ih hend n]; simp
  | failed hs _ ih =>
    intro n
    cases n with
    | zero => rfl
    | succ n => rw [nextsR, nextR_eq, hs, List.cons_append, firstAnswers, ← ih hend n]; simp

end RT
open RT

/-- Every call of `next` in a release build, also after errors, on everything which can be built: the answers are those of
the specification, in order, then `None` forever; there are no others. -/
theorem C133_all_answers (sha : Bytes → Bytes) (hsha : ∀ b, (sha b).length = 32) (b : BufferingTreeBuilder) (hb : Obtainable b)
    (n : Nat) : nextsR sha n b.build = firstAnswers n (allAnswersW sha b.opts (contents b)) := by
  obtain ⟨f, h⟩ := RelTrees.all_root sha hsha b.root_builder b.opts (contents_ids hb) (contents_ok hb)
  rcases h with ⟨-, before, p, it', h1, h2, h3⟩ | ⟨-, it', h1, it2, h2, h3⟩
  · rw [contents, h1]
    refine nextsR_runs h2 (fun n => ?_) n
    cases n with
    | zero => rfl
    | succ n => rw [nextsR, nextR_eq, h3]; rfl
  · have := nextsR_runs h1 (rest := []) (fun n => ?_) n
    · rw [List.append_nil] at this; exact this
    · cases n with
      | zero => rfl
      | succ n =>
        rw [nextsR, nextR_eq, h2, firstAnswers]
        simp only
        rw [nextsR_nil h3]

/-! ### Panics -/

namespace RT

theorem dirAnswer_panic {sha : Bytes → Bytes} {lim : Option Nat} {path ks f} (hf : f ≠ .panicked) :
    (∀ p, IterNext.panic p ∉ dirAnswerW sha lim path ks f) ↔ dirFateW sha lim ks f ≠ .panicked := by
  cases f with
  | panicked => exact absurd rfl hf
  | missing => simp [dirAnswerW, dirFateW]
  | filled =>
    by_cases h1 : tooLarge lim (dirBlock (DTree.itemsW sha ks)).length = true
    · simp [dirAnswerW, dirFateW, h1]
    · simp [dirAnswerW, dirFateW, h1]

mutual
theorem answers_panic {sha : Bytes → Bytes} {lim : Option Nat} (path : List Bytes) : ∀ k : DTree,
    (∀ p, IterNext.panic p ∉ answersW sha lim path k) ↔ fateW sha lim k ≠ .panicked
  | .link _ _ _ => by simp [answersW, fateW]
  | .dir n ks => by
    rw [answersW, fateW]
    simp only [List.mem_append, not_or, forall_and]
    rw [answersL_panic]
    by_cases h : fateLW sha lim ks = .panicked
    · rw [h]; simp [dirFateW]
    · rw [dirAnswer_panic h]; simp [h]
theorem answersL_panic {sha : Bytes → Bytes} {lim : Option Nat} (path : List Bytes) : ∀ ks : List DTree,
    (∀ p, IterNext.panic p ∉ answersLW sha lim path ks) ↔ fateLW sha lim ks ≠ .panicked
  | [] => by simp [answersLW, fateLW]
  | k :: ks => by
    rw [answersLW, fateLW, ne_eq, Verif.worse_panicked]
    simp only [List.mem_append, not_or, forall_and]
    rw [answersL_panic]
    by_cases h : fateLW sha lim ks = .panicked
    · simp [h]
    · rw [if_neg h, answers_panic]
end

mutual
theorem fits_fate {sha : Bytes → Bytes} {lim : Option Nat} (path : List Bytes) : ∀ k : DTree,
    fateW sha lim k = .filled ↔ ∀ x ∈ postOrderW sha path k, Within lim x
  | .link _ _ _ => by simp [fateW, postOrderW]
  | .dir n ks => by
    rw [fateW, RelTrees.dirFate_filled, fits_fateL (path ++ [n]) ks, postOrderW]
    simp only [List.forall_mem_append, List.mem_singleton, forall_eq]
    rw [Verif.within_iff]; rfl
theorem fits_fateL {sha : Bytes → Bytes} {lim : Option Nat} (path : List Bytes) : ∀ ks : List DTree,
    fateLW sha lim ks = .filled ↔ ∀ x ∈ postOrderLW sha path ks, Within lim x
  | [] => by simp [fateLW, postOrderLW]
  | k :: ks => by
    rw [fateLW, Verif.worse_filled, postOrderLW, List.forall_mem_append, fits_fateL path ks, fits_fate path k]
end

theorem dirFate_panicked {sha : Bytes → Bytes} {lim : Option Nat} (path : List Bytes) (ks : List DTree) :
    dirFateW sha lim ks (fateLW sha lim ks) ≠ .panicked ↔ ∀ x ∈ postOrderLW sha path ks, Within lim x := by
  rw [← fits_fateL path ks]
  cases hf : fateLW sha lim ks with
  | filled =>
    unfold dirFateW
    simp only [iff_true]
    split <;> simp
  | _ => simp [dirFateW]

end RT

/-- When exactly no call ever panics in a release build: when, in the order of building, every directory but the last one is
within the limit. -/
theorem C133_panics (sha : Bytes → Bytes) (hsha : ∀ b, (sha b).length = 32) (b : BufferingTreeBuilder) (hb : Obtainable b) :
    NeverPanicsR sha b.build ↔
      ∀ x ∈ (allNodesW sha b.opts.wrap_with_directory (contents b)).dropLast, Within b.opts.block_size_limit x := by
  have h0 : NeverPanicsR sha b.build ↔ ∀ p, IterNext.panic p ∉ allAnswersW sha b.opts (contents b) := by
    rw [← firstAnswers_some]
    refine forall_congr' (fun n => ?_)
    rw [C133_all_answers sha hsha b hb n]
  rw [h0, allAnswersW, allNodesW]
  simp only [List.mem_append, not_or, forall_and]
  rw [RT.answersL_panic]
  cases hw : b.opts.wrap_with_directory with
  | true =>
    simp only [if_true]
    rw [List.dropLast_concat]
    rw [← RT.dirFate_panicked]
    by_cases h : fateLW sha b.opts.block_size_limit (contents b) = .panicked
    · rw [h]; simp [dirFateW]
    · rw [RT.dirAnswer_panic h]; simp [h]
  | false =>
    simp only [Bool.false_eq_true, if_false, List.append_nil, List.not_mem_nil, not_false_eq_true, implies_true, and_true]
    have hlen : (contents b).length ≤ 1 := by
      obtain ⟨opts, ops, hops, rfl⟩ := hb
      exact C32_at_most_one opts (by rw [(runOps_inv (BInv.new opts) hops).2] at hw; exact hw) ops hops
    match hk : contents b, hlen with
    | [], _ => simp [fateLW, postOrderLW]
    | [.link _ _ _], _ => simp [fateLW, fateW, postOrderLW, postOrderW, Fate.worse]
    | [.dir n ks], _ =>
      rw [fateLW, fateLW, fateW, postOrderLW, postOrderLW, postOrderW, List.nil_append, List.dropLast_concat]
      rw [← RT.dirFate_panicked]
      cases dirFateW sha b.opts.block_size_limit ks (fateLW sha b.opts.block_size_limit ks) <;> simp [Fate.worse]

/-! ### What is built -/

namespace RT
variable (sha : Bytes → Bytes)

mutual
theorem fate_none : ∀ k : DTree, fateW sha none k = .filled
  | .link _ _ _ => rfl
  | .dir n ks => by rw [fateW, fateL_none ks]; rfl
theorem fateL_none : ∀ ks : List DTree, fateLW sha none ks = .filled
  | [] => rfl
  | k :: ks => by rw [fateLW, fateL_none ks, fate_none k]; rfl
end

mutual
theorem answers_within {lim : Option Nat} (path : List Bytes) : ∀ k : DTree, fateW sha lim k = .filled →
    answersW sha lim path k = (postOrderW sha path k).map .item
  | .link _ _ _, _ => rfl
  | .dir n ks, h => by
    rw [fateW, RelTrees.dirFate_filled] at h
    rw [answersW, postOrderW, List.map_append, answersL_within (path ++ [n]) ks h.1, h.1]
    simp [dirAnswerW, h.2]
theorem answersL_within {lim : Option Nat} (path : List Bytes) : ∀ ks : List DTree, fateLW sha lim ks = .filled →
    answersLW sha lim path ks = (postOrderLW sha path ks).map .item
  | [], _ => rfl
  | k :: ks, h => by
    rw [fateLW, Verif.worse_filled] at h
    rw [answersLW, postOrderLW, List.map_append, answersL_within path ks h.1, h.1, if_neg (by decide), answers_within path k h.2]
end

theorem itemsW_map (ks : List DTree) : DTree.itemsW sha ks = ks.map (DTree.itemW sha) := by
  induction ks with
  | nil => rfl
  | cons k ks ih => simp [DTree.itemsW, ih]

theorem itemW_name (k : DTree) : (DTree.itemW sha k).name = k.name := by cases k <;> rfl

mutual
theorem postOrder_at (ks0 : List DTree) (path : List Bytes) (full : List DTree) (hp : entriesAt path ks0 = some full) :
    ∀ (k : DTree), Sorted k → kid k.name full = some k →
    (postOrderW sha path k).map some = (postPaths path k).map (fun cs => (entriesAt cs ks0).map (nodeOfW sha cs))
  | .link _ _ _, _, _ => by simp [postPaths, postOrderW]
  | .dir n ks, h, hk => by
    have he : entriesAt (path ++ [n]) ks0 = some ks := by
      have hk' : kid n full = some (.dir n ks) := hk
      rw [entriesAt_append hp, entriesAt, hk']; rfl
    rw [postOrderW, postPaths, List.map_append, List.map_append,
      postOrderL_at ks0 (path ++ [n]) ks he ks h (fun k hk => kid_of_mem h hk)]
    simp [he]
theorem postOrderL_at (ks0 : List DTree) (path : List Bytes) (full : List DTree) (hp : entriesAt path ks0 = some full) :
    ∀ (ks : List DTree), SortedL ks → (∀ k ∈ ks, kid k.name full = some k) →
    (postOrderLW sha path ks).map some = (postPathsL path ks).map (fun cs => (entriesAt cs ks0).map (nodeOfW sha cs))
  | [], _, _ => rfl
  | k :: ks, h, hk => by
    rw [postOrderLW, postPathsL, List.map_append, List.map_append,
      postOrderL_at ks0 path full hp ks h.2.2 (fun k' hk' => hk k' (by simp [hk'])),
      postOrder_at ks0 path full hp k h.2.1 (hk k (by simp))]
end

theorem allNodes_at (wrap : Bool) {ks : List DTree} (h : SortedL ks) :
    (allNodesW sha wrap ks).map some = (builtPaths wrap ks).map (fun cs => (entriesAt cs ks).map (nodeOfW sha cs)) := by
  unfold allNodesW builtPaths
  rw [List.map_append, List.map_append, postOrderL_at sha ks [] ks rfl ks h (fun k hk => kid_of_mem h hk)]
  congr 1
  cases wrap <;> simp [entriesAt]

end RT

/-- While no directory is too large for the limit, the answers are the nodes, one for each directory in the tree (and for the
root exactly when wrapping), each with its path; and none comes before one below it. -/
theorem C133_nodes (sha : Bytes → Bytes) (b : BufferingTreeBuilder) (hb : Obtainable b)
    (hlim : ∀ x ∈ allNodesW sha b.opts.wrap_with_directory (contents b), Within b.opts.block_size_limit x) :
    allAnswersW sha b.opts (contents b) = (allNodesW sha b.opts.wrap_with_directory (contents b)).map .item ∧
    ∃ paths : List (List Bytes),
      (∀ cs, cs ∈ paths ↔ BuiltDir b cs) ∧
      paths.Nodup ∧
      paths.Pairwise (fun first second => ¬ first <+: second) ∧
      (allNodesW sha b.opts.wrap_with_directory (contents b)).map some =
        paths.map (fun cs => (entriesAt cs (contents b)).map (nodeOfW sha cs)) := by
  have hs := contents_sorted hb
  refine ⟨?_, builtPaths b.opts.wrap_with_directory (contents b), mem_builtPaths _ hs, ?_, builtPaths_pairwise _ hs, RT.allNodes_at sha _ hs⟩
  · have hf : fateLW sha b.opts.block_size_limit (contents b) = .filled := by
      rw [RT.fits_fateL []]
      exact fun x hx => hlim x (by simp [allNodesW, hx])
    rw [allAnswersW, allNodesW, List.map_append, RT.answersL_within sha [] _ hf, hf]
    cases hw : b.opts.wrap_with_directory with
    | false => rfl
    | true =>
      have := hlim (nodeOfW sha [] (contents b)) (by simp [allNodesW, hw])
      rw [Verif.within_iff] at this
      have this : tooLarge b.opts.block_size_limit (dirBlock (DTree.itemsW sha (contents b))).length = false := this
      simp [dirAnswerW, this]
  · refine (builtPaths_pairwise _ hs).imp ?_
    rintro a b h rfl
    exact h (List.prefix_refl _)

/-- The block of the directory `cs` parses as a UnixFS directory whose links are the entries, in increasing order of the
names: each link carries the Cid and total size which were put, or those of the node of the subdirectory. -/
theorem C133_block (sha : Bytes → Bytes) (hsha : ∀ b, (sha b).length = 32) (b : BufferingTreeBuilder) (hb : Obtainable b)
    (cs : List Bytes) (x : TreeNode) (hx : NodeAtW sha (contents b) cs x) :
    x.path = joinSlash cs ∧ x.cid = cidOf sha x.block ∧
    ∃ m, FlatUnixFs.tryParse x.block = .ok m ∧ m.data = { Ty := .Directory } ∧
      x.total_size = (x.block.length + (m.links.map (fun l => l.Tsize.getD 0)).sum) % U64 ∧
      m.links.Pairwise (fun l l' => l.Name.getD [] < l'.Name.getD []) ∧
      (∀ l ∈ m.links, ∃ n c s, l = ⟨some c.toBytes, some n, some s⟩ ∧
        (lookupPath (cs ++ [n]) (contents b) = some (.link c s) ∨
         (lookupPath (cs ++ [n]) (contents b) = some .dir ∧ ∃ y, NodeAtW sha (contents b) (cs ++ [n]) y ∧ c = y.cid ∧ s = y.total_size))) ∧
      (∀ n, lookupPath (cs ++ [n]) (contents b) ≠ none → ∃ l ∈ m.links, l.Name = some n) := by
  obtain ⟨es, he, rfl⟩ := hx
  have hok := RelTrees.items_okW sha hsha es (entriesAt_ok he (contents_ok hb))
  have hs := entriesAt_sorted he (contents_sorted hb)
  refine ⟨rfl, rfl, Spec.dirMsg (DTree.itemsW sha es), C01_flat_roundtrip _ (dirMsg_fits hok), rfl, ?_, ?_, ?_, ?_⟩
  · rw [dirMsg_links, List.map_map]; rfl
  · rw [dirMsg_links, RT.itemsW_map, List.map_map, List.pairwise_map]
    clear he hok
    induction es with
    | nil => simp
    | cons k es ih =>
      rw [List.pairwise_cons]
      refine ⟨?_, ih hs.2.2⟩
      intro k' hk'
      simpa [Item.toPB, RT.itemW_name] using hs.1 k' hk'
  · intro l hl
    rw [dirMsg_links, RT.itemsW_map, List.map_map, List.mem_map] at hl
    obtain ⟨k, hk, rfl⟩ := hl
    have hkid := kid_of_mem hs hk
    cases k with
    | link n c s =>
      have hkid : kid n es = some (.link n c s) := hkid
      refine ⟨n, c, s, rfl, .inl ?_⟩
      rw [entriesAt_dir he, lookupPath_cons_link hkid, if_pos rfl]
    | dir n ks =>
      have hkid : kid n es = some (.dir n ks) := hkid
      refine ⟨n, _, _, rfl, .inr ⟨?_, nodeOfW sha (cs ++ [n]) ks, ⟨ks, ?_, rfl⟩, rfl, rfl⟩⟩
      · rw [entriesAt_dir he, lookupPath_cons_dir hkid, lookupPath_nil]
      · rw [entriesAt_append he, entriesAt, hkid]; rfl
  · intro n hn
    rw [entriesAt_dir he] at hn
    cases hk : kid n es with
    | none => rw [lookupPath_cons_none hk] at hn; exact absurd rfl hn
    | some k =>
      refine ⟨(DTree.itemW sha k).toPB, ?_, ?_⟩
      · rw [dirMsg_links, RT.itemsW_map, List.map_map, List.mem_map]
        exact ⟨k, kid_mem hk, rfl⟩
      · show some (DTree.itemW sha k).name = some n
        rw [RT.itemW_name, kid_name hk]

namespace RT

theorem sum_mod (a b : Nat) : (a + b % U64) % U64 = (a + b) % U64 := by rw [Nat.add_mod, Nat.mod_mod, ← Nat.add_mod]

mutual
theorem total_item (sha : Bytes → Bytes) (path : List Bytes) : ∀ k : DTree,
    (k.itemW sha).total % U64 = (blockBytes (postOrderW sha path k) + linkTotals k) % U64
  | .link _ _ s => by simp [DTree.itemW, postOrderW, blockBytes, linkTotals]
  | .dir n ks => by
    have h := total_items sha (path ++ [n]) ks
    simp only [DTree.itemW, dirTotalW, dirTotal, Nat.mod_mod, postOrderW, linkTotals, blockBytes, List.map_append, List.sum_append,
      List.map_cons, List.map_nil, List.sum_cons, List.sum_nil, Nat.add_zero, nodeOfW]
    rw [← sum_mod, h, sum_mod]
    congr 1
    simp only [blockBytes]; omega
theorem total_items (sha : Bytes → Bytes) (path : List Bytes) : ∀ ks : List DTree,
    (((DTree.itemsW sha ks).map (·.total)).sum) % U64 = (blockBytes (postOrderLW sha path ks) + linkTotalsL ks) % U64
  | [] => rfl
  | k :: ks => by
    have h1 := total_item sha path k
    have h2 := total_items sha path ks
    simp only [DTree.itemsW, List.map_cons, List.sum_cons, postOrderLW, linkTotalsL, blockBytes, List.map_append, List.sum_append]
    rw [Nat.add_mod, h1, h2, ← Nat.add_mod]
    congr 1
    simp only [blockBytes]; omega
end

end RT

/-- The total size in the node of a directory: the lengths of its own block and of all blocks of directories below it, and the
total sizes of all links below it, modulo 2^64. -/
theorem C133_totals (sha : Bytes → Bytes) (ks : List DTree) (cs : List Bytes) (es : List DTree)
    (_ : entriesAt cs ks = some es) (x : TreeNode) (hx : NodeAtW sha ks cs x) :
    x.total_size = (x.block.length + blockBytes (postOrderLW sha cs es) + linkTotalsL es) % U64 := by
  obtain ⟨es', he, rfl⟩ := hx
  obtain rfl : es = es' := by simp_all
  have h := RT.total_items sha cs es
  show dirTotal (DTree.itemsW sha es) % U64 = ((dirBlock (DTree.itemsW sha es)).length + _ + _) % U64
  unfold dirTotal
  rw [← RT.sum_mod, h, RT.sum_mod, Nat.add_assoc]

/-! ### Comparison with a checked build -/

namespace RT
variable (sha : Bytes → Bytes)

theorem dirAnswer_same {lim : Option Nat} {path : List Bytes} {ks : List DTree} {f : Fate}
    (h : IterNext.panic .iterOverflow ∉ dirAnswer sha lim path ks f) (hi : f = .filled → DTree.itemsW sha ks = DTree.items sha ks) :
    dirAnswerW sha lim path ks f = dirAnswer sha lim path ks f ∧ dirFateW sha lim ks f = dirFate sha lim ks f := by
  cases f with
  | panicked => exact ⟨rfl, rfl⟩
  | missing => exact ⟨rfl, rfl⟩
  | filled =>
    simp only [dirAnswerW, dirFateW, nodeOfW, hi rfl, dirTotalW] at h ⊢
    simp only [dirAnswer, dirFate, nodeOf] at h ⊢
    by_cases h1 : tooLarge lim (dirBlock (DTree.items sha ks)).length = true
    · simp [h1]
    · rw [if_neg h1] at h
      simp only [h1]
      by_cases h2 : dirTotal (DTree.items sha ks) < U64
      · simp [h2, Nat.mod_eq_of_lt h2]
      · simp [h2] at h

mutual
theorem answers_same {lim : Option Nat} (path : List Bytes) : ∀ k : DTree, IterNext.panic .iterOverflow ∉ answers sha lim path k →
    answersW sha lim path k = answers sha lim path k ∧ fateW sha lim k = fate sha lim k ∧
    (fate sha lim k = .filled → k.itemW sha = k.item sha)
  | .link _ _ _, _ => ⟨rfl, rfl, fun _ => rfl⟩
  | .dir n ks, h => by
    rw [answers, List.mem_append, not_or] at h
    obtain ⟨h1, h2, h3⟩ := answersL_same (path ++ [n]) ks h.1
    obtain ⟨g1, g2⟩ := dirAnswer_same sha h.2 h3
    refine ⟨by rw [answersW, answers, h1, h2, g1], by rw [fateW, fate, h2, g2], fun hf => ?_⟩
    rw [fate, Verif.dirFate_filled] at hf
    simp only [DTree.itemW, DTree.item, h3 hf.1, dirTotalW, Nat.mod_eq_of_lt hf.2.2]
theorem answersL_same {lim : Option Nat} (path : List Bytes) : ∀ ks : List DTree, IterNext.panic .iterOverflow ∉ answersL sha lim path ks →
    answersLW sha lim path ks = answersL sha lim path ks ∧ fateLW sha lim ks = fateL sha lim ks ∧
    (fateL sha lim ks = .filled → DTree.itemsW sha ks = DTree.items sha ks)
  | [], _ => ⟨rfl, rfl, fun _ => rfl⟩
  | k :: ks, h => by
    rw [answersL, List.mem_append, not_or] at h
    obtain ⟨h1, h2, h3⟩ := answersL_same path ks h.1
    by_cases hp : fateL sha lim ks = .panicked
    · refine ⟨by rw [answersLW, answersL, h1, h2, if_pos hp, if_pos hp], ?_, fun hf => ?_⟩
      · rw [fateLW, fateL, h2, hp]; rfl
      · rw [fateL, hp] at hf; cases hf
    · rw [if_neg hp] at h
      obtain ⟨g1, g2, g3⟩ := answers_same path k h.2
      refine ⟨by rw [answersLW, answersL, h1, h2, if_neg hp, if_neg hp, g1], by rw [fateLW, fateL, h2, g2], fun hf => ?_⟩
      rw [fateL, Verif.worse_filled] at hf
      rw [DTree.itemsW, DTree.items, h3 hf.1, g3 hf.2]
end

end RT

/-- The answers are those of a checked build, unless one of those is the panic for a total size which overflows. -/
theorem C133_agrees (sha : Bytes → Bytes) (opts : TreeOptions) (ks : List DTree)
    (h : IterNext.panic .iterOverflow ∉ allAnswers sha opts ks) : allAnswersW sha opts ks = allAnswers sha opts ks := by
  rw [allAnswers, List.mem_append, not_or] at h
  obtain ⟨h1, h2, h3⟩ := RT.answersL_same sha [] ks h.1
  rw [allAnswersW, allAnswers, h1, h2]
  cases hw : opts.wrap_with_directory with
  | false => rfl
  | true =>
    rw [hw] at h
    simp only [if_true] at h ⊢
    rw [(RT.dirAnswer_same sha h.2 h3).1]

/-! ### An example -/

/-- Two links of total size 2^64 - 1 in a directory `a`. -/
def wrapOps : List Op := [.putLink [97, 47, 98] (cidN 0) (2 ^ 64 - 1), .putLink [97, 47, 99] (cidN 1) (2 ^ 64 - 1)]
def wrapBuilder : BufferingTreeBuilder := (runOps (.new wrapping) wrapOps).2
theorem wrapBuilder_obtainable : Obtainable wrapBuilder := by
  refine ⟨_, _, ?_, rfl⟩
  intro op h
  simp only [wrapOps, List.mem_cons, List.not_mem_nil, or_false] at h
  rcases h with rfl | rfl
  · exact ⟨⟨by decide, by decide⟩, by decide, by decide⟩
  · exact ⟨⟨by decide, by decide⟩, by decide, by decide⟩

/-- The directory `a` counts two bytes less than its own block; the root is built on top of that; a checked build panics at
the first call. -/
theorem C133_example :
    NeverPanicsR toySha wrapBuilder.build ∧ nexts toySha 1 wrapBuilder.build = none ∧
    ∃ a root, nextsR toySha 4 wrapBuilder.build = some [.item a, .item root, .finished, .finished] ∧
      a.path = [97] ∧ a.total_size = a.block.length - 2 ∧
      root.path = [] ∧ root.total_size = root.block.length + a.block.length - 2 := by
  refine ⟨?_, ?_, ?_⟩
  · rw [C133_panics toySha toySha_length _ wrapBuilder_obtainable]
    have h : ∀ x ∈ (allNodesW toySha wrapBuilder.opts.wrap_with_directory (contents wrapBuilder)).dropLast,
        tooLarge wrapBuilder.opts.block_size_limit x.block.length = false := by decide +kernel
    exact fun x hx => Verif.within_iff.2 (h x hx)
  · rw [C60_all_answers toySha toySha_length _ wrapBuilder_obtainable]
    decide +kernel
  · refine ⟨nodeOfW toySha [[97]] (((entriesAt [[97]] (contents wrapBuilder)).getD [])), nodeOfW toySha [] (contents wrapBuilder), ?_, rfl, ?_, rfl, ?_⟩
    · rw [C133_all_answers toySha toySha_length _ wrapBuilder_obtainable]
      decide +kernel
    · decide +kernel
    · decide +kernel

/-- The hypotheses of `C133_nodes`, `C133_block` and `C133_totals` at the directory `a`. -/
example : (∀ x ∈ allNodesW toySha wrapBuilder.opts.wrap_with_directory (contents wrapBuilder), Within wrapBuilder.opts.block_size_limit x) ∧
    ∃ es x, entriesAt [[97]] (contents wrapBuilder) = some es ∧ NodeAtW toySha (contents wrapBuilder) [[97]] x ∧
      es.length = 2 ∧ x.total_size + 2 = x.block.length := by
  have h : ∀ x ∈ allNodesW toySha wrapBuilder.opts.wrap_with_directory (contents wrapBuilder),
      tooLarge wrapBuilder.opts.block_size_limit x.block.length = false := by decide +kernel
  have hs : (entriesAt [[97]] (contents wrapBuilder)).isSome = true := by decide +kernel
  obtain ⟨es, he⟩ := Option.isSome_iff_exists.1 hs
  have hg : (entriesAt [[97]] (contents wrapBuilder)).getD [] = es := by rw [he]; rfl
  refine ⟨fun x hx => Verif.within_iff.2 (h x hx), es, nodeOfW toySha [[97]] es, he, ⟨es, he, rfl⟩, ?_, ?_⟩
  · rw [← hg]; decide +kernel
  · rw [← hg]; decide +kernel

/-- The hypothesis of `C133_agrees` where there are an error and another panic: a limit of 3 bytes, and a directory in a
directory. -/
example : IterNext.panic .iterOverflow ∉ allAnswers toySha smallLimit.opts (contents smallLimit) ∧
    allAnswersW toySha smallLimit.opts (contents smallLimit) = [.failed (.TooLargeBlock 4), .panic .customPbMissing] := by
  decide +kernel

end Verif.Props
