import Verif.Props.Built
/-
C63: resolving in built directories: what is not in the tree is not found.
-/
namespace Verif.Props
open Verif Verif.Spec

/-- Resolving a name which is not in a directory. -/
theorem resolve_noentry {sha : Bytes → Bytes} {es : List DTree} (hok : ∀ i ∈ DTree.items sha es, i.Ok) {n : Bytes}
    (hk : kid n es = none) (cache) : resolve (dirBlock (DTree.items sha es)) n cache = (.ok .NotFound, cache) := by
  have hm : FlatUnixFs.tryParse (dirBlock (DTree.items sha es)) = .ok (dirMsg (DTree.items sha es)) :=
    C01_flat_roundtrip _ (dirMsg_fits hok)
  have hne : ∀ {es : List DTree}, kid n es = none → ∀ k ∈ es, k.name ≠ n := by
    intro es
    induction es with
    | nil => intro _ k hk; cases hk
    | cons z es ih =>
      intro h k hk
      rw [kid] at h
      by_cases hz : z.name = n
      · rw [if_pos hz] at h; cases h
      · rw [if_neg hz] at h
        rcases List.mem_cons.1 hk with rfl | hk
        · exact hz
        · exact ih h k hk
  refine C41_absent _ n _ cache (plainDir_of hm rfl) ?_
  intro l hl hn
  rw [dirMsg_links, items_map] at hl
  obtain ⟨i, hi, rfl⟩ := List.mem_map.1 hl
  obtain ⟨k, hk', rfl⟩ := List.mem_map.1 hi
  exact hne hk k hk' (by rw [← item_name sha k]; exact hn)

/-- In every block yielded, every name is resolved to what the tree has there: the Cid which was put, the Cid of the node yielded for
the subdirectory, or nothing. -/
theorem C63_name (sha : Bytes → Bytes) (hsha : ∀ b, (sha b).length = 32) (b : BufferingTreeBuilder) (hb : Obtainable b)
    (hfit : SizesFit sha b) (nodes : List TreeNode) (last : IterNext) (it : PostOrderIterator)
    (h : drainAll sha b.build = some (nodes, last, it)) :
    ∃ built, built.map (·.2) = nodes ∧ Listing b built ∧ ∀ p ∈ built, ∀ n cache,
      (∀ c s, lookupPath (p.1 ++ [n]) (contents b) = some (.link c s) → resolve p.2.block n cache = (.ok (.Found c), cache)) ∧
      (lookupPath (p.1 ++ [n]) (contents b) = some .dir →
        ∃ y, (p.1 ++ [n], y) ∈ built ∧ resolve p.2.block n cache = (.ok (.Found y.cid), cache)) ∧
      (lookupPath (p.1 ++ [n]) (contents b) = none → resolve p.2.block n cache = (.ok .NotFound, cache)) := by
  obtain ⟨rest, h1, -⟩ := drained_prefix hsha hb hfit h
  obtain ⟨built, e1, e2, e3, -⟩ := listing hb h1
  refine ⟨built, e1, e2, fun p hp n cache => ?_⟩
  obtain ⟨es, he, hx⟩ := e3 p hp
  have hs := entriesAt_sorted he (contents_sorted hb)
  have hok := built_items_ok hsha hb hfit he
  have hblock : p.2.block = dirBlock (DTree.items sha es) := by rw [hx]; rfl
  rw [entriesAt_dir he [n], hblock]
  cases hk : kid n es with
  | none =>
    rw [lookupPath_cons_none hk]
    exact ⟨fun c s h => (by cases h), fun h => (by cases h), fun _ => resolve_noentry hok hk cache⟩
  | some k =>
    rw [resolve_entry hsha hs hok hk cache]
    cases k with
    | link n' c' s' =>
      rw [lookupPath_cons_link hk, if_pos rfl]
      refine ⟨fun c s h => (by cases h; rfl), fun h => (by cases h), fun h => (by cases h)⟩
    | dir n' ks' =>
      rw [lookupPath_cons_dir hk, lookupPath_nil]
      refine ⟨fun c s h => (by cases h), fun _ => ?_, fun h => (by cases h)⟩
      have hb' : BuiltDir b (p.1 ++ [n]) := by
        refine ⟨?_, fun h => by simp at h⟩
        rw [entriesAt_dir he [n], lookupPath_cons_dir hk, lookupPath_nil]
      obtain ⟨y, hy, hye⟩ := List.mem_map.1 (e2.below p hp (p.1 ++ [n]) hb' (List.prefix_append _ _))
      refine ⟨y.2, by rw [← hye]; exact hy, ?_⟩
      obtain ⟨es', he', hx'⟩ := e3 y hy
      rw [hye, entriesAt_append he, entriesAt, hk] at he'
      cases he'
      rw [hx', hye]
      rfl

/-- Resolving from the block of a directory, when the path is not in the tree. -/
theorem resolve_absent {sha : Bytes → Bytes} (hsha : ∀ b, (sha b).length = 32) {b : BufferingTreeBuilder} (hb : Obtainable b)
    (hfit : SizesFit sha b) {get : Cid → Option Bytes}
    (hget : ∀ x ∈ allNodes sha b.opts.wrap_with_directory (contents b), get x.cid = some x.block) :
    ∀ (rest cs : List Bytes) (es : List DTree), entriesAt cs (contents b) = some es →
      (lookupPath rest es = none → (∀ q, q <+: rest → ¬ isLink (lookupPath q es)) →
        resolvePath get (dirBlock (DTree.items sha es)) rest = none) ∧
      (∀ q tail c s, rest = q ++ tail → tail ≠ [] → lookupPath q es = some (.link c s) →
        resolvePath get (dirBlock (DTree.items sha es)) rest = (get c).bind (fun block => resolvePath get block tail)) := by
  intro rest
  induction rest with
  | nil =>
    intro cs es he
    refine ⟨fun h => by simp [lookupPath] at h, fun q tail c s h ht => ?_⟩
    exact absurd (List.append_eq_nil_iff.1 h.symm).2 ht
  | cons n rest ih =>
    intro cs es he
    have hs := entriesAt_sorted he (contents_sorted hb)
    have hok := built_items_ok hsha hb hfit he
    cases hk : kid n es with
    | none =>
      refine ⟨fun _ _ => by rw [resolvePath, resolve_noentry hok hk], ?_⟩
      intro q tail c s h ht hl
      cases q with
      | nil => rw [lookupPath_nil] at hl; cases hl
      | cons x q => cases h; rw [lookupPath_cons_none hk] at hl; cases hl
    | some k =>
      cases k with
      | link k' c' s' =>
        refine ⟨fun _ hp => ?_, ?_⟩
        · exfalso
          refine hp [n] ⟨rest, rfl⟩ ?_
          rw [lookupPath_cons_link hk, if_pos rfl]; trivial
        · intro q tail c s h ht hl
          cases q with
          | nil => rw [lookupPath_nil] at hl; cases hl
          | cons x q =>
            cases h
            rw [lookupPath_cons_link hk] at hl
            by_cases hq : q = []
            · subst hq
              rw [if_pos rfl] at hl; cases hl
              rw [resolvePath, resolve_entry hsha hs hok hk]
              show (if tail = [] then some c' else match get c' with | some b => resolvePath get b tail | none => none) = _
              rw [if_neg ht]
              cases get c' <;> rfl
            · rw [if_neg hq] at hl; cases hl
      | dir k' ks' =>
        have he' : entriesAt (cs ++ [n]) (contents b) = some ks' := by
          rw [entriesAt_append he, entriesAt, hk]; rfl
        have hg : get (DTree.item sha (.dir k' ks')).cid = some (dirBlock (DTree.items sha ks')) :=
          hget (nodeOf sha (cs ++ [n]) ks') ((built_iff sha b hb _).2 ⟨cs ++ [n], ⟨entriesAt_some.2 ⟨_, he'⟩, by simp⟩, ks', he', rfl⟩)
        have hstep : rest ≠ [] → resolvePath get (dirBlock (DTree.items sha es)) (n :: rest) =
            resolvePath get (dirBlock (DTree.items sha ks')) rest := by
          intro hr
          rw [resolvePath, resolve_entry hsha hs hok hk]
          simp only
          rw [if_neg hr, hg]
        obtain ⟨ih1, ih2⟩ := ih (cs ++ [n]) ks' he'
        refine ⟨fun hl hp => ?_, ?_⟩
        · rw [lookupPath_cons_dir hk] at hl
          have hr : rest ≠ [] := by rintro rfl; rw [lookupPath_nil] at hl; cases hl
          rw [hstep hr]
          refine ih1 hl (fun q hq hl' => hp (n :: q) (by rw [List.cons_prefix_cons]; exact ⟨rfl, hq⟩) ?_)
          rw [lookupPath_cons_dir hk]; exact hl'
        · intro q tail c s h ht hl
          cases q with
          | nil => rw [lookupPath_nil] at hl; cases hl
          | cons x q =>
            cases h
            rw [lookupPath_cons_dir hk] at hl
            rw [hstep (by simp [ht])]
            exact ih2 q tail c s rfl ht hl

/-- After everything was built with wrapping: resolving any path from the root block over the blocks built finds exactly what is in
the tree, as long as the path does not go on below a link; and below a link, it goes on in whatever the link leads to. -/
theorem C63_path (sha : Bytes → Bytes) (hsha : ∀ b, (sha b).length = 32) (b : BufferingTreeBuilder) (hb : Obtainable b)
    (hw : b.opts.wrap_with_directory = true) (hfit : SizesFit sha b) (nodes : List TreeNode) (it : PostOrderIterator)
    (hbuild : drainAll sha b.build = some (nodes, .finished, it))
    (get : Cid → Option Bytes) (hget : ∀ x ∈ nodes, get x.cid = some x.block)
    (root : TreeNode) (hroot : nodes.getLast? = some root) :
    ∃ built, built.map (·.2) = nodes ∧ Listing b built ∧ ∀ cs ≠ [],
      (∀ c s, lookupPath cs (contents b) = some (.link c s) → resolvePath get root.block cs = some c) ∧
      (lookupPath cs (contents b) = some .dir → ∃ y, (cs, y) ∈ built ∧ resolvePath get root.block cs = some y.cid) ∧
      (lookupPath cs (contents b) = none → (∀ q, q <+: cs → ¬ isLink (lookupPath q (contents b))) →
        resolvePath get root.block cs = none) ∧
      (∀ q tail c s, cs = q ++ tail → tail ≠ [] → lookupPath q (contents b) = some (.link c s) →
        resolvePath get root.block cs = (get c).bind (fun block => resolvePath get block tail)) := by
  obtain ⟨rest, h1, h2⟩ := drained_prefix hsha hb hfit hbuild
  rw [h2 rfl] at h1
  obtain ⟨built, e1, e2, e3, e4⟩ := listing hb h1
  rw [List.append_nil] at h1
  have hget' : ∀ x ∈ allNodes sha b.opts.wrap_with_directory (contents b), get x.cid = some x.block := by rw [h1]; exact hget
  have hr : root.block = dirBlock (DTree.items sha (contents b)) := by
    rw [← h1, allNodes, hw, if_pos rfl, List.getLast?_concat] at hroot
    cases hroot; rfl
  rw [hr]
  refine ⟨built, e1, e2, fun cs hcs => ⟨?_, ?_, ?_, ?_⟩⟩
  · intro c s hl
    exact resolve_from hsha hb hfit hget' cs [] _ rfl hcs c (.inl ⟨s, hl⟩)
  · intro hl
    obtain ⟨y, hy, rfl⟩ := List.mem_map.1 (e4 rfl cs ⟨hl, fun h => absurd h hcs⟩)
    exact ⟨y.2, hy, resolve_from hsha hb hfit hget' y.1 [] _ rfl hcs _ (.inr ⟨y.2, e3 y hy, rfl⟩)⟩
  · exact (resolve_absent hsha hb hfit hget' cs [] _ rfl).1
  · exact (resolve_absent hsha hb hfit hget' cs [] _ rfl).2

/-- In the sample, `a` is a directory, `a/c` an empty one, and `a/d` and `b` are not there. -/
example : ∃ root, (allNodes toySha true (contents sampleBuilder)).getLast? = some root ∧
    lookupPath [[97], [100]] (contents sampleBuilder) = none ∧ (resolve root.block [98] none).1 = .ok .NotFound ∧
    resolvePath (fun c => ((allNodes toySha true (contents sampleBuilder)).find? (·.cid = c)).map (·.block)) root.block [[97], [99]] =
      some (cidOf toySha [10, 2, 8, 1]) ∧
    resolvePath (fun c => ((allNodes toySha true (contents sampleBuilder)).find? (·.cid = c)).map (·.block)) root.block [[97], [100]] = none := by
  refine ⟨(allNodes toySha true (contents sampleBuilder))[2]'(by decide +kernel), ?_, ?_, ?_, ?_, ?_⟩ <;> decide +kernel

end Verif.Props
