import Verif.Props.DirRoot
import Verif.Props.Orders
/-
C118: the block of a directory depends only on what is below it; so a call of the builder changes only the directories which lead to its
path, and it does change them.
-/
namespace Verif.Props
open Verif Verif.Spec

/-- C118. Two directories, of one builder or of two (with any options, and wherever they are), with the same below them have the same block,
Cid and total size. -/
theorem C118_same (sha : Bytes → Bytes) (hsha : ∀ b, (sha b).length = 32) (b b' : BufferingTreeBuilder) (hb : Obtainable b) (hb' : Obtainable b')
    (hfit : SizesFit sha b) (hfit' : SizesFit sha b') (nodes nodes' : List TreeNode) (last last' : IterNext) (it it' : PostOrderIterator)
    (h : drainAll sha b.build = some (nodes, last, it)) (h' : drainAll sha b'.build = some (nodes', last', it')) :
    ∃ built built', built.map (·.2) = nodes ∧ built'.map (·.2) = nodes' ∧ Listing b built ∧ Listing b' built' ∧
      ∀ p ∈ built, ∀ p' ∈ built', (∀ q, lookupPath (p.1 ++ q) (contents b) = lookupPath (p'.1 ++ q) (contents b')) →
        p.2.block = p'.2.block ∧ p.2.cid = p'.2.cid ∧ p.2.total_size = p'.2.total_size := by
  obtain ⟨rest, h1, -⟩ := drained_prefix hsha hb hfit h
  obtain ⟨built, e1, e2, e3, -⟩ := listing hb h1
  obtain ⟨rest', h1', -⟩ := drained_prefix hsha hb' hfit' h'
  obtain ⟨built', e1', e2', e3', -⟩ := listing hb' h1'
  refine ⟨built, built', e1, e1', e2, e2', fun p hp p' hp' heq => ?_⟩
  obtain ⟨es, he, hx⟩ := e3 p hp
  obtain ⟨es', he', hx'⟩ := e3' p' hp'
  have : es = es' := lookup_ext _ _ (entriesAt_sorted he (contents_sorted hb)) (entriesAt_sorted he' (contents_sorted hb')) (fun q => by
    rw [← entriesAt_dir he, ← entriesAt_dir he']; exact heq q)
  subst this
  rw [hx, hx']
  exact ⟨rfl, rfl, rfl⟩

theorem decreasing_le : ∀ (n : Nat) (l : List Nat), l.Pairwise (· > ·) → (∀ x ∈ l, x < n) → l.length ≤ n
  | n, [], _, _ => Nat.zero_le _
  | n, x :: l, hp, hl => by
    rw [List.pairwise_cons] at hp
    have h1 := decreasing_le x l hp.2 hp.1
    have h2 := hl x (by simp)
    simp only [List.length_cons]
    omega

/-- In a listing, directories which lead to `cs` are no more than it has components, if it is not among them. -/
theorem leading_le {b : BufferingTreeBuilder} {built : List (List Bytes × TreeNode)} (hl : Listing b built) (cs : List Bytes) (n : Nat)
    (keep : List Bytes × TreeNode → Bool) (hk : ∀ p ∈ built, keep p = true → p.1 <+: cs ∧ p.1.length < n) :
    (built.filter keep).length ≤ n := by
  have h := decreasing_le n ((built.filter keep).map (fun p => p.1.length)) ?_ ?_
  · simpa using h
  · rw [List.pairwise_map]
    have ho := hl.order
    rw [List.pairwise_map] at ho
    have ho := ho.sublist (List.filter_sublist (p := keep))
    refine List.Pairwise.imp_of_mem ?_ ho
    intro p p' hp hp' hno
    rw [List.mem_filter] at hp hp'
    obtain ⟨h1, -⟩ := hk p hp.1 hp.2
    obtain ⟨h2, -⟩ := hk p' hp'.1 hp'.2
    rcases Nat.lt_or_ge p'.1.length p.1.length with h | h
    · exact h
    · exact absurd (List.prefix_of_prefix_length_le h1 h2 h) hno
  · intro x hx
    obtain ⟨p, hp, rfl⟩ := List.mem_map.1 hx
    rw [List.mem_filter] at hp
    exact (hk p hp.1 hp.2).2

/-- C118. After one more successful call, at the path `cs`, everything built for directories which do not lead to `cs` is as before, and
nothing else is: of the nodes built, at most as many are new as `cs` has components, and one more if the call made a directory. -/
theorem C118_step (sha : Bytes → Bytes) (hsha : ∀ b, (sha b).length = 32) (b : BufferingTreeBuilder) (hb : Obtainable b) (op : Op) (hop : op.Ok)
    (cs : List Bytes) (hp : PathOf op.path cs) (hok : (op.run b).1 = .ok ())
    (hfit : SizesFit sha b) (hfit' : SizesFit sha (op.run b).2) (nodes nodes' : List TreeNode) (it it' : PostOrderIterator)
    (h : drainAll sha b.build = some (nodes, .finished, it)) (h' : drainAll sha (op.run b).2.build = some (nodes', .finished, it')) :
    (∃ built built', built.map (·.2) = nodes ∧ built'.map (·.2) = nodes' ∧ Listing b built ∧ Listing (op.run b).2 built' ∧
      ∀ p, ¬ p.1 <+: cs → (p ∈ built ↔ p ∈ built')) ∧
    (nodes'.filter (fun x => decide (x ∉ nodes))).length ≤ cs.length + (if op.thing = .dir then 1 else 0) := by
  have hb' := obtainable_run hb hop
  obtain ⟨rest, h1, h2⟩ := drained_prefix hsha hb hfit h
  obtain ⟨built, e1, e2, e3, e4⟩ := listing hb h1
  replace e4 := e4 (h2 rfl)
  obtain ⟨rest', h1', h2'⟩ := drained_prefix hsha hb' hfit' h'
  obtain ⟨built', e1', e2', e3', e4'⟩ := listing hb' h1'
  replace e4' := e4' (h2' rfl)
  have hupd := C31_update b hb op hop cs hp hok
  have hopts : (op.run b).2.opts = b.opts := by
    rcases run_path (obtainable_inv hb) hop hp with ⟨e, he, h⟩ | ⟨he, b', h, _, ho, _⟩
    · rw [h] at hok; cases hok
    · rw [h]; exact ho
  have hsame : ∀ q, ¬ q <+: cs → ∀ r, lookupPath (q ++ r) (contents (op.run b).2) = lookupPath (q ++ r) (contents b) := by
    intro q hq r
    have hn : ¬ q ++ r <+: cs := fun hc => hq ((List.prefix_append _ _).trans hc)
    rw [hupd, after, if_neg (fun he => hn (by rw [he]; exact List.prefix_refl _)), if_neg hn]
  have hdir : ∀ q, ¬ q <+: cs → (BuiltDir b q ↔ BuiltDir (op.run b).2 q) := by
    intro q hq
    have := hsame q hq []
    rw [List.append_nil] at this
    rw [BuiltDir, BuiltDir, this, hopts]
  have hent : ∀ q es es', ¬ q <+: cs → entriesAt q (contents b) = some es → entriesAt q (contents (op.run b).2) = some es' → es = es' := by
    intro q es es' hq he he'
    refine lookup_ext _ _ (entriesAt_sorted he (contents_sorted hb)) (entriesAt_sorted he' (contents_sorted hb')) fun r => ?_
    rw [← entriesAt_dir he, ← entriesAt_dir he', hsame q hq]
  have hboth : ∀ p, ¬ p.1 <+: cs → (p ∈ built ↔ p ∈ built') := by
    intro p hq
    constructor
    · intro hm
      obtain ⟨es, he, hx⟩ := e3 p hm
      obtain ⟨p', hm', hpp⟩ := List.mem_map.1 (e4' p.1 ((hdir _ hq).1 (e2.dirs p hm)))
      obtain ⟨es', he', hx'⟩ := e3' p' hm'
      rw [hpp] at he' hx'
      have : p = p' := Prod.ext hpp.symm (by rw [hx, hx', hent _ _ _ hq he he'])
      exact this ▸ hm'
    · intro hm
      obtain ⟨es', he', hx'⟩ := e3' p hm
      obtain ⟨p', hm', hpp⟩ := List.mem_map.1 (e4 p.1 ((hdir _ hq).2 (e2'.dirs p hm)))
      obtain ⟨es, he, hx⟩ := e3 p' hm'
      rw [hpp] at he hx
      have : p = p' := Prod.ext hpp.symm (by rw [hx, hx', hent _ _ _ hq he he'])
      exact this ▸ hm'
  refine ⟨⟨built, built', e1, e1', e2, e2', hboth⟩, ?_⟩
  rw [← e1', List.filter_map, List.length_map]
  refine leading_le e2' cs _ _ fun p hm hkeep => ?_
  have hpre : p.1 <+: cs := by
    refine Classical.byContradiction fun hno => ?_
    have := (hboth p hno).2 hm
    have hin : p.2 ∈ nodes := by rw [← e1]; exact List.mem_map_of_mem this
    simp [hin] at hkeep
  refine ⟨hpre, ?_⟩
  have hle := hpre.length_le
  by_cases hput : op.thing = .dir
  · rw [if_pos hput]; omega
  · rw [if_neg hput]
    rcases Nat.lt_or_ge p.1.length cs.length with hlt | hge
    · exact hlt
    · have heq : p.1 = cs := hpre.eq_of_length_le hge
      have hd := (e2'.dirs p hm).1
      rw [heq, hupd, after, if_pos rfl] at hd
      exact absurd (Option.some.inj hd) hput

/-- C118. A call which made a link or a directory where there was nothing does change all directories which lead there (and were there
before): they have other Cids, unless two blocks collide. In particular the root has another Cid. -/
theorem C118_changes (sha : Bytes → Bytes) (hsha : ∀ b, (sha b).length = 32) (b : BufferingTreeBuilder) (hb : Obtainable b)
    (hw : b.opts.wrap_with_directory = true) (op : Op) (hop : op.Ok)
    (cs : List Bytes) (hp : PathOf op.path cs) (hok : (op.run b).1 = .ok ()) (hnew : lookupPath cs (contents b) = none)
    (hfit : SizesFit sha b) (hfit' : SizesFit sha (op.run b).2) (nodes nodes' : List TreeNode) (it it' : PostOrderIterator)
    (h : drainAll sha b.build = some (nodes, .finished, it)) (h' : drainAll sha (op.run b).2.build = some (nodes', .finished, it'))
    (hno : NoCollision nodes nodes') :
    (∃ built built', built.map (·.2) = nodes ∧ built'.map (·.2) = nodes' ∧ Listing b built ∧ Listing (op.run b).2 built' ∧
      ∀ p ∈ built, ∀ p' ∈ built', p.1 = p'.1 → p.1 <+: cs → p.2.cid ≠ p'.2.cid) ∧
    (∀ root root', nodes.getLast? = some root → nodes'.getLast? = some root' → root.cid ≠ root'.cid) := by
  have hb' := obtainable_run hb hop
  have hupd := C31_update b hb op hop cs hp hok
  have hrefused := C31_outcome b hb op hop cs hp
  rw [hok] at hrefused
  have hopts : (op.run b).2.opts = b.opts := by
    rcases run_path (obtainable_inv hb) hop hp with ⟨e, he, h⟩ | ⟨he, b', h, _, ho, _⟩
    · rw [h] at hok; cases hok
    · rw [h]; exact ho
  have hw' : (op.run b).2.opts.wrap_with_directory = true := by rw [hopts]; exact hw
  obtain ⟨rest, h1, h2⟩ := drained_prefix hsha hb hfit h
  rw [h2 rfl, List.append_nil] at h1
  obtain ⟨rest', h1', h2'⟩ := drained_prefix hsha hb' hfit' h'
  rw [h2' rfl, List.append_nil] at h1'
  subst h1 h1'
  obtain ⟨built, e1, e2, e3, e4⟩ := listing (sha := sha) hb (List.append_nil _).symm
  obtain ⟨built', e1', e2', e3', e4'⟩ := listing (sha := sha) hb' (List.append_nil _).symm
  -- no link is above
  have hlink : ∀ i, i < cs.length → ¬ isLink (lookupPath (cs.take i) (contents b)) := by
    intro i hi hl
    have hr : refusal b.opts.wrap_with_directory (contents b) op cs ≠ none := by
      unfold refusal
      rw [hw, if_neg (by simp), if_pos ⟨i, hi, hl⟩]; simp
    cases hr' : refusal b.opts.wrap_with_directory (contents b) op cs with
    | none => exact hr hr'
    | some e => rw [hr'] at hrefused; cases hrefused
  -- the first component which was not there
  have hfirst : ∀ (t d : List Bytes), cs = d ++ t → lookupPath d (contents b) = some .dir →
      ∃ t1 n t2, t = t1 ++ n :: t2 ∧ lookupPath (d ++ t1) (contents b) = some .dir ∧ lookupPath (d ++ t1 ++ [n]) (contents b) = none := by
    intro t
    induction t with
    | nil => intro d hd hdir; rw [List.append_nil] at hd; rw [← hd, hnew] at hdir; cases hdir
    | cons n t ih =>
      intro d hd hdir
      cases hl : lookupPath (d ++ [n]) (contents b) with
      | none => exact ⟨[], n, t, rfl, by rw [List.append_nil]; exact hdir, by rw [List.append_nil]; exact hl⟩
      | some th =>
        cases th with
        | dir =>
          obtain ⟨t1, m, t2, g1, g2, g3⟩ := ih (d ++ [n]) (by rw [hd]; simp) hl
          exact ⟨n :: t1, m, t2, by rw [g1]; rfl, by simpa using g2, by simpa using g3⟩
        | link c s =>
          exfalso
          rcases Nat.lt_or_ge (d ++ [n]).length cs.length with hlt | hge
          · refine hlink _ hlt ?_
            have : cs.take (d ++ [n]).length = d ++ [n] := by rw [hd, show d ++ n :: t = (d ++ [n]) ++ t by simp, List.take_left']; rfl
            rw [this, hl]; trivial
          · have : cs = d ++ [n] := by
              rw [hd] at hge ⊢
              have : t = [] := by
                simp only [List.length_append, List.length_cons, List.length_nil] at hge
                exact List.length_eq_zero_iff.1 (by omega)
              rw [this]
            rw [← this, hnew] at hl; cases hl
  have main : ∀ d fs fs', d <+: cs → entriesAt d (contents b) = some fs → entriesAt d (contents (op.run b).2) = some fs' →
      cidOf sha (dirBlock (DTree.items sha fs)) ≠ cidOf sha (dirBlock (DTree.items sha fs')) := by
    rintro d fs fs' ⟨t, ht⟩ hf hf' hc
    have hi := entries_of_cid hsha hb hb' hfit hfit' hw hw' hno hf hf' hc
    obtain ⟨t1, n, t2, g1, g2, g3⟩ := hfirst t d ht.symm (entriesAt_some.2 ⟨_, hf⟩)
    have g2' : lookupPath (d ++ t1) (contents (op.run b).2) = some .dir := by
      rw [hupd, after, if_neg, if_pos]
      · exact ⟨n :: t2, by rw [← ht, g1]; simp⟩
      · intro he
        have := congrArg List.length he
        rw [← ht, g1] at this
        simp at this
    have g3' : lookupPath (d ++ t1 ++ [n]) (contents (op.run b).2) ≠ none := by
      have hpre : d ++ t1 ++ [n] <+: cs := ⟨t2, by rw [← ht, g1]; simp⟩
      rw [hupd, after]
      split
      · simp
      · simp
    obtain ⟨es, he⟩ := entriesAt_some.1 g2
    obtain ⟨es', he'⟩ := entriesAt_some.1 g2'
    have hie := common_entries hsha hb hb' hfit hfit' hw hw' hno t1 d hf hf' hi
      (by rw [← entriesAt_append hf]; exact he) (by rw [← entriesAt_append hf']; exact he')
    have hk := kid_items (n := n) hie
    have key : ∀ es : List DTree, lookupPath [n] es = none ↔ kid n es = none := by
      intro es
      rw [lookupPath]
      cases kid n es with
      | none => simp
      | some k => cases k <;> simp [lookupPath_nil]
    rw [entriesAt_dir he, key] at g3
    rw [entriesAt_dir he', ne_eq, key] at g3'
    rw [g3] at hk
    cases g : kid n es' with
    | none => exact g3' g
    | some k => rw [g] at hk; cases hk
  refine ⟨⟨built, built', e1, e1', e2, e2', fun p hm p' hm' hpp hpre hc => ?_⟩, fun root root' hr hr' => ?_⟩
  · obtain ⟨es, he, hx⟩ := e3 p hm
    obtain ⟨es', he', hx'⟩ := e3' p' hm'
    rw [hx, hx'] at hc
    exact main p.1 es es' hpre he (hpp ▸ he') hc
  · rw [allNodes, hw, if_pos rfl, List.getLast?_concat] at hr
    rw [allNodes, hw', if_pos rfl, List.getLast?_concat] at hr'
    cases hr; cases hr'
    exact main [] _ _ List.nil_prefix rfl rfl

/-- A case: the sample of the other properties (a link `a/b`, a directory `a/c`), and the call which makes a directory `a/d`. Everything is met;
three nodes are new, and the new directory has the block of the other empty one. -/
theorem C118_example : let op := Op.setMetadata [97, 47, 100] {}
    Obtainable sampleBuilder ∧ op.Ok ∧ PathOf op.path [[97], [100]] ∧ (op.run sampleBuilder).1 = .ok () ∧
    lookupPath [[97], [100]] (contents sampleBuilder) = none ∧ SizesFit toySha sampleBuilder ∧ SizesFit toySha (op.run sampleBuilder).2 ∧
    ∃ nodes nodes' it it', drainAll toySha sampleBuilder.build = some (nodes, .finished, it) ∧
      drainAll toySha (op.run sampleBuilder).2.build = some (nodes', .finished, it') ∧ NoCollision nodes nodes' ∧
      nodes.map (·.path) = [[97, 47, 99], [97], []] ∧ nodes'.map (·.path) = [[97, 47, 100], [97, 47, 99], [97], []] ∧
      (nodes'.filter (fun x => decide (x ∉ nodes))).length = 3 ∧
      (nodes'.filter (fun x => decide (x.block ∉ nodes.map (·.block)))).map (·.path) = [[97], []] := by
  intro op
  have hop : op.Ok := ⟨by decide, by decide +kernel⟩
  have hb' := obtainable_run sampleBuilder_obtainable hop
  have hfit' : SizesFit toySha (op.run sampleBuilder).2 := by
    have : ∀ x ∈ allNodes toySha (op.run sampleBuilder).2.opts.wrap_with_directory (contents (op.run sampleBuilder).2), x.total_size < U64 := by
      decide +kernel
    exact this
  have hlim : ∀ b : BufferingTreeBuilder, ∀ l0, b.opts.block_size_limit = some l0 →
      (∀ x ∈ allNodes toySha b.opts.wrap_with_directory (contents b), x.block.length ≤ l0) →
      ∀ x ∈ allNodes toySha b.opts.wrap_with_directory (contents b), Within b.opts.block_size_limit x := by
    intro b l0 h hx x hm l hl
    rw [h] at hl; cases hl
    exact hx x hm
  obtain ⟨it, h1, -⟩ := build_all toySha toySha_length _ sampleBuilder_obtainable sampleBuilder_fits (hlim _ 524288 (by decide +kernel) (by decide +kernel))
  obtain ⟨it', h1', -⟩ := build_all toySha toySha_length _ hb' hfit' (hlim _ 524288 (by decide +kernel) (by decide +kernel))
  refine ⟨sampleBuilder_obtainable, hop, ⟨by decide, by simp, by decide, .inr (by decide)⟩, by decide +kernel, by decide +kernel,
    sampleBuilder_fits, hfit', _, _, it, it', h1, h1', ?_, by decide +kernel, by decide +kernel, by decide +kernel, by decide +kernel⟩
  have : ∀ x ∈ allNodes toySha sampleBuilder.opts.wrap_with_directory (contents sampleBuilder),
      ∀ y ∈ allNodes toySha (op.run sampleBuilder).2.opts.wrap_with_directory (contents (op.run sampleBuilder).2), x.cid = y.cid → x.block = y.block := by
    decide +kernel
  exact this

end Verif.Props
