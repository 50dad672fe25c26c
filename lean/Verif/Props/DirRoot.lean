import Verif.Props.Absent
/-
C66: the root Cid of a built tree determines the tree (up to hash collisions and links to directories).
-/
namespace Verif.Props
open Verif Verif.Spec

theorem kid_items {sha : Bytes → Bytes} {n : Bytes} : ∀ {es es' : List DTree}, DTree.items sha es = DTree.items sha es' →
    (kid n es).map (DTree.item sha) = (kid n es').map (DTree.item sha)
  | [], [], _ => rfl
  | [], _ :: _, h => by cases h
  | _ :: _, [], h => by cases h
  | k :: es, k' :: es', h => by
    rw [DTree.items, DTree.items, List.cons.injEq] at h
    have hn : k.name = k'.name := by rw [← item_name sha k, ← item_name sha k', h.1]
    rw [kid, kid]
    by_cases hk : k.name = n
    · rw [if_pos hk, if_pos (hn ▸ hk)]; exact congrArg some h.1
    · rw [if_neg hk, if_neg (hn ▸ hk)]; exact kid_items h.2

/-- Valid entries can be told from the block. -/
theorem dirBlock_injective {items items' : List Item} (h : ∀ i ∈ items, i.Ok) (h' : ∀ i ∈ items', i.Ok)
    (he : dirBlock items = dirBlock items') : items = items' := by
  have h1 : FlatUnixFs.tryParse (dirBlock items) = .ok (dirMsg items) := C01_flat_roundtrip _ (dirMsg_fits h)
  have h2 : FlatUnixFs.tryParse (dirBlock items') = .ok (dirMsg items') := C01_flat_roundtrip _ (dirMsg_fits h')
  rw [he, h2] at h1
  have hl : (dirMsg items').links = (dirMsg items).links := by
    have := Except.ok.inj h1; rw [this]
  clear h1 h2 he
  induction items generalizing items' with
  | nil =>
    cases items' with
    | nil => rfl
    | cons i' items' => cases hl
  | cons i items ih =>
    cases items' with
    | nil => cases hl
    | cons i' items' =>
      simp only [dirMsg, List.map_cons, List.cons.injEq, PBLink.mk.injEq, Option.some.injEq] at hl
      obtain ⟨⟨hc, hn, ht⟩, hl⟩ := hl
      have := ih (items' := items') (fun x hx => h x (by simp [hx])) (fun x hx => h' x (by simp [hx])) hl
      subst this
      have hci : i'.cid = i.cid := C53_injective _ _ (h' i' (by simp)).1 (h i (by simp)).1 hc
      cases i; cases i'
      simp only at hn ht hci
      subst hn ht hci
      rfl

/-- No two different blocks among those of two lists of nodes have the same Cid. -/
def NoCollision (nodes nodes' : List TreeNode) : Prop := ∀ x ∈ nodes, ∀ y ∈ nodes', x.cid = y.cid → x.block = y.block

/-- No link in the tree of the builder has the Cid of one of the nodes. -/
def LinksElsewhere (b : BufferingTreeBuilder) (nodes : List TreeNode) : Prop :=
  ∀ q c s, lookupPath q (contents b) = some (.link c s) → ∀ y ∈ nodes, y.cid ≠ c

section
variable {sha : Bytes → Bytes} (hsha : ∀ b, (sha b).length = 32) {b b' : BufferingTreeBuilder} (hb : Obtainable b) (hb' : Obtainable b')
  (hfit : SizesFit sha b) (hfit' : SizesFit sha b')
  (hw : b.opts.wrap_with_directory = true) (hw' : b'.opts.wrap_with_directory = true)
  (hno : NoCollision (allNodes sha b.opts.wrap_with_directory (contents b)) (allNodes sha b'.opts.wrap_with_directory (contents b')))

include hsha hb hb' hfit hfit' hw hw' hno

theorem entries_of_cid {cs cs' es es'} (he : entriesAt cs (contents b) = some es) (he' : entriesAt cs' (contents b') = some es')
    (h : cidOf sha (dirBlock (DTree.items sha es)) = cidOf sha (dirBlock (DTree.items sha es'))) :
    DTree.items sha es = DTree.items sha es' := by
  refine dirBlock_injective (built_items_ok hsha hb hfit he) (built_items_ok hsha hb' hfit' he') ?_
  exact hno (nodeOf sha cs es) ((built_iff sha b hb _).2 ⟨cs, ⟨entriesAt_some.2 ⟨_, he⟩, fun _ => hw⟩, es, he, rfl⟩)
    (nodeOf sha cs' es') ((built_iff sha b' hb' _).2 ⟨cs', ⟨entriesAt_some.2 ⟨_, he'⟩, fun _ => hw'⟩, es', he', rfl⟩) h

theorem common_entries :
    ∀ (q cs : List Bytes) {fs fs' es es'}, entriesAt cs (contents b) = some fs → entriesAt cs (contents b') = some fs' →
      DTree.items sha fs = DTree.items sha fs' → entriesAt q fs = some es → entriesAt q fs' = some es' →
      DTree.items sha es = DTree.items sha es' := by
  intro q
  induction q with
  | nil => intro cs fs fs' es es' hf hf' hi he he'; cases he; cases he'; exact hi
  | cons n q ih =>
    intro cs fs fs' es es' hf hf' hi he he'
    have hk := kid_items (n := n) hi
    rw [entriesAt] at he he'
    cases h1 : kid n fs with
    | none => rw [h1] at he; cases he
    | some k =>
      cases h2 : kid n fs' with
      | none => rw [h2] at he'; cases he'
      | some k' =>
        rw [h1] at he hk
        rw [h2] at he' hk
        cases k with
        | link => cases he
        | dir m ks =>
          cases k' with
          | link => cases he'
          | dir m' ks' =>
            have g1 : entriesAt (cs ++ [n]) (contents b) = some ks := by rw [entriesAt_append hf, entriesAt, h1]; rfl
            have g2 : entriesAt (cs ++ [n]) (contents b') = some ks' := by rw [entriesAt_append hf', entriesAt, h2]; rfl
            have hc : cidOf sha (dirBlock (DTree.items sha ks)) = cidOf sha (dirBlock (DTree.items sha ks')) := by
              have := congrArg (Option.map Item.cid) hk
              simpa [DTree.item] using this
            exact ih (cs ++ [n]) g1 g2 (entries_of_cid hsha hb hb' hfit hfit' hw hw' hno g1 g2 hc) he he'

end

/-- Two builders (wrapping) of which everything was built, with the same Cid of the root, and no hash collision: the nodes of every
directory which is in both are the same, and the names in it are the same. -/
theorem C66_common (sha : Bytes → Bytes) (hsha : ∀ b, (sha b).length = 32) (b b' : BufferingTreeBuilder) (hb : Obtainable b)
    (hb' : Obtainable b') (hw : b.opts.wrap_with_directory = true) (hw' : b'.opts.wrap_with_directory = true)
    (hfit : SizesFit sha b) (hfit' : SizesFit sha b') (nodes nodes' : List TreeNode) (it it' : PostOrderIterator)
    (h : drainAll sha b.build = some (nodes, .finished, it)) (h' : drainAll sha b'.build = some (nodes', .finished, it'))
    (root root' : TreeNode) (hroot : nodes.getLast? = some root) (hroot' : nodes'.getLast? = some root')
    (hno : NoCollision nodes nodes') (heq : root.cid = root'.cid) :
    ∃ built built', built.map (·.2) = nodes ∧ built'.map (·.2) = nodes' ∧ Listing b built ∧ Listing b' built' ∧
      ∀ cs y y', (cs, y) ∈ built → (cs, y') ∈ built' → y = y' ∧
        ∀ n, lookupPath (cs ++ [n]) (contents b) = none ↔ lookupPath (cs ++ [n]) (contents b') = none := by
  obtain ⟨rest, h1, h2⟩ := drained_prefix hsha hb hfit h
  rw [h2 rfl] at h1
  obtain ⟨built, e1, e2, e3, -⟩ := listing hb h1
  obtain ⟨rest', h1', h2'⟩ := drained_prefix hsha hb' hfit' h'
  rw [h2' rfl] at h1'
  obtain ⟨built', e1', e2', e3', -⟩ := listing hb' h1'
  rw [List.append_nil] at h1 h1'
  subst h1 h1'
  have hr : root = nodeOf sha [] (contents b) := by
    rw [allNodes, hw, if_pos rfl, List.getLast?_concat] at hroot
    exact (Option.some.inj hroot).symm
  have hr' : root' = nodeOf sha [] (contents b') := by
    rw [allNodes, hw', if_pos rfl, List.getLast?_concat] at hroot'
    exact (Option.some.inj hroot').symm
  rw [hr, hr'] at heq
  have hitems : DTree.items sha (contents b) = DTree.items sha (contents b') :=
    entries_of_cid hsha hb hb' hfit hfit' hw hw' hno (cs := []) (cs' := []) rfl rfl heq
  refine ⟨built, built', e1, e1', e2, e2', fun cs y y' hy hy' => ?_⟩
  obtain ⟨es, he, hx⟩ := e3 _ hy
  obtain ⟨es', he', hx'⟩ := e3' _ hy'
  simp only at he he' hx hx'
  have hi := common_entries hsha hb hb' hfit hfit' hw hw' hno cs [] rfl rfl hitems he he'
  refine ⟨?_, fun n => ?_⟩
  · rw [hx, hx', nodeOf, nodeOf, hi]
  · rw [entriesAt_dir he, entriesAt_dir he']
    have hk := kid_items (n := n) hi
    have key : ∀ es : List DTree, lookupPath [n] es = none ↔ kid n es = none := by
      intro es
      rw [lookupPath]
      cases kid n es with
      | none => simp
      | some k => cases k <;> simp [lookupPath_nil]
    rw [key, key]
    cases g : kid n es <;> cases g' : kid n es' <;> rw [g, g'] at hk <;> simp at hk ⊢

/-- If moreover no link leads to a directory built by the other, then both trees are the same: there is the same at every path. -/
theorem C66_tree (sha : Bytes → Bytes) (hsha : ∀ b, (sha b).length = 32) (b b' : BufferingTreeBuilder) (hb : Obtainable b)
    (hb' : Obtainable b') (hw : b.opts.wrap_with_directory = true) (hw' : b'.opts.wrap_with_directory = true)
    (hfit : SizesFit sha b) (hfit' : SizesFit sha b') (nodes nodes' : List TreeNode) (it it' : PostOrderIterator)
    (h : drainAll sha b.build = some (nodes, .finished, it)) (h' : drainAll sha b'.build = some (nodes', .finished, it'))
    (root root' : TreeNode) (hroot : nodes.getLast? = some root) (hroot' : nodes'.getLast? = some root')
    (hno : NoCollision nodes nodes') (hl : LinksElsewhere b nodes') (hl' : LinksElsewhere b' nodes) (heq : root.cid = root'.cid)
    (q : List Bytes) : lookupPath q (contents b) = lookupPath q (contents b') := by
  obtain ⟨rest, h1, h2⟩ := drained_prefix hsha hb hfit h
  obtain ⟨rest', h1', h2'⟩ := drained_prefix hsha hb' hfit' h'
  rw [h2 rfl, List.append_nil] at h1
  rw [h2' rfl, List.append_nil] at h1'
  subst h1 h1'
  have hr : root = nodeOf sha [] (contents b) := by
    rw [allNodes, hw, if_pos rfl, List.getLast?_concat] at hroot
    exact (Option.some.inj hroot).symm
  have hr' : root' = nodeOf sha [] (contents b') := by
    rw [allNodes, hw', if_pos rfl, List.getLast?_concat] at hroot'
    exact (Option.some.inj hroot').symm
  rw [hr, hr'] at heq
  have hitems : DTree.items sha (contents b) = DTree.items sha (contents b') :=
    entries_of_cid hsha hb hb' hfit hfit' hw hw' hno (cs := []) (cs' := []) rfl rfl heq
  suffices hq : ∀ (q cs : List Bytes) es es', entriesAt cs (contents b) = some es → entriesAt cs (contents b') = some es' →
      DTree.items sha es = DTree.items sha es' → lookupPath q es = lookupPath q es' from hq q [] _ _ rfl rfl hitems
  clear heq hitems q
  intro q
  induction q with
  | nil => intro cs es es' _ _ _; rw [lookupPath_nil, lookupPath_nil]
  | cons n q ih =>
    intro cs es es' he he' hi
    have hk := kid_items (n := n) hi
    cases g1 : kid n es with
    | none =>
      cases g2 : kid n es' with
      | none => rw [lookupPath_cons_none g1, lookupPath_cons_none g2]
      | some k' => rw [g1, g2] at hk; cases hk
    | some k =>
      cases g2 : kid n es' with
      | none => rw [g1, g2] at hk; cases hk
      | some k' =>
        rw [g1, g2] at hk
        have hk : DTree.item sha k = DTree.item sha k' := Option.some.inj hk
        cases k with
        | link m c s =>
          cases k' with
          | link m' c' s' =>
            rw [lookupPath_cons_link g1, lookupPath_cons_link g2]
            have h1 := congrArg Item.cid hk
            have h2 := congrArg Item.total hk
            simp only [DTree.item] at h1 h2
            rw [h1, h2]
          | dir m' ks' =>
            exfalso
            have e2 : entriesAt (cs ++ [n]) (contents b') = some ks' := by rw [entriesAt_append he', entriesAt, g2]; rfl
            have e1 : lookupPath (cs ++ [n]) (contents b) = some (.link c s) := by
              rw [entriesAt_dir he, lookupPath_cons_link g1, if_pos rfl]
            refine hl _ c s e1 (nodeOf sha (cs ++ [n]) ks')
              ((built_iff sha b' hb' _).2 ⟨cs ++ [n], ⟨entriesAt_some.2 ⟨_, e2⟩, fun _ => hw'⟩, ks', e2, rfl⟩) ?_
            exact (congrArg Item.cid hk).symm
        | dir m ks =>
          have e1 : entriesAt (cs ++ [n]) (contents b) = some ks := by rw [entriesAt_append he, entriesAt, g1]; rfl
          cases k' with
          | link m' c' s' =>
            exfalso
            have e2 : lookupPath (cs ++ [n]) (contents b') = some (.link c' s') := by
              rw [entriesAt_dir he', lookupPath_cons_link g2, if_pos rfl]
            refine hl' _ c' s' e2 (nodeOf sha (cs ++ [n]) ks)
              ((built_iff sha b hb _).2 ⟨cs ++ [n], ⟨entriesAt_some.2 ⟨_, e1⟩, fun _ => hw⟩, ks, e1, rfl⟩) ?_
            exact congrArg Item.cid hk
          | dir m' ks' =>
            have e2 : entriesAt (cs ++ [n]) (contents b') = some ks' := by rw [entriesAt_append he', entriesAt, g2]; rfl
            rw [lookupPath_cons_dir g1, lookupPath_cons_dir g2]
            exact ih (cs ++ [n]) ks ks' e1 e2 (entries_of_cid hsha hb hb' hfit hfit' hw hw' hno e1 e2 (congrArg Item.cid hk))

/-- The sample, and the same calls the other way round: the hypotheses are met. -/
def sampleReversed : BufferingTreeBuilder := (runOps (.new wrapping) sampleOps.reverse).2

theorem sampleReversed_obtainable : Obtainable sampleReversed :=
  ⟨wrapping, sampleOps.reverse, fun op h => sampleOps_ok op (by simpa using h), rfl⟩

theorem sample_links (ops : List Op) (hops : ∀ op ∈ ops, op.Ok)
    (h : ∀ op ∈ successes (.new wrapping) ops, op ∈ sampleOps) (nodes : List TreeNode) (hn : ∀ y ∈ nodes, y.cid ≠ cidOf toySha [1]) :
    LinksElsewhere (runOps (.new wrapping) ops).2 nodes := by
  intro q c s hl y hy
  obtain ⟨p, hm, -⟩ := ((C31_history wrapping ops hops q).1 c s).1 hl
  have := h _ hm
  simp only [sampleOps, List.mem_cons, List.not_mem_nil, or_false, Op.putLink.injEq, reduceCtorEq] at this
  rw [this.2.1]
  exact hn y hy

theorem successes_sub (b : BufferingTreeBuilder) (ops : List Op) : ∀ op ∈ successes b ops, op ∈ ops := by
  induction ops generalizing b with
  | nil => simp [successes]
  | cons x ops ih =>
    intro op h
    rw [successes, List.mem_append] at h
    rcases h with h | h
    · split at h
      · rw [List.mem_singleton.1 h]; simp
      · cases h
    · exact List.mem_cons_of_mem _ (ih _ op h)

example : Obtainable sampleBuilder ∧ Obtainable sampleReversed ∧ sampleBuilder.opts.wrap_with_directory = true ∧
    sampleReversed.opts.wrap_with_directory = true ∧
    NoCollision (allNodes toySha true (contents sampleBuilder)) (allNodes toySha true (contents sampleReversed)) ∧
    LinksElsewhere sampleBuilder (allNodes toySha true (contents sampleReversed)) ∧
    LinksElsewhere sampleReversed (allNodes toySha true (contents sampleBuilder)) ∧
    (allNodes toySha true (contents sampleBuilder)).getLast?.map (·.cid) =
      (allNodes toySha true (contents sampleReversed)).getLast?.map (·.cid) := by
  refine ⟨sampleBuilder_obtainable, sampleReversed_obtainable, by decide +kernel, by decide +kernel, ?_, ?_, ?_, by decide +kernel⟩
  · have : ∀ x ∈ allNodes toySha true (contents sampleBuilder), ∀ y ∈ allNodes toySha true (contents sampleReversed),
        x.cid = y.cid → x.block = y.block := by decide +kernel
    exact this
  · exact sample_links sampleOps sampleOps_ok (successes_sub _ _) _ (by decide +kernel)
  · exact sample_links sampleOps.reverse (fun op h => sampleOps_ok op (by simpa using h))
      (fun op h => by simpa using successes_sub _ _ op h) _ (by decide +kernel)

/-- The hypothesis on links is needed: an empty directory, and a link to the block of an empty directory, give the same root. -/
example :
    (allNodes toySha true (contents (runOps (.new wrapping) [.setMetadata [97] {}]).2)).getLast?.map (·.cid) =
      (allNodes toySha true (contents (runOps (.new wrapping) [.putLink [97] (cidOf toySha [10, 2, 8, 1]) 4]).2)).getLast?.map (·.cid) ∧
    lookupPath [[97]] (contents (runOps (.new wrapping) [.setMetadata [97] {}]).2) = some .dir ∧
    lookupPath [[97]] (contents (runOps (.new wrapping) [.putLink [97] (cidOf toySha [10, 2, 8, 1]) 4]).2) =
      some (.link (cidOf toySha [10, 2, 8, 1]) 4) := by
  decide +kernel

end Verif.Props
