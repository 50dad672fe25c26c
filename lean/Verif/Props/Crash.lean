import Verif.Props.EndToEnd
import Verif.Props.BlockSizes
/-
C83: what is in the store after a crash. A client puts blocks into its store in the order in which they are returned; the crash can
come between any two of them.
-/
namespace Verif.Props
open Verif Verif.Spec

/-! ### The adder -/

/-- Facts about the trees emitted at some moment during (or at the end of) adding `x`. -/
structure EmittedSoFar (sha : Bytes → Bytes) (c bf : Nat) (x : Bytes) (E : List FTree) : Prop where
  first : ChildrenFirst E
  parse : ∀ t ∈ E, FlatUnixFs.tryParse (t.block sha) = .ok (t.msg sha)
  arity : ∀ t ∈ E, t.Arity bf
  slice : ∀ t ∈ E, ∃ u v, x = u ++ t.content ++ v ∧ c ∣ u.length
  order : (E.filterMap leafData).flatten <+: x

theorem nodes_contiguous {s : FTree} : ∀ t : FTree, s ∈ t.nodes → ∃ u v, t.leaves = u ++ s.leaves ++ v := by
  intro t
  induction t using FTree.induct with
  | hl d => intro h; simp only [FTree.nodes, List.mem_singleton] at h; subst h; exact ⟨[], [], by simp⟩
  | hn ts ih =>
    intro h
    simp only [FTree.nodes, List.mem_cons] at h
    rcases h with rfl | h
    · exact ⟨[], [], by simp⟩
    · rw [FTree.nodesL_eq] at h
      obtain ⟨t, ht, hs⟩ := List.mem_flatMap.1 h
      obtain ⟨u, v, e⟩ := ih t ht hs
      obtain ⟨p, q, rfl⟩ := List.append_of_mem ht
      refine ⟨p.flatMap FTree.leaves ++ u, v ++ q.flatMap FTree.leaves, ?_⟩
      simp only [FTree.leaves, FTree.leavesL_eq, List.flatMap_append, List.flatMap_cons, e, List.append_assoc]

theorem emitted_reaches {sha : Bytes → Bytes} (hsha : ∀ b, (sha b).length = 32) {c bf : Nat} (hc : 0 < c) (hbf : 0 < bf) {x : Bytes}
    {bs : List (Cid × Bytes)} {a : FileAdder} (h : Reaches sha c bf x bs a) (hsmall : BelowLimit bs) :
    ∃ E, bs = E.map (FTree.entry sha) ∧ EmittedSoFar sha c bf x E ∧ (E.filterMap leafData).flatten = x.take (x.length / c * c) := by
  obtain ⟨ds, inv, h1, h2, hfit⟩ := reaches_inv hc hbf h
  have f := (runT_inv hbf ds).forest
  have hlen := flatten_full ds inv.full
  refine ⟨_, h2, ⟨f.cf, fun t ht => tree_parse hsha (hsmall (t.entry sha) (by rw [h2]; exact List.mem_map_of_mem ht)) (hfit t ht), ?_, ?_, ?_⟩, ?_⟩
  · intro t ht
    obtain ⟨t', ht', htn⟩ := List.mem_flatMap.1 (f.perm.mem_iff.1 ht)
    exact arity_sub htn (f.ar t' ht')
  · intro t ht
    obtain ⟨t', ht', htn⟩ := List.mem_flatMap.1 (f.perm.mem_iff.1 ht)
    obtain ⟨u, v, e⟩ := nodes_contiguous t' htn
    obtain ⟨p, q, hpq⟩ := List.append_of_mem ht'
    have hl := f.leaves
    rw [hpq, List.flatMap_append, List.flatMap_cons, e] at hl
    refine ⟨(p.flatMap FTree.leaves ++ u).flatten, (v ++ q.flatMap FTree.leaves).flatten ++ a.block_buffer, ?_, ?_⟩
    · rw [h1, ← hl, ← FTree.leaves_flatten]
      simp only [List.flatten_append, List.append_assoc]
    · rw [flatten_full (c := c)]
      · exact Nat.dvd_mul_right _ _
      · intro d hd
        apply inv.full
        rw [← hl]
        simp only [List.mem_append] at hd ⊢
        rcases hd with hd | hd
        · exact .inl hd
        · exact .inr (.inl (.inl (.inl hd)))
  · rw [f.lv, h1]; exact List.prefix_append _ _
  · have hs := inv.small
    rw [f.lv]
    have hx : x.length / c = ds.length := by
      rw [h1, List.length_append, hlen, Nat.mul_add_div hc, Nat.div_eq_of_lt hs]; rfl
    rw [hx, h1, Nat.mul_comm, ← hlen, List.take_left]

theorem emitted_adds {sha : Bytes → Bytes} (hsha : ∀ b, (sha b).length = 32) {c bf : Nat} (hc : 0 < c) (hbf : 0 < bf) {x : Bytes}
    {bs : List (Cid × Bytes)} (h : Adds sha c bf x bs) (hsmall : BelowLimit bs) :
    ∃ E, bs = E.map (FTree.entry sha) ∧ EmittedSoFar sha c bf x E := by
  obtain ⟨T, hh, f⟩ := adds_facts hc hbf h
  obtain ⟨h1, h2, -, -⟩ := C15_chunks c hc x
  refine ⟨_, f.blocks, f.em.childrenFirst, fun t ht => f.parse hsha hsmall (f.em.perm.mem_iff.1 ht),
    fun t ht => arity_sub (f.em.perm.mem_iff.1 ht) f.em.arity, ?_, ?_⟩
  · intro t ht
    have htn := f.em.perm.mem_iff.1 ht
    obtain ⟨u, v, e⟩ := nodes_contiguous T htn
    have hne := leaves_ne t (arity_sub htn f.em.arity)
    rw [f.em.leaves] at e
    refine ⟨u.flatten, v.flatten, ?_, ?_⟩
    · rw [← h1, e, ← FTree.leaves_flatten]; simp
    · rw [flatten_full (c := c)]
      · exact Nat.dvd_mul_right _ _
      · intro d hd
        apply h2
        rw [e, List.append_assoc, List.dropLast_append_of_ne_nil (by simp [hne])]
        exact List.mem_append_left _ hd
  · rw [f.em.leafOrder, h1]; exact List.prefix_refl _

/-- The nodes of a tree are emitted no later than it. -/
theorem nodes_saved {E : List FTree} (hcf : ChildrenFirst E) (t : FTree) :
    ∀ p s, E = p ++ t :: s → ∀ n ∈ t.nodes, n ∈ p ++ [t] := by
  induction t using FTree.induct with
  | hl d => intro p s _ n hn; simp only [FTree.nodes, List.mem_singleton] at hn; subst hn; simp
  | hn ts ih =>
    intro p s h n hn
    simp only [FTree.nodes, List.mem_cons] at hn
    rcases hn with rfl | hn
    · simp
    · rw [FTree.nodesL_eq] at hn
      obtain ⟨t, ht, hs⟩ := List.mem_flatMap.1 hn
      obtain ⟨p', q', rfl⟩ := List.append_of_mem (hcf p _ s h t ht)
      have := ih t ht p' (q' ++ .node ts :: s) (by rw [h]; simp) n hs
      simp only [List.mem_append, List.mem_cons, List.not_mem_nil, or_false] at this ⊢
      rcases this with h | h
      · exact .inl (.inl h)
      · exact .inl (.inr (.inl h))

/-- Every saved block is the root of a file in the store. -/
theorem saved_fileAt {sha : Bytes → Bytes} (hsha : ∀ b, (sha b).length = 32) {c bf : Nat} {x : Bytes} {E : List FTree}
    (f : EmittedSoFar sha c bf x E) {saved : List (Cid × Bytes)} (hs : saved <+: E.map (FTree.entry sha))
    {get : Cid → Option Bytes} (hget : Holds get saved) : ∀ e ∈ saved, ∃ t ∈ E, e = t.entry sha ∧ FileAt get t e.2 := by
  intro e he
  obtain ⟨lost, hl⟩ := hs
  obtain ⟨p, q, h1, rfl, -⟩ := List.map_eq_append_iff.1 hl.symm
  obtain ⟨t, ht, rfl⟩ := List.mem_map.1 he
  obtain ⟨p', q', rfl⟩ := List.append_of_mem ht
  have hn := nodes_saved f.first t p' (q' ++ q) (by rw [h1]; simp)
  have hE : ∀ s ∈ t.nodes, s ∈ p' ++ t :: q' := by
    intro s hs
    have := hn s hs
    simp only [List.mem_append, List.mem_cons, List.not_mem_nil, or_false] at this ⊢
    rcases this with h | h
    · exact .inl h
    · exact .inr (.inl h)
  refine ⟨t, by rw [h1]; simp, rfl, fileAt_tree hsha get t ?_ ?_ ?_⟩
  · intro s hs; exact f.parse s (by rw [h1]; exact List.mem_append_left _ (hE s hs))
  · intro s hs; exact hget (s.entry sha) (List.mem_map_of_mem (hE s hs))
  · intro s hs ts hts h0
    have := (f.arity t (by rw [h1]; simp) s hs ts hts).1
    rw [h0] at this; simp at this

/-- C83. Whenever the crash comes, during adding or in the middle of storing what was returned: every block which is in the store can be
read from to the end, and gives a piece of the added content, which begins at a multiple of the chunk size. -/
theorem C83_saved_blocks_read (sha : Bytes → Bytes) (hsha : ∀ b, (sha b).length = 32) (c bf : Nat) (hc : 0 < c) (hbf : 0 < bf) (x : Bytes)
    (blocks : List (Cid × Bytes)) (h : (∃ a, Reaches sha c bf x blocks a) ∨ Adds sha c bf x blocks) (hsmall : BelowLimit blocks)
    (saved : List (Cid × Bytes)) (hs : saved <+: blocks) (get : Cid → Option Bytes) (hget : Holds get saved) :
    ∀ e ∈ saved, ∃ before piece after cids, readFile get {} e.2 = some (.ok (piece, cids)) ∧
      x = before ++ piece ++ after ∧ c ∣ before.length := by
  obtain ⟨E, rfl, f⟩ : ∃ E, blocks = E.map (FTree.entry sha) ∧ EmittedSoFar sha c bf x E := by
    rcases h with ⟨a, h⟩ | h
    · obtain ⟨E, h1, h2, -⟩ := emitted_reaches hsha hc hbf h hsmall; exact ⟨E, h1, h2⟩
    · exact emitted_adds hsha hc hbf h hsmall
  intro e he
  obtain ⟨t, ht, -, hat⟩ := saved_fileAt hsha f hs hget e he
  obtain ⟨u, v, h1, h2⟩ := f.slice t ht
  obtain ⟨cids, hr⟩ := C18_read_wellformed get t _ hat
  exact ⟨u, t.content, v, cids, hr, h1, h2⟩

theorem leafContent_entry {sha : Bytes → Bytes} {c bf : Nat} {x : Bytes} {E : List FTree} (f : EmittedSoFar sha c bf x E) :
    (E.map (FTree.entry sha)).filterMap leafContent = E.filterMap leafData := by
  rw [List.filterMap_map]
  apply filterMap_congr'
  intro t ht
  simp only [Function.comp, leafContent, FTree.entry, f.parse t ht, msg_links]
  cases t with
  | leaf d => simp only [FTree.children, List.map_nil, if_true, msg_data, leafData]
  | node ts =>
    have := (f.arity _ ht _ (FTree.self_mem_nodes _) ts rfl).1
    rw [if_neg (by intro h; have := congrArg List.length h; simp [FTree.children] at this; simp [this] at *)]
    rfl

/-- C83. The leaves in the store, in the order in which they were stored, carry a beginning of the content. -/
theorem C83_saved_content (sha : Bytes → Bytes) (hsha : ∀ b, (sha b).length = 32) (c bf : Nat) (hc : 0 < c) (hbf : 0 < bf) (x : Bytes)
    (blocks : List (Cid × Bytes)) (h : (∃ a, Reaches sha c bf x blocks a) ∨ Adds sha c bf x blocks) (hsmall : BelowLimit blocks)
    (saved : List (Cid × Bytes)) (hs : saved <+: blocks) : (saved.filterMap leafContent).flatten <+: x := by
  obtain ⟨E, rfl, f⟩ : ∃ E, blocks = E.map (FTree.entry sha) ∧ EmittedSoFar sha c bf x E := by
    rcases h with ⟨a, h⟩ | h
    · obtain ⟨E, h1, h2, -⟩ := emitted_reaches hsha hc hbf h hsmall; exact ⟨E, h1, h2⟩
    · exact emitted_adds hsha hc hbf h hsmall
  obtain ⟨lost, hl⟩ := hs
  refine List.IsPrefix.trans ?_ f.order
  rw [← leafContent_entry f, ← hl, List.filterMap_append, List.flatten_append]
  exact List.prefix_append _ _

/-- C83. At every moment the blocks returned so far hold all complete chunks of what was consumed: less than a chunk is only in
memory. -/
theorem C83_at_most_a_chunk_lost (sha : Bytes → Bytes) (hsha : ∀ b, (sha b).length = 32) (c bf : Nat) (hc : 0 < c) (hbf : 0 < bf) (x : Bytes)
    (blocks : List (Cid × Bytes)) (a : FileAdder) (h : Reaches sha c bf x blocks a) (hsmall : BelowLimit blocks) :
    (blocks.filterMap leafContent).flatten = x.take (x.length / c * c) := by
  obtain ⟨E, rfl, f, e⟩ := emitted_reaches hsha hc hbf h hsmall
  rw [leafContent_entry f, e]

theorem runT_prefix (bf : Nat) (es : List Bytes) : ∀ ds : List Bytes, (runT bf ds).2 <+: (runT bf (ds ++ es)).2 := by
  induction es with
  | nil => intro ds; simp
  | cons e es ih =>
    intro ds
    have h := ih (ds ++ [e])
    rw [List.append_assoc, List.singleton_append] at h
    refine List.IsPrefix.trans ?_ h
    rw [runT_snoc]
    unfold addT
    dsimp only
    split <;> exact List.prefix_append _ _

theorem full_chunks_prefix {c : Nat} (hc : 0 < c) {ds : List Bytes} (hf : ∀ d ∈ ds, d.length = c) (z : Bytes) :
    ds <+: chunks c (ds.flatten ++ z) := by
  cases ds with
  | nil => exact List.nil_prefix
  | cons d ds =>
    have hd := hf d (by simp)
    have hne : (d :: ds).flatten ++ z ≠ [] := by
      intro h
      have := congrArg List.length h
      simp only [List.flatten_cons, List.length_append, List.length_nil] at this
      omega
    unfold chunks
    rw [if_neg hne, groups_append_full hc _ hf]
    exact List.prefix_append _ _

/-- C83. Adding again after a crash: an addition of a content begins with the blocks which any other addition, of this or of a longer
or shorter content with the same beginning, has returned for that beginning. So the blocks in the store are reused, whatever is pushed
in which pieces. -/
theorem C83_resume (sha : Bytes → Bytes) (c bf : Nat) (hc : 0 < c) (hbf : 0 < bf) (x y : Bytes)
    (blocks : List (Cid × Bytes)) (a : FileAdder) (h : Reaches sha c bf x blocks a) :
    (∀ blocks', Adds sha c bf (x ++ y) blocks' → blocks <+: blocks') ∧
    (∀ blocks' a', Reaches sha c bf (x ++ y) blocks' a' → blocks <+: blocks') := by
  obtain ⟨ds, inv, h1, rfl, -⟩ := reaches_inv hc hbf h
  constructor
  · intro blocks' h'
    obtain ⟨rfl, -, -⟩ := adds_trees hc hbf h'
    have hp := full_chunks_prefix hc inv.full (a.block_buffer ++ y)
    rw [← List.append_assoc, ← h1] at hp
    obtain ⟨es, he⟩ := hp
    have h2 : (runT bf ds).2 <+: treesOf bf c (x ++ y) := by
      unfold treesOf
      rw [emission_flushed hbf, ← chunks_split hc, ← he]
      exact (runT_prefix bf es ds).trans (List.prefix_append _ _)
    exact h2.map _
  · intro blocks' a' h'
    obtain ⟨ds', inv', h1', rfl, -⟩ := reaches_inv hc hbf h'
    refine List.IsPrefix.map _ ?_
    have hlen : ds.length ≤ ds'.length := by
      have := congrArg List.length h1'
      rw [h1] at this
      simp only [List.length_append, flatten_full ds inv.full, flatten_full ds' inv'.full] at this
      have hs := inv'.small
      apply Decidable.byContradiction
      intro hn
      have : c * (ds'.length + 1) ≤ c * ds.length := Nat.mul_le_mul_left c (by omega)
      rw [Nat.mul_add] at this
      omega
    have hp := full_chunks_prefix hc inv.full (a.block_buffer ++ y)
    rw [← List.append_assoc, ← h1, h1'] at hp
    have hp' := full_chunks_prefix hc inv'.full a'.block_buffer
    obtain ⟨es, he⟩ := List.prefix_of_prefix_length_le hp hp' hlen
    rw [← he]
    exact runT_prefix bf es ds

/-- A crash after three pushed bytes, with chunks of one byte and two links per block: the four blocks returned by then are among those
of the whole addition, and the store which has only the first three of them can read each. -/
example : ∃ bs a, Reaches toySha 1 2 [1, 2, 3] bs a ∧ (bs.filterMap leafContent).flatten = [1, 2, 3] := by
  obtain ⟨bs, a, h⟩ := reaches_exists toySha_length (c := 1) (bf := 2) (by decide) (by decide) [1, 2, 3] (by decide)
  exact ⟨bs, a, h, C83_at_most_a_chunk_lost toySha toySha_length 1 2 (by decide) (by decide) _ _ a h
    (C94_below_limit toySha toySha_length 1 2 (by decide) (by decide) _ _ (.inl ⟨a, h⟩) (.inl (by decide)) (.inl (by decide)))⟩

/-! ### The builder -/

/-- C83. Whenever the crash comes, during the iteration (which may also have failed on a block too large) or in the middle of storing
what was yielded: every directory whose block is in the store can be walked to the end, provided what was put below it is in the
store; the walk reports everything below it. `target` says what the links lead to. No wrapping is needed. -/
theorem C83_saved_directories (sha : Bytes → Bytes) (hsha : ∀ b, (sha b).length = 32) (opts : TreeOptions)
    (ops : List Op) (hops : ∀ op ∈ ops, op.Ok) (hpaths : ∀ op ∈ successes (.new opts) ops, Walkable op)
    (hfit : SizesFit sha (runOps (.new opts) ops).2) (nodes : List TreeNode) (last : IterNext) (it : PostOrderIterator)
    (hbuild : drainAll sha (runOps (.new opts) ops).2.build = some (nodes, last, it))
    (saved : List TreeNode) (hs : saved <+: nodes)
    (get : Cid → Option Bytes) (hget : ∀ x ∈ saved, get x.cid = some x.block) :
    ∀ x ∈ saved, ∃ cs es, x.path = joinSlash cs ∧ entriesAt cs (contents (runOps (.new opts) ops).2) = some es ∧
      ∀ target : List Bytes → FsTree,
        (∀ p c s q, Op.putLink p c s ∈ successes (.new opts) ops → PathOf p (cs ++ q) →
          LeadsTo get (target (cs ++ q)) (cs ++ q) c) →
        ∀ cache, (∀ k, cache = some k → CacheObtainable k) →
          walkFrom get (Walker.new x.cid []) cache = some (.ok (.RootDirectory x.cid ⟨false, []⟩ {} ::
            FsTree.itemsL [] (graftL sha (fun q => target (cs ++ q)) [] es))) := by
  have hb : Obtainable (runOps (.new opts) ops).2 := ⟨opts, ops, hops, rfl⟩
  obtain ⟨rest, hr, -⟩ := drained_prefix hsha hb hfit hbuild
  obtain ⟨lost, rfl⟩ := hs
  rw [List.append_assoc] at hr
  obtain ⟨built, rfl, hlist, hnode, -⟩ := listing hb hr
  intro x hx
  obtain ⟨⟨cs, x'⟩, hp, rfl⟩ := List.mem_map.1 hx
  obtain ⟨es, he, e⟩ := hnode _ hp
  dsimp only at he e
  subst e
  refine ⟨cs, es, hlist.paths _ hp, he, ?_⟩
  intro target htarget cache hc
  have hsorted := entriesAt_sorted he (contents_sorted hb)
  have hl : ∀ q c s, lookupPath q es = some (.link c s) → LeadsTo get (target (cs ++ q)) q c := by
    intro q c s h
    have h' := h
    rw [← entriesAt_dir he] at h
    obtain ⟨p, hp, hpq⟩ := ((C31_history opts ops hops _).1 c s).1 h
    have := htarget p c s q hp hpq
    refine ⟨this.cid, ?_, this.stored, this.plain⟩
    rw [← this.name]
    cases q with
    | nil => rw [lookupPath_nil] at h'; cases h'
    | cons a q => rw [getLast?_append_ne _ (by simp)]
  have hgood : ∀ q n, lookupPath (q ++ [n]) es ≠ none → GoodName n := by
    intro q n h
    rw [← entriesAt_dir he, ← List.append_assoc] at h
    exact tree_names opts ops hops hpaths _ n h
  have hd : ∀ q es', entriesAt q es = some es' → get (cidOf sha (dirBlock (DTree.items sha es'))) =
      some (dirBlock (DTree.items sha es')) := by
    intro q es' he'
    rw [← entriesAt_append he] at he'
    have hdir := (hlist.dirs _ hp).2
    have hmem := hlist.below _ hp (cs ++ q) ⟨entriesAt_some.2 ⟨es', he'⟩, fun h => hdir (List.append_eq_nil_iff.1 h).1⟩
      (List.prefix_append _ _)
    obtain ⟨⟨cs', y⟩, hy, hcs⟩ := List.mem_map.1 hmem
    cases hcs
    obtain ⟨es'', h1, e⟩ := hnode _ hy
    dsimp only at h1 e
    subst e
    have h1 : entriesAt (cs ++ q) _ = _ := h1
    rw [he'] at h1
    cases h1
    exact hget _ (List.mem_map_of_mem hy)
  have hok : ∀ q es', entriesAt q es = some es' → ∀ i ∈ DTree.items sha es', i.Ok := by
    intro q es' he'
    rw [← entriesAt_append he] at he'
    exact built_items_ok hsha hb hfit he'
  obtain ⟨h1, h2⟩ := graftL_at (target := fun q => target (cs ++ q)) hsha hgood hl (fun q es _ => hd q es) hok [] es rfl es hsorted
    (fun k hk => kid_of_mem hsorted hk)
  have hat : FsAt get (.dir ⟨(nodeOf sha cs es).cid, [], {}⟩ (graftL sha (fun q => target (cs ++ q)) [] es)) :=
    ⟨_, Spec.dirMsg (DTree.items sha es), hd [] es rfl, C01_flat_roundtrip _ (dirMsg_fits (hok [] _ rfl)), rfl,
        ⟨rfl, rfl, rfl, rfl, rfl, rfl⟩, h1⟩
  exact C45_plain get _ cache hat (by rw [Unsharded]; exact h2) (by simp [FsTree.name]) hc

/-- The sample, of which only the first of three directories was stored before the crash. -/
example : ∃ x cs es, (allNodes toySha true (contents fileBuilder)).take 1 = [x] ∧
    x.path = joinSlash cs ∧ entriesAt cs (contents fileBuilder) = some es ∧
    ∀ target : List Bytes → FsTree, (∀ p c s q, Op.putLink p c s ∈ successes (.new wrapping) fileOps → PathOf p (cs ++ q) →
        LeadsTo fileStore (target (cs ++ q)) (cs ++ q) c) →
      walkFrom fileStore (Walker.new x.cid []) none = some (.ok (.RootDirectory x.cid ⟨false, []⟩ {} ::
        FsTree.itemsL [] (graftL toySha (fun q => target (cs ++ q)) [] es))) := by
  obtain ⟨it, root, k⟩ := fileCase
  generalize hn : allNodes toySha true (contents fileBuilder) = nodes
  have hb := k.build
  have hr := k.root
  have hst := k.stored
  rw [hn] at hb hr hst
  cases nodes with
  | nil => cases hr
  | cons x rest =>
    obtain ⟨cs, es, h1, h2, h3⟩ := C83_saved_directories toySha toySha_length wrapping fileOps k.ops k.walkable k.fit _ _ it hb
      [x] ⟨rest, rfl⟩ fileStore (by
        intro y hy
        rw [List.mem_singleton] at hy
        subst hy
        exact hst _ (by simp)) x (by simp)
    exact ⟨x, cs, es, rfl, h1, h2, fun target ht => h3 target ht none (by intro k h; cases h)⟩

end Verif.Props
