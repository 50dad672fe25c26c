import Verif.Props.Build
/-
Properties of building directory blocks, in terms of what the iterator yields: C33 to C40.
-/
namespace Verif.Props
open Verif Verif.Spec

/-! ### helpers -/

theorem take_of_prefix {α} {a b c : List α} (h : c = a ++ b) : c.take a.length = a := by rw [h]; simp

/-- What was yielded are the first nodes of the specification, all of them if the iterator ended normally. -/
theorem drained_prefix {sha : Bytes → Bytes} (hsha : ∀ b, (sha b).length = 32) {b : BufferingTreeBuilder} (hb : Obtainable b)
    (hfit : SizesFit sha b) {nodes last it} (h : drainAll sha b.build = some (nodes, last, it)) :
    ∃ rest, allNodes sha b.opts.wrap_with_directory (contents b) = nodes ++ rest ∧ (last = .finished → rest = []) := by
  rcases drain_limit sha hsha b hb hfit with ⟨-, it', h'⟩ | ⟨before, x, rest, it', he, -, -, h'⟩
  · rw [h] at h'; cases h'; exact ⟨[], by simp, fun _ => rfl⟩
  · rw [h] at h'; cases h'; exact ⟨_, he, fun h => by cases h⟩

theorem unlimited_drained {sha : Bytes → Bytes} (hsha : ∀ b, (sha b).length = 32) {b : BufferingTreeBuilder} (hb : Obtainable b)
    (hfit : SizesFit sha b) :
    ∃ it, drainAll sha (unlimited b).build = some (allNodes sha b.opts.wrap_with_directory (contents b), .finished, it) ∧
      it.next sha = some (.finished, it) := by
  rcases drain_root sha hsha b.root_builder (unlimited b).opts (contents_ids hb) (contents_ok hb) hfit with ⟨_, it, h, hp⟩ | ⟨E1, x, E2, it, he, _, hx, _⟩
  · exact ⟨it, h, next_nil sha hp⟩
  · exact absurd (fun l h => by cases h) hx

/-- The listing of what was yielded. -/
theorem listing {sha : Bytes → Bytes} {b : BufferingTreeBuilder} (hb : Obtainable b) {nodes rest : List TreeNode}
    (h : allNodes sha b.opts.wrap_with_directory (contents b) = nodes ++ rest) :
    ∃ built : List (List Bytes × TreeNode), built.map (·.2) = nodes ∧ Listing b built ∧
      (∀ p ∈ built, NodeAt sha (contents b) p.1 p.2) ∧
      (rest = [] → ∀ cs, BuiltDir b cs → cs ∈ built.map (·.1)) := by
  have hs := contents_sorted hb
  have hat := allNodes_at sha b.opts.wrap_with_directory hs
  have hmem := mem_builtPaths b.opts.wrap_with_directory hs
  have hpair := builtPaths_pairwise b.opts.wrap_with_directory hs
  generalize builtPaths b.opts.wrap_with_directory (contents b) = P at hat hmem hpair
  generalize allNodes sha b.opts.wrap_with_directory (contents b) = A at h hat
  have hlen : A.length = P.length := by simpa using congrArg List.length hat
  have hk : nodes.length ≤ A.length := by rw [h]; simp
  have hfst : ((P.zip A).take nodes.length).map (·.1) = P.take nodes.length := by
    rw [List.map_take]
    congr 1
    exact List.map_fst_zip (by omega)
  have hsnd : ((P.zip A).take nodes.length).map (·.2) = nodes := by
    rw [List.map_take, show (P.zip A).map (·.2) = A from List.map_snd_zip (by omega)]
    exact take_of_prefix h
  have hnode : ∀ p ∈ P.zip A, NodeAt sha (contents b) p.1 p.2 := by
    intro p hp
    obtain ⟨i, hi, rfl⟩ := List.mem_iff_getElem.1 hp
    have hi' : i < P.length ∧ i < A.length := by simpa [List.length_zip, Nat.lt_min] using hi
    have := congrArg (fun l => l[i]?) hat
    simp only [List.getElem?_map, List.getElem?_eq_getElem hi'.1, List.getElem?_eq_getElem hi'.2, Option.map_some] at this
    rw [List.getElem_zip]
    cases he : entriesAt P[i] (contents b) with
    | none => rw [he] at this; cases this
    | some es => rw [he] at this; exact ⟨es, he, by simpa using this⟩
  refine ⟨(P.zip A).take nodes.length, hsnd, ⟨?_, ?_, ?_, ?_, ?_⟩, fun p hp => hnode p (List.mem_of_mem_take hp), ?_⟩
  · intro p hp
    exact (hmem p.1).1 ((List.of_mem_zip (List.mem_of_mem_take hp)).1)
  · intro p hp
    obtain ⟨es, -, e⟩ := hnode p (List.mem_of_mem_take hp)
    rw [e]; rfl
  · rw [hfst]
    refine ((hpair.sublist (List.take_sublist _ _))).imp ?_
    rintro a b h rfl
    exact h (List.prefix_refl _)
  · rw [hfst]; exact hpair.sublist (List.take_sublist _ _)
  · intro p hp cs hcs hpre
    have h1 : p.1 ∈ P.take nodes.length := by rw [← hfst]; exact List.mem_map_of_mem hp
    have h2 := (hmem cs).2 hcs
    rw [hfst]
    rw [← List.take_append_drop nodes.length P] at h2
    rcases List.mem_append.1 h2 with h2 | h2
    · exact h2
    · rw [← List.take_append_drop nodes.length P] at hpair
      exact absurd hpre ((List.pairwise_append.1 hpair).2.2 _ h1 _ h2)
  · rintro rfl cs hcs
    rw [hfst, List.take_of_length_le (by rw [← hlen, h]; simp)]
    exact (hmem cs).2 hcs

/-! ### C33 -/

/-- Without a limit on the size of blocks, building yields one node for each directory in the tree (and for the root exactly
when wrapping), each with its path, and each after those below it; then ends, and stays ended. -/
theorem C33_build (sha : Bytes → Bytes) (hsha : ∀ b, (sha b).length = 32) (b : BufferingTreeBuilder) (hb : Obtainable b)
    (hfit : SizesFit sha b) (hlim : b.opts.block_size_limit = none) :
    ∃ built it, drainAll sha b.build = some (built.map (·.2), .finished, it) ∧ it.next sha = some (.finished, it) ∧
      Listing b built ∧ ∀ cs, BuiltDir b cs → cs ∈ built.map (·.1) := by
  obtain ⟨it, h, hn⟩ := unlimited_drained hsha hb hfit
  have hu : unlimited b = b := by
    show { b with opts := { b.opts with block_size_limit := none } } = b
    rw [← hlim]
  rw [hu] at h
  obtain ⟨rest, h1, h2⟩ := drained_prefix hsha hb hfit h
  obtain ⟨built, e1, e2, -, e4⟩ := listing hb h1
  rw [← e1] at h
  exact ⟨built, it, h, hn, e2, e4 (h2 rfl)⟩

/-- With any options, also if the iterator fails: what was yielded is in the same order, and no directory was yielded before
all those below it. -/
theorem C33_any (sha : Bytes → Bytes) (hsha : ∀ b, (sha b).length = 32) (b : BufferingTreeBuilder) (hb : Obtainable b)
    (hfit : SizesFit sha b) :
    ∃ built last it, drainAll sha b.build = some (built.map (·.2), last, it) ∧ Listing b built ∧
      (last = .finished → ∀ cs, BuiltDir b cs → cs ∈ built.map (·.1)) ∧
      (last = .finished ∨ ∃ n, last = .failed (.TooLargeBlock n)) := by
  obtain ⟨nodes, last, it, h, hl⟩ : ∃ nodes last it, drainAll sha b.build = some (nodes, last, it) ∧
      (last = .finished ∨ ∃ n, last = .failed (.TooLargeBlock n)) := by
    rcases drain_limit sha hsha b hb hfit with ⟨-, it, h⟩ | ⟨before, x, rest, it, -, -, -, h⟩
    · exact ⟨_, _, _, h, .inl rfl⟩
    · exact ⟨_, _, _, h, .inr ⟨_, rfl⟩⟩
  obtain ⟨rest, h1, h2⟩ := drained_prefix hsha hb hfit h
  obtain ⟨built, e1, e2, -, e4⟩ := listing hb h1
  rw [← e1] at h
  exact ⟨built, last, it, h, e2, fun hf => e4 (h2 hf), hl⟩

/-! ### C34 -/

/-- Every block yielded parses as a UnixFS directory whose links are the entries of the directory, in increasing order of
the names: each link carries the Cid and total size which were put, or those of the node yielded for the subdirectory. -/
theorem C34_block (sha : Bytes → Bytes) (hsha : ∀ b, (sha b).length = 32) (b : BufferingTreeBuilder) (hb : Obtainable b)
    (hfit : SizesFit sha b) (nodes : List TreeNode) (last : IterNext) (it : PostOrderIterator)
    (h : drainAll sha b.build = some (nodes, last, it)) :
    ∃ built, built.map (·.2) = nodes ∧ Listing b built ∧ ∀ p ∈ built,
      ∃ m, FlatUnixFs.tryParse p.2.block = .ok m ∧ m.data = { Ty := .Directory } ∧
        m.links.Pairwise (fun l l' => l.Name.getD [] < l'.Name.getD []) ∧
        (∀ l ∈ m.links, ∃ n c s, l = ⟨some c.toBytes, some n, some s⟩ ∧
          (lookupPath (p.1 ++ [n]) (contents b) = some (.link c s) ∨
           (lookupPath (p.1 ++ [n]) (contents b) = some .dir ∧ ∃ y, (p.1 ++ [n], y) ∈ built ∧ c = y.cid ∧ s = y.total_size))) ∧
        (∀ n, lookupPath (p.1 ++ [n]) (contents b) ≠ none → ∃ l ∈ m.links, l.Name = some n) := by
  obtain ⟨rest, h1, -⟩ := drained_prefix hsha hb hfit h
  obtain ⟨built, e1, e2, e3, -⟩ := listing hb h1
  refine ⟨built, e1, e2, fun p hp => ?_⟩
  obtain ⟨m, m1, m2, m3, m4, m5⟩ := nodeAt_block sha hsha b hb hfit p.1 p.2 (e3 p hp)
  refine ⟨m, m1, m2, m3, ?_, m5⟩
  intro l hl
  obtain ⟨n, c, s, rfl, hk⟩ := m4 l hl
  refine ⟨n, c, s, rfl, ?_⟩
  rcases hk with hk | ⟨hk, y, hy, rfl, rfl⟩
  · exact .inl hk
  · refine .inr ⟨hk, y, ?_, rfl, rfl⟩
    obtain ⟨q, hq, hq1⟩ := List.mem_map.1 (e2.below p hp (p.1 ++ [n]) ⟨hk, by simp⟩ (List.prefix_append _ _))
    obtain ⟨es, he, hx⟩ := hy
    obtain ⟨es', he', hx'⟩ := e3 q hq
    rw [hq1] at he' hx'
    rw [he] at he'
    cases he'
    rw [hx, ← hx', ← hq1]
    exact hq

/-! ### C36 -/

/-- The total size of a node yielded is the size of its block plus the total sizes given in its links (which by `C34_block`
are those put, and those of the nodes of the subdirectories). -/
theorem C36_total (sha : Bytes → Bytes) (hsha : ∀ b, (sha b).length = 32) (b : BufferingTreeBuilder) (hb : Obtainable b)
    (hfit : SizesFit sha b) (nodes : List TreeNode) (last : IterNext) (it : PostOrderIterator)
    (h : drainAll sha b.build = some (nodes, last, it)) (x : TreeNode) (hx : x ∈ nodes) :
    ∃ m, FlatUnixFs.tryParse x.block = .ok m ∧
      x.total_size = x.block.length + (m.links.map (fun l => l.Tsize.getD 0)).sum := by
  obtain ⟨rest, h1, -⟩ := drained_prefix hsha hb hfit h
  obtain ⟨cs, -, hat⟩ := (built_iff sha b hb x).1 (by rw [h1]; simp [hx])
  exact nodeAt_total sha hsha b hb hfit cs x hat

/-- Without recursion: the total size of a directory is the sum over everything below it. -/
theorem C36_recursive (sha : Bytes → Bytes) (hsha : ∀ b, (sha b).length = 32) (b : BufferingTreeBuilder) (hb : Obtainable b)
    (hfit : SizesFit sha b) (nodes : List TreeNode) (last : IterNext) (it : PostOrderIterator)
    (h : drainAll sha b.build = some (nodes, last, it)) :
    ∃ built, built.map (·.2) = nodes ∧ Listing b built ∧ ∀ p ∈ built,
      ∃ es, entriesAt p.1 (contents b) = some es ∧ p.2.total_size = p.2.block.length + totalBelowL sha es := by
  obtain ⟨rest, h1, -⟩ := drained_prefix hsha hb hfit h
  obtain ⟨built, e1, e2, e3, -⟩ := listing hb h1
  exact ⟨built, e1, e2, fun p hp => nodeAt_recursive sha _ p.1 p.2 (e3 p hp)⟩

/-! ### C40 -/

/-- A block depends only on the entries of its directory: directories with the same entries get the same block, Cid and
size, wherever they are, whatever was built before them, and in whichever builder with whichever options. -/
theorem C40_function_of_entries (sha : Bytes → Bytes) (hsha : ∀ b, (sha b).length = 32) (b b' : BufferingTreeBuilder)
    (hb : Obtainable b) (hb' : Obtainable b') (hfit : SizesFit sha b) (hfit' : SizesFit sha b')
    (nodes nodes' : List TreeNode) (last last' : IterNext) (it it' : PostOrderIterator)
    (h : drainAll sha b.build = some (nodes, last, it)) (h' : drainAll sha b'.build = some (nodes', last', it')) :
    ∃ built built', built.map (·.2) = nodes ∧ built'.map (·.2) = nodes' ∧ Listing b built ∧ Listing b' built' ∧
      ∀ p ∈ built, ∀ p' ∈ built', entriesAt p.1 (contents b) = entriesAt p'.1 (contents b') →
        p.2.block = p'.2.block ∧ p.2.cid = p'.2.cid ∧ p.2.total_size = p'.2.total_size := by
  obtain ⟨rest, h1, -⟩ := drained_prefix hsha hb hfit h
  obtain ⟨rest', h1', -⟩ := drained_prefix hsha hb' hfit' h'
  obtain ⟨built, e1, e2, e3, -⟩ := listing hb h1
  obtain ⟨built', e1', e2', e3', -⟩ := listing hb' h1'
  exact ⟨built, built', e1, e1', e2, e2', fun p hp p' hp' he =>
    nodeAt_entries sha _ _ p.1 p'.1 p.2 p'.2 (e3 p hp) (e3' p' hp') he⟩

/-! ### C37 -/

/-- With a limit, compared to the same builder without: either all blocks are within it and all are yielded; or those before
the first which is not are yielded, followed by the error with its size. -/
theorem C37_limit (sha : Bytes → Bytes) (hsha : ∀ b, (sha b).length = 32) (b : BufferingTreeBuilder) (hb : Obtainable b)
    (hfit : SizesFit sha b) :
    ∃ all it, drainAll sha (unlimited b).build = some (all, .finished, it) ∧
    (((∀ x ∈ all, Within b.opts.block_size_limit x) ∧ ∃ it', drainAll sha b.build = some (all, .finished, it')) ∨
     (∃ before x rest it', all = before ++ x :: rest ∧
      (∀ y ∈ before, Within b.opts.block_size_limit y) ∧ ¬ Within b.opts.block_size_limit x ∧
      drainAll sha b.build = some (before, .failed (.TooLargeBlock x.block.length), it'))) := by
  obtain ⟨it, h, -⟩ := unlimited_drained hsha hb hfit
  exact ⟨_, it, h, drain_limit sha hsha b hb hfit⟩

/-! ### C35 -/

/-- After any history with wrapping, when everything was built: every successful `put_link` can be resolved from the root
block (the last block built) over the blocks built. -/
theorem C35_resolve (sha : Bytes → Bytes) (hsha : ∀ b, (sha b).length = 32) (opts : TreeOptions)
    (hw : opts.wrap_with_directory = true) (ops : List Op) (hops : ∀ op ∈ ops, op.Ok)
    (hfit : SizesFit sha (runOps (.new opts) ops).2) (nodes : List TreeNode) (it : PostOrderIterator)
    (hbuild : drainAll sha (runOps (.new opts) ops).2.build = some (nodes, .finished, it))
    (get : Cid → Option Bytes) (hget : ∀ x ∈ nodes, get x.cid = some x.block)
    (root : TreeNode) (hroot : nodes.getLast? = some root)
    (p : Bytes) (c : Cid) (s : Nat) (hput : Op.putLink p c s ∈ successes (.new opts) ops) (cs : List Bytes) (hp : PathOf p cs) :
    resolvePath get root.block cs = some c := by
  have hopts : (runOps (.new opts) ops).2.opts = opts := (runOps_inv (BInv.new opts) hops).2
  obtain ⟨rest, h1, h2⟩ := drained_prefix hsha ⟨opts, ops, hops, rfl⟩ hfit hbuild
  rw [h2 rfl, List.append_nil, hopts, hw] at h1
  subst h1
  exact resolve_put sha hsha opts hw ops hops hfit get hget root hroot p c s hput cs hp

/-! ### C38 -/

/-- No call panics up to and including the first one which returns an error; and if no block is too large, no call ever
panics. (Missing for the full statement: calls after an error; total sizes which overflow 64 bits.) -/
theorem C38_no_panic_partial (sha : Bytes → Bytes) (hsha : ∀ b, (sha b).length = 32) (b : BufferingTreeBuilder)
    (hb : Obtainable b) (hfit : SizesFit sha b) :
    ∃ nodes last it, drainAll sha b.build = some (nodes, last, it) ∧
      (∀ n, n ≤ nodes.length + 1 → (nexts sha n b.build).isSome) ∧
      (last = .finished → ∀ n, (nexts sha n b.build).isSome) := by
  rcases drain_limit sha hsha b hb hfit with ⟨hin, it, h⟩ | ⟨before, x, rest, it, he, h1, h2, h⟩
  · have := (no_panic sha hsha b hb hfit).1 hin
    exact ⟨_, _, it, h, fun n _ => this n, fun _ => this⟩
  · exact ⟨_, _, it, h, (no_panic sha hsha b hb hfit).2 before x rest he h1 h2, fun h => by cases h⟩

/-! ### C39 -/

/-- The full statement: after a successful `set_metadata`, the block yielded for the directory has that metadata. -/
def C39_full : Prop :=
  ∀ (sha : Bytes → Bytes) (_ : ∀ b, (sha b).length = 32) (b : BufferingTreeBuilder), Obtainable b → ∀ (p : Bytes) (md : Metadata)
    (cs : List Bytes), (Op.setMetadata p md).Ok → PathOf p cs → ((Op.setMetadata p md).run b).1 = .ok () →
    SizesFit sha ((Op.setMetadata p md).run b).2 →
    ∀ nodes it, drainAll sha ((Op.setMetadata p md).run b).2.build = some (nodes, .finished, it) →
    ∃ x ∈ nodes, x.path = p ∧ ∃ m, FlatUnixFs.tryParse x.block = .ok m ∧ metaOf m.data = md

/-- What holds: the directory is created and built, but neither its block nor any other has metadata, whatever was set.
(Missing for the full statement: everything; it holds only for empty metadata.) -/
theorem C39_directory_partial (sha : Bytes → Bytes) (hsha : ∀ b, (sha b).length = 32) (b : BufferingTreeBuilder)
    (hb : Obtainable b) (p : Bytes) (md : Metadata) (cs : List Bytes) (hop : (Op.setMetadata p md).Ok) (hp : PathOf p cs)
    (hok : ((Op.setMetadata p md).run b).1 = .ok ()) (hfit : SizesFit sha ((Op.setMetadata p md).run b).2)
    (nodes : List TreeNode) (it : PostOrderIterator)
    (h : drainAll sha ((Op.setMetadata p md).run b).2.build = some (nodes, .finished, it)) :
    (∃ x ∈ nodes, x.path = p) ∧
    ∀ x ∈ nodes, ∃ m, FlatUnixFs.tryParse x.block = .ok m ∧ metaOf m.data = {} := by
  have hb' := obtainable_run hb hop
  have hl : lookupPath cs (contents ((Op.setMetadata p md).run b).2) = some .dir := by
    rw [C31_update b hb _ hop cs hp hok, after, if_pos rfl]; rfl
  obtain ⟨rest, h1, h2⟩ := drained_prefix hsha hb' hfit h
  obtain ⟨built, e1, e2, e3, e4⟩ := listing hb' h1
  constructor
  · obtain ⟨q, hq, hq1⟩ := List.mem_map.1 (e4 (h2 rfl) cs ⟨hl, fun h => absurd h hp.2.1⟩)
    refine ⟨q.2, e1 ▸ List.mem_map_of_mem hq, ?_⟩
    rw [e2.paths q hq, hq1, hp.1]
  · intro x hx
    rw [← e1] at hx
    obtain ⟨q, hq, rfl⟩ := List.mem_map.1 hx
    obtain ⟨m, m1, m2, -⟩ := nodeAt_block sha hsha _ hb' hfit q.1 q.2 (e3 q hq)
    exact ⟨m, m1, by rw [m2]; rfl⟩

/-- The full statement is false: for `set_metadata("a/b", mode 0o644)` on a new builder. -/
theorem C39_full_false : ¬ C39_full := by
  intro h
  let md : Metadata := { mode := some 420 }
  have hop : (Op.setMetadata [97, 47, 98] md).Ok := by
    show NameOk _
    unfold NameOk; decide
  have hp : PathOf [97, 47, 98] [[97], [98]] := by
    refine ⟨?_, by decide, by decide⟩ <;> decide
  have hb : Obtainable (.new {}) := ⟨{}, [], (by intro op ho; cases ho), rfl⟩
  have hok : ((Op.setMetadata [97, 47, 98] md).run (.new {})).1 = .ok () := by decide +kernel
  have hfit : SizesFit toySha ((Op.setMetadata [97, 47, 98] md).run (.new {})).2 := by
    have : ∀ x ∈ allNodes toySha false (contents ((Op.setMetadata [97, 47, 98] md).run (.new {})).2), x.total_size < U64 := by decide +kernel
    exact this
  have hb' := obtainable_run hb hop
  obtain ⟨nodes, it, hd⟩ : ∃ nodes it, drainAll toySha ((Op.setMetadata [97, 47, 98] md).run (.new {})).2.build = some (nodes, .finished, it) := by
    rcases drain_limit toySha toySha_length _ hb' hfit with ⟨-, it, h⟩ | ⟨before, x, rest, it, he, h1, h2, h⟩
    · exact ⟨_, it, h⟩
    · exfalso
      have : ∀ x ∈ allNodes toySha ((Op.setMetadata [97, 47, 98] md).run (.new {})).2.opts.wrap_with_directory
          (contents ((Op.setMetadata [97, 47, 98] md).run (.new {})).2), x.block.length ≤ 1000 := by decide +kernel
      refine h2 (fun l hl => ?_)
      have h3 : ((Op.setMetadata [97, 47, 98] md).run (.new {})).2.opts.block_size_limit = some 524288 := by decide +kernel
      rw [h3] at hl
      cases hl
      have := this x (by rw [he]; simp)
      omega
  obtain ⟨x, hx, -, m', hm', h2⟩ := h toySha toySha_length _ hb _ md _ hop hp hok hfit nodes it hd
  obtain ⟨m, hm, h1⟩ := (C39_directory_partial toySha toySha_length _ hb _ md _ hop hp hok hfit nodes it hd).2 x hx
  rw [hm] at hm'
  cases hm'
  rw [h2] at h1
  exact absurd (congrArg Metadata.mode h1) (by decide)

/-! ### a case -/

/-- All hypotheses are met by the sample: three directories are yielded. -/
example : ∃ nodes it, drainAll toySha sampleBuilder.build = some (nodes, .finished, it) ∧ nodes.map (·.path) = [[97, 47, 99], [97], []] := by
  rcases drain_limit toySha toySha_length _ sampleBuilder_obtainable sampleBuilder_fits with ⟨-, it, h⟩ | ⟨before, x, rest, it, he, h1, h2, h⟩
  · exact ⟨_, it, h, by decide +kernel⟩
  · exfalso
    have : ∀ x ∈ allNodes toySha sampleBuilder.opts.wrap_with_directory (contents sampleBuilder), x.block.length ≤ 1000 := by decide +kernel
    refine h2 (fun l hl => ?_)
    have h3 : sampleBuilder.opts.block_size_limit = some 524288 ∨ sampleBuilder.opts.block_size_limit = none := by decide +kernel
    rcases h3 with h3 | h3 <;> rw [h3] at hl
    · cases hl
      have := this x (by rw [he]; simp)
      omega
    · cases hl

end Verif.Props
