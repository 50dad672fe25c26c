import Verif.Props.Builder
import Verif.Props.Codec
/-
Building directory blocks: the nodes of the specification are those yielded; C37_never_larger, C38_full, C40_buffer, the directory
halves of C14 and C02. The other properties of building are in `Props/Built.lean`.
-/
namespace Verif.Props
open Verif Verif.Spec

theorem contents_ok {b : BufferingTreeBuilder} (h : Obtainable b) : TreeOkL (contents b) :=
  (NInv.iff.1 (obtainable_inv h).nodes).2.2.2

theorem contents_ids {b : BufferingTreeBuilder} (h : Obtainable b) : IdsOkL b.root_builder.id b.root_builder.nodes :=
  (NInv.iff.1 (obtainable_inv h).nodes).1

/-! ### C33 -/

/-- Building yields all nodes in order, then ends, and stays ended. -/
theorem build_all (sha : Bytes → Bytes) (hsha : ∀ b, (sha b).length = 32) (b : BufferingTreeBuilder) (hb : Obtainable b)
    (hfit : SizesFit sha b)
    (hlim : ∀ x ∈ allNodes sha b.opts.wrap_with_directory (contents b), Within b.opts.block_size_limit x) :
    ∃ it, drainAll sha b.build = some (allNodes sha b.opts.wrap_with_directory (contents b), .finished, it) ∧
      it.next sha = some (.finished, it) := by
  rcases drain_root sha hsha b.root_builder b.opts (contents_ids hb) (contents_ok hb) hfit with ⟨_, it, h, hp⟩ | ⟨E1, x, E2, it, he, _, hx, _⟩
  · exact ⟨it, h, next_nil sha hp⟩
  · exact absurd (hlim x (by rw [contents, he]; simp)) hx

/-- These nodes are: one for each directory in the tree (and for the root exactly when wrapping), each with its path; and
none comes before one below it. -/
theorem nodes_listed (sha : Bytes → Bytes) (b : BufferingTreeBuilder) (hb : Obtainable b) :
    ∃ paths : List (List Bytes),
      (∀ cs, cs ∈ paths ↔ BuiltDir b cs) ∧
      paths.Nodup ∧
      paths.Pairwise (fun first second => ¬ first <+: second) ∧
      (allNodes sha b.opts.wrap_with_directory (contents b)).map some =
        paths.map (fun cs => (entriesAt cs (contents b)).map (nodeOf sha cs)) := by
  have hs := contents_sorted hb
  refine ⟨builtPaths b.opts.wrap_with_directory (contents b), mem_builtPaths _ hs, ?_, builtPaths_pairwise _ hs, allNodes_at sha _ hs⟩
  refine (builtPaths_pairwise _ hs).imp ?_
  rintro a b h rfl
  exact h (List.prefix_refl _)

/-- A history of calls, and everything which is built afterwards. -/
def sampleBuilder : BufferingTreeBuilder := (runOps (.new wrapping) sampleOps).2
theorem sampleBuilder_obtainable : Obtainable sampleBuilder := ⟨wrapping, sampleOps, sampleOps_ok, rfl⟩

example : (allNodes toySha true (contents sampleBuilder)).map (·.path) = [[97, 47, 99], [97], []] := by decide +kernel
example : (allNodes toySha true (contents sampleBuilder)).map (·.block) =
    [[10, 2, 8, 1],
     [18, 43, 10, 36, 1, 112, 18, 32] ++ toySha [1] ++ [18, 1, 98, 24, 1] ++
     [18, 43, 10, 36, 1, 112, 18, 32] ++ toySha [10, 2, 8, 1] ++ [18, 1, 99, 24, 4] ++ [10, 2, 8, 1],
     [18, 43, 10, 36, 1, 112, 18, 32] ++ toySha (
       [18, 43, 10, 36, 1, 112, 18, 32] ++ toySha [1] ++ [18, 1, 98, 24, 1] ++
       [18, 43, 10, 36, 1, 112, 18, 32] ++ toySha [10, 2, 8, 1] ++ [18, 1, 99, 24, 4] ++ [10, 2, 8, 1]) ++
     [18, 1, 97, 24, 99] ++ [10, 2, 8, 1]] := by decide +kernel
theorem sampleBuilder_fits : SizesFit toySha sampleBuilder := by
  have : ∀ x ∈ allNodes toySha true (contents sampleBuilder), x.total_size < U64 := by decide +kernel
  exact this

/-- The directory `cs` is built, and its node can be told from the tree. -/
theorem built_iff (sha : Bytes → Bytes) (b : BufferingTreeBuilder) (hb : Obtainable b) (x : TreeNode) :
    x ∈ allNodes sha b.opts.wrap_with_directory (contents b) ↔ ∃ cs, BuiltDir b cs ∧ NodeAt sha (contents b) cs x :=
  mem_allNodes sha _ (contents_sorted hb) x

/-! ### C34, C36, C40 -/

theorem items_map (sha : Bytes → Bytes) (ks : List DTree) : DTree.items sha ks = ks.map (DTree.item sha) := by
  induction ks with
  | nil => rfl
  | cons k ks ih => simp [DTree.items, ih]

theorem item_name (sha : Bytes → Bytes) (k : DTree) : (DTree.item sha k).name = k.name := by
  cases k <;> rfl

/-- Sizes of everything below a built directory. -/
theorem below_fits {sha : Bytes → Bytes} {b : BufferingTreeBuilder} (hb : Obtainable b) (hfit : SizesFit sha b) {cs es}
    (he : entriesAt cs (contents b) = some es) : ∀ x ∈ DTree.postOrderL sha cs es, x.total_size < U64 := by
  intro x hx
  have hs := entriesAt_sorted he (contents_sorted hb)
  have hat := postOrderL_at sha (contents b) cs es he es hs (fun k hk => kid_of_mem hs hk)
  have : some x ∈ (DTree.postOrderL sha cs es).map some := by simpa using hx
  rw [hat] at this
  obtain ⟨ds, hds, hdx⟩ := List.mem_map.1 this
  obtain ⟨r, hr, rfl, hl⟩ := (mem_postPathsL cs es hs ds).1 hds
  refine hfit x ((built_iff sha b hb x).2 ⟨cs ++ r, ⟨?_, ?_⟩, ?_⟩)
  · rw [entriesAt_dir he]; exact hl
  · intro h; exact absurd (List.append_eq_nil_iff.1 h).2 hr
  · cases hes : entriesAt (cs ++ r) (contents b) with
    | none => rw [hes] at hdx; cases hdx
    | some es' => rw [hes] at hdx; cases hdx; exact ⟨es', hes, rfl⟩

theorem built_items_ok {sha : Bytes → Bytes} (hsha : ∀ b, (sha b).length = 32) {b : BufferingTreeBuilder} (hb : Obtainable b)
    (hfit : SizesFit sha b) {cs es} (he : entriesAt cs (contents b) = some es) : ∀ i ∈ DTree.items sha es, i.Ok :=
  items_ok sha hsha cs es (entriesAt_ok he (contents_ok hb)) (below_fits hb hfit he)

/-- The block of the directory `cs` parses as a UnixFS directory whose links are the entries, in increasing order of the
names: each link carries the Cid and total size which were put, or those of the node of the subdirectory. -/
theorem nodeAt_block (sha : Bytes → Bytes) (hsha : ∀ b, (sha b).length = 32) (b : BufferingTreeBuilder) (hb : Obtainable b)
    (hfit : SizesFit sha b) (cs : List Bytes) (x : TreeNode) (hx : NodeAt sha (contents b) cs x) :
    ∃ m, FlatUnixFs.tryParse x.block = .ok m ∧ m.data = { Ty := .Directory } ∧
      m.links.Pairwise (fun l l' => l.Name.getD [] < l'.Name.getD []) ∧
      (∀ l ∈ m.links, ∃ n c s, l = ⟨some c.toBytes, some n, some s⟩ ∧
        (lookupPath (cs ++ [n]) (contents b) = some (.link c s) ∨
         (lookupPath (cs ++ [n]) (contents b) = some .dir ∧ ∃ y, NodeAt sha (contents b) (cs ++ [n]) y ∧ c = y.cid ∧ s = y.total_size))) ∧
      (∀ n, lookupPath (cs ++ [n]) (contents b) ≠ none → ∃ l ∈ m.links, l.Name = some n) := by
  obtain ⟨es, he, rfl⟩ := hx
  have hok := built_items_ok hsha hb hfit he
  have hs := entriesAt_sorted he (contents_sorted hb)
  refine ⟨dirMsg (DTree.items sha es), C01_flat_roundtrip _ (dirMsg_fits hok), rfl, ?_, ?_, ?_⟩
  · rw [dirMsg_links, items_map, List.map_map, List.pairwise_map]
    clear he hok
    induction es with
    | nil => simp
    | cons k es ih =>
      rw [List.pairwise_cons]
      refine ⟨?_, ih hs.2.2⟩
      intro k' hk'
      simpa [Item.toPB, item_name] using hs.1 k' hk'
  · intro l hl
    rw [dirMsg_links, items_map, List.map_map, List.mem_map] at hl
    obtain ⟨k, hk, rfl⟩ := hl
    have hkid := kid_of_mem hs hk
    cases k with
    | link n c s =>
      have hkid : kid n es = some (.link n c s) := hkid
      refine ⟨n, c, s, rfl, .inl ?_⟩
      rw [entriesAt_dir he, lookupPath_cons_link hkid, if_pos rfl]
    | dir n ks =>
      have hkid : kid n es = some (.dir n ks) := hkid
      refine ⟨n, _, _, rfl, .inr ⟨?_, nodeOf sha (cs ++ [n]) ks, ⟨ks, ?_, rfl⟩, rfl, rfl⟩⟩
      · rw [entriesAt_dir he, lookupPath_cons_dir hkid, lookupPath_nil]
      · have hkid' : kid n es = some (.dir n ks) := hkid
        rw [entriesAt_append he, entriesAt, hkid']; rfl
  · intro n hn
    rw [entriesAt_dir he] at hn
    cases hk : kid n es with
    | none => rw [lookupPath_cons_none hk] at hn; exact absurd rfl hn
    | some k =>
      refine ⟨(DTree.item sha k).toPB, ?_, ?_⟩
      · rw [dirMsg_links, items_map, List.map_map, List.mem_map]
        exact ⟨k, kid_mem hk, rfl⟩
      · show some (DTree.item sha k).name = some n
        rw [item_name, kid_name hk]

/-- The total size of a directory is the size of its block plus the total sizes given in its links (which by `nodeAt_block`
are those put, and those of the subdirectories). -/
theorem nodeAt_total (sha : Bytes → Bytes) (hsha : ∀ b, (sha b).length = 32) (b : BufferingTreeBuilder) (hb : Obtainable b)
    (hfit : SizesFit sha b) (cs : List Bytes) (x : TreeNode) (hx : NodeAt sha (contents b) cs x) :
    ∃ m, FlatUnixFs.tryParse x.block = .ok m ∧
      x.total_size = x.block.length + (m.links.map (fun l => l.Tsize.getD 0)).sum := by
  obtain ⟨es, he, rfl⟩ := hx
  refine ⟨dirMsg (DTree.items sha es), C01_flat_roundtrip _ (dirMsg_fits (built_items_ok hsha hb hfit he)), ?_⟩
  rw [dirMsg_links, List.map_map]
  rfl

mutual
/-- Everything below: the sizes of all blocks of directories and of all links. -/
def totalBelow (sha : Bytes → Bytes) : DTree → Nat
  | .link _ _ s => s
  | .dir _ ks => (dirBlock (DTree.items sha ks)).length + totalBelowL sha ks
def totalBelowL (sha : Bytes → Bytes) : List DTree → Nat
  | [] => 0
  | k :: ks => totalBelow sha k + totalBelowL sha ks
end

mutual
theorem item_total (sha : Bytes → Bytes) : ∀ k : DTree, (DTree.item sha k).total = totalBelow sha k
  | .link _ _ _ => rfl
  | .dir n ks => by
    show dirTotal (DTree.items sha ks) = _
    rw [dirTotal, items_total sha ks]; rfl
theorem items_total (sha : Bytes → Bytes) : ∀ ks : List DTree, ((DTree.items sha ks).map (·.total)).sum = totalBelowL sha ks
  | [] => rfl
  | k :: ks => by
    rw [DTree.items, List.map_cons, List.sum_cons, item_total sha k, items_total sha ks]; rfl
end

/-- Without recursion: the total size of a directory is the sum over everything below it. -/
theorem nodeAt_recursive (sha : Bytes → Bytes) (ks : List DTree) (cs : List Bytes) (x : TreeNode) (hx : NodeAt sha ks cs x) :
    ∃ es, entriesAt cs ks = some es ∧ x.total_size = x.block.length + totalBelowL sha es := by
  obtain ⟨es, he, rfl⟩ := hx
  refine ⟨es, he, ?_⟩
  show dirTotal (DTree.items sha es) = _
  rw [dirTotal, items_total]; rfl

/-- A block depends only on the entries of its directory: directories with the same entries have the same block, Cid and
size, wherever they are, whatever was built before them, and in whichever builder. -/
theorem nodeAt_entries (sha : Bytes → Bytes) (ks ks' : List DTree) (cs cs' : List Bytes) (x x' : TreeNode)
    (hx : NodeAt sha ks cs x) (hx' : NodeAt sha ks' cs' x') (h : entriesAt cs ks = entriesAt cs' ks') :
    x.block = x'.block ∧ x.cid = x'.cid ∧ x.total_size = x'.total_size := by
  obtain ⟨es, he, rfl⟩ := hx
  obtain ⟨es', he', rfl⟩ := hx'
  rw [he, he'] at h
  cases h
  exact ⟨rfl, rfl, rfl⟩

/-- Rendering gives the same whatever the buffer holds. -/
theorem C40_buffer (sha : Bytes → Bytes) (items : List Item) (h : ∀ i ∈ items, i.Ok) (limit : Option Nat) (buffer buffer' : Bytes) :
    (renderDirectory sha ((items.map Item.toLeaf).map some) buffer limit).1 =
      (renderDirectory sha ((items.map Item.toLeaf).map some) buffer' limit).1 ∧
    (∀ r, (renderDirectory sha ((items.map Item.toLeaf).map some) buffer limit).1 = .ok r →
      (renderDirectory sha ((items.map Item.toLeaf).map some) buffer limit).2 =
      (renderDirectory sha ((items.map Item.toLeaf).map some) buffer' limit).2) := by
  rw [renderDirectory_eq sha h, renderDirectory_eq sha h]
  split
  · exact ⟨rfl, fun r hr => by cases hr⟩
  · exact ⟨rfl, fun _ _ => rfl⟩

/-! ### C35 -/

/-- Following a path through blocks with `resolve`: every component but the last must lead to a block of a directory. -/
def resolvePath (get : Cid → Option Bytes) : Bytes → List Bytes → Option Cid
  | _, [] => none
  | block, n :: rest =>
    match (resolve block n none).1 with
    | .ok (.Found c) =>
      if rest = [] then some c
      else match get c with
        | some block' => resolvePath get block' rest
        | none => none
    | _ => none

theorem plainDir_of {x : Bytes} {m : FlatUnixFs} (h : FlatUnixFs.tryParse x = .ok m) (hd : m.data = { Ty := .Directory }) :
    PlainDir x m.links := by
  refine .inl ⟨m, h, ?_⟩
  rw [hd]
  exact ⟨rfl, rfl, rfl, rfl, rfl, rfl, rfl⟩

/-- Resolving one name in the block of a directory. -/
theorem resolve_entry {sha : Bytes → Bytes} (hsha : ∀ b, (sha b).length = 32) {es : List DTree} (hs : SortedL es)
    (hok : ∀ i ∈ DTree.items sha es, i.Ok) {n : Bytes} {k : DTree} (hk : kid n es = some k) (cache) :
    resolve (dirBlock (DTree.items sha es)) n cache = (.ok (.Found (DTree.item sha k).cid), cache) := by
  have hm : FlatUnixFs.tryParse (dirBlock (DTree.items sha es)) = .ok (dirMsg (DTree.items sha es)) :=
    C01_flat_roundtrip _ (dirMsg_fits hok)
  have hp := plainDir_of hm rfl
  obtain ⟨a, c, rfl⟩ := List.append_of_mem (kid_mem hk)
  have hl : (dirMsg (DTree.items sha (a ++ k :: c))).links =
      (a.map (fun k => (DTree.item sha k).toPB)) ++ (DTree.item sha k).toPB :: (c.map (fun k => (DTree.item sha k).toPB)) := by
    rw [dirMsg_links, items_map]; simp; rfl
  rw [hl] at hp
  have hkn := kid_name hk
  have hdist : ∀ k' ∈ a ++ k :: c, k'.name = n → k' = k := by
    intro k' hk' hn
    have := kid_of_mem hs hk'
    rw [hn, hk] at this
    exact (Option.some.inj this).symm
  have hnd : (a ++ k :: c).Nodup := by
    clear hk hkn hdist hm hp hl hok
    generalize a ++ k :: c = l at hs
    induction l with
    | nil => simp
    | cons z l ih =>
      refine List.nodup_cons.2 ⟨fun hz => List.lt_irrefl _ (hs.1 z hz), ih hs.2.2⟩
  rw [List.nodup_append] at hnd
  obtain ⟨_, hnc, hac⟩ := hnd
  refine C41_unique _ n cache _ _ _ _ hp ?_ ?_ ?_ ?_
  · intro l hl
    obtain ⟨k', hk', rfl⟩ := List.mem_map.1 hl
    intro hn
    have hn' : k'.name = n := by rw [← item_name sha k']; exact hn
    exact hac k' hk' k (by simp) (hdist k' (by simp [hk']) hn')
  · intro l hl
    obtain ⟨k', hk', rfl⟩ := List.mem_map.1 hl
    intro hn
    have hn' : k'.name = n := by rw [← item_name sha k']; exact hn
    have := hdist k' (by simp [hk']) hn'
    subst this
    exact (List.nodup_cons.1 hnc).1 hk'
  · show (DTree.item sha k).name = n
    rw [item_name, hkn]
  · have hfits : (DTree.item sha k).cid.Fits := (hok _ (by rw [items_map]; exact List.mem_map.2 ⟨k, kid_mem hk, rfl⟩)).1
    have := Cid.tryFrom_toBytes (DTree.item sha k).cid hfits []
    simpa [Item.toPB] using this

/-- Resolving a path from the block of a directory over the blocks built leads to the link put there; and a path to a
directory leads to the Cid of its block. -/
theorem resolve_from {sha : Bytes → Bytes} (hsha : ∀ b, (sha b).length = 32) {b : BufferingTreeBuilder} (hb : Obtainable b)
    (hfit : SizesFit sha b) {get : Cid → Option Bytes}
    (hget : ∀ x ∈ allNodes sha b.opts.wrap_with_directory (contents b), get x.cid = some x.block) :
    ∀ (rest cs : List Bytes) (es : List DTree), entriesAt cs (contents b) = some es → rest ≠ [] → ∀ c,
      ((∃ s, lookupPath rest es = some (.link c s)) ∨ (∃ y, NodeAt sha (contents b) (cs ++ rest) y ∧ c = y.cid)) →
      resolvePath get (dirBlock (DTree.items sha es)) rest = some c := by
  intro rest
  induction rest with
  | nil => intro _ _ _ h; exact absurd rfl h
  | cons n rest ih =>
    intro cs es he _ c h
    have hs := entriesAt_sorted he (contents_sorted hb)
    have hok := built_items_ok hsha hb hfit he
    cases hk : kid n es with
    | none =>
      exfalso
      rcases h with ⟨s, h⟩ | ⟨y, ⟨es', hy, _⟩, _⟩
      · rw [lookupPath_cons_none hk] at h; cases h
      · rw [entriesAt_append he, entriesAt, hk] at hy; cases hy
    | some k =>
      rw [resolvePath, resolve_entry hsha hs hok hk]
      simp only
      cases k with
      | link k' c' s' =>
        rcases h with ⟨s, h⟩ | ⟨y, ⟨es', hy, _⟩, _⟩
        · rw [lookupPath_cons_link hk] at h
          by_cases hr : rest = []
          · rw [if_pos hr] at h ⊢; cases h; rfl
          · rw [if_neg hr] at h; cases h
        · rw [entriesAt_append he, entriesAt, hk] at hy; cases hy
      | dir k' ks' =>
        have he' : entriesAt (cs ++ [n]) (contents b) = some ks' := by
          rw [entriesAt_append he, entriesAt, hk]; rfl
        by_cases hr : rest = []
        · subst hr
          rw [if_pos rfl]
          rcases h with ⟨s, h⟩ | ⟨y, ⟨es', hy, rfl⟩, rfl⟩
          · rw [lookupPath_cons_dir hk, lookupPath_nil] at h; cases h
          · rw [he'] at hy; cases hy; rfl
        · rw [if_neg hr]
          have hg := hget (nodeOf sha (cs ++ [n]) ks') ((built_iff sha b hb _).2 ⟨cs ++ [n], ⟨?_, by simp⟩, ks', he', rfl⟩)
          · have hg' : get (DTree.item sha (.dir k' ks')).cid = some (dirBlock (DTree.items sha ks')) := hg
            rw [hg']
            refine ih (cs ++ [n]) ks' he' hr c ?_
            rcases h with ⟨s, h⟩ | ⟨y, hy, hc⟩
            · rw [lookupPath_cons_dir hk] at h; exact .inl ⟨s, h⟩
            · exact .inr ⟨y, by simpa using hy, hc⟩
          · exact entriesAt_some.2 ⟨_, he'⟩

/-- After any history with wrapping: every successful `put_link` can be resolved from the root block (the last block built)
over the blocks built. -/
theorem resolve_put (sha : Bytes → Bytes) (hsha : ∀ b, (sha b).length = 32) (opts : TreeOptions)
    (hw : opts.wrap_with_directory = true) (ops : List Op) (hops : ∀ op ∈ ops, op.Ok)
    (hfit : SizesFit sha (runOps (.new opts) ops).2) (get : Cid → Option Bytes)
    (hget : ∀ x ∈ allNodes sha true (contents (runOps (.new opts) ops).2), get x.cid = some x.block)
    (root : TreeNode) (hroot : (allNodes sha true (contents (runOps (.new opts) ops).2)).getLast? = some root)
    (p : Bytes) (c : Cid) (s : Nat) (hput : Op.putLink p c s ∈ successes (.new opts) ops) (cs : List Bytes) (hp : PathOf p cs) :
    resolvePath get root.block cs = some c := by
  have hb : Obtainable (runOps (.new opts) ops).2 := ⟨opts, ops, hops, rfl⟩
  have hopts : (runOps (.new opts) ops).2.opts = opts := (runOps_inv (BInv.new opts) hops).2
  have hlink := ((C31_history opts ops hops cs).1 c s).2 ⟨p, hput, hp⟩
  have hr : root = nodeOf sha [] (contents (runOps (.new opts) ops).2) := by
    simp only [allNodes, if_true, List.getLast?_append, List.getLast?_singleton, Option.some_or, Option.some.injEq] at hroot
    exact hroot.symm
  rw [hr]
  exact resolve_from hsha hb hfit (by rw [hopts, hw]; exact hget) cs [] _ rfl hp.2.1 c (.inl ⟨s, hlink⟩)

/-- `a/b` is found from the root block. -/
example : resolvePath (fun c => ((allNodes toySha true (contents sampleBuilder)).find? (·.cid = c)).map (·.block))
    (((allNodes toySha true (contents sampleBuilder)).getLast?.map (·.block)).getD []) [[97], [98]] = some (cidOf toySha [1]) := by
  decide +kernel

/-! ### C37 -/

/-- With a limit: either all blocks are within it and all are yielded; or those before the first which is not are yielded,
followed by the error with its size. -/
theorem drain_limit (sha : Bytes → Bytes) (hsha : ∀ b, (sha b).length = 32) (b : BufferingTreeBuilder) (hb : Obtainable b)
    (hfit : SizesFit sha b) :
    ((∀ x ∈ allNodes sha b.opts.wrap_with_directory (contents b), Within b.opts.block_size_limit x) ∧
      ∃ it, drainAll sha b.build = some (allNodes sha b.opts.wrap_with_directory (contents b), .finished, it)) ∨
    (∃ before x rest it, allNodes sha b.opts.wrap_with_directory (contents b) = before ++ x :: rest ∧
      (∀ y ∈ before, Within b.opts.block_size_limit y) ∧ ¬ Within b.opts.block_size_limit x ∧
      drainAll sha b.build = some (before, .failed (.TooLargeBlock x.block.length), it)) := by
  rcases drain_root sha hsha b.root_builder b.opts (contents_ids hb) (contents_ok hb) hfit with ⟨h1, it, h, hp⟩ | ⟨E1, x, E2, it, he, h1, hx, h⟩
  · exact .inl ⟨h1, it, h⟩
  · exact .inr ⟨E1, x, E2, it, he, h1, hx, h⟩

theorem render_ok {sha links buffer limit c t buf} (h : renderDirectory sha links buffer limit = (.ok (c, t), buf)) :
    c = cidOf sha buf ∧ ∀ l, limit = some l → buf.length ≤ l := by
  unfold renderDirectory at h
  cases hu : unwrapAll links with
  | none => rw [hu] at h; cases h
  | some ls =>
    rw [hu] at h
    simp only at h
    by_cases h1 : exceedsLimit limit (customSize ls directoryData) = true
    · rw [if_pos h1] at h; cases h
    · rw [if_neg h1] at h
      by_cases h2 : (buffer ++ List.replicate (customSize ls directoryData - buffer.length) 0).length < (customWrite ls directoryData).length
      · rw [if_pos h2] at h; cases h
      · rw [if_neg h2] at h
        obtain ⟨h3, h4⟩ := Prod.mk.inj h
        subst h4
        simp only [add64, bind, Res.bind] at h3
        generalize (customWrite ls directoryData ++
            (buffer ++ List.replicate (customSize ls directoryData - buffer.length) 0).drop (customWrite ls directoryData).length) = w at h3 ⊢
        by_cases h5 : (List.take (customSize ls directoryData) w).length + (ls.map (·.total_size)).sum < U64
        · rw [if_pos h5] at h3
          cases h3
          refine ⟨rfl, ?_⟩
          intro l hl
          subst hl
          simp only [exceedsLimit, decide_eq_true_eq, Nat.not_lt] at h1
          exact Nat.le_trans (List.length_take_le _ _) h1
        · rw [if_neg h5] at h3; cases h3

theorem step_item {sha : Bytes → Bytes} {it it' n} (h : PostOrderIterator.step sha it = .item it' n) :
    it'.opts = it.opts ∧ n.cid = cidOf sha n.block ∧ Within it.opts.block_size_limit n := by
  unfold PostOrderIterator.step at h
  split at h
  · cases h
  · split at h
    · cases h
    · cases h
    · simp only at h
      split at h
      · cases h
      · split at h <;> cases h
      · split at h
        · cases h
        · cases h
        · split at h
          · cases h
          · cases h
          · rename_i hr
            split at h
            · cases h
            · split at h
              · cases h
              · cases h
              · cases h
                have := render_ok hr
                exact ⟨rfl, this.1, this.2⟩
      · split at h
        · cases h
        · cases h
        · split at h
          · cases h
          · split at h
            · cases h
            · cases h
            · rename_i hr
              cases h
              have := render_ok hr
              exact ⟨rfl, this.1, this.2⟩

theorem step_continue_opts {sha : Bytes → Bytes} {it it'} (h : PostOrderIterator.step sha it = .continue it') : it'.opts = it.opts := by
  unfold PostOrderIterator.step at h
  split at h
  · cases h
  · split at h
    · cases h
    · cases h
    · simp only at h
      split at h
      · cases h; rfl
      · split at h <;> cases h; rfl
      · split at h
        · cases h
        · cases h
        · split at h
          · cases h
          · cases h
          · split at h
            · cases h
            · split at h <;> cases h
      · split at h
        · cases h
        · cases h
        · split at h
          · cases h
          · split at h <;> cases h

theorem next_item {sha : Bytes → Bytes} {it it' : PostOrderIterator} {n : TreeNode} (h : it.next sha = some (.item n, it')) :
    n.cid = cidOf sha n.block ∧ Within it.opts.block_size_limit n := by
  have := PostOrderIterator.next.partial_correctness sha
    (fun it r => ∀ n it', r = (.item n, it') → n.cid = cidOf sha n.block ∧ Within it.opts.block_size_limit n)
    (by
      intro f hf it r hr n it' he
      subst he
      split at hr
      · rename_i it1 hs
        have := hf it1 _ hr n it' rfl
        rwa [step_continue_opts hs] at this
      · rename_i it1 n' hs
        cases hr
        exact (step_item hs).2
      · cases hr
      · cases hr
      · cases hr)
    it _ h n it' rfl
  exact this

/-- In whatever state the iterator is, also after errors: no node whose block exceeds the limit is ever returned. -/
theorem C37_never_larger (sha : Bytes → Bytes) (it it' : PostOrderIterator) (n : TreeNode) (limit : Nat)
    (hl : it.opts.block_size_limit = some limit) (h : it.next sha = some (.item n, it')) : n.block.length ≤ limit :=
  (next_item h).2 limit hl

/-- C14 for directories: in whatever state the iterator is, a returned node's Cid is that of its block. -/
theorem C14_directory_cids (sha : Bytes → Bytes) (it it' : PostOrderIterator) (n : TreeNode)
    (h : it.next sha = some (.item n, it')) :
    n.cid = { version := .v1, codec := 0x70, code := 0x12, digest := sha n.block } := (next_item h).1

/-- A limit of 60 bytes: the directory `a/c` (4 bytes) is yielded, then comes the error for `a` (94 bytes). -/
example : ∃ x ∈ allNodes toySha true (contents sampleBuilder), ¬ Within (some 60) x := by
  refine ⟨(allNodes toySha true (contents sampleBuilder))[1]'(by decide +kernel), by simp, fun h => ?_⟩
  have := h 60 rfl
  revert this
  decide +kernel

/-! ### C38 -/

/-- The full statement: no call of `next` panics (or loops). -/
def C38_full : Prop :=
  ∀ (sha : Bytes → Bytes) (_ : ∀ b, (sha b).length = 32) (b : BufferingTreeBuilder), Obtainable b → ∀ n, (nexts sha n b.build).isSome

theorem nexts_cont {sha : Bytes → Bytes} {it it1} (h : it.step sha = .continue it1) (n : Nat) : nexts sha n it = none ↔ nexts sha n it1 = none := by
  cases n with
  | zero => simp [nexts]
  | succ n => rw [nexts, nexts, next_eq sha it, h]

theorem nexts_ended {sha : Bytes → Bytes} {it : PostOrderIterator} (h : it.pending = []) : ∀ n, (nexts sha n it).isSome := by
  intro n
  induction n with
  | zero => rfl
  | succ n ih => rw [nexts, next_nil sha h]; simpa using ih

theorem nexts_runs {sha : Bytes → Bytes} {it E it'} (h : Runs sha it E it') :
    ∀ n, nexts sha n it = none → ∃ m, n = E.length + m ∧ nexts sha m it' = none := by
  induction h with
  | refl it => intro n hn; exact ⟨n, by simp, hn⟩
  | cont hs _ ih => intro n hn; exact ih n ((nexts_cont hs n).1 hn)
  | item hs _ ih =>
    intro n hn
    cases n with
    | zero => cases hn
    | succ n =>
      rw [nexts, next_eq, hs] at hn
      simp only [Option.map_eq_none_iff] at hn
      obtain ⟨m, h1, h2⟩ := ih n hn
      exact ⟨m, by simp only [List.length_cons]; omega, h2⟩

/-- No call panics up to and including the first one which returns an error; and if no block is too large, no call ever
panics. (Missing for the full statement: calls after an error; total sizes which overflow 64 bits.) -/
theorem no_panic (sha : Bytes → Bytes) (hsha : ∀ b, (sha b).length = 32) (b : BufferingTreeBuilder)
    (hb : Obtainable b) (hfit : SizesFit sha b) :
    ((∀ x ∈ allNodes sha b.opts.wrap_with_directory (contents b), Within b.opts.block_size_limit x) →
      ∀ n, (nexts sha n b.build).isSome) ∧
    (∀ before x rest, allNodes sha b.opts.wrap_with_directory (contents b) = before ++ x :: rest →
      (∀ y ∈ before, Within b.opts.block_size_limit y) → ¬ Within b.opts.block_size_limit x →
      ∀ n, n ≤ before.length + 1 → (nexts sha n b.build).isSome) := by
  rcases run_root sha hsha b.root_builder b.opts (contents_ids hb) (contents_ok hb) hfit with ⟨h1, it, h2, it', h3, h4⟩ | ⟨E1, x, E2, it1, it2, h1, h2, h3, h4, h5⟩
  · refine ⟨fun _ n => ?_, fun before x rest he _ hx => absurd (h1 x (by rw [contents] at he; rw [he]; simp)) hx⟩
    rw [Option.isSome_iff_ne_none]
    intro hn
    obtain ⟨m, _, hm⟩ := nexts_runs h2 n hn
    cases m with
    | zero => cases hm
    | succ m =>
      rw [nexts, next_eq, h3] at hm
      simp only [Option.map_eq_none_iff] at hm
      have := nexts_ended (sha := sha) h4 m
      rw [hm] at this; cases this
  · refine ⟨fun hall => absurd (hall x (by rw [contents, h1]; simp)) h3, ?_⟩
    intro before y rest he hbefore hy n hn
    have hsame : before.length = E1.length := by
      rw [contents] at he
      rw [he] at h1
      rcases Nat.lt_trichotomy before.length E1.length with h | h | h
      · exfalso
        have : y ∈ E1 := by
          have hg := congrArg (fun l => l[before.length]?) h1
          simp only [List.getElem?_append_right (Nat.le_refl before.length), Nat.sub_self, List.getElem?_cons_zero,
            List.getElem?_append_left h] at hg
          exact List.mem_of_getElem? hg.symm
        exact hy (h2 y this)
      · exact h
      · exfalso
        have : x ∈ before := by
          have hg := congrArg (fun l => l[E1.length]?) h1
          simp only [List.getElem?_append_right (Nat.le_refl E1.length), Nat.sub_self, List.getElem?_cons_zero,
            List.getElem?_append_left h] at hg
          exact List.mem_of_getElem? hg
        exact h3 (hbefore x this)
    rw [Option.isSome_iff_ne_none]
    intro hnone
    obtain ⟨m, hm1, hm⟩ := nexts_runs h4 n hnone
    cases m with
    | zero => cases hm
    | succ m =>
      have : m = 0 := by omega
      subst this
      rw [nexts, next_eq, h5] at hm
      cases hm

/-- `next` with at most `fuel` iterations of its loop. -/
def nextF (sha : Bytes → Bytes) : Nat → PostOrderIterator → Option (IterNext × PostOrderIterator)
  | 0, _ => none
  | fuel + 1, it =>
    match it.step sha with
    | .continue it => nextF sha fuel it
    | .item it node => some (.item node, it)
    | .failed it e => some (.failed e, it)
    | .done it => some (.finished, it)
    | .panic p => some (.panic p, it)

theorem nextF_next {sha : Bytes → Bytes} : ∀ {fuel it r}, nextF sha fuel it = some r → it.next sha = some r := by
  intro fuel
  induction fuel with
  | zero => intro it r h; cases h
  | succ fuel ih =>
    intro it r h
    rw [next_eq]
    rw [nextF] at h
    split at h
    · rename_i hs; rw [hs]; exact ih h
    · rename_i hs; rw [hs]; exact h
    · rename_i hs; rw [hs]; exact h
    · rename_i hs; rw [hs]; exact h
    · rename_i hs; rw [hs]; exact h

/-- Some of the first `n + 1` calls panics. -/
def panicsWithin (sha : Bytes → Bytes) (fuel : Nat) : Nat → PostOrderIterator → Bool
  | n, it =>
    match nextF sha fuel it with
    | some (.panic _, _) => true
    | some (_, it') => match n with
      | 0 => false
      | n + 1 => panicsWithin sha fuel n it'
    | none => false

theorem panicsWithin_nexts {sha : Bytes → Bytes} {fuel : Nat} : ∀ {n it}, panicsWithin sha fuel n it = true → nexts sha (n + 1) it = none := by
  intro n
  induction n with
  | zero =>
    intro it h
    rw [panicsWithin] at h
    split at h
    · rename_i hs; rw [nexts, nextF_next hs]
    · cases h
    · cases h
  | succ n ih =>
    intro it h
    rw [panicsWithin] at h
    split at h
    · rename_i hs; rw [nexts, nextF_next hs]
    · rename_i r it' hne hs
      rw [nexts, nextF_next hs]
      cases r with
      | panic p => rfl
      | item x => simp only [Option.map_eq_none_iff]; exact ih h
      | failed x => simp only [Option.map_eq_none_iff]; exact ih h
      | finished => simp only [Option.map_eq_none_iff]; exact ih h
    · cases h

/-- The code panics on the call after `TooLargeBlock` was returned for a directory inside another one: here for `a/c` with
a limit of 3 bytes. -/
def smallLimit : BufferingTreeBuilder := (runOps (.new { wrap_with_directory := true, block_size_limit := some 3 }) sampleOps).2
theorem C38_after_error_panics : Obtainable smallLimit ∧ SizesFit toySha smallLimit ∧ nexts toySha 2 smallLimit.build = none := by
  refine ⟨⟨_, _, sampleOps_ok, rfl⟩, ?_, panicsWithin_nexts (fuel := 10) (by decide +kernel)⟩
  have : ∀ x ∈ allNodes toySha true (contents smallLimit), x.total_size < U64 := by decide +kernel
  exact this

/-- The code panics when the sizes given to `put_link` add up to 2^64 or more. -/
def hugeLink : BufferingTreeBuilder := (runOps (.new {}) [.putLink [97, 47, 98] (cidOf toySha []) (U64 - 1)]).2
theorem C38_overflow_panics : Obtainable hugeLink ∧ nexts toySha 1 hugeLink.build = none := by
  refine ⟨⟨_, _, ?_, rfl⟩, panicsWithin_nexts (fuel := 10) (by decide +kernel)⟩
  intro op h
  rw [List.mem_singleton] at h
  subst h
  exact ⟨by unfold NameOk; decide, by decide, by decide⟩

theorem C38_full_false : ¬ C38_full := by
  intro h
  have := h toySha toySha_length smallLimit C38_after_error_panics.1 2
  rw [C38_after_error_panics.2.2] at this
  cases this

/-! ### C02 for the builder's own message -/

/-- The builder's own encoder of directories: declared size and bytes written agree, and are those of the general encoder. -/
theorem C02_directory (items : List Item) (h : ∀ i ∈ items, i.Ok) :
    customSize (items.map Item.toLeaf) directoryData = (customWrite (items.map Item.toLeaf) directoryData).length ∧
    customWrite (items.map Item.toLeaf) directoryData = (dirMsg items).write := by
  have hw := customWrite_eq items (fun i hi => (h i hi).1)
  exact ⟨by rw [hw]; exact customSize_length h, hw⟩

end Verif.Props
