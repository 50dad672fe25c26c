import Verif.Props.Reported
import Verif.Props.Codec
/-
C59, path by path: what the walk of a built directory reports for each path, and all it reports.
-/
namespace Verif.Props
open Verif Verif.Spec

theorem symlinkBlock_parse (t : Bytes) (h : t.length < 2 ^ 31) :
    FlatUnixFs.tryParse (symlinkBlock t) = .ok { links := [], data := { Ty := .Symlink, Data := some t } } := by
  obtain ⟨b, h1, h2⟩ := C06_symlink t [] (by show _ ≤ 2 ^ 32; omega)
  have : symlinkBlock t = b := by
    simp only [serializeSymlinkBlock, List.nil_append] at h1
    exact h1
  rw [this]; exact h2

/-- The tree for a content. -/
theorem storedAs_tree {sha : Bytes → Bytes} (hsha : ∀ b, (sha b).length = 32) {get : Cid → Option Bytes} {c : Cid} {k : Content}
    (h : StoredAs sha get c k) (q : List Bytes) (n : Bytes) (hn : n ≠ []) : ∃ t, LeadsTo get t (q ++ [n]) c ∧ IsLeaf n t ∧
      ∀ items, atPath (q ++ [n]) items = t.items q → ShownAs c (q ++ [n]) items k := by
  cases k with
  | file x =>
    obtain ⟨T, b, m, h1, h2, h3, h4, h5⟩ := addedAs_tree hsha h
    refine ⟨.file ⟨c, n, {}⟩ T, ⟨rfl, by simp [FsTree.name], ⟨b, m, h2, h3, h4.symm, h5⟩, by rw [Unsharded]; trivial⟩, rfl, fun items hi => ?_⟩
    refine ⟨T.pieces, pieces_ne T, by rw [pieces_flatten, h1], ?_⟩
    rw [hi, FsTree.items, h1, rootPath_ne hn]
  | symlink t =>
    refine ⟨.symlink ⟨c, n, {}⟩ t, ⟨rfl, by simp [FsTree.name], ⟨_, _, h.1, symlinkBlock_parse t h.2, rfl, rfl, rfl⟩,
      by rw [Unsharded]; trivial⟩, rfl, fun items hi => ?_⟩
    rw [ShownAs, hi, FsTree.items, rootPath_ne hn]
  | dir => exact h.elim

/-- What the links of a tree lead to. -/
noncomputable def contentTarget (sha : Bytes → Bytes) (get : Cid → Option Bytes) (all : List DTree) (content : List Bytes → Content)
    (q : List Bytes) : FsTree :=
  open Classical in
  if h : ∃ t : FsTree, ∃ c s n r, lookupPath q all = some (.link c s) ∧ q = r ++ [n] ∧ LeadsTo get t q c ∧ IsLeaf n t ∧
      ∀ items, atPath q items = t.items r → ShownAs c q items (content q) then h.choose
  else .symlink ⟨⟨.v1, 0, 0, []⟩, [], {}⟩ []

/-- C59, path by path. A client puts files and symlinks under any paths which can be walked, builds with wrapping, and stores all blocks.
Then walking from the root directory's Cid ends, and reports: the root directory, once; for each path put the file or symlink, and
nothing else; for each path above those, or set with `set_metadata`, one directory; and nothing for any other path. -/
theorem C59_each_path (sha : Bytes → Bytes) (hsha : ∀ b, (sha b).length = 32) (opts : TreeOptions)
    (hw : opts.wrap_with_directory = true) (ops : List Op) (hops : ∀ op ∈ ops, op.Ok)
    (hpaths : ∀ op ∈ successes (.new opts) ops, Walkable op)
    (hfit : SizesFit sha (runOps (.new opts) ops).2) (nodes : List TreeNode) (it : PostOrderIterator)
    (hbuild : drainAll sha (runOps (.new opts) ops).2.build = some (nodes, .finished, it))
    (get : Cid → Option Bytes) (hget : ∀ x ∈ nodes, get x.cid = some x.block)
    (content : List Bytes → Content)
    (hstored : ∀ p c s cs, Op.putLink p c s ∈ successes (.new opts) ops → PathOf p cs → StoredAs sha get c (content cs))
    (root : TreeNode) (hroot : nodes.getLast? = some root) (cache : Option VisitCache)
    (hc : ∀ k, cache = some k → CacheObtainable k) :
    ∃ items, walkFrom get (Walker.new root.cid []) cache = some (.ok items) ∧
      (∀ i ∈ items, (itemPath i).absolute = false) ∧
      atPath [] items = [.RootDirectory root.cid ⟨false, []⟩ {}] ∧
      (∀ p c s cs, Op.putLink p c s ∈ successes (.new opts) ops → PathOf p cs → ShownAs c cs items (content cs)) ∧
      (∀ op ∈ successes (.new opts) ops, ∀ ds, PathOf op.path ds → ∀ cs, cs ≠ [] → cs <+: ds → (cs ≠ ds ∨ op.thing = .dir) →
        ∃ c, ShownAs c cs items .dir) ∧
      (∀ cs, cs ≠ [] → (∀ op ∈ successes (.new opts) ops, ∀ ds, PathOf op.path ds → ¬ cs <+: ds) → atPath cs items = []) := by
  obtain ⟨all, hall⟩ : ∃ all, contents (runOps (.new opts) ops).2 = all := ⟨_, rfl⟩
  have hist := C31_history opts ops hops
  rw [hall] at hist
  have hb : Obtainable (runOps (.new opts) ops).2 := ⟨opts, ops, hops, rfl⟩
  have hsorted := contents_sorted hb
  rw [hall] at hsorted
  have hne : NonEmptyNames all := by
    intro q n h
    rw [← hall] at h
    obtain ⟨op, hop, cs, hcs, hpre⟩ := path_origin opts ops hops _ (by simp) h
    rcases hcs.2.2.2 with h' | h'
    · exact absurd h' (hpaths op hop cs hcs).1
    · exact h' n (hpre.subset (by simp))
  have hlink : ∀ q c s, lookupPath q all = some (.link c s) → ∃ n r, q = r ++ [n] ∧
      LeadsTo get (contentTarget sha get all content q) q c ∧ IsLeaf n (contentTarget sha get all content q) ∧
      ∀ items, atPath q items = (contentTarget sha get all content q).items r → ShownAs c q items (content q) := by
    intro q c s h
    obtain ⟨p, hp, hpq⟩ := ((hist q).1 c s).1 h
    have hq := hpq.2.1
    obtain ⟨r, n, rfl⟩ : ∃ r n, q = r ++ [n] := ⟨q.dropLast, q.getLast hq, (List.dropLast_concat_getLast hq).symm⟩
    have hn := hne r n (by rw [h]; simp)
    obtain ⟨t, h1, h2, h3⟩ := storedAs_tree hsha (hstored p c s _ hp hpq) r n hn
    have hex : ∃ t : FsTree, ∃ c s n' r', lookupPath (r ++ [n]) all = some (.link c s) ∧ r ++ [n] = r' ++ [n'] ∧
        LeadsTo get t (r ++ [n]) c ∧ IsLeaf n' t ∧
        ∀ items, atPath (r ++ [n]) items = t.items r' → ShownAs c (r ++ [n]) items (content (r ++ [n])) :=
      ⟨t, c, s, n, r, h, rfl, h1, h2, h3⟩
    have hch := hex.choose_spec
    have hdef : contentTarget sha get all content (r ++ [n]) = hex.choose := by
      unfold contentTarget
      rw [dif_pos hex]
    rw [← hdef] at hch
    obtain ⟨c', s', n', r', q1, q2, q3, q4, q5⟩ := hch
    rw [h] at q1
    cases q1
    exact ⟨n', r', q2, q3, q4, q5⟩
  have hleaf : LeafTargets (contentTarget sha get all content) [] all := by
    intro q n c s h
    obtain ⟨n', r', h1, -, h2, -⟩ := hlink _ c s h
    have : n' = n := by
      have := congrArg List.getLast? h1
      simpa using this.symm
    rw [this] at h2
    exact h2
  have hwalk := C57_build_then_walk sha hsha opts hw ops hops hpaths hfit nodes it hbuild get hget
    (contentTarget sha get all content) (by
      intro p c s cs hput hp
      obtain ⟨_, _, _, h, -⟩ := hlink cs c s (((hist cs).1 c s).2 ⟨p, hput, hp⟩)
      exact h) root hroot cache hc
  rw [hall] at hwalk
  have hrest : ∀ i ∈ FsTree.itemsL [] (graftL sha (contentTarget sha get all content) [] all), ∃ n r, itemPath i = ⟨false, n :: r⟩ := by
    intro i hi
    rw [itemsL_flatMap, graftL_map, List.flatMap_map] at hi
    obtain ⟨k, hk, hi⟩ := List.mem_flatMap.1 hi
    obtain ⟨r, h⟩ := entry_below (sha := sha) [] all hleaf hne k (SortedL.mem hsorted hk) (kid_of_mem hsorted hk) i hi
    exact ⟨_, r, h⟩
  have hat : ∀ cs, cs ≠ [] → atPath cs (ContinuedWalk.RootDirectory root.cid ⟨false, []⟩ {} ::
      FsTree.itemsL [] (graftL sha (contentTarget sha get all content) [] all)) = reportAt sha (contentTarget sha get all content) [] all cs := by
    intro cs hcs
    rw [← reported_exact cs [] all hcs hsorted hleaf hne, List.nil_append]
    rw [show ∀ (a : ContinuedWalk) l, a :: l = [a] ++ l from fun _ _ => rfl, atPath_append]
    rw [atPath_nil (items := [_]) (by
      intro i hi he
      rw [List.mem_singleton] at hi; subst hi
      exact hcs (PathBuf.mk.inj he).2.symm)]
    rfl
  refine ⟨_, hwalk, ?_, ?_, ?_, ?_, ?_⟩
  · intro i hi
    rcases List.mem_cons.1 hi with rfl | hi
    · rfl
    · obtain ⟨n, r, h⟩ := hrest i hi
      rw [h]
  · rw [show ∀ (a : ContinuedWalk) l, a :: l = [a] ++ l from fun _ _ => rfl, atPath_append]
    rw [atPath_nil (items := FsTree.itemsL _ _) (by
      intro i hi he
      obtain ⟨n, r, h⟩ := hrest i hi
      rw [h] at he
      cases he)]
    rfl
  · intro p c s cs hput hp
    have hl := ((hist cs).1 c s).2 ⟨p, hput, hp⟩
    obtain ⟨n, r, rfl, -, -, h⟩ := hlink cs c s hl
    apply h
    rw [hat _ (by simp), reportAt, hl]
    simp
  · intro op hop ds hds cs hcs hpre hor
    have hl := (hist cs).2.2 (.inr ⟨op, hop, ds, hds, hpre, hor⟩)
    obtain ⟨es, he⟩ := entriesAt_some.1 hl
    refine ⟨cidOf sha (dirBlock (DTree.items sha es)), ?_⟩
    rw [ShownAs, hat _ hcs, reportAt, hl, he]
    rfl
  · intro cs hcs hno
    rw [hat _ hcs, reportAt]
    have : lookupPath cs all = none := by
      refine Decidable.byContradiction fun h => ?_
      rw [← hall] at h
      obtain ⟨op, hop, ds, hds, hpre⟩ := path_origin opts ops hops cs hcs h
      exact hno op hop ds hds hpre
    rw [this]

/-- All hypotheses are met by the sample of C59: the walk reports the file at `a/b`, the directory `c`, and nothing at `d`. -/
example : ∃ root items, walkFrom fileStore (Walker.new root []) none = some (.ok items) ∧
    ShownAs fileCid [[97], [98]] items (.file [1, 2, 3]) ∧ (∃ c, ShownAs c [[99]] items .dir) ∧ atPath [[100]] items = [] := by
  obtain ⟨it, root, k⟩ := fileCase
  obtain ⟨items, h1, -, -, h2, h3, h4⟩ := C59_each_path toySha toySha_length wrapping rfl fileOps k.ops k.walkable k.fit _ it k.build
    fileStore k.stored (fun _ => .file [1, 2, 3]) (fun p c s _ hp _ => k.added p c s hp) root k.root none (by intro k h; cases h)
  rw [k.succ] at h2 h3 h4
  refine ⟨root.cid, items, h1, h2 _ _ _ _ (List.mem_cons_self ..) path_ab,
    h3 _ (List.mem_cons_of_mem _ (List.mem_cons_self ..)) _ path_c _ (by decide) (List.prefix_refl _) (.inr rfl), h4 _ (by decide) ?_⟩
  intro op hop ds hds
  simp only [fileOps, List.mem_cons, List.not_mem_nil, or_false] at hop
  rcases hop with rfl | rfl
  · rw [← pathOf_unique hds]; decide
  · rw [← pathOf_unique hds]; decide

end Verif.Props
