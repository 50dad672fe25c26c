import Verif.Props.Built
import Verif.Props.WalkTrees
import Verif.Props.AdderMore
import Verif.Spec.Grafting
/-
Whole-library properties: adding, building, resolving, reading and walking together (C57, C58, C59).
-/
namespace Verif.Props
open Verif Verif.Spec

/-! ### helpers -/

/-- What the iterator yields when it ends normally. -/
theorem drained_nodes {sha : Bytes → Bytes} (hsha : ∀ b, (sha b).length = 32) {b : BufferingTreeBuilder} (hb : Obtainable b)
    (hfit : SizesFit sha b) {nodes it} (h : drainAll sha b.build = some (nodes, .finished, it)) :
    nodes = allNodes sha b.opts.wrap_with_directory (contents b) := by
  rcases drain_limit sha hsha b hb hfit with ⟨-, it', h'⟩ | ⟨before, x, rest, it', -, -, -, h'⟩
  · rw [h] at h'; cases h'; rfl
  · rw [h] at h'; cases h'

theorem opts_run {opts : TreeOptions} {ops : List Op} (hops : ∀ op ∈ ops, op.Ok) :
    (runOps (.new opts) ops).2.opts = opts := (runOps_inv (BInv.new opts) hops).2

theorem root_node {sha : Bytes → Bytes} {ks : List DTree} {root : TreeNode}
    (h : (allNodes sha true ks).getLast? = some root) : root = nodeOf sha [] ks := by
  simp only [allNodes, if_true, List.getLast?_append, List.getLast?_singleton, Option.some_or, Option.some.injEq] at h
  exact h.symm

/-- Paths of the tree are prefixes of those of successful calls. -/
theorem path_origin (opts : TreeOptions) (ops : List Op) (hops : ∀ op ∈ ops, op.Ok) (q : List Bytes) (hq : q ≠ [])
    (h : lookupPath q (contents (runOps (.new opts) ops).2) ≠ none) :
    ∃ op ∈ successes (.new opts) ops, ∃ cs, PathOf op.path cs ∧ q <+: cs := by
  obtain ⟨h1, h2⟩ := C31_history opts ops hops q
  cases ht : lookupPath q (contents (runOps (.new opts) ops).2) with
  | none => exact absurd ht h
  | some t =>
    cases t with
    | link c s =>
      obtain ⟨p, hp, hpath⟩ := (h1 c s).1 ht
      exact ⟨_, hp, q, hpath, List.prefix_refl _⟩
    | dir =>
      rcases h2.1 ht with rfl | ⟨op, hop, cs, hcs, hpre, -⟩
      · exact absurd rfl hq
      · exact ⟨op, hop, cs, hcs, hpre⟩

theorem graftL_map (sha : Bytes → Bytes) (target : List Bytes → FsTree) (path : List Bytes) (ks : List DTree) :
    graftL sha target path ks = ks.map (graft sha target path) := by
  induction ks with
  | nil => rfl
  | cons k ks ih => rw [graftL, ih, List.map_cons]

theorem itemsL_flatMap (parent : List Bytes) (ts : List FsTree) : FsTree.itemsL parent ts = ts.flatMap (FsTree.items parent) := by
  induction ts with
  | nil => rfl
  | cons t ts ih => rw [FsTree.itemsL, ih, List.flatMap_cons]

/-- A successful call whose path can be walked: it has no component `.` and is not the empty path. -/
def Walkable (op : Op) : Prop := ∀ cs, PathOf op.path cs → cs ≠ [[]] ∧ dot ∉ cs

/-- What the client must have stored for a link: a plain file system tree with the name at the end of the path. -/
structure LeadsTo (get : Cid → Option Bytes) (t : FsTree) (path : List Bytes) (c : Cid) : Prop where
  cid : t.cid = c
  name : path.getLast? = some t.name
  stored : FsAt get t
  plain : Unsharded t

section
variable {sha : Bytes → Bytes} {get : Cid → Option Bytes} {target : List Bytes → FsTree} {all : List DTree}

theorem graft_named (hl : ∀ q c s, lookupPath q all = some (.link c s) → LeadsTo get (target q) q c)
    {path : List Bytes} {full : List DTree} (hp : entriesAt path all = some full) {k : DTree} (hk : kid k.name full = some k) :
    (graft sha target path k).Named ∧ (graft sha target path k).name = k.name ∧
      (graft sha target path k).cid = (DTree.item sha k).cid := by
  cases k with
  | link n c s =>
    have h1 : lookupPath (path ++ [n]) all = some (.link c s) := by
      have hk' : kid n full = some (.link n c s) := hk
      rw [entriesAt_dir hp, lookupPath_cons_link hk', if_pos rfl]
    obtain ⟨e1, e2, -, e4⟩ := hl _ _ _ h1
    refine ⟨?_, ?_, e1⟩
    · show (target (path ++ [n])).Named
      revert e4; cases target (path ++ [n]) <;> simp [Unsharded, FsTree.Named]
    · rw [List.getLast?_append, List.getLast?_singleton] at e2
      exact (Option.some.inj e2).symm
  | dir n ks => exact ⟨trivial, rfl, rfl⟩

mutual
theorem graft_at (hsha : ∀ b, (sha b).length = 32)
    (hgood : ∀ q n, lookupPath (q ++ [n]) all ≠ none → GoodName n)
    (hl : ∀ q c s, lookupPath q all = some (.link c s) → LeadsTo get (target q) q c)
    (hd : ∀ q es, q ≠ [] → entriesAt q all = some es → get (cidOf sha (dirBlock (DTree.items sha es))) =
      some (dirBlock (DTree.items sha es)))
    (hok : ∀ q es, entriesAt q all = some es → ∀ i ∈ DTree.items sha es, i.Ok)
    (path : List Bytes) (full : List DTree) (hp : entriesAt path all = some full) :
    ∀ k : DTree, Sorted k → kid k.name full = some k → FsAt get (graft sha target path k) ∧ Unsharded (graft sha target path k)
  | .link n c s, _, hk => by
    have h1 : lookupPath (path ++ [n]) all = some (.link c s) := by
      have hk' : kid n full = some (.link n c s) := hk
      rw [entriesAt_dir hp, lookupPath_cons_link hk', if_pos rfl]
    have := hl _ _ _ h1
    exact ⟨this.stored, this.plain⟩
  | .dir n ks, hs, hk => by
    have he : entriesAt (path ++ [n]) all = some ks := by
      have hk' : kid n full = some (.dir n ks) := hk
      rw [entriesAt_append hp, entriesAt, hk']; rfl
    obtain ⟨h1, h2⟩ := graftL_at hsha hgood hl hd hok (path ++ [n]) ks he ks hs (fun k hk => kid_of_mem hs hk)
    refine ⟨?_, ?_⟩
    · exact ⟨_, Spec.dirMsg (DTree.items sha ks), hd _ ks (by simp) he, C01_flat_roundtrip _ (dirMsg_fits (hok _ _ he)), rfl,
        ⟨rfl, rfl, rfl, rfl, rfl, rfl⟩, h1⟩
    · rw [graft, Unsharded]; exact h2
theorem graftL_at (hsha : ∀ b, (sha b).length = 32)
    (hgood : ∀ q n, lookupPath (q ++ [n]) all ≠ none → GoodName n)
    (hl : ∀ q c s, lookupPath q all = some (.link c s) → LeadsTo get (target q) q c)
    (hd : ∀ q es, q ≠ [] → entriesAt q all = some es → get (cidOf sha (dirBlock (DTree.items sha es))) =
      some (dirBlock (DTree.items sha es)))
    (hok : ∀ q es, entriesAt q all = some es → ∀ i ∈ DTree.items sha es, i.Ok)
    (path : List Bytes) (full : List DTree) (hp : entriesAt path all = some full) :
    ∀ ks : List DTree, SortedL ks → (∀ k ∈ ks, kid k.name full = some k) →
      EntriesAt get (graftL sha target path ks) (Spec.dirMsg (DTree.items sha ks)).links ∧
      ∀ t ∈ graftL sha target path ks, Unsharded t
  | [], _, _ => ⟨trivial, fun _ h => by cases h⟩
  | k :: ks, hs, hk => by
    have hk0 := hk k (by simp)
    obtain ⟨h1, h2⟩ := graft_at hsha hgood hl hd hok path full hp k hs.2.1 hk0
    obtain ⟨h3, h4⟩ := graftL_at hsha hgood hl hd hok path full hp ks hs.2.2 (fun k' hk' => hk k' (by simp [hk']))
    obtain ⟨n1, n2, n3⟩ := graft_named (sha := sha) hl hp hk0
    have hmem : DTree.item sha k ∈ DTree.items sha full := by
      rw [items_map]; exact List.mem_map_of_mem (kid_mem hk0)
    have hfits := (hok _ _ hp _ hmem).1
    refine ⟨⟨⟨n1, ?_, ?_, ?_, h1⟩, h3⟩, ?_⟩
    · rw [n2]
      refine hgood path k.name ?_
      rw [entriesAt_dir hp]
      cases k with
      | link n c s => rw [lookupPath_cons_link hk0]; simp
      | dir n ks => rw [lookupPath_cons_dir hk0, lookupPath_nil]; simp
    · rw [n2]; show some (DTree.item sha k).name = _; rw [item_name]
    · rw [n3]; have := C53_cid_roundtrip _ hfits []; rw [List.append_nil] at this; exact this
    · intro t ht
      rcases List.mem_cons.1 ht with rfl | ht
      · exact h2
      · exact h4 t ht
end
end

/-! ## C57 build, then walk -/

/-- The names in the tree of a builder whose successful calls can be walked. -/
theorem tree_names (opts : TreeOptions) (ops : List Op) (hops : ∀ op ∈ ops, op.Ok)
    (hpaths : ∀ op ∈ successes (.new opts) ops, Walkable op) (q : List Bytes) (n : Bytes)
    (h : lookupPath (q ++ [n]) (contents (runOps (.new opts) ops).2) ≠ none) : GoodName n := by
  have hb : Obtainable (runOps (.new opts) ops).2 := ⟨opts, ops, hops, rfl⟩
  have htree := contents_ok hb
  obtain ⟨op, hop, cs, hcs, hpre⟩ := path_origin opts ops hops _ (by simp) h
  have hmem : n ∈ cs := hpre.subset (by simp)
  obtain ⟨w1, w2⟩ := hpaths op hop cs hcs
  refine ⟨?_, fun e => w2 (e ▸ hmem), hcs.2.2.1 n hmem, ?_⟩
  · rcases hcs.2.2.2 with h' | h'
    · exact absurd h' w1
    · exact h' n hmem
  · -- the name of an entry of the tree
    cases hq : lookupPath q (contents (runOps (.new opts) ops).2) with
    | none =>
      exfalso; apply h
      have aux : ∀ (q : List Bytes) (ks : List DTree), lookupPath q ks = none → lookupPath (q ++ [n]) ks = none := by
        intro q
        induction q with
        | nil => intro ks h; rw [lookupPath_nil] at h; cases h
        | cons x q ih =>
          intro ks h
          cases hx : kid x ks with
          | none => rw [List.cons_append, lookupPath_cons_none hx]
          | some k =>
            cases k with
            | link a c s => rw [List.cons_append, lookupPath_cons_link hx, if_neg (by simp)]
            | dir a es => rw [lookupPath_cons_dir hx] at h; rw [List.cons_append, lookupPath_cons_dir hx]; exact ih es h
      exact aux q _ hq
    | some t =>
      cases t with
      | link c s =>
        exfalso; apply h
        have aux : ∀ (q : List Bytes) (ks : List DTree), lookupPath q ks = some (.link c s) → lookupPath (q ++ [n]) ks = none := by
          intro q
          induction q with
          | nil => intro ks h; rw [lookupPath_nil] at h; cases h
          | cons x q ih =>
            intro ks h
            cases hx : kid x ks with
            | none => rw [List.cons_append, lookupPath_cons_none hx]
            | some k =>
              cases k with
              | link a c s => rw [List.cons_append, lookupPath_cons_link hx, if_neg (by simp)]
              | dir a es => rw [lookupPath_cons_dir hx] at h; rw [List.cons_append, lookupPath_cons_dir hx]; exact ih es h
        exact aux q _ hq
      | dir =>
        obtain ⟨es, he⟩ := entriesAt_some.1 hq
        rw [entriesAt_dir he] at h
        cases hk : kid n es with
        | none => rw [lookupPath_cons_none hk] at h; exact absurd rfl h
        | some k =>
          have := (entriesAt_ok he htree).mem (kid_mem hk)
          have hkn := kid_name hk
          cases k with
          | link a c s => cases hkn; exact this.1.2
          | dir a es' => cases hkn; exact this.1.2

/-- What a wrapping builder built is a file system tree in the store. -/
theorem built_at (sha : Bytes → Bytes) (hsha : ∀ b, (sha b).length = 32) (opts : TreeOptions)
    (hw : opts.wrap_with_directory = true) (ops : List Op) (hops : ∀ op ∈ ops, op.Ok)
    (hpaths : ∀ op ∈ successes (.new opts) ops, Walkable op)
    (hfit : SizesFit sha (runOps (.new opts) ops).2) (nodes : List TreeNode) (it : PostOrderIterator)
    (hbuild : drainAll sha (runOps (.new opts) ops).2.build = some (nodes, .finished, it))
    (get : Cid → Option Bytes) (hget : ∀ x ∈ nodes, get x.cid = some x.block)
    (target : List Bytes → FsTree)
    (htarget : ∀ p c s cs, Op.putLink p c s ∈ successes (.new opts) ops → PathOf p cs → LeadsTo get (target cs) cs c)
    (root : TreeNode) (hroot : nodes.getLast? = some root) :
    FsAt get (.dir ⟨root.cid, [], {}⟩ (graftL sha target [] (contents (runOps (.new opts) ops).2))) ∧
    Unsharded (.dir ⟨root.cid, [], {}⟩ (graftL sha target [] (contents (runOps (.new opts) ops).2))) := by
  have hb : Obtainable (runOps (.new opts) ops).2 := ⟨opts, ops, hops, rfl⟩
  have hopts := opts_run (opts := opts) hops
  have hn := drained_nodes hsha hb hfit hbuild
  rw [hopts, hw] at hn
  subst hn
  have hr := root_node hroot
  obtain ⟨all, hall⟩ : ∃ all, contents (runOps (.new opts) ops).2 = all := ⟨_, rfl⟩
  have hsorted := contents_sorted hb
  have hl : ∀ q c s, lookupPath q all = some (.link c s) → LeadsTo get (target q) q c := by
    intro q c s h
    rw [← hall] at h
    obtain ⟨p, hp, hpq⟩ := ((C31_history opts ops hops q).1 c s).1 h
    exact htarget p c s q hp hpq
  have htree := contents_ok hb
  have hgood : ∀ q n, lookupPath (q ++ [n]) all ≠ none → GoodName n := by
    intro q n h
    rw [← hall] at h
    exact tree_names opts ops hops hpaths q n h
  have hd : ∀ q es, entriesAt q all = some es → get (cidOf sha (dirBlock (DTree.items sha es))) =
      some (dirBlock (DTree.items sha es)) := by
    intro q es he
    rw [← hall] at he
    refine hget (nodeOf sha q es) ?_
    have := (built_iff sha _ hb (nodeOf sha q es)).2 ⟨q, ⟨entriesAt_some.2 ⟨es, he⟩, fun _ => by rw [hopts, hw]⟩, es, he, rfl⟩
    rwa [hopts, hw] at this
  have hok : ∀ q es, entriesAt q all = some es → ∀ i ∈ DTree.items sha es, i.Ok := by
    intro q es he
    rw [← hall] at he
    exact built_items_ok hsha hb hfit he
  rw [hall] at hsorted hr ⊢
  obtain ⟨h1, h2⟩ := graftL_at hsha hgood hl (fun q es _ => hd q es) hok [] all rfl all hsorted (fun k hk => kid_of_mem hsorted hk)
  have hcid : root.cid = cidOf sha (dirBlock (DTree.items sha all)) := by rw [hr]; rfl
  have hat : FsAt get (.dir ⟨root.cid, [], {}⟩ (graftL sha target [] all)) := by
    refine ⟨_, Spec.dirMsg (DTree.items sha all), ?_, C01_flat_roundtrip _ (dirMsg_fits (hok [] _ rfl)), rfl,
        ⟨rfl, rfl, rfl, rfl, rfl, rfl⟩, h1⟩
    show get root.cid = _
    rw [hcid]; exact hd [] all rfl
  exact ⟨hat, by rw [Unsharded]; exact h2⟩

/-- C57. Walking what a wrapping builder built, over a store which holds the built blocks and trees for the links, reports
exactly the file system tree: all directories of the builder, and below them what the links lead to, all with their paths. -/
theorem C57_build_then_walk (sha : Bytes → Bytes) (hsha : ∀ b, (sha b).length = 32) (opts : TreeOptions)
    (hw : opts.wrap_with_directory = true) (ops : List Op) (hops : ∀ op ∈ ops, op.Ok)
    (hpaths : ∀ op ∈ successes (.new opts) ops, Walkable op)
    (hfit : SizesFit sha (runOps (.new opts) ops).2) (nodes : List TreeNode) (it : PostOrderIterator)
    (hbuild : drainAll sha (runOps (.new opts) ops).2.build = some (nodes, .finished, it))
    (get : Cid → Option Bytes) (hget : ∀ x ∈ nodes, get x.cid = some x.block)
    (target : List Bytes → FsTree)
    (htarget : ∀ p c s cs, Op.putLink p c s ∈ successes (.new opts) ops → PathOf p cs → LeadsTo get (target cs) cs c)
    (root : TreeNode) (hroot : nodes.getLast? = some root) (cache : Option VisitCache)
    (hc : ∀ k, cache = some k → CacheObtainable k) :
    walkFrom get (Walker.new root.cid []) cache =
      some (.ok (.RootDirectory root.cid ⟨false, []⟩ {} ::
        FsTree.itemsL [] (graftL sha target [] (contents (runOps (.new opts) ops).2)))) := by
  obtain ⟨hat, hu⟩ := built_at sha hsha opts hw ops hops hpaths hfit nodes it hbuild get hget target htarget root hroot
  exact C45_plain get _ cache hat hu (by simp [FsTree.name]) hc

/-! ## C58 add, then walk -/

/-- The tree of an added file. -/
theorem addedAs_tree {sha : Bytes → Bytes} (hsha : ∀ b, (sha b).length = 32) {get : Cid → Option Bytes} {c : Cid} {x : Bytes}
    (h : AddedAs sha get c x) : ∃ (T : FTree) (b : Bytes) (m : FlatUnixFs), T.content = x ∧ get c = some b ∧
      FlatUnixFs.tryParse b = .ok m ∧ metaOf m.data = {} ∧ FileAt get T b := by
  obtain ⟨chunk, bf, blocks, root, hc, hbf, hsmall, hadd, hget, hlast, rfl⟩ := h
  obtain ⟨T, d, f⟩ := adds_facts hc hbf hadd
  have hl : blocks.getLast? = some (T.entry sha) := by
    rw [f.blocks, List.getLast?_map, f.em.last]; rfl
  rw [hlast] at hl
  cases hl
  have hp := f.parse hsha hsmall (FTree.self_mem_nodes T)
  obtain ⟨-, h1, h2⟩ := msg_fileNode sha T
  refine ⟨T, T.block sha, T.msg sha, f.content, hget _ (List.mem_of_getLast? hlast), hp, ?_, f.fileAt hsha hsmall hget⟩
  simp [metaOf, h1, h2]

theorem pieces_ne : ∀ t : FTree, t.pieces ≠ []
  | .leaf _ => by simp [FTree.pieces]
  | .node _ => by simp [FTree.pieces]

/-- C58. Walking an added file from its last block, under any name, reports its content in file segments, of which exactly the
first and the last are flagged as such, each with the file's Cid, size and name and with empty metadata; and nothing else. -/
theorem C58_add_then_walk (sha : Bytes → Bytes) (hsha : ∀ b, (sha b).length = 32) (get : Cid → Option Bytes) (c : Cid) (x : Bytes)
    (h : AddedAs sha get c x) (name : Bytes) (hname : slash ∉ name) (cache : Option VisitCache)
    (hc : ∀ k, cache = some k → CacheObtainable k) :
    ∃ pieces : List Bytes, pieces.flatten = x ∧ pieces ≠ [] ∧
      walkFrom get (Walker.new c name) cache =
        some (.ok ((segments true pieces).map (fun s => .File s c ⟨false, rootPath name⟩ {} x.length))) := by
  obtain ⟨T, b, m, h1, h2, h3, h4, h5⟩ := addedAs_tree hsha h
  have hat : FsAt get (.file ⟨c, name, {}⟩ T) := ⟨b, m, h2, h3, h4.symm, h5⟩
  have := C45_plain get (.file ⟨c, name, {}⟩ T) cache hat (by rw [Unsharded]; trivial) hname hc
  refine ⟨T.pieces, by rw [pieces_flatten, h1], pieces_ne T, ?_⟩
  rw [show FsTree.cid (.file ⟨c, name, {}⟩ T) = c from rfl, show FsTree.name (.file ⟨c, name, {}⟩ T) = name from rfl] at this
  rw [this, FsTree.walkItems, FsTree.items, h1]
  cases hs : segments true T.pieces with
  | nil => rfl
  | cons s ss => rfl

/-! ## C59 add, build, store; then resolve, read and walk -/

/-- The file for a link: any tree with the content which was added. -/
noncomputable def fileTarget (sha : Bytes → Bytes) (get : Cid → Option Bytes) (all : List DTree) (content : Cid → Bytes)
    (hsha : ∀ b, (sha b).length = 32) (q : List Bytes) : FsTree :=
  match lookupPath q all with
  | some (.link c _) =>
    open Classical in
    if h : AddedAs sha get c (content c) then .file ⟨c, q.getLast?.getD [], {}⟩ (addedAs_tree hsha h).choose
    else .symlink ⟨c, [], {}⟩ []
  | _ => .symlink ⟨⟨.v1, 0, 0, []⟩, [], {}⟩ []

theorem bytesAt_append (path : List Bytes) (a b : List ContinuedWalk) : bytesAt path (a ++ b) = bytesAt path a ++ bytesAt path b := by
  simp [bytesAt]

theorem bytesAt_nil {path : List Bytes} {items : List ContinuedWalk} (h : ¬ FileReported path items) : bytesAt path items = [] := by
  induction items with
  | nil => rfl
  | cons i items ih =>
    have h2 : ¬ FileReported path items := fun ⟨s, c, md, n, hm⟩ => h ⟨s, c, md, n, List.mem_cons_of_mem _ hm⟩
    rw [show i :: items = [i] ++ items from rfl, bytesAt_append, ih h2, List.append_nil]
    cases i with
    | File seg c p md size =>
      by_cases hp : p = ⟨false, path⟩
      · subst hp; exact absurd ⟨seg, c, md, size, by simp⟩ h
      · simp [bytesAt, hp]
    | _ => rfl

theorem bytesAt_file (path : List Bytes) (segs : List FileSegment) (c : Cid) (md : Metadata) (n : Nat) :
    bytesAt path (segs.map (fun s => .File s c ⟨false, path⟩ md n)) = (segs.map FileSegment.asBytes).flatten := by
  induction segs with
  | nil => rfl
  | cons s segs ih =>
    rw [List.map_cons, show ∀ (a : ContinuedWalk) l, a :: l = [a] ++ l from fun _ _ => rfl, bytesAt_append, ih]
    simp [bytesAt, FileSegment.asBytes]

section
variable {sha : Bytes → Bytes} {target : List Bytes → FsTree}

/-- Every link leads to a file of the right name. -/
def Files (target : List Bytes → FsTree) (path : List Bytes) (ks : List DTree) : Prop :=
  ∀ q n c s, lookupPath (q ++ [n]) ks = some (.link c s) → ∃ c' T, target (path ++ (q ++ [n])) = .file ⟨c', n, {}⟩ T

/-- No name is empty. -/
def NonEmptyNames (ks : List DTree) : Prop := ∀ q n, lookupPath (q ++ [n]) ks ≠ none → n ≠ []

theorem Files.sub {path : List Bytes} {ks ks' : List DTree} {n k} (h : Files target path ks) (hk : kid n ks = some (.dir k ks')) :
    Files target (path ++ [n]) ks' := by
  intro q m c s hq
  obtain ⟨c', T, e⟩ := h (n :: q) m c s (by rw [List.cons_append, lookupPath_cons_dir hk]; exact hq)
  exact ⟨c', T, by rw [List.append_assoc]; exact e⟩

theorem NonEmptyNames.sub {ks ks' : List DTree} {n k} (h : NonEmptyNames ks) (hk : kid n ks = some (.dir k ks')) :
    NonEmptyNames ks' := by
  intro q m hq
  exact h (n :: q) m (by rw [List.cons_append, lookupPath_cons_dir hk]; exact hq)

theorem rootPath_ne {n : Bytes} (h : n ≠ []) : rootPath n = [n] := by simp [rootPath, h]

theorem grafted_items (parent : List Bytes) (ks : List DTree) (path : List Bytes) :
    FsTree.itemsL parent (graftL sha target path ks) = ks.flatMap (fun k => FsTree.items parent (graft sha target path k)) := by
  rw [itemsL_flatMap, graftL_map, List.flatMap_map]

mutual
/-- What is reported for an entry. -/
theorem reported_entry (path : List Bytes) (ks : List DTree) (hf : Files target path ks) (hn : NonEmptyNames ks)
    (p : List Bytes) : ∀ k : DTree, Sorted k → kid k.name ks = some k →
    (FileReported p (FsTree.items path (graft sha target path k)) ↔
      ∃ q c s, p = path ++ k.name :: q ∧ lookupPath (k.name :: q) ks = some (.link c s)) ∧
    (DirReported p (FsTree.items path (graft sha target path k)) ↔
      ∃ q, p = path ++ k.name :: q ∧ lookupPath (k.name :: q) ks = some .dir)
  | .link n c s, _, hk => by
    have hk' : kid n ks = some (.link n c s) := hk
    have hl : lookupPath [n] ks = some (.link c s) := by rw [lookupPath_cons_link hk', if_pos rfl]
    obtain ⟨c', T, e⟩ := hf [] n c s hl
    have e' : graft sha target path (.link n c s) = .file ⟨c', n, {}⟩ T := e
    have hr := rootPath_ne (hn [] n (by rw [List.nil_append, hl]; simp))
    rw [e', FsTree.items]
    simp only [hr]
    constructor
    · constructor
      · rintro ⟨seg, c1, md, size, hm⟩
        obtain ⟨sg, -, e1⟩ := List.mem_map.1 hm
        cases e1
        exact ⟨[], c, s, rfl, hl⟩
      · rintro ⟨q, c1, s1, rfl, h2⟩
        have : q = [] := by
          rw [show (DTree.link n c s).name = n from rfl, lookupPath_cons_link hk'] at h2
          by_cases hq : q = []
          · exact hq
          · rw [if_neg hq] at h2; cases h2
        subst this
        cases hs : segments true T.pieces with
        | nil =>
          exfalso
          cases hp : T.pieces with
          | nil => exact pieces_ne T hp
          | cons a as => rw [hp] at hs; cases as <;> cases hs
        | cons sg ss => exact ⟨sg, c', {}, T.content.length, by simp [DTree.name]⟩
    · constructor
      · rintro ⟨c1, md, hm | hm⟩ <;> obtain ⟨sg, -, e1⟩ := List.mem_map.1 hm <;> cases e1
      · rintro ⟨q, rfl, h2⟩
        rw [show (DTree.link n c s).name = n from rfl, lookupPath_cons_link hk'] at h2
        by_cases hq : q = []
        · rw [if_pos hq] at h2; cases h2
        · rw [if_neg hq] at h2; cases h2
  | .dir n ks', hs, hk => by
    have hk' : kid n ks = some (.dir n ks') := hk
    have hr := rootPath_ne (hn [] n (by rw [List.nil_append, lookupPath_cons_dir hk', lookupPath_nil]; simp))
    have ih := reported_list (path ++ [n]) ks' (hf.sub hk') (hn.sub hk') p ks' hs (fun k hk => kid_of_mem hs hk)
    have hcons : ∀ q : List Bytes, path ++ n :: q = (path ++ [n]) ++ q := fun q => by simp
    rw [graft, FsTree.items]
    simp only [hr]
    constructor
    · constructor
      · rintro ⟨seg, c1, md, size, hm⟩
        rcases List.mem_cons.1 hm with hm | hm
        · cases hm
        · obtain ⟨m, q, c, s, -, rfl, h2⟩ := ih.1.1 ⟨seg, c1, md, size, hm⟩
          exact ⟨m :: q, c, s, (hcons _).symm, by rw [← h2]; exact lookupPath_cons_dir hk'⟩
      · rintro ⟨q, c, s, rfl, h2⟩
        rw [show (DTree.dir n ks').name = n from rfl, lookupPath_cons_dir hk'] at h2
        cases q with
        | nil => rw [lookupPath_nil] at h2; cases h2
        | cons m q =>
          have hm : ∃ k ∈ ks', k.name = m := by
            cases hkm : kid m ks' with
            | none => rw [lookupPath_cons_none hkm] at h2; cases h2
            | some k => exact ⟨k, kid_mem hkm, kid_name hkm⟩
          obtain ⟨seg, c1, md, size, hmem⟩ := ih.1.2 ⟨m, q, c, s, hm, hcons _, h2⟩
          exact ⟨seg, c1, md, size, List.mem_cons_of_mem _ hmem⟩
    · constructor
      · rintro ⟨c1, md, hm⟩
        have : p = path ++ [n] ∨ DirReported p (FsTree.itemsL (path ++ [n]) (graftL sha target (path ++ [n]) ks')) := by
          rcases hm with hm | hm
          · rcases List.mem_cons.1 hm with hm | hm
            · cases hm; exact .inl rfl
            · exact .inr ⟨c1, md, .inl hm⟩
          · rcases List.mem_cons.1 hm with hm | hm
            · cases hm
            · exact .inr ⟨c1, md, .inr hm⟩
        rcases this with rfl | this
        · exact ⟨[], rfl, by rw [show (DTree.dir n ks').name = n from rfl, lookupPath_cons_dir hk', lookupPath_nil]⟩
        · obtain ⟨m, q, -, rfl, h2⟩ := ih.2.1 this
          exact ⟨m :: q, (hcons _).symm, by rw [← h2]; exact lookupPath_cons_dir hk'⟩
      · rintro ⟨q, rfl, h2⟩
        rw [show (DTree.dir n ks').name = n from rfl, lookupPath_cons_dir hk'] at h2
        cases q with
        | nil => exact ⟨_, _, .inl (List.mem_cons_self ..)⟩
        | cons m q =>
          have hm : ∃ k ∈ ks', k.name = m := by
            cases hkm : kid m ks' with
            | none => rw [lookupPath_cons_none hkm] at h2; cases h2
            | some k => exact ⟨k, kid_mem hkm, kid_name hkm⟩
          obtain ⟨c1, md, hmem⟩ := ih.2.2 ⟨m, q, hm, hcons _, h2⟩
          exact ⟨c1, md, hmem.imp (List.mem_cons_of_mem _) (List.mem_cons_of_mem _)⟩
/-- What is reported for some of the entries of a directory. -/
theorem reported_list (path : List Bytes) (ks : List DTree) (hf : Files target path ks) (hn : NonEmptyNames ks)
    (p : List Bytes) : ∀ some' : List DTree, SortedL some' → (∀ k ∈ some', kid k.name ks = some k) →
    (FileReported p (FsTree.itemsL path (graftL sha target path some')) ↔
      ∃ n q c s, (∃ k ∈ some', k.name = n) ∧ p = path ++ n :: q ∧ lookupPath (n :: q) ks = some (.link c s)) ∧
    (DirReported p (FsTree.itemsL path (graftL sha target path some')) ↔
      ∃ n q, (∃ k ∈ some', k.name = n) ∧ p = path ++ n :: q ∧ lookupPath (n :: q) ks = some .dir)
  | [], _, _ => by
    constructor
    · constructor
      · rintro ⟨_, _, _, _, h⟩; cases h
      · rintro ⟨_, _, _, _, ⟨_, h, _⟩, _⟩; cases h
    · constructor
      · rintro ⟨_, _, h | h⟩ <;> cases h
      · rintro ⟨_, _, ⟨_, h, _⟩, _⟩; cases h
  | k :: rest, hs, hk => by
    have i1 := reported_entry path ks hf hn p k hs.2.1 (hk k (by simp))
    have i2 := reported_list path ks hf hn p rest hs.2.2 (fun k' hk' => hk k' (by simp [hk']))
    rw [graftL, FsTree.itemsL]
    constructor
    · constructor
      · rintro ⟨seg, c1, md, size, hm⟩
        rcases List.mem_append.1 hm with hm | hm
        · obtain ⟨q, c, s, h1, h2⟩ := i1.1.1 ⟨_, _, _, _, hm⟩
          exact ⟨_, q, c, s, ⟨k, by simp, rfl⟩, h1, h2⟩
        · obtain ⟨n, q, c, s, ⟨k', h0, h0'⟩, h1⟩ := i2.1.1 ⟨_, _, _, _, hm⟩
          exact ⟨n, q, c, s, ⟨k', by simp [h0], h0'⟩, h1⟩
      · rintro ⟨n, q, c, s, ⟨k', h0, h0'⟩, h1, h2⟩
        rcases List.mem_cons.1 h0 with rfl | h0
        · subst h0'
          obtain ⟨_, _, _, _, hm⟩ := i1.1.2 ⟨q, c, s, h1, h2⟩
          exact ⟨_, _, _, _, List.mem_append_left _ hm⟩
        · obtain ⟨_, _, _, _, hm⟩ := i2.1.2 ⟨n, q, c, s, ⟨k', h0, h0'⟩, h1, h2⟩
          exact ⟨_, _, _, _, List.mem_append_right _ hm⟩
    · constructor
      · rintro ⟨c1, md, hm⟩
        have : DirReported p (FsTree.items path (graft sha target path k)) ∨ DirReported p (FsTree.itemsL path (graftL sha target path rest)) := by
          rcases hm with hm | hm <;> rcases List.mem_append.1 hm with hm | hm
          · exact .inl ⟨c1, md, .inl hm⟩
          · exact .inr ⟨c1, md, .inl hm⟩
          · exact .inl ⟨c1, md, .inr hm⟩
          · exact .inr ⟨c1, md, .inr hm⟩
        rcases this with this | this
        · obtain ⟨q, h1, h2⟩ := i1.2.1 this
          exact ⟨_, q, ⟨k, by simp, rfl⟩, h1, h2⟩
        · obtain ⟨n, q, ⟨k', h0, h0'⟩, h1⟩ := i2.2.1 this
          exact ⟨n, q, ⟨k', by simp [h0], h0'⟩, h1⟩
      · rintro ⟨n, q, ⟨k', h0, h0'⟩, h1, h2⟩
        rcases List.mem_cons.1 h0 with rfl | h0
        · subst h0'
          obtain ⟨_, _, hm⟩ := i1.2.2 ⟨q, h1, h2⟩
          exact ⟨_, _, hm.imp (List.mem_append_left _) (List.mem_append_left _)⟩
        · obtain ⟨_, _, hm⟩ := i2.2.2 ⟨n, q, ⟨k', h0, h0'⟩, h1, h2⟩
          exact ⟨_, _, hm.imp (List.mem_append_right _) (List.mem_append_right _)⟩
end

/-- The bytes reported at the path of a link. -/
theorem reported_bytes : ∀ (q path : List Bytes) (ks : List DTree), SortedL ks → Files target path ks → NonEmptyNames ks →
    ∀ c s, lookupPath q ks = some (.link c s) → ∀ e T, target (path ++ q) = .file e T →
    bytesAt (path ++ q) (FsTree.itemsL path (graftL sha target path ks)) = T.content := by
  intro q
  induction q with
  | nil => intro path ks _ _ _ c s h; rw [lookupPath_nil] at h; cases h
  | cons n q ih =>
    intro path ks hs hf hn c s h e T ht
    cases hk : kid n ks with
    | none => rw [lookupPath_cons_none hk] at h; cases h
    | some k =>
      have hkn := kid_name hk
      obtain ⟨before, after, hsplit⟩ := List.append_of_mem (kid_mem hk)
      have hall : ∀ k' ∈ ks, kid k'.name ks = some k' := fun k' hk' => kid_of_mem hs hk'
      have other : ∀ k' ∈ ks, k'.name ≠ n → bytesAt (path ++ n :: q) (FsTree.items path (graft sha target path k')) = [] := by
        intro k' hk' hne
        refine bytesAt_nil fun hr => ?_
        obtain ⟨q', c', s', h1, -⟩ := ((reported_entry (sha := sha) path ks hf hn _ k' (hs.mem hk') (hall k' hk')).1).1 hr
        have := List.append_cancel_left h1
        cases this
        exact hne rfl
      have nil : ∀ l : List DTree, (∀ k' ∈ l, k' ∈ ks ∧ k'.name ≠ n) →
          bytesAt (path ++ n :: q) (l.flatMap (fun k => FsTree.items path (graft sha target path k))) = [] := by
        intro l hl
        induction l with
        | nil => rfl
        | cons k' l ihl =>
          rw [List.flatMap_cons, bytesAt_append, other k' (hl k' (by simp)).1 (hl k' (by simp)).2,
            ihl (fun k'' hk'' => hl k'' (by simp [hk'']))]; rfl
      have hdist : ∀ k' ∈ before ++ after, k'.name ≠ n := by
        intro k' hk' he
        have hm : k' ∈ ks := by rw [hsplit]; rcases List.mem_append.1 hk' with h | h <;> simp [h]
        have h1 := hall k' hm
        rw [he, hk] at h1
        cases h1
        -- the same entry twice
        have hp : ks.Pairwise (fun a b => a.name < b.name) := by
          clear ih hf hn ht h hall other nil hsplit hk hm
          induction ks with
          | nil => exact .nil
          | cons a ks ihk => exact List.Pairwise.cons (fun b hb => hs.1 b hb) (ihk hs.2.2)
        rw [hsplit] at hp
        obtain ⟨-, hp2, hp3⟩ := List.pairwise_append.1 hp
        rcases List.mem_append.1 hk' with h | h
        · exact List.lt_irrefl _ (hp3 k h k (by simp))
        · exact List.lt_irrefl _ ((List.pairwise_cons.1 hp2).1 k h)
      rw [grafted_items, hsplit, List.flatMap_append, List.flatMap_cons, bytesAt_append, bytesAt_append,
        nil before (fun k' hk' => ⟨by rw [hsplit]; simp [hk'], hdist k' (by simp [hk'])⟩),
        nil after (fun k' hk' => ⟨by rw [hsplit]; simp [hk'], hdist k' (by simp [hk'])⟩), List.nil_append, List.append_nil]
      cases k with
      | link a c0 s0 =>
        obtain rfl : n = a := hkn.symm
        rw [lookupPath_cons_link hk] at h
        by_cases hq : q = []
        · subst hq
          have hl : lookupPath ([] ++ [n]) ks = some (.link c0 s0) := by
            rw [List.nil_append, lookupPath_cons_link hk, if_pos rfl]
          obtain ⟨c', T', e'⟩ := hf [] n c0 s0 hl
          rw [List.nil_append, ht] at e'
          cases e'
          have hg : graft sha target path (.link n c0 s0) = .file ⟨c', n, {}⟩ T := ht
          have hr := rootPath_ne (hn [] n (by rw [hl]; simp))
          rw [hg, FsTree.items, hr, bytesAt_file, C45_file_bytes]
        · rw [if_neg hq] at h; cases h
      | dir a ks' =>
        obtain rfl : n = a := hkn.symm
        have hr := rootPath_ne (hn [] n (by rw [List.nil_append, lookupPath_cons_dir hk, lookupPath_nil]; simp))
        rw [lookupPath_cons_dir hk] at h
        rw [graft, FsTree.items, hr]
        have := ih (path ++ [n]) ks' (hs.mem (kid_mem hk)) (hf.sub hk) (hn.sub hk) c s h e T (by simpa using ht)
        rw [show ∀ (a : ContinuedWalk) l, a :: l = [a] ++ l from fun _ _ => rfl, bytesAt_append]
        rw [List.append_assoc] at this
        exact this
end

/-- C59. A client adds any files, puts the Cids of their last blocks under any paths which can be walked, builds with wrapping,
and stores all blocks. Then every file can be found from the root directory's block by its path, and read back. And walking
from the root directory's Cid ends, reports files exactly at the paths which were put, with exactly the content which was
added, and directories exactly at the paths above them or set with `set_metadata` (and the root's). -/
theorem C59_end_to_end (sha : Bytes → Bytes) (hsha : ∀ b, (sha b).length = 32) (opts : TreeOptions)
    (hw : opts.wrap_with_directory = true) (ops : List Op) (hops : ∀ op ∈ ops, op.Ok)
    (hpaths : ∀ op ∈ successes (.new opts) ops, Walkable op)
    (hfit : SizesFit sha (runOps (.new opts) ops).2) (nodes : List TreeNode) (it : PostOrderIterator)
    (hbuild : drainAll sha (runOps (.new opts) ops).2.build = some (nodes, .finished, it))
    (get : Cid → Option Bytes) (hget : ∀ x ∈ nodes, get x.cid = some x.block)
    (content : Cid → Bytes) (hadd : ∀ p c s, Op.putLink p c s ∈ successes (.new opts) ops → AddedAs sha get c (content c))
    (root : TreeNode) (hroot : nodes.getLast? = some root) (cache : Option VisitCache)
    (hc : ∀ k, cache = some k → CacheObtainable k) :
    (∀ p c s cs, Op.putLink p c s ∈ successes (.new opts) ops → PathOf p cs →
      resolvePath get root.block cs = some c ∧
      ∃ block cids, get c = some block ∧ readFile get {} block = some (.ok (content c, cids))) ∧
    ∃ items, walkFrom get (Walker.new root.cid []) cache = some (.ok items) ∧
      (∀ p c s cs, Op.putLink p c s ∈ successes (.new opts) ops → PathOf p cs →
        FileReported cs items ∧ bytesAt cs items = content c) ∧
      (∀ cs, FileReported cs items → ∃ p c s, Op.putLink p c s ∈ successes (.new opts) ops ∧ PathOf p cs) ∧
      (∀ cs, DirReported cs items ↔ cs = [] ∨
        ∃ op ∈ successes (.new opts) ops, ∃ ds, PathOf op.path ds ∧ cs <+: ds ∧ (cs ≠ ds ∨ op.thing = .dir)) := by
  refine ⟨?_, ?_⟩
  · intro p c s cs hput hp
    refine ⟨C35_resolve sha hsha opts hw ops hops hfit nodes it hbuild get hget root hroot p c s hput cs hp, ?_⟩
    obtain ⟨T, b, m, h1, h2, h3, h4, h5⟩ := addedAs_tree hsha (hadd p c s hput)
    obtain ⟨cids, h6⟩ := C18_read_wellformed get T b h5
    exact ⟨b, cids, h2, by rw [h6, h1]⟩
  · obtain ⟨all, hall⟩ : ∃ all, contents (runOps (.new opts) ops).2 = all := ⟨_, rfl⟩
    have hist := C31_history opts ops hops
    rw [hall] at hist
    have hb : Obtainable (runOps (.new opts) ops).2 := ⟨opts, ops, hops, rfl⟩
    have hsorted := contents_sorted hb
    rw [hall] at hsorted
    have hlink : ∀ q c s, lookupPath q all = some (.link c s) → ∃ T b m, fileTarget sha get all content hsha q =
        .file ⟨c, q.getLast?.getD [], {}⟩ T ∧ T.content = content c ∧ get c = some b ∧ FlatUnixFs.tryParse b = .ok m ∧
        metaOf m.data = {} ∧ FileAt get T b := by
      intro q c s h
      obtain ⟨p, hp, hpq⟩ := ((hist q).1 c s).1 h
      have ha := hadd p c s hp
      refine ⟨(addedAs_tree hsha ha).choose, ?_⟩
      obtain ⟨b, m, h'⟩ := (addedAs_tree hsha ha).choose_spec
      refine ⟨b, m, ?_, h'⟩
      unfold fileTarget
      rw [h]
      simp only
      rw [dif_pos ha]
    have hne : ∀ q n, lookupPath (q ++ [n]) all ≠ none → n ≠ [] := by
      intro q n h
      rw [← hall] at h
      obtain ⟨op, hop, cs, hcs, hpre⟩ := path_origin opts ops hops _ (by simp) h
      rcases hcs.2.2.2 with h' | h'
      · exact absurd h' (hpaths op hop cs hcs).1
      · exact h' n (hpre.subset (by simp))
    have hfiles : Files (fileTarget sha get all content hsha) [] all := by
      intro q n c s h
      obtain ⟨T, b, m, h1, -⟩ := hlink _ c s h
      refine ⟨c, T, ?_⟩
      rw [List.nil_append, h1]
      simp
    have hwalk := C57_build_then_walk sha hsha opts hw ops hops hpaths hfit nodes it hbuild get hget
      (fileTarget sha get all content hsha) (by
        intro p c s cs hput hp
        obtain ⟨T, b, m, h1, h2, h3, h4, h5, h6⟩ := hlink cs c s (((hist cs).1 c s).2 ⟨p, hput, hp⟩)
        rw [h1]
        refine ⟨rfl, ?_, ⟨b, m, h3, h4, h5.symm, h6⟩, by rw [Unsharded]; trivial⟩
        cases hl : cs.getLast? with
        | none => exact absurd (List.getLast?_eq_none_iff.1 hl) hp.2.1
        | some n => rfl) root hroot cache hc
    rw [hall] at hwalk
    refine ⟨_, hwalk, ?_, ?_, ?_⟩
    all_goals have hrep := fun cs => reported_list (sha := sha) [] all hfiles hne cs all hsorted (fun k hk => kid_of_mem hsorted hk)
    · intro p c s cs hput hp
      have hl := ((hist cs).1 c s).2 ⟨p, hput, hp⟩
      obtain ⟨T, b, m, h1, h2, -⟩ := hlink cs c s hl
      have hbytes := reported_bytes (sha := sha) cs [] all hsorted hfiles hne c s hl _ T h1
      refine ⟨?_, ?_⟩
      · cases cs with
        | nil => exact absurd rfl hp.2.1
        | cons n q =>
          have hn : ∃ k ∈ all, k.name = n := by
            cases hkm : kid n all with
            | none => rw [lookupPath_cons_none hkm] at hl; cases hl
            | some k => exact ⟨k, kid_mem hkm, kid_name hkm⟩
          obtain ⟨_, _, _, _, hm⟩ := (hrep (n :: q)).1.2 ⟨n, q, c, s, hn, rfl, hl⟩
          exact ⟨_, _, _, _, List.mem_cons_of_mem _ hm⟩
      · rw [show ∀ (a : ContinuedWalk) l, a :: l = [a] ++ l from fun _ _ => rfl, bytesAt_append, ← h2, ← hbytes]
        rfl
    · rintro cs ⟨seg, c1, md, size, hm⟩
      rcases List.mem_cons.1 hm with hm | hm
      · cases hm
      · obtain ⟨n, q, c, s, -, h1, h2⟩ := (hrep cs).1.1 ⟨_, _, _, _, hm⟩
        rw [List.nil_append] at h1
        subst h1
        obtain ⟨p, hp, hpq⟩ := ((hist _).1 c s).1 h2
        exact ⟨p, c, s, hp, hpq⟩
    · intro cs
      have hdir : DirReported cs (ContinuedWalk.RootDirectory root.cid ⟨false, []⟩ {} ::
          FsTree.itemsL [] (graftL sha (fileTarget sha get all content hsha) [] all)) ↔ lookupPath cs all = some .dir := by
        constructor
        · rintro ⟨c1, md, hm⟩
          have : cs = [] ∨ DirReported cs (FsTree.itemsL [] (graftL sha (fileTarget sha get all content hsha) [] all)) := by
            rcases hm with hm | hm
            · rcases List.mem_cons.1 hm with hm | hm
              · cases hm
              · exact .inr ⟨c1, md, .inl hm⟩
            · rcases List.mem_cons.1 hm with hm | hm
              · cases hm; exact .inl rfl
              · exact .inr ⟨c1, md, .inr hm⟩
          rcases this with rfl | this
          · exact lookupPath_nil _
          · obtain ⟨n, q, -, h1, h2⟩ := (hrep cs).2.1 this
            rw [List.nil_append] at h1
            rw [h1]; exact h2
        · intro h
          cases cs with
          | nil => exact ⟨_, _, .inr (List.mem_cons_self ..)⟩
          | cons n q =>
            have hn : ∃ k ∈ all, k.name = n := by
              cases hkm : kid n all with
              | none => rw [lookupPath_cons_none hkm] at h; cases h
              | some k => exact ⟨k, kid_mem hkm, kid_name hkm⟩
            obtain ⟨_, _, hm⟩ := (hrep (n :: q)).2.2 ⟨n, q, hn, rfl, h⟩
            exact ⟨_, _, hm.imp (List.mem_cons_of_mem _) (List.mem_cons_of_mem _)⟩
      rw [hdir, (hist cs).2]; exact Iff.rfl

/-! ### a case -/

/-- Three bytes in chunks of two: three blocks, of which the last is the root. -/
def fileBlocks : List (Cid × Bytes) := (treesOf 2 2 [1, 2, 3]).map (FTree.entry toySha)
def fileCid : Cid := ((fileBlocks.getLast?).map (·.1)).getD (cidOf toySha [])
/-- The file is put at `a/b`; `c` is an empty directory. -/
def fileOps : List Op := [.putLink [97, 47, 98] fileCid 100, .setMetadata [99] {}]
def fileBuilder : BufferingTreeBuilder := (runOps (.new wrapping) fileOps).2
/-- All blocks. -/
def fileStore : Cid → Option Bytes := fun c =>
  ((fileBlocks ++ (allNodes toySha true (contents fileBuilder)).map (fun n => (n.cid, n.block))).find? (fun e => e.1 == c)).map (·.2)

/-- The facts about the case: all hypotheses of C57 and C59. -/
structure FileCase (it : PostOrderIterator) (root : TreeNode) : Prop where
  ops : ∀ op ∈ fileOps, op.Ok
  succ : successes (.new wrapping) fileOps = fileOps
  walkable : ∀ op ∈ successes (.new wrapping) fileOps, Walkable op
  fit : SizesFit toySha fileBuilder
  build : drainAll toySha fileBuilder.build = some (allNodes toySha true (contents fileBuilder), .finished, it)
  stored : ∀ x ∈ allNodes toySha true (contents fileBuilder), fileStore x.cid = some x.block
  added : ∀ p c s, Op.putLink p c s ∈ successes (.new wrapping) fileOps → AddedAs toySha fileStore c [1, 2, 3]
  root : (allNodes toySha true (contents fileBuilder)).getLast? = some root

theorem path_ab : PathOf [97, 47, 98] [[97], [98]] := by refine ⟨?_, by decide, by decide⟩ <;> decide
theorem path_c : PathOf [99] [[99]] := by refine ⟨?_, by decide, by decide⟩ <;> decide

theorem fileCase : ∃ it root, FileCase it root := by
  have hops : ∀ op ∈ fileOps, op.Ok := by
    intro op h
    simp only [fileOps, List.mem_cons, List.not_mem_nil, or_false] at h
    rcases h with rfl | rfl
    · exact ⟨by unfold NameOk; decide, by decide +kernel, by decide⟩
    · show NameOk _; unfold NameOk; decide
  have hsucc : successes (.new wrapping) fileOps = fileOps := by
    rw [show fileOps = [.putLink [97, 47, 98] fileCid 100, .setMetadata [99] {}] from rfl]
    simp only [successes]
    rw [if_pos (by decide +kernel), if_pos (by decide +kernel)]; rfl
  have hpaths : ∀ op ∈ successes (.new wrapping) fileOps, Walkable op := by
    rw [hsucc]
    intro op h cs hcs
    simp only [fileOps, List.mem_cons, List.not_mem_nil, or_false] at h
    rcases h with rfl | rfl
    · rw [← pathOf_unique hcs]; decide
    · rw [← pathOf_unique hcs]; decide
  have hfit : SizesFit toySha fileBuilder := by
    have : ∀ x ∈ allNodes toySha true (contents fileBuilder), x.total_size < U64 := by decide +kernel
    exact this
  have hb : Obtainable fileBuilder := ⟨wrapping, fileOps, hops, rfl⟩
  obtain ⟨it, hbuild⟩ : ∃ it, drainAll toySha fileBuilder.build = some (allNodes toySha true (contents fileBuilder), .finished, it) := by
    rcases drain_limit toySha toySha_length _ hb hfit with ⟨-, it, h⟩ | ⟨before, x, rest, it, he, h1, h2, h⟩
    · exact ⟨it, h⟩
    · exfalso
      have : ∀ x ∈ allNodes toySha fileBuilder.opts.wrap_with_directory (contents fileBuilder), x.block.length ≤ 1000 := by decide +kernel
      refine h2 (fun l hl => ?_)
      have h3 : fileBuilder.opts.block_size_limit = some 524288 := by decide +kernel
      rw [h3] at hl
      cases hl
      have := this x (by rw [he]; simp)
      omega
  have hadd : AddedAs toySha fileStore fileCid [1, 2, 3] := by
    refine ⟨2, 2, fileBlocks, _, by decide, by decide, by unfold BelowLimit; decide +kernel, adds_exists toySha_length (by decide) (by decide) _ (by decide), ?_,
      (by rfl : fileBlocks.getLast? = some (fileBlocks.getLast (by decide +kernel))), by decide +kernel⟩
    have : ∀ e ∈ fileBlocks, fileStore e.1 = some e.2 := by decide +kernel
    exact this
  obtain ⟨root, hroot⟩ : ∃ root, (allNodes toySha true (contents fileBuilder)).getLast? = some root := by
    cases h : (allNodes toySha true (contents fileBuilder)).getLast? with
    | none => exact absurd h (by decide +kernel)
    | some r => exact ⟨r, rfl⟩
  refine ⟨it, root, hops, hsucc, hpaths, hfit, hbuild, by decide +kernel, ?_, hroot⟩
  rw [hsucc]
  intro p c s h
  simp only [fileOps, List.mem_cons, List.not_mem_nil, or_false] at h
  rcases h with h | h
  · cases h; exact hadd
  · cases h

/-- All hypotheses of C59 are met: the walk of the sample reports `a/b` with the bytes 1, 2, 3. -/
theorem sample_end_to_end : ∃ root items, walkFrom fileStore (Walker.new root []) none = some (.ok items) ∧
    bytesAt [[97], [98]] items = [1, 2, 3] ∧ DirReported [[97]] items ∧ DirReported [[99]] items ∧ ¬ FileReported [[99]] items := by
  obtain ⟨it, root, k⟩ := fileCase
  obtain ⟨-, items, h1, h2, h3, h4⟩ := C59_end_to_end toySha toySha_length wrapping rfl fileOps k.ops k.walkable k.fit _ it k.build
    fileStore k.stored (fun _ => [1, 2, 3]) k.added root k.root none (by intro k h; cases h)
  rw [k.succ] at h2 h3 h4
  refine ⟨root.cid, items, h1, (h2 _ _ _ _ (List.mem_cons_self ..) path_ab).2, ?_, ?_, ?_⟩
  · exact (h4 _).2 (.inr ⟨_, List.mem_cons_self .., _, path_ab, by decide, .inl (by decide)⟩)
  · exact (h4 _).2 (.inr ⟨_, List.mem_cons_of_mem _ (List.mem_cons_self ..), _, path_c, by decide, .inr rfl⟩)
  · intro h
    obtain ⟨p, c, s, hp, hpq⟩ := h3 _ h
    simp only [fileOps, List.mem_cons, List.not_mem_nil, or_false] at hp
    rcases hp with hp | hp
    · cases hp
      exact absurd (pathOf_unique hpq) (by decide)
    · cases hp

end Verif.Props
