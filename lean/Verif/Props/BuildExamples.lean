import Verif.Props.Absent
import Verif.Props.EndToEnd
import Verif.Props.Resolve
import Verif.Props.IpfsPaths
import Verif.Props.Get
/-
The example programs on what was built: C79 (`resolve`), C80 (`get`).
-/
namespace Verif.Props
open Verif Verif.Spec Verif.Examples

/-! ### C79 -/

theorem segments_found {get : Cid → Option Bytes} {d c : Cid} {block n : Bytes} (hd : get d = some block)
    (h : resolve block n none = (.ok (.Found c), none)) (rest : List Bytes) :
    resolveSegments get d none (n :: rest) = resolveSegments get c none rest := by
  rw [resolveSegments, hd]
  simp only [h]

theorem segments_absent {get : Cid → Option Bytes} {d : Cid} {block n : Bytes} (hd : get d = some block)
    (h : resolve block n none = (.ok .NotFound, none)) (rest : List Bytes) :
    resolveSegments get d none (n :: rest) = some (.ok none) := by
  rw [resolveSegments, hd]
  simp only [h]

/-- Resolving from the Cid of a directory of the tree. -/
theorem segments_built {sha : Bytes → Bytes} (hsha : ∀ b, (sha b).length = 32) {b : BufferingTreeBuilder} (hb : Obtainable b)
    (hfit : SizesFit sha b) {get : Cid → Option Bytes}
    (hget : ∀ x ∈ allNodes sha b.opts.wrap_with_directory (contents b), get x.cid = some x.block) :
    ∀ (rest cs : List Bytes) (es : List DTree), BuiltDir b cs → entriesAt cs (contents b) = some es →
      (∀ q tail c s, rest = q ++ tail → lookupPath q es = some (.link c s) →
        resolveSegments get (cidOf sha (dirBlock (DTree.items sha es))) none rest = resolveSegments get c none tail) ∧
      (∀ es', entriesAt rest es = some es' →
        resolveSegments get (cidOf sha (dirBlock (DTree.items sha es))) none rest =
          some (.ok (some (cidOf sha (dirBlock (DTree.items sha es')))))) ∧
      (lookupPath rest es = none → (∀ q, q <+: rest → ¬ isLink (lookupPath q es)) →
        resolveSegments get (cidOf sha (dirBlock (DTree.items sha es))) none rest = some (.ok none)) := by
  intro rest
  induction rest with
  | nil =>
    intro cs es _ he
    refine ⟨fun q tail c s h hl => ?_, fun es' h => ?_, fun h => by simp [lookupPath] at h⟩
    · obtain ⟨rfl, rfl⟩ := List.append_eq_nil_iff.1 h.symm
      rw [lookupPath_nil] at hl; cases hl
    · rw [entriesAt] at h; cases h; rfl
  | cons n rest ih =>
    intro cs es hbd he
    have hs := entriesAt_sorted he (contents_sorted hb)
    have hok := built_items_ok hsha hb hfit he
    have hst : get (cidOf sha (dirBlock (DTree.items sha es))) = some (dirBlock (DTree.items sha es)) :=
      hget (nodeOf sha cs es) ((built_iff sha b hb _).2 ⟨cs, hbd, es, he, rfl⟩)
    cases hk : kid n es with
    | none =>
      refine ⟨?_, ?_, fun _ _ => segments_absent hst (resolve_noentry hok hk none) rest⟩
      · intro q tail c s h hl
        cases q with
        | nil => rw [lookupPath_nil] at hl; cases hl
        | cons x q => cases h; rw [lookupPath_cons_none hk] at hl; cases hl
      · intro es' h
        rw [entriesAt, hk] at h; cases h
    | some k =>
      rw [segments_found hst (resolve_entry hsha hs hok hk none)]
      cases k with
      | link k' c' s' =>
        refine ⟨?_, ?_, fun _ hp => ?_⟩
        · intro q tail c s h hl
          cases q with
          | nil => rw [lookupPath_nil] at hl; cases hl
          | cons x q =>
            cases h
            rw [lookupPath_cons_link hk] at hl
            by_cases hq : q = []
            · rw [if_pos hq] at hl; cases hl; subst hq; rfl
            · rw [if_neg hq] at hl; cases hl
        · intro es' h
          rw [entriesAt, hk] at h; cases h
        · exfalso
          refine hp [n] ⟨rest, rfl⟩ ?_
          rw [lookupPath_cons_link hk, if_pos rfl]; trivial
      | dir k' ks' =>
        have he' : entriesAt (cs ++ [n]) (contents b) = some ks' := by
          rw [entriesAt_append he, entriesAt, hk]; rfl
        obtain ⟨i1, i2, i3⟩ := ih (cs ++ [n]) ks' ⟨entriesAt_some.2 ⟨ks', he'⟩, fun h => by simp at h⟩ he'
        refine ⟨?_, ?_, ?_⟩
        · intro q tail c s h hl
          cases q with
          | nil => rw [lookupPath_nil] at hl; cases hl
          | cons x q => cases h; rw [lookupPath_cons_dir hk] at hl; exact i1 q tail c s rfl hl
        · intro es' h
          rw [entriesAt, hk] at h; exact i2 es' h
        · intro h hp
          rw [lookupPath_cons_dir hk] at h
          refine i3 h fun q hq => ?_
          obtain ⟨t, ht⟩ := hq
          have := hp (n :: q) ⟨t, by rw [List.cons_append, ht]⟩
          rwa [lookupPath_cons_dir hk] at this

/-- C79. After everything was built (with any options), over any store which has the blocks: from the Cid of any directory yielded,
the example `resolve` prints for any names below it what is in the tree: for a directory, the Cid yielded for it; for something which
is not there, that nothing was found; and behind a link it goes on from the Cid which was put. -/
theorem C79_resolve_built (sha : Bytes → Bytes) (hsha : ∀ b, (sha b).length = 32) (b : BufferingTreeBuilder) (hb : Obtainable b)
    (hfit : SizesFit sha b) (nodes : List TreeNode) (it : PostOrderIterator)
    (hbuild : drainAll sha b.build = some (nodes, .finished, it))
    (get : Cid → Option Bytes) (hget : ∀ x ∈ nodes, get x.cid = some x.block) :
    ∃ built, built.map (·.2) = nodes ∧ Listing b built ∧ (∀ cs, BuiltDir b cs → cs ∈ built.map (·.1)) ∧ ∀ p ∈ built, ∀ names,
      (∀ q tail c s, names = q ++ tail → lookupPath (p.1 ++ q) (contents b) = some (.link c s) →
        resolveWalk get ⟨p.2.cid, names⟩ = resolveWalk get ⟨c, tail⟩) ∧
      (∀ y, (p.1 ++ names, y) ∈ built → resolveWalk get ⟨p.2.cid, names⟩ = some (.ok (some y.cid))) ∧
      (lookupPath (p.1 ++ names) (contents b) = none → (∀ q, q <+: names → ¬ isLink (lookupPath (p.1 ++ q) (contents b))) →
        resolveWalk get ⟨p.2.cid, names⟩ = some (.ok none)) := by
  have hn := drained_nodes hsha hb hfit hbuild
  obtain ⟨built, e1, e2, e3, e4⟩ := listing (sha := sha) hb (nodes := nodes) (rest := []) (by rw [hn, List.append_nil])
  refine ⟨built, e1, e2, e4 rfl, fun p hp names => ?_⟩
  obtain ⟨es, he, hx⟩ := e3 p hp
  have hbd : BuiltDir b p.1 := e2.dirs p hp
  obtain ⟨i1, i2, i3⟩ := segments_built hsha hb hfit (by rw [← hn]; exact hget) names p.1 es hbd he
  have hcid : p.2.cid = cidOf sha (dirBlock (DTree.items sha es)) := by rw [hx]; rfl
  rw [hcid]
  refine ⟨?_, ?_, ?_⟩
  · intro q tail c s h hl
    rw [entriesAt_dir he] at hl
    exact i1 q tail c s h hl
  · intro y hy
    obtain ⟨es', he', hx'⟩ := e3 _ hy
    rw [entriesAt_append he] at he'
    rw [show y.cid = cidOf sha (dirBlock (DTree.items sha es')) from by rw [show y = _ from hx']; rfl]
    exact i2 es' he'
  · intro h1 h2
    rw [entriesAt_dir he] at h1
    exact i3 h1 (fun q hq => by have := h2 q hq; rwa [entriesAt_dir he] at this)

theorem pathText_join (root : Bytes) : ∀ cs : List Bytes, cs ≠ [] →
    pathText root (cs.map (fun c => (0, c))) 0 = root ++ slash :: joinSlash cs := by
  have aux : ∀ cs : List Bytes, cs ≠ [] →
      (cs.map (fun c => ((0 : Nat), c))).flatMap (fun x => List.replicate (x.1 + 1) slash ++ x.2) = slash :: joinSlash cs := by
    intro cs
    induction cs with
    | nil => intro h; exact absurd rfl h
    | cons x xs ih =>
      intro _
      cases xs with
      | nil => simp [joinSlash]
      | cons y ys =>
        rw [List.map_cons, List.flatMap_cons, ih (by simp), joinSlash]
        simp
  intro cs h
  show root ++ List.flatMap _ _ ++ _ = _
  rw [show List.replicate 0 slash = [] from rfl, List.append_nil, ← aux cs h]

/-- C79, as a user sees it: after any history with wrapping, when everything was built and stored, the program `resolve` called with
`/ipfs/`, the text of the root's Cid, a slash and a path: if the path is that of a successful `put_link` (and not empty), it prints
the Cid which was put; if there is nothing at the path and no link above it, it finds nothing. -/
theorem C79_text (sha : Bytes → Bytes) (hsha : ∀ b, (sha b).length = 32) (opts : TreeOptions)
    (hw : opts.wrap_with_directory = true) (ops : List Op) (hops : ∀ op ∈ ops, op.Ok)
    (hfit : SizesFit sha (runOps (.new opts) ops).2) (nodes : List TreeNode) (it : PostOrderIterator)
    (hbuild : drainAll sha (runOps (.new opts) ops).2.build = some (nodes, .finished, it))
    (get : Cid → Option Bytes) (hget : ∀ x ∈ nodes, get x.cid = some x.block)
    (root : TreeNode) (hroot : nodes.getLast? = some root)
    (parse : Bytes → Option Cid) (text : Bytes) (htext : slash ∉ text) (hparse : parse text = some root.cid)
    (p : Bytes) (cs : List Bytes) (hp : PathOf p cs) (hne : p ≠ []) :
    (∀ c s, Op.putLink p c s ∈ successes (.new opts) ops →
      ∃ path, IpfsPath.tryFrom parse (ipfsText ++ (text ++ slash :: p)) = .ok path ∧ resolveWalk get path = some (.ok (some c))) ∧
    ((∀ op ∈ successes (.new opts) ops, ∀ ds, PathOf op.path ds → ¬ cs <+: ds ∧ (ds <+: cs → op.thing = .dir)) →
      ∃ path, IpfsPath.tryFrom parse (ipfsText ++ (text ++ slash :: p)) = .ok path ∧ resolveWalk get path = some (.ok none)) := by
  have hb : Obtainable (runOps (.new opts) ops).2 := ⟨opts, ops, hops, rfl⟩
  have hopts := opts_run (opts := opts) hops
  have hn := drained_nodes hsha hb hfit hbuild
  have hpieces : ∀ x ∈ cs.map (fun c => ((0 : Nat), c)), x.2 ≠ [] ∧ slash ∉ x.2 := by
    intro x hx
    obtain ⟨c, hc, rfl⟩ := List.mem_map.1 hx
    refine ⟨?_, hp.2.2.1 c hc⟩
    rcases hp.2.2.2 with h | h
    · exfalso; apply hne; rw [hp.1, h]; rfl
    · exact h c hc
  have hparsed : IpfsPath.tryFrom parse (ipfsText ++ (text ++ slash :: p)) = .ok ⟨root.cid, cs⟩ := by
    have := C78_prefixed parse text htext (cs.map (fun c => (0, c))) 0 hpieces
    rw [pathText_join text cs hp.2.1, hparse] at this
    rw [hp.1, this, List.map_map]
    show Except.ok (⟨root.cid, cs.map id⟩ : IpfsPath) = _
    rw [List.map_id]
  have hr : root = nodeOf sha [] (contents (runOps (.new opts) ops).2) := by
    rw [hopts, hw] at hn
    exact root_node (hn ▸ hroot)
  obtain ⟨i1, -, i3⟩ := segments_built hsha hb hfit (by rw [← hn]; exact hget) cs [] _
    ⟨lookupPath_nil _, fun _ => by rw [hopts, hw]⟩ rfl
  have hist := C31_history opts ops hops
  have hcid : root.cid = cidOf sha (dirBlock (DTree.items sha (contents (runOps (.new opts) ops).2))) := by rw [hr]; rfl
  refine ⟨fun c s hput => ⟨_, hparsed, ?_⟩, fun hno => ⟨_, hparsed, ?_⟩⟩
  · show resolveSegments get root.cid none cs = _
    rw [hcid, i1 cs [] c s (by simp) (((hist cs).1 c s).2 ⟨p, hput, hp⟩)]
    rfl
  · show resolveSegments get root.cid none cs = _
    rw [hcid]
    refine i3 ?_ ?_
    · cases h : lookupPath cs (contents (runOps (.new opts) ops).2) with
      | none => rfl
      | some t =>
        exfalso
        obtain ⟨op, hop, ds, hds, hpre⟩ := path_origin opts ops hops cs hp.2.1 (by rw [h]; simp)
        exact (hno op hop ds hds).1 hpre
    · intro q hq hl
      cases h : lookupPath q (contents (runOps (.new opts) ops).2) with
      | none => rw [h] at hl; exact hl
      | some t =>
        cases t with
        | dir => rw [h] at hl; exact hl
        | link c s =>
          obtain ⟨p', hput, hp'⟩ := ((hist q).1 c s).1 h
          have := (hno _ hput q hp').2 hq
          cases this

/-! ### C80 -/

/-- C80. `get` on what a wrapping builder built, over a store which holds the built blocks and trees for the links: the lines of the
root directory, of all directories of the builder, and of what the links lead to, in the order of the walk. -/
theorem C80_get_built (sha : Bytes → Bytes) (hsha : ∀ b, (sha b).length = 32) (opts : TreeOptions)
    (hw : opts.wrap_with_directory = true) (ops : List Op) (hops : ∀ op ∈ ops, op.Ok)
    (hpaths : ∀ op ∈ successes (.new opts) ops, Walkable op)
    (hfit : SizesFit sha (runOps (.new opts) ops).2) (nodes : List TreeNode) (it : PostOrderIterator)
    (hbuild : drainAll sha (runOps (.new opts) ops).2.build = some (nodes, .finished, it))
    (get : Cid → Option Bytes) (hget : ∀ x ∈ nodes, get x.cid = some x.block)
    (target : List Bytes → FsTree)
    (htarget : ∀ p c s cs, Op.putLink p c s ∈ successes (.new opts) ops → PathOf p cs → LeadsTo get (target cs) cs c)
    (hutf : ∀ x ∈ FsTree.targetsL (graftL sha target [] (contents (runOps (.new opts) ops).2)), validUtf8 x = true)
    (root : TreeNode) (hroot : nodes.getLast? = some root) :
    getWalk get root.cid = some (.d 0o755 0 ⟨false, []⟩ ::
      FsTree.listingL [] (graftL sha target [] (contents (runOps (.new opts) ops).2)), .ok ()) := by
  obtain ⟨hat, hu⟩ := built_at sha hsha opts hw ops hops hpaths hfit nodes it hbuild get hget target htarget root hroot
  have hb := walkItems_bucket (items_unsharded [] _ hu)
  refine C72_get get _ hat trivial rfl ?_ hutf
  rintro ⟨before, d, b, after, he, _, hbb⟩
  have := hb b (by rw [he]; simp)
  rw [this] at hbb
  cases hbb

/-- Every link leads to a file of the right name and content. -/
def FilesOf (content : Cid → Bytes) (target : List Bytes → FsTree) (path : List Bytes) (ks : List DTree) : Prop :=
  ∀ q n c s, lookupPath (q ++ [n]) ks = some (.link c s) →
    ∃ c' T, target (path ++ (q ++ [n])) = .file ⟨c', n, {}⟩ T ∧ T.content = content c

theorem FilesOf.sub {content : Cid → Bytes} {target : List Bytes → FsTree} {path : List Bytes} {ks ks' : List DTree} {n k}
    (h : FilesOf content target path ks) (hk : kid n ks = some (.dir k ks')) : FilesOf content target (path ++ [n]) ks' := by
  intro q m c s hq
  obtain ⟨c', T, e⟩ := h (n :: q) m c s (by rw [List.cons_append, lookupPath_cons_dir hk]; exact hq)
  exact ⟨c', T, by rw [List.append_assoc]; exact e⟩

mutual
theorem listing_entry {sha : Bytes → Bytes} {content : Cid → Bytes} {target : List Bytes → FsTree} (path : List Bytes) (ks : List DTree)
    (hf : FilesOf content target path ks) (hn : NonEmptyNames ks) : ∀ k : DTree, Sorted k → kid k.name ks = some k →
    FsTree.listing path (graft sha target path k) = DTree.lines (fun c => (content c).length) path k
  | .link n c s, _, hk => by
    have hk' : kid n ks = some (.link n c s) := hk
    have hl : lookupPath [n] ks = some (.link c s) := by rw [lookupPath_cons_link hk', if_pos rfl]
    obtain ⟨c', T, e, hT⟩ := hf [] n c s hl
    have e' : graft sha target path (.link n c s) = .file ⟨c', n, {}⟩ T := e
    have hr := rootPath_ne (hn [] n (by rw [List.nil_append, hl]; simp))
    rw [e', FsTree.listing, DTree.lines, hT]
    simp only [hr]
    rfl
  | .dir n ks', hs, hk => by
    have hk' : kid n ks = some (.dir n ks') := hk
    have hr := rootPath_ne (hn [] n (by rw [List.nil_append, lookupPath_cons_dir hk', lookupPath_nil]; simp))
    rw [graft, FsTree.listing, DTree.lines]
    simp only [hr]
    rw [listing_list (path ++ [n]) ks' (hf.sub hk') (hn.sub hk') ks' hs (fun k hk => kid_of_mem hs hk)]
    rfl
theorem listing_list {sha : Bytes → Bytes} {content : Cid → Bytes} {target : List Bytes → FsTree} (path : List Bytes) (ks : List DTree)
    (hf : FilesOf content target path ks) (hn : NonEmptyNames ks) : ∀ some' : List DTree, SortedL some' →
    (∀ k ∈ some', kid k.name ks = some k) →
    FsTree.listingL path (graftL sha target path some') = DTree.linesL (fun c => (content c).length) path some'
  | [], _, _ => rfl
  | k :: rest, hs, hk => by
    rw [graftL, FsTree.listingL, DTree.linesL, listing_entry path ks hf hn k hs.2.1 (hk k (by simp)),
      listing_list path ks hf hn rest hs.2.2 (fun k' hk' => hk k' (by simp [hk']))]
end

mutual
theorem targets_entry {sha : Bytes → Bytes} {content : Cid → Bytes} {target : List Bytes → FsTree} (path : List Bytes) (ks : List DTree)
    (hf : FilesOf content target path ks) : ∀ k : DTree, Sorted k → kid k.name ks = some k →
    FsTree.targets (graft sha target path k) = []
  | .link n c s, _, hk => by
    have hk' : kid n ks = some (.link n c s) := hk
    have hl : lookupPath [n] ks = some (.link c s) := by rw [lookupPath_cons_link hk', if_pos rfl]
    obtain ⟨c', T, e, hT⟩ := hf [] n c s hl
    have e' : graft sha target path (.link n c s) = .file ⟨c', n, {}⟩ T := e
    rw [e']; rfl
  | .dir n ks', hs, hk => by
    have hk' : kid n ks = some (.dir n ks') := hk
    rw [graft, FsTree.targets]
    exact targets_list (path ++ [n]) ks' (hf.sub hk') ks' hs (fun k hk => kid_of_mem hs hk)
theorem targets_list {sha : Bytes → Bytes} {content : Cid → Bytes} {target : List Bytes → FsTree} (path : List Bytes) (ks : List DTree)
    (hf : FilesOf content target path ks) : ∀ some' : List DTree, SortedL some' →
    (∀ k ∈ some', kid k.name ks = some k) → FsTree.targetsL (graftL sha target path some') = []
  | [], _, _ => rfl
  | k :: rest, hs, hk => by
    rw [graftL, FsTree.targetsL, targets_entry path ks hf k hs.2.1 (hk k (by simp)),
      targets_list path ks hf rest hs.2.2 (fun k' hk' => hk k' (by simp [hk']))]; rfl
end

mutual
/-- The lines of an entry, by path. -/
theorem mem_lines (size : Cid → Nat) (path : List Bytes) (ks : List DTree) (l : Line) : ∀ k : DTree, Sorted k → kid k.name ks = some k →
    (l ∈ DTree.lines size path k ↔
      (∃ q c s, lookupPath (k.name :: q) ks = some (.link c s) ∧ l = .f 0o644 0 (size c) ⟨false, path ++ k.name :: q⟩) ∨
      (∃ q, lookupPath (k.name :: q) ks = some .dir ∧ l = .d 0o755 0 ⟨false, path ++ k.name :: q⟩))
  | .link n c s, _, hk => by
    have hk' : kid n ks = some (.link n c s) := hk
    rw [show (DTree.link n c s).name = n from rfl, DTree.lines, List.mem_singleton]
    constructor
    · rintro rfl
      exact .inl ⟨[], c, s, by rw [lookupPath_cons_link hk', if_pos rfl], rfl⟩
    · rintro (⟨q, c1, s1, h, rfl⟩ | ⟨q, h, rfl⟩) <;> rw [lookupPath_cons_link hk'] at h <;> by_cases hq : q = []
      · rw [if_pos hq] at h; cases h; rw [hq]
      · rw [if_neg hq] at h; cases h
      · rw [if_pos hq] at h; cases h
      · rw [if_neg hq] at h; cases h
  | .dir n ks', hs, hk => by
    have hk' : kid n ks = some (.dir n ks') := hk
    have ih := mem_linesL size (path ++ [n]) ks' l ks' hs (fun k hk => kid_of_mem hs hk)
    have hcons : ∀ q : List Bytes, (path ++ [n]) ++ q = path ++ n :: q := fun q => by simp
    have hkid : ∀ {m q t}, lookupPath (m :: q) ks' = some t → ∃ k ∈ ks', k.name = m := by
      intro m q t h
      cases hkm : kid m ks' with
      | none => rw [lookupPath_cons_none hkm] at h; cases h
      | some k => exact ⟨k, kid_mem hkm, kid_name hkm⟩
    rw [show (DTree.dir n ks').name = n from rfl, DTree.lines, List.mem_cons, ih]
    simp only [lookupPath_cons_dir hk']
    constructor
    · rintro (rfl | ⟨m, q, c, s, -, h1, rfl⟩ | ⟨m, q, -, h1, rfl⟩)
      · exact .inr ⟨[], lookupPath_nil _, rfl⟩
      · exact .inl ⟨m :: q, c, s, h1, by rw [hcons]⟩
      · exact .inr ⟨m :: q, h1, by rw [hcons]⟩
    · rintro (⟨q, c, s, h1, rfl⟩ | ⟨q, h1, rfl⟩)
      · cases q with
        | nil => rw [lookupPath_nil] at h1; cases h1
        | cons m q => exact .inr (.inl ⟨m, q, c, s, hkid h1, h1, by rw [hcons]⟩)
      · cases q with
        | nil => exact .inl rfl
        | cons m q => exact .inr (.inr ⟨m, q, hkid h1, h1, by rw [hcons]⟩)
theorem mem_linesL (size : Cid → Nat) (path : List Bytes) (ks : List DTree) (l : Line) : ∀ some' : List DTree, SortedL some' →
    (∀ k ∈ some', kid k.name ks = some k) →
    (l ∈ DTree.linesL size path some' ↔
      (∃ n q c s, (∃ k ∈ some', k.name = n) ∧ lookupPath (n :: q) ks = some (.link c s) ∧ l = .f 0o644 0 (size c) ⟨false, path ++ n :: q⟩) ∨
      (∃ n q, (∃ k ∈ some', k.name = n) ∧ lookupPath (n :: q) ks = some .dir ∧ l = .d 0o755 0 ⟨false, path ++ n :: q⟩))
  | [], _, _ => by
    rw [DTree.linesL]
    constructor
    · intro h; cases h
    · rintro (⟨n, q, c, s, ⟨k, hk, _⟩, _⟩ | ⟨n, q, ⟨k, hk, _⟩, _⟩) <;> cases hk
  | k :: rest, hs, hk => by
    rw [DTree.linesL, List.mem_append, mem_lines size path ks l k hs.2.1 (hk k (by simp)),
      mem_linesL size path ks l rest hs.2.2 (fun k' hk' => hk k' (by simp [hk']))]
    constructor
    · rintro ((⟨q, c, s, h1, h2⟩ | ⟨q, h1, h2⟩) | ⟨n, q, c, s, ⟨k', h0, h0'⟩, h1⟩ | ⟨n, q, ⟨k', h0, h0'⟩, h1⟩)
      · exact .inl ⟨_, q, c, s, ⟨k, by simp, rfl⟩, h1, h2⟩
      · exact .inr ⟨_, q, ⟨k, by simp, rfl⟩, h1, h2⟩
      · exact .inl ⟨n, q, c, s, ⟨k', by simp [h0], h0'⟩, h1⟩
      · exact .inr ⟨n, q, ⟨k', by simp [h0], h0'⟩, h1⟩
    · rintro (⟨n, q, c, s, ⟨k', h0, h0'⟩, h1⟩ | ⟨n, q, ⟨k', h0, h0'⟩, h1⟩) <;> rcases List.mem_cons.1 h0 with rfl | h0
      · subst h0'; exact .inl (.inl ⟨q, c, s, h1⟩)
      · exact .inr (.inl ⟨n, q, c, s, ⟨k', h0, h0'⟩, h1⟩)
      · subst h0'; exact .inl (.inr ⟨q, h1⟩)
      · exact .inr (.inr ⟨n, q, ⟨k', h0, h0'⟩, h1⟩)
end

/-- The path in a line. -/
def _root_.Verif.Examples.Line.path : Line → PathBuf
  | .f _ _ _ p | .d _ _ p | .s _ _ p _ => p

mutual
theorem lines_nodup (size : Cid → Nat) (path : List Bytes) : ∀ k : DTree, Sorted k → ((DTree.lines size path k).map Line.path).Nodup
  | .link n c s, _ => by simp [DTree.lines]
  | .dir n ks, hs => by
    rw [DTree.lines, List.map_cons, List.nodup_cons]
    refine ⟨?_, linesL_nodup size (path ++ [n]) ks hs⟩
    intro h
    obtain ⟨l, hl, he⟩ := List.mem_map.1 h
    have he' : l.path.comps = path ++ [n] := congrArg PathBuf.comps he
    rcases (mem_linesL size (path ++ [n]) ks l ks hs (fun k hk => kid_of_mem hs hk)).1 hl with
        ⟨m, q, c, s, -, -, rfl⟩ | ⟨m, q, -, -, rfl⟩ <;> simp [Line.path] at he'
theorem linesL_nodup (size : Cid → Nat) (path : List Bytes) : ∀ ks : List DTree, SortedL ks →
    ((DTree.linesL size path ks).map Line.path).Nodup
  | [], _ => by simp [DTree.linesL]
  | k :: ks, hs => by
    rw [DTree.linesL, List.map_append, List.nodup_append]
    refine ⟨lines_nodup size path k hs.2.1, linesL_nodup size path ks hs.2.2, ?_⟩
    intro a ha b hb he
    obtain ⟨l, hl, rfl⟩ := List.mem_map.1 ha
    obtain ⟨l', hl', e⟩ := List.mem_map.1 hb
    have key1 : ∃ q, l.path = ⟨false, path ++ k.name :: q⟩ := by
      rcases (mem_lines size path [k] l k hs.2.1 (by simp [kid])).1 hl with ⟨q, c, s, -, rfl⟩ | ⟨q, -, rfl⟩ <;> exact ⟨q, rfl⟩
    have key2 : ∃ k' ∈ ks, ∃ q, l'.path = ⟨false, path ++ k'.name :: q⟩ := by
      rcases (mem_linesL size path ks l' ks hs.2.2 (fun k hk => kid_of_mem hs.2.2 hk)).1 hl' with
        ⟨n, q, c, s, ⟨k', h, rfl⟩, -, rfl⟩ | ⟨n, q, ⟨k', h, rfl⟩, -, rfl⟩ <;> exact ⟨k', h, q, rfl⟩
    obtain ⟨q, h1⟩ := key1
    obtain ⟨k', hk', q', h2⟩ := key2
    rw [← e, h1, h2] at he
    injection he with _ he
    have := List.append_cancel_left he
    injection this with this
    have hlt := hs.1 k' hk'
    rw [this] at hlt
    exact List.lt_irrefl _ hlt
end

/-- C80, with files: a client adds any files, puts the Cids of their last blocks under any paths which can be walked, builds with
wrapping, and stores all blocks. Then `get` of the root directory's Cid ends without an error, and writes exactly one line for every
file which was put, with its path and its length, and one for every directory above them or set with `set_metadata` (and the root). -/
theorem C80_get_added (sha : Bytes → Bytes) (hsha : ∀ b, (sha b).length = 32) (opts : TreeOptions)
    (hw : opts.wrap_with_directory = true) (ops : List Op) (hops : ∀ op ∈ ops, op.Ok)
    (hpaths : ∀ op ∈ successes (.new opts) ops, Walkable op)
    (hfit : SizesFit sha (runOps (.new opts) ops).2) (nodes : List TreeNode) (it : PostOrderIterator)
    (hbuild : drainAll sha (runOps (.new opts) ops).2.build = some (nodes, .finished, it))
    (get : Cid → Option Bytes) (hget : ∀ x ∈ nodes, get x.cid = some x.block)
    (content : Cid → Bytes) (hadd : ∀ p c s, Op.putLink p c s ∈ successes (.new opts) ops → AddedAs sha get c (content c))
    (root : TreeNode) (hroot : nodes.getLast? = some root) :
    ∃ out, getWalk get root.cid = some (out, .ok ()) ∧ (out.map Line.path).Nodup ∧
      ∀ l, l ∈ out ↔
        (∃ p c s cs, Op.putLink p c s ∈ successes (.new opts) ops ∧ PathOf p cs ∧ l = .f 0o644 0 (content c).length ⟨false, cs⟩) ∨
        (∃ cs, l = .d 0o755 0 ⟨false, cs⟩ ∧ (cs = [] ∨
          ∃ op ∈ successes (.new opts) ops, ∃ ds, PathOf op.path ds ∧ cs <+: ds ∧ (cs ≠ ds ∨ op.thing = .dir))) := by
  obtain ⟨all, hall⟩ : ∃ all, contents (runOps (.new opts) ops).2 = all := ⟨_, rfl⟩
  have hist := C31_history opts ops hops
  rw [hall] at hist
  have hb : Obtainable (runOps (.new opts) ops).2 := ⟨opts, ops, hops, rfl⟩
  have hsorted := contents_sorted hb
  rw [hall] at hsorted
  have hlink : ∀ q c s, lookupPath q all = some (.link c s) → ∃ T b m, fileTarget sha get all content hsha q =
      .file ⟨c, q.getLast?.getD [], {}⟩ T ∧ T.content = content c ∧ get c = some b ∧ FlatUnixFs.tryParse b = .ok m ∧
      metaOf m.data = {} ∧ FileAt get T b := by
    intro q c s h
    obtain ⟨p, hp, hpq⟩ := ((hist q).1 c s).1 h
    have ha := hadd p c s hp
    refine ⟨(addedAs_tree hsha ha).choose, ?_⟩
    obtain ⟨b, m, h'⟩ := (addedAs_tree hsha ha).choose_spec
    refine ⟨b, m, ?_, h'⟩
    unfold fileTarget
    rw [h]
    simp only
    rw [dif_pos ha]
  have hne : ∀ q n, lookupPath (q ++ [n]) all ≠ none → n ≠ [] := by
    intro q n h
    rw [← hall] at h
    obtain ⟨op, hop, cs, hcs, hpre⟩ := path_origin opts ops hops _ (by simp) h
    rcases hcs.2.2.2 with h' | h'
    · exact absurd h' (hpaths op hop cs hcs).1
    · exact h' n (hpre.subset (by simp))
  have hfiles : FilesOf content (fileTarget sha get all content hsha) [] all := by
    intro q n c s h
    obtain ⟨T, b, m, h1, h2, -⟩ := hlink _ c s h
    refine ⟨c, T, ?_, h2⟩
    rw [List.nil_append, h1]
    simp
  have hwalk := C80_get_built sha hsha opts hw ops hops hpaths hfit nodes it hbuild get hget
    (fileTarget sha get all content hsha) (by
      intro p c s cs hput hp
      obtain ⟨T, b, m, h1, h2, h3, h4, h5, h6⟩ := hlink cs c s (((hist cs).1 c s).2 ⟨p, hput, hp⟩)
      rw [h1]
      refine ⟨rfl, ?_, ⟨b, m, h3, h4, h5.symm, h6⟩, by rw [Unsharded]; trivial⟩
      cases hl : cs.getLast? with
      | none => exact absurd (List.getLast?_eq_none_iff.1 hl) hp.2.1
      | some n => rfl) (by
      rw [hall, targets_list [] all hfiles all hsorted (fun k hk => kid_of_mem hsorted hk)]
      intro x hx; cases hx) root hroot
  rw [hall, listing_list [] all hfiles hne all hsorted (fun k hk => kid_of_mem hsorted hk)] at hwalk
  have hmem := fun l => mem_linesL (fun c => (content c).length) [] all l all hsorted (fun k hk => kid_of_mem hsorted hk)
  have hkid : ∀ {m q t}, lookupPath (m :: q) all = some t → ∃ k ∈ all, k.name = m := by
    intro m q t h
    cases hkm : kid m all with
    | none => rw [lookupPath_cons_none hkm] at h; cases h
    | some k => exact ⟨k, kid_mem hkm, kid_name hkm⟩
  refine ⟨_, hwalk, ?_, fun l => ?_⟩
  · rw [List.map_cons, List.nodup_cons]
    refine ⟨fun h => ?_, linesL_nodup _ [] all hsorted⟩
    obtain ⟨l, hl, he⟩ := List.mem_map.1 h
    have he' : l.path.comps = [] := congrArg PathBuf.comps he
    rcases (hmem l).1 hl with ⟨m, q, c, s, -, -, rfl⟩ | ⟨m, q, -, -, rfl⟩ <;> simp [Line.path] at he'
  · rw [List.mem_cons, hmem l]
    constructor
    · rintro (rfl | ⟨n, q, c, s, -, h, rfl⟩ | ⟨n, q, -, h, rfl⟩)
      · exact .inr ⟨[], rfl, .inl rfl⟩
      · obtain ⟨p, hp, hpq⟩ := ((hist _).1 c s).1 h
        exact .inl ⟨p, c, s, _, hp, hpq, rfl⟩
      · exact .inr ⟨_, rfl, (hist _).2.1 h⟩
    · rintro (⟨p, c, s, cs, hput, hp, rfl⟩ | ⟨cs, rfl, h⟩)
      · have hl := ((hist cs).1 c s).2 ⟨p, hput, hp⟩
        cases cs with
        | nil => exact absurd rfl hp.2.1
        | cons n q => exact .inr (.inl ⟨n, q, c, s, hkid hl, hl, rfl⟩)
      · have hl := (hist cs).2.2 h
        cases cs with
        | nil => exact .inl rfl
        | cons n q => exact .inr (.inr ⟨n, q, hkid hl, hl, rfl⟩)

/-! ### a case -/

/-- The hypotheses of C79 and C80 are met: the file of three bytes at `a/b` beside the empty directory `c`. `resolve` of
`/ipfs/<root>/a/b` prints the file's Cid and finds nothing at `d`; `get` of the root writes the file's line. -/
theorem sample_examples : ∃ root out, getWalk fileStore root = some (out, .ok ()) ∧
    Line.f 0o644 0 3 ⟨false, [[97], [98]]⟩ ∈ out ∧ Line.d 0o755 0 ⟨false, [[99]]⟩ ∈ out ∧
    (∃ path, IpfsPath.tryFrom (fun t => if t = [82] then some root else none) (ipfsText ++ ([82] ++ slash :: [97, 47, 98])) = .ok path ∧
      resolveWalk fileStore path = some (.ok (some fileCid))) ∧
    (∃ path, IpfsPath.tryFrom (fun t => if t = [82] then some root else none) (ipfsText ++ ([82] ++ slash :: [100])) = .ok path ∧
      resolveWalk fileStore path = some (.ok none)) := by
  obtain ⟨it, root, k⟩ := fileCase
  obtain ⟨out, h1, -, h2⟩ := C80_get_added toySha toySha_length wrapping rfl fileOps k.ops k.walkable k.fit _ it k.build
    fileStore k.stored (fun _ => [1, 2, 3]) k.added root k.root
  have text := C79_text toySha toySha_length wrapping rfl fileOps k.ops k.fit _ it k.build fileStore k.stored root k.root
    (fun t => if t = [82] then some root.cid else none) [82] (by decide) (if_pos rfl)
  rw [k.succ] at h2 text
  refine ⟨root.cid, out, h1, ?_, ?_, ?_, ?_⟩
  · exact (h2 _).2 (.inl ⟨_, _, _, _, List.mem_cons_self .., path_ab, rfl⟩)
  · exact (h2 _).2 (.inr ⟨_, rfl, .inr ⟨_, List.mem_cons_of_mem _ (List.mem_cons_self ..), _, path_c, List.prefix_refl _, .inr rfl⟩⟩)
  · exact (text _ _ path_ab (by decide)).1 _ _ (List.mem_cons_self ..)
  · refine (text [100] [[100]] (by refine ⟨?_, by decide, by decide⟩ <;> decide) (by decide)).2 fun op hop ds hds => ?_
    simp only [fileOps, List.mem_cons, List.not_mem_nil, or_false] at hop
    rcases hop with rfl | rfl
    · rw [← pathOf_unique hds]; exact ⟨by decide, fun h => absurd h (by decide)⟩
    · rw [← pathOf_unique hds]; exact ⟨by decide, fun h => absurd h (by decide)⟩

end Verif.Props
