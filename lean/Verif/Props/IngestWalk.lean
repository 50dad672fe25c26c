import Verif.Props.IngestTar
import Verif.Props.EachPath
import Verif.Props.BlockSizes
/-
C86: what can be read back from the blocks of an ingested archive.
-/
namespace Verif.Props
open Verif Verif.Spec Verif.Ingest

theorem pairwise_mem {α : Type _} {R : α → α → Prop} : ∀ {l : List α}, l.Pairwise R → ∀ {a b}, a ∈ l → b ∈ l → a = b ∨ R a b ∨ R b a
  | _ :: l, h, a, b, ha, hb => by
    rw [List.pairwise_cons] at h
    rcases List.mem_cons.1 ha with e1 | h1
    · rcases List.mem_cons.1 hb with e2 | h2
      · exact .inl (e1.trans e2.symm)
      · subst e1; exact .inr (.inl (h.1 _ h2))
    · rcases List.mem_cons.1 hb with e2 | h2
      · subst e2; exact .inr (.inr (h.1 _ h1))
      · exact pairwise_mem h.2 h1 h2

/-- A file or symlink has its path for itself. -/
theorem same_entry {es : List TarEntry} (hp : es.Pairwise CanCoexist) {a b : TarEntry} (ha : a ∈ es) (hb : b ∈ es) {cs}
    (hacs : a.At cs) (hbcs : b.At cs) (hd : a.content ≠ .dir) : a = b := by
  rcases pairwise_mem hp ha hb with h | h | h
  · exact h
  · exact absurd List.prefix_rfl ((h cs cs hacs hbcs).1 hd)
  · exact absurd List.prefix_rfl ((h cs cs hbcs hacs).2 hd)

/-- What is in the archive under a path. -/
noncomputable def contentIn (es : List TarEntry) (cs : List Bytes) : Content :=
  open Classical in
  if h : ∃ e ∈ es, e.At cs ∧ e.content ≠ .dir then h.choose.content else .dir

theorem contentIn_eq {es : List TarEntry} (hp : es.Pairwise CanCoexist) {e : TarEntry} (he : e ∈ es) {cs} (hcs : e.At cs)
    (hd : e.content ≠ .dir) : contentIn es cs = e.content := by
  have hex : ∃ e ∈ es, e.At cs ∧ e.content ≠ .dir := ⟨e, he, hcs, hd⟩
  have hdef : contentIn es cs = hex.choose.content := by
    unfold contentIn
    rw [dif_pos hex]
  obtain ⟨h1, h2, h3⟩ := hex.choose_spec
  rw [hdef, same_entry hp h1 he h2 hcs h3]

/-- The blocks of an entry are what must be stored for its link. -/
theorem _root_.Verif.Spec.Stored.storedAs {sha : Bytes → Bytes} (hsha : ∀ b, (sha b).length = 32) {e : TarEntry} {p c s bs} (h : Stored sha e (.putLink p c s) bs) (hsm : e.Small)
    {get : Cid → Option Bytes} (hget : Holds get bs) : StoredAs sha get c e.content := by
  cases h with
  | file hx hadd hlast =>
    rw [hx]
    exact ⟨262144, 174, bs, _, by decide, by decide, fun e he => Nat.lt_of_le_of_lt
      (C94_default_sizes sha hsha _ bs (.inr hadd) e he) (by decide), hadd, hget, hlast, rfl⟩
  | symlink ht =>
    rw [ht]
    refine ⟨hget _ (List.mem_singleton.2 rfl), ?_⟩
    apply hsm.2
    cases hl : e.link with
    | some t =>
      rw [content_symlink hl] at ht
      cases ht; rfl
    | none =>
      by_cases hs : e.path.getLast? = some slash
      · rw [content_dir hl hs] at ht; cases ht
      · rw [content_file hl hs] at ht; cases ht

theorem Ingested.pairwise {sha : Bytes → Bytes} {es ops bss} (h : Ingested sha es ops bss) : es.Pairwise CanCoexist :=
  h.stored.pairwise.1 ((C62_all_successful ingestOptions rfl ops h.ok).1 h.all).2

theorem Ingested.sizesFit {sha : Bytes → Bytes} {es ops bss} (h : Ingested sha es ops bss) :
    SizesFit sha (runOps (.new ingestOptions) ops).2 := by
  intro x hx
  rw [run_opts _ ops h.ok] at hx
  exact (h.fit x hx).1

theorem holds_nodes {get : Cid → Option Bytes} {bss : Saved} {ns : List TreeNode} (h : Holds get (bss ++ nodeBlocks ns)) :
    (∀ b ∈ bss, get b.1 = some b.2) ∧ ∀ x ∈ ns, get x.cid = some x.block :=
  ⟨fun b hb => h b (List.mem_append_left _ hb),
    fun x hx => h (x.cid, x.block) (List.mem_append_right _ (List.mem_map.2 ⟨x, hx, rfl⟩))⟩

/-- C86. Walking the ingested archive. All blocks are stored; no path is empty or contains a component `.`. Then walking from
the root ends, and reports: the root directory, once; for each entry its file with its bytes, symlink with its target, or directory, and
nothing else; for each path above an entry one directory; and nothing for any other path. -/
theorem C86_walk (sha : Bytes → Bytes) (hsha : ∀ b, (sha b).length = 32) (es : List TarEntry) (hsm : ∀ e ∈ es, e.Small)
    (root : Cid) (total size : Nat) (saved : Saved) (h : ingestTar sha es = some (.ok ((root, total, size), saved)))
    (hpaths : ∀ e ∈ es, ∀ cs, e.At cs → cs ≠ [[]] ∧ dot ∉ cs)
    (get : Cid → Option Bytes) (hget : Holds get saved) (cache : Option VisitCache) (hc : ∀ k, cache = some k → CacheObtainable k) :
    ∃ items, walkFrom get (Walker.new root []) cache = some (.ok items) ∧
      (∀ i ∈ items, (itemPath i).absolute = false) ∧
      atPath [] items = [.RootDirectory root ⟨false, []⟩ {}] ∧
      (∀ e ∈ es, ∀ cs, e.At cs → ∃ c, ShownAs c cs items e.content) ∧
      (∀ e ∈ es, ∀ ds, e.At ds → ∀ cs, cs ≠ [] → cs <+: ds → cs ≠ ds → ∃ c, ShownAs c cs items .dir) ∧
      (∀ cs, cs ≠ [] → (∀ e ∈ es, ∀ ds, e.At ds → ¬ cs <+: ds) → atPath cs items = []) := by
  obtain ⟨ops, bss, h1, h2⟩ := tar_ok hsha hsm h
  obtain ⟨e1, e2⟩ := Prod.mk.inj h2
  obtain ⟨e1, -⟩ := Prod.mk.inj e1
  subst e1 e2
  obtain ⟨hbss, hnodes⟩ := holds_nodes hget
  obtain ⟨it, hd⟩ := h1.drained
  have hput : ∀ p c s cs, Op.putLink p c s ∈ ops → PathOf p cs → StoredAs sha get c (contentIn es cs) := by
    intro p c s cs hp hcs
    obtain ⟨e, he, bs, hs, hbs⟩ := h1.stored.of_op _ hp
    have hat : e.At cs := by
      have := hs.path
      rw [TarEntry.At, ← this]; exact hcs
    rw [contentIn_eq h1.pairwise he hat (hs.isPut.1 trivial)]
    exact hs.storedAs hsha (hsm e he) (fun b hb => hbss b (hbs b hb))
  obtain ⟨items, q1, q2, q3, q4, q5, q6⟩ := C59_each_path sha hsha ingestOptions rfl ops h1.ok (by
      rw [h1.all]
      intro op hop cs hcs
      obtain ⟨e, he, bs, hs, -⟩ := h1.stored.of_op _ hop
      refine hpaths e he cs ?_
      rw [TarEntry.At, ← hs.path]; exact hcs) h1.sizesFit _ it hd get hnodes (contentIn es)
    (by rw [h1.all]; exact hput) (rootOf sha ops) (allNodes_last sha _) cache hc
  rw [h1.all] at q4 q5 q6
  refine ⟨items, q1, q2, q3, ?_, ?_, ?_⟩
  · intro e he cs hcs
    obtain ⟨op, hop, bs, hs, -⟩ := h1.stored.of_entry e he
    have hp : PathOf op.path cs := by rw [hs.path]; exact hcs
    by_cases hdir : e.content = .dir
    · rw [hdir]
      refine q5 op hop cs hp cs hp.2.1 List.prefix_rfl (.inr ?_)
      cases hs with
      | file hx => rw [hdir] at hx; cases hx
      | symlink hx => rw [hdir] at hx; cases hx
      | dir => rfl
    · rw [← contentIn_eq h1.pairwise he hcs hdir]
      cases op with
      | putLink p c s => exact ⟨c, q4 p c s cs hop hp⟩
      | setMetadata p m => exact absurd (hs.isPut.2 hdir) id
  · intro e he ds hds cs hcs hpre hne
    obtain ⟨op, hop, bs, hs, -⟩ := h1.stored.of_entry e he
    exact q5 op hop ds (by rw [hs.path]; exact hds) cs hcs hpre (.inl hne)
  · intro cs hcs hno
    refine q6 cs hcs fun op hop ds hds => ?_
    obtain ⟨e, he, bs, hs, -⟩ := h1.stored.of_op _ hop
    exact hno e he ds (by rw [TarEntry.At, ← hs.path]; exact hds)

/-- C86. Each file and symlink of the archive can be found by its path from the root; reading the file gives its bytes. For all paths,
also those which cannot be walked. -/
theorem C86_resolve (sha : Bytes → Bytes) (hsha : ∀ b, (sha b).length = 32) (es : List TarEntry) (hsm : ∀ e ∈ es, e.Small)
    (root : Cid) (total size : Nat) (saved : Saved) (h : ingestTar sha es = some (.ok ((root, total, size), saved)))
    (get : Cid → Option Bytes) (hget : Holds get saved) (e : TarEntry) (he : e ∈ es) (cs : List Bytes) (hcs : e.At cs) :
    (∀ x, e.content = .file x → ∃ rb c b cids, get root = some rb ∧ resolvePath get rb cs = some c ∧ get c = some b ∧
      readFile get {} b = some (.ok (x, cids))) ∧
    (∀ t, e.content = .symlink t → ∃ rb c, get root = some rb ∧ resolvePath get rb cs = some c ∧ get c = some (symlinkBlock t)) := by
  obtain ⟨ops, bss, h1, h2⟩ := tar_ok hsha hsm h
  obtain ⟨e1, e2⟩ := Prod.mk.inj h2
  obtain ⟨e1, -⟩ := Prod.mk.inj e1
  subst e1 e2
  obtain ⟨hbss, hnodes⟩ := holds_nodes hget
  obtain ⟨it, hd⟩ := h1.drained
  have hroot := hnodes (rootOf sha ops) (List.mem_of_getLast? (allNodes_last sha _))
  have key : e.content ≠ .dir → ∃ c, resolvePath get (rootOf sha ops).block cs = some c ∧ StoredAs sha get c e.content := by
    intro hdir
    obtain ⟨op, hop, bs, hs, hbs⟩ := h1.stored.of_entry e he
    have hp : PathOf op.path cs := by rw [hs.path]; exact hcs
    cases op with
    | putLink p c s =>
      exact ⟨c, C35_resolve sha hsha ingestOptions rfl ops h1.ok h1.sizesFit _ it hd get hnodes _ (allNodes_last sha _) p c s
        (by rw [h1.all]; exact hop) cs hp, hs.storedAs hsha (hsm e he) (fun b hb => hbss b (hbs b hb))⟩
    | setMetadata p m => exact absurd (hs.isPut.2 hdir) id
  constructor
  · intro x hx
    obtain ⟨c, q1, q2⟩ := key (by rw [hx]; nofun)
    rw [hx] at q2
    obtain ⟨T, b, m, r1, r2, r3, r4, r5⟩ := addedAs_tree hsha q2
    obtain ⟨cids, r6⟩ := C18_read_wellformed get T b r5
    rw [r1] at r6
    exact ⟨_, c, b, cids, hroot, q1, r2, r6⟩
  · intro t ht
    obtain ⟨c, q1, q2⟩ := key (by rw [ht]; nofun)
    rw [ht] at q2
    exact ⟨_, c, hroot, q1, q2.1⟩

end Verif.Props
