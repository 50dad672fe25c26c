import Verif.Props.IngestRun
import Verif.LinkTotals
/-
C86: what `benches/ingest-tar.rs` makes of an archive.
-/
namespace Verif.Props
open Verif Verif.Spec Verif.Ingest

/-! ### the calls belonging to the entries -/

theorem _root_.Verif.Spec.Stored.path {sha : Bytes → Bytes} {e : TarEntry} {op bs} (h : Stored sha e op bs) : op.path = e.name := by cases h <;> rfl

theorem _root_.Verif.Spec.Stored.isPut {sha : Bytes → Bytes} {e : TarEntry} {op bs} (h : Stored sha e op bs) : op.isPut ↔ e.content ≠ .dir := by
  cases h with
  | file h1 h2 h3 => simp [Op.isPut, h1]
  | symlink h1 => simp [Op.isPut, h1]
  | dir h1 => simp [Op.isPut, h1]

theorem _root_.Verif.Spec.Stored.size {sha : Bytes → Bytes} {e : TarEntry} {op bs} (h : Stored sha e op bs) :
    (((putSize op).toList).map (·.2)).sum = lengths bs := by
  cases h <;> simp [putSize, lengths]

theorem _root_.Verif.Spec.Stored.cids {sha : Bytes → Bytes} {e : TarEntry} {op bs} (h : Stored sha e op bs) : ∀ x ∈ bs, x.1 = cidOf sha x.2 := by
  cases h with
  | file h1 h2 h3 => exact fun x hx => C14_adder_cids sha 262144 174 (by decide) (by decide) _ _ h2 x hx
  | symlink h1 => intro x hx; rw [List.mem_singleton] at hx; rw [hx]
  | dir h1 => intro x hx; cases hx

section
variable {sha : Bytes → Bytes} {es : List TarEntry} {ops : List Op} {bss : Saved}

theorem _root_.Verif.Spec.StoredAll.of_op (h : StoredAll sha es ops bss) : ∀ op ∈ ops, ∃ e ∈ es, ∃ bs, Stored sha e op bs ∧ ∀ x ∈ bs, x ∈ bss := by
  induction h with
  | nil => intro op h; cases h
  | cons h1 _ ih =>
    intro op hop
    rcases List.mem_cons.1 hop with rfl | hop
    · exact ⟨_, by simp, _, h1, fun x hx => by simp [hx]⟩
    · obtain ⟨e, he, bs, h, hb⟩ := ih op hop
      exact ⟨e, by simp [he], bs, h, fun x hx => by simp [hb x hx]⟩

theorem _root_.Verif.Spec.StoredAll.of_entry (h : StoredAll sha es ops bss) : ∀ e ∈ es, ∃ op ∈ ops, ∃ bs, Stored sha e op bs ∧ ∀ x ∈ bs, x ∈ bss := by
  induction h with
  | nil => intro op h; cases h
  | cons h1 _ ih =>
    intro op hop
    rcases List.mem_cons.1 hop with rfl | hop
    · exact ⟨_, by simp, _, h1, fun x hx => by simp [hx]⟩
    · obtain ⟨e, he, bs, h, hb⟩ := ih op hop
      exact ⟨e, by simp [he], bs, h, fun x hx => by simp [hb x hx]⟩

theorem _root_.Verif.Spec.StoredAll.pairwise (h : StoredAll sha es ops bss) : ops.Pairwise Compatible ↔ es.Pairwise CanCoexist := by
  induction h with
  | nil => exact ⟨fun _ => .nil, fun _ => .nil⟩
  | @cons e es op ops bs bss h1 h2 ih =>
    have one : ∀ {e' op' bs'}, Stored sha e' op' bs' → (Compatible op op' ↔ CanCoexist e e') := by
      intro e' op' bs' h'
      unfold Compatible CanCoexist TarEntry.At
      rw [h1.path, h'.path, h1.isPut, h'.isPut]
    rw [List.pairwise_cons, List.pairwise_cons, ih]
    refine and_congr_left fun _ => ⟨fun h e' he' => ?_, fun h op' hop' => ?_⟩
    · obtain ⟨op', hop', bs', h', -⟩ := h2.of_entry e' he'
      exact (one h').1 (h op' hop')
    · obtain ⟨e', he', bs', h', -⟩ := h2.of_op op' hop'
      exact (one h').2 (h e' he')

theorem _root_.Verif.Spec.StoredAll.paths (h : StoredAll sha es ops bss) :
    (∀ op ∈ ops, ∃ cs, PathOf op.path cs) ↔ ∀ e ∈ es, ∃ cs, e.At cs := by
  constructor
  · intro hp e he
    obtain ⟨op, hop, bs, hs, -⟩ := h.of_entry e he
    obtain ⟨cs, hcs⟩ := hp op hop
    rw [hs.path] at hcs
    exact ⟨cs, hcs⟩
  · intro hp op hop
    obtain ⟨e, he, bs, hs, -⟩ := h.of_op op hop
    obtain ⟨cs, hcs⟩ := hp e he
    refine ⟨cs, ?_⟩
    rw [hs.path]
    exact hcs

theorem _root_.Verif.Spec.StoredAll.sum (h : StoredAll sha es ops bss) : ((ops.filterMap putSize).map (·.2)).sum = lengths bss := by
  induction h with
  | nil => rfl
  | @cons e es op ops bs bss h1 h2 ih =>
    rw [lengths_append, ← ih, ← h1.size]
    cases hp : putSize op <;> simp [hp]

theorem _root_.Verif.Spec.StoredAll.cids (h : StoredAll sha es ops bss) : ∀ x ∈ bss, x.1 = cidOf sha x.2 := by
  induction h with
  | nil => intro x hx; cases hx
  | cons h1 _ ih =>
    intro x hx
    rcases List.mem_append.1 hx with hx | hx
    · exact h1.cids x hx
    · exact ih x hx

theorem _root_.Verif.Spec.StoredAll.unique {ops' bss'} (h : StoredAll sha es ops bss) (h' : StoredAll sha es ops' bss') : ops = ops' ∧ bss = bss' := by
  induction h generalizing ops' bss' with
  | nil => cases h'; exact ⟨rfl, rfl⟩
  | cons h1 _ ih =>
    cases h' with
    | cons q1 q2 =>
      obtain ⟨rfl, rfl⟩ := h1.unique q1
      obtain ⟨rfl, rfl⟩ := ih q2
      exact ⟨rfl, rfl⟩

theorem _root_.Verif.Spec.StoredAll.ops_ok (hsha : ∀ b, (sha b).length = 32) (h : StoredAll sha es ops bss) (ht : ∀ e ∈ es, e.Text)
    (hsm : ∀ e ∈ es, e.Small) : ∀ op ∈ ops, op.Ok := by
  intro op hop
  obtain ⟨e, he, bs, hs, -⟩ := h.of_op op hop
  exact hs.ok hsha (ht e he) (hsm e he)
end

theorem storedAll_exists {sha : Bytes → Bytes} (hsha : ∀ b, (sha b).length = 32) : ∀ es : List TarEntry,
    (∀ e ∈ es, e.Text ∧ e.Addable sha) → ∃ ops bss, StoredAll sha es ops bss
  | [], _ => ⟨[], [], .nil⟩
  | e :: es, h => by
    obtain ⟨ops, bss, h2⟩ := storedAll_exists hsha es (fun e' he' => h e' (List.mem_cons_of_mem _ he'))
    rcases entry_cases hsha e with ⟨-, -, op, bs, h1, -⟩ | ⟨h1, -⟩
    · exact ⟨_, _, .cons h1 h2⟩
    · exact absurd (h e (by simp)) h1

/-! ### the whole program -/

/-- The tree of directories of the calls. -/
abbrev treeOf (ops : List Op) : List DTree := contents (runOps (.new ingestOptions) ops).2

/-- All directories of the archive have blocks of at most 512 KiB and total sizes below 2^64. -/
def DirsFit (sha : Bytes → Bytes) (ops : List Op) : Prop :=
  ∀ x ∈ allNodes sha true (treeOf ops), x.total_size < 2 ^ 64 ∧ x.block.length ≤ 524288

/-- A successful run. -/
structure Ingested (sha : Bytes → Bytes) (es : List TarEntry) (ops : List Op) (bss : Saved) : Prop where
  texts : ∀ e ∈ es, e.Text
  addable : ∀ e ∈ es, e.Addable sha
  stored : StoredAll sha es ops bss
  ok : ∀ op ∈ ops, op.Ok
  all : successes (.new ingestOptions) ops = ops
  fit : DirsFit sha ops
  drained : ∃ it, drainAll sha (runOps (.new ingestOptions) ops).2.build = some (allNodes sha true (treeOf ops), .finished, it)

/-- The directories built by a run. -/
abbrev rootOf (sha : Bytes → Bytes) (ops : List Op) : TreeNode := nodeOf sha [] (treeOf ops)

theorem allNodes_last (sha : Bytes → Bytes) (ks : List DTree) : (allNodes sha true ks).getLast? = some (nodeOf sha [] ks) := by
  simp [allNodes]

theorem tar_cases {sha : Bytes → Bytes} (hsha : ∀ b, (sha b).length = 32) (es : List TarEntry) (hsm : ∀ e ∈ es, e.Small) :
    (∃ ops bss, Ingested sha es ops bss ∧ ingestTar sha es = some (.ok
      (((rootOf sha ops).cid, (rootOf sha ops).total_size, (rootOf sha ops).block.length),
        bss ++ nodeBlocks (allNodes sha true (treeOf ops))))) ∨
    ((∃ p, ingestTar sha es = some (.panic p)) ∧ ¬ ∃ ops bss, Ingested sha es ops bss) := by
  rcases entries_cases hsha es (.new ingestOptions) [] with ⟨h1, ops, bss, h2, h3, h4⟩ | ⟨⟨p, h1⟩, h2⟩
  · have hok := h2.ops_ok hsha (fun e he => (h1 e he).1) hsm
    have hopts : (runOps (.new ingestOptions) ops).2.opts = ingestOptions := run_opts _ ops hok
    have hwithin : ∀ x : TreeNode, Within (runOps (.new ingestOptions) ops).2.opts.block_size_limit x ↔ x.block.length ≤ 524288 := by
      intro x
      rw [hopts]
      exact ⟨fun h => h _ rfl, fun h l hl => by cases hl; exact h⟩
    rcases drain_exact hsha (runOps (.new ingestOptions) ops).2 ⟨_, _, hok, rfl⟩ (by rw [hopts]; rfl) with
      ⟨q1, it, q2⟩ | ⟨q1, ns, l, it, q2, q3⟩
    · refine .inl ⟨ops, bss, ⟨fun e he => (h1 e he).1, fun e he => (h1 e he).2, h2, hok, h3,
        fun x hx => ⟨(q1 x hx).1, (hwithin x).1 (q1 x hx).2⟩, it, q2⟩, ?_⟩
      rcases drainIter_eq _ _ _ _ none bss q2 with ⟨-, r2⟩ | ⟨r1, -⟩
      · rw [ingestTar, h4]
        simp only [List.nil_append]
        rw [r2]
        simp only [lastOf, allNodes_last]
        rfl
      · exact absurd rfl r1
    · refine .inr ⟨?_, ?_⟩
      · rcases drainIter_eq _ _ _ _ none bss q2 with ⟨r1, -⟩ | ⟨-, p, r2⟩
        · exact absurd r1 q3
        · refine ⟨p, ?_⟩
          rw [ingestTar, h4]
          simp only [List.nil_append]
          rw [r2]
      · rintro ⟨ops', bss', h⟩
        obtain ⟨rfl, rfl⟩ := h2.unique h.stored
        exact q1 fun x hx => ⟨(h.fit x hx).1, (hwithin x).2 (h.fit x hx).2⟩
  · refine .inr ⟨⟨p, by rw [ingestTar, h1]⟩, ?_⟩
    rintro ⟨ops, bss, h⟩
    exact h2 ⟨fun e he => ⟨h.texts e he, h.addable e he⟩, ops, bss, h.stored, h.all⟩

theorem tar_ok {sha : Bytes → Bytes} (hsha : ∀ b, (sha b).length = 32) {es : List TarEntry} (hsm : ∀ e ∈ es, e.Small) {r}
    (h : ingestTar sha es = some (.ok r)) : ∃ ops bss, Ingested sha es ops bss ∧
      r = (((rootOf sha ops).cid, (rootOf sha ops).total_size, (rootOf sha ops).block.length),
        bss ++ nodeBlocks (allNodes sha true (treeOf ops))) := by
  rcases tar_cases hsha es hsm with ⟨ops, bss, h1, h2⟩ | ⟨⟨p, h1⟩, -⟩
  · rw [h] at h2; cases h2; exact ⟨ops, bss, h1, rfl⟩
  · rw [h] at h1; cases h1

/-- C86. Ingesting ends, successfully or with a panic. -/
theorem C86_ends (sha : Bytes → Bytes) (hsha : ∀ b, (sha b).length = 32) (es : List TarEntry) (hsm : ∀ e ∈ es, e.Small) :
    (∃ r, ingestTar sha es = some (.ok r)) ∨ ∃ p, ingestTar sha es = some (.panic p) := by
  rcases tar_cases hsha es hsm with ⟨ops, bss, h1, h2⟩ | ⟨h, -⟩
  · exact .inl ⟨_, h2⟩
  · exact .inr h

/-- C86. Which archives can be ingested, exactly: paths and link names are UTF-8; every path consists of components; nothing is at or
below a file or symlink; no file has exactly 262144 bytes, and each fits into 64 bits; and the directories fit. -/
theorem C86_exactly (sha : Bytes → Bytes) (hsha : ∀ b, (sha b).length = 32) (es : List TarEntry) (hsm : ∀ e ∈ es, e.Small) :
    (∃ r, ingestTar sha es = some (.ok r)) ↔
      (∀ e ∈ es, e.Text) ∧ (∀ e ∈ es, ∃ cs, e.At cs) ∧ es.Pairwise CanCoexist ∧
      (∀ e ∈ es, ∀ x, e.content = .file x → x.length ≠ 262144 ∧ ∃ T, BalancedTree 262144 174 x T ∧ Fits sha T) ∧
      (∀ ops bss, StoredAll sha es ops bss → ∀ x ∈ allNodes sha true (contents (runOps (.new ingestOptions) ops).2),
        x.total_size < 2 ^ 64 ∧ x.block.length ≤ 524288) := by
  constructor
  · rintro ⟨r, h⟩
    obtain ⟨ops, bss, h1, -⟩ := tar_ok hsha hsm h
    obtain ⟨h2, h3⟩ := (C62_all_successful ingestOptions rfl ops h1.ok).1 h1.all
    refine ⟨h1.texts, h1.stored.paths.1 h2, h1.stored.pairwise.1 h3, h1.addable, fun ops' bss' h' => ?_⟩
    obtain ⟨rfl, rfl⟩ := h1.stored.unique h'
    exact h1.fit
  · rintro ⟨h1, h2, h3, h4, h5⟩
    obtain ⟨ops, bss, hs⟩ := storedAll_exists hsha es (fun e he => ⟨h1 e he, h4 e he⟩)
    have hok := hs.ops_ok hsha h1 hsm
    rcases tar_cases hsha es hsm with ⟨ops, bss, -, h⟩ | ⟨-, h⟩
    · exact ⟨_, h⟩
    · have hfit := h5 ops bss hs
      have hopts : (runOps (.new ingestOptions) ops).2.opts = ingestOptions := run_opts _ ops hok
      refine absurd ⟨ops, bss, h1, h4, hs, hok,
        (C62_all_successful ingestOptions rfl ops hok).2 ⟨hs.paths.2 h2, hs.pairwise.2 h3⟩, hfit, ?_⟩ h
      rcases drain_exact hsha (runOps (.new ingestOptions) ops).2 ⟨_, _, hok, rfl⟩ (by rw [hopts]; rfl) with
        ⟨q1, q2⟩ | ⟨q1, -⟩
      · exact q2
      · refine absurd (fun x hx => ⟨(hfit x hx).1, fun l hl => ?_⟩) q1
        rw [hopts] at hl
        cases hl
        exact (hfit x hx).2

/-- C86. A single file of exactly 262144 bytes, and there is a panic, whatever else is in the archive and whatever the bytes are. -/
theorem C86_one_chunk_file (sha : Bytes → Bytes) (hsha : ∀ b, (sha b).length = 32) (es : List TarEntry) (hsm : ∀ e ∈ es, e.Small)
    (e : TarEntry) (he : e ∈ es) (x : Bytes) (hx : e.content = .file x) (hlen : x.length = 262144) :
    ∃ p, ingestTar sha es = some (.panic p) := by
  rcases C86_ends sha hsha es hsm with h | h
  · exact absurd hlen (((C86_exactly sha hsha es hsm).1 h).2.2.2.1 e he x hx).1
  · exact h

/-- C86. The blocks: those of the entries in the order of the archive, then those of the directories, of which the last is the root
given at the end. The total size given at the end is the length of all blocks together. Each Cid is that of its block. -/
theorem C86_blocks (sha : Bytes → Bytes) (hsha : ∀ b, (sha b).length = 32) (es : List TarEntry) (hsm : ∀ e ∈ es, e.Small)
    (root : Cid) (total size : Nat) (saved : Saved) (h : ingestTar sha es = some (.ok ((root, total, size), saved))) :
    (∃ ops bss dirs, StoredAll sha es ops bss ∧ saved = bss ++ dirs ∧
      ∀ d ∈ dirs, ∃ m, FlatUnixFs.tryParse d.2 = .ok m ∧ m.data = { Ty := .Directory }) ∧
    (∃ block, saved.getLast? = some (root, block) ∧ block.length = size) ∧
    total = (saved.map (·.2.length)).sum ∧
    ∀ b ∈ saved, b.1 = cidOf sha b.2 := by
  obtain ⟨ops, bss, h1, h2⟩ := tar_ok hsha hsm h
  obtain ⟨e1, e2⟩ := Prod.mk.inj h2
  obtain ⟨e1, e3⟩ := Prod.mk.inj e1
  obtain ⟨e3, e4⟩ := Prod.mk.inj e3
  have hb : Obtainable (runOps (.new ingestOptions) ops).2 := ⟨_, _, h1.ok, rfl⟩
  have hopts : (runOps (.new ingestOptions) ops).2.opts = ingestOptions := run_opts _ ops h1.ok
  have hfit : SizesFit sha (runOps (.new ingestOptions) ops).2 := by
    intro x hx
    rw [hopts] at hx
    exact (h1.fit x hx).1
  obtain ⟨it, hd⟩ := h1.drained
  refine ⟨⟨ops, bss, _, h1.stored, e2, ?_⟩, ⟨(rootOf sha ops).block, ?_, e4.symm⟩, ?_, ?_⟩
  · intro d hd'
    obtain ⟨x, hx, rfl⟩ := List.mem_map.1 hd'
    have hx' : x ∈ allNodes sha (runOps (.new ingestOptions) ops).2.opts.wrap_with_directory (treeOf ops) := by rw [hopts]; exact hx
    obtain ⟨cs, -, hn⟩ := (built_iff sha _ hb x).1 hx'
    obtain ⟨m, q1, q2, -⟩ := nodeAt_block sha hsha _ hb hfit cs x hn
    exact ⟨m, q1, q2⟩
  · rw [e2, e1, List.getLast?_append, nodeBlocks, List.getLast?_map, allNodes_last]; rfl
  · show total = lengths saved
    rw [e3, e2, lengths_append, ← h1.stored.sum, ← link_sum ingestOptions rfl ops h1.ok h1.all]
    have : lengths (nodeBlocks (allNodes sha true (treeOf ops))) = blockLengths (allNodes sha true (treeOf ops)) := by
      simp [lengths, nodeBlocks, blockLengths, Function.comp_def]
    rw [this, allNodes, blockLengths_append]
    have ht : (rootOf sha ops).total_size = (dirBlock (DTree.items sha (treeOf ops))).length + totalBelowL sha (treeOf ops) := by
      show dirTotal _ = _
      rw [dirTotal, items_total]
    rw [ht, totalBelowL_links sha []]
    simp [blockLengths, nodeOf, treeOf]
    omega
  · intro b hb'
    rw [e2] at hb'
    rcases List.mem_append.1 hb' with hb' | hb'
    · exact h1.stored.cids b hb'
    · obtain ⟨x, hx, rfl⟩ := List.mem_map.1 hb'
      have hx' : x ∈ allNodes sha (runOps (.new ingestOptions) ops).2.opts.wrap_with_directory (treeOf ops) := by rw [hopts]; exact hx
      obtain ⟨cs, -, es', -, rfl⟩ := (built_iff sha _ hb x).1 hx'
      rfl

end Verif.Props
