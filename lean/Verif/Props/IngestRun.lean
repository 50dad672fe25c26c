import Verif.Props.Ingest
import Verif.Props.Codec
/-
How `ingest_tar` runs: the entries one after the other, then the directories.
-/
namespace Verif.Props
open Verif Verif.Spec Verif.Ingest

/-! ### one entry -/

/-- The content of the entry can be added: a file whose tree fits into 64 bits, and which is not exactly one chunk long. -/
def _root_.Verif.Ingest.TarEntry.Addable (sha : Bytes → Bytes) (e : TarEntry) : Prop :=
  ∀ x, e.content = .file x → x.length ≠ 262144 ∧ ∃ T, BalancedTree 262144 174 x T ∧ Fits sha T

theorem default_tree (x : Bytes) : ∃ T, BalancedTree 262144 174 x T := by
  obtain ⟨T, h, -⟩ := treesOf_layered (show 0 < 262144 by decide) (show 2 ≤ 174 by decide) x
  exact ⟨T, h⟩

theorem utf8_dropLast {p : Bytes} (h : validUtf8 p = true) (hl : p.getLast? = some slash) : validUtf8 p.dropLast = true := by
  obtain ⟨q, rfl⟩ := List.getLast?_eq_some_iff.1 hl
  have := validUtf8_split slash (by decide) q []
  rw [List.dropLast_concat]
  rw [this] at h
  simp only [Bool.and_eq_true] at h
  exact h.1

theorem content_symlink {e : TarEntry} {t} (h : e.link = some t) : e.content = .symlink t := by
  simp [TarEntry.content, h]

theorem content_dir {e : TarEntry} (h : e.link = none) (hs : e.path.getLast? = some slash) : e.content = .dir := by
  simp [TarEntry.content, h, hs]

theorem content_file {e : TarEntry} (h : e.link = none) (hs : e.path.getLast? ≠ some slash) : e.content = .file (bytesRead e.reads) := by
  simp [TarEntry.content, h, hs]

theorem symlinkBlock_length_le (t : Bytes) : (symlinkBlock t).length ≤ t.length + 40 := by
  have h2 := encVarint_le t.length
  have h3 : (encVarint DataType.Symlink.toNat).length = 1 := rfl
  unfold symlinkBlock
  have h1 := encVarint_le ({ Ty := .Symlink, Data := some t } : UnixFs).getSize
  simp only [FlatUnixFs.write, List.flatMap_nil, List.nil_append, wMessage, UnixFs.write, wOpt, wBytes,
    List.length_append, tag_len (show 8 < 128 by decide), tag_len (show 18 < 128 by decide),
    tag_len (show 10 < 128 by decide), tag_len (show 24 < 128 by decide), List.length_nil, Nat.add_zero] at *
  omega

theorem _root_.Verif.Spec.Stored.ok {sha : Bytes → Bytes} (hsha : ∀ b, (sha b).length = 32) {e : TarEntry} {op bs} (h : Stored sha e op bs) (ht : e.Text)
    (hsm : e.Small) : op.Ok := by
  have hname : NameOk e.name := by
    unfold TarEntry.name
    split
    · rename_i hd
      have hl : e.path.getLast? = some slash := by
        unfold TarEntry.content at hd
        split at hd
        · cases hd
        · split at hd
          · assumption
          · cases hd
      refine ⟨?_, utf8_dropLast ht.1 hl⟩
      have := hsm.1
      rw [List.length_dropLast]; omega
    · exact ⟨hsm.1, ht.1⟩
  cases h with
  | file h1 h2 h3 =>
    refine ⟨hname, ?_, adds_lengths h2⟩
    have := C14_adder_cids sha 262144 174 (by decide) (by decide) _ _ h2 _ (List.mem_of_getLast? h3)
    rw [this]; exact cidOf_fits hsha _
  | @symlink t h1 =>
    refine ⟨hname, cidOf_fits hsha _, ?_⟩
    have hlen : t.length < 2 ^ 31 := by
      unfold TarEntry.content at h1
      split at h1
      · rename_i h; cases h1; exact hsm.2 _ h
      · split at h1 <;> cases h1
    have := symlinkBlock_length_le t
    show _ < 2 ^ 64
    omega
  | dir h1 => exact hname

/-- The same entry has only one way to be stored. -/
theorem _root_.Verif.Spec.Stored.unique {sha : Bytes → Bytes} {e : TarEntry} {op op' bs bs'} (h : Stored sha e op bs) (h' : Stored sha e op' bs') :
    op = op' ∧ bs = bs' := by
  cases h with
  | file h1 h2 h3 =>
    cases h' with
    | file q1 q2 q3 =>
      rw [h1] at q1; cases q1
      have := C11_segmentation sha 262144 174 (by decide) (by decide) _ _ _ h2 q2
      subst this
      rw [h3] at q3; cases q3
      exact ⟨rfl, rfl⟩
    | symlink q1 => rw [h1] at q1; cases q1
    | dir q1 => rw [h1] at q1; cases q1
  | symlink h1 =>
    cases h' with
    | file q1 q2 q3 => rw [h1] at q1; cases q1
    | symlink q1 => rw [h1] at q1; cases q1; exact ⟨rfl, rfl⟩
    | dir q1 => rw [h1] at q1; cases q1
  | dir h1 =>
    cases h' with
    | file q1 q2 q3 => rw [h1] at q1; cases q1
    | symlink q1 => rw [h1] at q1; cases q1
    | dir q1 => exact ⟨rfl, rfl⟩

/-- One entry: its call of the builder, whose error is a panic; or a panic before that. -/
theorem entry_cases {sha : Bytes → Bytes} (hsha : ∀ b, (sha b).length = 32) (e : TarEntry) :
    (e.Text ∧ e.Addable sha ∧ ∃ op bs, Stored sha e op bs ∧ ∀ b, ingestEntry sha b e = unwrapCall (op.run b) bs) ∨
    (¬ (e.Text ∧ e.Addable sha) ∧ ∃ p, ∀ b, ingestEntry sha b e = some (.panic p)) := by
  by_cases hp : validUtf8 e.path = false
  · refine .inr ⟨fun h => ?_, .ingestUtf8, fun b => ?_⟩
    · rw [h.1.1] at hp; cases hp
    · unfold ingestEntry; rw [if_pos hp]
  have hp' : validUtf8 e.path = true := by simpa using hp
  cases hl : e.link with
  | some t =>
    have hc := content_symlink hl
    by_cases ht : validUtf8 t = false
    · refine .inr ⟨fun h => ?_, .ingestUtf8, fun b => ?_⟩
      · rw [h.1.2 t hl] at ht; cases ht
      · unfold ingestEntry; rw [if_neg hp, hl]; simp only; rw [if_pos ht]
    · refine .inl ⟨⟨hp', fun t' h => ?_⟩, fun x h => ?_, _, _, .symlink hc, fun b => ?_⟩
      · rw [hl] at h; cases h; simpa using ht
      · rw [hc] at h; cases h
      · have hn : e.name = e.path := by simp [TarEntry.name, hc]
        unfold ingestEntry; rw [if_neg hp, hl]; simp only; rw [if_neg ht, hn]; rfl
  | none =>
    by_cases hs : e.path.getLast? = some slash
    · have hc := content_dir hl hs
      refine .inl ⟨⟨hp', fun t' h => ?_⟩, fun x h => ?_, _, _, .dir hc, fun b => ?_⟩
      · rw [hl] at h; cases h
      · rw [hc] at h; cases h
      · have hn : e.name = e.path.dropLast := by simp [TarEntry.name, hc]
        unfold ingestEntry; rw [if_neg hp, hl]; simp only; rw [if_neg (by simp [endsWithSlash, hs]), hn]; rfl
    · have hc := content_file hl hs
      have hn : e.name = e.path := by simp [TarEntry.name, hc]
      obtain ⟨T, hT⟩ := default_tree (bytesRead e.reads)
      obtain ⟨h1, h2, h3⟩ := readAll_start hsha e.reads T hT
      have hi : ∀ b p, readAll sha FileAdder.default 0 [] e.reads = some (.panic p) → ingestEntry sha b e = some (.panic p) := by
        intro b p h
        unfold ingestEntry; rw [if_neg hp, hl]; simp only; rw [if_pos (by simp [endsWithSlash, hs]), h]
      have hi' : ∀ b c n saved, readAll sha FileAdder.default 0 [] e.reads = some (.ok (c, n, saved)) →
          ingestEntry sha b e = unwrapCall (b.putLink e.path c n) saved := by
        intro b c n saved h
        unfold ingestEntry; rw [if_neg hp, hl]; simp only; rw [if_pos (by simp [endsWithSlash, hs]), h]
      by_cases hf : Fits sha T
      · by_cases hx : (bytesRead e.reads).length = 262144
        · refine .inr ⟨fun h => (h.2 _ hc).1 hx, .ingestNoBlocks, fun b => ?_⟩
          exact hi b _ (h2 hf hx)
        · obtain ⟨blocks, root, q1, q2, q3⟩ := h1 hf hx
          refine .inl ⟨⟨hp', fun t' h => ?_⟩, fun x h => ?_, _, _, .file hc q1 q2, fun b => ?_⟩
          · rw [hl] at h; cases h
          · rw [hc] at h; cases h; exact ⟨hx, T, hT, hf⟩
          · rw [hi' b _ _ _ q3, hn]; rfl
      · have hna : ¬ (e.Text ∧ e.Addable sha) := by
          rintro ⟨-, h⟩
          obtain ⟨-, T', hT', hf'⟩ := h _ hc
          obtain rfl := layered_unique hT hT'
          exact hf hf'
        rcases h3 hf with h | h
        · exact .inr ⟨hna, .adderOverflow, fun b => hi b _ h⟩
        · exact .inr ⟨hna, .ingestOverflow, fun b => hi b _ h⟩

/-! ### all entries -/

theorem unwrap_cases (r : Res TreeBuildingFailed Unit × BufferingTreeBuilder) (bs : Saved) :
    (r.1 = .ok () ∧ unwrapCall r bs = some (.ok (r.2, bs))) ∨ (r.1 ≠ .ok () ∧ ∃ p, unwrapCall r bs = some (.panic p)) := by
  obtain ⟨r, b⟩ := r
  cases r with
  | ok u => exact .inl ⟨rfl, rfl⟩
  | err e => exact .inr ⟨nofun, _, rfl⟩
  | panic p => exact .inr ⟨nofun, _, rfl⟩

/-- All entries: the calls belonging to them are all successful, and then nothing panics; or there is a panic. -/
theorem entries_cases {sha : Bytes → Bytes} (hsha : ∀ b, (sha b).length = 32) : ∀ (es : List TarEntry) (b : BufferingTreeBuilder) (saved : Saved),
    ((∀ e ∈ es, e.Text ∧ e.Addable sha) ∧ ∃ ops bss, StoredAll sha es ops bss ∧ successes b ops = ops ∧
      ingestEntries sha b saved es = some (.ok ((runOps b ops).2, saved ++ bss))) ∨
    ((∃ p, ingestEntries sha b saved es = some (.panic p)) ∧
      ¬ ((∀ e ∈ es, e.Text ∧ e.Addable sha) ∧ ∃ ops bss, StoredAll sha es ops bss ∧ successes b ops = ops)) := by
  intro es
  induction es with
  | nil =>
    intro b saved
    exact .inl ⟨nofun, [], [], .nil, rfl, by rw [List.append_nil]; rfl⟩
  | cons e es ih =>
    intro b saved
    rcases entry_cases hsha e with ⟨h1, h2, op, bs, h3, h4⟩ | ⟨h1, p, h2⟩
    · rcases unwrap_cases (op.run b) bs with ⟨u1, u2⟩ | ⟨u1, p, u2⟩
      · rcases ih (op.run b).2 (saved ++ bs) with ⟨q1, ops, bss, q2, q3, q4⟩ | ⟨⟨p, q1⟩, q2⟩
        · refine .inl ⟨?_, op :: ops, bs ++ bss, .cons h3 q2, ?_, ?_⟩
          · intro e' he'
            rcases List.mem_cons.1 he' with rfl | he'
            · exact ⟨h1, h2⟩
            · exact q1 e' he'
          · rw [successes, if_pos u1, q3]; rfl
          · rw [ingestEntries, h4, u2]
            simp only
            rw [q4, List.append_assoc]
            rfl
        · refine .inr ⟨⟨p, ?_⟩, ?_⟩
          · rw [ingestEntries, h4, u2]; exact q1
          · rintro ⟨k1, ops, bss, k2, k3⟩
            cases k2 with
            | @cons _ _ op' ops' bs' bss' s1 s2 =>
              obtain ⟨rfl, rfl⟩ := Stored.unique h3 s1
              rw [successes, if_pos u1] at k3
              refine q2 ⟨fun e' he' => k1 e' (List.mem_cons_of_mem _ he'), _, _, s2, ?_⟩
              simpa using k3
      · refine .inr ⟨⟨p, by rw [ingestEntries, h4, u2]⟩, ?_⟩
        rintro ⟨k1, ops, bss, k2, k3⟩
        cases k2 with
        | @cons _ _ op' ops' bs' bss' s1 s2 =>
          obtain ⟨rfl, rfl⟩ := Stored.unique h3 s1
          rw [successes, if_neg u1] at k3
          have := successes_length (op.run b).2 ops'
          have h := congrArg List.length k3
          simp only [List.nil_append, List.length_cons] at h
          omega
    · refine .inr ⟨⟨p, by rw [ingestEntries, h2]⟩, ?_⟩
      rintro ⟨k1, -⟩
      exact h1 (k1 e (by simp))

/-! ### the directories -/

/-- The blocks of nodes. -/
def nodeBlocks (ns : List TreeNode) : Saved := ns.map (fun n => (n.cid, n.block))

/-- What is remembered of the last node. -/
def lastOf (last : Option (Cid × Nat × Nat)) (ns : List TreeNode) : Option (Cid × Nat × Nat) :=
  (ns.getLast?.map (fun n => (n.cid, n.total_size, n.block.length))).or last

theorem drainIter_eq {sha : Bytes → Bytes} : ∀ (ns : List TreeNode) (it : PostOrderIterator) (l : IterNext) (it' : PostOrderIterator)
    (last : Option (Cid × Nat × Nat)) (saved : Saved), drainAll sha it = some (ns, l, it') →
    (l = .finished ∧ drainIter sha it last saved = some (.ok (lastOf last ns, saved ++ nodeBlocks ns))) ∨
    (l ≠ .finished ∧ ∃ p, drainIter sha it last saved = some (.panic p)) := by
  intro ns
  induction ns with
  | nil =>
    intro it l it' last saved h
    rw [drainAll.eq_1] at h
    rw [drainIter.eq_1]
    cases hn : PostOrderIterator.next sha it with
    | none => rw [hn] at h; cases h
    | some r =>
      obtain ⟨a, it1⟩ := r
      rw [hn] at h
      cases a with
      | item n =>
        simp only at h
        cases hd : drainAll sha it1 with
        | none => rw [hd] at h; cases h
        | some r => rw [hd] at h; cases h
      | failed e => cases h; exact .inr ⟨nofun, _, rfl⟩
      | finished => cases h; exact .inl ⟨rfl, by simp [lastOf, nodeBlocks]⟩
      | panic p => cases h; exact .inr ⟨nofun, _, rfl⟩
  | cons n ns ih =>
    intro it l it' last saved h
    rw [drainAll.eq_1] at h
    rw [drainIter.eq_1]
    cases hn : PostOrderIterator.next sha it with
    | none => rw [hn] at h; cases h
    | some r =>
      obtain ⟨a, it1⟩ := r
      rw [hn] at h
      cases a with
      | item m =>
        simp only at h ⊢
        cases hd : drainAll sha it1 with
        | none => rw [hd] at h; cases h
        | some r =>
          rw [hd] at h
          cases h
          rcases ih it1 _ _ (some (n.cid, n.total_size, n.block.length)) (saved ++ [(n.cid, n.block)]) hd with ⟨h1, h2⟩ | h
          · refine .inl ⟨h1, ?_⟩
            rw [h2]
            have : lastOf (some (n.cid, n.total_size, n.block.length)) r.1 = lastOf last (n :: r.1) := by
              unfold lastOf
              rw [List.getLast?_cons]
              cases r.1.getLast? <;> rfl
            rw [this]
            simp [nodeBlocks]
          · exact .inr h
      | failed e => cases h
      | finished => cases h
      | panic p => cases h

theorem drain_runsA {sha : Bytes → Bytes} {it out it'} (h : RunsA sha it out it') {r} (hr : drainAll sha it' = some r) :
    (∃ ns, out = ns.map .item ∧ drainAll sha it = some (ns ++ r.1, r.2)) ∨
    ∃ ns e it2, drainAll sha it = some (ns, .failed e, it2) := by
  induction h with
  | refl => exact .inl ⟨[], rfl, hr⟩
  | cont hs _ ih => rw [drain_cont _ hs]; exact ih hr
  | @item it it1 it2 n out hs _ ih =>
    rw [drain_item _ hs]
    rcases ih hr with ⟨ns, h1, h2⟩ | ⟨ns, e, it2, h2⟩
    · exact .inl ⟨n :: ns, by rw [h1]; rfl, by rw [h2]; rfl⟩
    · exact .inr ⟨n :: ns, e, it2, by rw [h2]; rfl⟩
  | failed hs _ ih => exact .inr ⟨[], _, _, drain_failed _ hs⟩

/-- The iterator ends normally exactly when every directory's block is within the limit and its size fits. -/
theorem drain_exact {sha : Bytes → Bytes} (hsha : ∀ b, (sha b).length = 32) (b : BufferingTreeBuilder) (hb : Obtainable b)
    (hw : b.opts.wrap_with_directory = true) :
    ((∀ x ∈ allNodes sha true (contents b), x.total_size < U64 ∧ Within b.opts.block_size_limit x) ∧
      ∃ it, drainAll sha b.build = some (allNodes sha true (contents b), .finished, it)) ∨
    (¬ (∀ x ∈ allNodes sha true (contents b), x.total_size < U64 ∧ Within b.opts.block_size_limit x) ∧
      ∃ ns l it, drainAll sha b.build = some (ns, l, it) ∧ l ≠ .finished) := by
  by_cases hall : ∀ x ∈ allNodes sha true (contents b), x.total_size < U64 ∧ Within b.opts.block_size_limit x
  · obtain ⟨it, h, -⟩ := build_all sha hsha b hb (fun x hx => (hall x (by rwa [hw] at hx)).1)
      (fun x hx => (hall x (by rwa [hw] at hx)).2)
    rw [hw] at h
    exact .inl ⟨hall, it, h⟩
  · refine .inr ⟨hall, ?_⟩
    obtain ⟨f, h⟩ := all_root sha hsha b.root_builder b.opts (contents_ids hb) (contents_ok hb)
    rcases h with ⟨-, before, p, it', h1, h2, h3⟩ | ⟨-, it', h1, it2, h2, h3⟩
    · rcases drain_runsA h2 (drain_panic _ h3) with ⟨ns, -, h⟩ | ⟨ns, e, it2, h⟩
      · exact ⟨_, _, _, h, by intro h; cases h⟩
      · exact ⟨_, _, _, h, by intro h; cases h⟩
    · rcases drain_runsA h1 (drain_done _ h2) with ⟨ns, h, -⟩ | ⟨ns, e, it2, h⟩
      · exfalso
        apply hall
        have hno : ∀ a ∈ allAnswers sha b.opts (contents b), ∃ n, a = .item n := by
          intro a ha
          rw [contents, h] at ha
          obtain ⟨n, -, rfl⟩ := List.mem_map.1 ha
          exact ⟨n, rfl⟩
        unfold allAnswers at hno
        rw [if_pos hw] at hno
        have hnp : fateL sha b.opts.block_size_limit (contents b) ≠ .panicked := by
          rw [← answersL_panic []]
          intro p hp
          obtain ⟨n, hn⟩ := hno _ (List.mem_append_left _ hp)
          cases hn
        have hroot : ∀ a ∈ dirAnswer sha b.opts.block_size_limit [] (contents b) (fateL sha b.opts.block_size_limit (contents b)),
            ∃ n, a = .item n := fun a ha => hno a (List.mem_append_right _ ha)
        unfold dirAnswer at hroot
        split at hroot
        · rename_i hp; exact absurd hp hnp
        · obtain ⟨n, hn⟩ := hroot _ (List.mem_singleton.2 rfl); cases hn
        · rename_i hfill
          split at hroot
          · obtain ⟨n, hn⟩ := hroot _ (List.mem_singleton.2 rfl); cases hn
          · rename_i hsmall
            split at hroot
            · rename_i htot
              intro x hx
              unfold allNodes at hx
              rw [if_pos rfl, List.mem_append, List.mem_singleton] at hx
              rcases hx with hx | rfl
              · exact fateL_fits sha [] _ hfill x hx
              · exact ⟨htot, within_iff.2 (by simpa [nodeOf] using hsmall)⟩
            · obtain ⟨n, hn⟩ := hroot _ (List.mem_singleton.2 rfl); cases hn
      · exact ⟨_, _, _, h, by intro h; cases h⟩

end Verif.Props
