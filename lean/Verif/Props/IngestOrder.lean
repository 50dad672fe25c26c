import Verif.Props.IngestTar
import Verif.Props.Orders
/-
C86: the order of the entries and the way their bytes are read do not matter.
-/
namespace Verif.Props
open Verif Verif.Spec Verif.Ingest

/-- Everything about an entry: its path, its link name, and its bytes. -/
abbrev keyOf (e : TarEntry) : Bytes × Option Bytes × Bytes := (e.path, e.link, bytesRead e.reads)

/-- An entry whose bytes are read at once. -/
def atOnce (k : Bytes × Option Bytes × Bytes) : TarEntry := ⟨k.1, k.2.1, [k.2.2]⟩

theorem bytesRead_one (x : Bytes) : bytesRead [x] = x := by
  cases x <;> simp [bytesRead]

theorem atOnce_content (e : TarEntry) : (atOnce (keyOf e)).content = e.content := by
  simp only [TarEntry.content, atOnce, keyOf, bytesRead_one]

theorem atOnce_name (e : TarEntry) : (atOnce (keyOf e)).name = e.name := by
  rw [TarEntry.name, atOnce_content]; rfl

theorem stored_atOnce {sha : Bytes → Bytes} {e e' : TarEntry} (hc : e'.content = e.content) (hn : e'.name = e.name) {op bs}
    (h : Stored sha e op bs) : Stored sha e' op bs := by
  cases h with
  | file h1 h2 h3 => rw [← hn]; exact .file (hc.trans h1) h2 h3
  | symlink h1 => rw [← hn]; exact .symlink (hc.trans h1)
  | dir h1 => rw [← hn]; exact .dir (hc.trans h1)

theorem storedAll_atOnce {sha : Bytes → Bytes} {es ops bss} (h : StoredAll sha es ops bss) :
    StoredAll sha ((es.map keyOf).map atOnce) ops bss := by
  induction h with
  | nil => exact .nil
  | cons h1 _ ih => exact .cons (stored_atOnce (atOnce_content _) (atOnce_name _) h1) ih

theorem StoredAll_perm {sha : Bytes → Bytes} {es es' : List TarEntry} (hp : es.Perm es') : ∀ {ops bss}, StoredAll sha es ops bss →
    ∃ ops' bss', StoredAll sha es' ops' bss' ∧ ops.Perm ops' ∧ bss.Perm bss' := by
  induction hp with
  | nil => intro ops bss h; cases h; exact ⟨_, _, .nil, .refl _, .refl _⟩
  | cons e _ ih =>
    intro ops bss h
    cases h with
    | cons h1 h2 =>
      obtain ⟨ops', bss', q1, q2, q3⟩ := ih h2
      exact ⟨_, _, .cons h1 q1, q2.cons _, q3.append_left _⟩
  | swap a b l =>
    intro ops bss h
    cases h with
    | cons h1 h2 =>
      cases h2 with
      | cons h2 h3 =>
        refine ⟨_, _, .cons h2 (.cons h1 h3), .swap _ _ _, ?_⟩
        rw [← List.append_assoc, ← List.append_assoc]
        exact List.perm_append_comm.append_right _
  | trans _ _ ih1 ih2 =>
    intro ops bss h
    obtain ⟨o1, b1, q1, q2, q3⟩ := ih1 h
    obtain ⟨o2, b2, r1, r2, r3⟩ := ih2 q1
    exact ⟨o2, b2, r1, q2.trans r2, q3.trans r3⟩

/-- The same entries have the same calls and blocks, but for their order. -/
theorem StoredAll_same {sha : Bytes → Bytes} {es es' : List TarEntry} (hp : (es.map keyOf).Perm (es'.map keyOf)) {ops bss ops' bss'}
    (h : StoredAll sha es ops bss) (h' : StoredAll sha es' ops' bss') : ops.Perm ops' ∧ bss.Perm bss' := by
  obtain ⟨o, b, q1, q2, q3⟩ := StoredAll_perm (hp.map atOnce) (storedAll_atOnce h)
  obtain ⟨rfl, rfl⟩ := q1.unique (storedAll_atOnce h')
  exact ⟨q2, q3⟩

theorem canCoexist_comm {a b : TarEntry} (h : CanCoexist a b) : CanCoexist b a := fun p q hp hq => (h q p hq hp).symm

theorem coexist_keys (es : List TarEntry) : ((es.map keyOf).map atOnce).Pairwise CanCoexist ↔ es.Pairwise CanCoexist := by
  rw [List.map_map, List.pairwise_map]
  simp only [Function.comp_def, CanCoexist, TarEntry.At, atOnce_content, atOnce_name]
  rfl

theorem exists_key {es es' : List TarEntry} (hp : (es.map keyOf).Perm (es'.map keyOf)) {e} (he : e ∈ es') : ∃ e0 ∈ es, keyOf e0 = keyOf e := by
  have := hp.mem_iff.2 (List.mem_map.2 ⟨e, he, rfl⟩)
  obtain ⟨e0, h1, h2⟩ := List.mem_map.1 this
  exact ⟨e0, h1, h2⟩

theorem content_of_key {e e' : TarEntry} (h : keyOf e = keyOf e') : e.content = e'.content := by
  rw [← atOnce_content e, ← atOnce_content e', h]

theorem name_of_key {e e' : TarEntry} (h : keyOf e = keyOf e') : e.name = e'.name := by
  rw [← atOnce_name e, ← atOnce_name e', h]

/-- C86. The result depends only on what the entries are. Neither their order matters nor the pieces in which they are read: if
an archive can be ingested then so can any with the same paths, link names and bytes in any order; with the same root, total size
and length, and the same blocks except for their order. -/
theorem C86_order (sha : Bytes → Bytes) (hsha : ∀ b, (sha b).length = 32) (es es' : List TarEntry) (hsm : ∀ e ∈ es, e.Small)
    (hp : (es.map fun e => (e.path, e.link, bytesRead e.reads)).Perm (es'.map fun e => (e.path, e.link, bytesRead e.reads)))
    (last : Cid × Nat × Nat) (saved : Saved) (h : ingestTar sha es = some (.ok (last, saved))) :
    ∃ saved', ingestTar sha es' = some (.ok (last, saved')) ∧ saved.Perm saved' := by
  have hsm' : ∀ e ∈ es', e.Small := by
    intro e he
    obtain ⟨e0, h0, hk⟩ := exists_key hp he
    have := hsm e0 h0
    simp only [keyOf, Prod.mk.injEq] at hk
    rw [TarEntry.Small, hk.1, hk.2.1] at this
    exact this
  obtain ⟨c1, c2, c3, c4, c5⟩ := (C86_exactly sha hsha es hsm).1 ⟨_, h⟩
  have ht : ∀ e ∈ es', e.Text := by
    intro e he
    obtain ⟨e0, h0, hk⟩ := exists_key hp he
    have := c1 e0 h0
    simp only [keyOf, Prod.mk.injEq] at hk
    rw [TarEntry.Text, hk.1, hk.2.1] at this
    exact this
  obtain ⟨ops, bss, h1, h2⟩ := tar_ok hsha hsm h
  have htree : ∀ ops' bss', StoredAll sha es' ops' bss' → ops.Perm ops' ∧ bss.Perm bss' ∧ treeOf ops' = treeOf ops := by
    intro ops' bss' hs
    obtain ⟨p1, p2⟩ := StoredAll_same hp h1.stored hs
    refine ⟨p1, p2, ?_⟩
    have hok' := hs.ops_ok hsha ht hsm'
    obtain ⟨d1, d2⟩ := (C62_all_successful ingestOptions rfl ops h1.ok).1 h1.all
    have hall' : successes (.new ingestOptions) ops' = ops' := by
      refine (C62_all_successful ingestOptions rfl ops' hok').2 ⟨fun op hop => d1 op (p1.mem_iff.2 hop), ?_⟩
      rw [hs.pairwise, ← coexist_keys, ← (hp.map atOnce).pairwise_iff canCoexist_comm]
      exact (coexist_keys es).2 c3
    exact C31_order ingestOptions ingestOptions ops' ops hok' h1.ok (by
      intro op; rw [hall', h1.all]; exact p1.mem_iff.symm)
  obtain ⟨r', h'⟩ := (C86_exactly sha hsha es' hsm').2 ⟨ht, by
      intro e he
      obtain ⟨e0, h0, hk⟩ := exists_key hp he
      obtain ⟨cs, hcs⟩ := c2 e0 h0
      exact ⟨cs, by rw [TarEntry.At, ← name_of_key hk]; exact hcs⟩, by
      rw [← coexist_keys, ← (hp.map atOnce).pairwise_iff canCoexist_comm]
      exact (coexist_keys es).2 c3, by
      intro e he x hx
      obtain ⟨e0, h0, hk⟩ := exists_key hp he
      exact c4 e0 h0 x (by rw [content_of_key hk]; exact hx), by
      intro ops' bss' hs
      obtain ⟨-, -, q⟩ := htree ops' bss' hs
      show ∀ x ∈ allNodes sha true (treeOf ops'), _
      rw [q]
      exact c5 ops bss h1.stored⟩
  obtain ⟨ops', bss', h1', h2'⟩ := tar_ok hsha hsm' h'
  obtain ⟨-, q2, q3⟩ := htree ops' bss' h1'.stored
  obtain ⟨e1, e2⟩ := Prod.mk.inj h2
  subst e1 e2
  refine ⟨bss' ++ nodeBlocks (allNodes sha true (treeOf ops')), ?_, ?_⟩
  · rw [h', h2', rootOf, q3]
  · rw [q3]
    exact q2.append_right _

end Verif.Props
