import Verif.Spec.Exporting
import Verif.Props.IngestExample
/-
C126: an archive made from a walk of an ingested archive is ingested to the same directory.
-/
namespace Verif.Props
open Verif Verif.Spec Verif.Ingest

/-! ### paths -/

theorem joinSlash_append {a b : List Bytes} (ha : a ≠ []) (hb : b ≠ []) : joinSlash (a ++ b) = joinSlash a ++ slash :: joinSlash b := by
  induction a with
  | nil => exact absurd rfl ha
  | cons x xs ih =>
    cases xs with
    | nil => rw [List.singleton_append, joinSlash_cons hb]; rfl
    | cons y ys => rw [List.cons_append, joinSlash_cons (by simp), ih (by simp), joinSlash_cons (x := x) (xs := y :: ys) (by simp)]; simp

/-- A path above another one. -/
theorem pathOf_above {p : Bytes} {cs ds : List Bytes} (h : PathOf p ds) (hcs : cs ≠ []) (hpre : cs <+: ds) (hne : cs ≠ ds) :
    PathOf (joinSlash cs) cs ∧ ∃ r, p = joinSlash cs ++ slash :: r := by
  obtain ⟨rest, rfl⟩ := hpre
  have hrest : rest ≠ [] := by rintro rfl; simp at hne
  obtain ⟨h1, h2, h3, h4⟩ := h
  refine ⟨⟨rfl, hcs, fun c hc => h3 c (by simp [hc]), ?_⟩, joinSlash rest, by rw [h1, joinSlash_append hcs hrest]⟩
  rcases h4 with h4 | h4
  · exfalso
    have := congrArg List.length h4
    have h5 := List.length_pos_iff.2 hcs
    have h6 := List.length_pos_iff.2 hrest
    simp at this
    omega
  · exact .inr fun c hc => h4 c (by simp [hc])

/-! ### what is exported -/

/-- What the archive has at a path: an entry, or a directory above one. -/
def HasAt (es : List TarEntry) (cs : List Bytes) (k : Content) : Prop :=
  (∃ e ∈ es, e.At cs ∧ e.content = k) ∨ (k = .dir ∧ cs ≠ [] ∧ ∃ e ∈ es, ∃ ds, e.At ds ∧ cs <+: ds ∧ cs ≠ ds)

theorem HasAt.above {es : List TarEntry} {cs k} (h : HasAt es cs k) : ∃ e ∈ es, ∃ ds, e.At ds ∧ cs <+: ds := by
  rcases h with ⟨e, he, h, -⟩ | ⟨-, -, e, he, ds, h, h', -⟩
  · exact ⟨e, he, cs, h, List.prefix_rfl⟩
  · exact ⟨e, he, ds, h, h'⟩

theorem HasAt.path {es : List TarEntry} {cs k} (h : HasAt es cs k) : PathOf (joinSlash cs) cs := by
  rcases h with ⟨e, he, h, -⟩ | ⟨-, hcs, e, he, ds, h, h', h''⟩
  · exact h.1 ▸ h
  · exact (pathOf_above h hcs h' h'').1

/-- An exported entry is at the path and has the content. -/
structure Exported (cs : List Bytes) (k : Content) (e : TarEntry) : Prop where
  content : e.content = k
  name : e.name = joinSlash cs
  path : e.path = joinSlash cs ∨ k = .dir ∧ e.path = joinSlash cs ++ [slash]
  link : ∀ t, e.link = some t → k = .symlink t

theorem bytesAt_atPath (cs : List Bytes) (items : List ContinuedWalk) : bytesAt cs items = bytesAt cs (atPath cs items) := by
  induction items with
  | nil => rfl
  | cons i items ih =>
    have h1 : bytesAt cs (i :: items) = bytesAt cs [i] ++ bytesAt cs items := bytesAt_append cs [i] items
    by_cases hi : itemPath i = ⟨false, cs⟩
    · have h2 : atPath cs (i :: items) = i :: atPath cs items := by simp [atPath, hi]
      rw [h1, h2, show i :: atPath cs items = [i] ++ atPath cs items from rfl, bytesAt_append, ih]
    · have h2 : atPath cs (i :: items) = atPath cs items := by simp [atPath, hi]
      have h3 : bytesAt cs [i] = [] := by
        refine bytesAt_nil ?_
        rintro ⟨s, c, md, n, hm⟩
        rw [List.mem_singleton] at hm
        subst hm
        exact hi rfl
      rw [h1, h2, h3, ih]; rfl

theorem shown_bytes {c : Cid} {cs : List Bytes} {items : List ContinuedWalk} {x : Bytes} (h : ShownAs c cs items (.file x)) : bytesAt cs items = x := by
  obtain ⟨pieces, -, rfl, h⟩ := h
  rw [bytesAt_atPath, h, bytesAt_file, segments_bytes]

/-- The segments: the first one is flagged, the others are not. -/
theorem segments_first {pieces : List Bytes} (h : pieces ≠ []) : ∃ s rest, segments true pieces = s :: rest ∧ s.first_block = true ∧
    ∀ s' ∈ rest, s'.first_block = false := by
  have later : ∀ ps : List Bytes, ∀ s' ∈ segments false ps, s'.first_block = false := by
    intro ps
    induction ps with
    | nil => intro s hs; cases hs
    | cons p ps ih =>
      cases ps with
      | nil => intro s hs; rw [segments, List.mem_singleton] at hs; rw [hs]
      | cons q qs =>
        intro s hs
        rw [segments] at hs
        rcases List.mem_cons.1 hs with rfl | hs
        · rfl
        · exact ih s hs
  cases pieces with
  | nil => exact absurd rfl h
  | cons p ps =>
    cases ps with
    | nil => exact ⟨_, [], rfl, rfl, by simp⟩
    | cons q qs => exact ⟨_, _, rfl, rfl, later _⟩

theorem last_not_slash {cs : List Bytes} (h : PathOf (joinSlash cs) cs) : (joinSlash cs).getLast? ≠ some slash := by
  intro hl
  obtain ⟨q, hq⟩ := List.getLast?_eq_some_iff.1 hl
  exact (pathOf_shape h).1 ⟨q, hq⟩

theorem exported_file {cs : List Bytes} (h : PathOf (joinSlash cs) cs) (x : Bytes) : Exported cs (.file x) ⟨joinSlash cs, none, [x]⟩ := by
  have hc : TarEntry.content ⟨joinSlash cs, none, [x]⟩ = .file x := by
    unfold TarEntry.content
    simp only
    rw [if_neg (last_not_slash h), bytesRead_one]
  refine ⟨hc, ?_, .inl rfl, (fun t ht => by cases ht)⟩
  unfold TarEntry.name
  rw [if_neg (by rw [hc]; nofun)]

theorem exported_symlink (cs : List Bytes) (t : Bytes) : Exported cs (.symlink t) ⟨joinSlash cs, some t, []⟩ :=
  ⟨rfl, rfl, .inl rfl, (fun t ht => by cases ht; rfl)⟩

theorem exported_dir (cs : List Bytes) : Exported cs .dir ⟨joinSlash cs ++ [slash], none, []⟩ := by
  have hc : TarEntry.content ⟨joinSlash cs ++ [slash], none, []⟩ = .dir := by
    unfold TarEntry.content
    simp
  refine ⟨hc, ?_, .inr ⟨rfl, rfl⟩, (fun t ht => by cases ht)⟩
  unfold TarEntry.name
  rw [if_pos hc]
  simp

theorem Exported.at {es : List TarEntry} {cs k e} (h : Exported cs k e) (hk : HasAt es cs k) : e.At cs := by
  have := hk.path
  rwa [TarEntry.At, h.name]

section
variable {es : List TarEntry} {items : List ContinuedWalk}

/-- What the walk of an ingested archive shows at a path which is not the root. -/
theorem shown_at (h3 : ∀ e ∈ es, ∀ cs, e.At cs → ∃ c, ShownAs c cs items e.content)
    (h4 : ∀ e ∈ es, ∀ ds, e.At ds → ∀ cs, cs ≠ [] → cs <+: ds → cs ≠ ds → ∃ c, ShownAs c cs items .dir)
    (h5 : ∀ cs, cs ≠ [] → (∀ e ∈ es, ∀ ds, e.At ds → ¬ cs <+: ds) → atPath cs items = [])
    (cs : List Bytes) (hcs : cs ≠ []) (hne : atPath cs items ≠ []) : ∃ c k, ShownAs c cs items k ∧ HasAt es cs k := by
  by_cases hat : ∃ e ∈ es, e.At cs
  · obtain ⟨e, he, h⟩ := hat
    obtain ⟨c, hc⟩ := h3 e he cs h
    exact ⟨c, _, hc, .inl ⟨e, he, h, rfl⟩⟩
  · by_cases hex : ∃ e ∈ es, ∃ ds, e.At ds ∧ cs <+: ds
    · obtain ⟨e, he, ds, h, hpre⟩ := hex
      have hnd : cs ≠ ds := by rintro rfl; exact hat ⟨e, he, h⟩
      obtain ⟨c, hc⟩ := h4 e he ds h cs hcs hpre hnd
      exact ⟨c, _, hc, .inr ⟨rfl, hcs, e, he, ds, h, hpre, hnd⟩⟩
    · exact absurd (h5 cs hcs fun e he ds h hpre => hex ⟨e, he, ds, h, hpre⟩) hne

/-- What is exported for an item at a path. -/
theorem export_one {c : Cid} {cs : List Bytes} {k : Content} (hs : ShownAs c cs items k) (hk : HasAt es cs k) {i : ContinuedWalk} (hi : i ∈ atPath cs items)
    {e : TarEntry} (he : exportItem items i = some e) : Exported cs k e := by
  cases k with
  | file x =>
    have hb := shown_bytes hs
    obtain ⟨pieces, hne, -, h⟩ := hs
    rw [h] at hi
    obtain ⟨s, -, rfl⟩ := List.mem_map.1 hi
    simp only [exportItem] at he
    split at he
    · cases he
      rw [hb]
      exact exported_file hk.path x
    · cases he
  | symlink t =>
    rw [ShownAs] at hs
    rw [hs, List.mem_singleton] at hi
    subst hi
    cases he
    exact exported_symlink cs t
  | dir =>
    rw [ShownAs] at hs
    rw [hs, List.mem_singleton] at hi
    subst hi
    cases he
    exact exported_dir cs

/-- Something is exported for each path which is shown. -/
theorem export_some {c : Cid} {cs : List Bytes} {k : Content} (hs : ShownAs c cs items k) : ∃ i ∈ atPath cs items, ∃ e, exportItem items i = some e := by
  cases k with
  | file x =>
    obtain ⟨pieces, hne, -, h⟩ := hs
    obtain ⟨s, rest, h1, h2, -⟩ := segments_first hne
    rw [h, h1]
    refine ⟨_, List.mem_map.2 ⟨s, List.mem_cons_self .., rfl⟩, ?_⟩
    simp only [exportItem, h2, if_true]
    exact ⟨_, rfl⟩
  | symlink t =>
    rw [ShownAs] at hs
    rw [hs]
    exact ⟨_, List.mem_singleton.2 rfl, _, rfl⟩
  | dir =>
    rw [ShownAs] at hs
    rw [hs]
    exact ⟨_, List.mem_singleton.2 rfl, _, rfl⟩

/-- Only one item of a path is exported. -/
theorem export_once {c : Cid} {cs : List Bytes} {k : Content} (hs : ShownAs c cs items k) {i j : ContinuedWalk} (hsub : [i, j].Sublist (atPath cs items))
    {e e' : TarEntry} (he : exportItem items i = some e) (he' : exportItem items j = some e') : False := by
  cases k with
  | file x =>
    obtain ⟨pieces, hne, -, h⟩ := hs
    obtain ⟨s, rest, h1, -, h2⟩ := segments_first hne
    rw [h, h1, List.map_cons] at hsub
    have hj : j ∈ rest.map (fun s => ContinuedWalk.File s c ⟨false, cs⟩ {} x.length) := by
      cases hsub with
      | cons _ hsub => exact hsub.subset (by simp)
      | cons_cons _ hsub => exact hsub.subset (by simp)
    obtain ⟨s', hs', rfl⟩ := List.mem_map.1 hj
    simp [exportItem, h2 s' hs'] at he'
  | symlink t =>
    rw [ShownAs] at hs
    rw [hs] at hsub
    exact absurd hsub.length_le (by simp)
  | dir =>
    rw [ShownAs] at hs
    rw [hs] at hsub
    exact absurd hsub.length_le (by simp)

end

/-! ### the calls -/

/-- Histories which want the same links and directories lead to the same tree. -/
theorem contents_wanted (opts opts' : TreeOptions) (ops ops' : List Op) (hops : ∀ op ∈ ops, op.Ok) (hops' : ∀ op ∈ ops', op.Ok)
    (hl : ∀ q c s, LinkedBy (successes (.new opts) ops) q c s ↔ LinkedBy (successes (.new opts') ops') q c s)
    (hd : ∀ q, DirBy (successes (.new opts) ops) q ↔ DirBy (successes (.new opts') ops') q) :
    contents (runOps (.new opts) ops).2 = contents (runOps (.new opts') ops').2 := by
  refine lookup_ext _ _ (contents_sorted ⟨opts, ops, hops, rfl⟩) (contents_sorted ⟨opts', ops', hops', rfl⟩) ?_
  intro q
  obtain ⟨h1, h2⟩ := C31_history opts ops hops q
  obtain ⟨h1', h2'⟩ := C31_history opts' ops' hops' q
  have hl : ∀ c s, lookupPath q (contents (runOps (.new opts) ops).2) = some (.link c s) ↔
      lookupPath q (contents (runOps (.new opts') ops').2) = some (.link c s) := by
    intro c s; rw [h1, h1']; exact hl q c s
  have hd : lookupPath q (contents (runOps (.new opts) ops).2) = some .dir ↔
      lookupPath q (contents (runOps (.new opts') ops').2) = some .dir := by
    rw [h2, h2']; exact hd q
  cases hk : lookupPath q (contents (runOps (.new opts) ops).2) with
  | none =>
    cases hk' : lookupPath q (contents (runOps (.new opts') ops').2) with
    | none => rfl
    | some t =>
      cases t with
      | link c s => rw [(hl c s).2 hk'] at hk; cases hk
      | dir => rw [hd.2 hk'] at hk; cases hk
  | some t =>
    cases t with
    | link c s => exact ((hl c s).1 hk).symm
    | dir => exact (hd.1 hk).symm

/-- Another archive with the same files and symlinks; of the directories it may have more or fewer entries, as long as they are
above the entries of the other. -/
structure SameArchive (es es' : List TarEntry) : Prop where
  kept : ∀ e ∈ es, ∀ cs, e.At cs → ∃ e' ∈ es', Exported cs e.content e'
  only : ∀ e' ∈ es', ∃ cs k, Exported cs k e' ∧ HasAt es cs k
  apart : es'.Pairwise fun a b => ∀ cs, a.At cs → ¬ b.At cs

theorem at_unique {e : TarEntry} {cs ds : List Bytes} (h : e.At cs) (h' : e.At ds) : cs = ds := (pathOf_unique h).symm.trans (pathOf_unique h')

theorem stored_export {sha : Bytes → Bytes} {e e' : TarEntry} {cs : List Bytes} (hcs : e.At cs) (hx : Exported cs e.content e') {op bs} (h : Stored sha e op bs) :
    Stored sha e' op bs := stored_atOnce hx.content (by rw [hx.name, hcs.1]) h

theorem thing_dir {sha : Bytes → Bytes} {e : TarEntry} {op bs} (h : Stored sha e op bs) : op.thing = .dir ↔ e.content = .dir := by
  cases h with
  | file h1 => simp [Op.thing, h1]
  | symlink h1 => simp [Op.thing, h1]
  | dir h1 => simp [Op.thing, h1]

section
variable {sha : Bytes → Bytes} {es es' : List TarEntry} {ops ops' : List Op} {bss bss' : Saved}

theorem SameArchive.linked (h : SameArchive es es') (hs : StoredAll sha es ops bss) (hs' : StoredAll sha es' ops' bss') (q c s) :
    LinkedBy ops q c s ↔ LinkedBy ops' q c s := by
  constructor
  · rintro ⟨p, hm, hp⟩
    obtain ⟨e, he, bs, hst, -⟩ := hs.of_op _ hm
    have hq : e.At q := by rw [TarEntry.At, ← hst.path]; exact hp
    obtain ⟨e', he', hx⟩ := h.kept e he q hq
    obtain ⟨op', hop', bs', hst', -⟩ := hs'.of_entry e' he'
    obtain ⟨rfl, -⟩ := hst'.unique (stored_export hq hx hst)
    exact ⟨p, hop', hp⟩
  · rintro ⟨p, hm, hp⟩
    obtain ⟨e', he', bs', hst', -⟩ := hs'.of_op _ hm
    have hq : e'.At q := by rw [TarEntry.At, ← hst'.path]; exact hp
    obtain ⟨cs, k, hx, hk⟩ := h.only e' he'
    obtain rfl := at_unique hq (hx.at hk)
    have hput := hst'.isPut.1 trivial
    rw [hx.content] at hput
    rcases hk with ⟨e, he, hat, rfl⟩ | ⟨rfl, -⟩
    · obtain ⟨op, hop, bs, hst, -⟩ := hs.of_entry e he
      obtain ⟨rfl, -⟩ := hst'.unique (stored_export hat hx hst)
      exact ⟨p, hop, hp⟩
    · exact absurd rfl hput

theorem SameArchive.dirs (h : SameArchive es es') (hs : StoredAll sha es ops bss) (hs' : StoredAll sha es' ops' bss') (q) :
    DirBy ops q ↔ DirBy ops' q := by
  constructor
  · rintro (rfl | ⟨op, hm, cs, hp, hpre, hor⟩)
    · exact .inl rfl
    · obtain ⟨e, he, bs, hst, -⟩ := hs.of_op _ hm
      have hq : e.At cs := by rw [TarEntry.At, ← hst.path]; exact hp
      obtain ⟨e', he', hx⟩ := h.kept e he cs hq
      obtain ⟨op', hop', bs', hst', -⟩ := hs'.of_entry e' he'
      obtain ⟨rfl, -⟩ := hst'.unique (stored_export hq hx hst)
      exact .inr ⟨_, hop', cs, hp, hpre, hor⟩
  · rintro (rfl | ⟨op, hm, cs, hp, hpre, hor⟩)
    · exact .inl rfl
    · obtain ⟨e', he', bs', hst', -⟩ := hs'.of_op _ hm
      have hq : e'.At cs := by rw [TarEntry.At, ← hst'.path]; exact hp
      obtain ⟨cs', k, hx, hk⟩ := h.only e' he'
      obtain rfl := at_unique hq (hx.at hk)
      rcases hk with ⟨e, he, hat, rfl⟩ | ⟨rfl, hcs, e, he, ds, hat, hpre', hne⟩
      · obtain ⟨op2, hop, bs, hst, -⟩ := hs.of_entry e he
        obtain ⟨rfl, -⟩ := hst'.unique (stored_export hat hx hst)
        exact .inr ⟨_, hop, cs, hp, hpre, hor⟩
      · obtain ⟨op2, hop, bs, hst, -⟩ := hs.of_entry e he
        refine .inr ⟨op2, hop, ds, by rw [hst.path]; exact hat, hpre.trans hpre', .inl ?_⟩
        rintro rfl
        exact hne (List.IsPrefix.eq_of_length hpre' (Nat.le_antisymm hpre'.length_le hpre.length_le))

theorem SameArchive.blocks (h : SameArchive es es') (hs : StoredAll sha es ops bss) (hs' : StoredAll sha es' ops' bss') (hat : ∀ e ∈ es, ∃ cs, e.At cs) (b) :
    b ∈ bss' ↔ b ∈ bss := by
  have origin : ∀ {es ops bss}, StoredAll sha es ops bss → b ∈ bss → ∃ e ∈ es, ∃ op bs, Stored sha e op bs ∧ b ∈ bs := by
    intro es ops bss hs
    induction hs with
    | nil => intro hb; cases hb
    | cons h1 _ ih =>
      intro hb
      rcases List.mem_append.1 hb with hb | hb
      · exact ⟨_, by simp, _, _, h1, hb⟩
      · obtain ⟨e, he, r⟩ := ih hb
        exact ⟨e, by simp [he], r⟩
  constructor
  · intro hb
    obtain ⟨e', he', op', bs', hst', hb⟩ := origin hs' hb
    obtain ⟨cs, k, hx, hk⟩ := h.only e' he'
    rcases hk with ⟨e, he, hat, rfl⟩ | ⟨rfl, -⟩
    · obtain ⟨op, hop, bs, hst, hbs⟩ := hs.of_entry e he
      obtain ⟨-, rfl⟩ := hst'.unique (stored_export hat hx hst)
      exact hbs b hb
    · obtain ⟨-, rfl⟩ := hst'.unique (.dir hx.content)
      cases hb
  · intro hb
    obtain ⟨e, he, op, bs, hst, hb⟩ := origin hs hb
    obtain ⟨cs, hcs⟩ := hat e he
    obtain ⟨e', he', hx⟩ := h.kept e he cs hcs
    obtain ⟨op', hop', bs', hst', hbs⟩ := hs'.of_entry e' he'
    obtain ⟨-, rfl⟩ := hst'.unique (stored_export hcs hx hst)
    exact hbs b hb

end

/-- Such an archive is ingested with the same result. -/
theorem SameArchive.ingest {sha : Bytes → Bytes} (hsha : ∀ b, (sha b).length = 32) {es es' : List TarEntry} (hsm : ∀ e ∈ es, e.Small)
    (h : SameArchive es es') (last : Cid × Nat × Nat) (saved : Saved) (hi : ingestTar sha es = some (.ok (last, saved))) :
    ∃ saved', ingestTar sha es' = some (.ok (last, saved')) ∧ ∀ b, b ∈ saved' ↔ b ∈ saved := by
  obtain ⟨ops, bss, h1, h2⟩ := tar_ok hsha hsm hi
  obtain ⟨rfl, rfl⟩ := Prod.mk.inj h2
  obtain ⟨hpaths, hcompat⟩ := (C62_all_successful ingestOptions rfl ops h1.ok).1 h1.all
  have hat := h1.stored.paths.1 hpaths
  have hco := h1.stored.pairwise.1 hcompat
  -- lengths
  have bound : ∀ e' ∈ es', ∃ e ∈ es, e'.path.length ≤ e.path.length ∧ (validUtf8 e.path = true → validUtf8 e'.path = true) := by
    intro e' he'
    obtain ⟨cs, k, hx, hk⟩ := h.only e' he'
    have ascii : ∀ a : Bytes, validUtf8 (a ++ [slash]) = validUtf8 a := by
      intro a
      have := validUtf8_split slash (by decide) a []
      rwa [validUtf8_nil, Bool.and_true] at this
    rcases hk with ⟨e, he, hcs, rfl⟩ | ⟨rfl, hcs, e, he, ds, hds, hpre, hne⟩
    · refine ⟨e, he, ?_⟩
      have hname : e.name = joinSlash cs := hcs.1
      by_cases hd : e.content = .dir
      · have hep : e.path = joinSlash cs ++ [slash] := by
          have hl : e.path.getLast? = some slash := by
            unfold TarEntry.content at hd
            split at hd
            · cases hd
            · split at hd
              · assumption
              · cases hd
          unfold TarEntry.name at hname
          rw [if_pos hd] at hname
          obtain ⟨q, hq⟩ := List.getLast?_eq_some_iff.1 hl
          rw [hq] at hname ⊢
          simp at hname
          rw [hname]
        rcases hx.path with hp | ⟨-, hp⟩
        · rw [hp, hep, ascii]; simp
        · rw [hp, hep]; simp
      · have hep : e.path = joinSlash cs := by
          unfold TarEntry.name at hname
          rwa [if_neg hd] at hname
        rcases hx.path with hp | ⟨hk, -⟩
        · rw [hp, hep]; simp
        · exact absurd hk hd
    · obtain ⟨-, r, hr⟩ := pathOf_above hds hcs hpre hne
      refine ⟨e, he, ?_⟩
      have hle : e.name.length ≤ e.path.length ∧ (validUtf8 e.path = true → validUtf8 e.name = true) := by
        unfold TarEntry.name
        split
        · rename_i hd
          have hl : e.path.getLast? = some slash := by
            unfold TarEntry.content at hd
            split at hd
            · cases hd
            · split at hd
              · assumption
              · cases hd
          exact ⟨by simp, fun hu => utf8_dropLast hu hl⟩
        · exact ⟨Nat.le_refl _, id⟩
      rw [hr] at hle
      rw [validUtf8_split slash (by decide)] at hle
      have hu : validUtf8 e.path = true → validUtf8 (joinSlash cs) = true := by
        intro hu
        have := hle.2 hu
        rw [Bool.and_eq_true] at this
        exact this.1
      have hlen := hle.1
      simp at hlen
      rcases hx.path with hp | ⟨-, hp⟩
      · rw [hp]; exact ⟨by omega, hu⟩
      · rw [hp, ascii]
        refine ⟨?_, hu⟩
        simp
        omega
  have linked : ∀ e' ∈ es', ∀ t, e'.link = some t → ∃ e ∈ es, e.link = some t := by
    intro e' he' t ht
    obtain ⟨cs, k, hx, hk⟩ := h.only e' he'
    obtain rfl := hx.link t ht
    rcases hk with ⟨e, he, hcs, hc⟩ | ⟨hc, -⟩
    · refine ⟨e, he, ?_⟩
      unfold TarEntry.content at hc
      split at hc
      · cases hc; assumption
      · split at hc <;> cases hc
    · cases hc
  have hsm' : ∀ e' ∈ es', e'.Small := by
    intro e' he'
    obtain ⟨e, he, hle, -⟩ := bound e' he'
    refine ⟨Nat.lt_of_le_of_lt hle (hsm e he).1, fun t ht => ?_⟩
    obtain ⟨e, he, hl⟩ := linked e' he' t ht
    exact (hsm e he).2 t hl
  have htext : ∀ e' ∈ es', e'.Text := by
    intro e' he'
    obtain ⟨e, he, -, hu⟩ := bound e' he'
    refine ⟨hu (h1.texts e he).1, fun t ht => ?_⟩
    obtain ⟨e, he, hl⟩ := linked e' he' t ht
    exact (h1.texts e he).2 t hl
  have hat' : ∀ e' ∈ es', ∃ cs, e'.At cs := by
    intro e' he'
    obtain ⟨cs, k, hx, hk⟩ := h.only e' he'
    exact ⟨cs, hx.at hk⟩
  have half : ∀ a ∈ es', ∀ b ∈ es', (∀ cs, a.At cs → ¬ b.At cs) → ∀ p q, a.At p → b.At q → a.content ≠ .dir → ¬ p <+: q := by
    intro a ha b hb hap p q hp hq hd hpre
    obtain ⟨cs, k, hx, hk⟩ := h.only a ha
    obtain rfl := at_unique hp (hx.at hk)
    obtain ⟨cs', k', hx', hk'⟩ := h.only b hb
    obtain rfl := at_unique hq (hx'.at hk')
    rw [hx.content] at hd
    rcases hk with ⟨e, he, hep, rfl⟩ | ⟨rfl, -⟩
    · obtain ⟨f, hf, ds, hfd, hqd⟩ := hk'.above
      have hpd := hpre.trans hqd
      rcases pairwise_mem hco he hf with e1 | hc | hc
      · subst e1
        obtain rfl := at_unique hep hfd
        have : p = q := List.IsPrefix.eq_of_length hpre (Nat.le_antisymm hpre.length_le hqd.length_le)
        subst this
        exact hap p hp hq
      · exact (hc p ds hep hfd).1 hd hpd
      · exact (hc ds p hfd hep).2 hd hpd
    · exact hd rfl
  have hco' : es'.Pairwise CanCoexist := by
    refine List.Pairwise.imp_of_mem ?_ h.apart
    intro a b ha hb hab p q hp hq
    exact ⟨half a ha b hb hab p q hp hq, half b hb a ha (fun cs h1 h2 => hab cs h2 h1) q p hq hp⟩
  have hadd' : ∀ e' ∈ es', e'.Addable sha := by
    intro e' he' x hc
    obtain ⟨cs, k, hx, hk⟩ := h.only e' he'
    rw [hx.content] at hc
    subst hc
    rcases hk with ⟨e, he, -, hc⟩ | ⟨hc, -⟩
    · exact h1.addable e he x hc
    · cases hc
  have tree : ∀ ops' bss', StoredAll sha es' ops' bss' → treeOf ops' = treeOf ops := by
    intro ops' bss' hs'
    have hok' := hs'.ops_ok hsha htext hsm'
    have hall' := (C62_all_successful ingestOptions rfl ops' hok').2 ⟨hs'.paths.2 hat', hs'.pairwise.2 hco'⟩
    refine contents_wanted _ _ _ _ hok' h1.ok ?_ ?_
    · rw [hall', h1.all]
      exact fun q c s => (h.linked h1.stored hs' q c s).symm
    · rw [hall', h1.all]
      exact fun q => (h.dirs h1.stored hs' q).symm
  obtain ⟨r, hr⟩ := (C86_exactly sha hsha es' hsm').2 ⟨htext, hat', hco', hadd', fun ops' bss' hs' => by
    have := tree ops' bss' hs'
    rw [treeOf] at this
    rw [this]
    exact h1.fit⟩
  obtain ⟨ops', bss', h1', rfl⟩ := tar_ok hsha hsm' hr
  have ht := tree ops' bss' h1'.stored
  refine ⟨_, by rw [hr, rootOf, rootOf, ht], fun b => ?_⟩
  rw [List.mem_append, List.mem_append, h.blocks h1.stored h1'.stored hat b]

/-! ### C126 -/

/-- What is exported from the walk of an ingested archive. -/
theorem same_export {sha : Bytes → Bytes} (hsha : ∀ b, (sha b).length = 32) {es : List TarEntry} (hsm : ∀ e ∈ es, e.Small)
    {root : Cid} {total size : Nat} {saved : Saved} (h : ingestTar sha es = some (.ok ((root, total, size), saved)))
    (hpaths : ∀ e ∈ es, ∀ cs, e.At cs → cs ≠ [[]] ∧ dot ∉ cs)
    {get : Cid → Option Bytes} (hget : Holds get saved) {cache : Option VisitCache} (hc : ∀ k, cache = some k → CacheObtainable k) :
    ∃ items, walkFrom get (Walker.new root []) cache = some (.ok items) ∧ SameArchive es (exportItems items) := by
  obtain ⟨items, hw, habs, h2, h3, h4, h5⟩ := C86_walk sha hsha es hsm root total size saved h hpaths get hget cache hc
  have shown : ∀ i ∈ items, ∀ e, exportItem items i = some e → ∃ c k, ShownAs c (itemPath i).comps items k ∧ HasAt es (itemPath i).comps k ∧
      i ∈ atPath (itemPath i).comps items := by
    intro i hi e he
    have hpath : itemPath i = ⟨false, (itemPath i).comps⟩ := by
      have := habs i hi
      rw [← this]
    have hmem : i ∈ atPath (itemPath i).comps items := by
      unfold atPath
      rw [List.mem_filter]
      exact ⟨hi, decide_eq_true hpath⟩
    have hne : (itemPath i).comps ≠ [] := by
      intro h0
      rw [h0, h2, List.mem_singleton] at hmem
      subst hmem
      cases he
    obtain ⟨c, k, hs, hk⟩ := shown_at h3 h4 h5 _ hne (List.ne_nil_of_mem hmem)
    exact ⟨c, k, hs, hk, hmem⟩
  refine ⟨items, hw, ?_⟩
  · refine ⟨?_, ?_, ?_⟩
    · intro e he cs hcs
      obtain ⟨c, hs⟩ := h3 e he cs hcs
      obtain ⟨i, hi, e', he'⟩ := export_some hs
      refine ⟨e', List.mem_filterMap.2 ⟨i, (List.mem_filter.1 hi).1, he'⟩, ?_⟩
      exact export_one (es := es) hs (.inl ⟨e, he, hcs, rfl⟩) hi he'
    · intro e' he'
      obtain ⟨i, hi, he'⟩ := List.mem_filterMap.1 he'
      obtain ⟨c, k, hs, hk, hmem⟩ := shown i hi e' he'
      exact ⟨_, k, export_one hs hk hmem he', hk⟩
    · unfold exportItems
      rw [List.pairwise_filterMap, List.pairwise_iff_forall_sublist]
      intro i j hsub a ha b hb cs hac hbc
      obtain ⟨c, k, hs, hk, hmem⟩ := shown i (hsub.subset (by simp)) a ha
      obtain ⟨c', k', hs', hk', hmem'⟩ := shown j (hsub.subset (by simp)) b hb
      have e1 := at_unique hac ((export_one hs hk hmem ha).at hk)
      have e2 := at_unique hbc ((export_one hs' hk' hmem' hb).at hk')
      rw [← e1] at hs hmem
      rw [← e2] at hmem'
      refine export_once hs ?_ ha hb
      have := hsub.filter (fun i => decide (itemPath i = ⟨false, cs⟩))
      have p1 := (List.mem_filter.1 hmem).2
      have p2 := (List.mem_filter.1 hmem').2
      rw [List.filter_cons, if_pos p1, List.filter_cons, if_pos p2] at this
      exact this

/-- C126. An archive is ingested, and all blocks are stored; no path is empty or contains a component `.`. The directory is walked, and an
archive is made from what is reported. That archive is ingested to the same directory: the same root, total size and length; and the
blocks are the same. -/
theorem C126_roundtrip (sha : Bytes → Bytes) (hsha : ∀ b, (sha b).length = 32) (es : List TarEntry) (hsm : ∀ e ∈ es, e.Small)
    (root : Cid) (total size : Nat) (saved : Saved) (h : ingestTar sha es = some (.ok ((root, total, size), saved)))
    (hpaths : ∀ e ∈ es, ∀ cs, e.At cs → cs ≠ [[]] ∧ dot ∉ cs)
    (get : Cid → Option Bytes) (hget : Holds get saved) (cache : Option VisitCache) (hc : ∀ k, cache = some k → CacheObtainable k) :
    ∃ items saved', walkFrom get (Walker.new root []) cache = some (.ok items) ∧
      ingestTar sha (exportItems items) = some (.ok ((root, total, size), saved')) ∧ ∀ b, b ∈ saved' ↔ b ∈ saved := by
  obtain ⟨items, hw, same⟩ := same_export hsha hsm h hpaths hget hc
  obtain ⟨saved', h6, h7⟩ := same.ingest hsha hsm _ _ h
  exact ⟨items, saved', hw, h6, h7⟩

/-- C126. What is in that archive: every entry of the first one, with its content; besides those only directories above entries; and no
path twice. -/
theorem C126_archive (sha : Bytes → Bytes) (hsha : ∀ b, (sha b).length = 32) (es : List TarEntry) (hsm : ∀ e ∈ es, e.Small)
    (root : Cid) (total size : Nat) (saved : Saved) (h : ingestTar sha es = some (.ok ((root, total, size), saved)))
    (hpaths : ∀ e ∈ es, ∀ cs, e.At cs → cs ≠ [[]] ∧ dot ∉ cs)
    (get : Cid → Option Bytes) (hget : Holds get saved) (cache : Option VisitCache) (hc : ∀ k, cache = some k → CacheObtainable k) :
    ∃ items, walkFrom get (Walker.new root []) cache = some (.ok items) ∧
      (∀ e ∈ es, ∀ cs, e.At cs → ∃ e' ∈ exportItems items, e'.At cs ∧ e'.content = e.content) ∧
      (∀ e' ∈ exportItems items, ∃ cs, e'.At cs ∧ ((∃ e ∈ es, e.At cs ∧ e'.content = e.content) ∨
        e'.content = .dir ∧ ∃ e ∈ es, ∃ ds, e.At ds ∧ cs <+: ds ∧ cs ≠ ds)) ∧
      (exportItems items).Pairwise (fun a b => ∀ cs, a.At cs → ¬ b.At cs) := by
  obtain ⟨items, hw, same⟩ := same_export hsha hsm h hpaths hget hc
  refine ⟨items, hw, ?_, ?_, same.apart⟩
  · intro e he cs hcs
    obtain ⟨e', he', hx⟩ := same.kept e he cs hcs
    exact ⟨e', he', hx.at (es := es) (.inl ⟨e, he, hcs, rfl⟩), hx.content⟩
  · intro e' he'
    obtain ⟨cs, k, hx, hk⟩ := same.only e' he'
    refine ⟨cs, hx.at hk, ?_⟩
    rcases hk with ⟨e, he, hcs, rfl⟩ | ⟨rfl, -, r⟩
    · exact .inl ⟨e, he, hcs, hx.content⟩
    · exact .inr ⟨hx.content, r⟩

/-! ### an example -/

/-- The blocks of the sample archive. -/
def sampleTarBlocks : Saved :=
  [threeLeaf.entry toySha, (cidOf toySha (symlinkBlock [97, 47, 98]), symlinkBlock [97, 47, 98])] ++
    nodeBlocks (allNodes toySha true (treeOf sampleTarOps))

/-- A store with just these blocks. -/
def sampleTarGet : Cid → Option Bytes := fun c => (sampleTarBlocks.find? (fun b => decide (b.1 = c))).map Prod.snd

theorem sampleTar_blocks {last : Cid × Nat × Nat} {saved : Saved} (h : ingestTar toySha sampleTar = some (.ok (last, saved))) : saved = sampleTarBlocks := by
  obtain ⟨ops, bss, h1, h2⟩ := tar_ok toySha_length sampleTar_small h
  obtain ⟨-, rfl⟩ := Prod.mk.inj h2
  obtain rfl := sampleTar_stored h1.stored
  have : bss = [threeLeaf.entry toySha, (cidOf toySha (symlinkBlock [97, 47, 98]), symlinkBlock [97, 47, 98])] := by
    have hst := h1.stored
    clear h h1 h2
    generalize sampleTarOps = ops0 at hst
    cases hst with
    | cons h1 h =>
      cases h with
      | cons h2 h =>
        cases h with
        | cons h3 h =>
          cases h
          have e1 := (h1.unique (.dir (by decide))).2
          have e3 := (h3.unique (.symlink (t := [97, 47, 98]) (by decide))).2
          subst e1 e3
          have hc : (TarEntry.content ⟨[97, 47, 98], none, [[1, 2], [3], []]⟩) = .file [1, 2, 3] := by decide
          cases h2 with
          | file hx hadd hlast =>
            rw [hc] at hx
            cases hx
            have := three_blocks hadd
            subst this
            rfl
          | symlink hx => rw [hc] at hx; cases hx
          | dir hx => rw [hc] at hx; cases hx
  rw [this]
  rfl

theorem sampleTar_holds : Holds sampleTarGet sampleTarBlocks := by
  unfold Holds
  decide +kernel

/-- All hypotheses at once, with a store: the sample, exported and ingested again, and the file in the archive made from it. -/
theorem C126_example : ∃ root total size saved items saved', ingestTar toySha sampleTar = some (.ok ((root, total, size), saved)) ∧
    walkFrom sampleTarGet (Walker.new root []) none = some (.ok items) ∧
    ingestTar toySha (exportItems items) = some (.ok ((root, total, size), saved')) ∧ (∀ b, b ∈ saved' ↔ b ∈ saved) ∧
    ∃ e ∈ exportItems items, e.At [[97], [98]] ∧ e.content = .file [1, 2, 3] := by
  obtain ⟨⟨⟨root, total, size⟩, saved⟩, h⟩ := sampleTar_ingested
  have hwalkable : ∀ e ∈ sampleTar, ∀ cs, e.At cs → cs ≠ [[]] ∧ dot ∉ cs := by
    intro e he cs hcs
    obtain ⟨cs', h1, h2⟩ := sampleTar_paths e he
    rw [← pathOf_unique hcs, pathOf_unique h1]
    exact h2
  have hget : Holds sampleTarGet saved := by rw [sampleTar_blocks h]; exact sampleTar_holds
  obtain ⟨items, saved', q1, q2, q3⟩ := C126_roundtrip toySha toySha_length sampleTar sampleTar_small root total size saved h hwalkable sampleTarGet hget none nofun
  obtain ⟨items', r1, r2, -⟩ := C126_archive toySha toySha_length sampleTar sampleTar_small root total size saved h hwalkable sampleTarGet hget none nofun
  rw [q1] at r1
  cases r1
  refine ⟨root, total, size, saved, items, saved', h, q1, q2, q3, ?_⟩
  exact r2 ⟨[97, 47, 98], none, [[1, 2], [3], []]⟩ (by decide) [[97], [98]] path_ab

end Verif.Props
