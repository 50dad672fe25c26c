import Verif.WalkProgress
import Verif.Spec.FsTree
import Verif.VisitLemmas
/-
Walking a well-formed file system tree.
-/
namespace Verif
open Verif.Spec Verif.Props

/-! ### asking for the next block -/

theorem pendingLinks_eq {w : Walker} {fb rest : List Awaited} (h : WInv w fb rest) {a : Awaited} {aw : List Awaited}
    (haw : fb ++ rest = a :: aw) : w.pendingLinks = .ok (a.cid, aw.map (·.cid)) := by
  by_cases hf : ∃ ie v sz, w.current = some ie ∧ ie.kind = .File (some v) sz
  · obtain ⟨ie, v, sz, hc, hk⟩ := hf
    obtain ⟨hne, hwhat, hcids, root, ls, hv⟩ := h.file.of_inFile hc hk
    cases fb with
    | nil => exact absurd rfl hne
    | cons a' fb =>
      simp only [List.cons_append, List.cons.injEq] at haw
      obtain ⟨rfl, rfl⟩ := haw
      unfold Walker.pendingLinks
      rw [hc]
      simp only [Option.map_some, hk]
      unfold FileVisit.pendingLinks
      rw [← hcids]
      simp only [List.map_cons, Res.bind_ok]
      have h2 : rest.map (·.cid) = (w.next.map (·.cid)).toList ++ (w.pending.map (·.cid)).reverse := by
        rw [h.cids, Walker.links]
        cases w.next <;> simp
      rw [List.map_append, h2]
  · have hr : w.atRest := fun ie v sz h1 h2 => hf ⟨ie, v, sz, h1, h2⟩
    have hfb := h.file.of_atRest hr
    subst hfb
    simp only [List.nil_append] at haw
    subst haw
    obtain ⟨n, hn⟩ := next_some h
    obtain ⟨_, _, he, h1, h2⟩ := h.rest_cons hn
    cases he
    unfold Walker.pendingLinks
    simp only
    split
    · rename_i v sz hk
      cases hc : w.current with
      | none => rw [hc] at hk; cases hk
      | some ie =>
        rw [hc] at hk
        simp only [Option.map_some, Option.some.injEq] at hk
        exact absurd hk (hr ie v sz hc)
    · rw [hn]
      simp only [h1, h2, List.map_reverse]

/-! ### one step of the loop -/

/-- Prepend items to a result. -/
def prepend (xs : List ContinuedWalk) (r : Option (Res WalkFail (List ContinuedWalk))) : Option (Res WalkFail (List ContinuedWalk)) :=
  r.map (Res.map (xs ++ ·))

theorem prepend_prepend (xs ys : List ContinuedWalk) (r) : prepend xs (prepend ys r) = prepend (xs ++ ys) r := by
  cases r with
  | none => rfl
  | some r => cases r <;> simp [prepend, Res.map]

theorem prepend_nil (r) : prepend [] r = r := by
  cases r with
  | none => rfl
  | some r => cases r <;> simp [prepend, Res.map]

/-- The state between two steps. -/
structure St (cid : Cid) (name : Bytes) (before : List ContinuedWalk) (w : Walker) (fb rest : List Awaited) : Prop where
  wi : WInv w fb rest
  pi : PInv cid name before w rest

def CacheOk (cache : Option VisitCache) : Prop := ∀ k, cache = some k → CacheObtainable k

section
variable {cid : Cid} {name : Bytes} {before : List ContinuedWalk} {w : Walker} {fb rest : List Awaited} {get : Cid → Option Bytes}
  {a : Awaited} {aw : List Awaited} {b : Bytes} {cache : Option VisitCache}

theorem walk_step (h : WInv w fb rest) (haw : fb ++ rest = a :: aw) (hg : get a.cid = some b) :
    walkFrom get w cache = match w.step b cache with
      | (.panic p, _, _) => some (.panic p)
      | (.err e, _, _) => some (.err (.failed e))
      | (.ok item, w', cache') => prepend [item] (walkFrom get w' cache') := by
  rw [walkFrom.eq_1]
  have hsc : w.shouldContinue ≠ false := by
    show w.should_continue ≠ false
    rw [h.cont, haw]; simp
  rw [if_neg hsc, pendingLinks_eq h haw]
  simp only [hg]
  rcases w.step b cache with ⟨r, w', cache'⟩
  cases r with
  | panic p => rfl
  | err e => rfl
  | ok item =>
    simp only [prepend]
    cases walkFrom get w' cache' <;> rfl

/-- A successful step. -/
theorem St.step (hs : St cid name before w fb rest) (haw : fb ++ rest = a :: aw) (hg : get a.cid = some b) (hc : CacheOk cache)
    (hname : slash ∉ name) {m : FlatUnixFs} (hm : FlatUnixFs.tryParse b = .ok m) {item : ContinuedWalk}
    (hok : (w.step b cache).1 = .ok item) :
    ∃ w' cache' fb' rest', w.step b cache = (.ok item, w', cache') ∧ CacheOk cache' ∧
      walkFrom get w cache = prepend [item] (walkFrom get w' cache') ∧
      m.links.filterMap (follow a m) ++ aw = fb' ++ rest' ∧ reportedFor cid before a m (decide (fb' = [])) item ∧
      St cid name (before ++ [item]) w' fb' rest' := by
  have h1 := walk_step (cache := cache) hs.wi haw hg
  have h2 := step_cache (w := w) (b := b) hc
  rcases hst : w.step b cache with ⟨r, w', cache'⟩
  rw [hst] at h1 h2 hok
  simp only at hok
  subst hok
  have hws := step_ok hst
  obtain ⟨m', a', aw', fb', rest', hm', haw', hk, hw'⟩ := hs.wi.step hc hws
  rw [hm] at hm'
  cases hm'
  rw [haw] at haw'
  simp only [List.cons.injEq] at haw'
  obtain ⟨rfl, rfl⟩ := haw'
  have hp := hs.pi.step hs.wi hname hc hws hm haw hk hw'
  exact ⟨w', cache', fb', rest', rfl, h2, h1, hk, hp.2, hw', hp.1⟩

end

/-! ### files -/

/-- The content of the block with the given Cid. -/
def contentAt (get : Cid → Option Bytes) (c : Cid) : Bytes :=
  match get c with
  | some b =>
    match FlatUnixFs.tryParse b with
    | .ok m => blockContent m
    | .error _ => []
  | none => []

theorem not_dotDeep_root (name : Bytes) : ¬ DotDeep (rootPath name) := by
  rintro ⟨h, _⟩
  unfold rootPath at h
  split at h <;> simp at h

theorem not_dotDeep {path : List Bytes} {name : Bytes} (h : name ≠ [] ∧ name ≠ dot) : ¬ DotDeep (path ++ rootPath name) := by
  rintro ⟨_, hl⟩
  rw [rootPath, if_neg h.1] at hl
  simp at hl
  exact h.2 hl

theorem not_reported {cid : Cid} {before : List ContinuedWalk} {a : Awaited} {m : FlatUnixFs} {last : Bool} {item : ContinuedWalk}
    (h : reportedFor cid before a m last item) (ha : a.what ≠ .bucket) : itemFor before a m last = some item :=
  h.1 (fun h => ha h.1)

theorem file_run {cid : Cid} {name : Bytes} {get : Cid → Option Bytes} (hname : slash ∉ name) : ∀ (q : List Cid) {c : Bytes} {v : FileVisit}
    {before : List ContinuedWalk} {w : Walker} {fb rest : List Awaited} {cache : Option VisitCache} {ie : InnerEntry} {sz : Nat},
    St cid name before w fb rest → CacheOk cache → w.current = some ie → ie.kind = .File (some v) sz →
    readFrom get v = some (.ok (c, q)) → ∃ w' cache',
      walkFrom get w cache = prepend ((segments false (q.map (contentAt get))).map
        (fun s => .File s ie.cid ie.path ie.metadata sz)) (walkFrom get w' cache') ∧ CacheOk cache' ∧
      St cid name (before ++ (segments false (q.map (contentAt get))).map
        (fun s => .File s ie.cid ie.path ie.metadata sz)) w' [] rest := by
  intro q
  induction q with
  | nil =>
    intro c v before w fb rest cache ie sz hs hc hcur hk hr
    rw [readFrom.eq_1] at hr
    split at hr
    · cases hr
    · cases hr
    split at hr
    · cases hr
    split at hr
    · cases hr
    · cases hr
    · cases hr
    · next v' _ =>
      cases h : readFrom get v' with
      | none => rw [h] at hr; cases hr
      | some r =>
        rw [h] at hr
        cases r <;> simp [Res.map] at hr
  | cons q0 q ih =>
    intro c v before w fb rest cache ie sz hs hc hcur hk hr
    rw [readFrom.eq_1] at hr
    split at hr
    · cases hr
    · cases hr
    next first others hpl =>
    split at hr
    · cases hr
    next block hg =>
    obtain ⟨hne, hwhat, hcids, root, ls, hv⟩ := hs.wi.file.of_inFile hcur hk
    cases fb with
    | nil => exact absurd rfl hne
    | cons a fb =>
    have hfirst : a.cid = first := by
      unfold FileVisit.pendingLinks at hpl
      rw [← hcids] at hpl
      simp only [List.map_cons, Res.ok.injEq, Prod.mk.injEq] at hpl
      exact hpl.1
    have haw : a.what = .fileBlock := hwhat a (by simp)
    have hwcache : ∀ r, (v.continueWalk block none).1 = r → (v.continueWalk block cache).1 = r := by
      intro r h; rw [(C25_visit_cache v block cache none).1]; exact h
    -- the step succeeds
    have hstep : ∀ content next, (v.continueWalk block none).1 = .ok (content, next) → ∃ w' cache' fb',
        walkFrom get w cache = prepend [.File ⟨contentAt get first, false, !next.isSome⟩ ie.cid ie.path ie.metadata sz] (walkFrom get w' cache') ∧
        CacheOk cache' ∧ w'.current = some { ie with kind := .File next sz } ∧
        St cid name (before ++ [.File ⟨contentAt get first, false, !next.isSome⟩ ie.cid ie.path ie.metadata sz]) w' fb' rest ∧
        (next = none → fb' = []) := by
      intro content next hcw
      have hcw' := hwcache _ hcw
      obtain ⟨P, _, i, m, fs, -, -, hm, -, hacc, -, -⟩ := continueWalk_ok hcw
      have hsok : (w.step block cache).1 = .ok (.File (.later content (!next.isSome)) ie.cid ie.path ie.metadata sz) ∧
          (w.step block cache).2.1.current = some { ie with kind := .File next sz } := by
        rw [step_inFile hcur hk]
        unfold Walker.nextFile
        rcases hx : v.continueWalk block cache with ⟨r, k⟩
        rw [hx] at hcw'
        simp only at hcw'
        subst hcw'
        exact ⟨rfl, rfl⟩
      obtain ⟨w', cache', fb', rest', hst, hc', hwalk, hkids, hrep, hs'⟩ := hs.step (get := get) (b := block) (a := a) (aw := fb ++ rest) rfl (hfirst ▸ hg) hc hname hm hsok.1
      have hcur' : w'.current = some { ie with kind := .File next sz } := by rw [hst] at hsok; exact hsok.2
      obtain ⟨hfb', rfl⟩ := split_unique (fb := m.links.filterMap (follow a m) ++ fb) (rest := rest) (by rw [← hkids, List.append_assoc])
        (by
          intro x hx
          rcases List.mem_append.1 hx with hx | hx
          · exact kids_what (.inl haw) x hx
          · exact hwhat x (by simp [hx])) hs'.wi.file.what hs.wi.what hs'.wi.what
      have hlast := last_eq hs'.wi hcur' rfl
      have hitem : (ContinuedWalk.File (.later content (!next.isSome)) ie.cid ie.path ie.metadata sz) =
          .File ⟨contentAt get first, false, !next.isSome⟩ ie.cid ie.path ie.metadata sz := by
        have := not_reported hrep (by rw [haw]; simp)
        obtain ⟨seg, hseg, _⟩ := (hs.pi.ofCurrent hcur).file _ _ hk
        unfold itemFor at this
        simp only [haw, hseg] at this
        rw [hlast]
        rw [hlast] at this
        rw [← Option.some.inj this]
        simp [contentAt, hg, hm]
      rw [hitem] at hwalk hs'
      refine ⟨w', cache', fb', hwalk, hc', hcur', hs', ?_⟩
      intro hn
      rw [hn] at hlast
      simpa using hlast.symm
    split at hr
    · cases hr
    · cases hr
    · next content hcw =>
      simp only [Option.some.injEq, Res.ok.injEq, Prod.mk.injEq, List.cons.injEq] at hr
      obtain ⟨-, rfl, rfl⟩ := hr
      obtain ⟨w', cache', fb', h1, h2, h3, h4, h5⟩ := hstep content none hcw
      have := h5 rfl
      subst this
      exact ⟨w', cache', h1, h2, h4⟩
    · next content v' hcw =>
      cases hrf : readFrom get v' with
      | none => rw [hrf] at hr; cases hr
      | some r =>
        rw [hrf] at hr
        cases r with
        | panic p => simp [Res.map] at hr
        | err e => simp [Res.map] at hr
        | ok x =>
          obtain ⟨c', q'⟩ := x
          simp only [Option.bind_eq_bind, Option.bind_some, Res.map, Option.some.injEq, Res.ok.injEq, Prod.mk.injEq, List.cons.injEq] at hr
          obtain ⟨-, rfl, rfl⟩ := hr
          obtain ⟨w', cache', fb', h1, h2, h3, h4, h5⟩ := hstep content (some v') hcw
          obtain ⟨w'', cache'', h6, h7, h8⟩ := ih h4 h2 h3 rfl hrf
          have hq : q' ≠ [] := by
            rintro rfl
            rw [readFrom.eq_1] at hrf
            split at hrf
            · cases hrf
            · cases hrf
            split at hrf
            · cases hrf
            split at hrf
            · cases hrf
            · cases hrf
            · cases hrf
            · next v' _ =>
              cases h : readFrom get v' with
              | none => rw [h] at hrf; cases hrf
              | some r =>
                rw [h] at hrf
                cases r <;> simp [Res.map] at hrf
          obtain ⟨q1, q2, rfl⟩ : ∃ q1 q2, q' = q1 :: q2 := by
            cases q' with
            | nil => exact absurd rfl hq
            | cons q1 q2 => exact ⟨q1, q2, rfl⟩
          refine ⟨w'', cache'', ?_, h7, ?_⟩
          · rw [h1, h6, prepend_prepend]
            rfl
          · simp only [List.map_cons, segments, Option.isSome_some, Bool.not_true, List.append_assoc] at h8 ⊢
            simpa using h8

/-- The contents of the blocks below the root. -/
theorem below_pieces (get : Cid → Option Bytes) :
    (∀ (t : FTree) (b : Bytes) (o : Nat), FileAt get t b → ∃ m, FlatUnixFs.tryParse b = .ok m ∧ (m.data.Ty = .Raw ∨ m.data.Ty = .File) ∧
      m.data.filesize = some t.content.length ∧
      t.pieces = blockContent m :: (below get t b o).map (fun p => contentAt get p.1)) ∧
    (∀ (ts : List FTree) (ls : List PBLink) (o : Nat), FilesAt get ts ls →
      FTree.piecesL ts = (belowL get ts ls o).map (fun p => contentAt get p.1)) := by
  apply FTree.pieces.mutual_induct
    (motive_1 := fun t => ∀ (b : Bytes) (o : Nat), FileAt get t b → ∃ m, FlatUnixFs.tryParse b = .ok m ∧ (m.data.Ty = .Raw ∨ m.data.Ty = .File) ∧
      m.data.filesize = some t.content.length ∧
      t.pieces = blockContent m :: (below get t b o).map (fun p => contentAt get p.1))
    (motive_2 := fun ts => ∀ (ls : List PBLink) (o : Nat), FilesAt get ts ls →
      FTree.piecesL ts = (belowL get ts ls o).map (fun p => contentAt get p.1))
  · intro d b o h
    simp only [FileAt] at h
    obtain ⟨m, hm, hn, hl, hb, hd, hf⟩ := h
    exact ⟨m, hm, hn.1.symm, hf, by simp [FTree.pieces, blockContent, hl, hd, below]⟩
  · intro ts ih b o h
    simp only [FileAt] at h
    obtain ⟨m, hm, hn, hts, hd, hf, hb, hk⟩ := h
    refine ⟨m, hm, hn.1.symm, hf, ?_⟩
    have hl : m.links ≠ [] := by
      intro h
      have := filesAt_length hk
      rw [h] at this
      exact hts (List.length_eq_zero_iff.1 this.symm)
    simp only [FTree.pieces, blockContent, hl, if_false, below, hm]
    rw [ih m.links o hk]
  · intro ls o h
    cases ls with
    | nil => rfl
    | cons _ _ => simp [FilesAt] at h
  · intro t ts ih1 ih2 ls o h
    cases ls with
    | nil => simp [FilesAt] at h
    | cons l ls =>
      simp only [FilesAt] at h
      obtain ⟨⟨cid, b, m, hcid, hg, hm, _, hf⟩, hrest⟩ := h
      obtain ⟨m', hm', -, -, hp⟩ := ih1 b o hf
      simp only [FTree.piecesL, belowL, hcid, hg, List.cons_append, List.map_cons, List.map_append]
      rw [hp, ih2 ls (o + t.content.length) hrest]
      simp [contentAt, hg, hm']

section
variable {cid : Cid} {name : Bytes} {before : List ContinuedWalk} {w : Walker} {rest : List Awaited} {get : Cid → Option Bytes}
  {a : Awaited} {aw : List Awaited} {b : Bytes} {cache : Option VisitCache}

theorem St.atRest (h : St cid name before w [] rest) : w.atRest := by
  rcases h.wi.file with h | ⟨_, _, _, _, _, h, _⟩
  · exact h.1
  · exact absurd rfl h

/-- A file is walked completely. -/
theorem file_walk (hname : slash ∉ name) (hs : St cid name before w [] (a :: aw)) (hc : CacheOk cache) (ha : a.what = .entry)
    (hdd : ¬ DotDeep a.path) (hg : get a.cid = some b) {m : FlatUnixFs} (hm : FlatUnixFs.tryParse b = .ok m) {t : FTree} (ht : FileAt get t b) :
    ∃ w' cache', walkFrom get w cache = prepend ((segments true t.pieces).map
        (fun s => .File s a.cid ⟨false, a.path⟩ (Metadata.ofUnixFs m.data) t.content.length)) (walkFrom get w' cache') ∧ CacheOk cache' ∧
      St cid name (before ++ (segments true t.pieces).map
        (fun s => .File s a.cid ⟨false, a.path⟩ (Metadata.ofUnixFs m.data) t.content.length)) w' [] aw := by
  have hr := hs.atRest
  have hrf := readFile_eq get t b ht none
  obtain ⟨m', hm', hty, hfs, hpieces⟩ := (below_pieces get).1 t b 0 ht
  rw [hm] at hm'
  cases hm'
  have hq : reqs get none t b 0 = (below get t b 0).map (·.1) := by
    rw [reqs, List.filter_eq_self.2 (by intros; rfl)]
  rw [hq] at hrf
  obtain ⟨r, hst⟩ : ∃ r, (IdleFileVisit.mk none).start b = .ok r := by
    unfold readFile at hrf
    split at hrf
    · cases hrf
    · cases hrf
    · next h => exact ⟨_, h⟩
    · next h => exact ⟨_, h⟩
  obtain ⟨n, hn⟩ := next_some hs.wi
  have hsp := start_parsed hm none hc
  rw [hst] at hsp
  obtain ⟨ie, hie⟩ := hs.pi.enterLeaf_ok hr ha hdd hn (.File r.next r.total_size) r.metadata
  have hsok : (w.step b cache).1 = .ok (.File (.first r.content (!r.next.isSome)) ie.cid ie.path ie.metadata r.total_size) ∧
      (w.step b cache).2.1.current = some ie := by
    rw [step_atRest hr]
    have : w.nextBlock b cache = w.nextFirst m cache := by
      unfold Walker.nextBlock
      rw [hm]
      rcases hty with h | h <;> simp only [h]
    rw [this]
    unfold Walker.nextFirst
    rcases hx : ({} : IdleFileVisit).startFromParsed m cache with ⟨r', k⟩
    have : r' = .ok r := by
      have := hsp
      rw [show (IdleFileVisit.mk none) = {} from rfl, hx] at this
      exact this
    subst this
    simp only [hn]
    rw [hie]
    exact ⟨rfl, popNext_current _ _⟩
  obtain ⟨w', cache', fb', rest', hstep, hc', hwalk, hkids, hrep, hs'⟩ := hs.step (get := get) (b := b) (a := a) (aw := aw) rfl hg hc hname hm hsok.1
  have hcur' : w'.current = some ie := by rw [hstep] at hsok; exact hsok.2
  have hkind := (enterLeaf_kind hie).1
  obtain ⟨hfb', rfl⟩ := split_unique (fb := m.links.filterMap (follow a m)) (rest := aw) hkids
    (kids_what (.inr hty)) hs'.wi.file.what (fun x hx => hs.wi.what x (by simp [hx])) hs'.wi.what
  have hlast := last_eq hs'.wi hcur' hkind
  have hitem := not_reported hrep (by rw [ha]; simp)
  have hitem' : (ContinuedWalk.File (.first r.content (!r.next.isSome)) ie.cid ie.path ie.metadata r.total_size) =
      .File ⟨blockContent m, true, !r.next.isSome⟩ a.cid ⟨false, a.path⟩ (Metadata.ofUnixFs m.data) t.content.length := by
    unfold itemFor at hitem
    rw [hlast]
    rw [hlast] at hitem
    rcases hty with h | h <;> simp only [ha, h, hfs, Option.getD_some] at hitem <;> exact (Option.some.inj hitem).symm
  rw [hitem'] at hwalk hs'
  have hiecid : ie.cid = a.cid ∧ ie.path = ⟨false, a.path⟩ ∧ ie.metadata = Metadata.ofUnixFs m.data ∧ r.total_size = t.content.length := by
    simp only [ContinuedWalk.File.injEq] at hitem'
    exact hitem'.2
  cases hnext : r.next with
  | none =>
    rw [hnext] at hlast hwalk hs'
    have hfbnil : fb' = [] := by simpa using hlast.symm
    have hb0 : below get t b 0 = [] := by
      have hfb : m.links.filterMap (follow a m) = [] := by rw [hfb', hfbnil]
      unfold readFile at hrf
      rw [show ({} : IdleFileVisit) = ⟨none⟩ from rfl, hst] at hrf
      obtain ⟨rc, rs, rm, rn⟩ := r
      simp only at hnext
      subst hnext
      simp only [Option.some.injEq, Res.ok.injEq, Prod.mk.injEq] at hrf
      exact List.map_eq_nil_iff.1 hrf.2.symm
    rw [hfbnil] at hs'
    refine ⟨w', cache', ?_, hc', ?_⟩
    · rw [hwalk, hpieces, hb0]; rfl
    · rw [hpieces, hb0]; exact hs'
  | some v =>
    rw [hnext] at hwalk hs' hkind
    have hread : ∃ c, readFrom get v = some (.ok (c, (below get t b 0).map (·.1))) := by
      unfold readFile at hrf
      rw [show ({} : IdleFileVisit) = ⟨none⟩ from rfl, hst] at hrf
      obtain ⟨rc, rs, rm, rn⟩ := r
      simp only at hnext
      subst hnext
      simp only at hrf
      cases h : readFrom get v with
      | none => rw [h] at hrf; cases hrf
      | some x =>
        rw [h] at hrf
        cases x with
        | panic p => simp [Res.map] at hrf
        | err e => simp [Res.map] at hrf
        | ok y =>
          obtain ⟨c', q'⟩ := y
          simp only [Option.bind_eq_bind, Option.bind_some, Res.map, Option.some.injEq, Res.ok.injEq, Prod.mk.injEq] at hrf
          exact ⟨c', by rw [hrf.2]⟩
    obtain ⟨c, hread⟩ := hread
    obtain ⟨w'', cache'', h6, h7, h8⟩ := file_run hname _ hs' hc' hcur' hkind hread
    have hbne : (below get t b 0).map (·.1) ≠ [] := by
      intro h0
      rw [h0] at hread
      rw [readFrom.eq_1] at hread
      split at hread
      · cases hread
      · cases hread
      split at hread
      · cases hread
      split at hread
      · cases hread
      · cases hread
      · cases hread
      · next v' _ =>
        cases h : readFrom get v' with
        | none => rw [h] at hread; cases hread
        | some r =>
          rw [h] at hread
          cases r <;> simp [Res.map] at hread
    have hseg : segments true t.pieces = ⟨blockContent m, true, false⟩ :: segments false (((below get t b 0).map (·.1)).map (contentAt get)) := by
      rw [hpieces]
      cases hb : below get t b 0 with
      | nil => rw [hb] at hbne; exact absurd rfl hbne
      | cons x xs => simp [segments, Function.comp_def]
    rw [hseg]
    rw [hiecid.1, hiecid.2.1, hiecid.2.2.1, hiecid.2.2.2] at h6 h8
    refine ⟨w'', cache'', ?_, h7, ?_⟩
    · rw [hwalk, h6, prepend_prepend]
      rfl
    · simpa using h8

end

end Verif
