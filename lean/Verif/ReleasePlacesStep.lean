import Verif.ReleasePlacesInv
/-
The steps of a walker of a release build.
-/
namespace Verif
open Verif.Spec Verif.Props

section
variable {cid : Cid} {name : Bytes} {before : List ContinuedWalk} {level : Nat} {w : Walker} {fb rest aw : List Place} {a : Place}

/-- The Cid which is reported of a bucket. -/
def BucketCid (cid : Cid) (before : List ContinuedWalk) (a : Place) (c : Cid) : Prop :=
  (RootBuckets before → c = cid) ∧ (¬ RootBuckets before → c = a.cid)

theorem bucketCid_exists (cid : Cid) (before : List ContinuedWalk) (a : Place) : ∃ c, BucketCid cid before a c := by
  by_cases h : RootBuckets before
  · exact ⟨cid, fun _ => rfl, fun h' => absurd h h'⟩
  · exact ⟨a.cid, fun h' => absurd h' h, fun _ => rfl⟩

/-- What a successful step leads to. -/
def Stepped (cid : Cid) (name : Bytes) (root : PathBuf) (before : List ContinuedWalk) (level : Nat) (a : Place) (aw : List Place) (b : Bytes)
    (item : ContinuedWalk) (w' : Walker) : Prop :=
  ∃ m fb' rest' c, Reads b m ∧ m.links.filterMap (followRel a m) ++ aw = fb' ++ rest' ∧ RInv cid name (before ++ [item]) a.level w' fb' rest' ∧
    BucketCid cid before a c ∧ itemRel root before level a c m (fileEnds (fb' ++ rest')) = some item

theorem fileEnds_eq {fb rest : List Place} (h1 : ∀ x ∈ fb, x.what = .fileBlock) (h2 : ∀ x ∈ rest, x.what ≠ .fileBlock) : fileEnds (fb ++ rest) = decide (fb = []) := by
  cases fb with
  | cons x fb => simp [fileEnds, h1 x (by simp)]
  | nil =>
    cases rest with
    | nil => rfl
    | cons x rest => simp [fileEnds, h2 x (by simp)]

theorem asks_some {next : Option FileVisit} (h : ∀ v, next = some v → Asking v) : next.isSome = decide (visitAsks next ≠ []) := by
  cases next with
  | none => rfl
  | some v =>
    have := (h v rfl).2
    simp [visitAsks, this]

theorem followRel_fileBlock {a : Place} (m : FlatUnixFs) (h : a.what = .fileBlock) : m.links.filterMap (followRel a m) = m.links.filterMap (placeAt a.level a.name .fileBlock) := by
  congr 1
  funext l
  simp [followRel, h]

theorem followRel_file {a : Place} {m : FlatUnixFs} (h : m.data.Ty = .Raw ∨ m.data.Ty = .File) :
    m.links.filterMap (followRel a m) = m.links.filterMap (placeAt a.level a.name .fileBlock) := by
  congr 1
  funext l
  rcases h with h | h <;> simp [followRel, h]

theorem placeAt_spec {level : Nat} {name : Bytes} {what : What} {links : List PBLink} {x : Place} (h : x ∈ links.filterMap (placeAt level name what)) :
    x.what = what ∧ x.level = level := by
  obtain ⟨l, _, hl⟩ := List.mem_filterMap.1 h
  unfold placeAt at hl
  split at hl
  · cases hl; exact ⟨rfl, rfl⟩
  · cases hl

theorem RInv.step_file (h : RInv cid name before level w fb rest) (hfb : fb ≠ []) (ha : fb ++ rest = a :: aw) (root : PathBuf) {b : Bytes}
    {cache k : Option VisitCache} {item : ContinuedWalk} {w' : Walker} (hs : w.stepRel b cache = some (.ok item, w', k)) :
    Stepped cid name root before level a aw b item w' := by
  obtain ⟨ie, v, sz, seg, h1, h2, h3, h4, h5⟩ := h.inFile hfb
  have hwhat := h.fb_what
  obtain ⟨x, fb1, rfl⟩ := List.exists_cons_of_ne_nil hfb
  simp only [List.cons_append, List.cons.injEq] at ha
  obtain ⟨rfl, rfl⟩ := ha
  rw [stepRel_inFile h1 h2] at hs
  obtain ⟨y, hy, hs⟩ := Option.map_eq_some_iff.1 hs
  unfold Walker.nextFileP at hs
  split at hs
  · cases hs
  · next e _ => exact absurd (congrArg Prod.fst hs) (ofFileReadFailed_ne_ok e _)
  · next c next k' =>
    cases hs
    obtain ⟨m, first, rst, g1, g2, g3, g4, g5⟩ := continueWalkRel_ok' h3 hy
    rw [← h5] at g2
    simp only [List.map_cons, List.cons.injEq] at g2
    obtain ⟨rfl, rfl⟩ := g2
    have hxw := hwhat.1 x (by simp)
    have hfol := followRel_fileBlock m hxw
    obtain ⟨ci, hci⟩ := bucketCid_exists cid before x
    rcases h with ⟨-, -, h, -⟩ | ⟨item0, ie0, h, hlev⟩
    · cases h
    rw [h.cur] at h1
    cases h1
    have hlast := h.last
    rw [h4] at hlast
    cases hlast
    have hasks : (m.links.filterMap (followRel x m) ++ fb1).map (·.cid) = visitAsks next := by
      rw [List.map_append, hfol, placeAt_cids, g4]
    have hlevel : ∀ y ∈ m.links.filterMap (followRel x m) ++ fb1, y.what = .fileBlock ∧ y.level = ie.depth := by
      rcases h.file with hf | ⟨_, _, _, _, _, _, _, hf⟩
      · cases hf.2
      intro y hy
      rcases List.mem_append.1 hy with hy | hy
      · rw [hfol] at hy
        obtain ⟨e1, e2⟩ := placeAt_spec hy
        exact ⟨e1, e2.trans (hf x (by simp)).2⟩
      · exact hf y (List.mem_cons_of_mem _ hy)
    have hsome : next.isSome = decide (m.links.filterMap (followRel x m) ++ fb1 ≠ []) := by
      rw [asks_some g5, ← hasks]
      simp only [ne_eq, List.map_eq_nil_iff]
    have hxl : x.level = ie.depth := by
      rcases h.file with hf | ⟨_, _, _, _, _, _, _, hf⟩
      · cases hf.2
      · exact (hf x (by simp)).2
    refine ⟨m, m.links.filterMap (followRel x m) ++ fb1, rest, ci, g1, by simp, .inr ⟨.File (.later c !next.isSome) ie.cid ie.path ie.metadata sz, { ie with kind := .File next sz }, ?_, hxl.symm⟩, hci, ?_⟩
    · refine ⟨by simp, rfl, rfl, h.places, h.free, ⟨nofun, by rintro ⟨_, _, _, h⟩; cases h⟩, nofun, nofun, ?_, h.stack, h.deep, h.pend, ?_, ?_⟩
      · rintro ⟨-, hrb⟩
        have hne : before ≠ [] := by rintro rfl; cases h4
        have hpos := List.length_pos_iff.2 hne
        rw [List.drop_append_of_le_length (by omega)] at hrb
        obtain ⟨_, _, hx⟩ := hrb _ (List.mem_append_right _ (List.mem_singleton.2 rfl))
        cases hx
      · show (next.isSome || w.next.isSome) = _
        rw [hsome, links_nil h.pend]
        have hr : (w.links ≠ []) ↔ (rest ≠ []) := by
          rw [h.places]; simp
        simp only [hr]
        by_cases e1 : rest = [] <;> by_cases e2 : m.links.filterMap (followRel x m) ++ fb1 = [] <;> simp [e1, e2] <;> simp_all
      · cases hn : next with
        | none =>
          rw [hn] at hasks
          have : m.links.filterMap (followRel x m) ++ fb1 = [] := List.map_eq_nil_iff.1 hasks
          refine .inl ⟨?_, this⟩
          intro ie' v' sz' e1 e2
          cases e1
          cases e2
        | some v' =>
          rw [hn] at hasks
          exact .inr ⟨v', sz, _, rfl, g5 v' hn, rfl, hasks, hlevel⟩
    · have hfe : fileEnds (m.links.filterMap (followRel x m) ++ fb1 ++ rest) = !next.isSome := by
        rw [fileEnds_eq (fun y hy => (hlevel y hy).1) hwhat.2, hsome]
        by_cases e2 : m.links.filterMap (followRel x m) ++ fb1 = [] <;> simp [e2]
      unfold itemRel
      simp only [hxw, if_true, h4, hfe, g3]
      rfl

theorem whats {a : Place} (h : a.what ≠ .fileBlock) : a.what = .bucket ∨ a.what = .entry := by
  cases hw : a.what with
  | entry => exact .inr rfl
  | bucket => exact .inl rfl
  | fileBlock => exact absurd hw h

theorem cont_popNext {ie : InnerEntry} {p : List WalkLink} {ls : List WalkLink} {aw : List Place} (h : aw = p.reverse.map toPlace) :
    (Walker.popNext (some ie) (p ++ ls.reverse)).should_continue = decide (([] : List Place) ++ (ls.map toPlace ++ aw) ≠ []) := by
  rw [popNext_continue, popNext_some, h]
  by_cases h1 : p = [] <;> by_cases h2 : ls = [] <;> simp [h1, h2]

theorem RInv.step_rest {ps : List Bytes} (hps : Pieces name ps) (h : RInv cid name before level w [] (a :: aw)) {b : Bytes}
    {cache k : Option VisitCache} (hc : ∀ k, cache = some k → CacheObtainable k) {item : ContinuedWalk} {w' : Walker}
    (hs : w.stepRel b cache = some (.ok item, w', k)) : Stepped cid name (namePath ps) before level a aw b item w' := by
  have hr := h.resting
  obtain ⟨n, hn⟩ := h.nextIs
  have haw : a.what ≠ .fileBlock := h.fb_what.2 a (by simp)
  have hawr := fun x hx => h.fb_what.2 x (List.mem_cons_of_mem a hx)
  have hpath := h.enteredPath_eq hps hn
  have hcur := h.empty_iff
  obtain ⟨ci, hci⟩ := bucketCid_exists cid before a
  rw [stepRel_atRest hr] at hs
  obtain ⟨parsed, hp, hs⟩ := Option.map_eq_some_iff.1 hs
  cases parsed with
  | error e => cases hs
  | ok m =>
  -- leaves of the walk: symlinks and the first blocks of files
  have leaf : ∀ (k : InnerKind) (p : PathBuf) (item : ContinuedWalk) (w' : Walker) (fb' : List Place), enteredPath w n = some p → pathOf item = p →
      (m.data.Ty = .Raw ∨ m.data.Ty = .File ∨ m.data.Ty = .Symlink) → k ≠ .Directory → k ≠ .RootDirectory → k ≠ .BucketAtRoot → (∀ c q, item ≠ .Bucket c q) →
      (∀ c q md, item ≠ .Directory c q md) →
      ∀ md, w'.current = some ⟨n.cid, k, p, md, n.depth⟩ → w'.links = w.pending.reverse → (w'.next = none → w'.pending = []) →
      m.links.filterMap (followRel a m) = fb' → w'.should_continue = decide (fb' ++ aw ≠ []) →
      ((w'.atRest ∧ fb' = []) ∨ ∃ v sz seg, k = .File (some v) sz ∧ Asking v ∧ item = .File seg n.cid p md sz ∧
        fb'.map (·.cid) = visitAsks (some v) ∧ ∀ a ∈ fb', a.what = .fileBlock ∧ a.level = n.depth) →
      itemRel (namePath ps) before level a ci m (fileEnds (fb' ++ aw)) = some item → Stepped cid name (namePath ps) before level a aw b item w' := by
    intro k p item w' fb' hep hpi hty k1 k2 k3 i1 i2 md hw1 hw2 hw3 hfol hcont hfile hitem
    refine ⟨m, fb', aw, ci, hp, by rw [hfol], ?_, hci, hitem⟩
    have := h.enter (ls := []) (fb' := fb') (w' := w') (item' := item) (ie' := ⟨n.cid, k, p, md, n.depth⟩) hn nofun rfl hw1 (by rw [hw2]; rfl) hpi.symm
      ⟨fun h => absurd h k1, fun ⟨c, q, md, h⟩ => absurd h (i2 c q md)⟩ (fun h => absurd h k2) (fun ⟨c, q, h⟩ => absurd h (i1 c q)) (fun h => absurd h k3) (fun _ => .inr nofun)
      hw3 hcont hfile
    exact this
  have notBucketShard : m.data.Ty ≠ .HAMTShard → pathTo (namePath ps) before.getLast? level a (a.what = .bucket ∧ m.data.Ty = .HAMTShard) = enteredPath w n := by
    intro hne
    rw [hpath]
    unfold pathTo
    simp only [hne, and_false, if_false]
  have hcid := hn.cid_eq
  unfold Walker.nextBlockP at hs
  simp only at hs
  cases hty : m.data.Ty with
  | Metadata => rw [hty] at hs; cases hs
  | Symlink =>
    rw [hty] at hs
    simp only [Walker.nextSymlinkR, hn.next, enterLeafR_eq hr _ _ hn.deep] at hs
    cases hep : enteredPath w n with
    | none => rw [hep] at hs; cases hs
    | some p =>
      rw [hep] at hs
      cases hs
      have hfol : m.links.filterMap (followRel a m) = [] := by
        rw [List.filterMap_eq_nil_iff]
        intro l _
        simp [followRel, haw, hty]
      refine leaf .Symlink p _ _ [] hep rfl (.inr (.inr hty)) nofun nofun nofun nofun nofun _ (popNext_current _ _) (popNext_rlinks _ _) (popNext_none _ _) hfol ?_
        (.inl ⟨atRest_of (popNext_current _ _) nofun, rfl⟩) ?_
      · have := cont_popNext (ie := ⟨n.cid, .Symlink, p, Metadata.ofUnixFs m.data, n.depth⟩) (p := w.pending) (ls := []) hn.aw_eq
        simpa using this
      · unfold itemRel
        rw [if_neg haw, notBucketShard (by rw [hty]; nofun), hep, hty]
        simp only [hcid, ofUnixFs_eq]
  | Directory =>
    rw [hty] at hs
    simp only at hs
    split at hs
    · cases hs
    · next m' hm' =>
      cases checkDirectorySupported_ok hm'
      obtain ⟨n', ls, ie, hn', hls, he, rfl⟩ := nextDir_ok hs
      rw [hn.next] at hn'
      cases hn'
      rw [enterDirectoryR_eq hr _ hn.deep] at he
      rw [← hn.level_eq] at hls
      obtain ⟨hk1, hk2⟩ := directory_places haw hty hls
      cases hep : enteredPath w n with
      | none => rw [hep] at he; cases he
      | some p =>
        rw [hep] at he
        cases he
        have hls' : ∀ l ∈ ls, slash ∉ l.name ∧ ((l.name ≠ [] ∧ l.depth = n.depth + 1) ∨ (l.name = [] ∧ l.depth = n.depth)) := by
          intro l hl
          obtain ⟨e1, e2, e3⟩ := hk2 l hl
          exact ⟨e1, .inl ⟨e2, by rw [e3, hn.level_eq]⟩⟩
        refine ⟨m, [], ls.map toPlace ++ aw, ci, hp, by rw [hk1]; rfl, ?_, hci, ?_⟩
        · refine h.enter (ls := ls) (fb' := []) hn hls' (ie' := ⟨n.cid, if w.current = none then .RootDirectory else .Directory, p, Metadata.ofUnixFs m.data, n.depth⟩) rfl
            (popNext_current _ _) (by rw [popNext_rlinks]; simp) ?_ ?_ ?_ ?_ ?_ ?_ (popNext_none _ _) (cont_popNext hn.aw_eq) (.inl ⟨atRest_of (popNext_current _ _) ?_, rfl⟩)
          · by_cases e : w.current = none <;> simp only [e, if_true, if_false] <;> rfl
          · by_cases e : w.current = none <;> simp [e]
          · by_cases e : w.current = none
            · simp only [e, if_true, true_and]
              exact fun _ l hl => (hk2 l hl).2.1
            · simp [e]
          · by_cases e : w.current = none <;> simp [e]
          · by_cases e : w.current = none <;> simp [e]
          · exact fun _ => .inr fun l hl => (hk2 l hl).2.1
          · intro v sz
            by_cases e : w.current = none <;> simp [e]
        · unfold itemRel
          rw [if_neg haw, notBucketShard (by rw [hty]; nofun), hep, hty]
          by_cases e : w.current = none
          · simp only [hcur.2 e, e, if_true, hcid, ofUnixFs_eq]
          · dsimp only
            rw [if_neg fun e' => e (hcur.1 e')]
            simp only [e, if_false, hcid, ofUnixFs_eq]
  | HAMTShard =>
    rw [hty] at hs
    simp only at hs
    split at hs
    · cases hs
    · cases hs
    · next m' hm' =>
      cases checkHamtshardSupported_ok hm'
      obtain ⟨n', ls, ie, hn', hls, he, rfl⟩ := nextDir_ok hs
      rw [hn.next] at hn'
      cases hn'
      rw [← hn.level_eq] at hls
      obtain ⟨hk1, hk2⟩ := shard_places haw hty hls
      rw [hn.level_eq] at hk2
      rcases whats haw with hw | hw
      · -- a bucket
        obtain ⟨item0, ie0, g1, g2, g3, g4, g5, g6⟩ := h.bucket hn hw
        obtain ⟨b1, b2⟩ := enterShardR_bucket g1.cur hr (Metadata.ofUnixFs m.data) g3 g4 g5 g6
        by_cases hd : ie0.kind = .Directory
        · obtain ⟨p, hp⟩ := b1 hd
          rw [hp] at he
          cases he
        · rw [b2 hd] at he
          cases hup : upBy (ie0.depth - n.depth) ie0.path with
          | none => rw [hup] at he; cases he
          | some p =>
            rw [hup] at he
            simp only [Res.ok.injEq, Prod.mk.injEq] at he
            obtain ⟨rfl, rfl⟩ := he
            have hcne : w.current ≠ none := by rw [g1.cur]; nofun
            have hbc : BucketCid cid before a (if ie0.kind = .BucketAtRoot then ie0.cid else n.cid) := by
              by_cases hk : ie0.kind = .BucketAtRoot
              · rw [if_pos hk]
                exact ⟨fun _ => (g1.atRoot hk).1, fun h => absurd (g1.atRoot hk).2.1 h⟩
              · rw [if_neg hk]
                refine ⟨fun h => ?_, fun _ => hcid.symm⟩
                rcases g1.onlyBuckets h with h | h
                · exact absurd h hk
                · exact absurd g3 (h n (by rw [links_eq hn.next]; simp))
            have hdep : (if ie0.kind = .BucketAtRoot then ie0 else ⟨n.cid, .Bucket, p, ie0.metadata, n.depth⟩).depth = n.depth := by
              by_cases hk : ie0.kind = .BucketAtRoot
              · rw [if_pos hk, g5 hk]
              · rw [if_neg hk]
            have hpp : (if ie0.kind = .BucketAtRoot then ie0 else ⟨n.cid, .Bucket, p, ie0.metadata, n.depth⟩).path = p := by
              by_cases hk : ie0.kind = .BucketAtRoot
              · rw [if_pos hk]
                rw [g5 hk, Nat.sub_self, upBy_zero] at hup
                exact Option.some.inj hup
              · rw [if_neg hk]
            have hkind : (if ie0.kind = .BucketAtRoot then ie0 else ⟨n.cid, .Bucket, p, ie0.metadata, n.depth⟩).kind = if ie0.kind = .BucketAtRoot then .BucketAtRoot else .Bucket := by
              by_cases hk : ie0.kind = .BucketAtRoot
              · rw [if_pos hk, if_pos hk, hk]
              · rw [if_neg hk, if_neg hk]
            refine ⟨m, [], ls.map toPlace ++ aw, _, hp, by rw [hk1]; rfl, ?_, hbc, ?_⟩
            · refine h.enter (ls := ls) (fb' := []) hn hk2 hdep (popNext_current _ _) (by rw [popNext_rlinks]; simp) hpp ?_ ?_ ?_ ?_ ?_ (popNext_none _ _) (cont_popNext hn.aw_eq)
                (.inl ⟨atRest_of (popNext_current _ _) ?_, rfl⟩)
              · rw [hkind]
                refine ⟨fun h => ?_, by rintro ⟨_, _, _, h⟩; cases h⟩
                split at h <;> cases h
              · rw [hkind]
                intro h
                split at h <;> cases h
              · intro _
                refine ⟨hcne, g3, fun ie hie hk => ?_⟩
                rw [g1.cur] at hie
                cases hie
                rw [hkind, if_pos hk]
              · rw [hkind]
                intro hx
                split at hx
                · next hk =>
                  refine ⟨by rw [if_pos hk]; exact (g1.atRoot hk).1, .inr ⟨ie0, g1.cur, hk, (g5 hk).symm, _, _, rfl⟩⟩
                · cases hx
              · exact fun e => absurd e hcne
              · intro v sz hx
                rw [hkind] at hx
                split at hx <;> cases hx
            · unfold itemRel pathTo
              rw [if_neg haw, g1.last, hty]
              simp only [hw, and_self, if_true]
              rw [← g2, hn.level_eq, ← g1.path, hup]
      · -- not a bucket
        have hnb : w.current = none ∨ n.name ≠ [] := by
          have := hn.what
          rw [hw] at this
          by_cases e : w.current = none
          · exact .inl e
          · refine .inr fun e' => ?_
            rw [if_pos ⟨e, e'⟩] at this
            cases this
        rw [enterShardR_named hr _ hn.deep hnb] at he
        cases hep : enteredPath w n with
        | none => rw [hep] at he; cases he
        | some p =>
          rw [hep] at he
          cases he
          refine ⟨m, [], ls.map toPlace ++ aw, ci, hp, by rw [hk1]; rfl, ?_, hci, ?_⟩
          · refine h.enter (ls := ls) (fb' := []) hn hk2 (ie' := ⟨n.cid, if w.current = none then .BucketAtRoot else .RootBucket, p, Metadata.ofUnixFs m.data, n.depth⟩) rfl
              (popNext_current _ _) (by rw [popNext_rlinks]; simp) rfl ?_ ?_ ?_ ?_ ?_ (popNext_none _ _) (cont_popNext hn.aw_eq) (.inl ⟨atRest_of (popNext_current _ _) ?_, rfl⟩)
            · by_cases e : w.current = none <;> simp [e]
            · by_cases e : w.current = none <;> simp [e]
            · rintro ⟨_, _, h⟩; cases h
            · by_cases e : w.current = none
              · intro _
                refine ⟨?_, .inl e⟩
                have h1 := hn.root e
                have h2 := hn.next
                rw [h1] at h2
                cases h2
                rfl
              · simp [e]
            · exact fun e => .inl (by simp [e])
            · intro v sz
              by_cases e : w.current = none <;> simp [e]
          · unfold itemRel
            have hpt : pathTo (namePath ps) before.getLast? level a (a.what = .bucket ∧ m.data.Ty = .HAMTShard) = some p := by
              rw [← hep, hpath]
              unfold pathTo
              simp only [hw, reduceCtorEq, false_and, if_false]
            rw [if_neg haw, hpt, hty]
            simp only [hw, reduceCtorEq, if_false, hcid, ofUnixFs_eq]
  | _ =>
    have htf : m.data.Ty = .Raw ∨ m.data.Ty = .File := by simp [hty]
    rw [hty] at hs
    simp only at hs
    unfold Walker.nextFirstR at hs
    split at hs
    · cases hs
    · next e _ _ => exact absurd (congrArg Prod.fst hs) (ofFileReadFailed_ne_ok e _)
    · next r k' hr' =>
      simp only [hn.next, enterLeafR_eq hr _ _ hn.deep] at hs
      obtain ⟨s1, s2, s3, s4, s5, s6⟩ := startFromParsedR_ok hc hr'
      cases hep : enteredPath w n with
      | none => rw [hep] at hs; cases hs
      | some p =>
        rw [hep] at hs
        cases hs
        have hfol := followRel_file (a := a) htf
        have hcs : (m.links.filterMap (followRel a m)).map (·.cid) = visitAsks r.next := by
          rw [hfol, placeAt_cids, s5]
        have hsome : r.next.isSome = decide (m.links.filterMap (followRel a m) ≠ []) := by
          rw [asks_some s6, ← hcs]
          simp only [ne_eq, List.map_eq_nil_iff]
        have hall : ∀ x ∈ m.links.filterMap (followRel a m), x.what = .fileBlock ∧ x.level = n.depth := by
          intro x hx
          rw [hfol] at hx
          obtain ⟨e1, e2⟩ := placeAt_spec hx
          exact ⟨e1, e2.trans hn.level_eq⟩
        have hfe : fileEnds (m.links.filterMap (followRel a m) ++ aw) = !r.next.isSome := by
          rw [fileEnds_eq (fun x hx => (hall x hx).1) hawr, hsome]
          by_cases e2 : m.links.filterMap (followRel a m) = [] <;> simp [e2]
        refine leaf (.File r.next r.total_size) p _ _ _ hep rfl (by rcases htf with e | e <;> simp [e]) nofun nofun nofun nofun nofun _ (popNext_current _ _) (popNext_rlinks _ _)
          (popNext_none _ _) rfl ?_ ?_ ?_
        · show (r.next.isSome || (Walker.popNext _ w.pending).next.isSome) = _
          rw [hsome, popNext_some, hn.aw_eq]
          by_cases e1 : w.pending = [] <;> by_cases e2 : m.links.filterMap (followRel a m) = [] <;> simp [e1, e2]
        · cases hv : r.next with
          | none =>
            rw [hv] at hcs
            refine .inl ⟨?_, List.map_eq_nil_iff.1 hcs⟩
            intro ie v sz e1 e2
            rw [show ({ Walker.popNext _ w.pending with should_continue := _ } : Walker).current = (Walker.popNext _ w.pending).current from rfl, popNext_current] at e1
            cases e1
            cases e2
          | some v =>
            rw [hv] at hcs
            exact .inr ⟨v, r.total_size, _, rfl, s6 v hv, rfl, hcs, hall⟩
        · unfold itemRel
          have hne : m.data.Ty ≠ .HAMTShard := by rw [hty]; nofun
          rw [if_neg haw, notBucketShard hne, hep, hty]
          simp only [hcid, s2, s3, s4, hfe]
          rfl
end

end Verif
