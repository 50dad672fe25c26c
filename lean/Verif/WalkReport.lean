import Verif.WalkPath
/-
Every successful step reports what it should and keeps the invariant about paths.
-/
namespace Verif
open Verif.Spec Verif.Props

theorem last_eq {w : Walker} {fb rest : List Awaited} (h : WInv w fb rest) {ie : InnerEntry} {next : Option FileVisit} {sz : Nat}
    (hc : w.current = some ie) (hk : ie.kind = .File next sz) : (!next.isSome) = decide (fb = []) := by
  cases next with
  | none =>
    rcases h.file with h | ⟨ie', v, sz', h1, h2, _⟩
    · simp [h.2]
    · rw [hc] at h1; cases h1; rw [hk] at h2; cases h2
  | some v =>
    have := (h.file.of_inFile hc hk).1
    simp [this]

theorem Walker.new_current (cid : Cid) (name : Bytes) : (Walker.new cid name).current = none := rfl

theorem kids_what {a : Awaited} {m : FlatUnixFs} (h : a.what = .fileBlock ∨ m.data.Ty = .Raw ∨ m.data.Ty = .File) :
    ∀ x ∈ m.links.filterMap (follow a m), x.what = .fileBlock := by
  intro x hx
  rcases h with h | h
  · rw [filterMap_follow_fileBlock a m h] at hx
    obtain ⟨l, _, hl⟩ := List.mem_filterMap.1 hx
    exact linkTo_what hl
  · rw [filterMap_follow_file a m h] at hx
    obtain ⟨l, _, hl⟩ := List.mem_filterMap.1 hx
    exact linkTo_what hl

theorem PInv.ofCurrent {cid : Cid} {name : Bytes} {before : List ContinuedWalk} {w : Walker} {rest : List Awaited}
    (h : PInv cid name before w rest) {ie : InnerEntry} (hc : w.current = some ie) : PInvSome cid before w rest ie := by
  rcases h with h | ⟨ie', h1, h2⟩
  · rw [h.new] at hc; cases hc
  · rw [hc] at h1; cases h1; exact h2

/-- Neither a bucket nor at the root: the parts of the invariant which speak of buckets hold trivially. -/
theorem PInvSome.of_named {cid : Cid} {before : List ContinuedWalk} {item : ContinuedWalk} {w' : Walker} {rest' : List Awaited} {ie : InnerEntry}
    (hne : before ≠ []) (hok : EntryOk ie) (hst : Stack ie.path.comps w'.links rest')
    (hitem : ∀ c p, item ≠ .Bucket c p) (hk1 : ie.kind ≠ .RootDirectory) (hk2 : ie.kind ≠ .BucketAtRoot)
    (hdir : ie.kind = .Directory ↔ ∃ c p m, item = .Directory c p m)
    (hfile : ∀ v sz, ie.kind = .File v sz → ∃ seg, item = .File seg ie.cid ie.path ie.metadata sz ∧ seg.isLast = !v.isSome)
    (hisFile : ∀ seg c p m s, item = .File seg c p m s → ∃ v sz, ie.kind = .File v sz) :
    PInvSome cid (before ++ [item]) w' rest' ie where
  ne := by simp
  ok := hok
  stack := hst
  rootDir h := absurd h hk1
  atRoot h := absurd h hk2
  buckets h := by
    obtain ⟨_, c, p, h⟩ := (rootBuckets_append hne item).1 h
    exact absurd h (hitem c p)
  dir := by simpa using hdir
  file v sz h := by simpa using hfile v sz h
  isFile seg c p m s h := by
    simp only [List.getLast?_append, List.getLast?_singleton, Option.some_or, Option.some.injEq] at h
    exact hisFile seg c p m s h

theorem PInv.step {cid : Cid} {name : Bytes} {before : List ContinuedWalk} {w w' : Walker} {fb rest : List Awaited} {b : Bytes}
    {cache : Option VisitCache} {item : ContinuedWalk} (hw : WInv w fb rest) (hp : PInv cid name before w rest)
    (hname : slash ∉ name) (hc : ∀ k, cache = some k → CacheObtainable k) (hs : WStep w b cache item w')
    {m : FlatUnixFs} {a : Awaited} {aw fb' rest' : List Awaited} (hm : FlatUnixFs.tryParse b = .ok m) (haw : fb ++ rest = a :: aw)
    (hkids : m.links.filterMap (follow a m) ++ aw = fb' ++ rest') (hw' : WInv w' fb' rest') :
    PInv cid name (before ++ [item]) w' rest' ∧ reportedFor cid before a m (decide (fb' = [])) item := by
  cases hs with
  | later ie v sz c next h1 h2 h3 h4 h5 =>
    have hps := hp.ofCurrent h1
    obtain ⟨hne, hwhat, hcids, -⟩ := hw.file.of_inFile h1 h2
    obtain ⟨P, _, i, m', fs, hpend, -, hm', -, ha, hl, hn⟩ := continueWalk_ok h3
    rw [hm] at hm'
    cases hm'
    obtain ⟨_, _, _, root, ls, hv⟩ := hw.file.of_inFile h1 h2
    have hrange := (visiting_inv hv).2.1
    have hcont : c = blockContent m := by
      unfold blockContent
      by_cases hlinks : m.links = []
      · rw [if_pos hlinks]
        have := (hl hlinks).1
        rw [hrange, maybeTargetSlice] at this
        cases this; rfl
      · rw [if_neg hlinks]; exact (hn hlinks).1
    cases fb with
    | nil => exact absurd rfl hne
    | cons a' fb =>
      simp only [List.cons_append, List.cons.injEq] at haw
      obtain ⟨rfl, rfl⟩ := haw
      have hawhat : a'.what = .fileBlock := hwhat a' (by simp)
      obtain ⟨-, rfl⟩ := split_unique (fb := m.links.filterMap (follow a' m) ++ fb) (rest := rest) (by rw [← hkids, List.append_assoc])
        (by
          intro x hx
          rcases List.mem_append.1 hx with hx | hx
          · exact kids_what (.inl hawhat) x hx
          · exact hwhat x (by simp [hx])) hw'.file.what hw.what hw'.what
      have hlast := last_eq hw' (ie := { ie with kind := .File next sz }) (by rw [h5]) rfl
      subst h5
      have hls : (Walker.mk (some { ie with kind := .File next sz }) w.next w.pending (next.isSome || w.next.isSome)).links = w.links := rfl
      refine ⟨.inr ⟨_, rfl, PInvSome.of_named hps.ne ⟨hps.ok.rel, hps.ok.depth⟩ (by rw [hls]; exact hps.stack) (by subst h4; simp) (by simp)
        (by simp) (by subst h4; simp) ?_ (by intros; exact ⟨_, _, rfl⟩)⟩, ?_, ?_⟩
      · intro v' sz' hk
        cases hk
        exact ⟨_, h4, rfl⟩
      · intro _
        obtain ⟨seg, hseg, _⟩ := hps.file _ _ h2
        unfold itemFor
        simp only [hawhat, hseg]
        rw [h4, hcont, hlast]
        rfl
      · intro h; rw [hawhat] at h; cases h
  | directory m' n ls ie hr hm' hty hsup hn hls he hw'' =>
    rw [hm] at hm'
    cases hm'
    have hfb := hw.file.of_atRest hr
    subst hfb
    simp only [List.nil_append] at haw
    subst haw
    have hawhat : a.what ≠ .fileBlock := hw.what a (by simp)
    have hk := directory_links (a := a) hawhat hty hls
    obtain ⟨rfl, rfl⟩ := split_unique (fb := []) (rest := m.links.filterMap (follow a m) ++ aw) (by simpa using hkids) (by simp)
      hw'.file.what (by
        intro x hx
        rcases List.mem_append.1 hx with hx | hx
        · obtain ⟨y, _, hxy⟩ := zip_mem_right hk.1 x hx
          have := (hk.2 _ hxy).2.2.2.1
          simp only at this
          rw [this]; simp
        · exact hw.what x (by simp [hx])) hw'.what
    have hkids' : ∀ {cur : List Bytes}, a.path = cur → n.depth = cur.length + 1 → ∀ x ∈ ls.zip (m.links.filterMap (follow a m)),
        (x.1 = ⟨x.2.cid, x.1.name, cur.length + 2⟩ ∧ x.1.name ≠ [] ∧ slash ∉ x.1.name ∧ x.2.what = .entry ∧
          x.2.path = cur ++ [x.1.name]) ∨
        (x.1 = ⟨x.2.cid, [], cur.length + 1⟩ ∧ x.2.what = .bucket ∧ x.2.path = cur) := by
      intro cur hcur hd x hx
      obtain ⟨h1, h2, h3, h4, h5, l, hl, hln⟩ := hk.2 x hx
      exact .inl ⟨by rw [h1, hd], h2, h3, h4, by rw [h5, hcur]⟩
    have hlinks' : w'.links = ls ++ w.pending.reverse := by
      rw [hw'', popNext_wlinks]; simp
    have hcur' : w'.current = some ie := by rw [hw'', popNext_current]
    rcases hp with hp | ⟨ie0, h0, hps⟩
    · have hnew := hp.new
      subst hnew
      have hbef := hp.nil
      subst hbef
      have hrest := hp.rest
      simp only [List.cons.injEq] at hrest
      obtain ⟨rfl, rfl⟩ := hrest
      cases hn
      unfold Walker.enterDirectory at he
      rw [Walker.new_current] at he
      simp only [Res.ok.injEq, Prod.mk.injEq] at he
      obtain ⟨hie, hit⟩ := he
      have hpath : ie.path = ⟨false, rootPath name⟩ := by rw [← hie]; exact push_root hname
      have hdepth : ie.depth = (rootPath name).length + 1 := by rw [← hie]; exact rootDepth name
      refine ⟨.inr ⟨ie, hcur', ?_⟩, ?_, by intro h; cases h⟩
      · constructor
        · simp
        · exact ⟨by rw [hpath], by rw [hpath, hdepth]⟩
        · rw [hlinks', hpath]
          exact Stack.push (by exact .nil) hk.1 (hkids' rfl (rootDepth name))
        · intro _ l hl
          rw [hlinks'] at hl
          simp only [Walker.new, List.reverse_nil, List.append_nil] at hl
          obtain ⟨x, hx⟩ : ∃ y, (l, y) ∈ ls.zip (m.links.filterMap (follow ⟨cid, rootPath name, .entry⟩ m)) := by
            obtain ⟨i, hi, rfl⟩ := List.mem_iff_getElem.1 hl
            exact ⟨(m.links.filterMap (follow ⟨cid, rootPath name, .entry⟩ m))[i]'(by rw [hk.1]; exact hi),
              List.mem_iff_getElem.2 ⟨i, by rw [List.length_zip, hk.1]; omega, by simp⟩⟩
          exact (hk.2 _ hx).2.1
        · intro h; rw [← hie] at h; cases h
        · intro _
          right
          intro l hl
          rw [hlinks'] at hl
          simp only [Walker.new, List.reverse_nil, List.append_nil] at hl
          obtain ⟨x, hx⟩ : ∃ y, (l, y) ∈ ls.zip (m.links.filterMap (follow ⟨cid, rootPath name, .entry⟩ m)) := by
            obtain ⟨i, hi, rfl⟩ := List.mem_iff_getElem.1 hl
            exact ⟨(m.links.filterMap (follow ⟨cid, rootPath name, .entry⟩ m))[i]'(by rw [hk.1]; exact hi),
              List.mem_iff_getElem.2 ⟨i, by rw [List.length_zip, hk.1]; omega, by simp⟩⟩
          exact (hk.2 _ hx).2.1
        · rw [← hie, ← hit]; simp [InnerEntry.newRoot]
        · intro v sz h; rw [← hie] at h; cases h
        · intro seg c p md s h; rw [← hit] at h; simp at h
      · intro _
        unfold itemFor
        simp only [hty, if_true]
        rw [← hit, ← hpath, ← hie]
        rfl
    · have hstack := hps.stack
      rw [links_some hn] at hstack
      have hrest0 : ∀ v sz, ie0.kind ≠ .File (some v) sz := fun v sz => hr ie0 v sz h0
      unfold Walker.enterDirectory at he
      rw [h0] at he
      simp only at he
      cases hstack with
      | @entry _ B _ _ _ _ hB g1 g2 g4 g5 g6 g7 g8 =>
        have g3 : n.name = dot → B = 0 := by
          intro hdot
          refine Classical.byContradiction fun h0 => ?_
          rw [g4, hdot, asKind_dot hps.ok hB h0 hrest0] at he
          cases he
        rw [g4, asKind_eq hps.ok hB g1 g2 g3 hrest0] at he
        simp only [Res.bind_ok, Res.ok.injEq, Prod.mk.injEq] at he
        obtain ⟨rfl, rfl⟩ := he
        refine ⟨.inr ⟨_, hcur', PInvSome.of_named hps.ne ⟨rfl, ?_⟩ ?_ (by simp) (by simp) (by simp) (by simp) (by simp) (by simp)⟩, ?_, ?_⟩
        · simp [Nat.min_eq_left hB]
        · rw [hlinks']
          refine Stack.push (g8.mono ?_) hk.1 (hkids' g5 ?_)
          · exact List.prefix_append _ _
          · rw [g4]; simp [Nat.min_eq_left hB]
        · intro _
          unfold itemFor
          simp only [g7, hty, hps.ne, if_false, g5, g6, ofUnixFs_eq]
        · intro h; rw [g7] at h; cases h
      | @bucket _ B _ _ _ _ hB g1 g2 g3 g4 g5 g6 =>
        obtain ⟨p, hpan⟩ := asKind_bucket (ε := WalkError) hps.ok hB .Directory n.cid (Metadata.ofUnixFs m.data)
        rw [g1, g2, hpan] at he
        cases he
  | shard m' n ls ie hr hm' hty hsup hn hls he hw'' =>
    rw [hm] at hm'
    cases hm'
    have hfb := hw.file.of_atRest hr
    subst hfb
    simp only [List.nil_append] at haw
    subst haw
    have hawhat : a.what ≠ .fileBlock := hw.what a (by simp)
    have hk := shard_links (a := a) hawhat hty hls
    obtain ⟨rfl, rfl⟩ := split_unique (fb := []) (rest := m.links.filterMap (follow a m) ++ aw) (by simpa using hkids) (by simp)
      hw'.file.what (by
        intro x hx
        rcases List.mem_append.1 hx with hx | hx
        · obtain ⟨y, _, hxy⟩ := zip_mem_right hk.1 x hx
          rcases hk.2 _ hxy with h | h
          · have := h.2.2.2.1; simp only at this; rw [this]; simp
          · have := h.2.1; simp only at this; rw [this]; simp
        · exact hw.what x (by simp [hx])) hw'.what
    have hkids' : ∀ {cur : List Bytes}, a.path = cur → n.depth = cur.length + 1 → ∀ x ∈ ls.zip (m.links.filterMap (follow a m)),
        (x.1 = ⟨x.2.cid, x.1.name, cur.length + 2⟩ ∧ x.1.name ≠ [] ∧ slash ∉ x.1.name ∧ x.2.what = .entry ∧
          x.2.path = cur ++ [x.1.name]) ∨
        (x.1 = ⟨x.2.cid, [], cur.length + 1⟩ ∧ x.2.what = .bucket ∧ x.2.path = cur) := by
      intro cur hcur hd x hx
      rcases hk.2 x hx with ⟨h1, h2, h3, h4, h5, l, hl, nm, hln, hnm⟩ | ⟨h1, h2, h3⟩
      · exact .inl ⟨by rw [h1, hd], h2, h3, h4, by rw [h5, hcur]⟩
      · exact .inr ⟨by rw [h1, hd], h2, by rw [h3, hcur]⟩
    have hdepths : ∀ l ∈ ls, l.name = [] → l.depth = n.depth := by
      intro l hl hl0
      obtain ⟨x, hx⟩ : ∃ y, (l, y) ∈ ls.zip (m.links.filterMap (follow a m)) := by
        obtain ⟨i, hi, rfl⟩ := List.mem_iff_getElem.1 hl
        exact ⟨(m.links.filterMap (follow a m))[i]'(by rw [hk.1]; exact hi),
          List.mem_iff_getElem.2 ⟨i, by rw [List.length_zip, hk.1]; omega, by simp⟩⟩
      rcases hk.2 _ hx with h | h
      · exact absurd hl0 h.2.1
      · have := h.1; simp only at this; rw [this]
    have hlinks' : w'.links = ls ++ w.pending.reverse := by
      rw [hw'', popNext_wlinks]; simp
    have hcur' : w'.current = some ie := by rw [hw'', popNext_current]
    rcases hp with hp | ⟨ie0, h0, hps⟩
    · have hnew := hp.new
      subst hnew
      have hbef := hp.nil
      subst hbef
      have hrest := hp.rest
      simp only [List.cons.injEq] at hrest
      obtain ⟨rfl, rfl⟩ := hrest
      cases hn
      unfold Walker.enterShard at he
      rw [Walker.new_current] at he
      simp only [Res.ok.injEq, Prod.mk.injEq] at he
      obtain ⟨hie, hit⟩ := he
      have hpath : ie.path = ⟨false, rootPath name⟩ := by rw [← hie]; exact push_root hname
      have hdepth : ie.depth = (rootPath name).length + 1 := by rw [← hie]; exact rootDepth name
      refine ⟨.inr ⟨ie, hcur', ?_⟩, ?_, by intro h; cases h⟩
      · constructor
        · simp
        · exact ⟨by rw [hpath], by rw [hpath, hdepth]⟩
        · rw [hlinks', hpath]
          exact Stack.push (by exact .nil) hk.1 (hkids' rfl (rootDepth name))
        · intro h; rw [← hie] at h; cases h
        · intro _
          refine ⟨by rw [← hie]; rfl, rootBuckets_single _, ?_⟩
          intro l hl hl0
          rw [hlinks'] at hl
          simp only [Walker.new, List.reverse_nil, List.append_nil] at hl
          rw [hdepths l hl hl0, ← hie]
          rfl
        · intro _; left; rw [← hie]; rfl
        · rw [← hie, ← hit]; simp [InnerEntry.newRoot]
        · intro v sz h; rw [← hie] at h; cases h
        · intro seg c p md s h; rw [← hit] at h; simp at h
      · intro _
        unfold itemFor
        simp only [hty]
        rw [← hit, ← hpath, ← hie]
        rfl
    · have hstack := hps.stack
      rw [links_some hn] at hstack
      have hrest0 : ∀ v sz, ie0.kind ≠ .File (some v) sz := fun v sz => hr ie0 v sz h0
      unfold Walker.enterShard at he
      rw [h0] at he
      simp only at he
      cases hstack with
      | @entry _ B _ _ _ _ hB g1 g2 g4 g5 g6 g7 g8 =>
        have g3 : n.name = dot → B = 0 := by
          intro hdot
          refine Classical.byContradiction fun h0 => ?_
          rw [if_neg g1, g4, hdot, asKind_dot hps.ok hB h0 hrest0] at he
          cases he
        rw [if_neg g1, g4, asKind_eq hps.ok hB g1 g2 g3 hrest0] at he
        simp only [Res.bind_ok, Res.ok.injEq, Prod.mk.injEq] at he
        obtain ⟨rfl, rfl⟩ := he
        refine ⟨.inr ⟨_, hcur', PInvSome.of_named hps.ne ⟨rfl, ?_⟩ ?_ (by simp) (by simp) (by simp) (by simp) (by simp) (by simp)⟩, ?_, ?_⟩
        · simp [Nat.min_eq_left hB]
        · rw [hlinks']
          refine Stack.push (g8.mono ?_) hk.1 (hkids' g5 ?_)
          · exact List.prefix_append _ _
          · rw [g4]; simp [Nat.min_eq_left hB]
        · intro _
          unfold itemFor
          simp only [g7, hty, g5, g6, ofUnixFs_eq]
        · intro h; rw [g7] at h; cases h
      | @bucket _ B _ _ _ _ hB g1 g2 g3 g4 g5 g6 =>
        rw [if_pos g1, Res.bind_ok_iff] at he
        obtain ⟨ie1, hb1, he⟩ := he
        cases he
        have hnin : n ∈ w.links := by rw [links_some hn]; simp
        by_cases hbk : ie0.kind = .BucketAtRoot
        · -- more of the root
          obtain ⟨r1, r2, r3⟩ := hps.atRoot hbk
          have hd := r3 n hnin g1
          have hie1 : ie = ie0 := by
            rcases asBucket_kind hb1 with h | h
            · exact h.2
            · exact absurd hbk h.2.2
          subst hie1
          have hBl : B = ie.path.comps.length := by have := hps.ok.depth; omega
          have hpath : a.path = ie.path.comps := by rw [g3, hBl]; simp
          refine ⟨.inr ⟨ie, hcur', ?_⟩, ?_, ?_⟩
          · constructor
            · simp
            · exact hps.ok
            · rw [hlinks']
              refine Stack.push (g6.mono (List.take_prefix _ _)) hk.1 (hkids' hpath ?_)
              rw [g2, hBl]
            · intro h; rw [hbk] at h; cases h
            · intro _
              refine ⟨r1, (rootBuckets_append hps.ne _).2 ⟨r2, _, _, rfl⟩, ?_⟩
              intro l hl hl0
              rw [hlinks'] at hl
              rcases List.mem_append.1 hl with hl | hl
              · rw [hdepths l hl hl0, hd]
              · exact r3 l (by rw [links_some hn]; simp at hl; simp [hl]) hl0
            · intro _; exact .inl hbk
            · rw [hbk]; simp
            · intro v sz h; rw [hbk] at h; cases h
            · intro seg c p md s h; simp at h
          · intro h
            exact absurd ⟨g5, r2⟩ h
          · intro _ _
            refine ⟨hty, ?_⟩
            rw [r1, hps.ok.path_eq, hpath]
        · -- elsewhere
          have hnb : ¬ RootBuckets before := by
            intro h
            rcases hps.buckets h with h | h
            · exact hbk h
            · exact h n hnin g1
          have hpop := popWhileGt_eq (ε := WalkError) hB
          have hie1 : ie = ⟨n.cid, .Bucket, ⟨false, ie0.path.comps.take B⟩, ie0.metadata, B + 1⟩ := by
            unfold InnerEntry.asBucket at hb1
            have hpe := hps.ok.path_eq
            have hde := hps.ok.depth
            split at hb1
            · rename_i h; exact absurd h hbk
            all_goals first
              | cases hb1; done
              | (rw [hde, g2, hpe, hpop] at hb1
                 simp only [Res.bind_ok, ne_eq, not_true_eq_false, if_false] at hb1
                 cases hb1
                 rfl)
          subst hie1
          refine ⟨.inr ⟨_, hcur', ?_⟩, ?_, ?_⟩
          · constructor
            · simp
            · exact ⟨rfl, by simp [Nat.min_eq_left hB]⟩
            · rw [hlinks']
              refine Stack.push (by exact g6) hk.1 (hkids' g3 ?_)
              rw [g2]; simp [Nat.min_eq_left hB]
            · simp
            · simp
            · intro h
              exact absurd ((rootBuckets_append hps.ne _).1 h).1 hnb
            · simp
            · simp
            · simp
          · intro _
            unfold itemFor
            simp only [g5, hty, g3, g4]
          · intro _ h; exact absurd h hnb
  | first m' n r ie hr hm' hty hres hn he hitem hw'' =>
    rw [hm] at hm'
    cases hm'
    have hfb := hw.file.of_atRest hr
    subst hfb
    simp only [List.nil_append] at haw
    subst haw
    obtain ⟨-, rfl⟩ := split_unique (fb := m.links.filterMap (follow a m)) (rest := aw) hkids (kids_what (.inr hty)) hw'.file.what
      (fun x hx => hw.what x (by simp [hx])) hw'.what
    have hst : (IdleFileVisit.mk none).start b = .ok r := by rw [← start_parsed hm none hc]; exact hres
    obtain ⟨m', fs, hm', hacc, hl, hl'⟩ := start_ok hst
    rw [hm] at hm'
    cases hm'
    have hr' : r.content = blockContent m ∧ r.total_size = m.data.filesize.getD 0 ∧ r.metadata = Metadata.ofUnixFs m.data := by
      unfold blockContent
      rw [hacc.filesize]
      by_cases hlinks : m.links = []
      · rw [if_pos hlinks, hl hlinks]; exact ⟨rfl, rfl, rfl⟩
      · rw [if_neg hlinks]
        obtain ⟨ps, _, hr'⟩ := hl' hlinks
        rw [hr']; exact ⟨rfl, rfl, rfl⟩
    have hlinks' : w'.links = w.pending.reverse := by
      rw [hw'']
      exact popNext_wlinks _ _
    have hcur' : w'.current = some ie := by rw [hw'']; exact popNext_current _ _
    have hkind := (enterLeaf_kind he).1
    have hlast := last_eq hw' hcur' hkind
    rcases hp with hp | ⟨ie0, h0, hps⟩
    · have hnew := hp.new
      subst hnew
      have hbef := hp.nil
      subst hbef
      have hrest := hp.rest
      simp only [List.cons.injEq] at hrest
      obtain ⟨rfl, rfl⟩ := hrest
      cases hn
      unfold Walker.enterLeaf at he
      rw [Walker.new_current] at he
      simp only [Res.ok.injEq] at he
      have hpath : ie.path = ⟨false, rootPath name⟩ := by rw [← he]; exact push_root hname
      have hdepth : ie.depth = (rootPath name).length + 1 := by rw [← he]; exact rootDepth name
      refine ⟨.inr ⟨ie, hcur', ?_⟩, ?_, by intro h; cases h⟩
      · constructor
        · simp
        · exact ⟨by rw [hpath], by rw [hpath, hdepth]⟩
        · rw [hlinks']; exact .nil
        · intro h; rw [hkind] at h; cases h
        · intro h; rw [hkind] at h; cases h
        · intro _; right; intro l hl; rw [hlinks'] at hl; simp [Walker.new] at hl
        · rw [hkind, hitem]; simp
        · intro v sz h
          rw [hkind] at h
          cases h
          exact ⟨_, by rw [hitem]; rfl, rfl⟩
        · intro seg c p md s h; exact ⟨_, _, hkind⟩
      · intro _
        have hmd : ie.metadata = r.metadata ∧ ie.cid = cid := by rw [← he]; exact ⟨rfl, rfl⟩
        rw [hitem, hpath, hmd.1, hmd.2, hr'.1, hr'.2.1, hr'.2.2, hlast]
        unfold itemFor
        rcases hty with hty | hty <;> simp only [hty] <;> rfl
    · have hstack := hps.stack
      rw [links_some hn] at hstack
      have hrest0 : ∀ v sz, ie0.kind ≠ .File (some v) sz := fun v sz => hr ie0 v sz h0
      unfold Walker.enterLeaf at he
      rw [h0] at he
      simp only at he
      cases hstack with
      | @entry _ B _ _ _ _ hB g1 g2 g4 g5 g6 g7 g8 =>
        have g3 : n.name = dot → B = 0 := by
          intro hdot
          refine Classical.byContradiction fun h0 => ?_
          rw [g4, hdot, asKind_dot hps.ok hB h0 hrest0] at he
          cases he
        rw [g4, asKind_eq hps.ok hB g1 g2 g3 hrest0] at he
        simp only [Res.ok.injEq] at he
        subst he
        refine ⟨.inr ⟨_, hcur', PInvSome.of_named hps.ne ⟨rfl, ?_⟩ ?_ (by rw [hitem]; simp) (by simp) (by simp) (by rw [hitem]; simp) ?_
          (by intros; exact ⟨_, _, rfl⟩)⟩, ?_, ?_⟩
        · simp [Nat.min_eq_left hB]
        · rw [hlinks']
          exact g8.mono (List.prefix_append _ _)
        · intro v sz h
          cases h
          exact ⟨_, hitem, rfl⟩
        · intro _
          rw [hitem, hr'.1, hr'.2.1, hr'.2.2, hlast]
          unfold itemFor
          rcases hty with hty | hty <;> simp only [g7, hty, g5, g6, ofUnixFs_eq] <;> rfl
        · intro h; rw [g7] at h; cases h
      | @bucket _ B _ _ _ _ hB g1 g2 g3 g4 g5 g6 =>
        obtain ⟨p, hpan⟩ := asKind_bucket (ε := WalkError) hps.ok hB (.File r.next r.total_size) n.cid r.metadata
        rw [g1, g2, hpan] at he
        cases he
  | symlink m' n ie hr hm' hty hn he hitem hw'' =>
    rw [hm] at hm'
    cases hm'
    have hfb := hw.file.of_atRest hr
    subst hfb
    simp only [List.nil_append] at haw
    subst haw
    have hawhat : a.what ≠ .fileBlock := hw.what a (by simp)
    have hk : m.links.filterMap (follow a m) = [] := by
      rw [List.filterMap_eq_nil_iff]
      intro l _
      simp [follow, hawhat, hty]
    rw [hk] at hkids
    obtain ⟨rfl, rfl⟩ := split_unique (fb := []) (rest := aw) hkids (by simp) hw'.file.what
      (fun x hx => hw.what x (by simp [hx])) hw'.what
    have hlinks' : w'.links = w.pending.reverse := by
      rw [hw'']
      exact popNext_wlinks _ _
    have hcur' : w'.current = some ie := by rw [hw'']; exact popNext_current _ _
    have hkind := (enterLeaf_kind he).1
    rcases hp with hp | ⟨ie0, h0, hps⟩
    · have hnew := hp.new
      subst hnew
      have hbef := hp.nil
      subst hbef
      have hrest := hp.rest
      simp only [List.cons.injEq] at hrest
      obtain ⟨rfl, rfl⟩ := hrest
      cases hn
      unfold Walker.enterLeaf at he
      rw [Walker.new_current] at he
      simp only [Res.ok.injEq] at he
      have hpath : ie.path = ⟨false, rootPath name⟩ := by rw [← he]; exact push_root hname
      have hdepth : ie.depth = (rootPath name).length + 1 := by rw [← he]; exact rootDepth name
      refine ⟨.inr ⟨ie, hcur', ?_⟩, ?_, by intro h; cases h⟩
      · constructor
        · simp
        · exact ⟨by rw [hpath], by rw [hpath, hdepth]⟩
        · rw [hlinks']; exact .nil
        · intro h; rw [hkind] at h; cases h
        · intro h; rw [hkind] at h; cases h
        · intro _; right; intro l hl; rw [hlinks'] at hl; simp [Walker.new] at hl
        · rw [hkind, hitem]; simp
        · intro v sz h; rw [hkind] at h; cases h
        · intro seg c p md s h; rw [hitem] at h; simp at h
      · intro _
        have hmd : ie.metadata = Metadata.ofUnixFs m.data ∧ ie.cid = cid := by rw [← he]; exact ⟨rfl, rfl⟩
        rw [hitem, hpath, hmd.1, hmd.2]
        unfold itemFor
        simp only [hty, ofUnixFs_eq]
    · have hstack := hps.stack
      rw [links_some hn] at hstack
      have hrest0 : ∀ v sz, ie0.kind ≠ .File (some v) sz := fun v sz => hr ie0 v sz h0
      unfold Walker.enterLeaf at he
      rw [h0] at he
      simp only at he
      cases hstack with
      | @entry _ B _ _ _ _ hB g1 g2 g4 g5 g6 g7 g8 =>
        have g3 : n.name = dot → B = 0 := by
          intro hdot
          refine Classical.byContradiction fun h0 => ?_
          rw [g4, hdot, asKind_dot hps.ok hB h0 hrest0] at he
          cases he
        rw [g4, asKind_eq hps.ok hB g1 g2 g3 hrest0] at he
        simp only [Res.ok.injEq] at he
        subst he
        refine ⟨.inr ⟨_, hcur', PInvSome.of_named hps.ne ⟨rfl, ?_⟩ ?_ (by rw [hitem]; simp) (by simp) (by simp) (by rw [hitem]; simp) (by simp)
          (by rw [hitem]; simp)⟩, ?_, ?_⟩
        · simp [Nat.min_eq_left hB]
        · rw [hlinks']
          exact g8.mono (List.prefix_append _ _)
        · intro _
          rw [hitem]
          unfold itemFor
          simp only [g7, hty, g5, g6, ofUnixFs_eq]
        · intro h; rw [g7] at h; cases h
      | @bucket _ B _ _ _ _ hB g1 g2 g3 g4 g5 g6 =>
        obtain ⟨p, hpan⟩ := asKind_bucket (ε := WalkError) hps.ok hB .Symlink n.cid (Metadata.ofUnixFs m.data)
        rw [g1, g2, hpan] at he
        cases he

end Verif
