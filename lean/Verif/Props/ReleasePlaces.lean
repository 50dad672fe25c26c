import Verif.ReleasePlacesStep
import Verif.Props.WalkExact
import Verif.Props.ReleaseSafe
/-
C130: walks of a release build, exactly.
-/
namespace Verif.Props
open Verif Verif.Spec Verif.Examples

/-! ### the invariant -/

/-- Walkers which are reached are as the blocks tell. -/
theorem roamed_inv {cid : Cid} {name : Bytes} {ps : List Bytes} (hps : Pieces name ps) {h : List (Bytes × ContinuedWalk)} {w : Walker} (hw : RoamedRel cid name h w) :
    ∃ fb rest, placesRel cid name (h.map (·.1)) = fb ++ rest ∧ RInv cid name (h.map (·.2)) (lastLevel cid name (h.map (·.1))) w fb rest := by
  induction hw with
  | new => exact ⟨[], _, rfl, .inl ⟨rfl, rfl, rfl, rfl⟩⟩
  | @next h w w' block cache cache' item hw hcont hc hs ih =>
    obtain ⟨fb, rest, h1, h2⟩ := ih
    have hne : fb ++ rest ≠ [] := by
      have := h2.continues
      rw [hcont] at this
      exact of_decide_eq_true this.symm
    obtain ⟨a, aw, ha⟩ := List.exists_cons_of_ne_nil hne
    have hst : Stepped cid name (namePath ps) (h.map (·.2)) (lastLevel cid name (h.map (·.1))) a aw block item w' := by
      by_cases hfb : fb = []
      · subst hfb
        simp only [List.nil_append] at ha
        subst ha
        exact h2.step_rest hps hc hs
      · exact h2.step_file hfb ha (namePath ps) hs
    obtain ⟨m, fb', rest', c, g1, g2, g3, -, -⟩ := hst
    refine ⟨fb', rest', ?_, ?_⟩
    · rw [List.map_append, List.map_singleton, placesRel, List.foldl_append, List.foldl_cons, List.foldl_nil]
      show visitRel (placesRel cid name (h.map (·.1))) block = _
      rw [h1, ha]
      unfold visitRel
      rw [show FlatUnixFs.tryParseR block = some (.ok m) from g1]
      exact g2
    · rw [List.map_append, List.map_singleton, List.map_append, List.map_singleton]
      have : lastLevel cid name (h.map (·.1) ++ [block]) = a.level := by
        unfold lastLevel
        rw [List.dropLast_concat, h1, ha]
      rw [this]
      exact g3

section
variable {cid : Cid} {name : Bytes} {ps : List Bytes} {h : List (Bytes × ContinuedWalk)} {w : Walker} {a : Place} {aw : List Place}

theorem roamed_at (hps : Pieces name ps) (hw : RoamedRel cid name h w) (ha : placesRel cid name (h.map (·.1)) = a :: aw) :
    ∃ fb rest, fb ++ rest = a :: aw ∧ RInv cid name (h.map (·.2)) (lastLevel cid name (h.map (·.1))) w fb rest := by
  obtain ⟨fb, rest, h1, h2⟩ := roamed_inv hps hw
  exact ⟨fb, rest, h1 ▸ ha, h2⟩

/-- C130, what is asked for: in a release build a walker goes on as long as the blocks which it was given lead to something, and asks for
that, in this order. -/
theorem C130_asks (cid : Cid) (name : Bytes) (ps : List Bytes) (hps : Pieces name ps) (h : List (Bytes × ContinuedWalk)) (w : Walker)
    (hw : RoamedRel cid name h w) :
    (w.shouldContinue = true ↔ placesRel cid name (h.map (·.1)) ≠ []) ∧
    ∀ a aw, placesRel cid name (h.map (·.1)) = a :: aw → w.pendingLinks = .ok (a.cid, aw.map (·.cid)) := by
  obtain ⟨fb, rest, h1, h2⟩ := roamed_inv hps hw
  refine ⟨?_, ?_⟩
  · rw [h2.continues, h1]
    exact decide_eq_true_iff
  · intro a aw ha
    exact h2.pending_links (h1.symm.trans ha)

/-- C130, what is reported: of every block which a walker of a release build takes it reports what `itemRel` tells from the place of the
block, what the block is read as, and what was reported last. -/
theorem C130_items (cid : Cid) (name : Bytes) (ps : List Bytes) (hps : Pieces name ps) (h : List (Bytes × ContinuedWalk)) (w : Walker)
    (hw : RoamedRel cid name h w) (a : Place) (aw : List Place) (ha : placesRel cid name (h.map (·.1)) = a :: aw)
    (block : Bytes) (cache cache' : Option VisitCache) (hc : ∀ k, cache = some k → CacheObtainable k) (item : ContinuedWalk) (w' : Walker)
    (hs : w.stepRel block cache = some (.ok item, w', cache')) :
    ∃ m c, Reads block m ∧ (RootBuckets (h.map (·.2)) → c = cid) ∧ (¬ RootBuckets (h.map (·.2)) → c = a.cid) ∧
      itemRel (namePath ps) (h.map (·.2)) (lastLevel cid name (h.map (·.1))) a c m (fileEnds (placesRel cid name (h.map (·.1) ++ [block]))) = some item := by
  obtain ⟨fb, rest, h1, h2⟩ := roamed_at hps hw ha
  have hst : Stepped cid name (namePath ps) (h.map (·.2)) (lastLevel cid name (h.map (·.1))) a aw block item w' := by
    by_cases hfb : fb = []
    · subst hfb
      simp only [List.nil_append] at h1
      subst h1
      exact h2.step_rest hps hc hs
    · exact h2.step_file hfb h1 (namePath ps) hs
  obtain ⟨m, fb', rest', c, g1, g2, -, g4, g5⟩ := hst
  refine ⟨m, c, g1, g4.1, g4.2, ?_⟩
  have : placesRel cid name (h.map (·.1) ++ [block]) = fb' ++ rest' := by
    rw [placesRel, List.foldl_append, List.foldl_cons, List.foldl_nil]
    show visitRel (placesRel cid name (h.map (·.1))) block = _
    rw [ha]
    unfold visitRel
    rw [show FlatUnixFs.tryParseR block = some (.ok m) from g1]
    exact g2
  rw [this]
  exact g5

/-! ### panics -/

theorem fileVisit_some {w : Walker} {ie : InnerEntry} {v : FileVisit} {sz : Nat} (h1 : w.current = some ie) (h2 : ie.kind = .File (some v) sz) : fileVisit w = some v := by
  simp [fileVisit, h1, h2]

theorem continueWith_ne_read {v : FileVisit} (hr : v.range = none) {m : FlatUnixFs} {i : Rng} {cache k : Option VisitCache} {x : Option PbError} :
    v.continueWith i (FileReader.fromContinuedP v.state i.lo (.ok m)) cache ≠ (.err (.Read x), k) := by
  intro h
  unfold FileVisit.continueWith FileReader.fromContinuedP at h
  simp only [hr] at h
  by_cases hm : m.data.mode.isSome = true ∨ m.data.mtime.isSome = true
  · rw [if_pos hm] at h
    cases h
  · rw [if_neg hm] at h
    rcases fromPartsR_cases m i.lo v.state.metadata with ⟨h1, h2, h3, h4⟩ | ⟨h1, h2, e, h3⟩ | ⟨fs, e, h1, h2, h3⟩
    · rw [h4] at h; cases h
    · rw [h3] at h
      cases h
      exact fromPartsR_ne_read _ h3
    · rw [h3] at h
      simp only [FileReader.content] at h
      by_cases hl : m.links = []
      · rw [if_pos hl] at h
        simp only [maybeTargetSliceR] at h
        split at h <;> cases h
      · rw [if_neg hl] at h
        simp only at h
        cases hq : collectLinksR none 0 i.lo (m.links.zip m.data.blocksizes) with
        | panic q => rw [hq] at h; cases h
        | err e =>
          rw [hq] at h
          cases h
          exact collectLinksR_ne_read _ _ _ _ _ hq
        | ok ps => rw [hq] at h; cases h

/-- C130, panics: a walker of a release build panics with a block exactly if `WalkPanicsRel`. -/
theorem C130_panics (cid : Cid) (name : Bytes) (ps : List Bytes) (hps : Pieces name ps) (h : List (Bytes × ContinuedWalk)) (w : Walker)
    (hw : RoamedRel cid name h w) (a : Place) (aw : List Place) (ha : placesRel cid name (h.map (·.1)) = a :: aw)
    (block : Bytes) (cache : Option VisitCache) (hc : ∀ k, cache = some k → CacheObtainable k) :
    (∃ p w' k, w.stepRel block cache = some (.panic p, w', k)) ↔
      WalkPanicsRel (h.map (·.2)).getLast? (lastLevel cid name (h.map (·.1))) a (fileVisit w) block := by
  obtain ⟨fb, rest, h1, h2⟩ := roamed_at hps hw ha
  have hwhats := h2.fb_what
  by_cases hfb : fb = []
  · subst hfb
    simp only [List.nil_append] at h1
    subst h1
    have haw : a.what ≠ .fileBlock := hwhats.2 a (by simp)
    have hr := h2.resting
    obtain ⟨n, hn⟩ := h2.nextIs
    have hpath := h2.enteredPath_eq hps hn
    have hwp : WalkPanicsRel (h.map (·.2)).getLast? (lastLevel cid name (h.map (·.1))) a (fileVisit w) block ↔
        ∃ m, Reads block m ∧ EntryPanicsRel (h.map (·.2)).getLast? (lastLevel cid name (h.map (·.1))) a m := by
      unfold WalkPanicsRel
      cases hx : a.what with
      | fileBlock => exact absurd hx haw
      | entry => exact Iff.rfl
      | bucket => exact Iff.rfl
    generalize hlast : (h.map (·.2)).getLast? = last at *
    generalize lastLevel cid name (h.map (·.1)) = level at *
    have hshort : enteredPath w n = none ↔ ∃ item, last = some item ∧ (pathOf item).comps.length < level + 1 - a.level := by
      rw [hpath, pathTo_none]
    rw [hwp, stepRel_atRest hr]
    unfold Reads
    cases hparse : FlatUnixFs.tryParseR block with
    | none => exact ⟨(by rintro ⟨_, _, _, h⟩; cases h), (by rintro ⟨_, h, _⟩; cases h)⟩
    | some parsed =>
      have hmap : (∃ p w' k, (some parsed).map (w.nextBlockP cache) = some (.panic p, w', k)) ↔ ∃ p, (w.nextBlockP cache parsed).1 = .panic p := by
        refine ⟨?_, ?_⟩
        · rintro ⟨p, w', k, h⟩
          exact ⟨p, by rw [Option.some.inj h]⟩
        · rintro ⟨p, h⟩
          exact ⟨p, _, _, congrArg some (Prod.ext h rfl)⟩
      rw [hmap]
      cases parsed with
      | error e => exact ⟨(by rintro ⟨p, h⟩; cases h), (by rintro ⟨m, h, _⟩; cases h)⟩
      | ok m =>
        simp only [Option.some.injEq, Except.ok.injEq, exists_eq_left']
        unfold EntryPanicsRel Walker.nextBlockP
        have hleaf : ∀ k md, (∃ p, (w.enterLeafR k md n) = .panic p) ↔ enteredPath w n = none := by
          intro k md
          rw [enterLeafR_eq hr _ _ hn.deep]
          cases enteredPath w n with
          | none => exact ⟨fun _ => rfl, fun _ => ⟨_, rfl⟩⟩
          | some p => exact ⟨(by rintro ⟨_, h⟩; cases h), nofun⟩
        have hfirst : (∃ p, (w.nextFirstR m cache).1 = .panic p) ↔
            (Passed m ∧ m.links = [] ∧ m.data.filesize = none) ∨ (FirstFine m ∧ enteredPath w n = none) := by
          obtain ⟨s1, s2, s3⟩ := startFromParsedR_panics m cache
          unfold Walker.nextFirstR
          rcases hx : IdleFileVisit.startFromParsedR {} m cache with ⟨r, k⟩
          rw [hx] at s1 s2 s3
          simp only at s1 s2 s3
          cases r with
          | panic q => exact ⟨fun _ => .inl (s1.1 ⟨q, rfl⟩), fun _ => ⟨_, rfl⟩⟩
          | err e =>
            refine ⟨?_, ?_⟩
            · rintro ⟨p, hp⟩
              obtain ⟨x, rfl⟩ := ofFileReadFailed_panic hp
              exact absurd rfl (s3 x)
            · rintro (hp | hp)
              · obtain ⟨q, hq⟩ := s1.2 hp; cases hq
              · obtain ⟨q, hq⟩ := s2 hp.1; cases hq
          | ok r =>
            obtain ⟨hff, -⟩ := startFromParsedR_ok hc hx
            simp only [hn.next]
            have hl := hleaf (.File r.next r.total_size) r.metadata
            cases he : w.enterLeafR (.File r.next r.total_size) r.metadata n with
            | panic p => exact ⟨fun _ => .inr ⟨hff, hl.1 ⟨p, he⟩⟩, fun _ => ⟨_, rfl⟩⟩
            | err e =>
              rw [enterLeafR_eq hr _ _ hn.deep] at he
              cases hx : enteredPath w n <;> (rw [hx] at he; cases he)
            | ok ie =>
              rw [he] at hl
              refine ⟨(by rintro ⟨p, h⟩; cases h), ?_⟩
              rintro (h | h)
              · obtain ⟨q, hq⟩ := s1.2 h; cases hq
              · obtain ⟨p, hp⟩ := hl.2 h.2
                cases hp
        simp only
        rw [← hshort]
        cases hty : m.data.Ty with
        | Metadata => exact ⟨(by rintro ⟨p, h⟩; cases h), False.elim⟩
        | Raw => exact hfirst
        | File => exact hfirst
        | Symlink =>
          simp only [Walker.nextSymlinkR, hn.next]
          rw [← hleaf .Symlink (Metadata.ofUnixFs m.data)]
          cases he : w.enterLeafR .Symlink (Metadata.ofUnixFs m.data) n with
          | panic p => exact ⟨fun _ => ⟨_, rfl⟩, fun _ => ⟨_, rfl⟩⟩
          | err e =>
            rw [enterLeafR_eq hr _ _ hn.deep] at he
            cases hx : enteredPath w n <;> (rw [hx] at he; cases he)
          | ok ie => exact ⟨(by rintro ⟨p, h⟩; cases h), (by rintro ⟨p, h⟩; cases h)⟩
        | Directory =>
          simp only
          cases hck : checkDirectorySupported m with
          | error e =>
            refine ⟨(by rintro ⟨p, h⟩; cases h), ?_⟩
            rintro ⟨h, _⟩
            obtain ⟨m', h'⟩ := (directorySupported_iff m hty).2 h
            rw [hck] at h'
            cases h'
          | ok m' =>
            have hd := (directorySupported_iff m hty).1 ⟨m', hck⟩
            have := checkDirectorySupported_ok hck
            subst this
            simp only
            rw [nextDir_panics_iff (conv := fun depth nth l => convertLink (depth + 1) nth l) hn.next (converts_entry _)]
            have he : (∃ p, w.enterDirectoryR (Metadata.ofUnixFs m'.data) n = .panic p) ↔ enteredPath w n = none := by
              rw [enterDirectoryR_eq hr _ hn.deep]
              cases enteredPath w n with
              | none => exact ⟨fun _ => rfl, fun _ => ⟨_, rfl⟩⟩
              | some p => exact ⟨(by rintro ⟨_, h⟩; cases h), nofun⟩
            rw [he]
            exact ⟨fun h => ⟨hd, h⟩, fun h => h.2⟩
        | HAMTShard =>
          simp only
          obtain ⟨hsup, hnp⟩ := shardSupported_iff m hty
          cases hck : checkHamtshardSupported m with
          | err e =>
            refine ⟨(by rintro ⟨p, h⟩; cases h), ?_⟩
            rintro ⟨h, _⟩
            obtain ⟨m', h'⟩ := hsup.2 h
            rw [hck] at h'
            cases h'
          | panic p => exact absurd hck (hnp p)
          | ok m' =>
            have hd := hsup.1 ⟨m', hck⟩
            have := checkHamtshardSupported_ok hck
            subst this
            simp only
            rw [nextDir_panics_iff (conv := fun depth nth l => convertShardedLink (depth + 1) depth nth l) hn.next (converts_slot _ _)]
            have he : (∃ p, w.enterShardR (Metadata.ofUnixFs m'.data) n = .panic p) ↔
                ((a.what = .bucket ∧ ∃ item, last = some item ∧ ((∃ c p md, item = .Directory c p md) ∨ (pathOf item).comps.length < level - a.level)) ∨
                 (a.what = .entry ∧ enteredPath w n = none)) := by
              rcases whats haw with hw' | hw'
              · obtain ⟨item0, ie0, g1, g2, g3, g4, g5, g6⟩ := h2.bucket hn hw'
                obtain ⟨b1, b2⟩ := enterShardR_bucket g1.cur hr (Metadata.ofUnixFs m'.data) g3 g4 g5 g6
                have hl0 := g1.last
                rw [hlast] at hl0
                subst hl0
                simp only [hw', true_and, reduceCtorEq, false_and, or_false, Option.some.injEq, exists_eq_left']
                rw [← g1.dir, ← g1.path, ← g2, hn.level_eq, ← upBy_none]
                by_cases hd : ie0.kind = .Directory
                · exact ⟨fun _ => .inl hd, fun _ => b1 hd⟩
                · rw [b2 hd]
                  simp only [hd, false_or]
                  cases upBy (ie0.depth - n.depth) ie0.path with
                  | none => exact ⟨fun _ => rfl, fun _ => ⟨_, rfl⟩⟩
                  | some p => exact ⟨(by rintro ⟨_, h⟩; cases h), nofun⟩
              · have hnn : w.current = none ∨ n.name ≠ [] := by
                  have := hn.what
                  rw [hw'] at this
                  by_cases e : w.current ≠ none ∧ n.name = []
                  · rw [if_pos e] at this; cases this
                  · by_cases e1 : w.current = none
                    · exact .inl e1
                    · exact .inr fun e2 => e ⟨e1, e2⟩
                simp only [hw', true_and, reduceCtorEq, false_and, false_or]
                rw [enterShardR_named hr _ hn.deep hnn]
                cases enteredPath w n with
                | none => exact ⟨fun _ => rfl, fun _ => ⟨_, rfl⟩⟩
                | some p => exact ⟨(by rintro ⟨_, h⟩; cases h), nofun⟩
            rw [he]
            exact ⟨fun h => ⟨hd, h⟩, fun h => h.2⟩
  · obtain ⟨ie, v, sz, seg, e1, e2, e3, -, -⟩ := h2.inFile hfb
    have haw : a.what = .fileBlock := by
      obtain ⟨x, fb', rfl⟩ := List.exists_cons_of_ne_nil hfb
      cases h1
      exact hwhats.1 a (by simp)
    have hrange : v.range = none := e3.1
    unfold WalkPanicsRel
    simp only [haw, fileVisit_some e1 e2, Option.some.injEq, exists_eq_left']
    rw [stepRel_inFile e1 e2, ← (C109_continue v (by rw [hrange]; intro t h; cases h) block cache).2]
    cases hx : v.continueWalkRel block cache with
    | none =>
      refine ⟨(by rintro ⟨_, _, _, h⟩; cases h), ?_⟩
      rintro (⟨_, _, h⟩ | ⟨⟨i, hi, hf⟩, e, he⟩)
      · cases h
      · obtain ⟨_, _, _, h⟩ := (C109_continue v (by rw [hrange]; intro t h; cases h) block cache).1.1 hx
        rw [h] at he; cases he
    | some y =>
      obtain ⟨r, k⟩ := y
      have key : (∃ x, r = .err (.Read x)) ↔ ((∃ i, nextInterval v = some i ∧ Follows v.state.last_ending v.state.last_offset i) ∧
          ∃ e, FlatUnixFs.tryParseR block = some (.error e)) := by
        unfold FileVisit.continueWalkRel at hx
        cases hP : v.pending.getLast? with
        | none =>
          rw [hP] at hx
          cases hx
          have hi : nextInterval v = none := by simp [nextInterval, hP]
          exact ⟨(by rintro ⟨_, h⟩; cases h), (by rintro ⟨⟨i, h, _⟩, _⟩; rw [hi] at h; cases h)⟩
        | some p =>
          obtain ⟨pc, i⟩ := p
          have hi : nextInterval v = some i := by simp [nextInterval, hP]
          rw [hP] at hx
          simp only at hx
          simp only [hi, Option.some.injEq, exists_eq_left']
          rw [follows_iff]
          cases hck : v.state.last_ending.checkIsSuitableNext v.state.last_offset i with
          | error e =>
            rw [hck] at hx
            cases hx
            exact ⟨(by rintro ⟨_, h⟩; cases h), (by rintro ⟨h, _⟩; cases h)⟩
          | ok u =>
            rw [hck] at hx
            obtain ⟨parsed, hparse, hx⟩ := Option.map_eq_some_iff.1 hx
            rw [hparse]
            cases parsed with
            | error e =>
              refine ⟨fun _ => ⟨rfl, _, rfl⟩, fun _ => ?_⟩
              cases hx
              cases e with
              | InvalidDagPb e => exact ⟨_, rfl⟩
              | InvalidUnixFs e _ => exact ⟨_, rfl⟩
              | NoData _ => exact ⟨_, rfl⟩
            | ok m =>
              refine ⟨?_, (by rintro ⟨_, _, h⟩; cases h)⟩
              rintro ⟨x, rfl⟩
              exact absurd hx (continueWith_ne_read hrange)
      have hpan : (∃ p w' k', (some (r, k)).map (w.nextFileP ie sz) = some (.panic p, w', k')) ↔ ((∃ p c, some (r, k) = some (Res.panic p, c)) ∨ ∃ x, r = .err (.Read x)) := by
        simp only [Option.map_some, Option.some.injEq]
        unfold Walker.nextFileP
        cases r with
        | panic q => exact ⟨fun _ => .inl ⟨_, _, rfl⟩, fun _ => ⟨_, _, _, rfl⟩⟩
        | ok x => exact ⟨(by rintro ⟨_, _, _, h⟩; cases h), (by rintro (⟨_, _, h⟩ | ⟨_, h⟩) <;> cases h)⟩
        | err e =>
          refine ⟨?_, ?_⟩
          · rintro ⟨p, w', k', h⟩
            obtain ⟨x, rfl⟩ := ofFileReadFailed_panic (congrArg Prod.fst h)
            exact .inr ⟨x, rfl⟩
          · rintro (⟨_, _, h⟩ | ⟨x, h⟩)
            · cases h
            · cases h
              exact ⟨_, _, _, rfl⟩
      rw [hpan, key]

/-- C130, no answer: a walker of a release build never answers exactly if it parses the block, and that never ends. -/
theorem C130_hangs (cid : Cid) (name : Bytes) (ps : List Bytes) (hps : Pieces name ps) (h : List (Bytes × ContinuedWalk)) (w : Walker)
    (hw : RoamedRel cid name h w) (a : Place) (aw : List Place) (ha : placesRel cid name (h.map (·.1)) = a :: aw)
    (block : Bytes) (cache : Option VisitCache) :
    w.stepRel block cache = none ↔ WalkHangsRel a (fileVisit w) block := by
  obtain ⟨fb, rest, h1, h2⟩ := roamed_at hps hw ha
  have hwhats := h2.fb_what
  unfold WalkHangsRel
  by_cases hfb : fb = []
  · subst hfb
    simp only [List.nil_append] at h1
    subst h1
    have haw : a.what ≠ .fileBlock := hwhats.2 a (by simp)
    rw [stepRel_atRest h2.resting, Option.map_eq_none_iff]
    exact ⟨fun h => ⟨h, fun h' => absurd h' haw⟩, fun h => h.1⟩
  · obtain ⟨ie, v, sz, seg, e1, e2, e3, -, -⟩ := h2.inFile hfb
    have haw : a.what = .fileBlock := by
      obtain ⟨x, fb', rfl⟩ := List.exists_cons_of_ne_nil hfb
      cases h1
      exact hwhats.1 a (by simp)
    have hrange : v.range = none := e3.1
    rw [stepRel_inFile e1 e2, Option.map_eq_none_iff, (C109_continue v (by rw [hrange]; intro t h; cases h) block cache).1, fileVisit_some e1 e2]
    simp only [haw, forall_const, Option.some.injEq]
    refine ⟨?_, ?_⟩
    · rintro ⟨i, g1, g2, g3⟩
      exact ⟨g3, v, i, rfl, g1, g2⟩
    · rintro ⟨g3, v', i, rfl, g1, g2⟩
      exact ⟨i, g1, g2, g3⟩
end

/-! ### examples -/

theorem walkedIn_roamed {get : Cid → Option Bytes} {cid : Cid} {name : Bytes} {h : List (Bytes × ContinuedWalk)} {w : Walker} (hw : WalkedIn get cid name h w) :
    RoamedRel cid name h w := by
  induction hw with
  | new => exact .new
  | next _ hc _ _ hk hs ih => exact .next ih hc hk hs

/-- `placesRel` for blocks which a checked build reads in the same way. -/
def placesChecked (cid : Cid) (name : Bytes) (blocks : List Bytes) : List Place :=
  blocks.foldl (fun todo block => match todo, FlatUnixFs.tryParse block with
    | a :: rest, .ok m => m.links.filterMap (followRel a m) ++ rest
    | _, _ => todo) [⟨cid, if name = [] then 1 else 2, name, .entry⟩]

theorem placesRel_checked {cid : Cid} {name : Bytes} {blocks : List Bytes} (h : ∀ b ∈ blocks, FlatUnixFs.tryParseR b = some (FlatUnixFs.tryParse b)) :
    placesRel cid name blocks = placesChecked cid name blocks := by
  unfold placesRel placesChecked
  generalize [(⟨cid, if name = [] then 1 else 2, name, .entry⟩ : Place)] = start
  induction blocks generalizing start with
  | nil => rfl
  | cons b bs ih =>
    rw [List.foldl_cons, List.foldl_cons, ih (fun x hx => h x (List.mem_cons_of_mem _ hx))]
    congr 1
    unfold visitRel
    rw [h b (by simp)]
    cases start with
    | nil => rfl
    | cons a rest => cases FlatUnixFs.tryParse b <;> rfl

/-- A directory with a symlink in `./.`, and one called `x`. -/
def dotInDot : List (UInt8 × Bytes) :=
  [(0, (dirMsg [linkN 1 dot, linkN 2 [120]]).write), (1, (dirMsg [linkN 2 dot]).write), (2, symMsg.write)]

theorem dotInDot_tame : ∀ e ∈ dotInDot, tame e.2 = true := by decide +kernel

/-- The walker has been given three blocks, and waits for `x`; the path reported last has one component, and two would have to be removed. So it panics
with the symlink, in a release build too. -/
theorem C130_example : ∃ h w, RoamedRel (cidN 0) [] h w ∧ placesRel (cidN 0) [] (h.map (·.1)) = [⟨cidN 2, 2, [120], .entry⟩] ∧
    lastLevel (cidN 0) [] (h.map (·.1)) = 3 ∧ h.map (fun x => pathOf x.2) = [⟨false, []⟩, ⟨false, [dot]⟩, ⟨false, [dot]⟩] ∧
    WalkPanicsRel (h.map (·.2)).getLast? 3 ⟨cidN 2, 2, [120], .entry⟩ (fileVisit w) symMsg.write ∧
    ∃ p w' k, w.stepRel symMsg.write none = some (.panic p, w', k) := by
  have hs : (walkSteps (storeB dotInDot) 3 (Walker.new (cidN 0) [])).map (fun x => (placesChecked (cidN 0) [] (x.1.map (·.1)),
      placesChecked (cidN 0) [] (x.1.map (·.1)).dropLast, x.1.map (fun y => pathOf y.2))) =
      some ([⟨cidN 2, 2, [120], .entry⟩], [⟨cidN 2, 3, dot, .entry⟩, ⟨cidN 2, 2, [120], .entry⟩], [⟨false, []⟩, ⟨false, [dot]⟩, ⟨false, [dot]⟩]) := by decide +kernel
  obtain ⟨⟨h, w⟩, h1, h2⟩ := Option.map_eq_some_iff.1 hs
  simp only [Prod.mk.injEq] at h2
  obtain ⟨h2, h3, h4⟩ := h2
  have hw := walkSteps_in (storeB_agree dotInDot_tame) 3 _ w [] h .new h1
  rw [List.nil_append] at hw
  have hag : ∀ b ∈ h.map (·.1), FlatUnixFs.tryParseR b = some (FlatUnixFs.tryParse b) := by
    intro b hb
    obtain ⟨c, hc⟩ := walked_get hw b hb
    exact storeB_agree dotInDot_tame c b hc
  have hpl : placesRel (cidN 0) [] (h.map (·.1)) = [⟨cidN 2, 2, [120], .entry⟩] := (placesRel_checked hag).trans h2
  have hlv : lastLevel (cidN 0) [] (h.map (·.1)) = 3 := by
    unfold lastLevel
    rw [placesRel_checked (fun b hb => hag b (List.dropLast_subset _ hb)), h3]
  have hreads : Reads symMsg.write symMsg := by
    have := storeB_agree dotInDot_tame (cidN 2) symMsg.write (by decide +kernel)
    unfold Reads
    rw [this]
    exact congrArg some (toOption_ok (by decide +kernel))
  have hpan : WalkPanicsRel (h.map (·.2)).getLast? 3 ⟨cidN 2, 2, [120], .entry⟩ (fileVisit w) symMsg.write := by
    refine ⟨symMsg, hreads, ?_⟩
    have hl : (h.map (fun x => pathOf x.2)).getLast? = some ⟨false, [dot]⟩ := by rw [h4]; rfl
    rw [show h.map (fun x => pathOf x.2) = (h.map (·.2)).map pathOf by rw [List.map_map]; rfl, List.getLast?_map] at hl
    obtain ⟨item, hi, hp⟩ := Option.map_eq_some_iff.1 hl
    refine ⟨item, hi, ?_⟩
    rw [hp]
    decide
  refine ⟨h, w, walkedIn_roamed hw, hpl, hlv, h4, hpan, ?_⟩
  have hps : Pieces [] [[]] := ⟨by decide, by decide, rfl⟩
  exact (C130_panics _ _ _ hps h w (walkedIn_roamed hw) _ _ hpl symMsg.write none (by intro k h; cases h)).2 (by rw [hlv]; exact hpan)

/-- The rough store of C113: what is waited for after the first block of the file `r/s/x/b`. -/
theorem C130_example_places : ∃ h w, RoamedRel (cidN 0) [114] h w ∧
    placesRel (cidN 0) [114] (h.map (·.1)) = [⟨cidN 6, 5, [98], .fileBlock⟩, ⟨cidN 6, 5, [98], .fileBlock⟩, ⟨cidN 7, 3, [121], .entry⟩, ⟨cidN 10, 3, [122], .entry⟩] ∧
    lastLevel (cidN 0) [114] (h.map (·.1)) = 5 ∧ w.pendingLinks = .ok (cidN 6, [cidN 6, cidN 7, cidN 10]) ∧
    w.stepRel endlessLink none = none := by
  have hs : (walkSteps (storeB roughBlocks) 7 (Walker.new (cidN 0) [114])).map (fun x => (placesChecked (cidN 0) [114] (x.1.map (·.1)),
      ((placesChecked (cidN 0) [114] (x.1.map (·.1)).dropLast).head?).map (·.level), (fileVisit x.2).bind (fun v => (nextInterval v).map (fun i =>
        match v.state.last_ending.checkIsSuitableNext v.state.last_offset i with | .ok () => true | .error _ => false)))) =
      some ([⟨cidN 6, 5, [98], .fileBlock⟩, ⟨cidN 6, 5, [98], .fileBlock⟩, ⟨cidN 7, 3, [121], .entry⟩, ⟨cidN 10, 3, [122], .entry⟩], some 5, some true) := by decide +kernel
  obtain ⟨⟨h, w⟩, h1, h2⟩ := Option.map_eq_some_iff.1 hs
  simp only [Prod.mk.injEq] at h2
  obtain ⟨h2, h3, h4⟩ := h2
  obtain ⟨v, hv', h4⟩ := Option.bind_eq_some_iff.1 h4
  obtain ⟨i, hi', h4⟩ := Option.map_eq_some_iff.1 h4
  have hck : v.state.last_ending.checkIsSuitableNext v.state.last_offset i = .ok () := by
    cases hx : v.state.last_ending.checkIsSuitableNext v.state.last_offset i with
    | ok u => rfl
    | error e => rw [hx] at h4; cases h4
  have hw := walkSteps_in (storeB_agree roughBlocks_safe.tame) 7 _ w [] h .new h1
  rw [List.nil_append] at hw
  have hag : ∀ b ∈ h.map (·.1), FlatUnixFs.tryParseR b = some (FlatUnixFs.tryParse b) := by
    intro b hb
    obtain ⟨c, hc⟩ := walked_get hw b hb
    exact storeB_agree roughBlocks_safe.tame c b hc
  have hpl := (placesRel_checked (cid := cidN 0) (name := [114]) hag).trans h2
  have hps : Pieces [114] [[114]] := ⟨by decide, by decide, rfl⟩
  refine ⟨h, w, walkedIn_roamed hw, hpl, ?_, (C130_asks _ _ _ hps h w (walkedIn_roamed hw)).2 _ _ hpl, ?_⟩
  · unfold lastLevel
    rw [placesRel_checked (fun b hb => hag b (List.dropLast_subset _ hb))]
    cases hx : placesChecked (cidN 0) [114] (h.map (·.1)).dropLast with
    | nil => rw [hx] at h3; cases h3
    | cons a aw => rw [hx] at h3; exact Option.some.inj h3
  · exact (C130_hangs _ _ _ hps h w (walkedIn_roamed hw) _ _ hpl endlessLink none).2
      ⟨C109_example.1, fun _ => ⟨v, i, hv', hi', (follows_iff _ _ _).2 hck⟩⟩

end Verif.Props
