import Verif.Spec.ReleaseReadAlone
import Verif.Props.ReadAlone
import Verif.Props.ReleaseDepthFirst
/-
C139: a walk in a release build reads each file exactly as a file visit of its own would.
-/
namespace Verif.Props
open Verif Verif.Spec Verif.Examples

/-! ### caches -/

theorem continueWith_cache (v : FileVisit) (i : Rng) (fr : Res FileReadFailed FileReader) (c c' : Option VisitCache) :
    (v.continueWith i fr c).1 = (v.continueWith i fr c').1 := by
  unfold FileVisit.continueWith
  cases fr with
  | err e => rfl
  | panic p => rfl
  | ok fr =>
    simp only
    rcases fr.content with ⟨ct, tr⟩
    cases ct with
    | Bytes ct =>
      simp only
      cases maybeTargetSliceR (ε := FileReadFailed) ct i v.range with
      | ok b =>
        simp only
        split <;> rfl
      | err e => rfl
      | panic q => rfl
    | Links base z =>
      simp only
      cases collectLinksR v.range 0 base z <;> rfl

theorem continueWalkRel_anyCache (v : FileVisit) (block : Bytes) (c c' : Option VisitCache) :
    (v.continueWalkRel block c).map (·.1) = (v.continueWalkRel block c').map (·.1) := by
  unfold FileVisit.continueWalkRel
  cases v.pending.getLast? with
  | none => rfl
  | some p =>
    simp only
    cases v.state.last_ending.checkIsSuitableNext v.state.last_offset p.2 with
    | error e => rfl
    | ok u =>
      simp only [Option.map_map]
      congr 1
      funext x
      exact continueWith_cache v _ _ _ _

theorem startFromReaderR_anyCache (self : IdleFileVisit) (fr : FileReader) {c : Option VisitCache} (hc : ∀ k, c = some k → CacheObtainable k) :
    (self.startFromReaderR fr c).1 = (self.startFromReaderR fr none).1 := by
  have hinner : (c.getD {}).inner = [] := by
    cases c with
    | none => rfl
    | some k => rcases hc k rfl with rfl | ⟨x, rfl⟩ <;> rfl
  unfold IdleFileVisit.startFromReaderR
  rcases fr.content with ⟨ct, tr⟩
  cases ct with
  | Bytes ct => rfl
  | Links base z =>
    simp only [hinner]
    cases collectLinksR self.range 0 base z with
    | err e => rfl
    | panic p => rfl
    | ok ps =>
      simp only [Option.getD_none]

theorem startRel_parsed {b : Bytes} {m : FlatUnixFs} (hm : Reads b m) {cache : Option VisitCache} (hc : ∀ k, cache = some k → CacheObtainable k) :
    IdleFileVisit.startRel {} b = some (IdleFileVisit.startFromParsedR {} m cache).1 := by
  unfold IdleFileVisit.startRel
  rw [show FlatUnixFs.tryParseR b = some (.ok m) from hm, Option.map_some]
  unfold IdleFileVisit.startP IdleFileVisit.startFromParsedR FileReader.fromBlockP FileReader.fromParsedR
  simp only
  cases FileReader.fromPartsR m 0 (Metadata.ofUnixFs m.data) with
  | err e => rfl
  | panic p => rfl
  | ok fr => exact congrArg some (startFromReaderR_anyCache _ _ hc).symm

/-! ### steps -/

/-- A step which leaves the walker outside of a file, with something that is not a segment. -/
def Outside (w' : Walker) (item : ContinuedWalk) : Prop :=
  (∃ ie, w'.current = some ie ∧ ∀ v sz, ie.kind ≠ .File (some v) sz) ∧ ∀ seg c path md size, item ≠ .File seg c path md size

theorem asKindR_md {ie ie' : InnerEntry} {k : InnerKind} {c : Cid} {name : Bytes} {d : Nat} {md : Metadata}
    (h : (ie.asKindR k c name d md : Res WalkError _) = .ok ie') : ie'.metadata = md ∧ ie'.kind = k := by
  unfold InnerEntry.asKindR at h
  split at h
  · cases h
  · obtain ⟨ie1, h1, h2⟩ := Res.bind_ok_iff.1 h
    unfold InnerEntry.setPathR at h1
    obtain ⟨p, -, h3⟩ := Res.bind_ok_iff.1 h1
    cases h3
    cases h2
    exact ⟨rfl, rfl⟩

theorem enterLeafR_md {w : Walker} {k : InnerKind} {md : Metadata} {n : WalkLink} {ie' : InnerEntry} (h : w.enterLeafR k md n = .ok ie') :
    ie'.metadata = md ∧ ie'.kind = k := by
  unfold Walker.enterLeafR at h
  split at h
  · cases h; exact ⟨rfl, rfl⟩
  · exact asKindR_md h

theorem enterDirectoryR_item {w : Walker} {md : Metadata} {n : WalkLink} {ie' : InnerEntry} {item : ContinuedWalk}
    (h : w.enterDirectoryR md n = .ok (ie', item)) : ∀ seg c path md size, item ≠ .File seg c path md size := by
  intro seg c path md' size e
  unfold Walker.enterDirectoryR at h
  split at h
  · simp only [Res.ok.injEq, Prod.mk.injEq] at h
    rw [← h.2] at e; cases e
  · obtain ⟨x, -, hx⟩ := Res.bind_ok_iff.1 h
    simp only [Res.ok.injEq, Prod.mk.injEq] at hx
    rw [← hx.2] at e; cases e

theorem enterShardR_item {w : Walker} {md : Metadata} {n : WalkLink} {ie' : InnerEntry} {item : ContinuedWalk}
    (h : w.enterShardR md n = .ok (ie', item)) : ∀ seg c path md size, item ≠ .File seg c path md size := by
  intro seg c path md' size e
  unfold Walker.enterShardR at h
  split at h
  · simp only [Res.ok.injEq, Prod.mk.injEq] at h
    rw [← h.2] at e; cases e
  · split at h
    · obtain ⟨x, -, hx⟩ := Res.bind_ok_iff.1 h
      simp only [Res.ok.injEq, Prod.mk.injEq] at hx
      rw [← hx.2] at e; cases e
    · obtain ⟨x, -, hx⟩ := Res.bind_ok_iff.1 h
      simp only [Res.ok.injEq, Prod.mk.injEq] at hx
      rw [← hx.2] at e; cases e

theorem nextBlockP_ok {w w' : Walker} {m : FlatUnixFs} {cache cache' : Option VisitCache} {item : ContinuedWalk}
    (h : w.nextBlockP cache (.ok m) = (.ok item, w', cache')) :
    Outside w' item ∨ ∃ r ie, (IdleFileVisit.startFromParsedR {} m cache).1 = .ok r ∧ w'.current = some ie ∧ ie.kind = .File r.next r.total_size ∧
      ie.metadata = r.metadata ∧ item = .File (.first r.content (!r.next.isSome)) ie.cid ie.path ie.metadata r.total_size := by
  have first : w.nextFirstR m cache = (.ok item, w', cache') →
      ∃ r ie, (IdleFileVisit.startFromParsedR {} m cache).1 = .ok r ∧ w'.current = some ie ∧ ie.kind = .File r.next r.total_size ∧
      ie.metadata = r.metadata ∧ item = .File (.first r.content (!r.next.isSome)) ie.cid ie.path ie.metadata r.total_size := by
    intro h
    unfold Walker.nextFirstR at h
    rcases hx : IdleFileVisit.startFromParsedR {} m cache with ⟨x, k⟩
    rw [hx] at h
    cases x with
    | panic p => cases h
    | err e => cases e <;> cases h
    | ok r =>
      simp only at h
      cases hn : w.next with
      | none => rw [hn] at h; cases h
      | some n =>
        simp only [hn] at h
        cases he : w.enterLeafR (.File r.next r.total_size) r.metadata n with
        | panic p => rw [he] at h; cases h
        | err e => rw [he] at h; cases h
        | ok ie =>
          rw [he] at h
          cases h
          obtain ⟨h1, h2⟩ := enterLeafR_md he
          exact ⟨r, ie, rfl, popNext_current _ _, h2, h1, rfl⟩
  unfold Walker.nextBlockP at h
  simp only at h
  cases hty : m.data.Ty with
  | Metadata => rw [hty] at h; cases h
  | Raw => rw [hty] at h; exact .inr (first h)
  | File => rw [hty] at h; exact .inr (first h)
  | Symlink =>
    rw [hty] at h
    simp only at h
    unfold Walker.nextSymlinkR at h
    simp only at h
    cases hn : w.next with
    | none => rw [hn] at h; cases h
    | some n =>
      simp only [hn] at h
      cases he : w.enterLeafR .Symlink (Metadata.ofUnixFs m.data) n with
      | panic p => rw [he] at h; cases h
      | err e => rw [he] at h; cases h
      | ok ie =>
        rw [he] at h
        cases h
        refine .inl ⟨⟨ie, popNext_current _ _, ?_⟩, nofun⟩
        intro v sz
        rw [(enterLeafR_md he).2]; nofun
  | Directory =>
    rw [hty] at h
    simp only at h
    cases hck : checkDirectorySupported m with
    | error e => rw [hck] at h; cases h
    | ok m' =>
      rw [hck] at h
      simp only at h
      obtain ⟨n, ls, ie, -, -, he, rfl⟩ := Verif.nextDir_ok h
      refine .inl ⟨⟨ie, popNext_current _ _, ?_⟩, enterDirectoryR_item he⟩
      intro v sz
      rcases (moved_directoryR he).2.2 with k | k <;> rw [k] <;> nofun
  | HAMTShard =>
    rw [hty] at h
    simp only at h
    cases hck : checkHamtshardSupported m with
    | panic p => rw [hck] at h; cases h
    | err e => rw [hck] at h; cases h
    | ok m' =>
      rw [hck] at h
      simp only at h
      obtain ⟨n, ls, ie, -, -, he, rfl⟩ := Verif.nextDir_ok h
      refine .inl ⟨⟨ie, popNext_current _ _, ?_⟩, enterShardR_item he⟩
      intro v sz
      rcases (moved_shardR he).2.2.2 with ⟨k, -⟩ | k | k <;> rw [k] <;> nofun

theorem readAloneRel_last {c path md size run v} (h : ReadAloneRel c path md size run v) :
    ∃ b seg, run.getLast? = some (b, .File seg c path md size) ∧ seg.last_block = v.isNone := by
  cases h with
  | first _ => exact ⟨_, _, rfl, rfl⟩
  | later _ _ => exact ⟨_, _, List.getLast?_concat, rfl⟩

/-- What the walker's state is about: the file which was read last. -/
theorem aloneRel_inv {cid : Cid} {name : Bytes} {h : List (Bytes × ContinuedWalk)} {w : Walker} (hw : RoamedRel cid name h w) :
    (w.atRest ∧ ∀ x, h.getLast? = some x → ¬ MoreToCome x.2) ∧
        (∀ x seg c path md size, h.getLast? = some x → x.2 = .File seg c path md size →
          ∃ pre run, h = pre ++ run ∧ (∀ y, pre.getLast? = some y → ¬ MoreToCome y.2) ∧ ReadAloneRel c path md size run none) ∨
    ∃ ie v sz pre run, w.current = some ie ∧ ie.kind = .File (some v) sz ∧ h = pre ++ run ∧
      (∀ y, pre.getLast? = some y → ¬ MoreToCome y.2) ∧ ReadAloneRel ie.cid ie.path ie.metadata sz run (some v) := by
  induction hw with
  | new =>
    refine .inl ⟨⟨?_, ?_⟩, ?_⟩
    · intro ie v sz h; cases h
    · intro x hx; cases hx
    · intro x _ _ _ _ _ hx; cases hx
  | @next h w w' block cache cache' item hw hcont hc hstep ih =>
    have hno : Outside w' item →
        (w'.atRest ∧ ∀ x, (h ++ [(block, item)]).getLast? = some x → ¬ MoreToCome x.2) ∧
        (∀ x seg c path md size, (h ++ [(block, item)]).getLast? = some x → x.2 = .File seg c path md size →
          ∃ pre run, h ++ [(block, item)] = pre ++ run ∧ (∀ y, pre.getLast? = some y → ¬ MoreToCome y.2) ∧ ReadAloneRel c path md size run none) := by
      rintro ⟨⟨ie, h1, h2⟩, h3⟩
      refine ⟨⟨atRest_of h1 h2, ?_⟩, ?_⟩
      · intro x hx
        simp only [List.getLast?_concat, Option.some.injEq] at hx
        subst hx
        rintro ⟨seg, c, path, md, size, e, -⟩
        exact h3 _ _ _ _ _ e
      · intro x seg c path md size hx e
        simp only [List.getLast?_concat, Option.some.injEq] at hx
        subst hx
        exact absurd e (h3 _ _ _ _ _)
    have hfin : ∀ {ie : InnerEntry} {next : Option FileVisit} {sz : Nat} {w' : Walker} {item : ContinuedWalk} (pre run : List (Bytes × ContinuedWalk)),
        w'.current = some ie → ie.kind = .File next sz → h ++ [(block, item)] = pre ++ run →
        (∀ y, pre.getLast? = some y → ¬ MoreToCome y.2) → ReadAloneRel ie.cid ie.path ie.metadata sz run next →
        (w'.atRest ∧ ∀ x, (h ++ [(block, item)]).getLast? = some x → ¬ MoreToCome x.2) ∧
        (∀ x seg c path md size, (h ++ [(block, item)]).getLast? = some x → x.2 = .File seg c path md size →
          ∃ pre run, h ++ [(block, item)] = pre ++ run ∧ (∀ y, pre.getLast? = some y → ¬ MoreToCome y.2) ∧ ReadAloneRel c path md size run none) ∨
        ∃ ie v sz pre run, w'.current = some ie ∧ ie.kind = .File (some v) sz ∧ h ++ [(block, item)] = pre ++ run ∧
          (∀ y, pre.getLast? = some y → ¬ MoreToCome y.2) ∧ ReadAloneRel ie.cid ie.path ie.metadata sz run (some v) := by
      intro ie next sz w' item pre run h1 h2 h3 h4 h5
      cases next with
      | some v => exact .inr ⟨ie, v, sz, pre, run, h1, h2, h3, h4, h5⟩
      | none =>
        obtain ⟨b, seg, e1, e2⟩ := readAloneRel_last h5
        have hl : (h ++ [(block, item)]).getLast? = some (b, .File seg ie.cid ie.path ie.metadata sz) := by
          rw [h3, List.getLast?_append, e1]; rfl
        refine .inl ⟨⟨atRest_of h1 (by intro v s; rw [h2]; simp), ?_⟩, ?_⟩
        · intro x hx
          rw [hl] at hx
          cases hx
          rintro ⟨seg', c, path, md, size, e, e'⟩
          cases e
          rw [e2] at e'; cases e'
        · intro x seg' c path md size hx e
          rw [hl] at hx
          cases hx
          cases e
          exact ⟨pre, run, h3, h4, h5⟩
    rcases ih with ⟨⟨hr, hlast⟩, -⟩ | ⟨ie, v, sz, pre, run, h1, h2, h3, h4, h5⟩
    · rw [stepRel_atRest hr] at hstep
      obtain ⟨x, hx, hstep⟩ := Option.map_eq_some_iff.1 hstep
      cases x with
      | error e => cases e <;> cases hstep
      | ok m =>
        rcases nextBlockP_ok hstep with ho | ⟨r, ie, g1, g2, g3, g4, rfl⟩
        · exact .inl (hno ho)
        · have hst : IdleFileVisit.startRel {} block = some (.ok r) := by rw [startRel_parsed hx hc, g1]
          obtain ⟨bytes, size, md, next⟩ := r
          simp only at g3 g4
          refine hfin (ie := ie) h [_] g2 g3 rfl hlast ?_
          have := ReadAloneRel.first (c := ie.cid) (path := ie.path) hst
          simp only [FileSegment.first, isNone_not, g4] at this ⊢
          exact this
    · rw [stepRel_inFile h1 h2] at hstep
      obtain ⟨⟨x, k⟩, hx, hstep⟩ := Option.map_eq_some_iff.1 hstep
      cases x with
      | panic p => cases hstep
      | err e => cases e <;> cases hstep
      | ok y =>
        obtain ⟨bytes, next⟩ := y
        cases hstep
        have hcw : (v.continueWalkRel block none).map (·.1) = some (.ok (bytes, next)) := by
          rw [continueWalkRel_anyCache v block none cache, hx]; rfl
        refine hfin (ie := { ie with kind := .File next sz }) pre (run ++ [_]) rfl rfl ?_ h4 (ReadAloneRel.later h5 hcw)
        rw [h3]
        simp only [FileSegment.later, isNone_not, List.append_assoc]

/-! ### C139 -/

/-- C139. As C95, in a release build: whatever blocks were supplied, when the last item of a walk is a segment of a file, then the blocks since the
first segment of this file, given to a file visit of its own, are answered with the same bytes, size and metadata; and if the visit goes on,
then to any further block the walk answers what the visit answers, or nothing if the visit does not. -/
theorem C139_reads_alike (cid : Cid) (name : Bytes) (h : List (Bytes × ContinuedWalk)) (w : Walker) (hw : RoamedRel cid name h w)
    (last : Bytes × ContinuedWalk) (hl : h.getLast? = some last) (seg : FileSegment) (c : Cid) (path : PathBuf) (md : Metadata) (size : Nat)
    (he : last.2 = .File seg c path md size) :
    ∃ pre run v, h = pre ++ run ∧ (∀ y, pre.getLast? = some y → ¬ MoreToCome y.2) ∧ ReadAloneRel c path md size run v ∧
      ∀ v', v = some v' → ∀ block cache, (w.stepRel block cache).map (·.1) = (v'.continueWalkRel block none).map
        (fun x => walkAnswer (fun (bytes, next) => .File ⟨bytes, false, next.isNone⟩ c path md size) x.1) := by
  rcases aloneRel_inv hw with ⟨-, h1⟩ | ⟨ie, v, sz, pre, run, h1, h2, h3, h4, h5⟩
  · obtain ⟨pre, run, h2, h3, h4⟩ := h1 last seg c path md size hl he
    exact ⟨pre, run, none, h2, h3, h4, by intro v' hv; cases hv⟩
  · obtain ⟨b, seg', e1, e2⟩ := readAloneRel_last h5
    have : h.getLast? = some (b, .File seg' ie.cid ie.path ie.metadata sz) := by
      rw [h3, List.getLast?_append, e1]; rfl
    rw [hl] at this
    cases this
    simp only [ContinuedWalk.File.injEq] at he
    obtain ⟨rfl, rfl, rfl, rfl, rfl⟩ := he
    refine ⟨pre, run, some v, h3, h4, h5, ?_⟩
    intro v' hv block cache
    cases hv
    have hca := continueWalkRel_anyCache v block none cache
    have : (v.continueWalkRel block none).map (fun x => walkAnswer (fun (bytes, next) => ContinuedWalk.File ⟨bytes, false, Option.isNone next⟩ ie.cid ie.path ie.metadata sz) x.1) =
        ((v.continueWalkRel block none).map (·.1)).map (walkAnswer (fun (bytes, next) => ContinuedWalk.File ⟨bytes, false, Option.isNone next⟩ ie.cid ie.path ie.metadata sz)) := by
      rw [Option.map_map]; rfl
    rw [this, hca, stepRel_inFile h1 h2, Option.map_map, Option.map_map]
    congr 1
    funext x
    obtain ⟨r, k⟩ := x
    cases r with
    | ok x =>
      obtain ⟨bytes, next⟩ := x
      simp only [Function.comp, Walker.nextFileP, walkAnswer, FileSegment.later, isNone_not]
    | err e => exact ofFileReadFailed_answer _ e
    | panic p => rfl

theorem onlyFile_stepRel (ie : InnerEntry) (v : FileVisit) (sz : Nat) (block : Bytes) (cache : Option VisitCache) :
    (onlyFile ie v sz).stepRel block cache = (v.continueWalkRel block cache).map ((onlyFile ie v sz).nextFileP { ie with kind := .File (some v) sz } sz) :=
  stepRel_inFile rfl rfl block cache

theorem walkFromRel_of_read {get : Cid → Option Bytes} (v : FileVisit) (r) (h : readFromRel get v = some r) : ∀ ie sz cache,
    (walkFromRel get (onlyFile ie v sz) cache).map (fun r => r.map fileBytes) = some (walkOutcome r) := by
  refine readFromRel.partial_correctness get (fun v r => ∀ ie sz cache,
    (walkFromRel get (onlyFile ie v sz) cache).map (fun r => r.map fileBytes) = some (walkOutcome r)) ?_ v r h
  intro rec ih v r h ie sz cache
  rw [walkFromRel.eq_1, if_neg (by simp [onlyFile, Walker.shouldContinue]), onlyFile_pending]
  cases hp : v.pendingLinks with
  | panic p => rw [hp] at h; cases h; rfl
  | err e => rw [hp] at h; cases h; rfl
  | ok fl =>
    obtain ⟨first, rest⟩ := fl
    simp only [hp] at h
    simp only [Res.bind_ok]
    cases hg : get first with
    | none => rw [hg] at h; cases h; rfl
    | some block =>
      simp only [hg] at h ⊢
      rw [onlyFile_stepRel]
      have hca := continueWalkRel_anyCache v block none cache
      cases hx : v.continueWalkRel block none with
      | none => rw [hx] at h; cases h
      | some x =>
        obtain ⟨x, k⟩ := x
        rw [hx] at h hca
        cases hy : v.continueWalkRel block cache with
        | none => rw [hy] at hca; cases hca
        | some y =>
          obtain ⟨y, k'⟩ := y
          rw [hy] at hca
          cases hca
          simp only [Option.map_some, Option.bind_eq_bind, Option.bind_some] at h ⊢
          cases x with
          | panic p => cases h; rfl
          | err e => cases h; cases e <;> rfl
          | ok cv =>
            obtain ⟨c, next⟩ := cv
            simp only [Walker.nextFileP] at h ⊢
            cases next with
            | none =>
              simp only [Option.some.injEq] at h
              subst h
              rw [walkFromRel.eq_1, if_pos (by rfl)]
              simp [Res.map, fileBytes, FileSegment.later, walkOutcome]
            | some v' =>
              dsimp only at h
              cases hr : rec v' with
              | none => rw [hr] at h; cases h
              | some r' =>
                rw [hr] at h
                have := prefix_outcome (ih v' r' hr ie sz k') (.later c (!(some v').isSome)) ie.cid ie.path ie.metadata sz (first :: ·)
                simp only [Option.bind_some, Option.some.injEq] at h
                subst h
                exact this

theorem read_of_walkFromRel {get : Cid → Option Bytes} (w : Walker) (cache) (r) (h : walkFromRel get w cache = some r) : ∀ ie v sz,
    w = onlyFile ie v sz → readFromRel get v ≠ none := by
  refine walkFromRel.partial_correctness get (fun w _ _ => ∀ ie v sz, w = onlyFile ie v sz → readFromRel get v ≠ none) ?_ w cache r h
  intro rec ih w cache r h ie v sz hw
  subst hw
  rw [if_neg (by simp [onlyFile, Walker.shouldContinue]), onlyFile_pending] at h
  rw [readFromRel.eq_1]
  cases hp : v.pendingLinks with
  | panic p => simp
  | err e => simp
  | ok fl =>
    obtain ⟨first, rest⟩ := fl
    simp only [hp, Res.bind_ok] at h ⊢
    cases hg : get first with
    | none => simp
    | some block =>
      simp only [hg] at h ⊢
      rw [onlyFile_stepRel] at h
      have hca := continueWalkRel_anyCache v block none cache
      cases hy : v.continueWalkRel block cache with
      | none => rw [hy] at h; cases h
      | some y =>
        obtain ⟨y, k'⟩ := y
        rw [hy] at h hca
        cases hx : v.continueWalkRel block none with
        | none => rw [hx] at hca; cases hca
        | some x =>
          obtain ⟨x, k⟩ := x
          rw [hx] at hca
          simp only [Option.map_some, Option.some.injEq] at hca
          subst hca
          simp only [Option.map_some, Option.bind_eq_bind, Option.bind_some] at h ⊢
          cases x with
          | panic p => simp
          | err e => simp
          | ok cv =>
            obtain ⟨c, next⟩ := cv
            cases next with
            | none => simp
            | some v' =>
              simp only [Walker.nextFileP] at h
              simp only
              cases hr : rec (onlyFile ie v' sz) k' with
              | none =>
                exfalso
                have : rec _ k' = none := hr
                simp only [onlyFile] at this
                simp [onlyFile, this] at h
              | some r' =>
                have := ih (onlyFile ie v' sz) k' r' hr ie v' sz rfl
                cases hx : readFromRel get v' with
                | none => exact absurd hx this
                | some r => simp

/-- C139. In a release build walking from the root of a file gives the bytes which reading it gives: for every store, whatever is in it and
whatever is missing; it fails if and as reading fails, panics where reading panics (and where reading fails to parse a block), and it ends
if and only if reading ends. -/
theorem C139_whole_file (get : Cid → Option Bytes) (root : Cid) (name block : Bytes) (hget : get root = some block) (m : FlatUnixFs)
    (hm : Reads block m) (hty : m.data.Ty = .File ∨ m.data.Ty = .Raw)
    (cache : Option VisitCache) (hc : ∀ k, cache = some k → CacheObtainable k) :
    (walkFromRel get (Walker.new root name) cache).map (fun r => r.map fileBytes) = (readFileRel get {} block).map walkOutcome := by
  rw [walkFromRel.eq_1, if_neg (by simp [Walker.new, Walker.shouldContinue])]
  have hp : (Walker.new root name).pendingLinks = .ok (root, []) := rfl
  simp only [hp, hget]
  have hstep : (Walker.new root name).stepRel block cache = some ((Walker.new root name).nextFirstR m cache) := by
    rw [stepRel_atRest (by intro ie v sz h; cases h), show FlatUnixFs.tryParseR block = some (.ok m) from hm, Option.map_some]
    unfold Walker.nextBlockP
    rcases hty with e | e <;> simp only [e]
  rw [hstep]
  have hst := startRel_parsed hm hc
  unfold Walker.nextFirstR readFileRel
  cases hcw : (IdleFileVisit.startFromParsedR {} m cache) with
  | mk r cache' =>
    rw [hcw] at hst
    rw [hst]
    simp only [Option.bind_eq_bind, Option.bind_some]
    cases r with
    | panic p => rfl
    | err e => cases e <;> rfl
    | ok r =>
      obtain ⟨content, size, md, next⟩ := r
      have hn : (Walker.new root name).next = some ⟨root, name, if name = [] then 1 else 2⟩ := rfl
      simp only [hn]
      have he : (Walker.new root name).enterLeafR (.File next size) md ⟨root, name, if name = [] then 1 else 2⟩ =
        .ok (InnerEntry.newRoot (.File next size) root md name (if name = [] then 1 else 2)) := rfl
      simp only [he]
      cases next with
      | none =>
        simp only
        rw [walkFromRel.eq_1, if_pos (by rfl)]
        simp [Res.map, fileBytes, FileSegment.first, walkOutcome]
      | some v =>
        simp only
        have hw : ({ Walker.popNext (some (InnerEntry.newRoot (.File (some v) size) root md name (if name = [] then 1 else 2))) (Walker.new root name).pending with
            should_continue := (some v).isSome || (Walker.popNext (some (InnerEntry.newRoot (.File (some v) size) root md name (if name = [] then 1 else 2))) (Walker.new root name).pending).next.isSome } : Walker) =
          onlyFile (InnerEntry.newRoot (.File (some v) size) root md name (if name = [] then 1 else 2)) v size := rfl
        rw [hw]
        cases hr : readFromRel get v with
        | none =>
          cases hx : walkFromRel get (onlyFile (InnerEntry.newRoot (.File (some v) size) root md name (if name = [] then 1 else 2)) v size) cache' with
          | none => rfl
          | some r => exact absurd hr (read_of_walkFromRel _ _ _ hx _ _ _ rfl)
        | some r =>
          have := walkFromRel_of_read v r hr (InnerEntry.newRoot (.File (some v) size) root md name (if name = [] then 1 else 2)) size cache'
          exact prefix_outcome this (.first content (!(some v).isSome)) _ _ _ _ id

/-! ### a case -/

/-- The blocks of a file of two leaves, but instead of the leaves one which is never parsed to its end. -/
def endlessLeaves (c : Cid) : Option Bytes := if c = cidN 0 then some (twoLeaves.block toySha) else some endlessLink

/-- The first block is answered as by a visit of its own, and so are all further ones; with `endlessLink` neither answers. -/
theorem C139_example : ∃ (h : List (Bytes × ContinuedWalk)) (w : Walker) (v : FileVisit), RoamedRel (cidN 0) [97] h w ∧ h.length = 1 ∧
    (∀ block cache, (w.stepRel block cache).map (·.1) = (v.continueWalkRel block none).map
      (fun x => walkAnswer (fun (bytes, next) => .File ⟨bytes, false, next.isNone⟩ (cidN 0) ⟨false, [[97]]⟩ {} 3) x.1)) ∧
    v.continueWalkRel endlessLink none = none ∧
    walkFromRel endlessLeaves (Walker.new (cidN 0) [97]) none = none ∧
    readFileRel endlessLeaves {} (twoLeaves.block toySha) = none := by
  have hk : Kept (twoLeaves.block toySha) := tame_kept (by decide +kernel)
  let w1 : Walker := ((Walker.new (cidN 0) [97]).stepR (twoLeaves.block toySha) none).2.1
  have h1 : (Walker.new (cidN 0) [97]).stepR (twoLeaves.block toySha) none =
    (.ok (.File ⟨[], true, false⟩ (cidN 0) ⟨false, [[97]]⟩ {} 3), w1, none) := by decide +kernel
  have h2 : (Walker.new (cidN 0) [97]).stepRel (twoLeaves.block toySha) none =
    some (.ok (.File ⟨[], true, false⟩ (cidN 0) ⟨false, [[97]]⟩ {} 3), w1, none) := by rw [(C109_agrees _ hk).2.2.1, h1]
  have hw : RoamedRel (cidN 0) [97] _ w1 := .next (h := []) .new rfl (fun k hk => by cases hk) h2
  have hv : (match w1.current with
      | some ⟨_, .File (some v) _, _, _, _⟩ => (match v.pending.getLast? with
        | some (_, r) => (match v.state.last_ending.checkIsSuitableNext v.state.last_offset r with
          | .ok () => true
          | .error _ => false)
        | none => false)
      | _ => false) = true := by decide +kernel
  have hw1 : w1.stepRel endlessLink none = none := by
    unfold Walker.stepRel
    split at hv
    · next v _ _ _ _ hcur =>
      rw [hcur]
      simp only
      unfold FileVisit.continueWalkRel
      split at hv
      · next r hr =>
        rw [hr]
        simp only
        split at hv
        · next hs =>
          rw [hs]
          simp only
          rw [show FlatUnixFs.tryParseR endlessLink = none from C109_example.1]
          rfl
        · cases hv
      · cases hv
    · cases hv
  have hwalk : walkFromRel endlessLeaves (Walker.new (cidN 0) [97]) none = none := by
    rw [walkFromRel.eq_1, if_neg (by decide)]
    simp only [show (Walker.new (cidN 0) [97]).pendingLinks = .ok (cidN 0, []) from rfl, endlessLeaves, if_pos]
    rw [h2]
    simp only [Option.bind_eq_bind, Option.bind_some]
    rw [walkFromRel.eq_1, if_neg (by decide +kernel)]
    have hp : (match w1.pendingLinks with
      | .ok (f, _) => decide (f ≠ cidN 0)
      | _ => false) = true := by decide +kernel
    split at hp
    · next f rest hf =>
      rw [hf]
      simp only [endlessLeaves]
      rw [if_neg (of_decide_eq_true hp)]
      simp only [hw1, Option.bind_eq_bind, Option.bind_none]
    · cases hp
  have hm : FlatUnixFs.tryParse (twoLeaves.block toySha) =
    .ok ((FlatUnixFs.tryParse (twoLeaves.block toySha)).toOption.getD ⟨[], { Ty := .File }⟩) := by decide +kernel
  have hr := C139_whole_file endlessLeaves (cidN 0) [97] _ (if_pos rfl) _ (by unfold Reads; rw [kept_parse hk, hm]) (.inl (by decide +kernel)) none nofun
  rw [hwalk] at hr
  obtain ⟨pre, run, v, e0, -, h3, h4⟩ := C139_reads_alike _ _ _ _ hw _ rfl _ _ _ _ _ rfl
  obtain ⟨b, seg, e1, e2⟩ := readAloneRel_last h3
  have hlast : ([] ++ [(twoLeaves.block toySha, ContinuedWalk.File ⟨[], true, false⟩ (cidN 0) ⟨false, [[97]]⟩ {} 3)] : List _).getLast? =
      some (b, .File seg (cidN 0) ⟨false, [[97]]⟩ {} 3) := by
    rw [e0, List.getLast?_append, e1]; rfl
  cases hlast
  cases v with
  | none => cases e2
  | some v =>
    have h5 := h4 v rfl
    refine ⟨_, w1, v, hw, rfl, h5, ?_, hwalk, ?_⟩
    · have := h5 endlessLink none
      rw [hw1] at this
      exact Option.map_eq_none_iff.1 this.symm
    · exact Option.map_eq_none_iff.1 hr.symm

end Verif.Props
