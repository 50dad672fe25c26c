import Verif.Spec.ReadAlone
import Verif.Props.WalkExact
/-
C95: a walk reads each file exactly as a file visit of its own would.
-/
namespace Verif.Props
open Verif Verif.Spec

theorem isNone_not {α : Type} (o : Option α) : (!o.isSome) = o.isNone := by cases o <;> rfl

theorem readAlone_ne {c path md size run v} (h : ReadAlone c path md size run v) : run ≠ [] := by
  cases h <;> simp

theorem readAlone_last {c path md size run v} (h : ReadAlone c path md size run v) :
    ∃ b seg, run.getLast? = some (b, .File seg c path md size) ∧ seg.last_block = v.isNone := by
  cases h with
  | first _ => exact ⟨_, _, rfl, rfl⟩
  | later _ _ => exact ⟨_, _, List.getLast?_concat, rfl⟩

/-- What the walker's state is about: the file which was read last. -/
theorem alone_inv {cid : Cid} {name : Bytes} {h : List (Bytes × ContinuedWalk)} {w : Walker} (hw : Walked cid name h w) :
    (w.atRest ∧ ∀ x, h.getLast? = some x → ¬ MoreToCome x.2) ∧
        (∀ x seg c path md size, h.getLast? = some x → x.2 = .File seg c path md size →
          ∃ pre run, h = pre ++ run ∧ (∀ y, pre.getLast? = some y → ¬ MoreToCome y.2) ∧ ReadAlone c path md size run none) ∨
    ∃ ie v sz pre run, w.current = some ie ∧ ie.kind = .File (some v) sz ∧ h = pre ++ run ∧
      (∀ y, pre.getLast? = some y → ¬ MoreToCome y.2) ∧ ReadAlone ie.cid ie.path ie.metadata sz run (some v) := by
  induction hw with
  | new =>
    refine .inl ⟨⟨?_, ?_⟩, ?_⟩
    · intro ie v sz h; cases h
    · intro x hx; cases hx
    · intro x _ _ _ _ _ hx; cases hx
  | @next h w w' block cache cache' item hw hcont hc hstep ih =>
    have hno : ∀ (ie : InnerEntry) (w' : Walker) (item : ContinuedWalk), w'.current = some ie → (∀ v sz, ie.kind ≠ .File (some v) sz) →
        (∀ seg c path md size, item ≠ .File seg c path md size) →
        (w'.atRest ∧ ∀ x, (h ++ [(block, item)]).getLast? = some x → ¬ MoreToCome x.2) ∧
        (∀ x seg c path md size, (h ++ [(block, item)]).getLast? = some x → x.2 = .File seg c path md size →
          ∃ pre run, h ++ [(block, item)] = pre ++ run ∧ (∀ y, pre.getLast? = some y → ¬ MoreToCome y.2) ∧ ReadAlone c path md size run none) := by
      intro ie w' item h1 h2 h3
      refine ⟨⟨atRest_of h1 h2, ?_⟩, ?_⟩
      · intro x hx
        simp only [List.getLast?_concat, Option.some.injEq] at hx
        subst hx
        rintro ⟨seg, c, path, md, size, e, -⟩
        exact h3 _ _ _ _ _ e
      · intro x seg c path md size hx e
        simp only [List.getLast?_concat, Option.some.injEq] at hx
        subst hx
        exact absurd e (h3 _ _ _ _ _)
    have hrest : w.atRest → ∀ y, h.getLast? = some y → ¬ MoreToCome y.2 := by
      intro hr
      rcases ih with ⟨⟨-, h1⟩, -⟩ | ⟨ie, v, sz, pre, run, h1, h2, -⟩
      · exact h1
      · exact absurd h2 (hr ie v sz h1)
    have hfin : ∀ {ie : InnerEntry} {next : Option FileVisit} {sz : Nat} {w' : Walker} {item : ContinuedWalk} (pre run : List (Bytes × ContinuedWalk)),
        w'.current = some ie → ie.kind = .File next sz → h ++ [(block, item)] = pre ++ run →
        (∀ y, pre.getLast? = some y → ¬ MoreToCome y.2) → ReadAlone ie.cid ie.path ie.metadata sz run next →
        (w'.atRest ∧ ∀ x, (h ++ [(block, item)]).getLast? = some x → ¬ MoreToCome x.2) ∧
        (∀ x seg c path md size, (h ++ [(block, item)]).getLast? = some x → x.2 = .File seg c path md size →
          ∃ pre run, h ++ [(block, item)] = pre ++ run ∧ (∀ y, pre.getLast? = some y → ¬ MoreToCome y.2) ∧ ReadAlone c path md size run none) ∨
        ∃ ie v sz pre run, w'.current = some ie ∧ ie.kind = .File (some v) sz ∧ h ++ [(block, item)] = pre ++ run ∧
          (∀ y, pre.getLast? = some y → ¬ MoreToCome y.2) ∧ ReadAlone ie.cid ie.path ie.metadata sz run (some v) := by
      intro ie next sz w' item pre run h1 h2 h3 h4 h5
      cases next with
      | some v => exact .inr ⟨ie, v, sz, pre, run, h1, h2, h3, h4, h5⟩
      | none =>
        obtain ⟨b, seg, e1, e2⟩ := readAlone_last h5
        have hl : (h ++ [(block, item)]).getLast? = some (b, .File seg ie.cid ie.path ie.metadata sz) := by
          rw [h3, List.getLast?_append, e1]; rfl
        refine .inl ⟨⟨atRest_of h1 (by intro v s; rw [h2]; simp), ?_⟩, ?_⟩
        · intro x hx
          rw [hl] at hx
          cases hx
          rintro ⟨seg', c, path, md, size, e, e'⟩
          cases e
          rw [e2] at e'; cases e'
        · intro x seg' c path md size hx e
          rw [hl] at hx
          cases hx
          cases e
          exact ⟨pre, run, h3, h4, h5⟩
    cases step_ok hstep with
    | later ie v sz c next hcur hk hcw hitem hw' =>
      rcases ih with ⟨⟨hr, -⟩, -⟩ | ⟨ie', v', sz', pre, run, h1, h2, h3, h4, h5⟩
      · exact absurd hk (hr ie v sz hcur)
      · rw [hcur] at h1
        cases h1
        rw [hk] at h2
        cases h2
        subst hitem hw'
        rw [(C25_visit_cache v block cache none).1] at hcw
        refine hfin (ie := { ie with kind := .File next sz }) pre (run ++ [_]) rfl rfl ?_ h4 (ReadAlone.later h5 hcw)
        rw [h3]
        simp only [FileSegment.later, isNone_not, List.append_assoc]
    | directory m n ls ie hr hm hty hsup hn hls hent hw' =>
      subst hw'
      refine .inl (hno ie _ item (popNext_current _ _) ?_ ?_)
      · intro v sz
        rcases (enterDirectory_kind hent).1 with e | e <;> rw [e] <;> simp
      · intro seg c path md size e
        unfold Walker.enterDirectory at hent
        split at hent
        · simp only [Res.ok.injEq, Prod.mk.injEq] at hent
          rw [← hent.2] at e; cases e
        · obtain ⟨x, -, hx⟩ := Res.bind_ok_iff.1 hent
          simp only [Res.ok.injEq, Prod.mk.injEq] at hx
          rw [← hx.2] at e; cases e
    | shard m n ls ie hr hm hty hsup hn hls hent hw' =>
      subst hw'
      refine .inl (hno ie _ item (popNext_current _ _) ?_ ?_)
      · intro v sz
        rcases enterShard_kind hent with e | e | e <;> rw [e] <;> simp
      · intro seg c path md size e
        unfold Walker.enterShard at hent
        split at hent
        · simp only [Res.ok.injEq, Prod.mk.injEq] at hent
          rw [← hent.2] at e; cases e
        · split at hent
          · obtain ⟨x, -, hx⟩ := Res.bind_ok_iff.1 hent
            simp only [Res.ok.injEq, Prod.mk.injEq] at hx
            rw [← hx.2] at e; cases e
          · obtain ⟨x, -, hx⟩ := Res.bind_ok_iff.1 hent
            simp only [Res.ok.injEq, Prod.mk.injEq] at hx
            rw [← hx.2] at e; cases e
    | first m n r ie hr hm hty hst hn hent hitem hw' =>
      subst hw' hitem
      rw [start_parsed hm none hc] at hst
      obtain ⟨e1, e2, e3⟩ := enterLeaf_kind hent
      obtain ⟨bytes, size, md, next⟩ := r
      simp only at e1 e3
      refine hfin (ie := ie) h [_] (by exact popNext_current _ _) e1 rfl (hrest hr) ?_
      have := ReadAlone.first (c := ie.cid) (path := ie.path) hst
      simp only [FileSegment.first, isNone_not, e3] at this ⊢
      exact this
    | symlink m n ie hr hm hty hn hent hitem hw' =>
      subst hw'
      refine .inl (hno ie _ item (popNext_current _ _) ?_ ?_)
      · intro v sz
        rw [(enterLeaf_kind hent).1]; simp
      · intro seg c path md size e
        rw [hitem] at e; cases e

/-! ### C95 -/

theorem ofFileReadFailed_answer {α β : Type} (f : α → β) (e : FileReadFailed) :
    (WalkError.ofFileReadFailed e : Res WalkError β) = walkAnswer f (.err e) := by
  cases e <;> rfl

/-- C95. Whatever blocks were supplied: when the last item of a walk is a segment of a file, then the blocks since the first segment of
this file, given to a file visit of its own, are answered with the same bytes, size and metadata; and if the visit goes on, then
to any further block the walk answers what the visit answers. -/
theorem C95_reads_alike (cid : Cid) (name : Bytes) (h : List (Bytes × ContinuedWalk)) (w : Walker) (hw : Walked cid name h w)
    (last : Bytes × ContinuedWalk) (hl : h.getLast? = some last) (seg : FileSegment) (c : Cid) (path : PathBuf) (md : Metadata) (size : Nat)
    (he : last.2 = .File seg c path md size) :
    ∃ pre run v, h = pre ++ run ∧ (∀ y, pre.getLast? = some y → ¬ MoreToCome y.2) ∧ ReadAlone c path md size run v ∧
      ∀ v', v = some v' → ∀ block cache, (w.step block cache).1 =
        walkAnswer (fun (bytes, next) => .File ⟨bytes, false, next.isNone⟩ c path md size) (v'.continueWalk block none).1 := by
  rcases alone_inv hw with ⟨-, h1⟩ | ⟨ie, v, sz, pre, run, h1, h2, h3, h4, h5⟩
  · obtain ⟨pre, run, h2, h3, h4⟩ := h1 last seg c path md size hl he
    exact ⟨pre, run, none, h2, h3, h4, by intro v' hv; cases hv⟩
  · obtain ⟨b, seg', e1, e2⟩ := readAlone_last h5
    have : h.getLast? = some (b, .File seg' ie.cid ie.path ie.metadata sz) := by
      rw [h3, List.getLast?_append, e1]; rfl
    rw [hl] at this
    cases this
    cases he
    refine ⟨pre, run, some v, h3, h4, h5, ?_⟩
    intro v' hv block cache
    cases hv
    rw [step_inFile h1 h2, (C25_visit_cache v block none cache).1]
    unfold Walker.nextFile
    cases hcw : v.continueWalk block cache with
    | mk r cache' =>
      cases r with
      | ok x =>
        obtain ⟨bytes, next⟩ := x
        simp only [walkAnswer, FileSegment.later, isNone_not]
      | err e => exact ofFileReadFailed_answer _ e
      | panic p => rfl

/-- C95. The first block of a file: when no file is being read, a block of type `File` or `Raw` is answered as `IdleFileVisit::start` answers
it. (If that succeeds, there can still be a panic because of where the file is: C27.) -/
theorem C95_first_block (cid : Cid) (name : Bytes) (hname : slash ∉ name) (h : List (Bytes × ContinuedWalk)) (w : Walker) (hw : Walked cid name h w)
    (hlast : ∀ x, h.getLast? = some x → ¬ MoreToCome x.2) (a : Awaited) (aw : List Awaited)
    (ha : awaited cid name (h.map (·.1)) = a :: aw) (block : Bytes) (m : FlatUnixFs) (hm : FlatUnixFs.tryParse block = .ok m)
    (hty : m.data.Ty = .File ∨ m.data.Ty = .Raw) (cache : Option VisitCache) (hc : ∀ k, cache = some k → CacheObtainable k) :
    (∀ r, IdleFileVisit.start {} block = .ok r →
      (∃ c path, (w.step block cache).1 = .ok (.File ⟨r.content, true, r.next.isNone⟩ c path r.metadata r.total_size)) ∨
      ((∃ p, (w.step block cache).1 = .panic p) ∧ (a.what = .bucket ∨ DotDeep a.path))) ∧
    (∀ e, IdleFileVisit.start {} block = .err e → (w.step block cache).1 = walkAnswer (fun _ : Unit => .Bucket cid {}) (.err e)) ∧
    (∀ p, IdleFileVisit.start {} block = .panic p → (w.step block cache).1 = .panic p) := by
  have hr : w.atRest := by
    rcases alone_inv hw with ⟨⟨hr, -⟩, -⟩ | ⟨ie, v, sz, pre, run, h1, h2, h3, h4, h5⟩
    · exact hr
    · exfalso
      obtain ⟨b, seg', e1, e2⟩ := readAlone_last h5
      have : h.getLast? = some (b, .File seg' ie.cid ie.path ie.metadata sz) := by
        rw [h3, List.getLast?_append, e1]; rfl
      exact hlast _ this ⟨_, _, _, _, _, rfl, e2⟩
  have hstep : w.step block cache = w.nextFirst m cache := by
    rw [step_atRest hr]
    unfold Walker.nextBlock
    simp only [hm]
    rcases hty with e | e <;> simp only [e]
  have hpanic := C27_walk_exact_partial cid name h w hw hname a aw ha block cache hc
  rw [hstep] at hpanic ⊢
  have hst := start_parsed hm none hc
  obtain ⟨fb, rest, haw, hinv⟩ := walked_inv hw
  have hfb : fb = [] := hinv.file.of_atRest hr
  subst hfb
  rw [ha, List.nil_append] at haw
  have hlinks : w.next ≠ none := by
    intro hn
    have h1 := hinv.cids
    have h2 := hinv.pend hn
    rw [← haw] at h1
    simp [Walker.links, hn, h2] at h1
  obtain ⟨n, hn⟩ := Option.ne_none_iff_exists'.1 hlinks
  have hwhat : a.what ≠ .fileBlock := hinv.what a (by rw [← haw]; simp)
  unfold Walker.nextFirst at hpanic ⊢
  cases hcw : (IdleFileVisit.startFromParsed {} m cache) with
  | mk r cache' =>
    have hst' : IdleFileVisit.start {} block = r := by rw [← hst, hcw]
    rw [hcw] at hpanic
    rw [hst']
    refine ⟨?_, ?_, ?_⟩
    · intro r' hr'
      subst hr'
      simp only [hn] at hpanic ⊢
      cases hent : w.enterLeaf (.File r'.next r'.total_size) r'.metadata n with
      | ok ie =>
        obtain ⟨e1, e2, e3⟩ := enterLeaf_kind hent
        refine .inl ⟨ie.cid, ie.path, ?_⟩
        simp only [FileSegment.first, isNone_not, e3]
      | err e =>
        exfalso
        exact enterLeaf_ne_err _ hent
      | panic p =>
        refine .inr ⟨⟨p, rfl⟩, ?_⟩
        rw [hent] at hpanic
        have hp := hpanic.1 ⟨p, rfl⟩
        obtain ⟨hs1, hs2⟩ := (start_ok_iff none block).1 ⟨r', hst'⟩
        unfold WalkPanics at hp
        split at hp
        · rename_i hb; exact absurd hb hwhat
        · obtain ⟨m', hm', hp⟩ := hp
          rw [hm] at hm'
          cases hm'
          unfold EntryPanics at hp
          rcases hty with e | e <;> simp only [e] at hp <;>
          · rcases hp with hp | ⟨-, hp⟩
            · exact absurd hp hs1
            · exact hp
    · intro e hr'
      subst hr'
      exact ofFileReadFailed_answer _ e
    · intro p hr'
      subst hr'
      rfl

/-- The walker while reading a file which is all there is. -/
def onlyFile (ie : InnerEntry) (v : FileVisit) (sz : Nat) : Walker := ⟨some { ie with kind := .File (some v) sz }, none, [], true⟩

theorem onlyFile_pending (ie : InnerEntry) (v : FileVisit) (sz : Nat) :
    (onlyFile ie v sz).pendingLinks = (v.pendingLinks >>= fun x => .ok (x.1, x.2 ++ ([] ++ []))) := rfl

theorem onlyFile_step (ie : InnerEntry) (v : FileVisit) (sz : Nat) (block : Bytes) (cache : Option VisitCache) :
    (∀ p, (v.continueWalk block none).1 = .panic p → ((onlyFile ie v sz).step block cache).1 = .panic p) ∧
    (∀ e, (v.continueWalk block none).1 = .err e → ((onlyFile ie v sz).step block cache).1 = WalkError.ofFileReadFailed e) ∧
    (∀ c next, (v.continueWalk block none).1 = .ok (c, next) → ∃ cache' w', (onlyFile ie v sz).step block cache =
      (.ok (.File (.later c (!next.isSome)) ie.cid ie.path ie.metadata sz), w', cache') ∧
      (∀ v', next = some v' → w' = onlyFile ie v' sz) ∧ (next = none → w'.should_continue = false)) := by
  rw [(C25_visit_cache v block none cache).1]
  have hs : (onlyFile ie v sz).step block cache = (onlyFile ie v sz).nextFile { ie with kind := .File (some v) sz } v sz block cache := rfl
  rw [hs]
  unfold Walker.nextFile
  rcases v.continueWalk block cache with ⟨x, cache'⟩
  refine ⟨?_, ?_, ?_⟩
  · rintro p rfl; rfl
  · rintro e rfl; rfl
  · rintro c next rfl
    refine ⟨cache', _, rfl, ?_, ?_⟩
    · rintro v' rfl; rfl
    · rintro rfl; rfl

theorem walkOutcome_failed (e : FileReadFailed) : walkOutcome (.err (.failed e)) =
    match (WalkError.ofFileReadFailed e : Res WalkError Bytes) with
    | .ok x => .ok x
    | .err e => .err (.failed e)
    | .panic p => .panic p := by
  cases e <;> rfl

/-- One more piece in front. -/
theorem prefix_outcome {W : Option (Res WalkFail (List ContinuedWalk))} {r : Res ReadError (Bytes × List Cid)}
    (h : W.map (fun r => r.map fileBytes) = some (walkOutcome r)) (seg : FileSegment) (cid : Cid) (path : PathBuf) (md : Metadata)
    (sz : Nat) (g : List Cid → List Cid) :
    (W.bind (fun r => some (r.map (fun items => ContinuedWalk.File seg cid path md sz :: items)))).map (fun r => r.map fileBytes) =
      some (walkOutcome (r.map (fun x => (seg.bytes ++ x.1, g x.2)))) := by
  cases W with
  | none => cases h
  | some rw' =>
    simp only [Option.map_some, Option.some.injEq] at h
    simp only [Option.bind_some, Option.map_some, Option.some.injEq]
    cases r with
    | ok x =>
      obtain ⟨x, q⟩ := x
      cases rw' with
      | ok items =>
        simp only [Res.map, walkOutcome, Res.ok.injEq] at h ⊢
        rw [← h]
        simp [fileBytes]
      | err e => cases h
      | panic p => cases h
    | panic p =>
      cases rw' with
      | ok items => cases h
      | err e => cases h
      | panic p => exact h
    | err e =>
      have hm : walkOutcome (Res.map (fun (x : Bytes × List Cid) => (seg.bytes ++ x.1, g x.2)) (.err e)) = walkOutcome (.err e) := rfl
      refine Eq.trans ?_ (h.trans hm.symm)
      cases rw' with
      | ok items =>
        exfalso
        have hne : ∀ y, walkOutcome (.err e) ≠ .ok y := by
          intro y hy
          cases e with
          | failed e => cases e <;> cases hy
          | _ => cases hy
        exact hne _ h.symm
      | err e => rfl
      | panic p => rfl

theorem walkFrom_of_read {get : Cid → Option Bytes} (v : FileVisit) (r) (h : readFrom get v = some r) : ∀ ie sz cache,
    (walkFrom get (onlyFile ie v sz) cache).map (fun r => r.map fileBytes) = some (walkOutcome r) := by
  refine readFrom.partial_correctness get (fun v r => ∀ ie sz cache,
    (walkFrom get (onlyFile ie v sz) cache).map (fun r => r.map fileBytes) = some (walkOutcome r)) ?_ v r h
  intro rec ih v r h ie sz cache
  rw [walkFrom.eq_1, if_neg (by simp [onlyFile, Walker.shouldContinue]), onlyFile_pending]
  cases hp : v.pendingLinks with
  | panic p => rw [hp] at h; cases h; rfl
  | err e => rw [hp] at h; cases h; rfl
  | ok fl =>
    obtain ⟨first, rest⟩ := fl
    simp only [hp] at h
    simp only [Res.bind_ok]
    cases hg : get first with
    | none => rw [hg] at h; cases h; rfl
    | some block =>
      simp only [hg] at h ⊢
      obtain ⟨h1, h2, h3⟩ := onlyFile_step ie v sz block cache
      cases hc : (v.continueWalk block none).1 with
      | panic p =>
        rw [hc] at h
        cases h
        have := h1 p hc
        generalize (onlyFile ie v sz).step block cache = s at this ⊢
        obtain ⟨x, w', c'⟩ := s
        change x = _ at this
        subst this; rfl
      | err e =>
        rw [hc] at h
        cases h
        have := h2 e hc
        generalize (onlyFile ie v sz).step block cache = s at this ⊢
        obtain ⟨x, w', c'⟩ := s
        change x = _ at this
        subst this
        cases e <;> rfl
      | ok cv =>
        obtain ⟨c, next⟩ := cv
        simp only [hc] at h
        obtain ⟨cache', w', e1, e2, e3⟩ := h3 c next hc
        simp only [e1]
        cases next with
        | none =>
          simp only [Option.some.injEq] at h
          subst h
          rw [walkFrom.eq_1, if_pos (by exact e3 rfl)]
          simp [Res.map, fileBytes, FileSegment.later, walkOutcome]
        | some v' =>
          rw [e2 v' rfl]
          dsimp only at h
          cases hr : rec v' with
          | none => rw [hr] at h; cases h
          | some r' =>
            rw [hr] at h
            have := prefix_outcome (ih v' r' hr ie sz cache') (.later c (!(some v').isSome)) ie.cid ie.path ie.metadata sz (first :: ·)
            simp only [Option.bind_eq_bind, Option.bind_some, Option.some.injEq] at h
            subst h
            exact this

theorem read_of_walkFrom {get : Cid → Option Bytes} (w : Walker) (cache) (r) (h : walkFrom get w cache = some r) : ∀ ie v sz,
    w = onlyFile ie v sz → readFrom get v ≠ none := by
  refine walkFrom.partial_correctness get (fun w _ _ => ∀ ie v sz, w = onlyFile ie v sz → readFrom get v ≠ none) ?_ w cache r h
  intro rec ih w cache r h ie v sz hw
  subst hw
  rw [if_neg (by simp [onlyFile, Walker.shouldContinue]), onlyFile_pending] at h
  rw [readFrom.eq_1]
  cases hp : v.pendingLinks with
  | panic p => simp
  | err e => simp
  | ok fl =>
    obtain ⟨first, rest⟩ := fl
    simp only [hp, Res.bind_ok] at h ⊢
    cases hg : get first with
    | none => simp
    | some block =>
      simp only [hg] at h ⊢
      obtain ⟨-, -, h3⟩ := onlyFile_step ie v sz block cache
      cases hc : (v.continueWalk block none).1 with
      | panic p => simp
      | err e => simp
      | ok cv =>
        obtain ⟨c, next⟩ := cv
        cases next with
        | none => simp
        | some v' =>
          obtain ⟨cache', w', e1, e2, -⟩ := h3 c _ hc
          simp only [e1] at h
          simp only
          cases hr : rec w' cache' with
          | none => rw [hr] at h; cases h
          | some r' =>
            have := ih w' cache' r' hr ie v' sz (e2 v' rfl)
            cases hx : readFrom get v' with
            | none => exact absurd hx this
            | some r => simp

/-- C95. Walking from the root of a file gives the bytes which reading it gives: for every store, whatever is in it and whatever is
missing; it fails if and as reading fails, panics where reading panics (and where reading fails to parse a block), and ends if
reading ends. -/
theorem C95_whole_file (get : Cid → Option Bytes) (root : Cid) (name block : Bytes) (hget : get root = some block) (m : FlatUnixFs)
    (hm : FlatUnixFs.tryParse block = .ok m) (hty : m.data.Ty = .File ∨ m.data.Ty = .Raw)
    (cache : Option VisitCache) (hc : ∀ k, cache = some k → CacheObtainable k) :
    (walkFrom get (Walker.new root name) cache).map (fun r => r.map fileBytes) = (readFile get {} block).map walkOutcome := by
  rw [walkFrom.eq_1, if_neg (by simp [Walker.new, Walker.shouldContinue])]
  have hp : (Walker.new root name).pendingLinks = .ok (root, []) := rfl
  simp only [hp, hget]
  have hstep : (Walker.new root name).step block cache = (Walker.new root name).nextFirst m cache := by
    rw [step_atRest (by intro ie v sz h; cases h)]
    unfold Walker.nextBlock
    simp only [hm]
    rcases hty with e | e <;> simp only [e]
  rw [hstep]
  have hst := start_parsed hm none hc
  unfold Walker.nextFirst readFile
  cases hcw : (IdleFileVisit.startFromParsed {} m cache) with
  | mk r cache' =>
    have hst' : IdleFileVisit.start {} block = r := by rw [← hst, hcw]
    rw [hst']
    cases r with
    | panic p => rfl
    | err e => cases e <;> rfl
    | ok r =>
      obtain ⟨content, size, md, next⟩ := r
      have hn : (Walker.new root name).next = some ⟨root, name, if name = [] then 1 else 2⟩ := rfl
      simp only [hn]
      have he : (Walker.new root name).enterLeaf (.File next size) md ⟨root, name, if name = [] then 1 else 2⟩ =
        .ok (InnerEntry.newRoot (.File next size) root md name (if name = [] then 1 else 2)) := rfl
      simp only [he]
      cases next with
      | none =>
        simp only
        rw [walkFrom.eq_1, if_pos (by rfl)]
        simp [Res.map, fileBytes, FileSegment.first, walkOutcome]
      | some v =>
        simp only
        have hw : ({ Walker.popNext (some (InnerEntry.newRoot (.File (some v) size) root md name (if name = [] then 1 else 2))) (Walker.new root name).pending with
            should_continue := (some v).isSome || (Walker.popNext (some (InnerEntry.newRoot (.File (some v) size) root md name (if name = [] then 1 else 2))) (Walker.new root name).pending).next.isSome } : Walker) =
          onlyFile (InnerEntry.newRoot (.File (some v) size) root md name (if name = [] then 1 else 2)) v size := rfl
        rw [hw]
        cases hr : readFrom get v with
        | none =>
          cases hx : walkFrom get (onlyFile (InnerEntry.newRoot (.File (some v) size) root md name (if name = [] then 1 else 2)) v size) cache' with
          | none => rfl
          | some r => exact absurd hr (read_of_walkFrom _ _ _ hx _ _ _ rfl)
        | some r =>
          have := walkFrom_of_read v r hr (InnerEntry.newRoot (.File (some v) size) root md name (if name = [] then 1 else 2)) size cache'
          exact prefix_outcome this (.first content (!(some v).isSome)) _ _ _ _ id

/-! ### Cases -/

/-- A file of two leaves. -/
def twoLeaves : FTree := .node [.leaf [1, 2], .leaf [3]]

/-- A history which ends inside of a file: C95_reads_alike has its hypotheses, and the visit goes on. -/
theorem twoLeaves_walked : ∃ h w, Walked (cidN 0) [97] h w ∧ h.length = 2 ∧ ∃ x seg c path md size, h.getLast? = some x ∧
    x.2 = .File seg c path md size ∧ seg.last_block = false ∧ seg.bytes = [1, 2] ∧ size = 3 ∧ path.comps = [[97]] := by
  let w1 : Walker := ((Walker.new (cidN 0) [97]).step (twoLeaves.block toySha) none).2.1
  have h1 : (Walker.new (cidN 0) [97]).step (twoLeaves.block toySha) none =
    (.ok (.File ⟨[], true, false⟩ (cidN 0) ⟨false, [[97]]⟩ {} 3), w1, none) := by decide +kernel
  let w2 : Walker := (w1.step ((FTree.leaf [1, 2]).block toySha) none).2.1
  have h2 : w1.step ((FTree.leaf [1, 2]).block toySha) none =
    (.ok (.File ⟨[1, 2], false, false⟩ (cidN 0) ⟨false, [[97]]⟩ {} 3), w2, none) := by decide +kernel
  exact ⟨_, w2, .next (h := [_]) (.next (h := []) .new rfl (fun k hk => by cases hk) h1) (by decide +kernel) (fun k hk => by cases hk) h2, rfl,
    _, _, _, _, _, _, rfl, rfl, rfl, rfl, rfl, rfl⟩

/-- So the next block is answered as by a visit of its own. -/
example : ∃ h w v, Walked (cidN 0) [97] h w ∧ ∀ block cache, (w.step block cache).1 =
    walkAnswer (fun (bytes, next) => .File ⟨bytes, false, next.isNone⟩ (cidN 0) ⟨false, [[97]]⟩ {} 3) (FileVisit.continueWalk v block none).1 := by
  let w1 : Walker := ((Walker.new (cidN 0) [97]).step (twoLeaves.block toySha) none).2.1
  have h1 : (Walker.new (cidN 0) [97]).step (twoLeaves.block toySha) none =
    (.ok (.File ⟨[], true, false⟩ (cidN 0) ⟨false, [[97]]⟩ {} 3), w1, none) := by decide +kernel
  have hw : Walked (cidN 0) [97] _ w1 := .next (h := []) .new rfl (fun k hk => by cases hk) h1
  obtain ⟨pre, run, v, e0, -, h3, h4⟩ := C95_reads_alike _ _ _ _ hw _ rfl _ _ _ _ _ rfl
  obtain ⟨b, seg, e1, e2⟩ := readAlone_last h3
  cases v with
  | some v => exact ⟨_, w1, v, hw, h4 v rfl⟩
  | none =>
    exfalso
    have : run.getLast? = ([] ++ [(twoLeaves.block toySha, ContinuedWalk.File ⟨[], true, false⟩ (cidN 0) ⟨false, [[97]]⟩ {} 3)] : List _).getLast? := by
      rw [e0]
      cases hr : run.getLast? with
      | none => rw [hr] at e1; cases e1
      | some y => rw [List.getLast?_append, hr]; rfl
    rw [e1] at this
    cases this
    cases e2

/-- The first block of a file in a directory: the hypotheses of C95_first_block. -/
example : ∃ h w a aw, Walked (cidN 0) [] h w ∧ h.length = 1 ∧ (∀ x, h.getLast? = some x → ¬ MoreToCome x.2) ∧
    awaited (cidN 0) [] (h.map (·.1)) = a :: aw ∧ a.path = [[97]] ∧
    ∃ m, FlatUnixFs.tryParse (twoLeaves.block toySha) = .ok m ∧ m.data.Ty = .File := by
  let w1 : Walker := ((Walker.new (cidN 0) []).step (dirMsg [linkN 1 [97]]).write none).2.1
  have h1 : (Walker.new (cidN 0) []).step (dirMsg [linkN 1 [97]]).write none =
    (.ok (.RootDirectory (cidN 0) ⟨false, []⟩ { mode := some 0o755 }), w1, none) := by decide +kernel
  refine ⟨_, w1, ⟨cidN 1, [[97]], .entry⟩, [], .next (h := []) .new rfl (fun k hk => by cases hk) h1, rfl, ?_, by decide +kernel, rfl,
    (FlatUnixFs.tryParse (twoLeaves.block toySha)).toOption.getD ⟨[], { Ty := .File }⟩, by decide +kernel, by decide +kernel⟩
  intro x hx
  cases hx
  rintro ⟨_, _, _, _, _, e, -⟩
  cases e

/-- A missing leaf: the walk fails as reading fails. -/
example : ∃ m, FlatUnixFs.tryParse (twoLeaves.block toySha) = .ok m ∧ m.data.Ty = .File ∧
    (walkFrom (fun c => if c = cidN 0 then some (twoLeaves.block toySha) else none) (Walker.new (cidN 0) [97]) none).map (fun r => r.map fileBytes) =
      (readFile (fun c => if c = cidN 0 then some (twoLeaves.block toySha) else none) {} (twoLeaves.block toySha)).map walkOutcome := by
  have hm : FlatUnixFs.tryParse (twoLeaves.block toySha) =
    .ok ((FlatUnixFs.tryParse (twoLeaves.block toySha)).toOption.getD ⟨[], { Ty := .File }⟩) := by decide +kernel
  exact ⟨_, hm, by decide +kernel, C95_whole_file _ _ _ _ (if_pos rfl) _ hm (.inl (by decide +kernel)) none (fun k hk => by cases hk)⟩

end Verif.Props
