import Verif.WalkFs
/-
Properties of the walker: C45, C46, C47, C48, C49, C50 and its part of C25 and C27.
-/
namespace Verif.Props
open Verif Verif.Spec

/-! ### C46: what is asked for -/

/-- Whatever blocks were given and accepted so far, the walker asks for exactly the blocks which are still to be visited,
the next one first; and it wants to continue iff there are any. -/
theorem C46_walk_pending (cid : Cid) (name : Bytes) (h : List (Bytes × ContinuedWalk)) (w : Walker) (hw : Walked cid name h w) :
    (w.shouldContinue = true ↔ awaited cid name (h.map (·.1)) ≠ []) ∧
    ∀ a aw, awaited cid name (h.map (·.1)) = a :: aw → w.pendingLinks = .ok (a.cid, aw.map (·.cid)) := by
  obtain ⟨fb, rest, h1, h2⟩ := walked_inv hw
  constructor
  · show w.should_continue = true ↔ _
    rw [h2.cont, h1]
    cases fb <;> simp
  · intro a aw haw
    exact pendingLinks_eq h2 (by rw [← h1]; exact haw)

/-- Only a block can be accepted which parses, and something has to be awaited. -/
theorem C46_walk_accepts (cid : Cid) (name : Bytes) (h : List (Bytes × ContinuedWalk)) (w w' : Walker) (hw : Walked cid name h w)
    (block : Bytes) (cache cache' : Option VisitCache) (hc : ∀ k, cache = some k → CacheObtainable k) (item : ContinuedWalk)
    (hs : w.step block cache = (.ok item, w', cache')) :
    ∃ a aw m, awaited cid name (h.map (·.1)) = a :: aw ∧ FlatUnixFs.tryParse block = .ok m ∧
      awaited cid name (h.map (·.1) ++ [block]) = m.links.filterMap (follow a m) ++ aw := by
  obtain ⟨fb, rest, h1, h2⟩ := walked_inv hw
  obtain ⟨m, a, aw, fb', rest', hm, h3, h4, h5⟩ := h2.step hc (step_ok hs)
  rw [h3] at h1
  exact ⟨a, aw, m, h1, hm, awaited_snoc h1 hm⟩

/-! ### C50 -/

theorem setPath_ne_err {ε : Type} {ie : InnerEntry} {n : Bytes} {d : Nat} (e : ε) : ie.setPath n d ≠ .err e := by
  have hpop : ∀ (d k : Nat) (p : PathBuf), (popWhileGe d k p : Res ε PathBuf) ≠ .err e := by
    intro d k
    induction k with
    | zero => intro p; simp [popWhileGe]
    | succ k ih =>
      intro p
      rw [popWhileGe]
      split
      · split
        · simp
        · exact ih _
      · simp
  unfold InnerEntry.setPath
  split
  · simp
  · have := hpop d ie.depth ie.path
    cases hx : (popWhileGe d ie.depth ie.path : Res ε PathBuf) with
    | err e' =>
      intro h
      have h' : e' = e := by simpa [Bind.bind, Res.bind] using h
      exact this (by rw [hx, h'])
    | panic p => intro h; cases h
    | ok p =>
      simp only [Res.bind_ok]
      split <;> simp

theorem asKind_ne_err {ε : Type} {ie : InnerEntry} {k : InnerKind} {c : Cid} {n : Bytes} {d : Nat} {md : Metadata} (e : ε) :
    ie.asKind k c n d md ≠ .err e := by
  unfold InnerEntry.asKind
  split
  · simp
  · have := setPath_ne_err (ie := { ie with cid := c, kind := k }) (n := n) (d := d) e
    cases hx : ({ ie with cid := c, kind := k }.setPath n d : Res ε InnerEntry) with
    | err e' =>
      intro h
      have h' : e' = e := by simpa [Bind.bind, Res.bind] using h
      exact this (by rw [hx, h'])
    | panic p => intro h; cases h
    | ok p => intro h; cases h

theorem asBucket_ne_err {ε : Type} {ie : InnerEntry} {c : Cid} {d : Nat} (e : ε) : ie.asBucket c d ≠ .err e := by
  have hpop : ∀ (d k : Nat) (p : PathBuf), (popWhileGt d k p : Res ε (Nat × PathBuf)) ≠ .err e := by
    intro d k
    induction k with
    | zero => intro p; simp [popWhileGt]
    | succ k ih =>
      intro p
      rw [popWhileGt]
      split
      · split
        · simp
        · exact ih _
      · simp
  have hgen : ((do
        let (d', path) ← popWhileGt d ie.depth ie.path
        if d' ≠ d then .panic .walkBucketDepth
        else .ok { ie with cid := c, kind := .Bucket, path := path, depth := d' }) : Res ε InnerEntry) ≠ .err e := by
    have := hpop d ie.depth ie.path
    cases hx : (popWhileGt d ie.depth ie.path : Res ε (Nat × PathBuf)) with
    | err e' =>
      intro h
      have h' : e' = e := by simpa [Bind.bind, Res.bind] using h
      exact this (by rw [hx, h'])
    | panic p => intro h; cases h
    | ok p =>
      simp only [Res.bind_ok]
      split <;> simp
  unfold InnerEntry.asBucket
  split
  · split <;> simp
  all_goals first
    | exact hgen
    | simp

theorem enterLeaf_ne_err {w : Walker} {k : InnerKind} {md : Metadata} {n : WalkLink} (e : WalkError) : w.enterLeaf k md n ≠ .err e := by
  unfold Walker.enterLeaf
  split
  · simp
  · exact asKind_ne_err e

theorem enterDirectory_ne_err {w : Walker} {md : Metadata} {n : WalkLink} (e : WalkError) : w.enterDirectory md n ≠ .err e := by
  unfold Walker.enterDirectory
  split
  · simp
  · next ie _ =>
    have := asKind_ne_err (ie := ie) (k := .Directory) (c := n.cid) (n := n.name) (d := n.depth) (md := md) e
    cases hx : (ie.asKind .Directory n.cid n.name n.depth md : Res WalkError InnerEntry) with
    | err e' =>
      intro h
      have h' : e' = e := by simpa [Bind.bind, Res.bind] using h
      exact this (by rw [hx, h'])
    | panic p => intro h; cases h
    | ok p => intro h; cases h

theorem enterShard_ne_err {w : Walker} {md : Metadata} {n : WalkLink} (e : WalkError) : w.enterShard md n ≠ .err e := by
  unfold Walker.enterShard
  split
  · simp
  · next ie _ =>
    split
    · have := asBucket_ne_err (ie := ie) (c := n.cid) (d := n.depth) e
      cases hx : (ie.asBucket n.cid n.depth : Res WalkError InnerEntry) with
      | err e' =>
        intro h
        have h' : e' = e := by simpa [Bind.bind, Res.bind] using h
        exact this (by rw [hx, h'])
      | panic p => intro h; cases h
      | ok p => intro h; cases h
    · have := asKind_ne_err (ie := ie) (k := .RootBucket) (c := n.cid) (n := n.name) (d := n.depth) (md := md) e
      cases hx : (ie.asKind .RootBucket n.cid n.name n.depth md : Res WalkError InnerEntry) with
      | err e' =>
        intro h
        have h' : e' = e := by simpa [Bind.bind, Res.bind] using h
        exact this (by rw [hx, h'])
      | panic p => intro h; cases h
      | ok p => intro h; cases h

theorem nextDir_err {w : Walker} {links : List PBLink} {conv : Nat → Nat → PBLink → Res InvalidCidInLink WalkLink}
    {enter : WalkLink → Res WalkError (InnerEntry × ContinuedWalk)} {cache : Option VisitCache} (henter : ∀ n e, enter n ≠ .err e)
    {e : WalkError} (h : (w.nextDir links conv enter cache).1 = .err e) :
    (w.nextDir links conv enter cache).2.1.should_continue = false := by
  unfold Walker.nextDir at h ⊢
  split
  next hn => rw [hn] at h; cases h
  next n hn =>
  rw [hn] at h
  simp only at h
  split
  next hp => rw [hp] at h; cases h
  next => rfl
  next hp =>
    rw [hp] at h
    simp only at h
    split
    next he => rw [he] at h; cases h
    next he => exact absurd he (henter n _)
    next he => rw [he] at h; cases h

/-- After an error the walk is over, in every state and for every block. -/
theorem C50_stops (w : Walker) (block : Bytes) (cache : Option VisitCache) (e : WalkError) (h : (w.step block cache).1 = .err e) :
    (w.step block cache).2.1.shouldContinue = false := by
  show (w.step block cache).2.1.should_continue = false
  by_cases hf : ∃ ie v sz, w.current = some ie ∧ ie.kind = .File (some v) sz
  · obtain ⟨ie, v, sz, hc, hk⟩ := hf
    rw [step_inFile hc hk] at h ⊢
    unfold Walker.nextFile at h ⊢
    rcases hx : v.continueWalk block cache with ⟨r, k⟩
    rw [hx] at h
    cases r with
    | ok x => cases h
    | err e' => rfl
    | panic p => cases h
  · have hr : w.atRest := fun ie v sz h1 h2 => hf ⟨ie, v, sz, h1, h2⟩
    rw [step_atRest hr] at h ⊢
    unfold Walker.nextBlock at h ⊢
    cases hm : FlatUnixFs.tryParse block with
    | error pe => rfl
    | ok m =>
      rw [hm] at h
      simp only at h ⊢
      have hfirst : ∀ e, (w.nextFirst m cache).1 = .err e → (w.nextFirst m cache).2.1.should_continue = false := by
        intro e h
        unfold Walker.nextFirst at h ⊢
        rcases hx : ({} : IdleFileVisit).startFromParsed m cache with ⟨r, k⟩
        rw [hx] at h
        cases r with
        | panic p => cases h
        | err e' => rfl
        | ok r =>
          simp only at h ⊢
          cases hn : w.next with
          | none => rw [hn] at h; cases h
          | some n =>
            rw [hn] at h
            simp only at h ⊢
            cases he : w.enterLeaf (.File r.next r.total_size) r.metadata n with
            | err e' => exact absurd he (enterLeaf_ne_err e')
            | panic p => rw [he] at h; cases h
            | ok ie => rw [he] at h; cases h
      cases hty : m.data.Ty with
      | Directory =>
        rw [hty] at h
        simp only at h ⊢
        cases hck : checkDirectorySupported m with
        | error e' => rfl
        | ok m' =>
          rw [hck] at h
          exact nextDir_err (fun n e => enterDirectory_ne_err e) h
      | HAMTShard =>
        rw [hty] at h
        simp only at h ⊢
        cases hck : checkHamtshardSupported m with
        | err e' => rfl
        | panic p => rw [hck] at h; cases h
        | ok m' =>
          rw [hck] at h
          exact nextDir_err (fun n e => enterShard_ne_err e) h
      | Raw => rw [hty] at h; exact hfirst e h
      | File => rw [hty] at h; exact hfirst e h
      | Metadata => rfl
      | Symlink =>
        rw [hty] at h
        simp only at h ⊢
        unfold Walker.nextSymlink at h ⊢
        simp only at h ⊢
        cases hn : w.next with
        | none => rw [hn] at h; cases h
        | some n =>
          rw [hn] at h
          simp only at h ⊢
          cases he : w.enterLeaf .Symlink (Metadata.ofUnixFs m.data) n with
          | err e' => exact absurd he (enterLeaf_ne_err e')
          | panic p => rw [he] at h; cases h
          | ok ie => rw [he] at h; cases h

example : ∃ e, ((Walker.new (cidOf toySha []) []).step [1] none).1 = .err e := by
  have : (match ((Walker.new (cidOf toySha []) []).step [1] none).1 with | .err _ => true | _ => false) = true := by decide +kernel
  revert this
  cases ((Walker.new (cidOf toySha []) []).step [1] none).1 <;> simp

/-! ### C25: the walker's cache -/

/-- The outcome and the walker afterwards do not depend on which (obtainable) cache is passed; the cache handed back is
obtainable. -/
theorem C25_walk_cache (w : Walker) (block : Bytes) (c c' : Option VisitCache)
    (h : ∀ k, c = some k → CacheObtainable k) (h' : ∀ k, c' = some k → CacheObtainable k) :
    (w.step block c).1 = (w.step block c').1 ∧ (w.step block c).2.1 = (w.step block c').2.1 ∧
    ∀ k, (w.step block c).2.2 = some k → CacheObtainable k := by
  refine ⟨?_, ?_, step_cache h⟩
  all_goals
    by_cases hf : ∃ ie v sz, w.current = some ie ∧ ie.kind = .File (some v) sz
    · obtain ⟨ie, v, sz, hc, hk⟩ := hf
      rw [step_inFile hc hk, step_inFile hc hk]
      unfold Walker.nextFile
      have := (C25_visit_cache v block c c').1
      rcases hx : v.continueWalk block c with ⟨r, k⟩
      rcases hx' : v.continueWalk block c' with ⟨r', k'⟩
      rw [hx, hx'] at this
      simp only at this
      subst this
      cases r <;> rfl
    · have hr : w.atRest := fun ie v sz h1 h2 => hf ⟨ie, v, sz, h1, h2⟩
      rw [step_atRest hr, step_atRest hr]
      unfold Walker.nextBlock
      cases hm : FlatUnixFs.tryParse block with
      | error pe => rfl
      | ok m =>
        simp only
        have hfirst : (w.nextFirst m c).1 = (w.nextFirst m c').1 ∧ (w.nextFirst m c).2.1 = (w.nextFirst m c').2.1 := by
          unfold Walker.nextFirst
          have := (C25_start_cache {} m c c' h h').1
          rcases hx : ({} : IdleFileVisit).startFromParsed m c with ⟨r, k⟩
          rcases hx' : ({} : IdleFileVisit).startFromParsed m c' with ⟨r', k'⟩
          rw [hx, hx'] at this
          simp only at this
          subst this
          cases r with
          | panic p => exact ⟨rfl, rfl⟩
          | err e => exact ⟨rfl, rfl⟩
          | ok r =>
            simp only
            cases w.next with
            | none => exact ⟨rfl, rfl⟩
            | some n =>
              simp only
              cases w.enterLeaf (.File r.next r.total_size) r.metadata n <;> exact ⟨rfl, rfl⟩
        have hdir : ∀ links conv enter, (w.nextDir links conv enter c).1 = (w.nextDir links conv enter c').1 ∧
            (w.nextDir links conv enter c).2.1 = (w.nextDir links conv enter c').2.1 := by
          intro links conv enter
          unfold Walker.nextDir
          cases w.next with
          | none => exact ⟨rfl, rfl⟩
          | some n =>
            simp only
            rcases pushLinks (conv n.depth) links.zipIdx.reverse w.pending with ⟨r, p⟩
            cases r with
            | panic p => exact ⟨rfl, rfl⟩
            | err e => exact ⟨rfl, rfl⟩
            | ok u =>
              simp only
              cases enter n <;> exact ⟨rfl, rfl⟩
        cases hty : m.data.Ty with
        | Directory =>
          simp only
          cases checkDirectorySupported m with
          | error e' => rfl
          | ok m' => first | exact (hdir _ _ _).1 | exact (hdir _ _ _).2
        | HAMTShard =>
          simp only
          cases checkHamtshardSupported m with
          | err e' => rfl
          | panic p => rfl
          | ok m' => first | exact (hdir _ _ _).1 | exact (hdir _ _ _).2
        | Raw => first | exact hfirst.1 | exact hfirst.2
        | File => first | exact hfirst.1 | exact hfirst.2
        | Metadata => rfl
        | Symlink =>
          simp only
          unfold Walker.nextSymlink
          simp only
          cases w.next with
          | none => rfl
          | some n =>
            simp only
            cases w.enterLeaf .Symlink (Metadata.ofUnixFs m.data) n <;> rfl

end Verif.Props
