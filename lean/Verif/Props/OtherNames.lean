import Verif.Spec.OtherNames
import Verif.Spec.Refusals
import Verif.Props.RootNames
import Verif.Props.Refusals
/-
C96, continued: root names which are paths of no component or of several. What exactly such a walk answers, and hence when exactly
walkers panic or refuse a block, whatever the root name.
-/
namespace Verif.Props
open Verif Verif.Spec

def atIE (P : PathBuf) (ie : InnerEntry) : InnerEntry := { ie with path := P }
def atW (P : PathBuf) (w : Walker) : Walker := { w with current := w.current.map (atIE P) }

/-- Two walkers which differ in the path; and perhaps in the root name, before the first step. -/
structure Like (P : PathBuf) (W w : Walker) : Prop where
  current : W.current = w.current.map (atIE P)
  pending : W.pending = w.pending
  cont : W.should_continue = w.should_continue
  next : W.next.map (fun n => (n.cid, n.depth)) = w.next.map (fun n => (n.cid, n.depth))

/-- The same errors; the same successes if they are of the first step or are more of the same. -/
structure Matches (P : PathBuf) (first : Prop) (R r : WalkStep) : Prop where
  err : ∀ e, R.1 = .err e ↔ r.1 = .err e
  ok : ∀ I, R.1 = .ok I ↔ ∃ i, r.1 = .ok i ∧ I = placedAt P i ∧ (first ∨ MoreOfTheSame i)
  after : ∀ I, R.1 = .ok I → R.2.1 = atW P r.2.1

theorem matches_panics {P : PathBuf} {first : Prop} {R r : WalkStep} {p q : Panic} (h1 : R.1 = .panic p) (h2 : r.1 = .panic q) : Matches P first R r := by
  refine ⟨fun e => ?_, fun I => ?_, fun I h => ?_⟩
  · rw [h1, h2]; exact ⟨fun h => (by cases h), fun h => (by cases h)⟩
  · rw [h1, h2]; exact ⟨fun h => (by cases h), fun ⟨_, h, _⟩ => (by cases h)⟩
  · rw [h1] at h; cases h

theorem matches_errs {P : PathBuf} {first : Prop} {R r : WalkStep} {e : WalkError} (h1 : R.1 = .err e) (h2 : r.1 = .err e) : Matches P first R r := by
  refine ⟨fun e => ?_, fun I => ?_, fun I h => ?_⟩
  · rw [h1, h2]
  · rw [h1, h2]; exact ⟨fun h => (by cases h), fun ⟨_, h, _⟩ => (by cases h)⟩
  · rw [h1] at h; cases h

theorem matches_stops {P : PathBuf} {first : Prop} {R r : WalkStep} {p : Panic} {i : ContinuedWalk} (h1 : R.1 = .panic p) (h2 : r.1 = .ok i)
    (h3 : ¬ (first ∨ MoreOfTheSame i)) : Matches P first R r := by
  refine ⟨fun e => ?_, fun I => ?_, fun I h => ?_⟩
  · rw [h1, h2]; exact ⟨fun h => (by cases h), fun h => (by cases h)⟩
  · rw [h1, h2]; exact ⟨fun h => (by cases h), fun ⟨_, h, _, h'⟩ => (by cases h; exact absurd h' h3)⟩
  · rw [h1] at h; cases h

theorem matches_oks {P : PathBuf} {first : Prop} {R r : WalkStep} {i : ContinuedWalk} (h1 : R.1 = .ok (placedAt P i)) (h2 : r.1 = .ok i)
    (h3 : first ∨ MoreOfTheSame i) (h4 : R.2.1 = atW P r.2.1) : Matches P first R r := by
  refine ⟨fun e => ?_, fun I => ?_, fun I h => h4⟩
  · rw [h1, h2]; exact ⟨fun h => (by cases h), fun h => (by cases h)⟩
  · rw [h1, h2]
    exact ⟨fun h => (by cases h; exact ⟨i, rfl, rfl, h3⟩), fun ⟨_, h, h', _⟩ => (by cases h; rw [h'])⟩

theorem matches_readFailed {P : PathBuf} {first : Prop} (e : FileReadFailed) (x y : Walker × Option VisitCache) :
    Matches P first (WalkError.ofFileReadFailed e, x) (WalkError.ofFileReadFailed e, y) := by
  cases e with
  | Read o => exact matches_panics rfl rfl
  | File e => exact matches_errs rfl rfl
  | UnexpectedType t => exact matches_errs rfl rfl
  | InvalidCid l => exact matches_errs rfl rfl

theorem popNext_at (P : PathBuf) (ie : InnerEntry) (p : List WalkLink) :
    Walker.popNext (some (atIE P ie)) p = atW P (Walker.popNext (some ie) p) := by
  unfold Walker.popNext
  split <;> rfl

/-- How the new entries and answers of two walkers are related. -/
inductive Enters (P : PathBuf) (first : Prop) : Res WalkError (InnerEntry × ContinuedWalk) → Res WalkError (InnerEntry × ContinuedWalk) → Prop
  | panics (p q) : Enters P first (.panic p) (.panic q)
  | stops (p ie i) : ¬ (first ∨ MoreOfTheSame i) → Enters P first (.panic p) (.ok (ie, i))
  | same (ie i) : first ∨ MoreOfTheSame i → Enters P first (.ok (atIE P ie, placedAt P i)) (.ok (ie, i))

inductive EntersLeaf (P : PathBuf) (first : Prop) : Res WalkError InnerEntry → Res WalkError InnerEntry → Prop
  | panics (p q) : EntersLeaf P first (.panic p) (.panic q)
  | stops (p ie) : ¬ first → EntersLeaf P first (.panic p) (.ok ie)
  | same (ie) : first → EntersLeaf P first (.ok (atIE P ie)) (.ok ie)

theorem nextDir_like {P : PathBuf} {first : Prop} {W w : Walker} (hs : Like P W w) (links : List PBLink) (conv : Nat → Nat → PBLink → Res InvalidCidInLink WalkLink)
    (E e : WalkLink → Res WalkError (InnerEntry × ContinuedWalk)) (cache : Option VisitCache)
    (he : ∀ N n, W.next = some N → w.next = some n → Enters P first (E N) (e n)) :
    Matches P first (W.nextDir links conv E cache) (w.nextDir links conv e cache) := by
  have hn := hs.next
  unfold Walker.nextDir
  cases hW : W.next with
  | none =>
    rw [hW] at hn
    cases hw : w.next with
    | none => exact matches_panics rfl rfl
    | some n => rw [hw] at hn; cases hn
  | some N =>
    rw [hW] at hn
    cases hw : w.next with
    | none => rw [hw] at hn; cases hn
    | some n =>
      rw [hw] at hn
      simp only [Option.map_some, Option.some.injEq, Prod.mk.injEq] at hn
      simp only [hn.2, hs.pending]
      rcases pushLinks (conv n.depth) links.zipIdx.reverse w.pending with ⟨x, q⟩
      cases x with
      | panic p => exact matches_panics rfl rfl
      | err e => exact matches_errs rfl rfl
      | ok u =>
        have h := he N n hW hw
        generalize E N = A at h ⊢
        generalize e n = B at h ⊢
        cases h with
        | panics p q => exact matches_panics rfl rfl
        | stops p ie i h => exact matches_stops rfl rfl h
        | same ie i h => exact matches_oks rfl rfl h (popNext_at P ie q)

theorem nextFirst_like {P : PathBuf} {first : Prop} {W w : Walker} (hs : Like P W w) (m : FlatUnixFs) (cache : Option VisitCache)
    (he : ∀ k md N n, W.next = some N → w.next = some n → EntersLeaf P first (W.enterLeaf k md N) (w.enterLeaf k md n)) :
    Matches P first (W.nextFirst m cache) (w.nextFirst m cache) := by
  have hn := hs.next
  unfold Walker.nextFirst
  rcases IdleFileVisit.startFromParsed {} m cache with ⟨x, c⟩
  cases x with
  | panic p => exact matches_panics rfl rfl
  | err e => exact matches_readFailed e _ _
  | ok r =>
    simp only
    cases hW : W.next with
    | none =>
      rw [hW] at hn
      cases hw : w.next with
      | none => exact matches_panics rfl rfl
      | some n => rw [hw] at hn; cases hn
    | some N =>
      rw [hW] at hn
      cases hw : w.next with
      | none => rw [hw] at hn; cases hn
      | some n =>
        have h := he (.File r.next r.total_size) r.metadata N n hW hw
        simp only [hs.pending]
        generalize W.enterLeaf (.File r.next r.total_size) r.metadata N = A at h ⊢
        generalize w.enterLeaf (.File r.next r.total_size) r.metadata n = B at h ⊢
        cases h with
        | panics p q => exact matches_panics rfl rfl
        | stops p ie h => exact matches_stops rfl rfl (by rintro (h' | h'); exact h h'; cases h')
        | same ie h =>
          refine matches_oks rfl rfl (.inl h) ?_
          simp only [popNext_at]
          rfl

theorem nextSymlink_like {P : PathBuf} {first : Prop} {W w : Walker} (hs : Like P W w) (m : FlatUnixFs) (md : Metadata) (cache : Option VisitCache)
    (he : ∀ k md N n, W.next = some N → w.next = some n → EntersLeaf P first (W.enterLeaf k md N) (w.enterLeaf k md n)) :
    Matches P first (W.nextSymlink m md cache) (w.nextSymlink m md cache) := by
  have hn := hs.next
  unfold Walker.nextSymlink
  cases hW : W.next with
  | none =>
    rw [hW] at hn
    cases hw : w.next with
    | none => exact matches_panics rfl rfl
    | some n => rw [hw] at hn; cases hn
  | some N =>
    rw [hW] at hn
    cases hw : w.next with
    | none => rw [hw] at hn; cases hn
    | some n =>
      have h := he .Symlink md N n hW hw
      simp only [hs.pending]
      generalize W.enterLeaf .Symlink md N = A at h ⊢
      generalize w.enterLeaf .Symlink md n = B at h ⊢
      cases h with
      | panics p q => exact matches_panics rfl rfl
      | stops p ie h => exact matches_stops rfl rfl (by rintro (h' | h'); exact h h'; cases h')
      | same ie h => exact matches_oks rfl rfl (.inl h) (popNext_at P ie _)

theorem nextBlock_like {P : PathBuf} {first : Prop} {W w : Walker} (hs : Like P W w) (b : Bytes) (cache : Option VisitCache)
    (hd : ∀ md N n, W.next = some N → w.next = some n → Enters P first (W.enterDirectory md N) (w.enterDirectory md n))
    (hb : ∀ md N n, W.next = some N → w.next = some n → Enters P first (W.enterShard md N) (w.enterShard md n))
    (he : ∀ k md N n, W.next = some N → w.next = some n → EntersLeaf P first (W.enterLeaf k md N) (w.enterLeaf k md n)) :
    Matches P first (W.nextBlock b cache) (w.nextBlock b cache) := by
  unfold Walker.nextBlock
  cases FlatUnixFs.tryParse b with
  | error e => exact matches_errs rfl rfl
  | ok m =>
    simp only
    cases m.data.Ty with
    | Directory =>
      simp only
      cases checkDirectorySupported m with
      | error e => exact matches_errs rfl rfl
      | ok m => exact nextDir_like hs _ _ _ _ _ (hd _)
    | HAMTShard =>
      simp only
      cases checkHamtshardSupported m with
      | panic p => exact matches_panics rfl rfl
      | err e => exact matches_errs rfl rfl
      | ok m => exact nextDir_like hs _ _ _ _ _ (hb _)
    | Raw => exact nextFirst_like hs _ _ he
    | File => exact nextFirst_like hs _ _ he
    | Metadata => exact matches_errs rfl rfl
    | Symlink => exact nextSymlink_like hs _ _ _ he

/-! ### The first step -/

theorem first_matches {cid : Cid} {name x : Bytes} {ps : List Bytes} (hp : Pieces name ps) (hname : name ≠ []) (hx : x ≠ [])
    (b : Bytes) (cache : Option VisitCache) :
    Matches (namePath ps) True ((Walker.new cid name).step b cache) ((Walker.new cid x).step b cache) := by
  have hpush := push_root hp
  have hl : Like (namePath ps) (Walker.new cid name) (Walker.new cid x) := ⟨rfl, rfl, rfl, by simp [Walker.new, hname, hx]⟩
  have hn : ∀ N n, (Walker.new cid name).next = some N → (Walker.new cid x).next = some n → N = ⟨cid, name, 2⟩ ∧ n = ⟨cid, x, 2⟩ := by
    intro N n hN hn
    simp only [Walker.new, hname, hx, if_false, Option.some.injEq] at hN hn
    exact ⟨hN.symm, hn.symm⟩
  have hroot : ∀ (k : InnerKind) (c : Cid) (md : Metadata) (d : Nat), InnerEntry.newRoot k c md name d = atIE (namePath ps) (InnerEntry.newRoot k c md x d) := by
    intro k c md d
    unfold InnerEntry.newRoot
    rw [hpush]
    rfl
  rw [step_atRest (by intro ie v sz h; cases h), step_atRest (by intro ie v sz h; cases h)]
  refine nextBlock_like hl b cache ?_ ?_ ?_
  · intro md N n hN hn'
    obtain ⟨rfl, rfl⟩ := hn N n hN hn'
    show Enters _ _ (.ok _) (.ok _)
    rw [hroot]
    exact .same _ (.RootDirectory _ _ _) (.inl trivial)
  · intro md N n hN hn'
    obtain ⟨rfl, rfl⟩ := hn N n hN hn'
    show Enters _ _ (.ok _) (.ok _)
    rw [hroot]
    exact .same _ (.RootDirectory _ _ _) (.inl trivial)
  · intro k md N n hN hn'
    obtain ⟨rfl, rfl⟩ := hn N n hN hn'
    show EntersLeaf _ _ (.ok _) (.ok _)
    rw [hroot]
    exact .same _ trivial

/-! ### Later steps -/

theorem stuck_panics {ε : Type} {cid : Cid} {path : PathBuf} {w : Walker} {ie : InnerEntry} (hs : Stuck cid path w ie) (k : InnerKind) (c : Cid) (name : Bytes)
    (d : Nat) (md : Metadata) : ∃ p, (ie.asKind k c name d md : Res ε _) = .panic p := by
  cases h : (ie.asKind k c name d md : Res ε InnerEntry) with
  | panic p => exact ⟨p, rfl⟩
  | err e => exact absurd h (asKind_ne_err e)
  | ok i => exact absurd h (stuck_kind hs k c name d md i)

theorem later_matches {cid : Cid} {P : PathBuf} {w : Walker} {ie : InnerEntry} (hc : w.current = some ie)
    (hs : Stuck cid P (atW P w) (atIE P ie)) (b : Bytes) (cache : Option VisitCache) :
    Matches P False ((atW P w).step b cache) (w.step b cache) := by
  have hC := hs.current
  by_cases hf : ∃ v sz, ie.kind = .File (some v) sz
  · obtain ⟨v, sz, hk⟩ := hf
    rw [step_inFile hc hk, step_inFile hC hk]
    unfold Walker.nextFile
    rcases v.continueWalk b cache with ⟨x, c⟩
    cases x with
    | panic p => exact matches_panics rfl rfl
    | err e => exact matches_readFailed e _ _
    | ok x => exact matches_oks rfl rfl (.inr rfl) rfl
  · have hr : w.atRest := by
      intro ie' v sz h1 h2
      rw [hc] at h1
      cases h1
      exact hf ⟨v, sz, h2⟩
    have hR : (atW P w).atRest := by
      intro ie' v sz h1 h2
      rw [hC] at h1
      cases h1
      exact hf ⟨v, sz, h2⟩
    have hkind : ∀ (k : InnerKind) (n : WalkLink) (md : Metadata) (E : InnerEntry → ContinuedWalk) (E' : InnerEntry → ContinuedWalk),
        (∀ i, ¬ MoreOfTheSame (E i)) →
        Enters P False ((atIE P ie).asKind k n.cid n.name n.depth md >>= fun i => .ok (i, E' i)) (ie.asKind k n.cid n.name n.depth md >>= fun i => .ok (i, E i)) := by
      intro k n md E E' hE
      obtain ⟨p, hp⟩ := stuck_panics (ε := WalkError) hs k n.cid n.name n.depth md
      rw [hp]
      cases h : (ie.asKind k n.cid n.name n.depth md : Res WalkError InnerEntry) with
      | panic q => exact .panics _ _
      | err e => exact absurd h (asKind_ne_err e)
      | ok i => exact .stops _ _ _ (by rintro (h | h); exact h; exact hE i h)
    rw [step_atRest hr, step_atRest hR]
    refine nextBlock_like (w := w) (W := atW P w) ⟨rfl, rfl, rfl, rfl⟩ b cache ?_ ?_ ?_
    · intro md N n hN hn
      have : N = n := Option.some.inj (hN.symm.trans hn)
      subst this
      unfold Walker.enterDirectory
      simp only [hC, hc]
      exact hkind _ _ _ _ _ (fun i h => h)
    · intro md N n hN hn
      have : N = n := Option.some.inj (hN.symm.trans hn)
      subst this
      unfold Walker.enterShard
      simp only [hC, hc]
      by_cases hnm : N.name = []
      · rw [if_pos hnm, if_pos hnm]
        have hlink : ∀ k, (atIE P ie).kind = k → (∃ v sz, k = .File v sz) ∨ k = .Symlink → False := by
          intro k hk h
          subst hk
          have := hs.leaf h
          rw [Walker.links, hN] at this
          cases this
        unfold InnerEntry.asBucket
        rcases hs.kind with hk | hk | hk | hk
        · rw [hk, show ie.kind = .RootDirectory from hk]
          exact .panics _ _
        · rw [hk, show ie.kind = .BucketAtRoot from hk]
          simp only
          show Enters P False ((if ie.depth ≠ N.depth then _ else _) >>= _) _
          by_cases hd : ie.depth ≠ N.depth
          · rw [if_pos hd, if_pos hd]; exact .panics _ _
          · rw [if_neg hd, if_neg hd]; exact .same ie (.Bucket ie.cid ie.path) (.inr trivial)
        · exact absurd (Or.inl hk) (hlink _ rfl)
        · exact absurd (Or.inr hk) (hlink _ rfl)
      · rw [if_neg hnm, if_neg hnm]
        exact hkind _ _ _ _ _ (fun i h => h)
    · intro k md N n hN hn
      have : N = n := Option.some.inj (hN.symm.trans hn)
      subst this
      unfold Walker.enterLeaf
      simp only [hC, hc]
      obtain ⟨p, hp⟩ := stuck_panics (ε := WalkError) hs k N.cid N.name N.depth md
      rw [hp]
      cases h : (ie.asKind k N.cid N.name N.depth md : Res WalkError InnerEntry) with
      | panic q => exact .panics _ _
      | err e => exact absurd h (asKind_ne_err e)
      | ok i => exact .stops _ _ id

/-! ### The walks -/

/-- The walkers of two walks with the same blocks, after them. -/
structure Both (cid : Cid) (name x : Bytes) (P : PathBuf) (h : List (Bytes × ContinuedWalk)) (W w : Walker) : Prop where
  like : Like P W w
  start : h = [] → W = Walker.new cid name ∧ w = Walker.new cid x
  later : h ≠ [] → W = atW P w ∧ ∃ ie, w.current = some ie ∧ Stuck cid P W (atIE P ie)

theorem both_step {cid : Cid} {name x : Bytes} {ps : List Bytes} (hp : Pieces name ps) (hname : name ≠ []) (hx : x ≠ [])
    {h : List (Bytes × ContinuedWalk)} {W w : Walker} (hb : Both cid name x (namePath ps) h W w) (b : Bytes) (cache : Option VisitCache) :
    Matches (namePath ps) (h = []) (W.step b cache) (w.step b cache) := by
  by_cases hh : h = []
  · obtain ⟨rfl, rfl⟩ := hb.start hh
    have := first_matches (cid := cid) hp hname hx b cache
    rwa [show True = (h = []) from (eq_true hh).symm] at this
  · obtain ⟨rfl, ie, hc, hs⟩ := hb.later hh
    have := later_matches hc hs b cache
    rwa [show False = (h = []) from (eq_false hh).symm] at this

theorem both_start {cid : Cid} {name x : Bytes} (P : PathBuf) (hname : name ≠ []) (hx : x ≠ []) :
    Both cid name x P [] (Walker.new cid name) (Walker.new cid x) :=
  ⟨⟨rfl, rfl, rfl, by simp [Walker.new, hname, hx]⟩, fun _ => ⟨rfl, rfl⟩, fun h => absurd rfl h⟩

theorem both_next {cid : Cid} {name x : Bytes} {ps : List Bytes} (hp : Pieces name ps) (hname : name ≠ []) (hne : (namePath ps).comps.length ≠ 1) (hx : x ≠ [])
    {h : List (Bytes × ContinuedWalk)} {W w W' : Walker} (hb : Both cid name x (namePath ps) h W w) {b : Bytes} {cache cache' : Option VisitCache}
    {I : ContinuedWalk} (hW : W.step b cache = (.ok I, W', cache')) (i : Bytes × ContinuedWalk) :
    Both cid name x (namePath ps) (h ++ [i]) W' (w.step b cache).2.1 := by
  have hm := both_step hp hname hx hb b cache
  have ha := hm.after I (by rw [hW])
  rw [hW] at ha
  simp only at ha
  have hst : ∃ ie', Stuck cid (namePath ps) W' ie' := by
    by_cases hh : h = []
    · obtain ⟨rfl, -⟩ := hb.start hh
      exact stuck_first hp hname hne (step_ok hW)
    · obtain ⟨-, ie, -, hs⟩ := hb.later hh
      exact (stuck_step hs (step_ok hW)).2.2
  obtain ⟨ie', hs⟩ := hst
  generalize (w.step b cache).2.1 = w' at ha ⊢
  subst ha
  refine ⟨⟨rfl, rfl, rfl, rfl⟩, by simp, fun _ => ⟨rfl, ?_⟩⟩
  have hc := hs.current
  cases hcw : w'.current with
  | none => rw [atW, hcw] at hc; cases hc
  | some ie =>
    rw [atW, hcw] at hc
    cases hc
    exact ⟨ie, rfl, hs⟩

theorem like_pending {P : PathBuf} {W w : Walker} (h : Like P W w) : W.pendingLinks = w.pendingLinks := by
  unfold Walker.pendingLinks
  have hn : W.next.map (·.cid) = w.next.map (·.cid) := by
    have := congrArg (Option.map Prod.fst) h.next
    simpa [Option.map_map, Function.comp_def] using this
  have hk : W.current.map InnerEntry.kind = w.current.map InnerEntry.kind := by
    rw [h.current]
    cases w.current <;> rfl
  simp only [hk, hn, h.pending]
  have hnone : (match W.next with | none => (Res.panic .walkNoNext : Res Unit (Cid × List Cid)) | some n => .ok (n.cid, (w.pending.map WalkLink.cid).reverse)) =
      (match w.next with | none => (Res.panic .walkNoNext : Res Unit (Cid × List Cid)) | some n => .ok (n.cid, (w.pending.map WalkLink.cid).reverse)) := by
    cases hW : W.next <;> cases hw : w.next <;> rw [hW, hw] at hn <;> simp_all
  cases w.current.map InnerEntry.kind with
  | none => exact hnone
  | some k =>
    cases k with
    | File v sz =>
      cases v with
      | some v => rfl
      | none => exact hnone
    | _ => exact hnone

theorem other_back {cid : Cid} {name x : Bytes} {ps : List Bytes} (hp : Pieces name ps) (hname : name ≠ []) (hne : (namePath ps).comps.length ≠ 1) (hx : x ≠ [])
    {h' : List (Bytes × ContinuedWalk)} {w' : Walker} (hw : Walked cid name h' w') :
    ∃ h w, Walked cid x h w ∧ h' = historyAt (namePath ps) h ∧ (∀ y ∈ h.tail, MoreOfTheSame y.2) ∧ Both cid name x (namePath ps) h w' w := by
  induction hw with
  | new => exact ⟨[], _, .new, rfl, nofun, both_start _ hname hx⟩
  | @next h' W W' block cache cache' item hw hcont hc hstep ih =>
    obtain ⟨h, w, hw1, rfl, hm, hb⟩ := ih
    have ha := both_step hp hname hx hb block cache
    obtain ⟨i, h1, h2, h3⟩ := (ha.ok item).1 (by rw [hstep])
    refine ⟨h ++ [(block, i)], (w.step block cache).2.1, ?_, ?_, ?_, both_next hp hname hne hx hb hstep _⟩
    · refine .next hw1 (hb.like.cont.symm.trans hcont) hc (cache' := (w.step block cache).2.2) ?_
      rw [← h1]
    · rw [h2]; simp [historyAt]
    · intro y hy
      cases h with
      | nil => cases hy
      | cons z zs =>
        rw [List.cons_append, List.tail_cons, List.mem_append] at hy
        rcases hy with hy | hy
        · exact hm y hy
        · simp only [List.mem_singleton] at hy
          subst hy
          rcases h3 with h3 | h3
          · cases h3
          · exact h3

theorem other_there {cid : Cid} {name x : Bytes} {ps : List Bytes} (hp : Pieces name ps) (hname : name ≠ []) (hne : (namePath ps).comps.length ≠ 1) (hx : x ≠ [])
    {h : List (Bytes × ContinuedWalk)} {w : Walker} (hw : Walked cid x h w) (hm : ∀ y ∈ h.tail, MoreOfTheSame y.2) :
    ∃ w', Walked cid name (historyAt (namePath ps) h) w' ∧ Both cid name x (namePath ps) h w' w := by
  induction hw with
  | new => exact ⟨_, .new, both_start _ hname hx⟩
  | @next h w w1 block cache cache' item hw hcont hc hstep ih =>
    have hm' : ∀ y ∈ h.tail, MoreOfTheSame y.2 := by
      intro y hy
      apply hm
      cases h with
      | nil => cases hy
      | cons z zs => exact List.mem_append.2 (.inl hy)
    have h3 : h = [] ∨ MoreOfTheSame item := by
      cases h with
      | nil => exact .inl rfl
      | cons z zs => exact .inr (hm (block, item) (by simp))
    obtain ⟨W, hW, hb⟩ := ih hm'
    have ha := both_step hp hname hx hb block cache
    have ho := (ha.ok (placedAt (namePath ps) item)).2 ⟨item, by rw [hstep], rfl, h3⟩
    rcases hst : W.step block cache with ⟨r, W', c'⟩
    rw [hst] at ho
    simp only at ho
    subst ho
    refine ⟨W', ?_, ?_⟩
    · rw [historyAt, List.map_append]
      exact .next hW (hb.like.cont.trans hcont) hc hst
    · have := both_next hp hname hne hx hb hst (block, item)
      rwa [hstep] at this

/-- C96. A root name which is a path of no component or of several, against a plain one `x`: as long as the root is read (the first block,
more of the same file or sharded directory) the walks are the same, with the same links pending and the same end, only that everything is reported at
the path of the name. A block is refused if and only if it is in the walk from `x`, with the same error; and it is accepted if and only if
it is there and is the first or more of the same. In all other cases the walk panics. -/
theorem C96_other_answers (cid : Cid) (name x : Bytes) (hname : name ≠ []) (ps : List Bytes) (hp : Pieces name ps)
    (hne : (namePath ps).comps.length ≠ 1) (hx : x ≠ []) :
    (∀ h' w', Walked cid name h' w' → ∃ h w, Walked cid x h w ∧ (∀ y ∈ h.tail, MoreOfTheSame y.2) ∧ h' = historyAt (namePath ps) h ∧
      w'.shouldContinue = w.shouldContinue ∧ w'.pendingLinks = w.pendingLinks ∧
      ∀ block cache, (∀ e, (w'.step block cache).1 = .err e ↔ (w.step block cache).1 = .err e) ∧
        (∀ i', (w'.step block cache).1 = .ok i' ↔ ∃ i, (w.step block cache).1 = .ok i ∧ i' = placedAt (namePath ps) i ∧ (h = [] ∨ MoreOfTheSame i))) ∧
    (∀ h w, Walked cid x h w → (∀ y ∈ h.tail, MoreOfTheSame y.2) → ∃ w', Walked cid name (historyAt (namePath ps) h) w' ∧
      w'.shouldContinue = w.shouldContinue ∧ w'.pendingLinks = w.pendingLinks) := by
  constructor
  · intro h' w' hw
    obtain ⟨h, w, h1, h2, h3, hb⟩ := other_back hp hname hne hx hw
    exact ⟨h, w, h1, h3, h2, hb.like.cont, like_pending hb.like, fun b c =>
      ⟨(both_step hp hname hx hb b c).err, (both_step hp hname hx hb b c).ok⟩⟩
  · intro h w hw hm
    obtain ⟨w', h1, hb⟩ := other_there hp hname hne hx hw hm
    exact ⟨w', h1, hb.like.cont, like_pending hb.like⟩

/-! ### Panics and refusals, for every root name -/

/-- With another name for the root. -/
def reroot (name : Bytes) (a : Awaited) : Awaited := ⟨a.cid, name :: a.path.drop 1, a.what⟩

theorem linkTo_path {path : List Bytes} {what : What} {l : PBLink} {a : Awaited} (h : linkTo path what l = some a) : a.path = path := by
  unfold linkTo at h
  split at h <;> cases h
  rfl

theorem follow_nonempty {a b : Awaited} {m : FlatUnixFs} {l : PBLink} (ha : a.path ≠ []) (h : follow a m l = some b) : b.path ≠ [] := by
  unfold follow at h
  simp only at h
  split at h
  · rw [linkTo_path h]; exact ha
  · split at h
    · rw [linkTo_path h]; simp
    · split at h
      · rw [linkTo_path h]; exact ha
      · rw [linkTo_path h]; simp
    · rw [linkTo_path h]; exact ha
    · rw [linkTo_path h]; exact ha
    · cases h

theorem linkTo_reroot (name : Bytes) (p : List Bytes) (what : What) (l : PBLink) :
    linkTo (name :: p.drop 1) what l = (linkTo p what l).map (reroot name) := by
  unfold linkTo
  cases Cid.tryFrom (l.Hash.getD []) <;> rfl

theorem drop_append_one {p : List Bytes} (hp : p ≠ []) (n : Bytes) : p.drop 1 ++ [n] = (p ++ [n]).drop 1 := by
  cases p with
  | nil => exact absurd rfl hp
  | cons x xs => rfl

theorem follow_reroot (name : Bytes) {a : Awaited} (ha : a.path ≠ []) (m : FlatUnixFs) (l : PBLink) :
    follow (reroot name a) m l = (follow a m l).map (reroot name) := by
  have h1 : ∀ n what, linkTo (name :: a.path.drop 1 ++ [n]) what l = (linkTo (a.path ++ [n]) what l).map (reroot name) := by
    intro n what
    rw [List.cons_append, drop_append_one ha, linkTo_reroot]
  have h2 : ∀ what, linkTo (name :: a.path.drop 1) what l = (linkTo a.path what l).map (reroot name) := fun what => linkTo_reroot _ _ _ _
  unfold follow reroot
  simp only
  by_cases hw : a.what = .fileBlock
  · rw [if_pos hw, if_pos hw, h2]; rfl
  · rw [if_neg hw, if_neg hw]
    cases m.data.Ty with
    | Directory => simp only; rw [h1]; rfl
    | HAMTShard =>
      simp only
      by_cases hl : (l.Name.getD []).length = 2
      · rw [if_pos hl, if_pos hl, h2]; rfl
      · rw [if_neg hl, if_neg hl, h1]; rfl
    | File => simp only; rw [h2]; rfl
    | Raw => simp only; rw [h2]; rfl
    | Metadata => rfl
    | Symlink => rfl

theorem visit_reroot (name : Bytes) (todo : List Awaited) (h : ∀ a ∈ todo, a.path ≠ []) (b : Bytes) :
    visit (todo.map (reroot name)) b = (visit todo b).map (reroot name) ∧ ∀ a ∈ visit todo b, a.path ≠ [] := by
  unfold visit
  cases todo with
  | nil => exact ⟨rfl, h⟩
  | cons a rest =>
    cases FlatUnixFs.tryParse b with
    | error e => exact ⟨rfl, h⟩
    | ok m =>
      have ha := h a (by simp)
      simp only [List.map_cons, List.map_append]
      constructor
      · congr 1
        rw [List.map_filterMap]
        congr 1
        funext l
        exact follow_reroot name ha m l
      · intro x hx
        rcases List.mem_append.1 hx with hx | hx
        · obtain ⟨l, -, hl⟩ := List.mem_filterMap.1 hx
          exact follow_nonempty ha hl
        · exact h x (by simp [hx])

theorem awaited_reroot (cid : Cid) {name x : Bytes} (hname : name ≠ []) (hx : x ≠ []) (bs : List Bytes) :
    awaited cid name bs = (awaited cid x bs).map (reroot name) ∧ ∀ a ∈ awaited cid x bs, a.path ≠ [] := by
  have key : ∀ (bs : List Bytes) (todo : List Awaited), (∀ a ∈ todo, a.path ≠ []) →
      bs.foldl visit (todo.map (reroot name)) = (bs.foldl visit todo).map (reroot name) ∧ ∀ a ∈ bs.foldl visit todo, a.path ≠ [] := by
    intro bs
    induction bs with
    | nil => exact fun todo h => ⟨rfl, h⟩
    | cons b bs ih =>
      intro todo h
      obtain ⟨h1, h2⟩ := visit_reroot name todo h b
      rw [List.foldl_cons, List.foldl_cons, h1]
      exact ih _ h2
  have h0 : ([⟨cid, rootPath name, .entry⟩] : List Awaited) = ([⟨cid, rootPath x, .entry⟩] : List Awaited).map (reroot name) := by
    simp [rootPath, hname, hx, reroot]
  unfold awaited
  rw [h0]
  exact key bs _ (by simp [rootPath, hx])

theorem dotDeep_reroot (name : Bytes) {p : List Bytes} (hp : p ≠ []) : DotDeep (name :: p.drop 1) ↔ DotDeep p := by
  cases p with
  | nil => exact absurd rfl hp
  | cons x xs =>
    unfold DotDeep
    simp only [List.drop_succ_cons, List.drop_zero, List.length_cons]
    cases xs with
    | nil => simp
    | cons y ys => simp [List.getLast?_cons_cons]

theorem walkPanics_reroot (name : Bytes) {a : Awaited} (ha : a.path ≠ []) {last last' : Option ContinuedWalk}
    (hl : (∃ c p md, last = some (.Directory c p md)) ↔ ∃ c p md, last' = some (.Directory c p md)) (v : Option FileVisit) (block : Bytes) :
    WalkPanics last (reroot name a) v block ↔ WalkPanics last' a v block := by
  have hd : DotDeep (reroot name a).path ↔ DotDeep a.path := dotDeep_reroot name ha
  have hw : (reroot name a).what = a.what := rfl
  have he : ∀ m, EntryPanics last (reroot name a) block m ↔ EntryPanics last' a block m := by
    intro m
    unfold EntryPanics
    cases m.data.Ty <;> simp only [hd, hw, hl]
  unfold WalkPanics
  rw [hw]
  cases a.what <;> simp only [he]

theorem walkRefused_reroot (name : Bytes) (a : Awaited) (v : Option FileVisit) (block : Bytes) (e : WalkError) :
    WalkRefused (reroot name a) v block e ↔ WalkRefused a v block e := Iff.rfl

theorem last_map (f : ContinuedWalk → ContinuedWalk) (hf : ∀ i, (∃ c p md, f i = .Directory c p md) ↔ ∃ c p md, i = .Directory c p md)
    (h : List (Bytes × ContinuedWalk)) :
    (∃ c p md, ((h.map (fun y => (y.1, f y.2))).map (·.2)).getLast? = some (.Directory c p md)) ↔ ∃ c p md, (h.map (·.2)).getLast? = some (.Directory c p md) := by
  have : (h.map (fun y => (y.1, f y.2))).map (·.2) = (h.map (·.2)).map f := by simp
  rw [this, List.getLast?_map]
  cases (h.map (·.2)).getLast? with
  | none => exact ⟨fun ⟨_, _, _, h⟩ => (by cases h), fun ⟨_, _, _, h⟩ => (by cases h)⟩
  | some i =>
    have := hf i
    simp only [Option.map_some, Option.some.injEq]
    exact this

theorem fileVisit_kind {W w : Walker} (h : W.current.map InnerEntry.kind = w.current.map InnerEntry.kind) : fileVisit W = fileVisit w := by
  have : ∀ w : Walker, fileVisit w = (match w.current.map InnerEntry.kind with | some (.File (some v) _) => some v | _ => none) := by
    intro w
    unfold fileVisit
    cases w.current with
    | none => rfl
    | some ie =>
      obtain ⟨c, k, p, m, d⟩ := ie
      cases k with
      | File v sz => cases v <;> rfl
      | _ => rfl
  rw [this, this, h]

/-- The answer to a block which is not an entry of its own is more of what was reported before; otherwise it is not. -/
theorem more_iff {cid : Cid} {x : Bytes} {h : List (Bytes × ContinuedWalk)} {w : Walker} (hw : Walked cid x h w) (hx : slash ∉ x)
    (hcont : w.shouldContinue = true) {a : Awaited} {aw : List Awaited}
    (ha : awaited cid x (h.map (·.1)) = a :: aw) {block : Bytes} {cache : Option VisitCache} (hc : ∀ k, cache = some k → CacheObtainable k)
    {i : ContinuedWalk} (hi : (w.step block cache).1 = .ok i) : MoreOfTheSame i ↔ a.what ≠ .entry := by
  rcases hst : w.step block cache with ⟨r, w1, c1⟩
  rw [hst] at hi
  simp only at hi
  subst hi
  obtain ⟨a', aw', m, h1, h2, h3, h4⟩ := C45_every_item_partial cid x h block i w1 (.next hw hcont hc hst) hx
  rw [ha] at h1
  cases h1
  by_cases hb : a.what = .bucket ∧ RootBuckets (h.map (·.2))
  · obtain ⟨-, rfl⟩ := h4 hb.1 hb.2
    exact ⟨fun _ => by rw [hb.1]; exact nofun, fun _ => trivial⟩
  · have := h3 hb
    unfold itemFor at this
    cases hwh : a.what with
    | fileBlock =>
      rw [hwh] at this
      simp only at this
      split at this
      · cases this; exact ⟨fun _ => nofun, fun _ => rfl⟩
      · cases this
    | bucket =>
      rw [hwh] at this
      cases ht : m.data.Ty <;> rw [ht] at this <;> simp only at this <;> cases this
      exact ⟨fun _ => nofun, fun _ => trivial⟩
    | entry =>
      rw [hwh] at this
      cases ht : m.data.Ty <;> rw [ht] at this <;> simp only at this
      · cases this; exact ⟨fun h => (by cases h), fun h => absurd rfl h⟩
      · split at this <;> cases this <;> exact ⟨fun h => (by cases h), fun h => absurd rfl h⟩
      · cases this; exact ⟨fun h => (by cases h), fun h => absurd rfl h⟩
      · cases this
      · cases this; exact ⟨fun h => (by cases h), fun h => absurd rfl h⟩
      · cases this; exact ⟨fun h => (by cases h), fun h => absurd rfl h⟩

theorem walk_names (cid : Cid) (name : Bytes) (ps : List Bytes) (hp : Pieces name ps) (h : List (Bytes × ContinuedWalk)) (w : Walker)
    (hw : Walked cid name h w) (a : Awaited) (aw : List Awaited) (ha : awaited cid name (h.map (·.1)) = a :: aw) (block : Bytes)
    (cache : Option VisitCache) (hc : ∀ k, cache = some k → CacheObtainable k) :
    ((∃ p, (w.step block cache).1 = .panic p) ↔
      WalkPanics (h.map (·.2)).getLast? a (fileVisit w) block ∨ CannotEnter name (namePath ps) (h ≠ []) a (fileVisit w) block) ∧
    (∀ e, (w.step block cache).1 = .err e → WalkRefused a (fileVisit w) block e) ∧
    ((∃ i, (w.step block cache).1 = .ok i) → ∀ e, ¬ WalkRefused a (fileVisit w) block e) := by
  by_cases hname : name = []
  · subst hname
    have h1 := C27_walk_exact_partial cid [] h w hw (by simp) a aw ha block cache hc
    have h2 := C64_walk cid [] h w hw (by simp) a aw ha block cache hc
    exact ⟨⟨fun h => .inl (h1.1 h), fun h => h1.2 (h.resolve_right fun h => h.1 rfl)⟩, h2.1, fun hi => (h2.2.1 hi).2⟩
  by_cases hne : (namePath ps).comps.length = 1
  · obtain ⟨x, hx⟩ : ∃ x, (namePath ps).comps = [x] := List.length_eq_one_iff.1 hne
    obtain ⟨-, hx0, hxs, -⟩ := one_component hp hx
    obtain ⟨h0, w0, hw0, rfl, hs⟩ := one_back hp hx h w hw
    have hmap : (h0.map (fun y => (y.1, rooted (namePath ps).absolute y.2))).map (·.1) = h0.map (·.1) := by simp
    rw [hmap] at ha
    obtain ⟨r1, r2⟩ := awaited_reroot cid hname hx0 (h0.map (·.1))
    rw [r1] at ha
    obtain ⟨a0, aw0, ha0, rfl, -⟩ := List.map_eq_cons_iff.1 ha
    have hv : fileVisit w = fileVisit w0 := by
      apply fileVisit_kind
      rw [hs.sim.current]
      cases w0.current <;> rfl
    have hst := (same_step hp hx hs block cache).1
    have h1 := C27_walk_exact_partial cid x h0 w0 hw0 hxs a0 aw0 ha0 block cache hc
    have h2 := C64_walk cid x h0 w0 hw0 hxs a0 aw0 ha0 block cache hc
    have hl := last_map (rooted (namePath ps).absolute) (by
      intro i
      cases i with
      | Directory c p md => exact ⟨fun _ => ⟨_, _, _, rfl⟩, fun _ => ⟨_, _, _, rfl⟩⟩
      | _ => exact ⟨fun ⟨_, _, _, h⟩ => (by cases h), fun ⟨_, _, _, h⟩ => (by cases h)⟩) h0
    rw [hv, hst, walkPanics_reroot name (r2 a0 (by rw [ha0]; simp)) hl, ← h1]
    refine ⟨⟨?_, ?_⟩, ?_, ?_⟩
    · rintro ⟨p, hp'⟩
      cases hr : (w0.step block cache).1 with
      | panic q => exact .inl ⟨q, rfl⟩
      | err e => rw [hr] at hp'; cases hp'
      | ok i => rw [hr] at hp'; cases hp'
    · rintro (⟨q, hq⟩ | h')
      · exact ⟨q, by rw [hq]; rfl⟩
      · exact absurd hne h'.2.1
    · intro e he
      refine h2.1 e ?_
      cases hr : (w0.step block cache).1 with
      | panic q => rw [hr] at he; cases he
      | err e' => rw [hr] at he; cases he; rfl
      | ok i => rw [hr] at he; cases he
    · rintro ⟨i, hi⟩
      refine (h2.2.1 ?_).2
      cases hr : (w0.step block cache).1 with
      | panic q => rw [hr] at hi; cases hi
      | err e' => rw [hr] at hi; cases hi
      | ok i => exact ⟨i, rfl⟩
  · have hx : ([97] : Bytes) ≠ [] := by simp
    have hxs : slash ∉ ([97] : Bytes) := by decide
    obtain ⟨h0, w0, hw0, rfl, hmore, hb⟩ := other_back hp hname hne hx hw
    have hmap : (historyAt (namePath ps) h0).map (·.1) = h0.map (·.1) := by simp [historyAt]
    rw [hmap] at ha
    obtain ⟨r1, r2⟩ := awaited_reroot cid hname hx (h0.map (·.1))
    rw [r1] at ha
    obtain ⟨a0, aw0, ha0, rfl, -⟩ := List.map_eq_cons_iff.1 ha
    have hv : fileVisit w = fileVisit w0 := by
      apply fileVisit_kind
      rw [hb.like.current]
      cases w0.current <;> rfl
    have hm := both_step hp hname hx hb block cache
    have h1 := C27_walk_exact_partial cid [97] h0 w0 hw0 hxs a0 aw0 ha0 block cache hc
    have h2 := C64_walk cid [97] h0 w0 hw0 hxs a0 aw0 ha0 block cache hc
    have hcont : w0.shouldContinue = true := (C46_walk_pending cid [97] h0 w0 hw0).1.2 (by rw [ha0]; simp)
    have hl := last_map (placedAt (namePath ps)) (by
      intro i
      cases i with
      | Directory c p md => exact ⟨fun _ => ⟨_, _, _, rfl⟩, fun _ => ⟨_, _, _, rfl⟩⟩
      | _ => exact ⟨fun ⟨_, _, _, h⟩ => (by cases h), fun ⟨_, _, _, h⟩ => (by cases h)⟩) h0
    have hnil : historyAt (namePath ps) h0 ≠ [] ↔ h0 ≠ [] := by simp [historyAt]
    rw [hv, historyAt, walkPanics_reroot name (r2 a0 (by rw [ha0]; simp)) hl, ← h1]
    refine ⟨⟨?_, ?_⟩, fun e he => h2.1 e ((hm.err e).1 he), ?_⟩
    · rintro ⟨p, hp'⟩
      cases hr : (w0.step block cache).1 with
      | panic q => exact .inl ⟨q, rfl⟩
      | err e => rw [(hm.err e).2 hr] at hp'; cases hp'
      | ok i =>
        right
        have hno : ¬ (h0 = [] ∨ MoreOfTheSame i) := by
          intro h'
          rw [(hm.ok _).2 ⟨i, hr, rfl, h'⟩] at hp'
          cases hp'
        have hh : h0 ≠ [] := fun h' => hno (.inl h')
        refine ⟨hname, hne, hnil.2 hh, ?_, (h2.2.1 ⟨i, hr⟩).2⟩
        show a0.what = .entry
        by_cases hwh : a0.what = .entry
        · exact hwh
        · exact absurd (.inr ((more_iff hw0 hxs hcont ha0 hc hr).2 hwh)) hno
    · intro h'
      cases hr : (w.step block cache).1 with
      | panic q => exact ⟨q, rfl⟩
      | err e =>
        exfalso
        have he := (hm.err e).1 hr
        rcases h' with ⟨q, hq⟩ | h'
        · rw [he] at hq; cases hq
        · exact h'.2.2.2.2 e (h2.1 e he)
      | ok i =>
        exfalso
        obtain ⟨j, e1, -, e3⟩ := (hm.ok i).1 hr
        rcases h' with ⟨q, hq⟩ | h'
        · rw [e1] at hq; cases hq
        · rcases e3 with e3 | e3
          · exact hnil.1 h'.2.2.1 e3
          · exact (more_iff hw0 hxs hcont ha0 hc e1).1 e3 h'.2.2.2.1
    · rintro ⟨i, hi⟩
      obtain ⟨j, e1, -⟩ := (hm.ok i).1 hi
      exact (h2.2.1 ⟨j, e1⟩).2

/-- C27. Whatever the root name, at any point of any walk: a block makes the walker panic if and only if it satisfies `WalkPanics`, or the name is
not a path of one component, the block is of an entry of the root, and there is no reason to refuse it. -/
theorem C27_walk_names_partial (cid : Cid) (name : Bytes) (ps : List Bytes) (hp : Pieces name ps) (h : List (Bytes × ContinuedWalk)) (w : Walker)
    (hw : Walked cid name h w) (a : Awaited) (aw : List Awaited) (ha : awaited cid name (h.map (·.1)) = a :: aw) (block : Bytes)
    (cache : Option VisitCache) (hc : ∀ k, cache = some k → CacheObtainable k) :
    (∃ p, (w.step block cache).1 = .panic p) ↔
      WalkPanics (h.map (·.2)).getLast? a (fileVisit w) block ∨ CannotEnter name (namePath ps) (h ≠ []) a (fileVisit w) block :=
  (walk_names cid name ps hp h w hw a aw ha block cache hc).1

/-- C64. Whatever the root name: an error tells a reason for which the block is refused, and every block is accepted for which there is none and
which does not make the walker panic. -/
theorem C64_walk_names (cid : Cid) (name : Bytes) (ps : List Bytes) (hp : Pieces name ps) (h : List (Bytes × ContinuedWalk)) (w : Walker)
    (hw : Walked cid name h w) (a : Awaited) (aw : List Awaited) (ha : awaited cid name (h.map (·.1)) = a :: aw) (block : Bytes)
    (cache : Option VisitCache) (hc : ∀ k, cache = some k → CacheObtainable k) :
    (∀ e, (w.step block cache).1 = .err e → WalkRefused a (fileVisit w) block e) ∧
    ((∃ i, (w.step block cache).1 = .ok i) ↔ ¬ WalkPanics (h.map (·.2)).getLast? a (fileVisit w) block ∧
      ¬ CannotEnter name (namePath ps) (h ≠ []) a (fileVisit w) block ∧ ∀ e, ¬ WalkRefused a (fileVisit w) block e) := by
  obtain ⟨h1, h2, h3⟩ := walk_names cid name ps hp h w hw a aw ha block cache hc
  refine ⟨h2, ?_, ?_⟩
  · rintro ⟨i, hi⟩
    have hn : ¬ ∃ p, (w.step block cache).1 = .panic p := by rintro ⟨p, hp'⟩; rw [hi] at hp'; cases hp'
    rw [h1] at hn
    exact ⟨fun h => hn (.inl h), fun h => hn (.inr h), h3 ⟨i, hi⟩⟩
  · rintro ⟨n1, n2, n3⟩
    cases hr : (w.step block cache).1 with
    | ok i => exact ⟨i, rfl⟩
    | err e => exact absurd (h2 e hr) (n3 e)
    | panic p => exact absurd (h1.1 ⟨p, hr⟩) (by rintro (h | h); exact n1 h; exact n2 h)

/-- From `a/b`, after a directory: a block of an entry which nothing is wrong with panics, one which is no node is refused. -/
example : ∃ h w, Walked (cidN 0) [97, 47, 98] h w ∧ h ≠ [] ∧ (∃ p, (w.step upFile none).1 = .panic p) ∧
    (∃ a aw, awaited (cidN 0) [97, 47, 98] (h.map (·.1)) = a :: aw ∧ CannotEnter [97, 47, 98] (namePath [[97], [98]]) (h ≠ []) a (fileVisit w) upFile) ∧
    ∃ e, (w.step [] none).1 = .err e := by
  let w1 : Walker := ((Walker.new (cidN 0) [97, 47, 98]).step (dirMsg [linkN 1 [98]]).write none).2.1
  have h1 : (Walker.new (cidN 0) [97, 47, 98]).step (dirMsg [linkN 1 [98]]).write none =
    (.ok (.RootDirectory (cidN 0) ⟨false, [[97], [98]]⟩ { mode := some 0o755 }), w1, none) := by decide +kernel
  have hw : Walked (cidN 0) [97, 47, 98] [((dirMsg [linkN 1 [98]]).write, .RootDirectory (cidN 0) ⟨false, [[97], [98]]⟩ { mode := some 0o755 })] w1 :=
    .next (h := []) .new rfl (fun k hk => by cases hk) h1
  have ha : awaited (cidN 0) [97, 47, 98] [(dirMsg [linkN 1 [98]]).write] = [⟨cidN 1, [[97, 47, 98], [98]], .entry⟩] := by decide +kernel
  have hpan : (w1.step upFile none).1 = .panic .walkPathDepth := by decide +kernel
  refine ⟨_, w1, hw, by simp, ⟨_, hpan⟩, ⟨_, _, ha, ?_⟩, ⟨.EmptyDagPbNode, by decide +kernel⟩⟩
  let v1 : Walker := ((Walker.new (cidN 0) [97]).step (dirMsg [linkN 1 [98]]).write none).2.1
  have g1 : (Walker.new (cidN 0) [97]).step (dirMsg [linkN 1 [98]]).write none =
    (.ok (.RootDirectory (cidN 0) ⟨false, [[97]]⟩ { mode := some 0o755 }), v1, none) := by decide +kernel
  have gw : Walked (cidN 0) [97] [((dirMsg [linkN 1 [98]]).write, .RootDirectory (cidN 0) ⟨false, [[97]]⟩ { mode := some 0o755 })] v1 :=
    .next (h := []) .new rfl (fun k hk => by cases hk) g1
  have ga : awaited (cidN 0) [97] [(dirMsg [linkN 1 [98]]).write] = [⟨cidN 1, [[97], [98]], .entry⟩] := by decide +kernel
  have gok : (v1.step upFile none).1 = .ok (.File ⟨[1], true, true⟩ (cidN 1) ⟨false, [[97], [98]]⟩ {} 1) := by decide +kernel
  have hno := ((C64_walk (cidN 0) [97] _ v1 gw (by decide) _ _ ga upFile none (by intro k hk; cases hk)).2.1 ⟨_, gok⟩).2
  exact ⟨by simp, by decide, by simp, rfl, hno⟩

end Verif.Props
