import Verif.ExamplesRel
import Verif.Props.ReleaseLookups
import Verif.Props.Ends
import Verif.Props.IoFail
/-
C135: the example programs `cat`, `get` and `resolve` built with `--release`.
-/
namespace Verif.Props
open Verif Verif.Spec Verif.Examples

/-! ### `cat` -/

theorem visit_pending_no_err (v : FileVisit) (x : Unit) : v.pendingLinks ≠ .err x := by
  intro h
  unfold FileVisit.pendingLinks at h
  split at h <;> cases h

/-- What `cat` makes of the outcome of reading on. -/
structure CatOf (get : Cid → Option Bytes) (s : CatState) (b : Res ReadError (Bytes × List Cid)) (a : CatState × Res CatError Unit) : Prop where
  ok : ∀ x q, b = .ok (x, q) → a = (⟨s.stdout ++ x, s.read_bytes + (q.map (sizeOf get)).sum, s.content_bytes + x.length⟩, .ok ())
  failed : ∀ e, b = .err (.failed e) → a.2 = .err (.Traversal e)
  missing : ∀ c, b = .err (.missing c) → a.2 = .err .OpeningFailed
  noLinks : b ≠ .err .noLinks
  panic : ∀ p, b = .panic p → a.2 = .panic p

theorem catLoopRel_of {get : Cid → Option Bytes} (v : FileVisit) (b) (h : readFromRel get v = some b) :
    ∀ s : CatState, ∃ a, catLoopRel get s v = some a ∧ CatOf get s b a := by
  refine readFromRel.partial_correctness get (fun v b => ∀ s : CatState, ∃ a, catLoopRel get s v = some a ∧ CatOf get s b a) ?_ v b h
  intro rec ih v b hb s
  rw [catLoopRel.eq_1]
  cases hp : v.pendingLinks with
  | panic p => rw [hp] at hb; cases hb; exact ⟨_, rfl, nofun, nofun, nofun, nofun, fun q hq => by cases hq; rfl⟩
  | err e => exact absurd hp (visit_pending_no_err v e)
  | ok fl =>
    obtain ⟨first, rest⟩ := fl
    rw [hp] at hb
    simp only at hb ⊢
    cases hg : get first with
    | none => rw [hg] at hb; cases hb; exact ⟨_, rfl, nofun, nofun, fun _ _ => rfl, nofun, nofun⟩
    | some block =>
      rw [hg] at hb
      simp only at hb ⊢
      cases hc : v.continueWalkRel block none with
      | none => rw [hc] at hb; cases hb
      | some y =>
        rw [hc] at hb
        obtain ⟨y, k⟩ := y
        cases y with
        | panic p => cases hb; exact ⟨_, rfl, nofun, nofun, nofun, nofun, fun q hq => by cases hq; rfl⟩
        | err e => cases hb; exact ⟨_, rfl, nofun, fun x hx => by cases hx; rfl, nofun, nofun, nofun⟩
        | ok cs =>
          obtain ⟨content, step⟩ := cs
          cases step with
          | none =>
            cases hb
            refine ⟨_, rfl, fun x q hx => ?_, nofun, nofun, nofun, nofun⟩
            cases hx
            simp [CatState.write, CatState.read, Spec.sizeOf, hg]
          | some v' =>
            simp only [bind, Option.bind] at hb ⊢
            cases hrec : rec v' with
            | none => rw [hrec] at hb; cases hb
            | some b' =>
              rw [hrec] at hb
              cases hb
              obtain ⟨a, h1, h2⟩ := ih v' b' hrec ((s.read block).write content)
              refine ⟨a, h1, ?_⟩
              cases b' with
              | panic p => exact ⟨nofun, nofun, nofun, nofun, fun q hq => h2.panic q (by cases hq; rfl)⟩
              | err e => 
                refine ⟨nofun, fun x hx => h2.failed x (by cases hx; rfl), fun x hx => h2.missing x (by cases hx; rfl), fun hx => h2.noLinks (by cases hx; rfl), nofun⟩
              | ok xq =>
                obtain ⟨x', q'⟩ := xq
                refine ⟨fun x q hx => ?_, nofun, nofun, nofun, nofun⟩
                cases hx
                rw [h2.ok _ _ rfl]
                simp [CatState.write, CatState.read, Spec.sizeOf, hg, Nat.add_assoc]

theorem catLoopRel_ends {get : Cid → Option Bytes} (s : CatState) (v : FileVisit) (a) (h : catLoopRel get s v = some a) : readFromRel get v ≠ none := by
  refine catLoopRel.partial_correctness get (fun s v a => readFromRel get v ≠ none) ?_ s v a h
  intro rec ih s v a ha
  rw [readFromRel.eq_1]
  cases hp : v.pendingLinks with
  | panic p => simp
  | err e => simp
  | ok fl =>
    obtain ⟨first, rest⟩ := fl
    rw [hp] at ha
    simp only at ha ⊢
    cases hg : get first with
    | none => simp
    | some block =>
      rw [hg] at ha
      simp only at ha ⊢
      cases hc : v.continueWalkRel block none with
      | none => rw [hc] at ha; cases ha
      | some y =>
        rw [hc] at ha
        obtain ⟨y, k⟩ := y
        cases y with
        | panic p => simp
        | err e => simp
        | ok cs =>
          obtain ⟨content, step⟩ := cs
          cases step with
          | none => simp
          | some v' =>
            have := ih _ v' a ha
            simp only [bind, Option.bind] at ha ⊢
            cases hr : readFromRel get v' with
            | none => exact absurd hr this
            | some r => simp

/-- `cat` in a release build, over any store: it writes the whole content which reading the file gives, and counts the bytes of the content
and of all blocks; it fails or panics just as reading does, and does not end exactly if reading does not. -/
theorem C135_cat (get : Cid → Option Bytes) (start : Cid) :
    (get start = none → catWalkRel get start = some ({}, .err .OpeningFailed)) ∧
    ∀ root, get start = some root →
      (readFileRel get {} root = none ↔ catWalkRel get start = none) ∧
      ∀ res, readFileRel get {} root = some res → ∃ s r, catWalkRel get start = some (s, r) ∧
        (∀ x q, res = .ok (x, q) → r = .ok () ∧ s.stdout = x ∧ s.content_bytes = x.length ∧
          s.read_bytes = ((start :: q).map (sizeOf get)).sum) ∧
        (∀ e, res = .err (.failed e) → r = .err (.Traversal e)) ∧ (∀ c, res = .err (.missing c) → r = .err .OpeningFailed) ∧
        res ≠ .err .noLinks ∧ ∀ p, res = .panic p → r = .panic p := by
  refine ⟨fun h => by unfold catWalkRel; rw [h], fun root hg => ?_⟩
  have key : ∀ res, readFileRel get {} root = some res → ∃ s r, catWalkRel get start = some (s, r) ∧
        (∀ x q, res = .ok (x, q) → r = .ok () ∧ s.stdout = x ∧ s.content_bytes = x.length ∧
          s.read_bytes = ((start :: q).map (sizeOf get)).sum) ∧
        (∀ e, res = .err (.failed e) → r = .err (.Traversal e)) ∧ (∀ c, res = .err (.missing c) → r = .err .OpeningFailed) ∧
        res ≠ .err .noLinks ∧ ∀ p, res = .panic p → r = .panic p := by
    intro res h
    unfold catWalkRel
    unfold readFileRel at h
    rw [hg]
    simp only
    cases hs : IdleFileVisit.startRel {} root with
    | none => rw [hs] at h; cases h
    | some y =>
      rw [hs] at h
      cases y with
      | panic p => cases h; exact ⟨_, _, rfl, nofun, nofun, nofun, nofun, fun q hq => by cases hq; rfl⟩
      | err e => cases h; exact ⟨_, _, rfl, nofun, fun x hx => by cases hx; rfl, nofun, nofun, nofun⟩
      | ok y =>
        obtain ⟨content, sz, md, step⟩ := y
        cases step with
        | none =>
          cases h
          refine ⟨_, _, rfl, fun x q hx => ?_, nofun, nofun, nofun, nofun⟩
          cases hx
          simp [CatState.write, CatState.read, Spec.sizeOf, hg]
        | some v =>
          simp only [bind, Option.bind] at h ⊢
          cases hr : readFromRel get v with
          | none => rw [hr] at h; cases h
          | some b =>
            rw [hr] at h
            cases h
            obtain ⟨⟨s, r⟩, h1, h2⟩ := catLoopRel_of v b hr ((CatState.read {} root).write content)
            refine ⟨s, r, h1, ?_⟩
            cases b with
            | panic p => exact ⟨nofun, nofun, nofun, nofun, fun q hq => h2.panic q (by cases hq; rfl)⟩
            | err e => exact ⟨nofun, fun x hx => h2.failed x (by cases hx; rfl), fun x hx => h2.missing x (by cases hx; rfl), fun hx => h2.noLinks (by cases hx; rfl), nofun⟩
            | ok xq =>
              obtain ⟨x', q'⟩ := xq
              refine ⟨fun x q hx => ?_, nofun, nofun, nofun, nofun⟩
              cases hx
              cases h2.ok _ _ rfl
              simp [CatState.write, CatState.read, Spec.sizeOf, hg]
  refine ⟨⟨fun hn => ?_, fun hn => ?_⟩, key⟩
  · cases hc : catWalkRel get start with
    | none => rfl
    | some a =>
      exfalso
      unfold catWalkRel at hc
      unfold readFileRel at hn
      rw [hg] at hc
      simp only at hc
      cases hs : IdleFileVisit.startRel {} root with
      | none => rw [hs] at hc; cases hc
      | some y =>
        rw [hs] at hn hc
        cases y with
        | panic p => cases hn
        | err e => cases hn
        | ok y =>
          obtain ⟨content, sz, md, step⟩ := y
          cases step with
          | none => cases hn
          | some v =>
            have := catLoopRel_ends _ _ _ hc
            simp only [bind, Option.bind] at hn
            cases hr : readFromRel get v with
            | none => exact this hr
            | some r => rw [hr] at hn; cases hn
  · cases hr : readFileRel get {} root with
    | none => rfl
    | some res =>
      obtain ⟨s, r, h, _⟩ := key res hr
      rw [h] at hn
      cases hn

/-- A panic which only checked builds have. -/
def BadEnd {σ ε α : Type} (a : σ × Res ε α) : Prop := ∃ p, a.2 = .panic p ∧ p.checked = true

theorem catLoop_agree {get : Cid → Option Bytes} (hp : ∀ c b, get c = some b → FlatUnixFs.tryParseR b = some (FlatUnixFs.tryParse b))
    (s : CatState) (v : FileVisit) (a) (h : catLoop get s v = some a) : v.range = none → BadEnd a ∨ catLoopRel get s v = some a := by
  refine catLoop.partial_correctness get (fun s v a => v.range = none → BadEnd a ∨ catLoopRel get s v = some a) ?_ s v a h
  intro rec ih s v a ha hv
  rw [catLoopRel.eq_1]
  cases hl : v.pendingLinks with
  | panic p => rw [hl] at ha; cases ha; exact .inr rfl
  | err e => rw [hl] at ha; cases ha; exact .inr rfl
  | ok fl =>
    obtain ⟨first, rest⟩ := fl
    rw [hl] at ha
    simp only at ha ⊢
    cases hg : get first with
    | none => rw [hg] at ha; cases ha; exact .inr rfl
    | some block =>
      rw [hg] at ha
      simp only at ha ⊢
      rw [continueWalkRel_eq (hp _ _ hg)]
      have hag := C67_continue v (by rw [hv]; intro t ht; cases ht) block none
      have hrange := fun c v' h => @continueWalk_range v v' block c none h
      rcases hag with ⟨p, h1, h2⟩ | h1
      · rw [h1] at ha; cases ha; exact .inl ⟨p, rfl, h2⟩
      rw [h1]
      generalize v.continueWalk block none = y at ha hrange
      obtain ⟨y, k⟩ := y
      cases y with
      | panic p => cases ha; exact .inr rfl
      | err e => cases ha; exact .inr rfl
      | ok cs =>
        obtain ⟨content, step⟩ := cs
        cases step with
        | none => cases ha; exact .inr rfl
        | some v' => exact ih _ v' a ha ((hrange content v' rfl).trans hv)

theorem catLoop_agree' {get : Cid → Option Bytes} (hp : ∀ c b, get c = some b → FlatUnixFs.tryParseR b = some (FlatUnixFs.tryParse b))
    (s : CatState) (v : FileVisit) (a) (h : catLoopRel get s v = some a) :
    v.range = none → (∃ a', catLoop get s v = some a' ∧ BadEnd a') ∨ catLoop get s v = some a := by
  refine catLoopRel.partial_correctness get (fun s v a => v.range = none → (∃ a', catLoop get s v = some a' ∧ BadEnd a') ∨ catLoop get s v = some a)
    ?_ s v a h
  intro rec ih s v a ha hv
  rw [catLoop.eq_1]
  cases hl : v.pendingLinks with
  | panic p => rw [hl] at ha; cases ha; exact .inr rfl
  | err e => rw [hl] at ha; cases ha; exact .inr rfl
  | ok fl =>
    obtain ⟨first, rest⟩ := fl
    rw [hl] at ha
    simp only at ha ⊢
    cases hg : get first with
    | none => rw [hg] at ha; cases ha; exact .inr rfl
    | some block =>
      rw [hg] at ha
      simp only at ha ⊢
      rw [continueWalkRel_eq (hp _ _ hg)] at ha
      have hag := C67_continue v (by rw [hv]; intro t ht; cases ht) block none
      have hrange := fun c v' h => @continueWalk_range v v' block c none h
      rcases hag with ⟨p, h1, h2⟩ | h1
      · rw [h1]; exact .inl ⟨_, rfl, p, rfl, h2⟩
      rw [h1] at ha
      generalize v.continueWalk block none = y at ha hrange
      obtain ⟨y, k⟩ := y
      cases y with
      | panic p => cases ha; exact .inr rfl
      | err e => cases ha; exact .inr rfl
      | ok cs =>
        obtain ⟨content, step⟩ := cs
        cases step with
        | none => cases ha; exact .inr rfl
        | some v' => exact ih _ v' a ha ((hrange content v' rfl).trans hv)

theorem kept_all {get : Cid → Option Bytes} (hget : ∀ c b, get c = some b → Kept b) :
    ∀ c b, get c = some b → FlatUnixFs.tryParseR b = some (FlatUnixFs.tryParse b) := fun c b h => kept_parse (hget c b h)

/-- Both directions of an agreement. -/
theorem agree_both {α : Type} {d r : Option α} {Bad : α → Prop} (h1 : ∀ a, d = some a → Bad a ∨ r = some a)
    (h2 : ∀ a, r = some a → (∃ a', d = some a' ∧ Bad a') ∨ d = some a) : (∃ a, d = some a ∧ Bad a) ∨ r = d := by
  cases hd : d with
  | some a =>
    rcases h1 a hd with h | h
    · exact .inl ⟨a, rfl, h⟩
    · exact .inr h
  | none =>
    cases hr : r with
    | none => exact .inr rfl
    | some a =>
      rcases h2 a hr with ⟨a', h, _⟩ | h
      · rw [hd] at h; cases h
      · rw [hd] at h; cases h

/-- Over a store of blocks which nothing overruns, `cat` does the same in a release build, unless it ends with a panic of a check which release
builds lack. -/
theorem C135_cat_agrees (get : Cid → Option Bytes) (hget : ∀ c b, get c = some b → Kept b) (start : Cid) :
    (∃ s p, catWalk get start = some (s, .panic p) ∧ p.checked = true) ∨ catWalkRel get start = catWalk get start := by
  have hp := kept_all hget
  unfold catWalk catWalkRel
  cases hg : get start with
  | none => exact .inr rfl
  | some root =>
    simp only
    rw [startRel_eq (hp _ _ hg)]
    have hr := fun r v (hs : IdleFileVisit.start {} root = .ok r) (hv : r.next = some v) => start_range hs hv
    rcases C67_start none (by intro t h; cases h) root with ⟨p, h1, h2⟩ | h1
    · rw [show IdleFileVisit.start {} root = _ from h1]; exact .inl ⟨_, p, rfl, h2⟩
    rw [show IdleFileVisit.startR {} root = _ from h1]
    change ∀ r v, IdleFileVisit.start ⟨none⟩ root = .ok r → _ at hr
    generalize IdleFileVisit.start ⟨none⟩ root = y at hr
    cases y with
    | panic p => exact .inr rfl
    | err e => exact .inr rfl
    | ok r =>
      obtain ⟨content, sz, md, step⟩ := r
      cases step with
      | none => exact .inr rfl
      | some v =>
        have hv : v.range = none := hr _ v rfl rfl
        rcases agree_both (fun a ha => catLoop_agree hp ((CatState.read {} root).write content) v a ha hv)
          (fun a ha => catLoop_agree' hp ((CatState.read {} root).write content) v a ha hv) with ⟨⟨s, r⟩, h1, p, h2, h3⟩ | h1
        · refine .inl ⟨s, p, ?_, h3⟩
          simp only at h2
          rw [← h2]
          exact h1
        · exact .inr h1

/-- `cat` of a well-formed file is the same in a release build. -/
theorem C135_cat_file (get : Cid → Option Bytes) (hget : ∀ c b, get c = some b → Kept b) (t : FTree) (start : Cid) (root : Bytes)
    (hg : get start = some root) (h : FileAt get t root) :
    catWalkRel get start = some (⟨t.content, (((start :: (below get t root 0).map (·.1))).map (sizeOf get)).sum, t.content.length⟩, .ok ()) := by
  have hc := C71_cat get t start root hg h
  rcases C135_cat_agrees get hget start with ⟨s, p, h1, _⟩ | h1
  · rw [hc] at h1; cases h1
  · rw [h1, hc]

/-! ### `get` -/

theorem getLoop_agree {get : Cid → Option Bytes} (hp : ∀ c b, get c = some b → FlatUnixFs.tryParseR b = some (FlatUnixFs.tryParse b))
    (out : List Line) (w : Walker) (cache) (a) (h : getLoop get out w cache = some a) :
    w.Unranged → BadEnd a ∨ getLoopRel get out w cache = some a := by
  refine getLoop.partial_correctness get (fun out w cache a => w.Unranged → BadEnd a ∨ getLoopRel get out w cache = some a) ?_ out w cache a h
  intro rec ih out w cache a ha hw
  rw [getLoopRel.eq_1]
  by_cases hs : w.shouldContinue = false
  · rw [if_pos hs] at ha; rw [if_pos hs]; exact .inr ha
  rw [if_neg hs] at ha ⊢
  cases hl : w.pendingLinks with
  | panic p => rw [hl] at ha; cases ha; exact .inr rfl
  | err e => rw [hl] at ha; cases ha; exact .inr rfl
  | ok fl =>
    obtain ⟨first, rest⟩ := fl
    rw [hl] at ha
    simp only at ha ⊢
    cases hg : get first with
    | none => rw [hg] at ha; cases ha; exact .inr rfl
    | some block =>
      rw [hg] at ha
      simp only at ha ⊢
      rw [stepRel_eq (hp _ _ hg)]
      have hun := fun item w' k (h : w.step block cache = (.ok item, w', k)) => step_unranged hw h
      rcases step_agree hw.fits block cache with ⟨p, h1, h2⟩ | h1
      · rcases hst : w.step block cache with ⟨y, w', k⟩
        rw [hst] at h1 ha
        simp only at h1
        subst h1
        cases ha
        exact .inl ⟨p, rfl, h2⟩
      rw [h1]
      generalize w.step block cache = y at ha hun
      obtain ⟨y, w', k⟩ := y
      cases y with
      | panic p => cases ha; exact .inr rfl
      | err e => cases ha; exact .inr rfl
      | ok item =>
        simp only at ha ⊢
        cases hi : getItem item with
        | panic p => rw [hi] at ha; cases ha; exact .inr rfl
        | err e => rw [hi] at ha; cases ha; exact .inr rfl
        | ok lines =>
          rw [hi] at ha
          exact ih _ _ _ _ ha (hun _ _ _ rfl)

theorem getLoop_agree' {get : Cid → Option Bytes} (hp : ∀ c b, get c = some b → FlatUnixFs.tryParseR b = some (FlatUnixFs.tryParse b))
    (out : List Line) (w : Walker) (cache) (a) (h : getLoopRel get out w cache = some a) :
    w.Unranged → (∃ a', getLoop get out w cache = some a' ∧ BadEnd a') ∨ getLoop get out w cache = some a := by
  refine getLoopRel.partial_correctness get (fun out w cache a => w.Unranged →
    (∃ a', getLoop get out w cache = some a' ∧ BadEnd a') ∨ getLoop get out w cache = some a) ?_ out w cache a h
  intro rec ih out w cache a ha hw
  rw [getLoop.eq_1]
  by_cases hs : w.shouldContinue = false
  · rw [if_pos hs] at ha; rw [if_pos hs]; exact .inr ha
  rw [if_neg hs] at ha ⊢
  cases hl : w.pendingLinks with
  | panic p => rw [hl] at ha; cases ha; exact .inr rfl
  | err e => rw [hl] at ha; cases ha; exact .inr rfl
  | ok fl =>
    obtain ⟨first, rest⟩ := fl
    rw [hl] at ha
    simp only at ha ⊢
    cases hg : get first with
    | none => rw [hg] at ha; cases ha; exact .inr rfl
    | some block =>
      rw [hg] at ha
      simp only at ha ⊢
      rw [stepRel_eq (hp _ _ hg)] at ha
      have hun := fun item w' k (h : w.step block cache = (.ok item, w', k)) => step_unranged hw h
      rcases step_agree hw.fits block cache with ⟨p, h1, h2⟩ | h1
      · rcases hst : w.step block cache with ⟨y, w', k⟩
        rw [hst] at h1
        simp only at h1
        subst h1
        exact .inl ⟨_, rfl, p, rfl, h2⟩
      rw [h1] at ha
      generalize w.step block cache = y at ha hun
      obtain ⟨y, w', k⟩ := y
      cases y with
      | panic p => cases ha; exact .inr rfl
      | err e => cases ha; exact .inr rfl
      | ok item =>
        simp only at ha ⊢
        cases hi : getItem item with
        | panic p => rw [hi] at ha; cases ha; exact .inr rfl
        | err e => rw [hi] at ha; cases ha; exact .inr rfl
        | ok lines =>
          rw [hi] at ha
          exact ih _ _ _ _ ha (hun _ _ _ rfl)

/-- The same of `get`. -/
theorem C135_get_agrees (get : Cid → Option Bytes) (hget : ∀ c b, get c = some b → Kept b) (start : Cid) :
    (∃ lines p, getWalk get start = some (lines, .panic p) ∧ p.checked = true) ∨ getWalkRel get start = getWalk get start := by
  have hp := kept_all hget
  rcases agree_both (fun a ha => getLoop_agree hp [] (Walker.new start []) none a ha (unranged_new start []))
    (fun a ha => getLoop_agree' hp [] (Walker.new start []) none a ha (unranged_new start [])) with ⟨⟨s, r⟩, h1, p, h2, h3⟩ | h1
  · refine .inl ⟨s, p, ?_, h3⟩
    simp only at h2
    rw [← h2]
    exact h1
  · exact .inr h1

theorem getLoopRel_walk {get : Cid → Option Bytes} (w : Walker) (cache) (r) (h : walkFromRel get w cache = some r) :
    (∀ out, getLoopRel get out w cache ≠ none) ∧
    ∀ items, r = .ok items → ∀ out, getLoopRel get out w cache = some (out ++ (render items).1, (render items).2) := by
  refine walkFromRel.partial_correctness get (fun w cache r => (∀ out, getLoopRel get out w cache ≠ none) ∧
    ∀ items, r = .ok items → ∀ out, getLoopRel get out w cache = some (out ++ (render items).1, (render items).2)) ?_ w cache r h
  intro rec ih w cache r hr
  suffices hsuff : ∀ out, getLoopRel get out w cache ≠ none ∧ ∀ items, r = .ok items →
      getLoopRel get out w cache = some (out ++ (render items).1, (render items).2) from
    ⟨fun out => (hsuff out).1, fun items hi out => (hsuff out).2 items hi⟩
  intro out
  rw [getLoopRel.eq_1]
  by_cases hs : w.shouldContinue = false
  · rw [if_pos hs] at hr
    rw [if_pos hs]
    cases hr
    refine ⟨nofun, fun items hi => ?_⟩
    cases hi
    simp [render]
  · rw [if_neg hs] at hr
    rw [if_neg hs]
    cases hp : w.pendingLinks with
    | panic p => rw [hp] at hr; cases hr; exact ⟨nofun, nofun⟩
    | err e => rw [hp] at hr; cases hr; exact ⟨nofun, nofun⟩
    | ok fl =>
      obtain ⟨first, rest⟩ := fl
      rw [hp] at hr
      simp only at hr ⊢
      cases hg : get first with
      | none => rw [hg] at hr; cases hr; exact ⟨nofun, nofun⟩
      | some block =>
        rw [hg] at hr
        simp only at hr ⊢
        cases hst : w.stepRel block cache with
        | none => rw [hst] at hr; cases hr
        | some y =>
          rw [hst] at hr
          obtain ⟨y, w', k⟩ := y
          cases y with
          | panic p => cases hr; exact ⟨nofun, nofun⟩
          | err e => cases hr; exact ⟨nofun, nofun⟩
          | ok item =>
            simp only [bind, Option.bind] at hr ⊢
            cases hrec : rec w' k with
            | none => rw [hrec] at hr; cases hr
            | some r' =>
              rw [hrec] at hr
              cases hr
              obtain ⟨h1, h2⟩ := ih w' k r' hrec
              cases hi : getItem item with
              | panic p =>
                refine ⟨nofun, fun items hit => ?_⟩
                cases r' with
                | ok items' => cases hit; simp [render, hi]
                | err e => cases hit
                | panic q => cases hit
              | err e =>
                refine ⟨nofun, fun items hit => ?_⟩
                cases r' with
                | ok items' => cases hit; simp [render, hi]
                | err e => cases hit
                | panic q => cases hit
              | ok lines =>
                refine ⟨h1 _, fun items hit => ?_⟩
                cases r' with
                | ok items' =>
                  cases hit
                  simp only
                  rw [h2 _ rfl]
                  simp [render, hi]
                | err e => cases hit
                | panic q => cases hit

/-- `get` in a release build, over any store over which a walk comes to its end: it writes the lines for what the walk reports, up to the first
symlink whose target is not text, where it panics. -/
theorem C135_get (get : Cid → Option Bytes) (start : Cid) (items : List ContinuedWalk)
    (h : walkFromRel get (Walker.new start []) none = some (.ok items)) :
    ((∀ t ∈ items.flatMap targetOf, validUtf8 t = true) → getWalkRel get start = some (items.flatMap linesOf, .ok ())) ∧
    ((∃ t ∈ items.flatMap targetOf, validUtf8 t = false) → ∃ before item after, items = before ++ item :: after ∧
      getWalkRel get start = some (before.flatMap linesOf, .panic .exampleUtf8) ∧
      (∀ t ∈ before.flatMap targetOf, validUtf8 t = true) ∧ ∃ t ∈ targetOf item, validUtf8 t = false) := by
  have h1 := (getLoopRel_walk _ _ _ h).2 items rfl []
  rw [List.nil_append] at h1
  constructor
  · intro hall
    unfold getWalkRel
    rw [h1, renderLines_ok _ hall]
  · intro hbad
    obtain ⟨before, item, after, e, h2, h3, h4⟩ := render_panic items hbad
    refine ⟨before, item, after, e, ?_, h2, h3⟩
    unfold getWalkRel
    rw [h1, h4]

/-! ### `resolve` -/

theorem ofQueue_clean (q : List Cid) : CleanCache (some (.ofQueue q)) := by intro k h; cases h; rfl

theorem finishStep_clean {needle : Bytes} {links : List PBLink} {queue : List Cid} {cache : Option LookupCache} (h : CleanCache cache) :
    CleanCache (ShardedLookup.finishStep needle links queue cache).2 := by
  unfold ShardedLookup.finishStep
  split
  · exact h
  · exact h
  · exact ofQueue_clean _
  · split
    · exact ofQueue_clean _
    · exact h

theorem continueP_clean {l : ShardedLookup} {queue : List Cid} {cache : Option LookupCache} (h : CleanCache cache)
    (x : Except ParsingFailed FlatUnixFs) : CleanCache (l.continueP queue cache x).2 := by
  unfold ShardedLookup.continueP
  split
  · exact ofQueue_clean _
  · exact ofQueue_clean _
  · exact ofQueue_clean _
  · split
    · exact h
    · split
      · exact h
      · exact h
      · exact finishStep_clean h

theorem continueRel_clean {l : ShardedLookup} {block : Bytes} {cache : Option LookupCache} (h : CleanCache cache) {r}
    (hr : l.continueWalkRel block cache = some r) : CleanCache r.2 := by
  unfold ShardedLookup.continueWalkRel at hr
  split at hr
  · cases hr; exact h
  · rename_i x queue _
    cases hp : FlatUnixFs.tryParseR block with
    | none => rw [hp] at hr; cases hr
    | some x => rw [hp] at hr; cases hr; exact continueP_clean h x

theorem resolveP_clean {needle : Bytes} {cache : Option LookupCache} (h : CleanCache cache) (x : Except ParsingFailed FlatUnixFs) :
    CleanCache (resolveP needle cache x).2 := by
  unfold resolveP
  split
  · split
    · unfold ShardedLookup.lookupOrStart
      dsimp only
      split
      · exact h
      · exact h
      · exact finishStep_clean cleanCache_none
    · split
      · exact h
      · exact h
    · exact h
  · exact h
  · exact h
  · exact h

theorem resolveRel_clean {block needle : Bytes} {cache : Option LookupCache} (h : CleanCache cache) {r}
    (hr : resolveRel block needle cache = some r) : CleanCache r.2 := by
  unfold resolveRel at hr
  cases hp : FlatUnixFs.tryParseR block with
  | none => rw [hp] at hr; cases hr
  | some x => rw [hp] at hr; cases hr; exact resolveP_clean h x

/-- What the inner loop of `resolve` makes of a look-up. -/
theorem resolveLoopRel_of {get : Cid → Option Bytes} (l : ShardedLookup) (cache) (r) (h : lookupFromRel get l cache = some r) :
    CleanCache cache → ∃ k, resolveLoopRel get l cache = some (reported r, k) ∧ CleanCache k := by
  refine lookupFromRel.partial_correctness get
    (fun l cache r => CleanCache cache → ∃ k, resolveLoopRel get l cache = some (reported r, k) ∧ CleanCache k) ?_ l cache r h
  intro rec ih l cache r hr hc
  rw [resolveLoopRel.eq_1]
  cases hp : l.pendingLinks with
  | panic p => rw [hp] at hr; cases hr; exact ⟨_, rfl, hc⟩
  | err e => rw [hp] at hr; cases hr; exact ⟨_, rfl, hc⟩
  | ok fl =>
    obtain ⟨first, rest⟩ := fl
    rw [hp] at hr
    simp only at hr ⊢
    cases hg : get first with
    | none => rw [hg] at hr; cases hr; exact ⟨_, rfl, hc⟩
    | some block =>
      rw [hg] at hr
      simp only at hr ⊢
      cases hk : l.continueWalkRel block cache with
      | none => rw [hk] at hr; cases hr
      | some y =>
        have hcl := continueRel_clean hc hk
        rw [hk] at hr
        obtain ⟨y, k⟩ := y
        cases y with
        | panic p => cases hr; exact ⟨_, rfl, hcl⟩
        | err e => cases hr; exact ⟨_, rfl, hcl⟩
        | ok m =>
          cases m with
          | Found c => cases hr; exact ⟨_, rfl, hcl⟩
          | NotFound => cases hr; exact ⟨_, rfl, hcl⟩
          | NeedToLoadMore l' =>
            simp only [bind, Option.bind] at hr ⊢
            cases hrec : rec l' k with
            | none => rw [hrec] at hr; cases hr
            | some r' =>
              rw [hrec] at hr
              cases hr
              rw [reported_map]
              exact ih l' k r' hrec hcl

theorem resolveLoopRel_ends {get : Cid → Option Bytes} (l : ShardedLookup) (cache) (r) (h : resolveLoopRel get l cache = some r) :
    lookupFromRel get l cache ≠ none := by
  refine resolveLoopRel.partial_correctness get (fun l cache _ => lookupFromRel get l cache ≠ none) ?_ l cache r h
  intro rec ih l cache r hr
  rw [lookupFromRel.eq_1]
  cases hp : l.pendingLinks with
  | panic p => simp
  | err e => simp
  | ok fl =>
    obtain ⟨first, rest⟩ := fl
    rw [hp] at hr
    simp only at hr ⊢
    cases hg : get first with
    | none => simp
    | some block =>
      rw [hg] at hr
      simp only at hr ⊢
      cases hk : l.continueWalkRel block cache with
      | none => rw [hk] at hr; cases hr
      | some y =>
        rw [hk] at hr
        obtain ⟨y, k⟩ := y
        cases y with
        | panic p => simp
        | err e => simp
        | ok m =>
          cases m with
          | Found c => simp
          | NotFound => simp
          | NeedToLoadMore l' =>
            have := ih l' k r hr
            simp only [bind, Option.bind]
            cases hl : lookupFromRel get l' k with
            | none => exact absurd hl this
            | some x => simp

/-- One segment of the path. -/
theorem resolveSegmentsRel_step (get : Cid → Option Bytes) (d : Cid) (cache : Option LookupCache) (hc : CleanCache cache) (name : Bytes)
    (names : List Bytes) (block : Bytes) (hg : get d = some block) :
    (lookupNameRel get block name cache = none → resolveSegmentsRel get d cache (name :: names) = none) ∧
    ∀ r, lookupNameRel get block name cache = some r → ∃ k, CleanCache k ∧
      resolveSegmentsRel get d cache (name :: names) = match reported r with
        | .ok (some c) => resolveSegmentsRel get c k names
        | x => some x := by
  unfold lookupNameRel
  rw [resolveSegmentsRel, hg]
  simp only
  cases hk : resolveRel block name cache with
  | none => exact ⟨fun _ => rfl, nofun⟩
  | some y =>
    have hcl := resolveRel_clean hc hk
    obtain ⟨y, k⟩ := y
    cases y with
    | panic p => exact ⟨nofun, fun r hr => by cases hr; exact ⟨none, cleanCache_none, rfl⟩⟩
    | err e => exact ⟨nofun, fun r hr => by cases hr; exact ⟨none, cleanCache_none, rfl⟩⟩
    | ok m =>
      cases m with
      | Found c => exact ⟨nofun, fun r hr => by cases hr; exact ⟨k, hcl, rfl⟩⟩
      | NotFound => exact ⟨nofun, fun r hr => by cases hr; exact ⟨none, cleanCache_none, rfl⟩⟩
      | NeedToLoadMore l =>
        simp only
        constructor
        · intro hn
          cases hr : resolveLoopRel get l k with
          | none => rfl
          | some x => exact absurd hn (resolveLoopRel_ends _ _ _ hr)
        · intro r hr
          obtain ⟨k', h1, h2⟩ := resolveLoopRel_of _ _ _ hr hcl
          refine ⟨k', h2, ?_⟩
          rw [h1]
          cases reported r with
          | panic p => rfl
          | err e => rfl
          | ok x => cases x <;> rfl

theorem resolveLoop_kept {get : Cid → Option Bytes} (hp : ∀ c b, get c = some b → FlatUnixFs.tryParseR b = some (FlatUnixFs.tryParse b))
    (l : ShardedLookup) (cache : Option LookupCache) : resolveLoopRel get l cache = resolveLoop get l cache := by
  apply option_ext
  · refine fun x h => resolveLoopRel.partial_correctness get (fun l cache x => resolveLoop get l cache = some x) ?_ l cache x h
    intro rec ih l cache r h
    rw [resolveLoop.eq_1]
    cases hl : l.pendingLinks with
    | panic p => simp only [hl] at h ⊢; exact h
    | err e => simp only [hl] at h ⊢; exact h
    | ok fr =>
      obtain ⟨first, rest⟩ := fr
      simp only [hl] at h ⊢
      cases hg : get first with
      | none => rw [hg] at h; exact h
      | some block =>
        rw [hg] at h
        simp only [lookupRel_eq (hp _ _ hg)] at h ⊢
        rcases hk : l.continueWalk block cache with ⟨x, k⟩
        rw [hk] at h
        cases x with
        | panic p => exact h
        | err e => exact h
        | ok y =>
          cases y with
          | Found c => exact h
          | NotFound => exact h
          | NeedToLoadMore l' => exact ih l' k r h
  · refine fun x h => resolveLoop.partial_correctness get (fun l cache x => resolveLoopRel get l cache = some x) ?_ l cache x h
    intro rec ih l cache r h
    rw [resolveLoopRel.eq_1]
    cases hl : l.pendingLinks with
    | panic p => simp only [hl] at h ⊢; exact h
    | err e => simp only [hl] at h ⊢; exact h
    | ok fr =>
      obtain ⟨first, rest⟩ := fr
      simp only [hl] at h ⊢
      cases hg : get first with
      | none => rw [hg] at h; exact h
      | some block =>
        rw [hg] at h
        simp only [lookupRel_eq (hp _ _ hg)] at h ⊢
        rcases hk : l.continueWalk block cache with ⟨x, k⟩
        rw [hk] at h
        cases x with
        | panic p => exact h
        | err e => exact h
        | ok y =>
          cases y with
          | Found c => exact h
          | NotFound => exact h
          | NeedToLoadMore l' => exact ih l' k r h

/-- Over a store of blocks which nothing overruns, `resolve` does the same in a release build, whatever it finds and however it ends. -/
theorem C135_resolve_agrees (get : Cid → Option Bytes) (hget : ∀ c b, get c = some b → Kept b) (path : IpfsPath) :
    resolveWalkRel get path = resolveWalk get path := by
  have hp := kept_all hget
  obtain ⟨root, names⟩ := path
  unfold resolveWalkRel resolveWalk
  simp only
  generalize (none : Option LookupCache) = cache
  induction names generalizing root cache with
  | nil => rfl
  | cons name names ih =>
    rw [resolveSegmentsRel, resolveSegments]
    cases hg : get root with
    | none => rfl
    | some block =>
      simp only [resolveRel_eq (hp _ _ hg)]
      rcases hk : resolve block name cache with ⟨x, k⟩
      cases x with
      | panic p => rfl
      | err e => rfl
      | ok y =>
        cases y with
        | Found c => exact ih c k
        | NotFound => rfl
        | NeedToLoadMore l =>
          simp only [resolveLoop_kept hp]
          rcases resolveLoop get l k with _ | ⟨x, k'⟩
          · rfl
          · cases x with
            | panic p => rfl
            | err e => rfl
            | ok y =>
              cases y with
              | none => rfl
              | some c => exact ih c k'

theorem continueRel_same {l : ShardedLookup} {block : Bytes} (c c' : Option LookupCache) :
    (l.continueWalkRel block c).map (·.1) = (l.continueWalkRel block c').map (·.1) := by
  unfold ShardedLookup.continueWalkRel
  split
  · rfl
  · rename_i x queue _
    cases FlatUnixFs.tryParseR block with
    | none => rfl
    | some x =>
      simp only [Option.map_some]
      rw [(continueP_iff l queue c x _).2 ((continueP_iff l queue c' x _).1 rfl)]

theorem lookupFromRel_cache {get : Cid → Option Bytes} (l : ShardedLookup) (c) (r) (h : lookupFromRel get l c = some r) :
    ∀ c', lookupFromRel get l c' = some r := by
  refine lookupFromRel.partial_correctness get (fun l c r => ∀ c', lookupFromRel get l c' = some r) ?_ l c r h
  intro rec ih l c r hr c'
  rw [lookupFromRel.eq_1]
  cases hp : l.pendingLinks with
  | panic p => rw [hp] at hr; exact hr
  | err e => rw [hp] at hr; exact hr
  | ok fl =>
    obtain ⟨first, rest⟩ := fl
    rw [hp] at hr
    simp only at hr ⊢
    cases hg : get first with
    | none => rw [hg] at hr; exact hr
    | some block =>
      rw [hg] at hr
      simp only at hr ⊢
      have hsame := continueRel_same (l := l) (block := block) c c'
      cases hk : l.continueWalkRel block c with
      | none => rw [hk] at hr; cases hr
      | some y =>
        rw [hk] at hr hsame
        cases hk' : l.continueWalkRel block c' with
        | none => rw [hk'] at hsame; cases hsame
        | some y' =>
          rw [hk'] at hsame
          obtain ⟨y, k⟩ := y
          obtain ⟨y', k'⟩ := y'
          cases hsame
          simp only [bind, Option.bind] at hr ⊢
          cases y with
          | panic p => exact hr
          | err e => exact hr
          | ok m =>
            cases m with
            | Found c => exact hr
            | NotFound => exact hr
            | NeedToLoadMore l' =>
              simp only at hr ⊢
              cases hrec : rec l' k with
              | none => rw [hrec] at hr; cases hr
              | some r' => rw [hrec] at hr; rw [ih l' k r' hrec k']; exact hr

theorem lookupNameRel_cache (get : Cid → Option Bytes) (block name : Bytes) (c c' : Option LookupCache) (h : CleanCache c) (h' : CleanCache c') :
    lookupNameRel get block name c = lookupNameRel get block name c' := by
  have same : (resolveRel block name c).map (·.1) = (resolveRel block name c').map (·.1) := by
    unfold resolveRel
    cases FlatUnixFs.tryParseR block with
    | none => rfl
    | some x =>
      simp only [Option.map_some]
      rw [(resolveP_iff name c h x _).2 ((resolveP_iff name c' h' x _).1 rfl)]
  unfold lookupNameRel
  cases hk : resolveRel block name c with
  | none =>
    rw [hk] at same
    cases hk' : resolveRel block name c' with
    | none => rfl
    | some y => rw [hk'] at same; cases same
  | some y =>
    rw [hk] at same
    cases hk' : resolveRel block name c' with
    | none => rw [hk'] at same; cases same
    | some y' =>
      rw [hk'] at same
      obtain ⟨y, k⟩ := y
      obtain ⟨y', k'⟩ := y'
      cases same
      cases y with
      | panic p => rfl
      | err e => rfl
      | ok m =>
        cases m with
        | Found c => rfl
        | NotFound => rfl
        | NeedToLoadMore l =>
          exact option_ext (fun x hx => lookupFromRel_cache l k x hx k') (fun x hx => lookupFromRel_cache l k' x hx k)

theorem resolveSegmentsRel_cache (get : Cid → Option Bytes) (names : List Bytes) : ∀ (d : Cid) (c c' : Option LookupCache), CleanCache c → CleanCache c' →
    resolveSegmentsRel get d c names = resolveSegmentsRel get d c' names := by
  induction names with
  | nil => intro d c c' _ _; rfl
  | cons name names ih =>
    intro d c c' h h'
    cases hg : get d with
    | none => rw [resolveSegmentsRel, resolveSegmentsRel, hg]
    | some block =>
      obtain ⟨h1, h2⟩ := resolveSegmentsRel_step get d c h name names block hg
      obtain ⟨h3, h4⟩ := resolveSegmentsRel_step get d c' h' name names block hg
      rw [lookupNameRel_cache get block name c c' h h'] at h1 h2
      cases hl : lookupNameRel get block name c' with
      | none => rw [h1 hl, h3 hl]
      | some r =>
        obtain ⟨k, g1, g2⟩ := h2 r hl
        obtain ⟨k', g3, g4⟩ := h4 r hl
        rw [g2, g4]
        split
        · exact ih _ _ _ g1 g3
        · rfl

/-- `resolve` in a release build, over any store: it goes from the root on to what looking up each name in turn finds, and ends with the first
failure, panic, name which is not found, or look-up which never ends. -/
theorem C135_resolve (get : Cid → Option Bytes) (d : Cid) :
    resolveWalkRel get ⟨d, []⟩ = some (.ok (some d)) ∧
    ∀ name names,
      (get d = none → resolveWalkRel get ⟨d, name :: names⟩ = some (.err .OpeningFailed)) ∧
      ∀ block, get d = some block →
        (lookupNameRel get block name none = none → resolveWalkRel get ⟨d, name :: names⟩ = none) ∧
        (∀ c q, lookupNameRel get block name none = some (.ok (some c, q)) →
          resolveWalkRel get ⟨d, name :: names⟩ = resolveWalkRel get ⟨c, names⟩) ∧
        (∀ q, lookupNameRel get block name none = some (.ok (none, q)) → resolveWalkRel get ⟨d, name :: names⟩ = some (.ok none)) ∧
        (∀ c, lookupNameRel get block name none = some (.err (.missing c)) → resolveWalkRel get ⟨d, name :: names⟩ = some (.err .OpeningFailed)) ∧
        (∀ e, lookupNameRel get block name none = some (.err (.resolving e)) → resolveWalkRel get ⟨d, name :: names⟩ = some (.err (.Traversal e))) ∧
        ∀ p, lookupNameRel get block name none = some (.panic p) → resolveWalkRel get ⟨d, name :: names⟩ = some (.panic p) := by
  refine ⟨rfl, fun name names => ⟨fun hg => ?_, fun block hg => ?_⟩⟩
  · unfold resolveWalkRel
    simp only
    rw [resolveSegmentsRel, hg]
  · obtain ⟨h1, h2⟩ := resolveSegmentsRel_step get d none cleanCache_none name names block hg
    unfold resolveWalkRel
    simp only
    refine ⟨h1, fun c q h => ?_, fun q h => ?_, fun c h => ?_, fun e h => ?_, fun p h => ?_⟩
    · obtain ⟨k, g1, g2⟩ := h2 _ h
      rw [g2]
      exact resolveSegmentsRel_cache get names c k none g1 cleanCache_none
    all_goals
      obtain ⟨k, g1, g2⟩ := h2 _ h
      rw [g2]
      rfl

/-! ### The end -/

/-- The programs end in a release build, unless links go around in circles or there is a block which is read forever. -/
theorem C135_ends (get : Cid → Option Bytes) :
    (∀ c, ChainsEndRel get c → NoneEndless get c → catWalkRel get c ≠ none ∧ getWalkRel get c ≠ none) ∧
    ((∀ c, ChainsEndRel get c ∧ NoneEndless get c) → ∀ path, resolveWalkRel get path ≠ none) := by
  constructor
  · intro c hc hf
    obtain ⟨n, hn⟩ := (C115_count get c).2 hc
    constructor
    · cases hg : get c with
      | none => rw [(C135_cat get c).1 hg]; nofun
      | some root =>
        obtain ⟨r, hr, _⟩ := C115_file get c root {} n hg hn hf
        intro h
        rw [((C135_cat get c).2 root hg).1.2 h] at hr
        cases hr
    · obtain ⟨r, hr, _⟩ := C115_walk get c [] none nofun n hn hf
      exact (getLoopRel_walk _ _ _ hr).1 []
  · rintro h ⟨root, names⟩
    unfold resolveWalkRel
    simp only
    have : ∀ (names : List Bytes) (d : Cid) cache, CleanCache cache → resolveSegmentsRel get d cache names ≠ none := by
      intro names
      induction names with
      | nil => intro d cache _; simp [resolveSegmentsRel]
      | cons name names ih =>
        intro d cache hcl
        cases hg : get d with
        | none => rw [resolveSegmentsRel, hg]; nofun
        | some block =>
          obtain ⟨n, hn⟩ := (C115_count get d).2 (h d).1
          obtain ⟨r, hr, _⟩ := C115_lookup get d block name cache hcl n hg hn (h d).2
          obtain ⟨k, h1, h2⟩ := (resolveSegmentsRel_step get d cache hcl name names block hg).2 r hr
          rw [h2]
          split
          · exact ih _ _ h1
          · nofun
    exact this names root none cleanCache_none

/-! ### Cases -/

/-- The file of two leaves of C134 is such a file in a store of such blocks: a release build of `cat` writes it. At the block `backToEnd` a checked build of
`cat` reports that the block cannot be parsed; a release build parses it, with another link than the file can have, and reports that. With the block
`endlessLink` no program ever answers. -/
theorem C135_example :
    (∀ c b, twoLeavesStore c = some b → Kept b) ∧ (∃ s, catWalkRel twoLeavesStore (cidN 0) = some (s, .ok ()) ∧ s.stdout = [7, 10, 8, 9]) ∧
    (∃ s, catWalk (fun _ => some backToEnd) (cidN 0) = some (s, .err (.Traversal (.Read (some .overflow))))) ∧
    (∃ s, catWalkRel (fun _ => some backToEnd) (cidN 0) = some (s, .err (.Traversal (.File .LinksAndBlocksizesMismatch)))) ∧
    catWalkRel (fun _ => some endlessLink) (cidN 0) = none ∧ getWalkRel (fun _ => some endlessLink) (cidN 0) = none ∧
    ∀ name, resolveWalkRel (fun _ => some endlessLink) ⟨cidN 0, [name]⟩ = none := by
  have kept : ∀ c b, twoLeavesStore c = some b → Kept b := by
    intro c b h
    unfold twoLeavesStore at h
    split at h
    · cases h; exact tame_kept (by decide +kernel)
    split at h
    · cases h; exact tame_kept (by decide +kernel)
    split at h
    · cases h; exact tame_kept (by decide +kernel)
    · cases h
  have hang := C109_example.1
  obtain ⟨root, hg, hf⟩ := C134_cat_example.1
  refine ⟨kept, ⟨_, C135_cat_file _ kept _ _ root hg hf, rfl⟩, ?_, ?_, ?_, ?_, ?_⟩
  · unfold catWalk
    simp only
    rw [show IdleFileVisit.start {} backToEnd = .err (.Read (some .overflow)) from by decide +kernel]
    exact ⟨_, rfl⟩
  · unfold catWalkRel
    simp only [IdleFileVisit.startRel, C108_accepts.2, Option.map_some]
    rw [show IdleFileVisit.startP {} (.ok (.mk [.mk (some [0x1a, 0x0c, 0x00]) none none] { Ty := .File, filesize := some 0 })) = .err (.File .LinksAndBlocksizesMismatch) from by decide +kernel]
    exact ⟨_, rfl⟩
  · exact ((C135_cat (fun _ => some endlessLink) (cidN 0)).2 _ rfl).1.1 (C109_hangs _ hang (fun _ => some endlessLink) (cidN 0) rfl [] [] {} none none).1
  · unfold getWalkRel
    rw [getLoopRel.eq_1, if_neg (by decide)]
    rw [show (Walker.new (cidN 0) []).pendingLinks = .ok (cidN 0, []) from by decide +kernel]
    simp only
    rw [show Walker.stepRel (Walker.new (cidN 0) []) endlessLink none = none from by
      unfold Walker.stepRel; rw [show FlatUnixFs.tryParseR endlessLink = none from hang]; rfl]
  · intro name
    have h := (C109_hangs _ hang (fun _ => some endlessLink) (cidN 0) rfl [] name {} none none).2.2
    unfold resolveWalkRel
    simp only [resolveSegmentsRel, h]

end Verif.Props
