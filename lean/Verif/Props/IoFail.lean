import Verif.IoFail
import Verif.Props.Programs
import Verif.Props.ListingText
/-
The example programs `cat` and `get` when reading and writing may fail at any time: C134.
-/
namespace Verif.Props
open Verif Verif.Spec Verif.Examples

/-! ### `cat` -/

/-- What `cat` does from where the block `c` is wanted, if nothing fails except at blocks which are missing. -/
def catFrom (get : Cid → Option Bytes) (st : CatState) (step : Option FileVisit) (c : Cid) : Option (CatState × Res CatError Unit) :=
  match get c with
  | none => some (st, .err .OpeningFailed)
  | some block =>
    match catTurn step block with
    | .panic p => some (st.read block, .panic p)
    | .err e => some (st.read block, .err (.Traversal e))
    | .ok (content, none) => some ((st.read block).write content, .ok ())
    | .ok (content, some visit) => catLoop get ((st.read block).write content) visit

theorem catWalk_from (get : Cid → Option Bytes) (start : Cid) : catWalk get start = catFrom get {} none start := by
  unfold catWalk catFrom catTurn
  cases get start with
  | none => rfl
  | some block =>
    simp only
    cases IdleFileVisit.start {} block with
    | panic p => rfl
    | err e => rfl
    | ok r =>
      obtain ⟨content, sz, md, step⟩ := r
      cases step <;> rfl

theorem catLoop_from (get : Cid → Option Bytes) (st : CatState) (v : FileVisit) {c rest} (h : v.pendingLinks = .ok (c, rest)) :
    catLoop get st v = catFrom get st (some v) c := by
  rw [catLoop.eq_1, h]
  simp only
  unfold catFrom catTurn
  cases get c with
  | none => rfl
  | some block =>
    simp only
    cases (v.continueWalk block none).1 with
    | panic p => rfl
    | err e => rfl
    | ok cs =>
      obtain ⟨content, step⟩ := cs
      cases step <;> rfl

theorem catLoop_grows (get : Cid → Option Bytes) (st : CatState) (v : FileVisit) (r) (h : catLoop get st v = some r) :
    st.stdout <+: r.1.stdout := by
  refine catLoop.partial_correctness get (fun st _ r => st.stdout <+: r.1.stdout) ?_ st v r h
  intro rec ih st v r hr
  cases hp : v.pendingLinks with
  | panic p => rw [hp] at hr; cases hr; exact List.prefix_refl _
  | err e => rw [hp] at hr; cases hr; exact List.prefix_refl _
  | ok fl =>
    obtain ⟨first, rest⟩ := fl
    rw [hp] at hr
    simp only at hr
    cases hg : get first with
    | none => rw [hg] at hr; cases hr; exact List.prefix_refl _
    | some block =>
      rw [hg] at hr
      simp only at hr
      cases hc : (v.continueWalk block none).1 with
      | panic p => rw [hc] at hr; cases hr; exact List.prefix_refl _
      | err e => rw [hc] at hr; cases hr; exact List.prefix_refl _
      | ok cs =>
        obtain ⟨content, step⟩ := cs
        rw [hc] at hr
        cases step with
        | none => cases hr; exact List.prefix_append _ _
        | some v' => exact (List.prefix_append _ _).trans (ih _ _ _ hr)

/-- What a run has to do with one without failures. -/
structure CatAgrees (s s' : Sink) (e : CatEnd) (r : CatState × Res CatError Unit) : Prop where
  more : s.arrived <+: s'.arrived
  part : s'.arrived ++ s'.buffered <+: r.1.stdout
  done : ∀ n k, e = .done n k → r.2 = .ok () ∧ s' = ⟨r.1.stdout, []⟩ ∧ n = r.1.read_bytes ∧ k = r.1.content_bytes
  traversal : ∀ x, e = .traversal x → r.2 = .err (.Traversal x) ∧ s'.arrived ++ s'.buffered = r.1.stdout
  panic : ∀ p, e = .panic p → r.2 = .panic p ∧ s'.arrived ++ s'.buffered = r.1.stdout

theorem catRun_agrees {get : Cid → Option Bytes} {step c n k s s' e} (h : CatRun get step c n k s s' e) :
    ∀ st r, catFrom get st step c = some r → st.stdout = s.arrived ++ s.buffered → st.read_bytes = n → st.content_bytes = k →
      CatAgrees s s' e r := by
  have grows : ∀ st step c r, catFrom get st step c = some r → st.stdout <+: r.1.stdout := by
    intro st step c r h
    unfold catFrom at h
    cases hg : get c with
    | none => rw [hg] at h; cases h; exact List.prefix_refl _
    | some block =>
      rw [hg] at h
      simp only at h
      cases ht : catTurn step block with
      | panic p => rw [ht] at h; cases h; exact List.prefix_refl _
      | err e => rw [ht] at h; cases h; exact List.prefix_refl _
      | ok cs =>
        obtain ⟨content, next⟩ := cs
        rw [ht] at h
        cases next with
        | none => cases h; exact List.prefix_append _ _
        | some v => exact (List.prefix_append _ _).trans (catLoop_grows _ _ _ _ h)
  have written : ∀ st step c r block content next, catFrom get st step c = some r → get c = some block →
      catTurn step block = .ok (content, next) → st.stdout ++ content <+: r.1.stdout := by
    intro st step c r block content next h hg ht
    unfold catFrom at h
    rw [hg] at h
    simp only [ht] at h
    cases next with
    | none => cases h; exact List.prefix_refl _
    | some v => exact catLoop_grows _ _ _ _ h
  induction h with
  | opening step c n k s =>
    intro st r hr h1 _ _
    exact ⟨List.prefix_refl _, h1 ▸ grows _ _ _ _ hr, nofun, nofun, nofun⟩
  | reading step c n k s =>
    intro st r hr h1 _ _
    exact ⟨List.prefix_refl _, h1 ▸ grows _ _ _ _ hr, nofun, nofun, nofun⟩
  | traversal hg ht =>
    intro st r hr h1 _ _
    have hp := grows _ _ _ _ hr
    unfold catFrom at hr
    rw [hg] at hr
    simp only [ht] at hr
    cases hr
    exact ⟨List.prefix_refl _, h1 ▸ hp, nofun, fun x hx => ⟨by cases hx; rfl, h1.symm⟩, nofun⟩
  | panic hg ht =>
    intro st r hr h1 _ _
    have hp := grows _ _ _ _ hr
    unfold catFrom at hr
    rw [hg] at hr
    simp only [ht] at hr
    cases hr
    exact ⟨List.prefix_refl _, h1 ▸ hp, nofun, nofun, fun x hx => ⟨by cases hx; rfl, h1.symm⟩⟩
  | writing hg ht hw =>
    intro st r hr h1 _ _
    have hp := written _ _ _ _ _ _ _ hr hg ht
    cases hw with
    | fail _ h2 h3 => exact ⟨h3, h2.trans (h1 ▸ hp), nofun, nofun, nofun⟩
  | flushing hg ht hw hf =>
    intro st r hr h1 _ _
    have hp := written _ _ _ _ _ _ _ hr hg ht
    cases hw with
    | ok _ h2 h3 _ =>
      cases hf with
      | fail _ h4 h5 => exact ⟨h3.trans h5, h4.trans (h2 ▸ h1 ▸ hp), nofun, nofun, nofun⟩
  | last hg ht hw hf =>
    intro st r hr h1 h2 h3
    cases hw with
    | ok _ h4 h5 _ =>
      cases hf with
      | ok =>
        unfold catFrom at hr
        rw [hg] at hr
        simp only [ht] at hr
        cases hr
        refine ⟨h5.trans (List.prefix_append _ _), ?_, ?_, nofun, nofun⟩
        · simp only [CatState.write, CatState.read, List.append_nil, h1, h4]; exact List.prefix_refl _
        · intro n' k' he
          cases he
          refine ⟨rfl, ?_, ?_, ?_⟩
          · simp only [CatState.write, CatState.read, h1, h4]
          · simp only [CatState.write, CatState.read, h2]
          · simp only [CatState.write, CatState.read, h3]
  | pending hg ht hw hp =>
    intro st r hr h1 _ _
    cases hw with
    | ok _ h4 h5 _ =>
      unfold catFrom at hr
      rw [hg] at hr
      simp only [ht] at hr
      rw [catLoop.eq_1, hp] at hr
      cases hr
      have : ∀ x : Bytes, st.stdout ++ x = (st.read x).stdout ++ x := fun _ => rfl
      refine ⟨h5, ?_, nofun, nofun, fun x hx => ⟨by cases hx; rfl, ?_⟩⟩
      · simp only [CatState.write, CatState.read, h1, h4]; exact List.prefix_refl _
      · simp only [CatState.write, CatState.read, h1, h4]
  | next hg ht hw hp _ ih =>
    intro st r hr h1 h2 h3
    cases hw with
    | ok _ h4 h5 _ =>
      unfold catFrom at hr
      rw [hg] at hr
      simp only [ht] at hr
      rw [catLoop_from get _ _ hp] at hr
      have := ih _ r hr (by simp only [CatState.write, CatState.read, h1, h4]) (by simp only [CatState.write, CatState.read, h2])
        (by simp only [CatState.write, CatState.read, h3])
      exact ⟨h5.trans this.more, this.part, this.done, this.traversal, this.panic⟩

/-- Whatever fails during a run of `cat`: what arrives at standard output is a beginning of what would have been written without
failures; the exit code is 0 only if all of that arrived; it is 101 only if there would have been a panic anyway. -/
theorem C134_cat (get : Cid → Option Bytes) (start : Cid) (whole : CatState) (r : Res CatError Unit) (h : catWalk get start = some (whole, r))
    (arrived : Bytes) (e : CatEnd) (hrun : CatRuns get start arrived e) :
    arrived <+: whole.stdout ∧
    (e.code = 0 → r = .ok () ∧ arrived = whole.stdout ∧ e = .done whole.read_bytes whole.content_bytes) ∧
    (∀ x, e = .traversal x → r = .err (.Traversal x)) ∧
    (e.code = 101 → ∃ p, r = .panic p) := by
  obtain ⟨s, h1, h2, h3⟩ := hrun
  rw [catWalk_from] at h
  have := catRun_agrees h1 _ _ h rfl rfl rfl
  refine ⟨h3.trans this.part, ?_, fun x hx => (this.traversal x hx).1, ?_⟩
  · intro hc
    cases e with
    | done n k =>
      obtain ⟨g1, rfl, rfl, rfl⟩ := this.done n k rfl
      refine ⟨g1, ?_, rfl⟩
      have : arrived <+: whole.stdout := by simpa using h3
      exact this.eq_of_length (Nat.le_antisymm this.length_le h2.length_le)
    | _ => cases hc
  · intro hc
    cases e with
    | panic p => exact ⟨p, (this.panic p rfl).1⟩
    | _ => cases hc

/-- A file all of whose blocks there are, or were until a moment ago: whatever fails, a beginning of the content arrives and never
anything else; `cat` exits with 0 or 1, and with 0 only if the whole content arrived. -/
theorem C134_cat_file (get : Cid → Option Bytes) (t : FTree) (start : Cid) (root : Bytes) (hg : get start = some root) (h : FileAt get t root)
    (arrived : Bytes) (e : CatEnd) (hrun : CatRuns get start arrived e) :
    arrived <+: t.content ∧ (e.code = 0 ∨ e.code = 1) ∧ (e.code = 0 → arrived = t.content) ∧
    (e.code = 1 → e = .opening ∨ e = .other) := by
  have hw := C71_cat get t start root hg h
  obtain ⟨h1, h2, h3, h4⟩ := C134_cat get start _ _ hw arrived e hrun
  refine ⟨h1, ?_, fun hc => (h2 hc).2.1, fun hc => ?_⟩
  · cases e with
    | panic p => obtain ⟨p, hp⟩ := h4 rfl; cases hp
    | done n k => exact .inl rfl
    | _ => exact .inr rfl
  · cases e with
    | opening => exact .inl rfl
    | other => exact .inr rfl
    | traversal x => cases h3 x rfl
    | done n k => cases hc
    | panic p => cases hc

/-- If nothing fails, everything is written. -/
theorem catRun_clean (get : Cid → Option Bytes) (st : CatState) (v : FileVisit) (r) (h : catLoop get st v = some r) :
    ∀ step c block content s, get c = some block → catTurn step block = .ok (content, some v) →
      st.stdout = s.arrived ++ s.buffered ++ content →
      ∀ n k, n + block.length = st.read_bytes → k + content.length = st.content_bytes →
      ∃ s' e, CatRun get step c n k s s' e ∧ s'.arrived = r.1.stdout ∧ s'.buffered = [] ∧
        (r.2 = .ok () → e = .done r.1.read_bytes r.1.content_bytes) ∧ (r.2 = .err .OpeningFailed → e = .opening) ∧
        (∀ x, r.2 = .err (.Traversal x) → e = .traversal x) ∧ (∀ p, r.2 = .panic p → e = .panic p) := by
  refine catLoop.partial_correctness get (fun st v r => ∀ step c block content s, get c = some block → catTurn step block = .ok (content, some v) →
      st.stdout = s.arrived ++ s.buffered ++ content →
      ∀ n k, n + block.length = st.read_bytes → k + content.length = st.content_bytes →
      ∃ s' e, CatRun get step c n k s s' e ∧ s'.arrived = r.1.stdout ∧ s'.buffered = [] ∧
        (r.2 = .ok () → e = .done r.1.read_bytes r.1.content_bytes) ∧ (r.2 = .err .OpeningFailed → e = .opening) ∧
        (∀ x, r.2 = .err (.Traversal x) → e = .traversal x) ∧ (∀ p, r.2 = .panic p → e = .panic p)) ?_ st v r h
  intro rec ih st v r hr step c block content s hg ht hs n k hn hk
  have hw : s.Writes content true ⟨st.stdout, []⟩ :=
    .ok _ (by simp [hs]) (by rw [hs, List.append_assoc]; exact List.prefix_append _ _) (by simp)
  cases hp : v.pendingLinks with
  | panic p =>
    rw [hp] at hr
    cases hr
    exact ⟨_, _, .pending hg ht hw hp, rfl, rfl, nofun, nofun, nofun, fun q hq => by cases hq; rfl⟩
  | err e => unfold FileVisit.pendingLinks at hp; split at hp <;> cases hp
  | ok fl =>
    obtain ⟨first, rest⟩ := fl
    rw [hp] at hr
    simp only at hr
    have go : ∀ {s' e}, CatRun get (some v) first st.read_bytes st.content_bytes ⟨st.stdout, []⟩ s' e → CatRun get step c n k s s' e := by
      intro s' e hrun
      rw [← hn, ← hk] at hrun
      exact .next hg ht hw hp hrun
    cases hq : get first with
    | none =>
      rw [hq] at hr
      cases hr
      exact ⟨_, _, go (.opening _ _ _ _ _), rfl, rfl, nofun, fun _ => rfl, nofun, nofun⟩
    | some block' =>
      rw [hq] at hr
      simp only at hr
      cases hc : (v.continueWalk block' none).1 with
      | panic p =>
        rw [hc] at hr
        cases hr
        exact ⟨_, _, go (.panic hq hc), rfl, rfl, nofun, nofun, nofun, fun q hq => by cases hq; rfl⟩
      | err x =>
        rw [hc] at hr
        cases hr
        exact ⟨_, _, go (.traversal hq hc), rfl, rfl, nofun, nofun, fun q hq => by cases hq; rfl, nofun⟩
      | ok cs =>
        obtain ⟨content', next⟩ := cs
        rw [hc] at hr
        cases next with
        | none =>
          cases hr
          refine ⟨_, _, go (.last hq hc (.ok ⟨st.stdout ++ content', []⟩ (by simp) (List.prefix_append _ _) (by simp)) .ok), ?_, rfl,
            fun _ => ?_, nofun, nofun, nofun⟩
          · simp [CatState.write, CatState.read]
          · simp [CatState.write, CatState.read]
        | some v' =>
          obtain ⟨s', e, h1, h2⟩ := ih _ v' r hr (some v) first block' content' ⟨st.stdout, []⟩ hq hc (by simp [CatState.write, CatState.read])
            st.read_bytes st.content_bytes rfl rfl
          exact ⟨s', e, go h1, h2⟩

/-- There is a run in which nothing fails: everything arrives which is to be written, and the exit code says how it ended. -/
theorem C134_cat_clean (get : Cid → Option Bytes) (start : Cid) (whole : CatState) (r : Res CatError Unit)
    (h : catWalk get start = some (whole, r)) :
    ∃ e, CatRuns get start whole.stdout e ∧ (e.code = 0 ↔ r = .ok ()) ∧ (e.code = 1 ↔ ∃ x, r = .err x) ∧ (e.code = 101 ↔ ∃ p, r = .panic p) := by
  have fin : ∀ s' e, CatRun get none start 0 0 {} s' e → s'.arrived = whole.stdout → s'.buffered = [] →
      (r = .ok () → e = .done whole.read_bytes whole.content_bytes) → (r = .err .OpeningFailed → e = .opening) →
      (∀ x, r = .err (.Traversal x) → e = .traversal x) → (∀ p, r = .panic p → e = .panic p) →
      ∃ e, CatRuns get start whole.stdout e ∧ (e.code = 0 ↔ r = .ok ()) ∧ (e.code = 1 ↔ ∃ x, r = .err x) ∧ (e.code = 101 ↔ ∃ p, r = .panic p) := by
    intro s' e h1 h2 h3 h4 h5 h6 h7
    refine ⟨e, ⟨s', h1, ?_, ?_⟩, ?_⟩
    · rw [h2]; exact List.prefix_refl _
    · rw [h2]; exact List.prefix_append _ _
    · cases r with
      | ok u => rw [h4 rfl]; simp [CatEnd.code]
      | err x =>
        cases x with
        | OpeningFailed => rw [h5 rfl]; simp [CatEnd.code]
        | Traversal x => rw [h6 x rfl]; simp [CatEnd.code]
      | panic p => rw [h7 p rfl]; simp [CatEnd.code]
  rw [catWalk_from] at h
  unfold catFrom at h
  cases hg : get start with
  | none =>
    rw [hg] at h
    cases h
    exact fin _ _ (.opening _ _ _ _ _) rfl rfl nofun (fun _ => rfl) nofun nofun
  | some block =>
    rw [hg] at h
    simp only at h
    cases ht : catTurn none block with
    | panic p => rw [ht] at h; cases h; exact fin _ _ (.panic hg ht) rfl rfl nofun nofun nofun (fun q hq => by cases hq; rfl)
    | err x => rw [ht] at h; cases h; exact fin _ _ (.traversal hg ht) rfl rfl nofun nofun (fun q hq => by cases hq; rfl) nofun
    | ok cs =>
      obtain ⟨content, next⟩ := cs
      rw [ht] at h
      cases next with
      | none =>
        cases h
        refine fin _ _ (.last hg ht (.ok ⟨content, []⟩ (by simp) List.nil_prefix (by simp)) .ok) ?_ rfl (fun _ => ?_) nofun nofun nofun
        · simp [CatState.write, CatState.read]
        · simp [CatState.write, CatState.read]
      | some v =>
        obtain ⟨s', e, h1, h2, h3, h4, h5, h6, h7⟩ := catRun_clean get _ v _ h none start block content {} hg ht
          (by simp [CatState.write, CatState.read]) 0 0 (by simp [CatState.write, CatState.read]) (by simp [CatState.write, CatState.read])
        exact fin s' e h1 h2 h3 h4 h5 h6 h7

/-! ### `get` -/

theorem output_append (env : FmtEnv) (a b : List Line) : utf8 (output env (a ++ b)) = utf8 (output env a) ++ utf8 (output env b) := by
  rw [output, List.flatMap_append, utf8_append]
  rfl

theorem output_mono (env : FmtEnv) {a b : List Line} (h : a <+: b) : utf8 (output env a) <+: utf8 (output env b) := by
  obtain ⟨c, rfl⟩ := h
  rw [output_append]
  exact List.prefix_append _ _

theorem line_ends (env : FmtEnv) (l : Line) : ∃ t : Bytes, utf8 (output env [l]) = t ++ [10] := by
  have h : ∃ t : Text, l.text env = t ++ ['\n'] := by
    cases l with
    | f mode seconds size path => exact ⟨_, rfl⟩
    | d mode seconds path => exact ⟨_, rfl⟩
    | s mode seconds path target => exact ⟨_, rfl⟩
  obtain ⟨t, h⟩ := h
  refine ⟨utf8 t, ?_⟩
  rw [output, List.flatMap_cons, List.flatMap_nil, List.append_nil, h, utf8_append]
  rfl

/-- A line which is written does not stay in the buffer. -/
theorem writes_line {s s' : Sink} {x t : Bytes} (hw : s.Writes x true s') (hx : x = t ++ [10]) (hs : s.buffered = []) :
    s' = ⟨s.arrived ++ x, []⟩ := by
  cases hw with
  | ok _ h1 h2 h3 =>
    obtain ⟨a, b⟩ := s'
    rw [hs, List.append_nil] at h1
    simp only at h1 h2 h3 ⊢
    rcases List.eq_nil_or_concat b with rfl | ⟨b', y, rfl⟩
    · rw [List.append_nil] at h1; rw [h1]
    · exfalso
      rw [hx, List.concat_eq_append, ← List.append_assoc, ← List.append_assoc] at h1
      have := (List.append_inj' h1 rfl).2
      cases this
      exact h3 (by simp)

theorem prints_true {env : FmtEnv} {ls : List Line} {s s' : Sink} {b} (h : Prints env ls s b s') : b = true → s.buffered = [] →
    s' = ⟨s.arrived ++ utf8 (output env ls), []⟩ := by
  induction h with
  | none s => intro _ hs; obtain ⟨a, b⟩ := s; cases hs; simp [output, utf8]
  | fail _ => nofun
  | @line l ls s s' b s'' hw hp ih =>
    intro hb hs
    obtain ⟨t, ht⟩ := line_ends env l
    have := writes_line hw ht hs
    subst this
    rw [ih hb rfl]
    rw [show l :: ls = [l] ++ ls from rfl, output_append, List.append_assoc]

theorem prints_false {env : FmtEnv} {ls : List Line} {s s' : Sink} {b} (h : Prints env ls s b s') : s.buffered = [] →
    s.arrived <+: s'.arrived ∧ s'.arrived ++ s'.buffered <+: s.arrived ++ utf8 (output env ls) := by
  induction h with
  | none s => intro hs; exact ⟨List.prefix_refl _, by rw [hs, List.append_nil]; exact List.prefix_append _ _⟩
  | @fail l ls s s' hw =>
    intro hs
    cases hw with
    | fail _ h1 h2 =>
      rw [hs, List.append_nil] at h1
      refine ⟨h2, h1.trans ?_⟩
      rw [show l :: ls = [l] ++ ls from rfl, output_append, ← List.append_assoc]
      exact List.prefix_append _ _
  | @line l ls s s' b s'' hw hp ih =>
    intro hs
    obtain ⟨t, ht⟩ := line_ends env l
    have := writes_line hw ht hs
    subst this
    obtain ⟨h1, h2⟩ := ih rfl
    refine ⟨(List.prefix_append _ _).trans h1, ?_⟩
    rw [show l :: ls = [l] ++ ls from rfl, output_append, ← List.append_assoc]
    exact h2

theorem prints_all (env : FmtEnv) (ls : List Line) (a : Bytes) : Prints env ls ⟨a, []⟩ true ⟨a ++ utf8 (output env ls), []⟩ := by
  induction ls generalizing a with
  | nil => simpa [output, utf8] using Prints.none (env := env) (⟨a, []⟩ : Sink)
  | cons l ls ih =>
    rw [show l :: ls = [l] ++ ls from rfl, output_append, ← List.append_assoc]
    exact .line (.ok _ (by simp) (List.prefix_append _ _) (by simp)) (ih _)

/-- What a run has to do with one without failures. -/
structure GetAgrees (env : FmtEnv) (out : List Line) (s s' : Sink) (e : GetEnd) (r : List Line × Res GetError Unit) : Prop where
  more : s.arrived <+: s'.arrived
  part : s'.arrived ++ s'.buffered <+: utf8 (output env r.1)
  lines : e ≠ .print → ∃ ls, out <+: ls ∧ ls <+: r.1 ∧ s' = ⟨utf8 (output env ls), []⟩
  done : e = .done → r.2 = .ok () ∧ s' = ⟨utf8 (output env r.1), []⟩
  walk : ∀ x, e = .walk x → r.2 = .err (.Walk x) ∧ s' = ⟨utf8 (output env r.1), []⟩
  panic : ∀ p, e = .panic p → r.2 = .panic p ∧ s' = ⟨utf8 (output env r.1), []⟩

theorem getRun_agrees {env : FmtEnv} {get : Cid → Option Bytes} {w cache s s' e} (h : GetRun env get w cache s s' e) :
    ∀ out r, getLoop get out w cache = some r → s = ⟨utf8 (output env out), []⟩ → GetAgrees env out s s' e r := by
  have grows : ∀ out w cache r, getLoop get out w cache = some r → out <+: r.1 :=
    fun out w cache r h => (getLoop_part (part := get) (full := get) (fun _ _ h => h) out w cache r h).1
  have stay : ∀ {w cache} {s : Sink} (out : List Line) (r), getLoop get out w cache = some r → s = ⟨utf8 (output env out), []⟩ →
      s.arrived <+: s.arrived ∧ s.arrived ++ s.buffered <+: utf8 (output env r.1) ∧
      ∃ ls, out <+: ls ∧ ls <+: r.1 ∧ s = ⟨utf8 (output env ls), []⟩ := by
    intro w cache s out r hr hs
    have hg := grows _ _ _ _ hr
    refine ⟨List.prefix_refl _, ?_, out, List.prefix_refl _, hg, hs⟩
    rw [hs, List.append_nil]
    exact output_mono env hg
  induction h with
  | done hc =>
    intro out r hr hs
    obtain ⟨h1, h2, h3⟩ := stay out r hr hs
    rw [getLoop.eq_1, if_pos hc] at hr
    cases hr
    exact ⟨h1, h2, fun _ => h3, fun _ => ⟨rfl, hs⟩, nofun, nofun⟩
  | pending hc hp =>
    intro out r hr hs
    obtain ⟨h1, h2, h3⟩ := stay out r hr hs
    rw [getLoop.eq_1, if_neg (by simp [hc]), hp] at hr
    cases hr
    exact ⟨h1, h2, fun _ => h3, nofun, nofun, fun q hq => ⟨by cases hq; rfl, hs⟩⟩
  | opening hc hp =>
    intro out r hr hs
    obtain ⟨h1, h2, h3⟩ := stay out r hr hs
    exact ⟨h1, h2, fun _ => h3, nofun, nofun, nofun⟩
  | reading hc hp =>
    intro out r hr hs
    obtain ⟨h1, h2, h3⟩ := stay out r hr hs
    exact ⟨h1, h2, fun _ => h3, nofun, nofun, nofun⟩
  | walk hc hp hg hst =>
    intro out r hr hs
    obtain ⟨h1, h2, h3⟩ := stay out r hr hs
    rw [getLoop.eq_1, if_neg (by simp [hc]), hp] at hr
    simp only [hg, hst] at hr
    cases hr
    exact ⟨h1, h2, fun _ => h3, nofun, fun q hq => ⟨by cases hq; rfl, hs⟩, nofun⟩
  | panic hc hp hg hst =>
    intro out r hr hs
    obtain ⟨h1, h2, h3⟩ := stay out r hr hs
    rw [getLoop.eq_1, if_neg (by simp [hc]), hp] at hr
    simp only [hg, hst] at hr
    cases hr
    exact ⟨h1, h2, fun _ => h3, nofun, nofun, fun q hq => ⟨by cases hq; rfl, hs⟩⟩
  | target hc hp hg hst hi =>
    intro out r hr hs
    obtain ⟨h1, h2, h3⟩ := stay out r hr hs
    rw [getLoop.eq_1, if_neg (by simp [hc]), hp] at hr
    simp only [hg, hst, hi] at hr
    cases hr
    exact ⟨h1, h2, fun _ => h3, nofun, nofun, fun q hq => ⟨by cases hq; rfl, hs⟩⟩
  | print hc hp hg hst hi hpr =>
    intro out r hr hs
    rw [getLoop.eq_1, if_neg (by simp [hc]), hp] at hr
    simp only [hg, hst, hi] at hr
    have hgr := grows _ _ _ _ hr
    obtain ⟨h1, h2⟩ := prints_false hpr (by rw [hs])
    refine ⟨h1, h2.trans ?_, fun h => absurd rfl h, nofun, nofun, nofun⟩
    rw [hs]
    rw [← output_append]
    exact output_mono env hgr
  | next hc hp hg hst hi hpr _ ih =>
    intro out r hr hs
    rw [getLoop.eq_1, if_neg (by simp [hc]), hp] at hr
    simp only [hg, hst, hi] at hr
    have h1 := prints_true hpr rfl (by rw [hs])
    have h2 := (prints_false hpr (by rw [hs])).1
    have := ih _ r hr (by rw [h1, hs, output_append])
    refine ⟨h2.trans this.more, this.part, fun hn => ?_, this.done, this.walk, this.panic⟩
    obtain ⟨ls, h3, h4, h5⟩ := this.lines hn
    exact ⟨ls, (List.prefix_append _ _).trans h3, h4, h5⟩

/-- Whatever fails during a run of `get`: what arrives at standard output is a beginning of what would have been written without
failures, and unless writing itself fails it consists of whole lines; the exit code is 0 only if all of that arrived; it is 101 only if
writing fails, or if there would have been a panic anyway. -/
theorem C134_get (env : FmtEnv) (get : Cid → Option Bytes) (start : Cid) (lines : List Line) (r : Res GetError Unit)
    (h : getWalk get start = some (lines, r)) (arrived : Bytes) (e : GetEnd) (hrun : GetRuns env get start arrived e) :
    arrived <+: utf8 (output env lines) ∧
    (e ≠ .print → ∃ ls, ls <+: lines ∧ arrived = utf8 (output env ls)) ∧
    (e.code = 0 → r = .ok () ∧ arrived = utf8 (output env lines)) ∧
    (∀ x, e = .walk x → r = .err (.Walk x)) ∧
    (e.code = 101 → e = .print ∨ ∃ p, r = .panic p) := by
  obtain ⟨s, h1, h2, h3⟩ := hrun
  have ha := getRun_agrees h1 _ _ h (by simp [output, utf8])
  have exact_ : ∀ x, s = ⟨x, []⟩ → arrived = x := by
    rintro x rfl
    rw [List.append_nil] at h3
    exact h3.eq_of_length (Nat.le_antisymm h3.length_le h2.length_le)
  refine ⟨h3.trans ha.part, ?_, ?_, fun x hx => (ha.walk x hx).1, ?_⟩
  · intro hn
    obtain ⟨ls, _, h4, h5⟩ := ha.lines hn
    exact ⟨ls, h4, exact_ _ h5⟩
  · intro hc
    cases e with
    | done => exact ⟨(ha.done rfl).1, exact_ _ (ha.done rfl).2⟩
    | _ => cases hc
  · intro hc
    cases e with
    | panic p => exact .inr ⟨p, (ha.panic p rfl).1⟩
    | print => exact .inl rfl
    | _ => cases hc

theorem walker_pending_no_err (w : Walker) (e : Unit) : w.pendingLinks ≠ .err e := by
  unfold Walker.pendingLinks
  have h : ∀ (v : FileVisit) x, v.pendingLinks ≠ .err x := by
    intro v x hp
    unfold FileVisit.pendingLinks at hp
    split at hp <;> cases hp
  intro hx
  split at hx
  · next visit _ _ =>
    cases hv : visit.pendingLinks with
    | ok x => rw [hv] at hx; cases hx
    | err x => exact h _ _ hv
    | panic p => rw [hv] at hx; cases hx
  · split at hx <;> cases hx

theorem getItem_no_err (item : ContinuedWalk) (e : GetError) : getItem item ≠ .err e := by
  cases item <;> simp only [getItem] <;> (try split) <;> simp

theorem getRun_clean (env : FmtEnv) (get : Cid → Option Bytes) (out : List Line) (w : Walker) (cache) (r)
    (h : getLoop get out w cache = some r) :
    ∃ e, GetRun env get w cache ⟨utf8 (output env out), []⟩ ⟨utf8 (output env r.1), []⟩ e ∧
      (r.2 = .ok () → e = .done) ∧ (r.2 = .err .OpeningFailed → e = .opening) ∧
      (∀ x, r.2 = .err (.Walk x) → e = .walk x) ∧ (∀ p, r.2 = .panic p → e = .panic p) := by
  refine getLoop.partial_correctness get (fun out w cache r =>
    ∃ e, GetRun env get w cache ⟨utf8 (output env out), []⟩ ⟨utf8 (output env r.1), []⟩ e ∧
      (r.2 = .ok () → e = .done) ∧ (r.2 = .err .OpeningFailed → e = .opening) ∧
      (∀ x, r.2 = .err (.Walk x) → e = .walk x) ∧ (∀ p, r.2 = .panic p → e = .panic p)) ?_ out w cache r h
  intro rec ih out w cache r hr
  by_cases hs : w.shouldContinue = false
  · rw [if_pos hs] at hr; cases hr; exact ⟨_, .done hs, fun _ => rfl, nofun, nofun, nofun⟩
  rw [if_neg hs] at hr
  have hc : w.shouldContinue = true := by simpa using hs
  cases hp : w.pendingLinks with
  | panic p => rw [hp] at hr; cases hr; exact ⟨_, .pending hc hp, nofun, nofun, nofun, fun q hq => by cases hq; rfl⟩
  | err e => exact absurd hp (walker_pending_no_err w e)
  | ok fl =>
    rw [hp] at hr
    simp only at hr
    cases hg : get fl.1 with
    | none => rw [hg] at hr; cases hr; exact ⟨_, .opening hc hp, nofun, fun _ => rfl, nofun, nofun⟩
    | some block =>
      rw [hg] at hr
      simp only at hr
      rcases hst : w.step block cache with ⟨a, w', cache'⟩
      rw [hst] at hr
      cases a with
      | panic p => cases hr; exact ⟨_, .panic hc hp hg hst, nofun, nofun, nofun, fun q hq => by cases hq; rfl⟩
      | err e => cases hr; exact ⟨_, .walk hc hp hg hst, nofun, nofun, fun q hq => by cases hq; rfl, nofun⟩
      | ok item =>
        simp only at hr
        cases hi : getItem item with
        | panic p => rw [hi] at hr; cases hr; exact ⟨_, .target hc hp hg hst hi, nofun, nofun, nofun, fun q hq => by cases hq; rfl⟩
        | err e => exact absurd hi (getItem_no_err item e)
        | ok lines =>
          rw [hi] at hr
          obtain ⟨e, h1, h2⟩ := ih _ _ _ _ hr
          rw [output_append] at h1
          exact ⟨e, .next hc hp hg hst hi (prints_all env lines _) h1, h2⟩

/-- There is a run in which nothing fails: everything arrives which is to be written, and the exit code says how it ended. -/
theorem C134_get_clean (env : FmtEnv) (get : Cid → Option Bytes) (start : Cid) (lines : List Line) (r : Res GetError Unit)
    (h : getWalk get start = some (lines, r)) :
    ∃ e, GetRuns env get start (utf8 (output env lines)) e ∧
      (e.code = 0 ↔ r = .ok ()) ∧ (e.code = 1 ↔ ∃ x, r = .err x) ∧ (e.code = 101 ↔ ∃ p, r = .panic p) := by
  obtain ⟨e, h1, h2, h3, h4, h5⟩ := getRun_clean env get _ _ _ _ h
  refine ⟨e, ⟨_, h1, List.prefix_refl _, by simp⟩, ?_⟩
  simp only at h2 h3 h4 h5
  cases r with
  | ok u => rw [h2 rfl]; simp [GetEnd.code]
  | err x =>
    cases x with
    | OpeningFailed => rw [h3 rfl]; simp [GetEnd.code]
    | Walk x => rw [h4 x rfl]; simp [GetEnd.code]
  | panic p => rw [h5 p rfl]; simp [GetEnd.code]

/-! ### Cases -/

/-- A file of two leaves. -/
def twoLeavesM : FlatUnixFs :=
  .mk [⟨some (cidN 1).toBytes, some [], some 9⟩, ⟨some (cidN 2).toBytes, some [], some 9⟩]
    { Ty := .File, filesize := some 4, blocksizes := [3, 1] }
def leaf1M : FlatUnixFs := .mk [] { Ty := .File, Data := some [7, 10, 8], filesize := some 3 }
def leaf2M : FlatUnixFs := .mk [] { Ty := .File, Data := some [9], filesize := some 1 }
def twoLeavesStore : Cid → Option Bytes := fun c =>
  if c = cidN 0 then some twoLeavesM.write else if c = cidN 1 then some leaf1M.write else if c = cidN 2 then some leaf2M.write else none

/-- The file is of the form asked for. Reading the second leaf fails: the first leaf arrives. Writing fails at the end: the whole line
arrives which was written before. -/
theorem C134_cat_example :
    (∃ root, twoLeavesStore (cidN 0) = some root ∧ FileAt twoLeavesStore (.node [.leaf [7, 10, 8], .leaf [9]]) root) ∧
    CatRuns twoLeavesStore (cidN 0) [7, 10, 8] .other ∧ CatRuns twoLeavesStore (cidN 0) [7, 10] .other ∧
    ∃ e, CatRuns twoLeavesStore (cidN 0) [7, 10, 8, 9] e ∧ e.code = 0 := by
  have g0 : twoLeavesStore (cidN 0) = some twoLeavesM.write := rfl
  have g1 : twoLeavesStore (cidN 1) = some leaf1M.write := by decide +kernel
  have g2 : twoLeavesStore (cidN 2) = some leaf2M.write := by decide +kernel
  have file : FileAt twoLeavesStore (.node [.leaf [7, 10, 8], .leaf [9]]) twoLeavesM.write := by
    unfold FileAt
    refine ⟨twoLeavesM, by decide +kernel, ⟨.inl rfl, rfl, rfl⟩, by simp, rfl, rfl, ?_, ?_⟩
    · simp [twoLeavesM, FTree.content]
    unfold twoLeavesM FilesAt
    refine ⟨⟨cidN 1, _, leaf1M, by decide +kernel, g1, by decide +kernel, ⟨rfl, rfl⟩, ?_⟩, ?_⟩
    · unfold FileAt
      exact ⟨leaf1M, by decide +kernel, ⟨.inl rfl, rfl, rfl⟩, rfl, rfl, rfl, rfl⟩
    unfold FilesAt
    refine ⟨⟨cidN 2, _, leaf2M, by decide +kernel, g2, by decide +kernel, ⟨rfl, rfl⟩, ?_⟩, ?_⟩
    · unfold FileAt
      exact ⟨leaf2M, by decide +kernel, ⟨.inl rfl, rfl, rfl⟩, rfl, rfl, rfl, rfl⟩
    unfold FilesAt
    trivial
  let visitOf : Res FileReadFailed (Bytes × Option FileVisit) → FileVisit := fun r => match r with
    | .ok (_, some v) => v
    | _ => ⟨[], none, ⟨.Chunk 0, 0, 0, {}⟩⟩
  let v1 := visitOf (catTurn none twoLeavesM.write)
  let v2 := visitOf (catTurn (some v1) leaf1M.write)
  have t0 : catTurn none twoLeavesM.write = .ok ([], some v1) := by decide +kernel
  have t1 : catTurn (some v1) leaf1M.write = .ok ([7, 10, 8], some v2) := by decide +kernel
  have t2 : catTurn (some v2) leaf2M.write = .ok ([9], none) := by decide +kernel
  have p1 : v1.pendingLinks = .ok (cidN 1, [cidN 2]) := by decide +kernel
  have p2 : v2.pendingLinks = .ok (cidN 2, []) := by decide +kernel
  have start : ∀ {s e}, CatRun twoLeavesStore (some v2) (cidN 2) (0 + twoLeavesM.write.length + leaf1M.write.length) (0 + 0 + 3)
      ⟨[7, 10], [8]⟩ s e → CatRun twoLeavesStore none (cidN 0) 0 0 {} s e := by
    intro s e h
    refine .next (s' := ⟨[], []⟩) g0 t0 (.ok _ rfl List.nil_prefix (by simp)) p1 ?_
    exact .next g1 t1 (.ok _ rfl List.nil_prefix (by decide)) p2 h
  refine ⟨⟨_, g0, file⟩, ⟨_, start (.reading _ _ _ _ _), ?_, ?_⟩, ⟨⟨[7, 10], []⟩, start (.writing g2 t2 (.fail _ ?_ ?_)), ?_, ?_⟩, ?_⟩
  · exact List.prefix_append _ _
  · exact List.prefix_refl _
  · exact List.prefix_append [7, 10] [8, 9]
  · exact List.prefix_refl _
  · exact List.prefix_refl _
  · exact List.prefix_refl _
  · obtain ⟨e, h1, h2, _⟩ := C134_cat_clean _ _ _ _ (C71_cat _ _ _ _ g0 file)
    exact ⟨e, h1, h2.2 rfl⟩

/-- The store of C101. -/
def forgedStore : Cid → Option Bytes := fun c => if c = cidN 0 then some forgedDir else if c = cidN 1 then some upFile else none

/-- `get` of the directory of C101: the second line cannot be written, of which a part arrives; or reading the file fails. -/
theorem C134_get_example :
    GetRuns env0 forgedStore (cidN 0) (utf8 (lit "d 755            0                - \"\"\nf 6")) .print ∧
    GetRuns env0 forgedStore (cidN 0) (utf8 (lit "d 755            0                - \"\"\n")) .other ∧
    ∃ e, GetRuns env0 forgedStore (cidN 0) (utf8 (lit "d 755            0                - \"\"\nf 644            0                1 \"a\\\"\\nd\"\n")) e ∧
      e.code = 0 := by
  let w1 : Walker := ((Walker.new (cidN 0) []).step forgedDir none).2.1
  have h1 : (Walker.new (cidN 0) []).step forgedDir none = (.ok (.RootDirectory (cidN 0) ⟨false, []⟩ {}), w1, none) := by decide +kernel
  let w2 : Walker := (w1.step upFile none).2.1
  let k2 : Option VisitCache := (w1.step upFile none).2.2
  have h2 : w1.step upFile none =
    (.ok (.File ⟨[1], true, true⟩ (cidN 1) ⟨false, [[0x61, 0x22, 0x0A, 0x64]]⟩ {} 1), w2, k2) := by decide +kernel
  have p0 : (Walker.new (cidN 0) []).pendingLinks = .ok (cidN 0, []) := by decide +kernel
  have p1 : w1.pendingLinks = .ok (cidN 1, []) := by decide +kernel
  have s1 : w1.shouldContinue = true := by decide +kernel
  have g0 : forgedStore (cidN 0) = some forgedDir := rfl
  have g1 : forgedStore (cidN 1) = some upFile := by decide +kernel
  have start : ∀ {s e}, GetRun env0 forgedStore w1 none ⟨utf8 (output env0 [.d 0o755 0 ⟨false, []⟩]), []⟩ s e →
      GetRun env0 forgedStore (Walker.new (cidN 0) []) none {} s e := by
    intro s e h
    exact .next rfl p0 g0 h1 rfl (prints_all env0 _ []) h
  obtain ⟨lines, hl, ht⟩ := C101_example
  refine ⟨⟨⟨utf8 (lit "d 755            0                - \"\"\nf 6"), []⟩, start (.print s1 p1 g1 h2 rfl (.fail (.fail _ ?_ ?_))), List.prefix_refl _, ?_⟩,
    ⟨_, start (.reading s1 p1), ?_, ?_⟩, ?_⟩
  · decide +kernel
  · decide +kernel
  · exact List.prefix_append _ _
  · decide +kernel
  · decide +kernel
  · obtain ⟨e, h3, h4, _⟩ := C134_get_clean env0 _ _ _ _ hl
    rw [ht] at h3
    exact ⟨e, h3, h4.2 rfl⟩

end Verif.Props
