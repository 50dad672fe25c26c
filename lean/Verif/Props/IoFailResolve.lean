import Verif.IoFailResolve
import Verif.Props.IoFail
/-
The example program `resolve` when reading and writing may fail at any time: C136.
-/
namespace Verif.Props
open Verif Verif.Spec Verif.Examples

/-! ### what is said -/

theorem says_append (a b : List Say) (log : Log) : log.says (a ++ b) = (log.says a).says b := by simp [Log.says, List.foldl_append]

/-- More has been said. -/
def LogGrows (a b : Log) : Prop := a.out <+: b.out ∧ a.err <+: b.err

theorem LogGrows.refl (a : Log) : LogGrows a a := ⟨List.prefix_refl _, List.prefix_refl _⟩
theorem LogGrows.trans {a b c : Log} (h : LogGrows a b) (h' : LogGrows b c) : LogGrows a c := ⟨h.1.trans h'.1, h.2.trans h'.2⟩

theorem grows_say (log : Log) (x : Say) : LogGrows log (log.say x) := by
  cases x
  · exact ⟨List.prefix_append _ _, List.prefix_refl _⟩
  · exact ⟨List.prefix_refl _, List.prefix_append _ _⟩

theorem grows_says : ∀ (ls : List Say) (log : Log), LogGrows log (log.says ls)
  | [], log => .refl log
  | x :: ls, log => (grows_say log x).trans (grows_says ls _)

theorem utf8_mono {a b : Text} (h : a <+: b) : utf8 a <+: utf8 b := by
  obtain ⟨c, rfl⟩ := h
  rw [utf8_append]
  exact List.prefix_append _ _

/-- The streams are where the log says. -/
def InStep (log : Log) (s : Streams) : Prop := s = ⟨⟨utf8 log.out, []⟩, utf8 log.err⟩

/-- Lines end with a newline. -/
def Ended (ls : List Say) : Prop := ∀ t, .out t ∈ ls → ∃ u, t = u ++ lit "\n"

theorem says_true {ls : List Say} {s s' : Streams} {b} (h : Says ls s b s') : b = true → Ended ls → ∀ log, InStep log s →
    InStep (log.says ls) s' := by
  induction h with
  | none s => intro _ _ log h; exact h
  | outFail _ => nofun
  | @out t ls s o b s' hw hs ih =>
    intro hb he log hl
    obtain ⟨u, hu⟩ := he t (List.mem_cons_self)
    rw [hl] at hw
    have nl : utf8 (lit "\n") = [10] := by decide +kernel
    have := writes_line (t := utf8 u) hw (by rw [hu, utf8_append, nl]) rfl
    refine ih hb (fun t ht => he t (List.mem_cons_of_mem _ ht)) (log.say (.out t)) ?_
    rw [this, hl]
    simp only [InStep, Log.say, utf8_append]
  | errFail _ => nofun
  | @err t ls s b s' _ ih =>
    intro hb he log hl
    refine ih hb (fun t ht => he t (List.mem_cons_of_mem _ ht)) (log.say (.err t)) ?_
    rw [hl]
    simp only [InStep, Log.say, utf8_append]

/-- What arrived and is still in the buffer. -/
structure Within (s' : Streams) (log : Log) : Prop where
  out : s'.out.arrived ++ s'.out.buffered <+: utf8 log.out
  err : s'.err <+: utf8 log.err

theorem InStep.within {log : Log} {s : Streams} (h : InStep log s) : Within s log := by
  rw [h]; exact ⟨by simp, List.prefix_refl _⟩

theorem Within.grow {s : Streams} {a b : Log} (h : Within s a) (hg : LogGrows a b) : Within s b :=
  ⟨h.out.trans (utf8_mono hg.1), h.err.trans (utf8_mono hg.2)⟩

theorem says_false {ls : List Say} {s s' : Streams} {b} (h : Says ls s b s') : b = false → Ended ls → ∀ log, InStep log s →
    Within s' (log.says ls) := by
  induction h with
  | none s => nofun
  | @outFail t ls s o hw =>
    intro _ _ log hl
    refine Within.grow (a := log.say (.out t)) ⟨?_, ?_⟩ (grows_says ls _)
    · rw [hl] at hw
      cases hw with
      | fail _ h1 h2 => simpa [Log.say, utf8_append] using h1
    · rw [hl]; exact List.prefix_refl _
  | @out t ls s o b s' hw hs ih =>
    intro hb he log hl
    have h1 := says_true (.out hw (.none _)) rfl (fun t' ht => he t' (by rw [List.mem_singleton.1 ht]; exact List.mem_cons_self)) log hl
    exact ih hb (fun t ht => he t (List.mem_cons_of_mem _ ht)) (log.say (.out t)) h1
  | @errFail t ls s part hp =>
    intro _ _ log hl
    refine Within.grow (a := log.say (.err t)) ⟨?_, ?_⟩ (grows_says ls _)
    · rw [hl]; simp [Log.say]
    · rw [hl]
      simp only [Log.say, utf8_append]
      exact (List.prefix_append_right_inj _).2 hp
  | @err t ls s b s' hs ih =>
    intro hb he log hl
    have h1 := says_true (Says.err (t := t) (.none _)) rfl (fun t' ht => by cases List.mem_singleton.1 ht) log hl
    exact ih hb (fun t ht => he t (List.mem_cons_of_mem _ ht)) (log.say (.err t)) h1

/-- Everything can be said. -/
theorem says_all : ∀ (ls : List Say) (log : Log) (s : Streams), InStep log s → Ended ls → ∃ s', Says ls s true s' ∧ InStep (log.says ls) s'
  | [], _, s, h, _ => ⟨s, .none _, h⟩
  | .out t :: ls, log, s, h, he => by
    have hw : s.out.Writes (utf8 t) true ⟨utf8 (log.out ++ t), []⟩ := by
      rw [h]
      exact .ok _ (by simp [utf8_append]) (by rw [utf8_append]; exact List.prefix_append _ _) (by simp)
    obtain ⟨s', h1, h2⟩ := says_all ls (log.say (.out t)) ⟨⟨utf8 (log.out ++ t), []⟩, s.err⟩ (by rw [h]; rfl)
      (fun t ht => he t (List.mem_cons_of_mem _ ht))
    exact ⟨s', .out hw h1, h2⟩
  | .err t :: ls, log, s, h, he => by
    obtain ⟨s', h1, h2⟩ := says_all ls (log.say (.err t)) ⟨s.out, s.err ++ utf8 t⟩ (by rw [h]; simp [InStep, Log.say, utf8_append])
      (fun t ht => he t (List.mem_cons_of_mem _ ht))
    exact ⟨s', .err h1, h2⟩

/-! ### without failures -/

/-- The process which ends like this. -/
def endOf (m : Machine) (log : Log) (e : ResolveEnd) : Process := ⟨utf8 (log.says (e.says m)).out, (log.says (e.says m)).err, e.code⟩

/-- How `main` goes on with the outcome of `walk`. -/
def mainEnd (m : Machine) : Res ResolveFail (Option Cid) × Log → Process
  | (.ok (some cid), log) => endOf m (log.say (.out (shown cid ++ lit "\n"))) .done
  | (.ok none, log) => endOf m log .notFound
  | (.err .OpeningFailed, log) => endOf m log (.opening m.openError)
  | (.err (.Traversal e), log) => endOf m log (.traversal e)
  | (.panic p, log) => endOf m log (.panic p)

/-- What comes of `walk` from here on, if nothing fails except at blocks which are missing. -/
def cleanRes (m : Machine) (get : Cid → Option Bytes) (log : Log) : At → Option (Res ResolveFail (Option Cid) × Log)
  | .names root cache names => resolveSegmentsLog m get root cache log names
  | .bucket segment root n walker cache rest =>
    match resolveLoopLog m get segment root n log walker cache with
    | none => none
    | some (.panic p, _, log) => some (.panic p, log)
    | some (.err e, _, log) => some (.err e, log)
    | some (.ok none, _, log) => some (.ok none, log)
    | some (.ok (some cid), cache, log) => resolveSegmentsLog m get cid cache log rest

/-- The process. -/
def cleanFrom (m : Machine) (get : Cid → Option Bytes) (log : Log) (pos : At) : Option Process := (cleanRes m get log pos).map (mainEnd m)

/-- A result of `walk` which is no error of reading, and how `resolve` ends then. -/
def SameEnd : ResolveEnd → Res ResolveFail (Option Cid) → Prop
  | .done, .ok (some _) => True
  | .notFound, .ok none => True
  | .traversal e, .err (.Traversal e') => e = e'
  | .panic p, .panic p' => p = p'
  | _, _ => False

theorem main_clean {m : Machine} {name : Text} {arg dir : Bytes} {path : IpfsPath}
    (ha : IpfsPath.tryFrom (fun t => (Cid.ofText m.other t).toOption) arg = .ok path) (hd : m.ipfsPath = .ok dir) :
    resolveMain m name (some arg) = cleanFrom m (m.store dir) {} (.names path.root none path.path) := by
  simp only [resolveMain, Option.map_some, ha, hd, cleanFrom, cleanRes]
  cases resolveSegmentsLog m (m.store dir) path.root none {} path.path with
  | none => rfl
  | some x =>
    obtain ⟨r, log⟩ := x
    match r with
    | .ok (some c) => simp [mainEnd, endOf, Log.say, Log.says, ResolveEnd.says, ResolveEnd.code]
    | .ok none => rfl
    | .err .OpeningFailed => rfl
    | .err (.Traversal e) => simp [mainEnd, endOf, Log.say, Log.says, ResolveEnd.says, ResolveEnd.code]
    | .panic p => rfl

theorem cache_say (m : Machine) (log : Log) (cache : Option LookupCache) : log.cache m cache = log.say (sayCache m log cache) := by
  simp [Log.cache, sayCache, Log.say]

theorem eprint_say (log : Log) (t : Text) : log.eprint t = log.say (.err (t ++ lit "\n")) := by simp [Log.eprint, Log.say]

theorem clean_done (m : Machine) (get : Cid → Option Bytes) (log : Log) (root : Cid) (cache : Option LookupCache) :
    ∃ log', cleanRes m get log (.names root cache []) = some (.ok (some root), log') ∧
      mainEnd m (.ok (some root), log') = endOf m (log.says ((At.names root cache []).lines m log)) .done := by
  refine ⟨_, rfl, ?_⟩
  simp only [mainEnd, cache_say, At.lines, Log.says, List.foldl_cons, List.foldl_nil]

/-- One turn. -/
theorem clean_turn (m : Machine) (get : Cid → Option Bytes) (log : Log) (pos : At) (c : Cid) (h : pos.wants = some c) :
    (get c = none → cleanRes m get log pos = some (.err .OpeningFailed, log.says (pos.lines m log))) ∧
    ∀ block ls turn, get c = some block → pos.turn m (log.says (pos.lines m log)) block = (ls, turn) →
      (∀ e, turn = .stop e → ∃ r, cleanRes m get log pos = some (r, (log.says (pos.lines m log)).says ls) ∧ SameEnd e r ∧
        ∀ log', mainEnd m (r, log') = endOf m log' e) ∧
      ∀ next, turn = .go next → cleanRes m get log pos = cleanRes m get ((log.says (pos.lines m log)).says ls) next := by
  cases pos with
  | names root cache names =>
    cases names with
    | nil => cases h
    | cons segment rest =>
      cases h
      have hlog : (log.cache m cache).eprint (lit "reading " ++ shown c ++ lit " to resolve " ++ m.env.str segment) =
          log.says ((At.names c cache (segment :: rest)).lines m log) := by
        rw [cache_say, eprint_say]; rfl
      simp only [cleanRes, resolveSegmentsLog]
      rw [hlog]
      generalize log.says ((At.names c cache (segment :: rest)).lines m log) = log1
      refine ⟨fun hg => by rw [hg], fun block ls turn hg ht => ?_⟩
      rw [hg]
      simp only [At.turn] at ht ⊢
      cases hr : resolve block segment cache with
      | mk r cache' =>
        rw [hr] at ht
        match r with
        | .panic p => cases ht; exact ⟨fun e he => by cases he; exact ⟨_, rfl, rfl, fun _ => rfl⟩, nofun⟩
        | .err x => cases ht; exact ⟨fun e he => by cases he; exact ⟨_, rfl, rfl, fun _ => rfl⟩, nofun⟩
        | .ok .NotFound => cases ht; exact ⟨fun e he => by cases he; exact ⟨_, rfl, trivial, fun _ => rfl⟩, nofun⟩
        | .ok (.Found cid) =>
          cases ht
          refine ⟨nofun, fun next hn => ?_⟩
          cases hn
          simp only [cache_say, Log.says, List.foldl_cons, List.foldl_nil, Log.say, List.append_assoc]
        | .ok (.NeedToLoadMore walker) =>
          cases ht
          refine ⟨nofun, fun next hn => ?_⟩
          cases hn
          simp only [eprint_say, Log.says, List.foldl_cons, List.foldl_nil]
          cases resolveLoopLog m get segment c 1 _ walker cache' with
          | none => rfl
          | some x =>
            obtain ⟨r, c', log'⟩ := x
            match r with
            | .panic p => rfl
            | .err e => rfl
            | .ok none => rfl
            | .ok (some cid) => rfl
  | bucket segment root n walker cache rest =>
    simp only [At.wants] at h
    cases hp : walker.pendingLinks with
    | panic p => rw [hp] at h; cases h
    | err e => rw [hp] at h; cases h
    | ok fr =>
      obtain ⟨first, more⟩ := fr
      rw [hp] at h
      cases h
      have hlog : log.eprint (lit "  -> reading " ++ shown c ++ lit " while searching for " ++ m.env.str segment) =
          log.says ((At.bucket segment root n walker cache rest).lines m log) := by
        simp only [At.lines, hp]
        rw [eprint_say]; rfl
      simp only [cleanRes]
      rw [resolveLoopLog.eq_1, hp]
      simp only
      rw [hlog]
      generalize log.says ((At.bucket segment root n walker cache rest).lines m log) = log1
      refine ⟨fun hg => by rw [hg], fun block ls turn hg ht => ?_⟩
      rw [hg]
      simp only [At.turn] at ht ⊢
      cases hr : walker.continueWalk block cache with
      | mk r cache' =>
        rw [hr] at ht
        match r with
        | .panic p => cases ht; exact ⟨fun e he => by cases he; exact ⟨_, rfl, rfl, fun _ => rfl⟩, nofun⟩
        | .err x => cases ht; exact ⟨fun e he => by cases he; exact ⟨_, rfl, rfl, fun _ => rfl⟩, nofun⟩
        | .ok .NotFound =>
          cases ht
          refine ⟨fun e he => ?_, nofun⟩
          cases he
          refine ⟨.ok none, ?_, trivial, fun _ => rfl⟩
          simp only [cache_say, Log.says, List.foldl_cons, List.foldl_nil]
        | .ok (.Found cid) =>
          cases ht
          refine ⟨nofun, fun next hn => ?_⟩
          cases hn
          simp only [eprint_say, Log.says, List.foldl_cons, List.foldl_nil]
        | .ok (.NeedToLoadMore next) =>
          cases ht
          refine ⟨nofun, fun next hn => ?_⟩
          cases hn
          rfl

/-- Where the next block is not known. -/
theorem clean_pending (m : Machine) (get : Cid → Option Bytes) (log : Log) {segment root n walker cache rest p}
    (h : walker.pendingLinks = .panic p) : cleanRes m get log (.bucket segment root n walker cache rest) = some (.panic p, log) := by
  simp only [cleanRes]
  rw [resolveLoopLog.eq_1, h]

theorem endOf_grows (m : Machine) (log : Log) (e : ResolveEnd) : utf8 log.out <+: (endOf m log e).stdout ∧ log.err <+: (endOf m log e).stderr :=
  ⟨utf8_mono (grows_says _ _).1, (grows_says _ _).2⟩

theorem mainEnd_grows (m : Machine) (x : Res ResolveFail (Option Cid) × Log) :
    utf8 x.2.out <+: (mainEnd m x).stdout ∧ x.2.err <+: (mainEnd m x).stderr := by
  obtain ⟨r, log⟩ := x
  match r with
  | .ok (some cid) =>
    have := endOf_grows m (log.say (.out (shown cid ++ lit "\n"))) .done
    have h2 := grows_say log (.out (shown cid ++ lit "\n"))
    exact ⟨(utf8_mono h2.1).trans this.1, h2.2.trans this.2⟩
  | .ok none => exact endOf_grows _ _ _
  | .err .OpeningFailed => exact endOf_grows _ _ _
  | .err (.Traversal e) => exact endOf_grows _ _ _
  | .panic p => exact endOf_grows _ _ _

theorem grows_cache (m : Machine) (log : Log) (cache : Option LookupCache) : LogGrows log (log.cache m cache) := by
  rw [cache_say]; exact grows_say _ _

theorem grows_eprint (log : Log) (t : Text) : LogGrows log (log.eprint t) := by rw [eprint_say]; exact grows_say _ _

theorem loop_grows {m : Machine} {get : Cid → Option Bytes} {segment : Bytes} {root : Cid} (n : Nat) (log : Log) (w : ShardedLookup)
    (cache : Option LookupCache) (x) (h : resolveLoopLog m get segment root n log w cache = some x) : LogGrows log x.2.2 := by
  refine resolveLoopLog.partial_correctness m get segment root (fun n log w cache x => LogGrows log x.2.2) ?_ n log w cache x h
  intro rec ih n log w cache x hx
  cases hp : w.pendingLinks with
  | panic p => rw [hp] at hx; cases hx; exact .refl _
  | err e => rw [hp] at hx; cases hx; exact .refl _
  | ok fl =>
    obtain ⟨first, more⟩ := fl
    rw [hp] at hx
    simp only at hx
    have hg1 := grows_eprint log (lit "  -> reading " ++ shown first ++ lit " while searching for " ++ m.env.str segment)
    generalize log.eprint (lit "  -> reading " ++ shown first ++ lit " while searching for " ++ m.env.str segment) = log1 at hx hg1
    cases hg : get first with
    | none => rw [hg] at hx; cases hx; exact hg1
    | some block =>
      rw [hg] at hx
      simp only at hx
      cases hc : w.continueWalk block cache with
      | mk r cache' =>
        rw [hc] at hx
        match r with
        | .panic p => cases hx; exact hg1
        | .err e => cases hx; exact hg1
        | .ok .NotFound => cases hx; exact hg1.trans (grows_cache _ _ _)
        | .ok (.Found cid) => cases hx; exact hg1.trans (grows_eprint _ _)
        | .ok (.NeedToLoadMore next) => exact hg1.trans (ih _ _ _ _ _ hx)

theorem segments_grows {m : Machine} {get : Cid → Option Bytes} : ∀ (names : List Bytes) (root : Cid) (cache : Option LookupCache) (log : Log) (x),
    resolveSegmentsLog m get root cache log names = some x → LogGrows log x.2
  | [], root, cache, log, x, h => by
    cases h
    exact grows_cache _ _ _
  | segment :: rest, root, cache, log, x, h => by
    rw [resolveSegmentsLog] at h
    simp only at h
    have hg1 := (grows_cache m log cache).trans (grows_eprint (log.cache m cache) (lit "reading " ++ shown root ++ lit " to resolve " ++ m.env.str segment))
    generalize (log.cache m cache).eprint (lit "reading " ++ shown root ++ lit " to resolve " ++ m.env.str segment) = log1 at h hg1
    cases hg : get root with
    | none => rw [hg] at h; cases h; exact hg1
    | some block =>
      rw [hg] at h
      simp only at h
      cases hr : resolve block segment cache with
      | mk r cache' =>
        rw [hr] at h
        match r with
        | .panic p => cases h; exact hg1
        | .err e => cases h; exact hg1
        | .ok .NotFound => cases h; exact hg1
        | .ok (.Found cid) =>
          have := segments_grows _ _ _ _ _ h
          refine hg1.trans (LogGrows.trans ?_ ((grows_cache m _ cache').trans this))
          exact ⟨by simp only [List.append_assoc]; exact List.prefix_append _ _, List.prefix_refl _⟩
        | .ok (.NeedToLoadMore w) =>
          simp only at h
          cases hl : resolveLoopLog m get segment root 1 (log1.eprint (lit "walking " ++ shown root ++ lit " on " ++ m.env.str segment)) w cache' with
          | none => rw [hl] at h; cases h
          | some y =>
            have h1 := hg1.trans ((grows_eprint _ _).trans (loop_grows _ _ _ _ _ hl))
            rw [hl] at h
            obtain ⟨r, c', log'⟩ := y
            match r with
            | .panic p => cases h; exact h1
            | .err e => cases h; exact h1
            | .ok none => cases h; exact h1
            | .ok (some cid) => exact h1.trans (segments_grows _ _ _ _ _ h)

theorem clean_grows {m : Machine} {get : Cid → Option Bytes} {log : Log} {pos : At} {x} (h : cleanRes m get log pos = some x) :
    LogGrows log x.2 := by
  cases pos with
  | names root cache names => exact segments_grows _ _ _ _ _ h
  | bucket segment root n walker cache rest =>
    simp only [cleanRes] at h
    cases hl : resolveLoopLog m get segment root n log walker cache with
    | none => rw [hl] at h; cases h
    | some y =>
      rw [hl] at h
      have h1 := loop_grows _ _ _ _ _ hl
      obtain ⟨r, c', log'⟩ := y
      match r with
      | .panic p => cases h; exact h1
      | .err e => cases h; exact h1
      | .ok none => cases h; exact h1
      | .ok (some cid) => exact h1.trans (segments_grows _ _ _ _ _ h)

/-! ### with failures -/

theorem ended_cache (m : Machine) (log : Log) (cache : Option LookupCache) : ∃ u, sayCache m log cache = .out (u ++ lit "\n") := ⟨_, rfl⟩

theorem ended_lines (m : Machine) (log : Log) (pos : At) : Ended (pos.lines m log) := by
  intro t ht
  cases pos with
  | names root cache names =>
    cases names with
    | nil =>
      simp only [At.lines, List.mem_cons, List.not_mem_nil, or_false] at ht
      rcases ht with ht | ht
      · obtain ⟨u, hu⟩ := ended_cache m log cache
        rw [hu] at ht; cases ht; exact ⟨u, rfl⟩
      · cases ht; exact ⟨_, rfl⟩
    | cons segment rest =>
      simp only [At.lines, List.mem_cons, List.not_mem_nil, or_false] at ht
      rcases ht with ht | ht
      · obtain ⟨u, hu⟩ := ended_cache m log cache
        rw [hu] at ht; cases ht; exact ⟨u, rfl⟩
      · cases ht
  | bucket segment root n walker cache rest =>
    simp only [At.lines] at ht
    split at ht
    · cases List.mem_singleton.1 ht
    · cases ht

theorem ended_turn (m : Machine) (log : Log) (pos : At) (block : Bytes) : Ended (pos.turn m log block).1 := by
  intro t ht
  cases pos with
  | names root cache names =>
    cases names with
    | nil => cases ht
    | cons segment rest =>
      simp only [At.turn] at ht
      split at ht
      · cases ht
      · cases ht
      · simp only [List.mem_cons, List.not_mem_nil, or_false] at ht
        rcases ht with ht | ht
        · cases ht; exact ⟨_, rfl⟩
        · obtain ⟨u, hu⟩ := ended_cache m (log.say (.out (lit "got lucky: found " ++ shown _ ++ lit " for " ++ m.env.str segment ++ lit "\n"))) _
          rw [hu] at ht; cases ht; exact ⟨u, rfl⟩
      · cases ht
      · cases List.mem_singleton.1 ht
  | bucket segment root n walker cache rest =>
    simp only [At.turn] at ht
    split at ht
    · cases ht
    · cases ht
    · have ht := List.mem_singleton.1 ht
      obtain ⟨u, hu⟩ := ended_cache m log _
      rw [hu] at ht; cases ht; exact ⟨u, rfl⟩
    · cases List.mem_singleton.1 ht
    · cases ht

theorem ended_says (m : Machine) (e : ResolveEnd) : Ended (e.says m) := by
  intro t ht
  cases e <;> simp [ResolveEnd.says] at ht

/-- What is said at the end goes to standard error only. -/
theorem says_out (m : Machine) (e : ResolveEnd) {s s' : Streams} {b} (h : Says (e.says m) s b s') : s'.out = s.out := by
  have : ∀ ls, (∀ t, Say.out t ∉ ls) → ∀ s b s', Says ls s b s' → s'.out = s.out := by
    intro ls hn s b s' h
    induction h with
    | none s => rfl
    | outFail _ => exact absurd List.mem_cons_self (hn _)
    | out _ _ => exact absurd List.mem_cons_self (hn _)
    | errFail _ => rfl
    | err _ ih => exact ih (fun t ht => hn t (List.mem_cons_of_mem _ ht))
  refine this _ (fun t ht => ?_) _ _ _ h
  cases e <;> simp [ResolveEnd.says] at ht

/-- What a run has to do with one without failures. -/
structure ResolveAgrees (m : Machine) (s' : Streams) (e : ResolveEnd) (o : Option (Res ResolveFail (Option Cid) × Log)) : Prop where
  part : ∀ x, o = some x → s'.out.arrived ++ s'.out.buffered <+: (mainEnd m x).stdout
  own : (e.code = 0 ∨ (∃ x, e = .traversal x) ∨ ∃ p, e = .panic p) → ∃ r log, o = some (r, log) ∧ SameEnd e r ∧
    s'.out = ⟨(mainEnd m (r, log)).stdout, []⟩ ∧ ((∀ p, e ≠ .panic p) → s'.err = utf8 (mainEnd m (r, log)).stderr) ∧
    e.code = (mainEnd m (r, log)).code

theorem part_of {m : Machine} {get : Cid → Option Bytes} {log : Log} {pos : At} {s' : Streams} {l : Log} {x} (_ : cleanRes m get log pos = some x)
    (hw : Within s' l) (hl : LogGrows l x.2) : s'.out.arrived ++ s'.out.buffered <+: (mainEnd m x).stdout := by
  exact hw.out.trans ((utf8_mono hl.1).trans (mainEnd_grows m x).1)

theorem stops_out {m : Machine} {x : ResolveEnd} {s s' : Streams} {e} (h : Stops m x s s' e) : s'.out = s.out := by
  cases h with
  | said h => exact says_out m _ h
  | silent h _ => exact says_out m _ h
  | fail h _ => exact says_out m _ h

/-- The run stops with `x`, which is what comes without failures. -/
theorem stops_own {m : Machine} {x e : ResolveEnd} {s s' : Streams} {log : Log} {r} (h : Stops m x s s' e) (hl : InStep log s) (hs : SameEnd x r)
    (he : mainEnd m (r, log) = endOf m log x) : ResolveAgrees m s' e (some (r, log)) := by
  have ho : (endOf m log x).stdout = utf8 log.out := by
    unfold endOf
    cases x <;> rfl
  have hout : s'.out = ⟨(endOf m log x).stdout, []⟩ := by rw [stops_out h, ho, hl]
  constructor
  · intro y hy
    cases hy
    rw [he, hout]; simp
  · intro ho
    cases h with
    | said h =>
      refine ⟨r, log, rfl, hs, by rw [he]; exact hout, fun _ => ?_, by rw [he]; rfl⟩
      rw [he, says_true h rfl (ended_says m _) log hl]; rfl
    | silent h hp => exact ⟨r, log, rfl, hs, by rw [he]; exact hout, fun hn => by obtain ⟨p, hp⟩ := hp; exact absurd hp (hn p), by rw [he]; rfl⟩
    | fail _ _ =>
      rcases ho with ho | ⟨_, ho⟩ | ⟨_, ho⟩ <;> cases ho

theorem resolveRun_agrees {m : Machine} {get : Cid → Option Bytes} {pos log s s' e} (h : ResolveRun m get pos log s s' e) :
    InStep log s → ResolveAgrees m s' e (cleanRes m get log pos) := by
  -- what was said before the block is read is said without failures as well
  have grown : ∀ {pos : At} {log : Log} {c x}, pos.wants = some c → cleanRes m get log pos = some x → LogGrows (log.says (pos.lines m log)) x.2 := by
    intro pos log c x hw hx
    obtain ⟨h1, h2⟩ := clean_turn m get log pos c hw
    cases hg : get c with
    | none => rw [h1 hg] at hx; cases hx; exact .refl _
    | some block =>
      obtain ⟨h3, h4⟩ := h2 block _ _ hg rfl
      cases ht : (pos.turn m (log.says (pos.lines m log)) block).2 with
      | stop e =>
        obtain ⟨r, h5, -, -⟩ := h3 e ht
        rw [h5] at hx; cases hx
        exact grows_says _ _
      | go next =>
        rw [h4 next ht] at hx
        exact (grows_says _ _).trans (clean_grows hx)
  have foreign : ∀ {x : ResolveEnd} {s1 s2 e}, Stops m x s1 s2 e → (x.code = 1 ∧ ∀ y, x ≠ .traversal y) →
      ¬ (e.code = 0 ∨ (∃ x, e = .traversal x) ∨ ∃ p, e = .panic p) := by
    intro x s1 s2 e h hx ho
    have : e = x ∨ e = .print := by
      cases h with
      | said _ => exact .inl rfl
      | silent _ _ => exact .inl rfl
      | fail _ _ => exact .inr rfl
    rcases this with rfl | rfl
    · rcases ho with ho | ⟨_, ho⟩ | ⟨_, rfl⟩
      · rw [hx.1] at ho; cases ho
      · exact hx.2 _ ho
      · cases hx.1
    · rcases ho with ho | ⟨_, ho⟩ | ⟨_, ho⟩ <;> cases ho
  induction h with
  | @before pos log s s' hs =>
    intro hl
    have hw := says_false hs rfl (ended_lines m log pos) log hl
    refine ⟨fun x hx => ?_, by rintro (ho | ⟨_, ho⟩ | ⟨_, ho⟩) <;> cases ho⟩
    cases hc : pos.wants with
    | some c => exact part_of hx hw (grown hc hx)
    | none =>
      cases pos with
      | names root cache names =>
        cases names with
        | nil =>
          obtain ⟨log', h1, h2⟩ := clean_done m get log root cache
          rw [h1] at hx; cases hx
          rw [h2]; exact hw.out
        | cons segment rest => cases hc
      | bucket segment root n walker cache rest =>
        refine part_of hx (l := log) ?_ (clean_grows hx)
        have : (At.bucket segment root n walker cache rest).lines m log = [] := by
          simp only [At.wants, At.lines] at hc ⊢
          cases hp : walker.pendingLinks with
          | ok fr => rw [hp] at hc; cases hc
          | err _ => rfl
          | panic _ => rfl
        rw [this] at hw; exact hw
  | @done root cache log s s' hs =>
    intro hl
    have hi := says_true hs rfl (ended_lines m log _) log hl
    obtain ⟨log', h1, h2⟩ := clean_done m get log root cache
    rw [h1]
    constructor
    · intro y hy
      cases hy
      rw [h2, hi]; simp [endOf, ResolveEnd.says, Log.says]
    · intro _
      refine ⟨_, _, rfl, trivial, ?_, fun _ => ?_, ?_⟩
      · rw [h2, hi]; rfl
      · rw [h2, hi]; rfl
      · rw [h2]; rfl
  | @pending segment root n walker cache rest log s s' p e hp hs =>
    intro hl
    rw [clean_pending m get log hp]
    exact stops_own hs hl rfl rfl
  | @opening pos log s c s1 t s' e hw hs ht =>
    intro hl
    have hi := says_true hs rfl (ended_lines m log pos) log hl
    refine ⟨fun x hx => ?_, fun ho => absurd ho (foreign ht ⟨rfl, nofun⟩)⟩
    rw [stops_out ht]
    exact part_of hx hi.within (grown hw hx)
  | @reading pos log s c s1 t s' e hw hs ht =>
    intro hl
    have hi := says_true hs rfl (ended_lines m log pos) log hl
    refine ⟨fun x hx => ?_, fun ho => absurd ho (foreign ht ⟨rfl, nofun⟩)⟩
    rw [stops_out ht]
    exact part_of hx hi.within (grown hw hx)
  | @after pos log s c block s1 ls turn s' hw hs hg ht hs2 =>
    intro hl
    have hi := says_true hs rfl (ended_lines m log pos) log hl
    have he : Ended ls := by have := ended_turn m (log.says (pos.lines m log)) pos block; rw [ht] at this; exact this
    have hf := says_false hs2 rfl he _ hi
    refine ⟨fun x hx => ?_, by rintro (ho | ⟨_, ho⟩ | ⟨_, ho⟩) <;> cases ho⟩
    obtain ⟨h3, h4⟩ := (clean_turn m get log pos c hw).2 block _ _ hg ht
    cases turn with
    | stop e =>
      obtain ⟨r, h5, -, -⟩ := h3 e rfl
      exact part_of hx hf (by rw [h5] at hx; cases hx; exact .refl _)
    | go next => exact part_of hx hf (by rw [h4 next rfl] at hx; exact clean_grows hx)
  | @stop pos log s c block s1 ls x s2 s' e hw hs hg ht hs2 hst =>
    intro hl
    have hi := says_true hs rfl (ended_lines m log pos) log hl
    have he : Ended ls := by have := ended_turn m (log.says (pos.lines m log)) pos block; rw [ht] at this; exact this
    have hj := says_true hs2 rfl he _ hi
    obtain ⟨r, h5, h6, h7⟩ := ((clean_turn m get log pos c hw).2 block _ _ hg ht).1 x rfl
    rw [h5]
    exact stops_own hst hj h6 (h7 _)
  | @next pos log s c block s1 ls next s2 s' e hw hs hg ht hs2 _ ih =>
    intro hl
    have hi := says_true hs rfl (ended_lines m log pos) log hl
    have he : Ended ls := by have := ended_turn m (log.says (pos.lines m log)) pos block; rw [ht] at this; exact this
    have hj := says_true hs2 rfl he _ hi
    rw [((clean_turn m get log pos c hw).2 block _ _ hg ht).2 next rfl]
    exact ih hj

/-- The `walk` without failures. -/
theorem cleanRes_walk (m : Machine) (get : Cid → Option Bytes) (path : IpfsPath) :
    resolveWalk get path = (cleanRes m get {} (.names path.root none path.path)).map (·.1) := by
  have hs := segments_log m get path.path path.root none {}
  unfold resolveWalk
  simp only [cleanRes]
  revert hs
  cases resolveSegments get path.root none path.path with
  | none => intro hs; rw [hs]; rfl
  | some r => rintro ⟨log', h1, -⟩; rw [h1]; rfl

theorem inStep_start : InStep {} {} := rfl

/-- Whatever fails during a run of `resolve`: what arrives at standard output is a beginning of what would have been written without failures. The exit
code is 0 only if it would have been 0 anyway, and then all of both outputs arrived. An error of resolving or a panic other than that of
`println!` and `eprintln!` only happens if it would have happened anyway. If the run without failures never ends, no run ends but by a failure. -/
theorem C136_resolve (m : Machine) (name : Text) (arg dir : Bytes) (path : IpfsPath)
    (ha : IpfsPath.tryFrom (fun t => (Cid.ofText m.other t).toOption) arg = .ok path) (hd : m.ipfsPath = .ok dir)
    (arrived err : Bytes) (e : ResolveEnd) (hrun : ResolveRuns m (m.store dir) path arrived err e) :
    (∀ p, resolveMain m name (some arg) = some p → arrived <+: p.stdout ∧
      (e.code = 0 → p.code = 0 ∧ arrived = p.stdout ∧ err = utf8 p.stderr) ∧
      (e.code = 101 → e = .print ∨ p.code = 101)) ∧
    (∀ x, e = .traversal x → resolveWalk (m.store dir) path = some (.err (.Traversal x))) ∧
    (∀ x, e = .panic x → resolveWalk (m.store dir) path = some (.panic x)) ∧
    (resolveMain m name (some arg) = none → (∃ t, e = .opening t) ∨ (∃ t, e = .other t) ∨ e = .print) := by
  obtain ⟨s, h1, ⟨h2, h3⟩, rfl⟩ := hrun
  have hag := resolveRun_agrees h1 inStep_start
  rw [main_clean ha hd, cleanRes_walk m, cleanFrom]
  generalize cleanRes m (m.store dir) {} (.names path.root none path.path) = o at hag ⊢
  refine ⟨fun p hp => ?_, ?_, ?_, ?_⟩
  · obtain ⟨x, rfl, rfl⟩ := Option.map_eq_some_iff.1 hp
    refine ⟨h3.trans (hag.part _ rfl), fun hc => ?_, fun hc => ?_⟩
    · obtain ⟨r, log, g1, g2, g3, g4, g5⟩ := hag.own (.inl hc)
      cases g1
      refine ⟨g5 ▸ hc, ?_, g4 (by rintro p rfl; cases hc)⟩
      rw [g3] at h2 h3
      simp only [List.append_nil] at h3
      exact h3.eq_of_length (Nat.le_antisymm h3.length_le h2.length_le)
    · cases e with
      | print => exact .inl rfl
      | panic x =>
        obtain ⟨r, log, g1, g2, g3, g4, g5⟩ := hag.own (.inr (.inr ⟨_, rfl⟩))
        cases g1
        exact .inr g5.symm
      | _ => cases hc
  · rintro x rfl
    obtain ⟨r, log, rfl, g2, -⟩ := hag.own (.inr (.inl ⟨_, rfl⟩))
    match r, g2 with
    | .err (.Traversal y), g2 => cases g2; rfl
  · rintro x rfl
    obtain ⟨r, log, rfl, g2, -⟩ := hag.own (.inr (.inr ⟨_, rfl⟩))
    match r, g2 with
    | .panic y, g2 => cases g2; rfl
  · intro hn
    have hn : o = none := Option.map_eq_none_iff.1 hn
    subst hn
    cases e with
    | opening t => exact .inl ⟨t, rfl⟩
    | other t => exact .inr (.inl ⟨t, rfl⟩)
    | print => exact .inr (.inr rfl)
    | done => obtain ⟨r, log, g1, -⟩ := hag.own (.inl rfl); cases g1
    | notFound => obtain ⟨r, log, g1, -⟩ := hag.own (.inl rfl); cases g1
    | traversal x => obtain ⟨r, log, g1, -⟩ := hag.own (.inr (.inl ⟨_, rfl⟩)); cases g1
    | panic x => obtain ⟨r, log, g1, -⟩ := hag.own (.inr (.inr ⟨_, rfl⟩)); cases g1

/-- `resolve` which exits with 0, whatever else failed to happen: the path was resolved. If it leads somewhere, the last line which arrived at
standard output is the Cid; if it leads nowhere, the last line at standard error is `not found`. -/
theorem C136_result (m : Machine) (arg dir : Bytes) (path : IpfsPath)
    (ha : IpfsPath.tryFrom (fun t => (Cid.ofText m.other t).toOption) arg = .ok path) (hd : m.ipfsPath = .ok dir)
    (arrived err : Bytes) (e : ResolveEnd) (hrun : ResolveRuns m (m.store dir) path arrived err e) (hc : e.code = 0) :
    (∃ c, resolveWalk (m.store dir) path = some (.ok (some c)) ∧ LastLine arrived c.text) ∨
    (resolveWalk (m.store dir) path = some (.ok none) ∧ asciiOf "not found\n" <:+ err ∧ ∀ c : Cid, ¬ LastLine arrived c.text) := by
  obtain ⟨g1, g2⟩ := resolve_run (name := []) ha hd
  have hm := C136_resolve m [] arg dir path ha hd arrived err e hrun
  cases hr : resolveWalk (m.store dir) path with
  | none => rcases hm.2.2.2 (g1 hr) with ⟨_, rfl⟩ | ⟨_, rfl⟩ | rfl <;> cases hc
  | some r =>
    obtain ⟨lines, p, h1, h2, h3, h4, h5, h6, h7⟩ := g2 r hr
    obtain ⟨-, k1, -⟩ := hm.1 p h3
    obtain ⟨k2, rfl, rfl⟩ := k1 hc
    have hl := C105_last_line m [] arg dir path ha hd p h3
    match r with
    | .ok (some c) =>
      refine .inl ⟨c, rfl, ?_⟩
      obtain ⟨c', -, h⟩ := (hl c.text).2 ⟨c, rfl, hr⟩
      exact h
    | .ok none =>
      refine .inr ⟨rfl, ?_, fun c h => ?_⟩
      · obtain ⟨t, ht⟩ := (h5 rfl).2.2
        rw [← ht, utf8_append]
        exact ⟨utf8 t, by congr 1⟩
      · obtain ⟨c', -, h'⟩ := (hl c.text).1 ⟨c, rfl, h⟩
        rw [hr] at h'; cases h'
    | .err x => rw [(h6 x rfl).2] at k2; cases k2
    | .panic x => rw [(h7 x rfl).2] at k2; cases k2

/-! ### lines -/

theorem line_split {x y b d : Bytes} (hx : (10 : UInt8) ∉ x) (hy : (10 : UInt8) ∉ y) (h : x ++ 10 :: b = y ++ 10 :: d) : x = y ∧ b = d := by
  rcases List.append_eq_append_iff.1 h with ⟨t, h1, h2⟩ | ⟨t, h1, h2⟩
  · cases t with
    | nil => simp at h1 h2; exact ⟨h1.symm, h2⟩
    | cons z t => cases h2; exact absurd (by rw [h1]; simp) hy
  · cases t with
    | nil => simp at h1 h2; exact ⟨h1, h2.symm⟩
    | cons z t => cases h2; exact absurd (by rw [h1]; simp) hx

/-- A complete line of some lines is one of them. -/
theorem line_of {x b : Bytes} (hx : (10 : UInt8) ∉ x) : ∀ (lines : List Text), (∀ l ∈ lines, '\n' ∉ l) → ∀ a : Bytes,
    (a = [] ∨ [10] <:+ a) → asLines lines = a ++ x ++ [10] ++ b → ∃ l ∈ lines, x = encodeText l
  | [], _, a, _, h => by
    have := congrArg List.length h
    simp [asLines] at this
  | l :: ls, hl, a, ha, h => by
    have hn := newline_bytes (hl l List.mem_cons_self)
    have h : encodeText l ++ 10 :: asLines ls = a ++ (x ++ 10 :: b) := by
      rw [show asLines (l :: ls) = encodeText l ++ 10 :: asLines ls by simp [asLines]; rfl] at h
      rw [h]; simp
    rcases ha with rfl | ⟨a', rfl⟩
    · exact ⟨l, List.mem_cons_self, (line_split hn hx h).1.symm⟩
    · have h : encodeText l ++ 10 :: asLines ls = a' ++ 10 :: (x ++ 10 :: b) := by rw [h]; simp
      have go : ∀ a2 : Bytes, (a2 = [] ∨ [10] <:+ a2) → asLines ls = a2 ++ (x ++ 10 :: b) → ∃ k ∈ l :: ls, x = encodeText k := by
        intro a2 h2 h3
        obtain ⟨k, hk, hx⟩ := line_of (b := b) hx ls (fun k hk => hl k (List.mem_cons_of_mem _ hk)) a2 h2 (by rw [h3]; simp only [List.append_assoc, List.singleton_append])
        exact ⟨k, List.mem_cons_of_mem _ hk, hx⟩
      rcases List.append_eq_append_iff.1 h with ⟨t, h1, h2⟩ | ⟨t, h1, h2⟩
      · cases t with
        | nil => simp at h2; exact go [] (.inl rfl) h2
        | cons z t =>
          rw [List.cons_append] at h2
          injection h2 with _ h2
          exact go (t ++ [10]) (.inr ⟨t, rfl⟩) (by rw [h2]; simp)
      · cases t with
        | nil => simp at h2; exact go [] (.inl rfl) h2.symm
        | cons z t =>
          rw [List.cons_append] at h2
          injection h2 with h2 _
          exact absurd (by rw [h1, h2]; simp) hn

/-- Whatever fails: if a complete line which arrived at standard output is the text of a Cid, this is what the path leads to. -/
theorem C136_line (m : Machine) (name : Text) (arg dir : Bytes) (path : IpfsPath)
    (ha : IpfsPath.tryFrom (fun t => (Cid.ofText m.other t).toOption) arg = .ok path) (hd : m.ipfsPath = .ok dir)
    (arrived err : Bytes) (e : ResolveEnd) (hrun : ResolveRuns m (m.store dir) path arrived err e) (hp : resolveMain m name (some arg) ≠ none)
    (a b : Bytes) (c : Cid) (hline : arrived = a ++ c.text ++ [10] ++ b) (hstart : a = [] ∨ [10] <:+ a) :
    ∃ c' : Cid, c'.text = c.text ∧ resolveWalk (m.store dir) path = some (.ok (some c')) := by
  obtain ⟨g1, g2⟩ := resolve_run (name := name) ha hd
  have hm := C136_resolve m name arg dir path ha hd arrived err e hrun
  cases hr : resolveWalk (m.store dir) path with
  | none => exact absurd (g1 hr) hp
  | some r =>
    obtain ⟨lines, p, h1, h2, h3, h4, h5, h6, h7⟩ := g2 r hr
    obtain ⟨⟨rest, hrest⟩, -, -⟩ := hm.1 p h3
    have chat : p.stdout = asLines lines → ∃ c' : Cid, c'.text = c.text ∧ some r = some (.ok (some c')) := by
      intro h
      obtain ⟨l, hl, hx⟩ := line_of (newline_text c) lines (fun l hl => (h2 l hl).1) a hstart (b := b ++ rest)
        (by rw [← h, ← hrest, hline]; simp)
      exact absurd hx.symm (chatter_text (h2 l hl) c)
    match r with
    | .ok (some c') =>
      have h : asLines (lines ++ [shown c']) = p.stdout := by
        rw [(h4 c' rfl).1, asLines_append, List.append_assoc]
        congr 1
        rw [← utf8_shown]
        simp [asLines, utf8_encodeText]
        rfl
      obtain ⟨l, hl, hx⟩ := line_of (newline_text c) (lines ++ [shown c'])
        (fun l hl => by
          rcases List.mem_append.1 hl with hl | hl
          · exact (h2 l hl).1
          · rw [List.mem_singleton.1 hl]; exact newline_shown c') a hstart (b := b ++ rest)
        (by rw [h, ← hrest, hline]; simp)
      rcases List.mem_append.1 hl with hl | hl
      · exact absurd hx.symm (chatter_text (h2 l hl) c)
      · refine ⟨c', ?_, rfl⟩
        rw [hx, List.mem_singleton.1 hl, ← utf8_encodeText, utf8_shown]
    | .ok none => exact chat (h5 rfl).1
    | .err x => exact chat (h6 x rfl).1
    | .panic x => exact chat (h7 x rfl).1

/-! ### a run in which nothing fails -/

/-- There is a run from here on which ends like this. -/
def CleanRun (m : Machine) (get : Cid → Option Bytes) (pos : At) (log : Log) (x : Res ResolveFail (Option Cid) × Log) : Prop :=
  ∀ s, InStep log s → ∃ s' e, ResolveRun m get pos log s s' e ∧ s' = ⟨⟨(mainEnd m x).stdout, []⟩, utf8 (mainEnd m x).stderr⟩ ∧
    e.code = (mainEnd m x).code

theorem stops_clean (m : Machine) (x : ResolveEnd) (log : Log) (s : Streams) (h : InStep log s) :
    ∃ s', Stops m x s s' x ∧ s' = ⟨⟨(endOf m log x).stdout, []⟩, utf8 (endOf m log x).stderr⟩ := by
  obtain ⟨s', h1, h2⟩ := says_all (x.says m) log s h (ended_says m x)
  exact ⟨s', .said h1, h2⟩

theorem clean_step {m : Machine} {get : Cid → Option Bytes} {pos : At} {log : Log} {c x} (hw : pos.wants = some c)
    (hx : cleanRes m get log pos = some x)
    (hn : ∀ block ls next, get c = some block → pos.turn m (log.says (pos.lines m log)) block = (ls, .go next) →
      CleanRun m get next ((log.says (pos.lines m log)).says ls) x) : CleanRun m get pos log x := by
  intro s hs
  obtain ⟨s1, h1, h2⟩ := says_all (pos.lines m log) log s hs (ended_lines m log pos)
  obtain ⟨t1, t2⟩ := clean_turn m get log pos c hw
  cases hg : get c with
  | none =>
    rw [t1 hg] at hx
    cases hx
    obtain ⟨s', h3, h4⟩ := stops_clean m (.opening m.openError) _ s1 h2
    exact ⟨s', _, .opening hw h1 h3, h4, rfl⟩
  | some block =>
    cases ht : pos.turn m (log.says (pos.lines m log)) block with
    | mk ls turn =>
      have he : Ended ls := by have := ended_turn m (log.says (pos.lines m log)) pos block; rw [ht] at this; exact this
      obtain ⟨s2, h3, h4⟩ := says_all ls _ s1 h2 he
      cases turn with
      | stop e =>
        obtain ⟨r, h5, -, h6⟩ := (t2 block ls _ hg ht).1 e rfl
        rw [h5] at hx
        cases hx
        obtain ⟨s', h7, h8⟩ := stops_clean m e _ s2 h4
        rw [← h6] at h8
        exact ⟨s', _, .stop hw h1 hg ht h3 h7, h8, by rw [h6]; rfl⟩
      | go next =>
        obtain ⟨s', e, h5, h6⟩ := hn block ls next hg ht s2 h4
        exact ⟨s', e, .next hw h1 hg ht h3 h5, h6⟩

theorem clean_bucket {m : Machine} {get : Cid → Option Bytes} {segment : Bytes} {root : Cid} {rest : List Bytes}
    (H : ∀ root cache log x, resolveSegmentsLog m get root cache log rest = some x → CleanRun m get (.names root cache rest) log x)
    (n : Nat) (log : Log) (w : ShardedLookup) (cache : Option LookupCache) (y) (h : resolveLoopLog m get segment root n log w cache = some y) :
    ∀ x, cleanRes m get log (.bucket segment root n w cache rest) = some x → CleanRun m get (.bucket segment root n w cache rest) log x := by
  refine resolveLoopLog.partial_correctness m get segment root (fun n log w cache _ => ∀ x,
    cleanRes m get log (.bucket segment root n w cache rest) = some x → CleanRun m get (.bucket segment root n w cache rest) log x) ?_ n log w cache y h
  intro rec ih n log w cache y hy x hx
  cases hp : w.pendingLinks with
  | panic p =>
    rw [clean_pending m get log hp] at hx
    cases hx
    intro s hs
    obtain ⟨s', h3, h4⟩ := stops_clean m (.panic p) _ s hs
    exact ⟨s', _, .pending hp h3, h4, rfl⟩
  | err e => unfold ShardedLookup.pendingLinks at hp; split at hp <;> cases hp
  | ok fl =>
    obtain ⟨first, more⟩ := fl
    have hw : (At.bucket segment root n w cache rest).wants = some first := by simp only [At.wants, hp]
    refine clean_step hw hx ?_
    intro block ls next hg ht
    have hgo := ((clean_turn m get log _ first hw).2 block _ _ hg ht).2 next rfl
    rw [hx] at hgo
    have hl : log.eprint (lit "  -> reading " ++ shown first ++ lit " while searching for " ++ m.env.str segment) =
        log.says ((At.bucket segment root n w cache rest).lines m log) := by
      simp only [At.lines, hp]
      rw [eprint_say]; rfl
    rw [hp] at hy
    simp only [hl, hg] at hy
    generalize log.says ((At.bucket segment root n w cache rest).lines m log) = log1 at hy ht hgo ⊢
    simp only [At.turn] at ht
    cases hc : w.continueWalk block cache with
    | mk r cache' =>
      rw [hc] at ht hy
      match r with
      | .panic p => cases ht
      | .err e => cases ht
      | .ok .NotFound => cases ht
      | .ok (.Found cid) =>
        cases ht
        exact H _ _ _ _ hgo.symm
      | .ok (.NeedToLoadMore next) =>
        cases ht
        exact ih _ _ _ _ _ hy _ hgo.symm

theorem clean_names {m : Machine} {get : Cid → Option Bytes} : ∀ (names : List Bytes) (root : Cid) (cache : Option LookupCache) (log : Log) (x),
    resolveSegmentsLog m get root cache log names = some x → CleanRun m get (.names root cache names) log x
  | [], root, cache, log, x, h => by
    intro s hs
    obtain ⟨log', h1, h2⟩ := clean_done m get log root cache
    have h : cleanRes m get log (.names root cache []) = some x := h
    rw [h1] at h
    cases h
    obtain ⟨s1, h3, h4⟩ := says_all _ log s hs (ended_lines m log (.names root cache []))
    exact ⟨s1, _, .done h3, by rw [h2]; exact h4, by rw [h2]; rfl⟩
  | segment :: rest, root, cache, log, x, h => by
    refine clean_step (c := root) rfl h ?_
    intro block ls next hg ht
    have hgo := ((clean_turn m get log (.names root cache (segment :: rest)) root rfl).2 block _ _ hg ht).2 next rfl
    have h : cleanRes m get log (.names root cache (segment :: rest)) = some x := h
    rw [h] at hgo
    generalize log.says ((At.names root cache (segment :: rest)).lines m log) = log1 at ht hgo ⊢
    simp only [At.turn] at ht
    cases hr : resolve block segment cache with
    | mk r cache' =>
      rw [hr] at ht
      match r with
      | .panic p => cases ht
      | .err e => cases ht
      | .ok .NotFound => cases ht
      | .ok (.Found cid) => cases ht; exact clean_names rest _ _ _ _ hgo.symm
      | .ok (.NeedToLoadMore w) =>
        cases ht
        have hgo := hgo.symm
        cases hl : resolveLoopLog m get segment root 1 (log1.says [.err (lit "walking " ++ shown root ++ lit " on " ++ m.env.str segment ++ lit "\n")]) w cache' with
        | none => simp only [cleanRes, hl] at hgo; cases hgo
        | some y => exact clean_bucket (clean_names rest) _ _ _ _ y hl _ hgo

/-- There is a run in which nothing fails: both outputs arrive as they are written, and the exit code is the one without failures. -/
theorem C136_clean (m : Machine) (name : Text) (arg dir : Bytes) (path : IpfsPath)
    (ha : IpfsPath.tryFrom (fun t => (Cid.ofText m.other t).toOption) arg = .ok path) (hd : m.ipfsPath = .ok dir) (p : Process)
    (hp : resolveMain m name (some arg) = some p) : ∃ e, ResolveRuns m (m.store dir) path p.stdout (utf8 p.stderr) e ∧ e.code = p.code := by
  rw [main_clean ha hd] at hp
  obtain ⟨x, hx, rfl⟩ := Option.map_eq_some_iff.1 hp
  obtain ⟨s', e, h1, rfl, h2⟩ := clean_names _ _ _ _ _ hx {} inStep_start
  exact ⟨e, ⟨_, h1, ⟨List.prefix_refl _, by simp⟩, rfl⟩, h2⟩

/-! ### cases -/

/-- The path `/a/b` of C105: there is a run which exits with 0 and whose last line is the Cid of the file; and one in which standard output takes the
first byte only, which exits with 101. -/
theorem C136_example : ∃ arg path, IpfsPath.tryFrom (fun t => (Cid.ofText sampleMachine.other t).toOption) arg = .ok path ∧
    sampleMachine.ipfsPath = .ok [114] ∧
    (∃ arrived err e, ResolveRuns sampleMachine (sampleMachine.store [114]) path arrived err e ∧ e.code = 0 ∧ LastLine arrived fileCid.text) ∧
    ∃ e, ResolveRuns sampleMachine (sampleMachine.store [114]) path [99] [] e ∧ e.code = 101 := by
  obtain ⟨root, ⟨q, h1, h2, h3⟩, -⟩ := C105_example
  generalize harg : ipfsText ++ (root.text ++ slash :: [97, 47, 98]) = arg at h1
  cases ha : IpfsPath.tryFrom (fun t => (Cid.ofText sampleMachine.other t).toOption) arg with
  | error e =>
    obtain ⟨p, k1, -, k2, -⟩ := (C105_no_cid sampleMachine [] arg).2 (by rw [ha]; nofun)
    rw [h1] at k1
    cases k1
    rw [h2] at k2
    cases k2
  | ok path =>
    obtain ⟨e, h4, h5⟩ := C136_clean sampleMachine [] arg [114] path ha rfl q h1
    refine ⟨arg, path, ha, rfl, ⟨_, _, e, h4, by rw [h5, h2], h3⟩, .print, ⟨⟨⟨[99], []⟩, []⟩, .before ?_, ⟨List.prefix_refl _, by simp⟩, rfl⟩, rfl⟩
    have key : ∀ t : Text, utf8 (lit "c") <+: utf8 (lit "c" ++ t) := fun t => by rw [utf8_append]; exact List.prefix_append _ _
    have hc : utf8 (lit "c") = [99] := by decide +kernel
    have hw : ∀ t : Text, Sink.Writes {} (utf8 (lit "cache " ++ t)) false ⟨[99], []⟩ := fun t => by
      refine .fail _ ?_ List.nil_prefix
      have := key (lit "ache " ++ t)
      rw [hc] at this
      exact this
    cases path.path with
    | nil =>
      simp only [At.lines, sayCache, List.append_assoc]
      exact .outFail (hw _)
    | cons a b =>
      simp only [At.lines, sayCache, List.append_assoc]
      exact .outFail (hw _)

end Verif.Props
