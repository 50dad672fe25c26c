import Verif.Spec.ReleaseRun
import Verif.Props.ReleaseParse
import Verif.Props.ReleasePanics
import Verif.Props.ReleasePaths
/-
C109: visits, walkers and look-ups of a release build on arbitrary blocks.
-/
namespace Verif.Props
open Verif Verif.Spec

/-! ### blocks which nothing overruns -/

theorem kept_parse {b : Bytes} (h : Kept b) : FlatUnixFs.tryParseR b = some (FlatUnixFs.tryParse b) := C108_agrees b h.1 h.2

theorem startRel_eq {b : Bytes} (hp : FlatUnixFs.tryParseR b = some (FlatUnixFs.tryParse b)) (idle : IdleFileVisit) :
    idle.startRel b = some (idle.startR b) := by
  unfold IdleFileVisit.startRel
  rw [hp]
  unfold IdleFileVisit.startR FileReader.fromBlockR
  simp only [Option.map_some, IdleFileVisit.startP]
  cases FlatUnixFs.tryParse b <;> rfl

theorem continueWalkRel_eq {b : Bytes} (hp : FlatUnixFs.tryParseR b = some (FlatUnixFs.tryParse b)) (v : FileVisit) (cache : Option VisitCache) :
    v.continueWalkRel b cache = some (v.continueWalkR b cache) := by
  unfold FileVisit.continueWalkRel FileVisit.continueWalkR
  cases v.pending.getLast? with
  | none => rfl
  | some q =>
    obtain ⟨c, i⟩ := q
    simp only [Traversal.continueWalkR]
    cases v.state.last_ending.checkIsSuitableNext v.state.last_offset i with
    | error e => rfl
    | ok u =>
      simp only [hp, Option.map_some, FileReader.fromContinuedR]
      cases FlatUnixFs.tryParse b <;> rfl

theorem stepRel_eq {b : Bytes} (hp : FlatUnixFs.tryParseR b = some (FlatUnixFs.tryParse b)) (w : Walker) (cache : Option VisitCache) :
    w.stepRel b cache = some (w.stepR b cache) := by
  have hblock : (FlatUnixFs.tryParseR b).map (w.nextBlockP cache) = some (w.nextBlockR b cache) := by
    rw [hp]
    simp only [Option.map_some, Walker.nextBlockR]
    cases FlatUnixFs.tryParse b <;> rfl
  have hfile : ∀ ie visit sz, (visit.continueWalkRel b cache).map (w.nextFileP ie sz) = some (w.nextFileR ie visit sz b cache) := by
    intro ie visit sz
    rw [continueWalkRel_eq hp]
    simp only [Option.map_some, Walker.nextFileR]
    generalize visit.continueWalkR b cache = x
    obtain ⟨x, c⟩ := x
    cases x with
    | ok y => obtain ⟨y, z⟩ := y; rfl
    | err e => rfl
    | panic p => rfl
  unfold Walker.stepRel Walker.stepR
  cases w.current with
  | none => exact hblock
  | some ie =>
    obtain ⟨cid, kind, path, metadata, depth⟩ := ie
    cases kind with
    | File o sz =>
      cases o with
      | none => exact hblock
      | some visit => exact hfile _ _ _
    | _ => exact hblock

theorem lookupRel_eq {b : Bytes} (hp : FlatUnixFs.tryParseR b = some (FlatUnixFs.tryParse b)) (l : ShardedLookup) (cache : Option LookupCache) :
    l.continueWalkRel b cache = some (l.continueWalk b cache) := by
  unfold ShardedLookup.continueWalkRel ShardedLookup.continueWalk
  cases l.links with
  | nil => rfl
  | cons c q =>
    simp only [hp, Option.map_some]
    cases FlatUnixFs.tryParse b with
    | ok m => rfl
    | error e => cases e <;> rfl

theorem resolveRel_eq {b : Bytes} (hp : FlatUnixFs.tryParseR b = some (FlatUnixFs.tryParse b)) (needle : Bytes) (cache : Option LookupCache) :
    resolveRel b needle cache = some (resolve b needle cache) := by
  unfold resolveRel resolve
  rw [hp]
  simp only [Option.map_some]
  cases FlatUnixFs.tryParse b with
  | ok m => rfl
  | error e => cases e <;> rfl

/-- On blocks which nothing overruns all is as said of release builds before (C67-C69); look-ups are as in checked builds. -/
theorem C109_agrees (b : Bytes) (h : Kept b) :
    (∀ idle : IdleFileVisit, idle.startRel b = some (idle.startR b)) ∧
    (∀ (v : FileVisit) cache, v.continueWalkRel b cache = some (v.continueWalkR b cache)) ∧
    (∀ (w : Walker) cache, w.stepRel b cache = some (w.stepR b cache)) ∧
    (∀ (l : ShardedLookup) cache, l.continueWalkRel b cache = some (l.continueWalk b cache)) ∧
    ∀ needle cache, resolveRel b needle cache = some (resolve b needle cache) :=
  ⟨startRel_eq (kept_parse h), continueWalkRel_eq (kept_parse h), stepRel_eq (kept_parse h), lookupRel_eq (kept_parse h), resolveRel_eq (kept_parse h)⟩

theorem option_ext {α : Type} {a b : Option α} (h1 : ∀ x, a = some x → b = some x) (h2 : ∀ x, b = some x → a = some x) : a = b := by
  cases a with
  | some x => exact (h1 x rfl).symm
  | none =>
    cases b with
    | none => rfl
    | some y => exact absurd (h2 y rfl) nofun

theorem readFrom_eq {get : Cid → Option Bytes} (hget : ∀ c b, get c = some b → Kept b) (v : FileVisit) : readFromRel get v = readFromR get v := by
  refine option_ext (fun x hx => ?_) (fun x hx => ?_)
  · refine readFromRel.partial_correctness get (fun v x => readFromR get v = some x) ?_ v x hx
    intro rec ih v x h
    rw [readFromR.eq_1]
    cases hl : v.pendingLinks with
    | panic p => rw [hl] at h; exact h
    | err u => rw [hl] at h; exact h
    | ok q =>
      obtain ⟨first, rest⟩ := q
      rw [hl] at h
      simp only at h ⊢
      cases hg : get first with
      | none => rw [hg] at h; exact h
      | some block =>
        rw [hg] at h
        simp only at h ⊢
        rw [continueWalkRel_eq (kept_parse (hget _ _ hg))] at h
        simp only [Option.bind_eq_bind, Option.bind_some] at h ⊢
        generalize (v.continueWalkR block none).1 = s at h ⊢
        cases s with
        | panic p => exact h
        | err e => exact h
        | ok y =>
          obtain ⟨content, v'⟩ := y
          cases v' with
          | none => exact h
          | some v' =>
            simp only at h ⊢
            cases hr : rec v' with
            | none => rw [hr] at h; cases h
            | some y => rw [hr] at h; rw [ih v' y hr]; exact h
  · refine readFromR.partial_correctness get (fun v x => readFromRel get v = some x) ?_ v x hx
    intro rec ih v x h
    rw [readFromRel.eq_1]
    cases hl : v.pendingLinks with
    | panic p => rw [hl] at h; exact h
    | err u => rw [hl] at h; exact h
    | ok q =>
      obtain ⟨first, rest⟩ := q
      rw [hl] at h
      simp only at h ⊢
      cases hg : get first with
      | none => rw [hg] at h; exact h
      | some block =>
        rw [hg] at h
        simp only at h ⊢
        rw [continueWalkRel_eq (kept_parse (hget _ _ hg))]
        simp only [Option.bind_eq_bind, Option.bind_some] at h ⊢
        generalize (v.continueWalkR block none).1 = s at h ⊢
        cases s with
        | panic p => exact h
        | err e => exact h
        | ok y =>
          obtain ⟨content, v'⟩ := y
          cases v' with
          | none => exact h
          | some v' =>
            simp only at h ⊢
            cases hr : rec v' with
            | none => rw [hr] at h; cases h
            | some y => rw [hr] at h; rw [ih v' y hr]; exact h

theorem walkFrom_eq {get : Cid → Option Bytes} (hget : ∀ c b, get c = some b → Kept b) (w : Walker) (cache : Option VisitCache) :
    walkFromRel get w cache = walkFromR get w cache := by
  refine option_ext (fun x hx => ?_) (fun x hx => ?_)
  · refine walkFromRel.partial_correctness get (fun w cache x => walkFromR get w cache = some x) ?_ w cache x hx
    intro rec ih w cache x h
    rw [walkFromR.eq_1]
    by_cases hs : w.shouldContinue = false
    · rw [if_pos hs] at h ⊢; exact h
    rw [if_neg hs] at h ⊢
    cases hl : w.pendingLinks with
    | panic p => rw [hl] at h; exact h
    | err u => rw [hl] at h; exact h
    | ok q =>
      obtain ⟨first, rest⟩ := q
      rw [hl] at h
      simp only at h ⊢
      cases hg : get first with
      | none => rw [hg] at h; exact h
      | some block =>
        rw [hg] at h
        simp only at h ⊢
        rw [stepRel_eq (kept_parse (hget _ _ hg))] at h
        simp only [Option.bind_eq_bind, Option.bind_some] at h ⊢
        generalize w.stepR block cache = s at h ⊢
        obtain ⟨s, w', cache'⟩ := s
        cases s with
        | panic p => exact h
        | err e => exact h
        | ok item =>
          simp only at h ⊢
          cases hr : rec w' cache' with
          | none => rw [hr] at h; cases h
          | some y => rw [hr] at h; rw [ih w' cache' y hr]; exact h
  · refine walkFromR.partial_correctness get (fun w cache x => walkFromRel get w cache = some x) ?_ w cache x hx
    intro rec ih w cache x h
    rw [walkFromRel.eq_1]
    by_cases hs : w.shouldContinue = false
    · rw [if_pos hs] at h ⊢; exact h
    rw [if_neg hs] at h ⊢
    cases hl : w.pendingLinks with
    | panic p => rw [hl] at h; exact h
    | err u => rw [hl] at h; exact h
    | ok q =>
      obtain ⟨first, rest⟩ := q
      rw [hl] at h
      simp only at h ⊢
      cases hg : get first with
      | none => rw [hg] at h; exact h
      | some block =>
        rw [hg] at h
        simp only at h ⊢
        rw [stepRel_eq (kept_parse (hget _ _ hg))]
        simp only [Option.bind_eq_bind, Option.bind_some] at h ⊢
        generalize w.stepR block cache = s at h ⊢
        obtain ⟨s, w', cache'⟩ := s
        cases s with
        | panic p => exact h
        | err e => exact h
        | ok item =>
          simp only at h ⊢
          cases hr : rec w' cache' with
          | none => rw [hr] at h; cases h
          | some y => rw [hr] at h; rw [ih w' cache' y hr]; exact h

/-- Over a store of such blocks, reading files and walking trees is as said before, to the end and beyond. -/
theorem C109_runs (get : Cid → Option Bytes) (hget : ∀ c b, get c = some b → Kept b) :
    (∀ idle root, Kept root → readFileRel get idle root = readFileR get idle root) ∧
    ∀ w cache, walkFromRel get w cache = walkFromR get w cache := by
  refine ⟨fun idle root hroot => ?_, walkFrom_eq hget⟩
  unfold readFileRel readFileR
  rw [startRel_eq (kept_parse hroot)]
  generalize idle.startR root = s
  cases s with
  | panic p => rfl
  | err e => rfl
  | ok y =>
    obtain ⟨c, fs, md, v⟩ := y
    cases v with
    | none => rfl
    | some v => simp only [readFrom_eq hget]

/-! ### when a release build panics, and when it never answers -/

theorem startP_panics (target : Option Rng) (h : RangeFits target) (m : FlatUnixFs) :
    (∃ p, (IdleFileVisit.mk target).startP (.ok m) = .panic p) ↔ Passed m ∧ m.links = [] ∧ m.data.filesize = none := by
  have hst : (IdleFileVisit.mk target).startP (.ok m) =
      (do let fr ← FileReader.fromPartsR m 0 (Metadata.ofUnixFs m.data)
          ((IdleFileVisit.mk target).startFromReaderR fr none).1) := rfl
  rw [hst]
  rcases fromPartsR_cases m 0 (Metadata.ofUnixFs m.data) with ⟨h1, h2, h3, h4⟩ | ⟨h1, h2, e, h3⟩ | ⟨fs, e, h1, h2, h3⟩
  · rw [h4]
    exact ⟨fun _ => ⟨h1, h2, h3⟩, fun _ => ⟨_, rfl⟩⟩
  · rw [h3]
    exact ⟨(by rintro ⟨p, hp⟩; cases hp), fun h' => (h2 ⟨h'.1, h'.2.1⟩).elim⟩
  · rw [h3]
    refine ⟨?_, fun h' => by rw [h2] at h'; cases h'.2.2⟩
    rintro ⟨p, hp⟩
    exfalso
    simp only [Res.bind_ok, IdleFileVisit.startFromReaderR, FileReader.content] at hp
    by_cases hl : m.links = []
    · rw [if_pos hl] at hp
      simp only at hp
      cases target with
      | none => cases hp
      | some r =>
        have := targetSliceR_panics_iff (ε := FileReadFailed) (content := m.data.Data.getD []) (i := ⟨0, (m.data.Data.getD []).length⟩)
          (h r rfl)
        simp only [maybeTargetSliceR] at hp
        cases ht : (targetSliceR (m.data.Data.getD []) ⟨0, (m.data.Data.getD []).length⟩ r : Res FileReadFailed Bytes) with
        | panic q =>
          have := (this.1 ⟨q, ht⟩).2.2
          dsimp only at this
          omega
        | err e => rw [ht] at hp; cases hp
        | ok c => rw [ht] at hp; cases hp
    · rw [if_neg hl] at hp
      simp only at hp
      cases hc : collectLinksR target 0 0 (m.links.zip m.data.blocksizes) with
      | panic q => exact collectLinksR_no_panic _ _ _ _ _ hc
      | err e => rw [hc] at hp; cases hp
      | ok ps =>
        rw [hc] at hp
        simp only at hp
        split at hp <;> cases hp

/-- A release build panics on a first block exactly if what it reads from it is right otherwise, has no links and no file size. -/
theorem C109_start (target : Option Rng) (h : RangeFits target) (b : Bytes) :
    ((IdleFileVisit.mk target).startRel b = none ↔ Endless b) ∧
    ((∃ p, (IdleFileVisit.mk target).startRel b = some (.panic p)) ↔ StartPanicsRel b) := by
  unfold IdleFileVisit.startRel StartPanicsRel Reads Endless
  cases hp : FlatUnixFs.tryParseR b with
  | none => simp
  | some x =>
    refine ⟨by simp, ?_⟩
    cases x with
    | error e => simp [IdleFileVisit.startP, FileReader.fromBlockP]
    | ok m =>
      have := startP_panics target h m
      constructor
      · rintro ⟨p, hp⟩; exact ⟨m, rfl, this.1 ⟨p, Option.some.inj hp⟩⟩
      · rintro ⟨m', hm, h'⟩
        cases hm
        obtain ⟨p, hp⟩ := this.2 h'
        exact ⟨p, congrArg some hp⟩

theorem continueWith_panics (v : FileVisit) (h : RangeFits v.range) (i : Rng) (m : FlatUnixFs) (cache : Option VisitCache) :
    (∃ p, (v.continueWith i (FileReader.fromContinuedP v.state i.lo (.ok m)) cache).1 = .panic p) ↔
      m.data.mode = none ∧ m.data.mtime = none ∧ Passed m ∧ m.links = [] ∧
      (m.data.filesize = none ∨
       ∃ r, v.range = some r ∧ i.lo ≤ i.hi ∧ touches r i = true ∧ i.lo + (m.data.Data.getD []).length < min r.hi i.hi) := by
  unfold FileVisit.continueWith FileReader.fromContinuedP
  simp only
  by_cases hmeta : (m.data.mode.isSome ∨ m.data.mtime.isSome)
  · rw [if_pos hmeta]
    refine ⟨(by rintro ⟨p, hp⟩; cases hp), ?_⟩
    rintro ⟨h1, h2, -⟩
    rw [h1, h2] at hmeta
    simp at hmeta
  · rw [if_neg hmeta]
    have hmode : m.data.mode = none := by
      cases hh : m.data.mode with
      | none => rfl
      | some _ => simp [hh] at hmeta
    have hmtime : m.data.mtime = none := by
      cases hh : m.data.mtime with
      | none => rfl
      | some _ => simp [hh] at hmeta
    simp only [hmode, hmtime, true_and]
    rcases fromPartsR_cases m i.lo v.state.metadata with ⟨h1, h2, h3, h4⟩ | ⟨h1, h2, e, h3⟩ | ⟨fs, e, h1, h2, h3⟩
    · rw [h4]
      exact ⟨fun _ => ⟨h1, h2, .inl h3⟩, fun _ => ⟨_, rfl⟩⟩
    · rw [h3]
      exact ⟨(by rintro ⟨p, hp⟩; cases hp), fun h' => (h2 ⟨h'.1, h'.2.1⟩).elim⟩
    · rw [h3]
      by_cases hl : m.links = []
      · simp only [FileReader.content, hl, if_true, h1, h2, true_and, reduceCtorEq, false_or]
        cases hr : v.range with
        | none =>
          simp only [maybeTargetSliceR]
          refine ⟨?_, by rintro ⟨r, hr, -⟩; cases hr⟩
          rintro ⟨p, hp⟩
          split at hp <;> cases hp
        | some r =>
          have := targetSliceR_panics_iff (ε := FileReadFailed) (content := m.data.Data.getD []) (i := i) (h r hr)
          simp only [Option.some.injEq, exists_eq_left', maybeTargetSliceR]
          rw [← this]
          cases hts : targetSliceR (ε := FileReadFailed) (m.data.Data.getD []) i r with
          | ok c =>
            refine ⟨?_, by rintro ⟨p, hp⟩; cases hp⟩
            rintro ⟨p, hp⟩
            simp only at hp
            split at hp <;> cases hp
          | err e => simp
          | panic q => simp
      · simp only [FileReader.content, hl, if_false, false_and, and_false, iff_false]
        rintro ⟨p, hp⟩
        cases hc : collectLinksR v.range 0 i.lo (m.links.zip m.data.blocksizes) with
        | panic q => exact collectLinksR_no_panic _ _ _ _ _ hc
        | err e => rw [hc] at hp; cases hp
        | ok ps => rw [hc] at hp; cases hp

/-- A release build never answers to a continuation block exactly if it parses it and that never ends; it panics exactly if that is
`ContinuePanicsRel`, whatever the state of the visit. -/
theorem C109_continue (v : FileVisit) (h : RangeFits v.range) (b : Bytes) (cache : Option VisitCache) :
    (v.continueWalkRel b cache = none ↔
      ∃ i, nextInterval v = some i ∧ Follows v.state.last_ending v.state.last_offset i ∧ Endless b) ∧
    ((∃ p c, v.continueWalkRel b cache = some (.panic p, c)) ↔ ContinuePanicsRel v b) := by
  unfold ContinuePanicsRel FileVisit.continueWalkRel Reads Endless
  cases hP : v.pending.getLast? with
  | none =>
    have hi : nextInterval v = none := by simp [nextInterval, hP]
    rw [hi]
    exact ⟨⟨nofun, nofun⟩, ⟨fun _ => .inl rfl, fun _ => ⟨_, _, rfl⟩⟩⟩
  | some p =>
    obtain ⟨pc, i⟩ := p
    have hi : nextInterval v = some i := by simp [nextInterval, hP]
    simp only [hi, reduceCtorEq, false_or, Option.some.injEq, exists_eq_left']
    cases hck : v.state.last_ending.checkIsSuitableNext v.state.last_offset i with
    | error e =>
      refine ⟨⟨nofun, ?_⟩, ⟨nofun, ?_⟩⟩
      · rintro ⟨hf, -⟩; rw [follows_iff, hck] at hf; cases hf
      · rintro ⟨i', m, rfl, hf, -⟩; rw [follows_iff, hck] at hf; cases hf
    | ok u =>
      have hfol : Follows v.state.last_ending v.state.last_offset i := by rw [follows_iff, hck]
      simp only
      cases hp : FlatUnixFs.tryParseR b with
      | none => simp [hfol]
      | some x =>
        refine ⟨by simp, ?_⟩
        cases x with
        | error e =>
          constructor
          · rintro ⟨p, c, hpc⟩
            rw [Option.map_some, FileReader.fromContinuedP, FileVisit.continueWith] at hpc
            cases hpc
          · rintro ⟨i', m, -, -, hm, -⟩
            cases hm
        | ok m =>
          have := continueWith_panics v h i m cache
          simp only [Option.map_some, Option.some.injEq]
          constructor
          · rintro ⟨p, c, hpc⟩
            exact ⟨i, m, rfl, hfol, rfl, this.1 ⟨p, by rw [hpc]⟩⟩
          · rintro ⟨i', m', rfl, -, hm, h'⟩
            cases hm
            obtain ⟨p, hp⟩ := this.2 h'
            refine ⟨p, (v.continueWith i (FileReader.fromContinuedP v.state i.lo (.ok m)) cache).2, ?_⟩
            rw [← hp]

theorem startP_asking {b : Except ParsingFailed FlatUnixFs} {r : FileVisitResult} {v : FileVisit} (h : IdleFileVisit.startP {} b = .ok r) (hv : r.next = some v) :
    Asking v := by
  unfold IdleFileVisit.startP at h
  cases hf : FileReader.fromBlockP b with
  | err e => rw [hf] at h; cases h
  | panic p => rw [hf] at h; cases h
  | ok fr =>
    rw [hf] at h
    simp only [Res.bind_ok, IdleFileVisit.startFromReaderR] at h
    generalize fr.content = fc at h
    obtain ⟨c, t⟩ := fc
    cases c with
    | Bytes content => cases h; cases hv
    | Links base zipped =>
      dsimp only at h
      cases hc : collectLinksR none 0 base zipped with
      | ok ps =>
        rw [hc] at h
        dsimp only at h
        split at h
        · cases h; cases hv
        · next hne => cases h; cases hv; exact ⟨rfl, hne⟩
      | err e => rw [hc] at h; cases h
      | panic p => rw [hc] at h; cases h

theorem fromContinuedP_sizes {t : Traversal} {o : Nat} {b : Except ParsingFailed FlatUnixFs} {fr : FileReader} (h : FileReader.fromContinuedP t o b = .ok fr) :
    ∀ base z tr, fr.content = (.Links base z, tr) → z ≠ [] := by
  unfold FileReader.fromContinuedP at h
  cases b with
  | error e => cases h
  | ok m =>
    dsimp only at h
    split at h
    · cases h
    · rcases fromPartsR_cases m o t.metadata with ⟨-, -, -, h4⟩ | ⟨-, -, e, h3⟩ | ⟨fs, e, h1, h2, h3⟩
      · rw [h4] at h; cases h
      · rw [h3] at h; cases h
      · rw [h3] at h
        cases h
        intro base z tr hc
        simp only [FileReader.content] at hc
        split at hc
        · cases hc
        · next hne =>
          cases hc
          intro hz
          have := congrArg List.length hz
          rw [List.length_zip, h1.sizes, Nat.min_self, ← h1.sizes, List.length_nil, List.length_eq_zero_iff] at this
          exact hne this

theorem continueWith_asking {v v' : FileVisit} {i : Rng} {parsed : Except ParsingFailed FlatUnixFs} {c : Bytes} {cache : Option VisitCache} (hv : Asking v)
    (h : (v.continueWith i (FileReader.fromContinuedP v.state i.lo parsed) cache).1 = .ok (c, some v')) : Asking v' := by
  unfold FileVisit.continueWith at h
  cases hf : FileReader.fromContinuedP v.state i.lo parsed with
  | err e => rw [hf] at h; cases h
  | panic p => rw [hf] at h; cases h
  | ok fr =>
  have hz := fromContinuedP_sizes hf
  rw [hf] at h
  dsimp only at h
  generalize fr.content = fc at h hz
  obtain ⟨fc, t⟩ := fc
  cases fc with
  | Bytes content =>
    dsimp only at h
    rw [hv.1] at h
    dsimp only [maybeTargetSliceR] at h
    split at h
    · next hne => cases h; exact ⟨rfl, hne⟩
    · cases h
  | Links base zipped =>
    dsimp only at h
    rw [hv.1] at h
    cases hm : collectLinksR none 0 base zipped with
    | ok x =>
      rw [hm] at h; cases h
      have := collectLinksR_ne_nil _ _ _ _ (hz _ _ _ rfl) hm
      exact ⟨rfl, by simp [this]⟩
    | err e => rw [hm] at h; cases h
    | panic p => rw [hm] at h; cases h

theorem continueWalkRel_asking {v v' : FileVisit} {b c : Bytes} {cache c' : Option VisitCache} (hv : Asking v)
    (h : v.continueWalkRel b cache = some (.ok (c, some v'), c')) : Asking v' := by
  unfold FileVisit.continueWalkRel at h
  split at h
  · cases h
  · split at h
    · cases h
    · cases hp : FlatUnixFs.tryParseR b with
      | none => rw [hp] at h; cases h
      | some x =>
        rw [hp, Option.map_some] at h
        exact continueWith_asking hv (congrArg Prod.fst (Option.some.inj h))

/-- Reading a whole file with a release build never panics over a store whose leaves all declare their size, whatever else is wrong with
its blocks. -/
theorem C109_read (get : Cid → Option Bytes) (root : Bytes) (hroot : LeafSizedRel root) (hget : ∀ c b, get c = some b → LeafSizedRel b) (p : Panic) :
    readFileRel get {} root ≠ some (.panic p) := by
  have hfrom : ∀ v, Asking v → readFromRel get v ≠ some (.panic p) := by
    intro v hv hx
    refine readFromRel.partial_correctness get (fun v x => Asking v → x ≠ .panic p) ?_ v _ hx hv rfl
    clear hx hv v
    intro rec ih v x h hv
    obtain ⟨c, cs, hc⟩ := pendingLinks_asking hv
    rw [hc] at h
    dsimp only at h
    cases hg : get c with
    | none => rw [hg] at h; cases h; intro h; cases h
    | some block =>
      rw [hg] at h
      dsimp only at h
      have hno : ∀ q c', v.continueWalkRel block none ≠ some (.panic q, c') := by
        intro q c' hq
        rcases (C109_continue v (by rw [hv.1]; intro t h; cases h) block none).2.1 ⟨q, c', hq⟩ with
          h1 | ⟨i, m, -, -, h2, -, -, -, h3, h4 | ⟨r, h4, -⟩⟩
        · simp only [nextInterval, Option.map_eq_none_iff, List.getLast?_eq_none_iff] at h1
          exact hv.2 h1
        · exact hget _ _ hg m h2 h3 h4
        · rw [hv.1] at h4; cases h4
      have hask := fun c v' c' => continueWalkRel_asking (v' := v') (b := block) (c := c) (cache := none) (c' := c') hv
      generalize v.continueWalkRel block none = s at h hno hask
      cases s with
      | none => cases h
      | some s =>
        obtain ⟨s, c'⟩ := s
        simp only [Option.bind_eq_bind, Option.bind_some] at h
        cases s with
        | panic q => exact (hno q c' rfl).elim
        | err e => cases h; intro h; cases h
        | ok r =>
          obtain ⟨content, v'⟩ := r
          cases v' with
          | none => cases h; intro h; cases h
          | some v' =>
            dsimp only at h
            cases hr : rec v' with
            | none => rw [hr] at h; cases h
            | some y =>
              have := ih v' y hr (hask _ _ _ rfl)
              rw [hr] at h
              cases h
              cases y with
              | panic q => intro h; cases h; exact this rfl
              | err e => intro h; cases h
              | ok y => intro h; cases h
  unfold readFileRel
  have hno : ∀ q, IdleFileVisit.startRel {} root ≠ some (.panic q) := by
    intro q hq
    obtain ⟨m, h1, -, h2, h3⟩ := (C109_start none (by intro t h; cases h) root).2.1 ⟨q, hq⟩
    exact hroot m h1 h2 h3
  have hask : ∀ r v, IdleFileVisit.startRel {} root = some (.ok r) → r.next = some v → Asking v := by
    intro r v h hv
    unfold IdleFileVisit.startRel at h
    cases hp : FlatUnixFs.tryParseR root with
    | none => rw [hp] at h; cases h
    | some x =>
      rw [hp, Option.map_some] at h
      exact startP_asking (Option.some.inj h) hv
  generalize IdleFileVisit.startRel {} root = s at hno hask
  cases s with
  | none => intro h; cases h
  | some s =>
    cases s with
    | panic q => exact (hno q rfl).elim
    | err e => intro h; cases h
    | ok r =>
      obtain ⟨content, sz, md, v⟩ := r
      cases v with
      | none => intro h; cases h
      | some v =>
        have := hfrom v (hask _ _ rfl rfl)
        dsimp only
        cases hr : readFromRel get v with
        | none => intro h; cases h
        | some y =>
          rw [hr] at this
          cases y with
          | panic q => intro h; cases h; exact this rfl
          | err e => intro h; cases h
          | ok y => intro h; cases h

/-- Nothing which begins with an endless block ever answers: reading it, walking from it, looking a name up in it. -/
theorem C109_hangs (b : Bytes) (h : Endless b) (get : Cid → Option Bytes) (c : Cid) (hc : get c = some b) (name needle : Bytes)
    (idle : IdleFileVisit) (cache : Option VisitCache) (lcache : Option LookupCache) :
    readFileRel get idle b = none ∧ walkFromRel get (Walker.new c name) cache = none ∧ resolveRel b needle lcache = none := by
  refine ⟨?_, ?_, ?_⟩
  · unfold readFileRel IdleFileVisit.startRel
    rw [h]
    rfl
  · rw [walkFromRel.eq_1]
    have h1 : (Walker.new c name).shouldContinue ≠ false := nofun
    have h2 : (Walker.new c name).pendingLinks = .ok (c, []) := rfl
    have h3 : (Walker.new c name).stepRel b cache = none := by
      unfold Walker.stepRel
      show (FlatUnixFs.tryParseR b).map _ = none
      rw [h]
      rfl
    rw [if_neg h1, h2]
    simp only [hc, h3]
    rfl
  · unfold resolveRel
    rw [h]
    rfl

/-- There are such blocks, and stores of blocks as in `C109_runs` and `C109_read`. -/
theorem C109_example : Endless endlessLink ∧ Kept [0x0a, 0x04, 0x08, 0x02, 0x18, 0x00] ∧ LeafSizedRel [0x0a, 0x04, 0x08, 0x02, 0x18, 0x00] ∧
    Reads backToEnd (.mk [.mk (some [0x1a, 0x0c, 0x00]) none none] { Ty := .File, filesize := some 0 }) := by
  have hk : Kept [0x0a, 0x04, 0x08, 0x02, 0x18, 0x00] := by
    refine ⟨by decide, ?_⟩
    rintro (h | h)
    · exact absurd ((C51_exact_partial _).2 h) (by decide +kernel)
    · obtain ⟨n, hn⟩ := (C51_exact_data_partial _).2 h
      rw [show FlatUnixFs.tryParse [0x0a, 0x04, 0x08, 0x02, 0x18, 0x00] = .ok (.mk [] { Ty := .File, filesize := some 0 }) from by decide +kernel] at hn
      cases hn
  refine ⟨C108_hangs [] [] [] .nil (by decide), hk, ?_, C108_accepts.2⟩
  intro m hm _ hf
  unfold Reads at hm
  rw [kept_parse hk, show FlatUnixFs.tryParse [0x0a, 0x04, 0x08, 0x02, 0x18, 0x00] = .ok (.mk [] { Ty := .File, filesize := some 0 }) from by decide +kernel] at hm
  cases hm
  cases hf

/-- Whatever the state, only an endless block is never answered, and only a block which is overrun is endless. -/
theorem C109_only (b : Bytes) (hb : b.length < 2 ^ 63) (h : (∃ w cache, Walker.stepRel w b cache = none) ∨ (∃ v cache, FileVisit.continueWalkRel v b cache = none) ∨
      (∃ idle, IdleFileVisit.startRel idle b = none) ∨ (∃ l cache, ShardedLookup.continueWalkRel l b cache = none) ∨
      ∃ needle cache, resolveRel b needle cache = none) : Endless b ∧ Overrun b := by
  have key : FlatUnixFs.tryParseR b = none := by
    cases hp : FlatUnixFs.tryParseR b with
    | none => rfl
    | some x =>
      exfalso
      have hv : ∀ v cache, FileVisit.continueWalkRel v b cache ≠ none := by
        intro v cache
        unfold FileVisit.continueWalkRel
        split
        · nofun
        · split
          · nofun
          · rw [hp, Option.map_some]; nofun
      rcases h with ⟨w, cache, h⟩ | ⟨v, cache, h⟩ | ⟨idle, h⟩ | ⟨l, cache, h⟩ | ⟨needle, cache, h⟩
      · unfold Walker.stepRel at h
        split at h
        · exact hv _ _ (Option.map_eq_none_iff.1 h)
        · rw [hp, Option.map_some] at h; cases h
      · exact hv _ _ h
      · unfold IdleFileVisit.startRel at h
        rw [hp, Option.map_some] at h; cases h
      · unfold ShardedLookup.continueWalkRel at h
        split at h
        · cases h
        · rw [hp, Option.map_some] at h; cases h
      · unfold resolveRel at h
        rw [hp, Option.map_some] at h; cases h
  exact ⟨key, C108_ends b hb key⟩

end Verif.Props
