import Verif.Spec.Logs
import Verif.Props.Reader
import Verif.Props.WalkTrees
/-
C84: missing blocks. Reading and walking need exactly the blocks they ask for; with some of them missing they do what they do with all of
them up to the first missing one, and name it.
-/
namespace Verif.Props
open Verif Verif.Spec

/-! ### The logs are those of the loops -/

/-- What a log of a read amounts to. -/
def readResult : List (Cid × Bytes) × Stop FileReadFailed → Res ReadError (Bytes × List Cid)
  | (log, .finished) => .ok ((log.map (·.2)).flatten, log.map (·.1))
  | (_, .missing c) => .err (.missing c)
  | (_, .failed e) => .err (.failed e)
  | (_, .noLinks) => .err .noLinks
  | (_, .panicked p) => .panic p

theorem readResult_cons (c : Cid) (x : Bytes) (r) :
    readResult ((c, x) :: r.1, r.2) = (readResult r).map (fun (y, q) => (x ++ y, c :: q)) := by
  obtain ⟨log, stop⟩ := r
  cases stop <;> simp [readResult, Res.map]

theorem readLog_sound (get : Cid → Option Bytes) (v : FileVisit) (r) (h : readLog get v = some r) :
    readFrom get v = some (readResult r) := by
  refine readLog.partial_correctness get (fun v r => readFrom get v = some (readResult r)) ?_ v r h
  intro rec ih v r h
  rw [readFrom.eq_1]
  cases hp : v.pendingLinks with
  | panic p => simp only [hp] at h ⊢; cases h; rfl
  | err e => simp only [hp] at h ⊢; cases h; rfl
  | ok fr =>
    obtain ⟨first, rest⟩ := fr
    simp only [hp] at h ⊢
    cases hg : get first with
    | none => simp only [hg] at h ⊢; cases h; rfl
    | some block =>
      simp only [hg] at h ⊢
      cases hc : (v.continueWalk block none).1 with
      | panic p => simp only [hc] at h ⊢; cases h; rfl
      | err e => simp only [hc] at h ⊢; cases h; rfl
      | ok cv =>
        obtain ⟨content, v'⟩ := cv
        simp only [hc] at h ⊢
        cases v' with
        | none => cases h; simp [readResult]
        | some v' =>
          simp only at h ⊢
          cases hr : rec v' with
          | none => rw [hr] at h; cases h
          | some r' =>
            rw [hr] at h
            cases h
            rw [ih v' r' hr, readResult_cons]
            rfl

theorem readFrom_log (get : Cid → Option Bytes) (v : FileVisit) (a) (h : readFrom get v = some a) :
    ∃ r, readLog get v = some r ∧ a = readResult r := by
  suffices hh : ∃ r, readLog get v = some r by
    obtain ⟨r, hr⟩ := hh
    have := readLog_sound get v r hr
    rw [h] at this
    exact ⟨r, hr, by injection this⟩
  refine readFrom.partial_correctness get (fun v _ => ∃ r, readLog get v = some r) ?_ v a h
  intro rec ih v a h
  rw [readLog.eq_1]
  cases hp : v.pendingLinks with
  | panic p => simp only [hp]; exact ⟨_, rfl⟩
  | err e => simp only [hp]; exact ⟨_, rfl⟩
  | ok fr =>
    obtain ⟨first, rest⟩ := fr
    simp only [hp] at h ⊢
    cases hg : get first with
    | none => exact ⟨_, rfl⟩
    | some block =>
      simp only [hg] at h ⊢
      cases hc : (v.continueWalk block none).1 with
      | panic p => exact ⟨_, rfl⟩
      | err e => exact ⟨_, rfl⟩
      | ok cv =>
        obtain ⟨content, v'⟩ := cv
        simp only [hc] at h ⊢
        cases v' with
        | none => exact ⟨_, rfl⟩
        | some v' =>
          simp only at h ⊢
          cases hr : rec v' with
          | none => rw [hr] at h; cases h
          | some a' =>
            obtain ⟨r', hr'⟩ := ih v' a' hr
            rw [hr']
            exact ⟨_, rfl⟩

/-- What a log of a walk amounts to. -/
def walkResult : List (Cid × ContinuedWalk) × Stop WalkError → Res WalkFail (List ContinuedWalk)
  | (log, .finished) => .ok (log.map (·.2))
  | (_, .missing c) => .err (.missing c)
  | (_, .failed e) => .err (.failed e)
  | (_, .noLinks) => .err .noLinks
  | (_, .panicked p) => .panic p

theorem walkResult_cons (c : Cid) (x : ContinuedWalk) (r) :
    walkResult ((c, x) :: r.1, r.2) = (walkResult r).map (fun items => x :: items) := by
  obtain ⟨log, stop⟩ := r
  cases stop <;> simp [walkResult, Res.map]

theorem walkLog_sound (get : Cid → Option Bytes) (w : Walker) (cache : Option VisitCache) (r) (h : walkLog get w cache = some r) :
    walkFrom get w cache = some (walkResult r) := by
  refine walkLog.partial_correctness get (fun w cache r => walkFrom get w cache = some (walkResult r)) ?_ w cache r h
  intro rec ih w cache r h
  rw [walkFrom.eq_1]
  by_cases hs : w.shouldContinue = false
  · rw [if_pos hs] at h ⊢; cases h; rfl
  rw [if_neg hs] at h ⊢
  cases hp : w.pendingLinks with
  | panic p => simp only [hp] at h ⊢; cases h; rfl
  | err e => simp only [hp] at h ⊢; cases h; rfl
  | ok fr =>
    obtain ⟨first, rest⟩ := fr
    simp only [hp] at h ⊢
    cases hg : get first with
    | none => simp only [hg] at h ⊢; cases h; rfl
    | some block =>
      simp only [hg] at h ⊢
      cases hc : w.step block cache with
      | mk a wc =>
        obtain ⟨w', cache'⟩ := wc
        simp only [hc] at h ⊢
        cases a with
        | panic p => simp only at h ⊢; cases h; rfl
        | err e => simp only at h ⊢; cases h; rfl
        | ok item =>
          simp only at h ⊢
          cases hr : rec w' cache' with
          | none => rw [hr] at h; cases h
          | some r' =>
            rw [hr] at h
            cases h
            rw [ih w' cache' r' hr, walkResult_cons]
            rfl

theorem walkFrom_log (get : Cid → Option Bytes) (w : Walker) (cache : Option VisitCache) (a) (h : walkFrom get w cache = some a) :
    ∃ r, walkLog get w cache = some r ∧ a = walkResult r := by
  suffices hh : ∃ r, walkLog get w cache = some r by
    obtain ⟨r, hr⟩ := hh
    have := walkLog_sound get w cache r hr
    rw [h] at this
    exact ⟨r, hr, by injection this⟩
  refine walkFrom.partial_correctness get (fun w cache _ => ∃ r, walkLog get w cache = some r) ?_ w cache a h
  intro rec ih w cache a h
  rw [walkLog.eq_1]
  by_cases hs : w.shouldContinue = false
  · rw [if_pos hs]; exact ⟨_, rfl⟩
  rw [if_neg hs] at h ⊢
  cases hp : w.pendingLinks with
  | panic p => simp only [hp]; exact ⟨_, rfl⟩
  | err e => simp only [hp]; exact ⟨_, rfl⟩
  | ok fr =>
    obtain ⟨first, rest⟩ := fr
    simp only [hp] at h ⊢
    cases hg : get first with
    | none => exact ⟨_, rfl⟩
    | some block =>
      simp only [hg] at h ⊢
      cases hc : w.step block cache with
      | mk a wc =>
        obtain ⟨w', cache'⟩ := wc
        simp only [hc] at h ⊢
        cases a with
        | panic p => exact ⟨_, rfl⟩
        | err e => exact ⟨_, rfl⟩
        | ok item =>
          simp only at h ⊢
          cases hr : rec w' cache' with
          | none => rw [hr] at h; cases h
          | some a' =>
            obtain ⟨r', hr'⟩ := ih w' cache' a' hr
            rw [hr']
            exact ⟨_, rfl⟩

/-! ### The blocks needed -/

/-- C84. With some blocks missing, reading does what it does with all of them; or it does so up to the first block which is missing, of
which it gives the Cid. -/
theorem C84_read_missing (part full : Cid → Option Bytes) (hpart : PartOf part full) (v : FileVisit) (log : List (Cid × Bytes))
    (stop : Stop FileReadFailed) (h : readLog full v = some (log, stop)) :
    readLog part v = some (log, stop) ∨
    ∃ log' c, readLog part v = some (log', .missing c) ∧ log' <+: log ∧ part c = none ∧ ∀ k ∈ log', part k.1 ≠ none := by
  refine readLog.partial_correctness full (fun v r => readLog part v = some r ∨
    ∃ log' c, readLog part v = some (log', .missing c) ∧ log' <+: r.1 ∧ part c = none ∧ ∀ k ∈ log', part k.1 ≠ none) ?_
    v (log, stop) h
  intro rec ih v r h
  rw [readLog.eq_1]
  cases hp : v.pendingLinks with
  | panic p => simp only [hp] at h ⊢; exact .inl h
  | err e => simp only [hp] at h ⊢; exact .inl h
  | ok fr =>
    obtain ⟨first, rest⟩ := fr
    simp only [hp] at h ⊢
    cases hg : part first with
    | none => exact .inr ⟨[], first, rfl, List.nil_prefix, hg, by simp⟩
    | some block =>
      rw [hpart _ _ hg] at h
      simp only at h ⊢
      cases hc : (v.continueWalk block none).1 with
      | panic p => simp only [hc] at h ⊢; exact .inl h
      | err e => simp only [hc] at h ⊢; exact .inl h
      | ok cv =>
        obtain ⟨content, v'⟩ := cv
        simp only [hc] at h ⊢
        cases v' with
        | none => exact .inl h
        | some v' =>
          simp only at h ⊢
          cases hr : rec v' with
          | none => rw [hr] at h; cases h
          | some r' =>
            rw [hr] at h
            cases h
            rcases ih v' r' hr with h1 | ⟨log', c, h1, h2, h3, h4⟩
            · rw [h1]; exact .inl rfl
            · rw [h1]
              refine .inr ⟨(first, content) :: log', c, rfl, List.cons_prefix_cons.2 ⟨rfl, h2⟩, h3, ?_⟩
              intro k hk
              rcases List.mem_cons.1 hk with rfl | hk
              · simp [hg]
              · exact h4 k hk

/-- C84. The same for walking. -/
theorem C84_walk_missing (part full : Cid → Option Bytes) (hpart : PartOf part full) (w : Walker) (cache : Option VisitCache)
    (log : List (Cid × ContinuedWalk)) (stop : Stop WalkError) (h : walkLog full w cache = some (log, stop)) :
    walkLog part w cache = some (log, stop) ∨
    ∃ log' c, walkLog part w cache = some (log', .missing c) ∧ log' <+: log ∧ part c = none ∧ ∀ k ∈ log', part k.1 ≠ none := by
  refine walkLog.partial_correctness full (fun w cache r => walkLog part w cache = some r ∨
    ∃ log' c, walkLog part w cache = some (log', .missing c) ∧ log' <+: r.1 ∧ part c = none ∧ ∀ k ∈ log', part k.1 ≠ none) ?_
    w cache (log, stop) h
  intro rec ih w cache r h
  rw [walkLog.eq_1]
  by_cases hs : w.shouldContinue = false
  · rw [if_pos hs] at h ⊢; exact .inl h
  rw [if_neg hs] at h ⊢
  cases hp : w.pendingLinks with
  | panic p => simp only [hp] at h ⊢; exact .inl h
  | err e => simp only [hp] at h ⊢; exact .inl h
  | ok fr =>
    obtain ⟨first, rest⟩ := fr
    simp only [hp] at h ⊢
    cases hg : part first with
    | none => exact .inr ⟨[], first, rfl, List.nil_prefix, hg, by simp⟩
    | some block =>
      rw [hpart _ _ hg] at h
      simp only at h ⊢
      cases hc : w.step block cache with
      | mk a wc =>
        obtain ⟨w', cache'⟩ := wc
        simp only [hc] at h ⊢
        cases a with
        | panic p => exact .inl h
        | err e => exact .inl h
        | ok item =>
          simp only at h ⊢
          cases hr : rec w' cache' with
          | none => rw [hr] at h; cases h
          | some r' =>
            rw [hr] at h
            cases h
            rcases ih w' cache' r' hr with h1 | ⟨log', c, h1, h2, h3, h4⟩
            · rw [h1]; exact .inl rfl
            · rw [h1]
              refine .inr ⟨(first, item) :: log', c, rfl, List.cons_prefix_cons.2 ⟨rfl, h2⟩, h3, ?_⟩
              intro k hk
              rcases List.mem_cons.1 hk with rfl | hk
              · simp [hg]
              · exact h4 k hk

/-- C84. A read which ends needs only the blocks it was given: it goes the same over every store in which these are the same. -/
theorem C84_read_needs (get get' : Cid → Option Bytes) (idle : IdleFileVisit) (root : Bytes) (x : Bytes) (cids : List Cid)
    (h : readFile get idle root = some (.ok (x, cids))) (hs : ∀ c ∈ cids, get' c = get c) :
    readFile get' idle root = some (.ok (x, cids)) := by
  have key : ∀ v r, readFrom get v = some r → ∀ x cids, r = .ok (x, cids) → (∀ c ∈ cids, get' c = get c) → readFrom get' v = some r := by
    intro v r h
    refine readFrom.partial_correctness get (fun v r => ∀ x cids, r = .ok (x, cids) → (∀ c ∈ cids, get' c = get c) →
      readFrom get' v = some r) ?_ v r h
    intro rec ih v r h x cids hx hs
    rw [readFrom.eq_1]
    cases hp : v.pendingLinks with
    | panic p => simp only [hp] at h ⊢; exact h
    | err e => simp only [hp] at h ⊢; exact h
    | ok fr =>
      obtain ⟨first, rest⟩ := fr
      simp only [hp] at h ⊢
      cases hg : get first with
      | none => simp only [hg] at h; cases h; cases hx
      | some block =>
        simp only [hg] at h
        cases hc : (v.continueWalk block none).1 with
        | panic p => simp only [hc] at h; cases h; cases hx
        | err e => simp only [hc] at h; cases h; cases hx
        | ok cv =>
          obtain ⟨content, v'⟩ := cv
          simp only [hc] at h
          cases v' with
          | none =>
            cases h
            cases hx
            rw [hs first (by simp), hg]
            simp only [hc]
          | some v' =>
            simp only at h
            cases hr : rec v' with
            | none => rw [hr] at h; cases h
            | some r' =>
              rw [hr] at h
              cases h
              cases r' with
              | panic p => cases hx
              | err e => cases hx
              | ok y =>
                obtain ⟨y, q⟩ := y
                cases hx
                have := ih v' _ hr y q rfl (fun c hc => hs c (by simp [hc]))
                rw [hs first (by simp), hg]
                simp only [hc, this]
                rfl
  unfold readFile at h ⊢
  cases hst : idle.start root with
  | panic p => simp only [hst] at h; cases h
  | err e => simp only [hst] at h; cases h
  | ok st =>
    obtain ⟨content, a, b, v⟩ := st
    simp only [hst] at h ⊢
    cases v with
    | none => exact h
    | some v =>
      simp only at h ⊢
      cases hr : readFrom get v with
      | none => rw [hr] at h; cases h
      | some r =>
        cases r with
        | panic p => rw [hr] at h; cases h
        | err e => rw [hr] at h; cases h
        | ok y =>
          obtain ⟨y, q⟩ := y
          rw [hr] at h
          cases h
          rw [key v _ hr y q rfl hs]
          rfl

/-- C84. A ranged read of a well-formed file needs only the root and the blocks which touch the range: with nothing else in the store it
gives the bytes in the range. -/
theorem C84_range_needs (get part : Cid → Option Bytes) (t : FTree) (root : Bytes) (h : FileAt get t root) (r : Rng)
    (hs : ∀ k ∈ below get t root 0, touches r k.2 = true → part k.1 = get k.1) :
    ∃ cids, readFile part (IdleFileVisit.withTargetRange {} r) root = some (.ok (slice t.content r, cids)) := by
  obtain ⟨cids, h1⟩ := C19_ranged_read get t root h r
  obtain ⟨bytes, h2⟩ := C22_requests get t root h r
  rw [h2] at h1
  cases h1
  refine ⟨_, C84_read_needs get part _ root _ _ h2 ?_⟩
  intro c hc
  obtain ⟨k, hk, rfl⟩ := List.mem_map.1 hc
  obtain ⟨hk, ht⟩ := List.mem_filter.1 hk
  exact hs k hk ht

/-- C84. A walk which ends needs only the blocks it was given. -/
theorem C84_walk_needs (get get' : Cid → Option Bytes) (w : Walker) (cache : Option VisitCache)
    (log : List (Cid × ContinuedWalk)) (h : walkLog get w cache = some (log, .finished)) (hs : ∀ k ∈ log, get' k.1 = get k.1) :
    walkLog get' w cache = some (log, .finished) := by
  have key : ∀ w cache r, walkLog get w cache = some r → r.2 = .finished → (∀ k ∈ r.1, get' k.1 = get k.1) →
      walkLog get' w cache = some r := by
    intro w cache r h
    refine walkLog.partial_correctness get (fun w cache r => r.2 = .finished → (∀ k ∈ r.1, get' k.1 = get k.1) →
      walkLog get' w cache = some r) ?_ w cache r h
    intro rec ih w cache r h hx hs
    rw [walkLog.eq_1]
    by_cases hsc : w.shouldContinue = false
    · rw [if_pos hsc] at h ⊢; exact h
    rw [if_neg hsc] at h ⊢
    cases hp : w.pendingLinks with
    | panic p => simp only [hp] at h ⊢; exact h
    | err e => simp only [hp] at h ⊢; exact h
    | ok fr =>
      obtain ⟨first, rest⟩ := fr
      simp only [hp] at h ⊢
      cases hg : get first with
      | none => simp only [hg] at h; cases h; cases hx
      | some block =>
        simp only [hg] at h
        cases hc : w.step block cache with
        | mk a wc =>
          obtain ⟨w', cache'⟩ := wc
          simp only [hc] at h
          cases a with
          | panic p => cases h; cases hx
          | err e => cases h; cases hx
          | ok item =>
            simp only at h
            cases hr : rec w' cache' with
            | none => rw [hr] at h; cases h
            | some r' =>
              rw [hr] at h
              cases h
              have := ih w' cache' r' hr hx (fun k hk => hs k (by simp [hk]))
              rw [hs (first, item) (by simp), hg]
              simp only [hc, this]
              rfl
  exact key w cache _ h rfl hs

/-- C84. Walking over a store which lacks some of the blocks of something that can be walked: a beginning of what there is is reported,
and a block which is missing is named; or everything is reported. -/
theorem C84_walk_part (part full : Cid → Option Bytes) (hpart : PartOf part full) (w : Walker) (cache : Option VisitCache)
    (items : List ContinuedWalk) (h : walkFrom full w cache = some (.ok items)) :
    ∃ log stop, walkLog part w cache = some (log, stop) ∧
      ((stop = .finished ∧ log.map (·.2) = items) ∨ ∃ c, stop = .missing c ∧ part c = none ∧ log.map (·.2) <+: items) := by
  obtain ⟨⟨log, stop⟩, h1, h2⟩ := walkFrom_log full _ cache _ h
  cases stop with
  | finished =>
    injection h2 with h2
    rcases C84_walk_missing part full hpart _ cache log _ h1 with h3 | ⟨log', c, h3, h4, h5, -⟩
    · exact ⟨log, _, h3, .inl ⟨rfl, h2.symm⟩⟩
    · refine ⟨log', _, h3, .inr ⟨c, rfl, h5, ?_⟩⟩
      rw [h2]; exact h4.map _
  | missing c => cases h2
  | failed e => cases h2
  | noLinks => cases h2
  | panicked p => cases h2

/-- C84. In particular for every well-formed plain tree. -/
theorem C84_walk_wellformed (part full : Cid → Option Bytes) (hpart : PartOf part full) (t : FsTree) (hat : FsAt full t)
    (hu : Unsharded t) (hname : slash ∉ t.name) :
    ∃ log stop, walkLog part (Walker.new t.cid t.name) none = some (log, stop) ∧
      ((stop = .finished ∧ log.map (·.2) = t.walkItems) ∨
       ∃ c, stop = .missing c ∧ part c = none ∧ log.map (·.2) <+: t.walkItems) :=
  C84_walk_part part full hpart _ none _ (C45_plain full t none hat hu hname (by intro k h; cases h))

/-- The last byte but one of the sample is read without its first leaf. -/
example : ∃ cids, readFile (storeOf (sampleTree.nodes.filter (fun t => t.content.length ≠ 2 || t.content = [4, 5])))
    (IdleFileVisit.withTargetRange {} ⟨3, 4⟩) (sampleTree.block toySha) = some (.ok ([4], cids)) :=
  C84_range_needs (storeOf sampleTree.nodes) _ sampleTree _ sample_fileAt ⟨3, 4⟩ (by decide +kernel)

/-- The first leaf is indeed not in that store. -/
example : storeOf (sampleTree.nodes.filter (fun t => t.content.length ≠ 2 || t.content = [4, 5])) ((FTree.leaf [1, 2]).cid toySha) = none := by
  decide +kernel

/-- The walk of the sample without the block number 3. -/
example : ∃ log stop, walkLog (fun c => if c = cidN 3 then none else storeN sampleFsBlocks c) (Walker.new (cidN 0) [114]) none =
      some (log, stop) ∧ ∃ items, walkFrom (storeN sampleFsBlocks) (Walker.new (cidN 0) [114]) none = some (.ok items) ∧
      ((stop = .finished ∧ log.map (·.2) = items) ∨ ∃ c, stop = .missing c ∧ log.map (·.2) <+: items) := by
  obtain ⟨log, stop, h1, h2⟩ := C84_walk_part (fun c => if c = cidN 3 then none else storeN sampleFsBlocks c) (storeN sampleFsBlocks)
    (by intro c b h; dsimp only at h; split at h; cases h; exact h) _ none _ sampleFs_walk
  refine ⟨log, stop, h1, _, sampleFs_walk, ?_⟩
  rcases h2 with h2 | ⟨c, h2, -, h3⟩
  · exact .inl h2
  · exact .inr ⟨c, h2, h3⟩

end Verif.Props
