import Verif.Props.Release
/-
C68: when exactly reading panics in a release build.
-/
namespace Verif.Props
open Verif Verif.Spec

theorem passed_or_errR (m : FlatUnixFs) (o : Nat) (md : Metadata) :
    Passed m ∨ (¬ Passed m ∧ ∃ e, FileReader.fromPartsR m o md = .err e) := by
  rcases passed_or_err m o md with h | ⟨h, e, he⟩
  · exact .inl h
  · refine .inr ⟨h, e, ?_⟩
    rcases fromParts_agree m o md with ⟨p, h1, -⟩ | h1
    · rw [he] at h1; cases h1
    · rw [h1, he]

/-- What the reader makes of a block which passed. -/
theorem passed_eqR {m : FlatUnixFs} (h : Passed m) (o : Nat) (md : Metadata) :
    FileReader.fromPartsR m o md = (do
      let e ← FileReader.endOfR m o (m.data.Data.getD [])
      match m.data.filesize with
      | none => .panic .readerFilesize
      | some fs => .ok (.mk o e m.links (m.data.Data.getD []) m.data.blocksizes md fs)) := by
  have h1 : ¬ (m.data.Ty ≠ .File ∧ m.data.Ty ≠ .Raw) := by
    rintro ⟨a, b⟩
    rcases h.type with h | h
    · exact a h
    · exact b h
  have h2 : ¬ (m.links.length ≠ m.data.blocksizes.length) := fun h2 => h2 h.sizes
  have h3 : ¬ (m.data.Data.getD [] = [] ∧ ¬ m.data.filesize.getD 0 = 0 ∧ m.links = []) := fun h3 => h3.2.1 (h.content h3.2.2 h3.1)
  have h4 : ¬ (m.data.hashType.isSome ∨ m.data.fanout.isSome) := by rw [h.hashType, h.fanout]; simp
  simp only [FileReader.fromPartsR]
  rw [if_neg h1, if_neg h2, if_neg h3, if_neg h4]
  cases m.data.filesize <;> rfl

/-- The three outcomes of reading a block. -/
theorem fromPartsR_cases (m : FlatUnixFs) (o : Nat) (md : Metadata) :
    (Passed m ∧ m.links = [] ∧ m.data.filesize = none ∧ FileReader.fromPartsR m o md = .panic .readerFilesize) ∨
    (¬ (Passed m ∧ m.data.filesize ≠ none) ∧ ¬ (Passed m ∧ m.links = []) ∧ ∃ e, FileReader.fromPartsR m o md = .err e) ∨
    (∃ fs e, Passed m ∧ m.data.filesize = some fs ∧
      FileReader.fromPartsR m o md = .ok (.mk o e m.links (m.data.Data.getD []) m.data.blocksizes md fs)) := by
  rcases passed_or_errR m o md with h | ⟨h, he⟩
  · cases hf : m.data.filesize with
    | some fs =>
      refine .inr (.inr ⟨fs, if m.links = [] then .Chunk (addW o fs) else .TreeCoverage (addW o fs), h, rfl, ?_⟩)
      rw [passed_eqR h, FileReader.endOfR, hf]
      by_cases hl : m.links = []
      · simp [hl]
      · simp [hl]
    | none =>
      by_cases hl : m.links = []
      · refine .inl ⟨h, hl, rfl, ?_⟩
        rw [passed_eqR h, FileReader.endOfR, hf]
        simp [hl]
      · refine .inr (.inl ⟨fun h' => h'.2 rfl, fun h' => hl h'.2, .File .IntermediateNodeWithoutFileSize, ?_⟩)
        rw [passed_eqR h, FileReader.endOfR, hf]
        simp [hl]
  · exact .inr (.inl ⟨fun h' => h h'.1, fun h' => h h'.1, he⟩)

theorem targetSliceR_panics_iff {ε : Type} {content : Bytes} {i r : Rng} (hr : r.lo < U64 ∧ r.hi < U64) :
    (∃ p, (targetSliceR content i r : Res ε Bytes) = .panic p) ↔
      i.lo ≤ i.hi ∧ touches r i = true ∧ i.lo + content.length < min r.hi i.hi := by
  by_cases hin : blockIsInTargetRange i (some r) = true
  · have hle : i.lo ≤ i.hi := by
      simp only [blockIsInTargetRange, decide_eq_true_eq] at hin
      omega
    rw [← and_assoc, and_comm (a := i.lo ≤ i.hi), and_assoc, and_comm (a := i.lo ≤ i.hi), ← and_assoc, and_iff_left hle,
      ← targetSlice_panics_iff (ε := ε) hle]
    have : (targetSliceR content i r : Res ε Bytes) = targetSlice content i r := by
      unfold targetSlice targetSliceR
      have h1 : ¬ blockIsInTargetRange i (some r) = false := by rw [hin]; decide
      rw [if_neg h1, if_neg h1]
      simp only [blockIsInTargetRange, decide_eq_true_eq] at hin
      by_cases h2 : r.lo < i.lo
      · rw [if_pos h2, if_pos h2, subW_eq (by omega) (by omega), sub64, if_pos (by omega)]; rfl
      rw [if_neg h2, if_neg h2]
      by_cases h3 : r.hi > i.hi
      · rw [if_pos h3, if_pos h3, subW_eq (by omega) (by omega), subW_eq (a := min r.hi i.hi) (by omega) (by omega), sub64, sub64,
          if_pos (by omega), if_pos (by omega)]
        rfl
      · rw [if_neg h3, if_neg h3, subW_eq (by omega) (by omega), subW_eq (a := r.hi) (by omega) (by omega), addW_eq (by omega), sub64,
          sub64, if_pos (by omega), if_pos (by omega)]
        rfl
    rw [this]
  · have hf : blockIsInTargetRange i (some r) = false := by simpa using hin
    unfold targetSliceR
    rw [if_pos hf]
    refine ⟨(by rintro ⟨p, hp⟩; cases hp), ?_⟩
    rintro ⟨h1, h2, -⟩
    rw [inTarget_eq i h1 (some r)] at hf
    simp only [touchesO] at hf
    rw [hf] at h2; cases h2

theorem collectLinksR_no_panic (target : Option Rng) : ∀ (z : List (PBLink × Nat)) (nth base : Nat) (p : Panic),
    collectLinksR target nth base z ≠ .panic p
  | [], _, _, _, h => by simp [collectLinksR] at h
  | (l, n) :: z, nth, base, p, h => by
    rw [collectLinksR] at h
    have ih := collectLinksR_no_panic target z (nth + 1) (addW base n)
    by_cases hb : blockIsInTargetRange ⟨base, addW base n⟩ target = false
    · rw [if_pos hb] at h; exact ih p h
    · rw [if_neg hb, toPending] at h
      cases hc : Cid.tryFrom (l.Hash.getD []) with
      | error e => rw [hc] at h; cases h
      | ok c =>
        rw [hc] at h
        simp only [Res.bind_ok] at h
        cases hq : collectLinksR target (nth + 1) (addW base n) z with
        | panic q => exact ih q hq
        | err e => rw [hq] at h; cases h
        | ok ps => rw [hq] at h; cases h

/-- A release build panics on a first block exactly if that is `StartPanicsR`. -/
theorem C68_start (target : Option Rng) (h : RangeFits target) (b : Bytes) :
    (∃ p, (IdleFileVisit.mk target).startR b = .panic p) ↔ StartPanicsR b := by
  cases hm : FlatUnixFs.tryParse b with
  | error e =>
    have hst : (IdleFileVisit.mk target).startR b = .err (.ofParsing e) := by
      simp [IdleFileVisit.startR, FileReader.fromBlockR, hm]
    rw [hst]
    simp [StartPanicsR, hm]
  | ok m =>
    have hst : (IdleFileVisit.mk target).startR b =
        (do let fr ← FileReader.fromPartsR m 0 (Metadata.ofUnixFs m.data)
            ((IdleFileVisit.mk target).startFromReaderR fr none).1) := by
      simp [IdleFileVisit.startR, FileReader.fromBlockR, hm]
    have hsp : StartPanicsR b ↔ Passed m ∧ m.links = [] ∧ m.data.filesize = none := by
      unfold StartPanicsR
      constructor
      · rintro ⟨m', h, h'⟩; rw [hm] at h; cases h; exact h'
      · intro h; exact ⟨m, hm, h⟩
    rw [hsp, hst]
    rcases fromPartsR_cases m 0 (Metadata.ofUnixFs m.data) with ⟨h1, h2, h3, h4⟩ | ⟨h1, h2, e, h3⟩ | ⟨fs, e, h1, h2, h3⟩
    · rw [h4]
      exact ⟨fun _ => ⟨h1, h2, h3⟩, fun _ => ⟨_, rfl⟩⟩
    · rw [h3]
      exact ⟨(by rintro ⟨p, hp⟩; cases hp), fun h' => (h2 ⟨h'.1, h'.2.1⟩).elim⟩
    · rw [h3]
      refine ⟨?_, fun h' => by rw [h2] at h'; cases h'.2.2⟩
      rintro ⟨p, hp⟩
      exfalso
      simp only [Res.bind_ok, IdleFileVisit.startFromReaderR, FileReader.content] at hp
      by_cases hl : m.links = []
      · rw [if_pos hl] at hp
        simp only at hp
        cases target with
        | none => cases hp
        | some r =>
          have := targetSliceR_panics_iff (ε := FileReadFailed) (content := m.data.Data.getD []) (i := ⟨0, (m.data.Data.getD []).length⟩)
            (h r rfl)
          simp only [maybeTargetSliceR] at hp
          cases ht : (targetSliceR (m.data.Data.getD []) ⟨0, (m.data.Data.getD []).length⟩ r : Res FileReadFailed Bytes) with
          | panic q =>
            have := (this.1 ⟨q, ht⟩).2.2
            dsimp only at this
            omega
          | err e => rw [ht] at hp; cases hp
          | ok c => rw [ht] at hp; cases hp
      · rw [if_neg hl] at hp
        simp only at hp
        cases hc : collectLinksR target 0 0 (m.links.zip m.data.blocksizes) with
        | panic q => exact collectLinksR_no_panic _ _ _ _ _ hc
        | err e => rw [hc] at hp; cases hp
        | ok ps =>
          rw [hc] at hp
          simp only at hp
          split at hp <;> cases hp

/-- A release build panics on a continuation block exactly if that is `ContinuePanicsR`, whatever the state of the visit. -/
theorem C68_continue (v : FileVisit) (h : RangeFits v.range) (block : Bytes) (cache : Option VisitCache) :
    (∃ p, (v.continueWalkR block cache).1 = .panic p) ↔ ContinuePanicsR v block := by
  unfold ContinuePanicsR
  cases hP : v.pending.getLast? with
  | none =>
    have hi : nextInterval v = none := by simp [nextInterval, hP]
    simp only [hi, true_or, iff_true]
    exact ⟨.visitNoNext, by simp only [FileVisit.continueWalkR, hP]⟩
  | some p =>
    obtain ⟨pc, i⟩ := p
    have hi : nextInterval v = some i := by simp [nextInterval, hP]
    simp only [hi, reduceCtorEq, false_or, Option.some.injEq, FileVisit.continueWalkR, hP, Traversal.continueWalkR]
    cases hck : v.state.last_ending.checkIsSuitableNext v.state.last_offset i with
    | error e =>
      refine ⟨(by rintro ⟨p, hp⟩; cases hp), ?_⟩
      rintro ⟨i', m, rfl, hf, -⟩
      rw [follows_iff, hck] at hf; cases hf
    | ok u =>
      have hfol : Follows v.state.last_ending v.state.last_offset i := by rw [follows_iff, hck]
      cases hm : FlatUnixFs.tryParse block with
      | error e =>
        simp only [FileReader.fromContinuedR, hm]
        refine ⟨(by rintro ⟨p, hp⟩; cases hp), ?_⟩
        rintro ⟨i', m, -, -, hm', -⟩
        cases hm'
      | ok m =>
        simp only [FileReader.fromContinuedR, hm]
        by_cases hmeta : (m.data.mode.isSome ∨ m.data.mtime.isSome)
        · rw [if_pos hmeta]
          refine ⟨(by rintro ⟨p, hp⟩; cases hp), ?_⟩
          rintro ⟨i', m', -, -, hm', h1, h2, -⟩
          cases hm'
          rw [h1, h2] at hmeta
          simp at hmeta
        · rw [if_neg hmeta]
          have hmode : m.data.mode = none := by
            cases hh : m.data.mode with
            | none => rfl
            | some _ => simp [hh] at hmeta
          have hmtime : m.data.mtime = none := by
            cases hh : m.data.mtime with
            | none => rfl
            | some _ => simp [hh] at hmeta
          have hrhs : ∀ P : Rng → FlatUnixFs → Prop, (∃ i' m', i = i' ∧ Follows v.state.last_ending v.state.last_offset i' ∧
              (Except.ok m : Except ParsingFailed FlatUnixFs) = .ok m' ∧ m'.data.mode = none ∧ m'.data.mtime = none ∧ Passed m' ∧
              m'.links = [] ∧ P i' m') ↔ Passed m ∧ m.links = [] ∧ P i m := by
            intro P
            constructor
            · rintro ⟨i', m', rfl, -, hm', -, -, h⟩; cases hm'; exact h
            · intro h; exact ⟨i, m, rfl, hfol, rfl, hmode, hmtime, h⟩
          rw [hrhs (fun i m => m.data.filesize = none ∨
             ∃ r, v.range = some r ∧ i.lo ≤ i.hi ∧ touches r i = true ∧ i.lo + (m.data.Data.getD []).length < min r.hi i.hi)]
          rcases fromPartsR_cases m i.lo v.state.metadata with ⟨h1, h2, h3, h4⟩ | ⟨h1, h2, e, h3⟩ | ⟨fs, e, h1, h2, h3⟩
          · rw [h4]
            exact ⟨fun _ => ⟨h1, h2, .inl h3⟩, fun _ => ⟨_, rfl⟩⟩
          · rw [h3]
            exact ⟨(by rintro ⟨p, hp⟩; cases hp), fun h' => (h2 ⟨h'.1, h'.2.1⟩).elim⟩
          · rw [h3]
            by_cases hl : m.links = []
            · simp only [FileReader.content, hl, if_true, h1, h2, true_and, reduceCtorEq, false_or]
              cases hr : v.range with
              | none =>
                simp only [maybeTargetSliceR]
                refine ⟨?_, by rintro ⟨r, hr, -⟩; cases hr⟩
                rintro ⟨p, hp⟩
                split at hp <;> cases hp
              | some r =>
                have := targetSliceR_panics_iff (ε := FileReadFailed) (content := m.data.Data.getD []) (i := i) (h r hr)
                simp only [Option.some.injEq, exists_eq_left', maybeTargetSliceR]
                rw [← this]
                cases hts : targetSliceR (ε := FileReadFailed) (m.data.Data.getD []) i r with
                | ok c =>
                  refine ⟨?_, by rintro ⟨p, hp⟩; cases hp⟩
                  rintro ⟨p, hp⟩
                  simp only at hp
                  split at hp <;> cases hp
                | err e => simp
                | panic q => simp
            · simp only [FileReader.content, hl, if_false, false_and, and_false, iff_false]
              rintro ⟨p, hp⟩
              cases hc : collectLinksR v.range 0 i.lo (m.links.zip m.data.blocksizes) with
              | panic q => exact collectLinksR_no_panic _ _ _ _ _ hc
              | err e => rw [hc] at hp; cases hp
              | ok ps => rw [hc] at hp; cases hp

theorem collectLinksR_ne_nil : ∀ (z : List (PBLink × Nat)) (nth base : Nat) (ps : List Pending), z ≠ [] →
    collectLinksR none nth base z = .ok ps → ps ≠ []
  | [], _, _, _, h, _ => (h rfl).elim
  | (l, n) :: z, nth, base, ps, _, h => by
    rw [collectLinksR, if_neg (by simp [blockIsInTargetRange]), toPending] at h
    cases hc : Cid.tryFrom (l.Hash.getD []) with
    | error e => rw [hc] at h; cases h
    | ok c =>
      rw [hc] at h
      simp only [Res.bind_ok] at h
      cases hq : collectLinksR none (nth + 1) (addW base n) z with
      | panic q => rw [hq] at h; cases h
      | err e => rw [hq] at h; cases h
      | ok qs => rw [hq] at h; cases h; simp

/-- In an unranged visit there is always a block to ask for next. -/
def Asking (v : FileVisit) : Prop := v.range = none ∧ v.pending ≠ []

theorem startR_asking {b : Bytes} {r : FileVisitResult} {v : FileVisit} (h : IdleFileVisit.startR {} b = .ok r) (hv : r.next = some v) :
    Asking v := by
  unfold IdleFileVisit.startR at h
  cases hf : FileReader.fromBlockR b with
  | err e => rw [hf] at h; cases h
  | panic p => rw [hf] at h; cases h
  | ok fr =>
    rw [hf] at h
    simp only [Res.bind_ok, IdleFileVisit.startFromReaderR] at h
    generalize fr.content = fc at h
    obtain ⟨c, t⟩ := fc
    cases c with
    | Bytes content => cases h; cases hv
    | Links base zipped =>
      dsimp only at h
      cases hc : collectLinksR none 0 base zipped with
      | ok ps =>
        rw [hc] at h
        dsimp only at h
        split at h
        · cases h; cases hv
        · next hne => cases h; cases hv; exact ⟨rfl, hne⟩
      | err e => rw [hc] at h; cases h
      | panic p => rw [hc] at h; cases h

theorem fromContinuedR_sizes {t : Traversal} {o : Nat} {b : Bytes} {fr : FileReader} (h : FileReader.fromContinuedR t o b = .ok fr) :
    ∀ base z tr, fr.content = (.Links base z, tr) → z ≠ [] := by
  unfold FileReader.fromContinuedR at h
  cases hm : FlatUnixFs.tryParse b with
  | error e => rw [hm] at h; cases h
  | ok m =>
    rw [hm] at h
    dsimp only at h
    split at h
    · cases h
    · rcases fromPartsR_cases m o t.metadata with ⟨-, -, -, h4⟩ | ⟨-, -, e, h3⟩ | ⟨fs, e, h1, h2, h3⟩
      · rw [h4] at h; cases h
      · rw [h3] at h; cases h
      · rw [h3] at h
        cases h
        intro base z tr hc
        simp only [FileReader.content] at hc
        split at hc
        · cases hc
        · next hne =>
          cases hc
          intro hz
          have := congrArg List.length hz
          rw [List.length_zip, h1.sizes, Nat.min_self, ← h1.sizes, List.length_nil, List.length_eq_zero_iff] at this
          exact hne this

theorem continueWalkR_asking {v v' : FileVisit} {b c : Bytes} {cache : Option VisitCache} (hv : Asking v)
    (h : (v.continueWalkR b cache).1 = .ok (c, some v')) : Asking v' := by
  unfold FileVisit.continueWalkR at h
  cases hl : v.pending.getLast? with
  | none => rw [hl] at h; cases h
  | some q =>
    obtain ⟨_, i⟩ := q
    rw [hl] at h
    dsimp only at h
    cases hf : v.state.continueWalkR b i with
    | err e => rw [hf] at h; cases h
    | panic p => rw [hf] at h; cases h
    | ok fr =>
      have hfr : FileReader.fromContinuedR v.state i.lo b = .ok fr := by
        unfold Traversal.continueWalkR at hf
        split at hf
        · cases hf
        · exact hf
      rw [hf] at h
      dsimp only at h
      have hz := fromContinuedR_sizes hfr
      generalize fr.content = fc at h hz
      obtain ⟨fc, t⟩ := fc
      cases fc with
      | Bytes content =>
        dsimp only at h
        rw [hv.1] at h
        dsimp only [maybeTargetSliceR] at h
        split at h
        · next hne => cases h; exact ⟨rfl, hne⟩
        · cases h
      | Links base zipped =>
        dsimp only at h
        rw [hv.1] at h
        cases hm : collectLinksR none 0 base zipped with
        | ok x =>
          rw [hm] at h; cases h
          have := collectLinksR_ne_nil _ _ _ _ (hz _ _ _ rfl) hm
          exact ⟨rfl, by simp [this]⟩
        | err e => rw [hm] at h; cases h
        | panic p => rw [hm] at h; cases h

theorem pendingLinks_asking {v : FileVisit} (h : Asking v) : ∃ c cs, v.pendingLinks = .ok (c, cs) := by
  unfold FileVisit.pendingLinks
  cases hp : v.pending.reverse.map (·.1) with
  | nil => simp at hp; exact (h.2 hp).elim
  | cons c cs => exact ⟨c, cs, rfl⟩

/-- Reading a whole file with a release build panics only at a leaf which does not declare its size: over any store whose leaves
all do, wrong in whatever other way, there is no panic. -/
theorem C68_read (get : Cid → Option Bytes) (root : Bytes) (hroot : LeafSized root) (hget : ∀ c b, get c = some b → LeafSized b) (p : Panic) :
    readFileR get {} root ≠ some (.panic p) := by
  have hfrom : ∀ v, Asking v → readFromR get v ≠ some (.panic p) := by
    intro v hv hx
    refine readFromR.partial_correctness get (fun v x => Asking v → x ≠ .panic p) ?_ v _ hx hv rfl
    clear hx hv v
    intro rec ih v x h hv
    obtain ⟨c, cs, hc⟩ := pendingLinks_asking hv
    rw [hc] at h
    dsimp only at h
    cases hg : get c with
    | none => rw [hg] at h; cases h; intro h; cases h
    | some block =>
      rw [hg] at h
      dsimp only at h
      have hno : ∀ q, (v.continueWalkR block none).1 ≠ .panic q := by
        intro q hq
        rcases (C68_continue v (by rw [hv.1]; intro t h; cases h) block none).1 ⟨q, hq⟩ with h1 | ⟨i, m, -, -, h2, -, -, -, h3, h4 | ⟨r, h4, -⟩⟩
        · simp only [nextInterval, Option.map_eq_none_iff, List.getLast?_eq_none_iff] at h1
          exact hv.2 h1
        · exact hget _ _ hg m h2 h3 h4
        · rw [hv.1] at h4; cases h4
      have hask := fun c v' => continueWalkR_asking (v' := v') (b := block) (c := c) (cache := none) hv
      generalize (v.continueWalkR block none).1 = s at h hno hask
      cases s with
      | panic q => exact (hno q rfl).elim
      | err e => cases h; intro h; cases h
      | ok r =>
        obtain ⟨content, v'⟩ := r
        cases v' with
        | none => cases h; intro h; cases h
        | some v' =>
          dsimp only at h
          cases hr : rec v' with
          | none => rw [hr] at h; cases h
          | some y =>
            have := ih v' y hr (hask _ _ rfl)
            rw [hr] at h
            cases h
            cases y with
            | panic q => intro h; cases h; exact this rfl
            | err e => intro h; cases h
            | ok y => intro h; cases h
  unfold readFileR
  have hno : ∀ q, IdleFileVisit.startR {} root ≠ .panic q := by
    intro q hq
    obtain ⟨m, h1, -, h2, h3⟩ := (C68_start none (by intro t h; cases h) root).1 ⟨q, hq⟩
    exact hroot m h1 h2 h3
  have hask := fun r v => startR_asking (b := root) (r := r) (v := v)
  generalize IdleFileVisit.startR {} root = s at hno hask
  cases s with
  | panic q => exact (hno q rfl).elim
  | err e => intro h; cases h
  | ok r =>
    obtain ⟨content, sz, md, v⟩ := r
    cases v with
    | none => intro h; cases h
    | some v =>
      have := hfrom v (hask _ _ rfl rfl)
      dsimp only
      cases hr : readFromR get v with
      | none => intro h; cases h
      | some y =>
        rw [hr] at this
        cases y with
        | panic q => intro h; cases h; exact this rfl
        | err e => intro h; cases h
        | ok y => intro h; cases h

/-! ### Cases -/

/-- A file whose two links cover 2^64 + 2 bytes by their declared sizes. -/
def hugeFile : Bytes := FlatUnixFs.write
  (.mk [.mk (some (cidOf toySha []).toBytes) none none, .mk (some (cidOf toySha []).toBytes) none none]
    { Ty := .File, filesize := some 3, blocksizes := [U64 - 1, 3] })

/-- A checked build panics on it, a release build goes on with the second interval starting behind its end. -/
theorem C67_differs : (IdleFileVisit.mk none).start hugeFile = .panic .rangeOverflow ∧
    ∃ r v, (IdleFileVisit.mk none).startR hugeFile = .ok r ∧ r.next = some v ∧
      v.pending.map (·.2) = [⟨U64 - 1, 2⟩, ⟨0, U64 - 1⟩] := by
  refine ⟨by decide +kernel, ⟨[], 3, {}, some ⟨[(cidOf toySha [], ⟨U64 - 1, 2⟩), (cidOf toySha [], ⟨0, U64 - 1⟩)], none,
    ⟨.TreeCoverage 3, 0, 3, {}⟩⟩⟩, _, by decide +kernel, rfl, rfl⟩

/-- A leaf without a size makes both builds panic. -/
example : StartPanicsR unsizedLeaf := by
  rw [← C68_start none (by intro t h; cases h)]
  exact ⟨.readerFilesize, by decide +kernel⟩

example : ¬ StartPanicsR hugeFile := by
  rw [← C68_start none (by intro t h; cases h)]
  obtain ⟨r, v, h, -⟩ := C67_differs.2
  rw [h]
  rintro ⟨p, hp⟩
  cases hp

/-- A leaf of 2 bytes for the wanted interval `0..4` panics also in a release build, one of 4 bytes does not. -/
example : ∃ v r, (IdleFileVisit.mk (some ⟨0, 4⟩)).startR (oneLink 4) = .ok r ∧ r.next = some v ∧
    ContinuePanicsR v (FTree.block toySha (.leaf [1, 2])) ∧ ¬ ContinuePanicsR v (FTree.block toySha (.leaf [1, 2, 3, 4])) := by
  refine ⟨⟨[(cidOf toySha [], ⟨0, 4⟩)], some ⟨0, 4⟩, ⟨.TreeCoverage 4, 0, 4, {}⟩⟩,
    ⟨[], 4, {}, some ⟨[(cidOf toySha [], ⟨0, 4⟩)], some ⟨0, 4⟩, ⟨.TreeCoverage 4, 0, 4, {}⟩⟩⟩, by decide +kernel, rfl, ?_, ?_⟩
  · rw [← C68_continue _ (by intro t h; cases h; decide) _ none]
    exact ⟨.visitSlice, by decide +kernel⟩
  · rw [← C68_continue _ (by intro t h; cases h; decide) _ none]
    have : (FileVisit.continueWalkR ⟨[(cidOf toySha [], ⟨0, 4⟩)], some ⟨0, 4⟩, ⟨.TreeCoverage 4, 0, 4, {}⟩⟩
      (FTree.block toySha (.leaf [1, 2, 3, 4])) none).1 = .ok ([1, 2, 3, 4], none) := by decide +kernel
    rw [this]
    rintro ⟨p, hp⟩
    cases hp

/-- `hugeFile` meets the hypotheses of `C68_read`. -/
example : LeafSized hugeFile ∧ ∀ p, readFileR (fun _ => some hugeFile) {} hugeFile ≠ some (.panic p) := by
  have h : LeafSized hugeFile := by
    intro m hm hl hf
    have : FlatUnixFs.tryParse hugeFile = .ok (.mk [.mk (some (cidOf toySha []).toBytes) none none, .mk (some (cidOf toySha []).toBytes) none none]
      { Ty := .File, filesize := some 3, blocksizes := [U64 - 1, 3] }) := by decide +kernel
    rw [this] at hm
    cases hm
    cases hl
  exact ⟨h, fun p => C68_read _ _ h (by intro c b hb; cases hb; exact h) p⟩

end Verif.Props
