import Verif.Props.Reader
import Verif.Spec.Panics
/-
When exactly reading a file panics (C26, C27), and that otherwise errors are returned exactly for the documented reasons.
-/
namespace Verif.Props
open Verif Verif.Spec

theorem passed_or_err (m : FlatUnixFs) (o : Nat) (md : Metadata) :
    Passed m ∨ (¬ Passed m ∧ ∃ e, FileReader.fromParts m o md = .err e) := by
  by_cases h1 : m.data.Ty ≠ .File ∧ m.data.Ty ≠ .Raw
  · refine .inr ⟨fun h => ?_, _, by simp only [FileReader.fromParts]; rw [if_pos h1]⟩
    rcases h.type with h | h
    · exact h1.1 h
    · exact h1.2 h
  by_cases h2 : m.links.length ≠ m.data.blocksizes.length
  · exact .inr ⟨fun h => h2 h.sizes, _, by simp only [FileReader.fromParts]; rw [if_neg h1, if_pos h2]⟩
  by_cases h3 : m.data.Data.getD [] = [] ∧ ¬ m.data.filesize.getD 0 = 0 ∧ m.links = []
  · exact .inr ⟨fun h => h3.2.1 (h.content h3.2.2 h3.1), _, by simp only [FileReader.fromParts]; rw [if_neg h1, if_neg h2, if_pos h3]⟩
  by_cases h4 : (m.data.hashType.isSome ∨ m.data.fanout.isSome)
  · refine .inr ⟨fun h => ?_, _, by simp only [FileReader.fromParts]; rw [if_neg h1, if_neg h2, if_neg h3, if_pos h4]⟩
    rw [h.hashType, h.fanout] at h4
    simp at h4
  refine .inl ⟨?_, Classical.not_not.1 h2, fun ha hb => Classical.byContradiction fun hc => h3 ⟨hb, hc, ha⟩, ?_, ?_⟩
  · rcases Classical.em (m.data.Ty = .File) with h | h
    · exact .inl h
    · exact .inr (Classical.byContradiction fun h' => h1 ⟨h, h'⟩)
  · cases hh : m.data.hashType with
    | none => rfl
    | some _ => simp [hh] at h4
  · cases hh : m.data.fanout with
    | none => rfl
    | some _ => simp [hh] at h4

/-- What the reader makes of a block which passed. -/
theorem passed_eq {m : FlatUnixFs} (h : Passed m) (o : Nat) (md : Metadata) :
    FileReader.fromParts m o md = (do
      let e ← FileReader.endOf m o (m.data.Data.getD [])
      match m.data.filesize with
      | none => .panic .readerFilesize
      | some fs => .ok (.mk o e m.links (m.data.Data.getD []) m.data.blocksizes md fs)) := by
  have h1 : ¬ (m.data.Ty ≠ .File ∧ m.data.Ty ≠ .Raw) := by
    rintro ⟨a, b⟩
    rcases h.type with h | h
    · exact a h
    · exact b h
  have h2 : ¬ (m.links.length ≠ m.data.blocksizes.length) := fun h2 => h2 h.sizes
  have h3 : ¬ (m.data.Data.getD [] = [] ∧ ¬ m.data.filesize.getD 0 = 0 ∧ m.links = []) := fun h3 => h3.2.1 (h.content h3.2.2 h3.1)
  have h4 : ¬ (m.data.hashType.isSome ∨ m.data.fanout.isSome) := by rw [h.hashType, h.fanout]; simp
  simp only [FileReader.fromParts]
  rw [if_neg h1, if_neg h2, if_neg h3, if_neg h4]
  cases m.data.filesize <;> rfl

theorem fromParts_panics_iff (m : FlatUnixFs) (o : Nat) (md : Metadata) :
    (∃ p, FileReader.fromParts m o md = .panic p) ↔
      Passed m ∧ ((m.links = [] ∧ m.data.filesize = none) ∨ ∃ n, m.data.filesize = some n ∧ U64 ≤ o + n) := by
  rcases passed_or_err m o md with hp | ⟨hp, e, he⟩
  · simp only [hp, true_and]
    rw [passed_eq hp]
    by_cases hl : m.links = []
    · cases hf : m.data.filesize with
      | none =>
        simp only [FileReader.endOf, hl, if_true, hf, true_and, true_or, iff_true]
        unfold add64
        split <;> exact ⟨_, rfl⟩
      | some n =>
        simp only [FileReader.endOf, hl, if_true, hf, Option.getD_some, reduceCtorEq, and_false, false_or, Option.some.injEq, exists_eq_left']
        unfold add64
        by_cases h : o + n < U64
        · simp [h, Res.map, Nat.not_le.2 h]
        · simp [h, Res.map, Nat.not_lt.1 h]
    · cases hf : m.data.filesize with
      | none => simp [FileReader.endOf, hl, hf]
      | some n =>
        simp only [FileReader.endOf, hl, if_false, hf, false_and, false_or, Option.some.injEq, exists_eq_left']
        unfold add64
        by_cases h : o + n < U64
        · simp [h, Res.map, Nat.not_le.2 h]
        · simp [h, Res.map, Nat.not_lt.1 h]
  · rw [he]
    simp [hp]

theorem collectLinks_panics_iff {target : Option Rng} (z : List (PBLink × Nat)) (nth base : Nat) :
    (∃ p, collectLinks target nth base z = .panic p) ↔
      ∃ k, k < z.length ∧ U64 ≤ (linkInterval base z k).hi ∧
        ∀ j l n, j < k → z[j]? = some (l, n) → touchesO target (linkInterval base z j) = true →
          ∃ cid, Cid.tryFrom (l.Hash.getD []) = .ok cid := by
  induction z generalizing nth base with
  | nil => simp [collectLinks]
  | cons x z ih =>
    obtain ⟨l, n⟩ := x
    have h0 : linkInterval base ((l, n) :: z) 0 = ⟨base, base + n⟩ := by simp [linkInterval]
    by_cases hs : base + n < U64
    · have hih := ih (nth + 1) (base + n)
      have hshift : (∃ k, k < ((l, n) :: z).length ∧ U64 ≤ (linkInterval base ((l, n) :: z) k).hi ∧
            ∀ j l' n', j < k → ((l, n) :: z)[j]? = some (l', n') → touchesO target (linkInterval base ((l, n) :: z) j) = true →
              ∃ cid, Cid.tryFrom (l'.Hash.getD []) = .ok cid) ↔
          (touchesO target ⟨base, base + n⟩ = true → ∃ cid, Cid.tryFrom (l.Hash.getD []) = .ok cid) ∧
          (∃ k, k < z.length ∧ U64 ≤ (linkInterval (base + n) z k).hi ∧
            ∀ j l n', j < k → z[j]? = some (l, n') → touchesO target (linkInterval (base + n) z j) = true →
              ∃ cid, Cid.tryFrom (l.Hash.getD []) = .ok cid) := by
        constructor
        · rintro ⟨k, hk, ho, hj⟩
          cases k with
          | zero => rw [h0] at ho; simp only at ho; omega
          | succ k =>
            rw [linkInterval_succ] at ho
            refine ⟨fun ht => hj 0 l n (by omega) rfl (by rw [h0]; exact ht), k, by simpa using hk, ho, fun j l' n' hjk hz ht => ?_⟩
            exact hj (j + 1) l' n' (by omega) (by simpa using hz) (by rw [linkInterval_succ]; exact ht)
        · rintro ⟨h1, k, hk, ho, hj⟩
          refine ⟨k + 1, by simpa using hk, by rw [linkInterval_succ]; exact ho, fun j l' n' hjk hz ht => ?_⟩
          cases j with
          | zero =>
            simp at hz; obtain ⟨rfl, rfl⟩ := hz
            rw [h0] at ht; exact h1 ht
          | succ j =>
            rw [linkInterval_succ] at ht
            exact hj j l' n' (by omega) (by simpa using hz) ht
      rw [hshift, ← hih]
      simp only [collectLinks, add64]
      rw [if_pos hs]
      simp only [Res.bind_ok]
      rw [inTarget_eq _ (by simp)]
      by_cases ht : touchesO target ⟨base, base + n⟩ = true
      · simp only [ht, Bool.true_eq_false, if_false, toPending, forall_const]
        cases hc : Cid.tryFrom (l.Hash.getD []) with
        | error e => simp
        | ok cid =>
          simp only [Res.bind_ok, Except.ok.injEq, exists_eq', true_and]
          cases hr : collectLinks target (nth + 1) (base + n) z <;> simp
      · have ht' : touchesO target ⟨base, base + n⟩ = false := by simpa using ht
        simp [ht']
    · have hp : collectLinks target nth base ((l, n) :: z) = .panic .rangeOverflow := by
        simp only [collectLinks, add64]
        rw [if_neg hs]; rfl
      rw [hp]
      simp only [Res.panic.injEq, exists_eq', true_iff]
      exact ⟨0, by simp, by rw [h0]; simp only; omega, fun j _ _ hj => by omega⟩

theorem linkInterval_zip' {ls : List PBLink} {ns : List Nat} (h : ls.length = ns.length) (base k : Nat) :
    linkInterval base (ls.zip ns) k = intervalOf base ns k := by
  have hs : ∀ j, ((ls.zip ns).take j).map (·.2) = ns.take j := by
    intro j
    rw [List.map_take, List.map_snd_zip (by omega)]
  simp [linkInterval, intervalOf, hs]

theorem collect_panics_iff {target : Option Rng} {m : FlatUnixFs} (h : m.links.length = m.data.blocksizes.length) (base : Nat) :
    (∃ p, collectLinks target 0 base (m.links.zip m.data.blocksizes) = .panic p) ↔ IntervalOverflows target base m := by
  rw [collectLinks_panics_iff]
  unfold IntervalOverflows
  simp only [linkInterval_zip' h]
  refine exists_congr (fun k => ?_)
  rw [List.length_zip, ← h, Nat.min_self]
  refine and_congr_right (fun hk => and_congr_right (fun _ => ?_))
  constructor
  · intro hj j l hjk hl ht
    have hjl : j < m.links.length := by omega
    exact hj j l (m.data.blocksizes[j]'(by omega)) hjk (by rw [List.getElem?_zip_eq_some]; exact ⟨hl, by simp⟩) ht
  · intro hj j l n hjk hz ht
    exact hj j l hjk (List.getElem?_zip_eq_some.1 hz).1 ht

theorem collectLinks_err {target : Option Rng} {z : List (PBLink × Nat)} {nth base : Nat} {e : FileReadFailed}
    (h : collectLinks target nth base z = .err e) :
    ∃ k l n ce, z[k]? = some (l, n) ∧ touchesO target (linkInterval base z k) = true ∧
      Cid.tryFrom (l.Hash.getD []) = .error ce ∧ e = .InvalidCid (.of (nth + k) l ce) := by
  induction z generalizing nth base with
  | nil => cases h
  | cons x z ih =>
    obtain ⟨l, n⟩ := x
    have h0 : linkInterval base ((l, n) :: z) 0 = ⟨base, base + n⟩ := by simp [linkInterval]
    simp only [collectLinks, add64] at h
    by_cases hs : base + n < U64
    · rw [if_pos hs] at h
      simp only [Res.bind_ok] at h
      rw [inTarget_eq _ (by simp)] at h
      have step : ∀ {r}, collectLinks target (nth + 1) (base + n) z = .err r → r = e → ∃ k l' n' ce, ((l, n) :: z)[k]? = some (l', n') ∧
          touchesO target (linkInterval base ((l, n) :: z) k) = true ∧
          Cid.tryFrom (l'.Hash.getD []) = .error ce ∧ e = .InvalidCid (.of (nth + k) l' ce) := by
        rintro r hr rfl
        obtain ⟨k, l', n', ce, h1, h2, h3, h4⟩ := ih hr
        exact ⟨k + 1, l', n', ce, by simpa using h1, by rw [linkInterval_succ]; exact h2, h3, by rw [h4, Nat.add_right_comm, Nat.add_assoc]⟩
      by_cases ht : touchesO target ⟨base, base + n⟩ = true
      · simp only [ht, Bool.true_eq_false, if_false, toPending] at h
        cases hc : Cid.tryFrom (l.Hash.getD []) with
        | error ce =>
          simp only [hc, Res.bind_err, Res.err.injEq] at h
          exact ⟨0, l, n, ce, rfl, by rw [h0]; exact ht, hc, h.symm⟩
        | ok cid =>
          simp only [hc, Res.bind_ok] at h
          cases hr : collectLinks target (nth + 1) (base + n) z with
          | ok _ => simp [hr] at h
          | panic _ => simp [hr] at h
          | err r => simp [hr] at h; exact step hr h
      · have ht' : touchesO target ⟨base, base + n⟩ = false := by simpa using ht
        simp only [ht', if_true] at h
        exact step h rfl
    · rw [if_neg hs] at h; cases h

theorem collectLinks_ok_sum {target : Option Rng} {z : List (PBLink × Nat)} {nth base : Nat} {ps : List Pending}
    (h : collectLinks target nth base z = .ok ps) (hb : base < U64) : base + (z.map (·.2)).sum < U64 := by
  induction z generalizing nth base ps with
  | nil => simpa using hb
  | cons x z ih =>
    obtain ⟨l, n⟩ := x
    simp only [collectLinks] at h
    rw [Res.bind_ok_iff] at h
    obtain ⟨stop, hs, h⟩ := h
    obtain ⟨h1, rfl⟩ := add64_ok_iff.1 hs
    simp only [List.map_cons, List.sum_cons]
    split at h
    · have := ih h h1; omega
    · rw [Res.bind_ok_iff] at h
      obtain ⟨p, hp, h⟩ := h
      rw [Res.bind_ok_iff] at h
      obtain ⟨ps', hps, h⟩ := h
      have := ih hps h1; omega

theorem start_ok_sane {target : Option Rng} {b : Bytes} {r : FileVisitResult} (h : (IdleFileVisit.mk target).start b = .ok r) :
    ∃ m, FlatUnixFs.tryParse b = .ok m ∧ m.data.filesize ≠ none ∧ m.data.blocksizes.sum < U64 := by
  cases hm : FlatUnixFs.tryParse b with
  | error e' =>
    have hst : (IdleFileVisit.mk target).start b = .err (.ofParsing e') := by
      simp [IdleFileVisit.start, FileReader.fromBlock, hm]
    rw [hst] at h; cases h
  | ok m =>
    have hst : (IdleFileVisit.mk target).start b =
        (do let fr ← FileReader.fromParts m 0 (Metadata.ofUnixFs m.data)
            ((IdleFileVisit.mk target).startFromReader fr none).1) := by
      simp [IdleFileVisit.start, FileReader.fromBlock, hm]
    rw [hst] at h
    cases hr : FileReader.fromParts m 0 (Metadata.ofUnixFs m.data) with
    | panic p => rw [hr] at h; cases h
    | err e' => rw [hr] at h; cases h
    | ok fr =>
      obtain ⟨fs, ha, rfl⟩ := fromParts_ok hr
      refine ⟨m, rfl, by rw [ha.filesize]; simp, ?_⟩
      by_cases hl : m.links = []
      · have hbs : m.data.blocksizes = [] := by
          have := ha.sizes
          rw [hl] at this; exact List.length_eq_zero_iff.1 this.symm
        rw [hbs]; decide
      · rw [hr] at h
        simp only [Res.bind_ok, IdleFileVisit.startFromReader, FileReader.content, hl, if_false] at h
        cases hc : collectLinks target 0 0 (m.links.zip m.data.blocksizes) with
        | panic p => rw [hc] at h; cases h
        | err e => rw [hc] at h; cases h
        | ok ps =>
          have := collectLinks_ok_sum hc (by decide)
          rw [List.map_snd_zip (by rw [ha.sizes]; exact Nat.le_refl _)] at this
          omega

/-! ### C26 -/

/-- Starting a visit panics exactly for the blocks described by `StartPanics`. -/
theorem C26_panics_iff (target : Option Rng) (b : Bytes) :
    (∃ p, (IdleFileVisit.mk target).start b = .panic p) ↔ StartPanics target b := by
  cases hm : FlatUnixFs.tryParse b with
  | error e =>
    have hst : (IdleFileVisit.mk target).start b = .err (.ofParsing e) := by
      simp [IdleFileVisit.start, FileReader.fromBlock, hm]
    rw [hst]
    simp [StartPanics, hm]
  | ok m =>
    have hst : (IdleFileVisit.mk target).start b =
        (do let fr ← FileReader.fromParts m 0 (Metadata.ofUnixFs m.data)
            ((IdleFileVisit.mk target).startFromReader fr none).1) := by
      simp [IdleFileVisit.start, FileReader.fromBlock, hm]
    have hsp : StartPanics target b ↔ Passed m ∧ ((m.links = [] ∧ m.data.filesize = none) ∨
        (m.links ≠ [] ∧ m.data.filesize ≠ none ∧ IntervalOverflows target 0 m)) := by
      unfold StartPanics
      constructor
      · rintro ⟨m', h, h'⟩; rw [hm] at h; cases h; exact h'
      · intro h; exact ⟨m, hm, h⟩
    rw [hsp]
    have hfp := fromParts_panics_iff m 0 (Metadata.ofUnixFs m.data)
    have hfp' : (∃ p, FileReader.fromParts m 0 (Metadata.ofUnixFs m.data) = .panic p) ↔ Passed m ∧ m.links = [] ∧ m.data.filesize = none := by
      rw [hfp]
      refine and_congr_right (fun _ => ⟨?_, fun h => .inl h⟩)
      rintro (h | ⟨n, hn, hlt⟩)
      · exact h
      · have := filesize_lt hm hn; omega
    cases hr : FileReader.fromParts m 0 (Metadata.ofUnixFs m.data) with
    | panic p =>
      have := hfp'.1 ⟨p, hr⟩
      rw [hst, hr]
      simp [this]
    | err e =>
      rw [hst, hr]
      refine ⟨(by rintro ⟨p, hp⟩; cases hp), ?_⟩
      rintro ⟨hp, h | ⟨hl, hf, -⟩⟩
      · obtain ⟨p, hp'⟩ := hfp'.2 ⟨hp, h⟩
        rw [hr] at hp'; cases hp'
      · obtain ⟨n, hn⟩ := Option.ne_none_iff_exists'.1 hf
        have := fromParts_node ⟨hp.type, hp.hashType, hp.fanout⟩ hl hp.sizes hn 0 (Metadata.ofUnixFs m.data)
          (by have := filesize_lt hm hn; omega)
        rw [hr] at this; cases this
    | ok fr =>
      obtain ⟨fs, ha, rfl⟩ := fromParts_ok hr
      have hpass : Passed m := by
        rcases passed_or_err m 0 (Metadata.ofUnixFs m.data) with h | ⟨-, e, he⟩
        · exact h
        · rw [hr] at he; cases he
      rw [hst, hr]
      simp only [Res.bind_ok, hpass, true_and, ha.filesize, reduceCtorEq, and_false, false_or, ne_eq, not_false_eq_true]
      by_cases hl : m.links = []
      · have hs := maybeTargetSlice_eq (ε := FileReadFailed) (m.data.Data.getD []) 0 target
        simp only [Nat.zero_add] at hs
        simp [IdleFileVisit.startFromReader, FileReader.content, hl, hs]
      · rw [← collect_panics_iff ha.sizes]
        simp only [IdleFileVisit.startFromReader, FileReader.content, hl, if_false, not_false_eq_true, true_and]
        cases hc : collectLinks target 0 0 (m.links.zip m.data.blocksizes) with
        | panic p => simp
        | err e => simp
        | ok ps =>
          refine ⟨?_, by rintro ⟨p, hp⟩; cases hp⟩
          rintro ⟨p, hp⟩
          simp only at hp
          split at hp <;> cases hp

/-- For every block at all: an error which is returned is a documented reason. -/
theorem start_err {target : Option Rng} {b : Bytes} {e : FileReadFailed} (h : (IdleFileVisit.mk target).start b = .err e) :
    Refused target b e := by
  cases hm : FlatUnixFs.tryParse b with
  | error e' =>
    have hst : (IdleFileVisit.mk target).start b = .err (.ofParsing e') := by
      simp [IdleFileVisit.start, FileReader.fromBlock, hm]
    rw [hst] at h
    cases h
    cases e' with
    | InvalidDagPb e => exact .dagPb hm
    | NoData n => exact .noData hm
    | InvalidUnixFs e n => exact .unixFs hm
  | ok m =>
    by_cases hs : Sane b
    · exact (C26_start_partial target b hs).2.1 e h
    · have hst : (IdleFileVisit.mk target).start b =
          (do let fr ← FileReader.fromParts m 0 (Metadata.ofUnixFs m.data)
              ((IdleFileVisit.mk target).startFromReader fr none).1) := by
        simp [IdleFileVisit.start, FileReader.fromBlock, hm]
      rw [hst] at h
      cases hr : FileReader.fromParts m 0 (Metadata.ofUnixFs m.data) with
      | panic p => rw [hr] at h; cases h
      | err e' =>
        rw [hr] at h
        cases h
        unfold FileReader.fromParts at hr
        simp only at hr
        split at hr
        · next h1 => cases hr; exact .type hm h1.1 h1.2
        split at hr
        · next h2 => cases hr; exact .mismatch hm h2
        split at hr
        · next h3 =>
          cases hr
          cases hf : m.data.filesize with
          | none => simp [hf] at h3
          | some n => exact .noContent hm h3.2.2 h3.1 hf (by simpa [hf] using h3.2.1)
        split at hr
        · next h4 =>
          cases hr
          refine .properties hm ?_
          rcases h4 with h | h
          · left; intro h'; simp [h'] at h
          · right; intro h'; simp [h'] at h
        unfold FileReader.endOf at hr
        by_cases hl : m.links = []
        · simp only [hl, if_true] at hr
          unfold add64 at hr
          split at hr
          · cases hf : m.data.filesize <;> simp [hf, Res.map] at hr
          · simp [Res.map] at hr
        · cases hf : m.data.filesize with
          | none =>
            simp [hf, hl] at hr
            subst hr
            exact .noFilesize hm hl hf
          | some n =>
            simp only [hl, if_false, hf] at hr
            unfold add64 at hr
            split at hr <;> simp [Res.map] at hr
      | ok fr =>
        obtain ⟨fs, ha, rfl⟩ := fromParts_ok hr
        rw [hr] at h
        simp only [Res.bind_ok] at h
        by_cases hl : m.links = []
        · have hs := maybeTargetSlice_eq (ε := FileReadFailed) (m.data.Data.getD []) 0 target
          simp only [Nat.zero_add] at hs
          simp [IdleFileVisit.startFromReader, FileReader.content, hl, hs] at h
        · simp only [IdleFileVisit.startFromReader, FileReader.content, hl, if_false] at h
          cases hc : collectLinks target 0 0 (m.links.zip m.data.blocksizes) with
          | panic p => rw [hc] at h; cases h
          | ok ps => rw [hc] at h; simp only at h; split at h <;> cases h
          | err e' =>
            rw [hc] at h
            cases h
            obtain ⟨k, l, n, ce, h1, h2, h3, h4⟩ := collectLinks_err hc
            rw [linkInterval_zip ha.sizes] at h2
            subst h4
            rw [Nat.zero_add]
            exact .cid hm (List.getElem?_zip_eq_some.1 h1).1 h2 h3

/-- For every block: `start` panics exactly for `StartPanics`; otherwise it fails exactly when there is a documented reason,
and what it returns is such a reason. -/
theorem C26_exact_partial (target : Option Rng) (b : Bytes) :
    ((∃ p, (IdleFileVisit.mk target).start b = .panic p) ↔ StartPanics target b) ∧
    (∀ e, (IdleFileVisit.mk target).start b = .err e → Refused target b e) ∧
    (¬ StartPanics target b → (∃ e, Refused target b e) → ∃ e, (IdleFileVisit.mk target).start b = .err e) := by
  refine ⟨C26_panics_iff target b, fun e h => start_err h, ?_⟩
  rintro hn ⟨e, he⟩
  cases hr : (IdleFileVisit.mk target).start b with
  | err e => exact ⟨e, rfl⟩
  | panic p => exact absurd ((C26_panics_iff target b).1 ⟨p, hr⟩) hn
  | ok r =>
    exfalso
    obtain ⟨m, hm, hfs, hsum⟩ := start_ok_sane hr
    by_cases hs : m.data.blocksizes.sum < U64
    · have := (C26_start_partial target b (fun m' hm' => by rw [hm] at hm'; cases hm'; exact ⟨fun _ => hfs, hs⟩)).2.2 ⟨e, he⟩
      rw [hr] at this
      obtain ⟨_, h⟩ := this
      cases h
    · exact hs hsum

/-- A leaf which does not declare its size is such a block, as is a link block whose sizes overflow. -/
def overflowing : FlatUnixFs :=
  .mk [.mk (some (cidOf toySha []).toBytes) none none, .mk (some []) none none]
    { Ty := .File, filesize := some 1, blocksizes := [U64 - 1, 1] }
example : StartPanics none unsizedLeaf := (C26_exact_partial none unsizedLeaf).1.1 ⟨_, C26_unsized_panics⟩
example : StartPanics none overflowing.write := by
  rw [← (C26_exact_partial none _).1]
  exact ⟨.rangeOverflow, by decide +kernel⟩
/-- But an invalid Cid before the overflow is reported. -/
example : ¬ StartPanics none (FlatUnixFs.mk overflowing.links.reverse overflowing.data).write := by
  rw [← (C26_exact_partial none _).1]
  have : ∃ e, (IdleFileVisit.mk none).start (FlatUnixFs.mk overflowing.links.reverse overflowing.data).write = .err e := by
    have : (match (IdleFileVisit.mk none).start (FlatUnixFs.mk overflowing.links.reverse overflowing.data).write with
      | .err _ => true | _ => false) = true := by decide +kernel
    split at this
    · next e h => exact ⟨e, h⟩
    · cases this
  obtain ⟨e, he⟩ := this
  rw [he]
  rintro ⟨p, hp⟩
  cases hp

/-! ### C27 -/

theorem follows_iff (prev : Ending) (offset : Nat) (i : Rng) :
    Follows prev offset i ↔ prev.checkIsSuitableNext offset i = .ok () := by
  cases prev with
  | Chunk e =>
    simp only [Follows, Ending.checkIsSuitableNext]
    by_cases h : i.lo = e <;> simp [h]
  | TreeCoverage e =>
    simp only [Follows, Ending.checkIsSuitableNext]
    split
    · simp; omega
    split
    · simp; omega
    split
    · simp; omega
    · simp; omega

theorem targetSlice_panics_iff {ε : Type} {content : Bytes} {i r : Rng} (h1 : i.lo ≤ i.hi) :
    (∃ p, (targetSlice content i r : Res ε Bytes) = .panic p) ↔
      touches r i = true ∧ i.lo + content.length < min r.hi i.hi := by
  unfold targetSlice
  rw [inTarget_eq _ h1 (some r)]
  by_cases ht : touches r i = true
  · have ht' := ht
    simp only [touches, decide_eq_true_eq] at ht'
    simp only [touchesO, ht, Bool.true_eq_false, if_false, true_and]
    split
    · simp only [sub64]
      rw [if_pos (by omega)]
      simp only [Res.bind_ok, sliceChecked]
      by_cases hs : min r.hi i.hi - i.lo ≤ content.length
      · rw [if_pos ⟨by omega, hs⟩]
        exact ⟨(by rintro ⟨p, hp⟩; cases hp), fun h => by omega⟩
      · rw [if_neg (fun h => hs h.2)]
        exact ⟨fun _ => by omega, fun _ => ⟨_, rfl⟩⟩
    · split
      · simp only [sub64]
        rw [if_pos (by omega), if_pos (by omega)]
        simp only [Res.bind_ok, sliceChecked]
        by_cases hs : min r.hi i.hi - i.lo ≤ content.length
        · rw [if_pos ⟨by omega, hs⟩]
          exact ⟨(by rintro ⟨p, hp⟩; cases hp), fun h => by omega⟩
        · rw [if_neg (fun h => hs h.2)]
          exact ⟨fun _ => by omega, fun _ => ⟨_, rfl⟩⟩
      · simp only [sub64]
        rw [if_pos (by omega), if_pos (by omega)]
        simp only [Res.bind_ok, sliceChecked]
        by_cases hs : r.lo - i.lo + (r.hi - r.lo) ≤ content.length
        · rw [if_pos ⟨by omega, hs⟩]
          exact ⟨(by rintro ⟨p, hp⟩; cases hp), fun h => by omega⟩
        · rw [if_neg (fun h => hs h.2)]
          exact ⟨fun _ => by omega, fun _ => ⟨_, rfl⟩⟩
  · simp [touchesO, ht]

/-- Continuing a visit panics exactly for the blocks described by `ContinuePanics`, whatever blocks were given before. -/
theorem C27_visit_exact_partial (target : Option Rng) (root : Bytes) (ls : List Leaf) (v : FileVisit) (h : Visiting target root ls v)
    (block : Bytes) (cache : Option VisitCache) :
    (∃ p, (v.continueWalk block cache).1 = .panic p) ↔ ContinuePanics target v block := by
  obtain ⟨-, hr, hbound, -⟩ := visiting_inv h
  unfold ContinuePanics
  cases hP : v.pending.getLast? with
  | none =>
    have hi : nextInterval v = none := by simp [nextInterval, hP]
    simp only [hi, true_or, iff_true]
    exact ⟨.visitNoNext, by simp only [FileVisit.continueWalk, hP]⟩
  | some p =>
    obtain ⟨pc, i⟩ := p
    have hi : nextInterval v = some i := by simp [nextInterval, hP]
    have hle := (hbound _ (List.mem_of_getLast? hP)).1
    simp only [hi, reduceCtorEq, false_or, Option.some.injEq, FileVisit.continueWalk, hP, Traversal.continueWalk]
    cases hck : v.state.last_ending.checkIsSuitableNext v.state.last_offset i with
    | error e =>
      refine ⟨(by rintro ⟨p, hp⟩; cases hp), ?_⟩
      rintro ⟨i', m, rfl, hf, -⟩
      rw [follows_iff, hck] at hf; cases hf
    | ok u =>
      have hfol : Follows v.state.last_ending v.state.last_offset i := by rw [follows_iff, hck]
      cases hm : FlatUnixFs.tryParse block with
      | error e =>
        simp only [FileReader.fromContinued, hm]
        refine ⟨(by rintro ⟨p, hp⟩; cases hp), ?_⟩
        rintro ⟨i', m, -, -, hm', -⟩
        cases hm'
      | ok m =>
        simp only [FileReader.fromContinued, hm]
        by_cases hmeta : (m.data.mode.isSome ∨ m.data.mtime.isSome)
        · rw [if_pos hmeta]
          refine ⟨(by rintro ⟨p, hp⟩; cases hp), ?_⟩
          rintro ⟨i', m', -, -, hm', h1, h2, -⟩
          cases hm'
          rw [h1, h2] at hmeta
          simp at hmeta
        · rw [if_neg hmeta]
          have hmode : m.data.mode = none := by
            cases hh : m.data.mode with
            | none => rfl
            | some _ => simp [hh] at hmeta
          have hmtime : m.data.mtime = none := by
            cases hh : m.data.mtime with
            | none => rfl
            | some _ => simp [hh] at hmeta
          have hrhs : ∀ P : Rng → FlatUnixFs → Prop, (∃ i' m', i = i' ∧ Follows v.state.last_ending v.state.last_offset i' ∧
              (Except.ok m : Except ParsingFailed FlatUnixFs) = .ok m' ∧ m'.data.mode = none ∧ m'.data.mtime = none ∧ Passed m' ∧ P i' m') ↔
              Passed m ∧ P i m := by
            intro P
            constructor
            · rintro ⟨i', m', rfl, -, hm', -, -, h⟩; cases hm'; exact h
            · intro h; exact ⟨i, m, rfl, hfol, rfl, hmode, hmtime, h⟩
          rw [hrhs (fun i m => (m.links = [] ∧ m.data.filesize = none) ∨
             (∃ n, m.data.filesize = some n ∧ U64 ≤ i.lo + n) ∨
             (m.links ≠ [] ∧ m.data.filesize ≠ none ∧ IntervalOverflows target i.lo m) ∨
             (m.links = [] ∧ ∃ r, target = some r ∧ touches r i = true ∧ i.lo + (m.data.Data.getD []).length < min r.hi i.hi))]
          have hfp := fromParts_panics_iff m i.lo v.state.metadata
          cases hfr : FileReader.fromParts m i.lo v.state.metadata with
          | panic p =>
            have := hfp.1 ⟨p, hfr⟩
            simp only [Res.panic.injEq, exists_eq', true_iff]
            refine ⟨this.1, ?_⟩
            rcases this.2 with h | h
            · exact .inl h
            · exact .inr (.inl h)
          | err e =>
            refine ⟨(by rintro ⟨p, hp⟩; cases hp), ?_⟩
            rintro ⟨hp, h⟩
            have hno : ¬ ((m.links = [] ∧ m.data.filesize = none) ∨ ∃ n, m.data.filesize = some n ∧ U64 ≤ i.lo + n) := by
              intro h'
              obtain ⟨p, hp'⟩ := hfp.2 ⟨hp, h'⟩
              rw [hfr] at hp'; cases hp'
            exfalso
            have hsome : m.data.filesize ≠ none → False := by
              intro hf
              obtain ⟨n, hn⟩ := Option.ne_none_iff_exists'.1 hf
              have hlt : i.lo + n < U64 := Nat.lt_of_not_le (fun h' => hno (.inr ⟨n, hn, h'⟩))
              rw [passed_eq hp] at hfr
              by_cases hl : m.links = []
              · simp [FileReader.endOf, hl, hn, add64, hlt, Res.map] at hfr
              · simp [FileReader.endOf, hl, hn, add64, hlt, Res.map] at hfr
            rcases h with h | h | h | h
            · exact hno (.inl h)
            · exact hno (.inr h)
            · exact hsome h.2.1
            · exact hsome (fun h' => hno (.inl ⟨h.1, h'⟩))
          | ok fr =>
            obtain ⟨fs, ha, rfl⟩ := fromParts_ok hfr
            have hpass : Passed m := by
              rcases passed_or_err m i.lo v.state.metadata with h | ⟨-, e, he⟩
              · exact h
              · rw [hfr] at he; cases he
            have hfits := ha.fits
            simp only [hpass, true_and, ha.filesize, reduceCtorEq, and_false, false_or, ne_eq, not_false_eq_true,
              Option.some.injEq, exists_eq_left', Nat.not_le.2 hfits]
            by_cases hl : m.links = []
            · simp only [hl, FileReader.content, if_true, hr, not_true_eq_false, false_and, false_or, true_and]
              cases target with
              | none =>
                refine ⟨?_, by rintro ⟨r, hr, -⟩; cases hr⟩
                rintro ⟨p, hp⟩
                simp only [maybeTargetSlice] at hp
                split at hp <;> cases hp
              | some r =>
                have := targetSlice_panics_iff (ε := FileReadFailed) (content := m.data.Data.getD []) (r := r) hle
                simp only [Option.some.injEq, exists_eq_left', maybeTargetSlice]
                rw [← this]
                cases hts : targetSlice (ε := FileReadFailed) (m.data.Data.getD []) i r with
                | ok c =>
                  refine ⟨?_, by rintro ⟨p, hp⟩; cases hp⟩
                  rintro ⟨p, hp⟩
                  simp only at hp
                  split at hp <;> cases hp
                | err e => simp
                | panic q => simp
            · simp only [hl, FileReader.content, if_false, hr, not_false_eq_true, true_and, false_and, or_false]
              rw [← collect_panics_iff ha.sizes]
              cases hc : collectLinks target 0 i.lo (m.links.zip m.data.blocksizes) with
              | ok ps => simp
              | err e => simp
              | panic p => simp

/-- Reached with arbitrary blocks: a leaf of 2 bytes for the wanted interval `0..4` panics, one of 4 bytes does not. -/
example : ∃ v, Visiting (some ⟨0, 4⟩) (oneLink 4) [] v ∧ ContinuePanics (some ⟨0, 4⟩) v (FTree.block toySha (.leaf [1, 2])) ∧
    ¬ ContinuePanics (some ⟨0, 4⟩) v (FTree.block toySha (.leaf [1, 2, 3, 4])) := by
  have h1 : (IdleFileVisit.mk (some ⟨0, 4⟩)).start (oneLink 4) =
      .ok ⟨[], 4, {}, some ⟨[(cidOf toySha [], ⟨0, 4⟩)], some ⟨0, 4⟩, ⟨.TreeCoverage 4, 0, 4, {}⟩⟩⟩ := by decide +kernel
  have hv := Visiting.start h1 rfl
  refine ⟨_, hv, ?_, ?_⟩
  · rw [← C27_visit_exact_partial _ _ _ _ hv _ none]
    exact ⟨.visitSlice, by decide +kernel⟩
  · rw [← C27_visit_exact_partial _ _ _ _ hv _ none]
    have : (FileVisit.continueWalk ⟨[(cidOf toySha [], ⟨0, 4⟩)], some ⟨0, 4⟩, ⟨.TreeCoverage 4, 0, 4, {}⟩⟩
      (FTree.block toySha (.leaf [1, 2, 3, 4])) none).1 = .ok ([1, 2, 3, 4], none) := by decide +kernel
    rw [this]
    rintro ⟨p, hp⟩
    cases hp

end Verif.Props
