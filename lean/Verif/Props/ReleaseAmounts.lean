import Verif.Spec.ReleaseAmounts
import Verif.Props.Amounts
import Verif.Props.ReleaseSafe
/-
C116: a ranged read of a release build returns no more than was asked for.
-/
namespace Verif.Props
open Verif Verif.Spec

/-- The full statement: if every leaf declares the size of its data, a read with a range never returns more bytes than the range has. -/
def C116_full : Prop := ∀ (t : Rng), t.lo < U64 → t.hi < U64 → ∀ (root out : Bytes) (next : Option FileVisit),
  ReturnedRel HonestLeafRel (some t) root out next → out.length ≤ t.hi - t.lo

theorem sliceR_eq {ε : Type} {content : Bytes} {i r : Rng} (hr : r.lo < U64 ∧ r.hi < U64) :
    (targetSliceR content i r : Res ε Bytes) = targetSlice content i r := by
  unfold targetSlice targetSliceR
  by_cases h1 : blockIsInTargetRange i (some r) = false
  · rw [if_pos h1, if_pos h1]
  rw [if_neg h1, if_neg h1]
  have hin : blockIsInTargetRange i (some r) = true := by simpa using h1
  simp only [blockIsInTargetRange, decide_eq_true_eq] at hin
  by_cases h2 : r.lo < i.lo
  · rw [if_pos h2, if_pos h2, subW_eq (by omega) (by omega), sub64, if_pos (by omega)]; rfl
  rw [if_neg h2, if_neg h2]
  by_cases h3 : r.hi > i.hi
  · rw [if_pos h3, if_pos h3, subW_eq (by omega) (by omega), subW_eq (a := min r.hi i.hi) (by omega) (by omega), sub64, sub64,
      if_pos (by omega), if_pos (by omega)]
    rfl
  · rw [if_neg h3, if_neg h3, subW_eq (by omega) (by omega), subW_eq (a := r.hi) (by omega) (by omega), addW_eq (by omega), sub64,
      sub64, if_pos (by omega), if_pos (by omega)]
    rfl

/-- All that waits touches the target. -/
theorem collectLinksR_touches (t : Rng) : ∀ (z : List (PBLink × Nat)) (i base : Nat) (ps : List Pending),
    collectLinksR (some t) i base z = .ok ps → ∀ p ∈ ps, p.2.lo ≤ p.2.hi ∧ p.2.lo ≤ t.hi
  | [], _, _, ps, h => by cases h; nofun
  | (l, n) :: z, i, base, ps, h => by
    rw [collectLinksR] at h
    split at h
    · exact collectLinksR_touches t z _ _ ps h
    · rename_i hb
      have hin : blockIsInTargetRange ⟨base, addW base n⟩ (some t) = true := by simpa using hb
      simp only [blockIsInTargetRange, decide_eq_true_eq] at hin
      unfold toPending at h
      cases hc : Cid.tryFrom (l.Hash.getD []) with
      | error e => rw [hc] at h; cases h
      | ok c =>
        rw [hc] at h
        simp only [Res.bind_ok] at h
        cases hq : collectLinksR (some t) (i + 1) (addW base n) z with
        | panic q => rw [hq] at h; cases h
        | err e' => rw [hq] at h; cases h
        | ok qs =>
          rw [hq] at h
          cases h
          intro p hp
          rcases List.mem_cons.1 hp with rfl | hp
          · dsimp only
            omega
          · exact collectLinksR_touches t z _ _ qs hq p hp

theorem passed_end {m : FlatUnixFs} {o fs : Nat} {md : Metadata} (h : Passed m) (hf : m.data.filesize = some fs) :
    FileReader.fromPartsR m o md =
      .ok (.mk o (if m.links = [] then .Chunk (addW o fs) else .TreeCoverage (addW o fs)) m.links (m.data.Data.getD []) m.data.blocksizes md fs) := by
  rw [passed_eqR h, FileReader.endOfR, hf]
  by_cases hl : m.links = []
  · simp [hl]
  · simp [hl]

/-- How a first block goes. -/
theorem startRel_ok {target : Option Rng} {b : Bytes} {r : FileVisitResult} (h : (IdleFileVisit.mk target).startRel b = some (.ok r)) :
    ∃ m fs, Reads b m ∧ m.data.filesize = some fs ∧
      (m.links = [] → r.next = none ∧ maybeTargetSliceR (ε := FileReadFailed) (m.data.Data.getD []) ⟨0, (m.data.Data.getD []).length⟩ target = .ok r.content) ∧
      (m.links ≠ [] → r.content = [] ∧ ∃ ps, collectLinksR target 0 0 (m.links.zip m.data.blocksizes) = .ok ps ∧
        ∀ v, r.next = some v → v = ⟨ps.reverse, target, ⟨.TreeCoverage (addW 0 fs), 0, fs, Metadata.ofUnixFs m.data⟩⟩) := by
  unfold IdleFileVisit.startRel at h
  obtain ⟨x, hx, h⟩ := Option.map_eq_some_iff.1 h
  cases x with
  | error e => cases h
  | ok m =>
    simp only [IdleFileVisit.startP, FileReader.fromBlockP] at h
    rcases fromPartsR_cases m 0 (Metadata.ofUnixFs m.data) with ⟨-, -, -, h4⟩ | ⟨-, -, e, h3⟩ | ⟨fs, e, h1, h2, -⟩
    · rw [h4] at h; cases h
    · rw [h3] at h; cases h
    · rw [passed_end h1 h2] at h
      refine ⟨m, fs, hx, h2, ?_, ?_⟩
      · intro hl
        simp only [Res.bind_ok, IdleFileVisit.startFromReaderR, FileReader.content, hl, if_true] at h
        rw [Res.bind_ok_iff] at h
        obtain ⟨c, hc, h⟩ := h
        cases h
        exact ⟨rfl, hc⟩
      · intro hl
        simp only [Res.bind_ok, IdleFileVisit.startFromReaderR, FileReader.content, hl, if_false] at h
        cases hc : collectLinksR target 0 0 (m.links.zip m.data.blocksizes) with
        | panic q => rw [hc] at h; cases h
        | err e' => rw [hc] at h; cases h
        | ok ps =>
          rw [hc] at h
          simp only [Option.getD_none, List.nil_append] at h
          split at h
          · cases h
            exact ⟨rfl, ps, rfl, nofun⟩
          · cases h
            exact ⟨rfl, ps, rfl, fun v hv => (Option.some.inj hv).symm⟩

/-- How another block goes. -/
theorem continueWalkRel_ok {v : FileVisit} {b c : Bytes} {cache cache' : Option VisitCache} {next : Option FileVisit}
    (h : v.continueWalkRel b cache = some (.ok (c, next), cache')) :
    ∃ cid i m fs, v.pending.getLast? = some (cid, i) ∧ Suitable v.state i ∧ Reads b m ∧ m.data.filesize = some fs ∧
      (m.links = [] → maybeTargetSliceR (ε := FileReadFailed) (m.data.Data.getD []) i v.range = .ok c ∧
        ∀ v', next = some v' → v'.pending = v.pending.dropLast ∧ v'.range = v.range ∧ v'.state.last_ending = .Chunk (addW i.lo fs)) ∧
      (m.links ≠ [] → c = [] ∧ ∃ ps, collectLinksR v.range 0 i.lo (m.links.zip m.data.blocksizes) = .ok ps ∧
        ∀ v', next = some v' → v'.pending = v.pending.dropLast ++ ps.reverse ∧ v'.range = v.range ∧
          v'.state.last_ending = .TreeCoverage (addW i.lo fs) ∧ v'.state.last_offset = i.lo) := by
  unfold FileVisit.continueWalkRel at h
  cases hp : v.pending.getLast? with
  | none => rw [hp] at h; cases h
  | some q =>
    obtain ⟨cid, i⟩ := q
    rw [hp] at h
    simp only at h
    cases hs : v.state.last_ending.checkIsSuitableNext v.state.last_offset i with
    | error e => rw [hs] at h; cases h
    | ok u =>
      rw [hs] at h
      simp only at h
      obtain ⟨x, hx, h⟩ := Option.map_eq_some_iff.1 h
      cases x with
      | error e => cases h
      | ok m =>
        unfold FileReader.fromContinuedP at h
        simp only at h
        by_cases hmeta : (m.data.mode.isSome ∨ m.data.mtime.isSome)
        · rw [if_pos hmeta] at h; cases h
        rw [if_neg hmeta] at h
        rcases fromPartsR_cases m i.lo v.state.metadata with ⟨-, -, -, h4⟩ | ⟨-, -, e, h3⟩ | ⟨fs, e, h1, h2, -⟩
        · rw [h4] at h; cases h
        · rw [h3] at h; cases h
        · rw [passed_end h1 h2] at h
          refine ⟨cid, i, m, fs, rfl, hs, hx, h2, ?_, ?_⟩
          · intro hl
            simp only [FileVisit.continueWith, FileReader.content, hl, if_true] at h
            cases hc : maybeTargetSliceR (ε := FileReadFailed) (m.data.Data.getD []) i v.range with
            | panic q => rw [hc] at h; cases h
            | err e' => rw [hc] at h; cases h
            | ok c' =>
              rw [hc] at h
              simp only at h
              split at h
              · cases h
                exact ⟨rfl, fun v' hv' => by cases hv'; exact ⟨rfl, rfl, rfl⟩⟩
              · cases h
                exact ⟨rfl, nofun⟩
          · intro hl
            simp only [FileVisit.continueWith, FileReader.content, hl, if_false] at h
            cases hc : collectLinksR v.range 0 i.lo (m.links.zip m.data.blocksizes) with
            | panic q => rw [hc] at h; cases h
            | err e' => rw [hc] at h; cases h
            | ok ps =>
              rw [hc] at h
              cases h
              exact ⟨rfl, ps, rfl, fun v' hv' => by cases hv'; exact ⟨rfl, rfl, rfl, rfl⟩⟩

/-- One call never returns more than the range has, whatever the blocks are. -/
theorem C116_one_call (t : Rng) (ht : t.lo < U64 ∧ t.hi < U64) :
    (∀ (root : Bytes) (r : FileVisitResult), (IdleFileVisit.mk (some t)).startRel root = some (.ok r) → r.content.length ≤ t.hi - t.lo) ∧
    (∀ (v : FileVisit), v.range = some t → ∀ (block c : Bytes) (cache cache' : Option VisitCache) (next : Option FileVisit),
      v.continueWalkRel block cache = some (.ok (c, next), cache') → c.length ≤ t.hi - t.lo) := by
  constructor
  · intro root r h
    obtain ⟨m, fs, -, -, h1, h2⟩ := startRel_ok h
    by_cases hl : m.links = []
    · have h1 := (h1 hl).2
      rw [maybeTargetSliceR, sliceR_eq ht] at h1
      have := slice_length h1
      omega
    · rw [(h2 hl).1]; simp
  · intro v hv block c cache cache' next h
    obtain ⟨cid, i, m, fs, -, -, -, -, h1, h2⟩ := continueWalkRel_ok h
    by_cases hl : m.links = []
    · have h1 := (h1 hl).1
      rw [hv, maybeTargetSliceR, sliceR_eq ht] at h1
      have := slice_length h1
      omega
    · rw [(h2 hl).1]; simp

/-- What is read from a block is no longer than it. -/
theorem reads_length {b : Bytes} {m : FlatUnixFs} (h : Reads b m) : (m.data.Data.getD []).length ≤ b.length := by
  cases hd : m.data.Data with
  | none => simp
  | some s => exact ((flat_keeps h).2.1 s hd).length_le

theorem returnedRel_inv {t : Rng} (ht : t.lo < U64 ∧ t.hi < U64) {root out : Bytes} {next : Option FileVisit}
    (h : ReturnedRel (ShortLeafRel t) (some t) root out next) :
    ∃ E, out.length ≤ min t.hi E - t.lo ∧ ∀ v, next = some v → v.range = some t ∧ (∀ p ∈ v.pending, p.2.lo ≤ p.2.hi ∧ p.2.lo ≤ t.hi) ∧
      (v.state.last_ending = .Chunk E ∨ ∃ e, v.state.last_ending = .TreeCoverage e ∧ E ≤ v.state.last_offset) := by
  induction h with
  | start hP hs =>
    obtain ⟨m, fs, hm, hf, h1, h2⟩ := startRel_ok hs
    by_cases hl : m.links = []
    · obtain ⟨hn, h1⟩ := h1 hl
      rw [maybeTargetSliceR, sliceR_eq ht] at h1
      have := slice_length h1
      refine ⟨(m.data.Data.getD []).length, by simp only at this; omega, ?_⟩
      rw [hn]; nofun
    · obtain ⟨hc, ps, hps, hn⟩ := h2 hl
      refine ⟨0, by rw [hc]; simp, ?_⟩
      intro v hv
      rw [hn v hv]
      refine ⟨rfl, ?_, .inr ⟨_, rfl, Nat.le_refl _⟩⟩
      intro p hp
      exact collectLinksR_touches t _ _ _ _ hps p (by simpa using hp)
  | @more out c block v next cache cache' _ hP hc ih =>
    obtain ⟨E, hout, ih⟩ := ih
    obtain ⟨hr, hpend, hend⟩ := ih v rfl
    obtain ⟨cid, i, m, fs, hp, hs, hm, hf, h1, h2⟩ := continueWalkRel_ok hc
    have hlo : E ≤ i.lo := by
      rcases suitable_next hs with ⟨e, h, h'⟩ | ⟨e, h, h'⟩
      · rcases hend with h4 | ⟨e', h4, h5⟩
        · rw [h] at h4; cases h4; omega
        · rw [h] at h4; cases h4
      · rcases hend with h4 | ⟨e', h4, h5⟩
        · rw [h] at h4; cases h4
        · omega
    have hi : i.lo ≤ i.hi ∧ i.lo ≤ t.hi := hpend (cid, i) (List.mem_of_getLast? hp)
    have hrest : ∀ p ∈ v.pending.dropLast, p.2.lo ≤ p.2.hi ∧ p.2.lo ≤ t.hi := fun p hp => hpend p (List.dropLast_subset _ hp)
    by_cases hl : m.links = []
    · obtain ⟨hsl, hnext⟩ := h1 hl
      have hfs := hP.1 m hm hl
      have hshort : t.hi + (m.data.Data.getD []).length < U64 := by
        have h1 := reads_length hm
        have h2 := hP.2
        have h3 : U64 = 2 ^ 64 := rfl
        omega
      rw [hf] at hfs
      cases hfs
      have hadd : addW i.lo (m.data.Data.getD []).length = i.lo + (m.data.Data.getD []).length := addW_eq (by omega)
      rw [hr, maybeTargetSliceR, sliceR_eq ht] at hsl
      refine ⟨i.lo + (m.data.Data.getD []).length, ?_, ?_⟩
      · have hlen := slice_length hsl
        have hnp : ¬ (touches t i = true ∧ i.lo + (m.data.Data.getD []).length < min t.hi i.hi) := by
          rw [← targetSlice_panics_iff (ε := FileReadFailed) hi.1]
          rintro ⟨p, hpn⟩
          rw [hsl] at hpn
          cases hpn
        have hnp' : max t.lo i.lo ≤ min t.hi i.hi → ¬ i.lo + (m.data.Data.getD []).length < min t.hi i.hi := by
          intro hh hlt
          refine hnp ⟨?_, hlt⟩
          simp only [touches, decide_eq_true_eq]
          omega
        rw [List.length_append]
        by_cases hh : max t.lo i.lo ≤ min t.hi i.hi
        · have := hnp' hh
          omega
        · omega
      · intro v' hv'
        obtain ⟨h3, h4, h5⟩ := hnext v' hv'
        rw [h3, h4, h5, hadd]
        exact ⟨hr, hrest, .inl rfl⟩
    · obtain ⟨rfl, ps, hps, hnext⟩ := h2 hl
      refine ⟨E, by simpa using hout, ?_⟩
      intro v' hv'
      obtain ⟨h3, h4, h5, h6⟩ := hnext v' hv'
      rw [h3, h4, h5, h6]
      refine ⟨hr, ?_, .inr ⟨_, rfl, hlo⟩⟩
      intro p hp'
      rcases List.mem_append.1 hp' with hp' | hp'
      · exact hrest p hp'
      · rw [hr] at hps
        exact collectLinksR_touches t _ _ _ _ hps p (by simpa using hp')

/-- C116: if every leaf declares the size of its data, and no block is so long that it could reach from the range to byte 2^64, then a read
with a range never returns more bytes than the range has; link blocks may be anything. -/
theorem C116_honest_partial (t : Rng) (root out : Bytes) (next : Option FileVisit) (hlo : t.lo < U64)
    (h : ReturnedRel (ShortLeafRel t) (some t) root out next) : out.length ≤ t.hi - t.lo := by
  have hhi : t.hi < U64 := by
    have : ∀ out next, ReturnedRel (ShortLeafRel t) (some t) root out next → ShortLeafRel t root := by
      intro out next h
      induction h with
      | start hP _ => exact hP
      | more _ _ _ ih => exact ih
    have h1 := (this _ _ h).2
    have h3 : U64 = 2 ^ 64 := rfl
    omega
  obtain ⟨E, h1, -⟩ := returnedRel_inv ⟨hlo, hhi⟩ h
  omega

/-! ### A leaf which reaches beyond the last byte -/

/-- Giving a visit some blocks, one after the other, in a release build. -/
def giveBlocksR : Bytes → Option FileVisit → List Bytes → Option (Bytes × Option FileVisit)
  | out, next, [] => some (out, next)
  | _, none, _ :: _ => none
  | out, some v, b :: bs =>
    match (v.continueWalkR b none).1 with
    | .ok (c, next) => giveBlocksR (out ++ c) next bs
    | _ => none

theorem giveBlocksR_sound {P : Bytes → Prop} {target : Option Rng} {root : Bytes} : ∀ (bs : List Bytes) (out : Bytes) (next : Option FileVisit),
    ReturnedRel P target root out next → (∀ b ∈ bs, P b ∧ tame b = true) → ∀ out' next', giveBlocksR out next bs = some (out', next') →
    ReturnedRel P target root out' next'
  | [], out, next, h, _, out', next', hg => by cases hg; exact h
  | b :: bs, out, none, h, _, out', next', hg => by cases hg
  | b :: bs, out, some v, h, hb, out', next', hg => by
    unfold giveBlocksR at hg
    have he := continueWalkRel_eq (tame_agree (hb b (by simp)).2) v none
    cases hc : v.continueWalkR b none with
    | mk r k =>
      rw [hc] at hg he
      cases r with
      | ok p =>
        obtain ⟨c, n⟩ := p
        exact giveBlocksR_sound bs _ _ (.more h (hb b (by simp)).1 he) (fun x hx => hb x (by simp [hx])) _ _ hg
      | err e => cases hg
      | panic e => cases hg

theorem honestRel {m : FlatUnixFs} {b : Bytes} (ht : tame b = true) (hm : FlatUnixFs.tryParse b = .ok m)
    (h : m.links ≠ [] ∨ m.data.filesize = some (m.data.Data.getD []).length) : HonestLeafRel b := by
  intro m' hm' hl
  rw [Reads, tame_agree ht, hm] at hm'
  cases hm'
  rcases h with h | h
  · exact absurd hl h
  · exact h

/-- The message of `someFile`. -/
def someMessage (sizes : List Nat) (size : Nat) (data : Option Bytes) : FlatUnixFs :=
  FlatUnixFs.mk (sizes.map (fun _ => ⟨some (cidOf toySha []).toBytes, some [], some 7⟩))
    { Ty := .File, Data := data, filesize := some size, blocksizes := sizes }

/-- A leaf of six bytes, four before byte 2^64: what follows it is at byte 2, and from there the same range can be read once more. -/
theorem C116_full_false : ¬ C116_full := by
  intro h
  have h1 : ∃ r, (IdleFileVisit.mk (some ⟨2 ^ 64 - 3, 2 ^ 64 - 1⟩)).startR (someFile [2 ^ 64 - 4, 3, 3, 2 ^ 64 - 3] (2 ^ 64 - 1) none) = .ok r ∧
      giveBlocksR r.content r.next [someFile [] 6 (some [1, 2, 3, 4, 5, 6]), someFile [2 ^ 64 - 6, 3] (2 ^ 64 - 3) none,
        someFile [] 3 (some [7, 8, 9])] = some ([2, 3, 8, 9], none) := by
    refine ⟨⟨[], 2 ^ 64 - 1, {}, some ⟨[(cidOf toySha [], ⟨2, 2 ^ 64 - 1⟩), (cidOf toySha [], ⟨2 ^ 64 - 4, 2 ^ 64 - 1⟩)],
      some ⟨2 ^ 64 - 3, 2 ^ 64 - 1⟩, ⟨.TreeCoverage (2 ^ 64 - 1), 0, 2 ^ 64 - 1, {}⟩⟩⟩, ?_, ?_⟩
    · decide +kernel
    · decide +kernel
  obtain ⟨r, h1, h2⟩ := h1
  have hroot : tame (someFile [2 ^ 64 - 4, 3, 3, 2 ^ 64 - 3] (2 ^ 64 - 1) none) = true := by decide +kernel
  have h3 := startRel_eq (tame_agree hroot) (IdleFileVisit.mk (some ⟨2 ^ 64 - 3, 2 ^ 64 - 1⟩))
  rw [h1] at h3
  have := h _ (by decide +kernel) (by decide +kernel) _ _ _ (giveBlocksR_sound _ _ _ (.start
    (honestRel (m := someMessage [2 ^ 64 - 4, 3, 3, 2 ^ 64 - 3] (2 ^ 64 - 1) none) hroot (by decide +kernel) (.inl (by decide))) h3) (by
      intro b hb
      simp only [List.mem_cons, List.not_mem_nil, or_false] at hb
      rcases hb with rfl | rfl | rfl
      · have ht : tame (someFile [] 6 (some [1, 2, 3, 4, 5, 6])) = true := by decide +kernel
        exact ⟨honestRel (m := someMessage [] 6 (some [1, 2, 3, 4, 5, 6])) ht (by decide +kernel) (.inr rfl), ht⟩
      · have ht : tame (someFile [2 ^ 64 - 6, 3] (2 ^ 64 - 3) none) = true := by decide +kernel
        exact ⟨honestRel (m := someMessage [2 ^ 64 - 6, 3] (2 ^ 64 - 3) none) ht (by decide +kernel) (.inl (by decide)), ht⟩
      · have ht : tame (someFile [] 3 (some [7, 8, 9])) = true := by decide +kernel
        exact ⟨honestRel (m := someMessage [] 3 (some [7, 8, 9])) ht (by decide +kernel) (.inr rfl), ht⟩) _ _ h2)
  revert this
  decide

/-- The hypotheses of `C116_honest_partial` are met by a read of three blocks. -/
theorem C116_example : ∃ next, ReturnedRel (ShortLeafRel ⟨1, 3⟩) (some ⟨1, 3⟩) (someFile [2, 1] 3 none) [2, 3] next := by
  have h1 : ∃ r, (IdleFileVisit.mk (some ⟨1, 3⟩)).startR (someFile [2, 1] 3 none) = .ok r ∧
      giveBlocksR r.content r.next [someFile [] 2 (some [1, 2]), someFile [] 1 (some [3])] = some ([2, 3], none) :=
    ⟨⟨[], 3, {}, some ⟨[(cidOf toySha [], ⟨2, 3⟩), (cidOf toySha [], ⟨0, 2⟩)], some ⟨1, 3⟩, ⟨.TreeCoverage 3, 0, 3, {}⟩⟩⟩,
      by decide +kernel, by decide +kernel⟩
  obtain ⟨r, h1, h2⟩ := h1
  have hroot : tame (someFile [2, 1] 3 none) = true := by decide +kernel
  have h3 := startRel_eq (tame_agree hroot) (IdleFileVisit.mk (some ⟨1, 3⟩))
  rw [h1] at h3
  refine ⟨_, giveBlocksR_sound _ _ _ (.start ⟨honestRel (m := someMessage [2, 1] 3 none) hroot (by decide +kernel) (.inl (by decide)),
    by decide +kernel⟩ h3) ?_ _ _ h2⟩
  intro b hb
  simp only [List.mem_cons, List.not_mem_nil, or_false] at hb
  rcases hb with rfl | rfl
  · have ht : tame (someFile [] 2 (some [1, 2])) = true := by decide +kernel
    exact ⟨⟨honestRel (m := someMessage [] 2 (some [1, 2])) ht (by decide +kernel) (.inr rfl), by decide +kernel⟩, ht⟩
  · have ht : tame (someFile [] 1 (some [3])) = true := by decide +kernel
    exact ⟨⟨honestRel (m := someMessage [] 1 (some [3])) ht (by decide +kernel) (.inr rfl), by decide +kernel⟩, ht⟩

end Verif.Props
