import Verif.Spec.Refusals
import Verif.Props.WalkExact
/-
C64: for which reasons exactly a block in the middle of a file, and any block given to a walker, is refused.
-/
namespace Verif.Props
open Verif Verif.Spec

/-! ### continuing a visit -/

theorem isSome_or {α β : Type} {a : Option α} {b : Option β} (h : a.isSome = true ∨ b.isSome = true) : a ≠ none ∨ b ≠ none := by
  rcases h with h | h
  · left; rintro rfl; cases h
  · right; rintro rfl; cases h

theorem continue_err {v : FileVisit} {i : Rng} (hi : nextInterval v = some i) {b : Bytes} {cache : Option VisitCache} {e : FileReadFailed}
    (h : (v.continueWalk b cache).1 = .err e) : ContinueRefused v i b e := by
  unfold nextInterval at hi
  unfold FileVisit.continueWalk Traversal.continueWalk at h
  cases hP : v.pending.getLast? with
  | none => simp [hP] at hi
  | some p =>
    obtain ⟨pc, i'⟩ := p
    simp only [hP, Option.map_some, Option.some.injEq] at hi
    subst hi
    simp only [hP] at h
    cases hs : v.state.last_ending.checkIsSuitableNext v.state.last_offset i' with
    | error e' =>
      simp only [hs, Res.err.injEq] at h
      subst h
      unfold Ending.checkIsSuitableNext at hs
      cases hend : v.state.last_ending with
      | Chunk c =>
        simp only [hend] at hs
        by_cases hc : i'.lo ≠ c
        · rw [if_pos hc] at hs; cases hs; exact .jumps hend hc
        · rw [if_neg hc] at hs; cases hs
      | TreeCoverage c =>
        simp only [hend] at hs
        by_cases h1 : i'.lo ≤ v.state.last_offset ∧ i'.hi > c
        · rw [if_pos h1] at hs; cases hs; exact .expands hend h1.1 h1.2
        rw [if_neg h1] at hs
        by_cases h2 : i'.lo < c ∧ i'.hi > c
        · rw [if_pos h2] at hs; cases hs; exact .overlaps hend h2.1 h2.2
        rw [if_neg h2] at hs
        by_cases h3 : i'.lo < v.state.last_offset
        · rw [if_pos h3] at hs; cases hs; exact .earlier hend h3
        rw [if_neg h3] at hs
        cases hs
    | ok u =>
      simp only [hs, FileReader.fromContinued] at h
      cases hm : FlatUnixFs.tryParse b with
      | error e' =>
        simp only [hm, Res.err.injEq] at h
        subst h
        cases e' with
        | InvalidDagPb e => exact .dagPb hm
        | NoData n => exact .noData hm
        | InvalidUnixFs e n => exact .unixFs hm
      | ok m =>
        simp only [hm] at h
        by_cases hmeta : m.data.mode.isSome = true ∨ m.data.mtime.isSome = true
        · rw [if_pos hmeta] at h
          simp only [Res.err.injEq] at h
          subst h
          exact .metadata hm (isSome_or hmeta)
        rw [if_neg hmeta] at h
        cases hr : FileReader.fromParts m i'.lo v.state.metadata with
        | panic p => simp [hr] at h
        | err e' =>
          simp only [hr, Res.err.injEq] at h
          subst h
          unfold FileReader.fromParts at hr
          simp only at hr
          split at hr
          · next h1 => cases hr; exact .type hm h1.1 h1.2
          split at hr
          · next h2 => cases hr; exact .mismatch hm h2
          split at hr
          · next h3 =>
            cases hr
            cases hf : m.data.filesize with
            | none => simp [hf] at h3
            | some n => exact .noContent hm h3.2.2 h3.1 hf (by simpa [hf] using h3.2.1)
          split at hr
          · next h4 => cases hr; exact .properties hm (isSome_or h4)
          unfold FileReader.endOf at hr
          by_cases hl : m.links = []
          · simp only [hl, if_true] at hr
            unfold add64 at hr
            split at hr
            · cases hf : m.data.filesize <;> simp [hf, Res.map] at hr
            · simp [Res.map] at hr
          · cases hf : m.data.filesize with
            | none =>
              simp [hf, hl] at hr
              subst hr
              exact .noFilesize hm hl hf
            | some n =>
              simp only [hl, if_false, hf] at hr
              unfold add64 at hr
              split at hr <;> simp [Res.map] at hr
        | ok fr =>
          obtain ⟨fs, ha, rfl⟩ := fromParts_ok hr
          simp only [hr] at h
          by_cases hl : m.links = []
          · simp only [FileReader.content, hl, if_true] at h
            cases hx : (maybeTargetSlice (m.data.Data.getD []) i' v.range : Res FileReadFailed Bytes) with
            | err e' => exact absurd hx (maybeTargetSlice_ne_err _)
            | panic p => simp [hx] at h
            | ok s => simp only [hx] at h; split at h <;> cases h
          · simp only [FileReader.content, hl, if_false] at h
            cases hx : collectLinks v.range 0 i'.lo (m.links.zip m.data.blocksizes) with
            | panic p => simp [hx] at h
            | ok ps => simp [hx] at h
            | err e' =>
              simp only [hx, Res.err.injEq] at h
              subst h
              obtain ⟨k, l, n, ce, h1, h2, h3, h4⟩ := collectLinks_err hx
              rw [linkInterval_zip' ha.sizes] at h2
              subst h4
              rw [Nat.zero_add]
              exact .cid hm (List.getElem?_zip_eq_some.1 h1).1 h2 h3

theorem continue_ok_not_refused {v : FileVisit} {i : Rng} (hi : nextInterval v = some i) (hlt : i.lo < U64) {b : Bytes}
    {cache : Option VisitCache} {x : Bytes × Option FileVisit}
    (h : (v.continueWalk b cache).1 = .ok x) (e : FileReadFailed) : ¬ ContinueRefused v i b e := by
  obtain ⟨c, next⟩ := x
  obtain ⟨P, cid, i', m, fs, hp, hsuit, hm, hmeta, ha, h1, h2⟩ := continueWalk_ok h
  have : i' = i := by simpa [nextInterval, hp] using hi
  subst this
  have hf : Follows v.state.last_ending v.state.last_offset i' := by
    rw [follows_iff]; exact hsuit
  intro hr
  have hb := ha.sizes
  cases hr with
  | jumps h3 h4 => rw [h3] at hf; exact h4 hf
  | expands h3 h4 h5 => rw [h3] at hf; simp only [Follows] at hf; omega
  | overlaps h3 h4 h5 => rw [h3] at hf; simp only [Follows] at hf; omega
  | earlier h3 h4 => rw [h3] at hf; simp only [Follows] at hf; omega
  | dagPb h3 => rw [hm] at h3; cases h3
  | unixFs h3 => rw [hm] at h3; cases h3
  | noData h3 => rw [hm] at h3; cases h3
  | metadata h3 h4 => rw [hm] at h3; cases h3; rcases h4 with h4 | h4 <;> simp [hmeta.1, hmeta.2] at h4
  | type h3 h4 h5 =>
    rw [hm] at h3; cases h3
    rcases ha.node.1 with h | h
    · exact h4 h
    · exact h5 h
  | mismatch h3 h4 => rw [hm] at h3; cases h3; exact h4 ha.sizes
  | noContent h3 h4 h5 h6 h7 =>
    rw [hm] at h3; cases h3
    rw [ha.filesize] at h6; cases h6
    exact h7 (ha.empty h4 h5)
  | properties h3 h4 => rw [hm] at h3; cases h3; rcases h4 with h4 | h4 <;> simp [ha.node.2.1, ha.node.2.2] at h4
  | noFilesize h3 h4 h5 => rw [hm] at h3; cases h3; rw [ha.filesize] at h5; cases h5
  | cid h3 h4 h5 h6 =>
    rename_i k l ce
    rw [hm] at h3; cases h3
    by_cases hl : m.links = []
    · rw [hl] at h4; cases h4
    obtain ⟨-, ps, hc, -⟩ := h2 hl
    have hsum := collectLinks_ok_sum hc hlt
    rcases collectLinks_cases (target := v.range) (m.links.zip m.data.blocksizes) 0 i'.lo hsum with ⟨_, -, hall⟩ | ⟨_, _, _, _, _, _, _, herr⟩
    · have hk : k < m.data.blocksizes.length := by
        rw [← ha.sizes]; exact (List.getElem?_eq_some_iff.1 h4).1
      obtain ⟨c, hc⟩ := hall k l (m.data.blocksizes[k]) (List.getElem?_zip_eq_some.2 ⟨h4, List.getElem?_eq_getElem hk⟩)
        (by rw [linkInterval_zip' ha.sizes]; exact h5)
      rw [h6] at hc; cases hc
    · rw [hc] at herr; cases herr

/-- Whatever blocks were given before: a continuation block is refused only for a reason it gives; and when there is no panic,
it is refused if there is a reason. -/
theorem C64_visit (target : Option Rng) (root : Bytes) (ls : List Leaf) (v : FileVisit) (h : Visiting target root ls v) (i : Rng)
    (hi : nextInterval v = some i) (block : Bytes) (cache : Option VisitCache) :
    (∀ e, (v.continueWalk block cache).1 = .err e → ContinueRefused v i block e) ∧
    ((∃ x, (v.continueWalk block cache).1 = .ok x) ↔ ¬ ContinuePanics target v block ∧ ∀ e, ¬ ContinueRefused v i block e) := by
  obtain ⟨-, -, hbound, -⟩ := visiting_inv h
  have hlt : i.lo < U64 := by
    unfold nextInterval at hi
    cases hP : v.pending.getLast? with
    | none => simp [hP] at hi
    | some p =>
      have := hbound _ (List.mem_of_getLast? hP)
      simp only [hP, Option.map_some, Option.some.injEq] at hi
      subst hi
      omega
  refine ⟨fun e he => continue_err hi he, ?_⟩
  have hpan := C27_visit_exact_partial target root ls v h block cache
  constructor
  · rintro ⟨x, hx⟩
    refine ⟨?_, continue_ok_not_refused hi hlt hx⟩
    rw [← hpan, hx]
    rintro ⟨p, hp⟩
    cases hp
  · rintro ⟨hn, hr⟩
    cases hx : (v.continueWalk block cache).1 with
    | ok x => exact ⟨x, rfl⟩
    | err e => exact absurd (continue_err hi hx) (hr e)
    | panic p => exact absurd (hpan.1 ⟨p, hx⟩) hn

/-! ### walking: links of directories -/

/-- The error of a refused link names it. -/
def Names (conv : Nat → PBLink → Res InvalidCidInLink WalkLink) : Prop :=
  ∀ i l e, Cid.tryFrom (l.Hash.getD []) = .error e → conv i l = .err ⟨i, l.Hash.getD [], l.Name.getD [], e⟩

theorem names_entry (d : Nat) : Names (fun i l => convertLink d i l) := by
  intro i l e h
  simp [convertLink, h, InvalidCidInLink.of]

theorem names_slot (d s : Nat) : Names (fun i l => convertShardedLink d s i l) := by
  intro i l e h
  simp [convertShardedLink, h, InvalidCidInLink.of]

section
variable {conv : Nat → PBLink → Res InvalidCidInLink WalkLink} {label : Option Bytes → Prop}

theorem pushLinks_err (hconv : Converts label conv) (hn : Names conv) : ∀ (xs : List (PBLink × Nat)) (q q' : List WalkLink) (e : InvalidCidInLink),
    pushLinks conv xs q = (.err e, q') →
      ∃ fine l i rest ce, xs = fine ++ (l, i) :: rest ∧ Cid.tryFrom (l.Hash.getD []) = .error ce ∧
        e = ⟨i, l.Hash.getD [], l.Name.getD [], ce⟩ ∧ ∀ y ∈ fine, CidOk y.1 ∧ label y.1.Name := by
  intro xs
  induction xs with
  | nil => intro q q' e h; simp [pushLinks] at h
  | cons x xs ih =>
    intro q q' e h
    obtain ⟨l, i⟩ := x
    obtain ⟨h1, h2, h3⟩ := hconv i l
    unfold pushLinks at h
    by_cases hc : CidOk l
    · by_cases hl : label l.Name
      · obtain ⟨y, hy⟩ := h1 hc hl
        rw [hy] at h
        obtain ⟨fine, l', i', rest, ce, rfl, g1, g2, g3⟩ := ih _ _ _ h
        refine ⟨(l, i) :: fine, l', i', rest, ce, rfl, g1, g2, ?_⟩
        intro y hy
        rcases List.mem_cons.1 hy with rfl | hy
        · exact ⟨hc, hl⟩
        · exact g3 y hy
      · obtain ⟨p, hp⟩ := h2 hc hl
        simp [hp] at h
    · cases hce : Cid.tryFrom (l.Hash.getD []) with
      | ok c => exact absurd ⟨c, hce⟩ hc
      | error ce =>
        rw [hn i l ce hce] at h
        simp only [Prod.mk.injEq, Res.err.injEq] at h
        exact ⟨[], l, i, xs, ce, rfl, hce, h.1.symm, by simp⟩

theorem pushLinks_cidTrouble (hconv : Converts label conv) (hn : Names conv) {links : List PBLink} {q q' : List WalkLink} {e : InvalidCidInLink}
    (h : pushLinks conv links.zipIdx.reverse q = (.err e, q')) :
    ∃ k l ce, CidTrouble label links k l ce ∧ e = ⟨k, l.Hash.getD [], l.Name.getD [], ce⟩ := by
  obtain ⟨fine, l, i, rest, ce, h1, h2, h3, h4⟩ := pushLinks_err hconv hn _ _ _ _ h
  refine ⟨i, l, ce, ⟨_, _, zipIdx_split h1, ?_, h2, ?_⟩, h3⟩
  · have hlen := congrArg List.length h1
    simp only [List.length_reverse, List.length_zipIdx, List.length_append, List.length_cons] at hlen
    have hg : links.zipIdx.reverse[fine.length]? = some (l, i) := by rw [h1]; simp
    rw [List.getElem?_reverse (by simp only [List.length_zipIdx]; omega)] at hg
    simp only [List.length_zipIdx, List.getElem?_zipIdx, Option.map_eq_some_iff, Prod.mk.injEq] at hg
    obtain ⟨_, _, _, hg⟩ := hg
    simp only [List.length_map, List.length_reverse]
    omega
  · intro x hx
    obtain ⟨y, hy, rfl⟩ := List.mem_map.1 hx
    exact h4 y (by simpa using hy)

theorem cidTrouble_not_ok (hconv : Converts label conv) {links : List PBLink} {q q' : List WalkLink}
    (h : pushLinks conv links.zipIdx.reverse q = (.ok (), q')) {k l ce} : ¬ CidTrouble label links k l ce := by
  rintro ⟨before, after, rfl, -, h1, -⟩
  have := (allFine_iff hconv _ q).1 ⟨q', h⟩
  obtain ⟨c, hc⟩ := (this l (by simp)).1
  rw [h1] at hc
  cases hc
end

/-! ### walking: entries -/

theorem nextDir_refused {label : Option Bytes → Prop} {w : Walker} {links : List PBLink} {conv : Nat → Nat → PBLink → Res InvalidCidInLink WalkLink}
    {enter : WalkLink → Res WalkError (InnerEntry × ContinuedWalk)} {cache : Option VisitCache} (hconv : ∀ d, Converts label (conv d))
    (hn : ∀ d, Names (conv d)) (henter : ∀ n e, enter n ≠ .err e) {e : WalkError} (h : (w.nextDir links conv enter cache).1 = .err e) :
    ∃ k l ce, CidTrouble label links k l ce ∧ e = .InvalidCid ⟨k, l.Hash.getD [], l.Name.getD [], ce⟩ := by
  unfold Walker.nextDir at h
  cases hx : w.next with
  | none => simp [hx] at h
  | some n =>
    simp only [hx] at h
    rcases hp : pushLinks (conv n.depth) links.zipIdx.reverse w.pending with ⟨r, q⟩
    rw [hp] at h
    cases r with
    | panic p => simp at h
    | err e' =>
      simp only [Res.err.injEq] at h
      subst h
      obtain ⟨k, l, ce, h1, rfl⟩ := pushLinks_cidTrouble (hconv _) (hn _) hp
      exact ⟨k, l, ce, h1, rfl⟩
    | ok u =>
      simp only at h
      cases he : enter n with
      | panic p => simp [he] at h
      | ok x => simp [he] at h
      | err e' => exact absurd he (henter _ _)

theorem nextDir_ok {label : Option Bytes → Prop} {w : Walker} {links : List PBLink} {conv : Nat → Nat → PBLink → Res InvalidCidInLink WalkLink}
    {enter : WalkLink → Res WalkError (InnerEntry × ContinuedWalk)} {cache : Option VisitCache} (hconv : ∀ d, Converts label (conv d))
    {x : ContinuedWalk} (h : (w.nextDir links conv enter cache).1 = .ok x) {k l ce} : ¬ CidTrouble label links k l ce := by
  unfold Walker.nextDir at h
  cases hx : w.next with
  | none => simp [hx] at h
  | some n =>
    simp only [hx] at h
    rcases hp : pushLinks (conv n.depth) links.zipIdx.reverse w.pending with ⟨r, q⟩
    rw [hp] at h
    cases r with
    | panic p => simp at h
    | err e' => simp at h
    | ok u => exact cidTrouble_not_ok (hconv _) hp

theorem directory_err {m : FlatUnixFs} {e} (h : checkDirectorySupported m = .error e) :
    e = ⟨m.data.filesize, m.data.blocksizes, m.data.hashType, m.data.fanout, m.data.Data⟩ := by
  unfold checkDirectorySupported at h
  dsimp only at h
  split at h
  · cases h; rfl
  · cases h

theorem directory_ok {m m' : FlatUnixFs} (h : checkDirectorySupported m = .ok m') : m' = m := by
  unfold checkDirectorySupported at h
  dsimp only at h
  split at h
  · cases h
  · cases h; rfl

theorem shard_err {m : FlatUnixFs} {e} (h : checkHamtshardSupported m = .err e) :
    ((m.data.fanout ≠ some 256 ∨ m.data.hashType ≠ some 34) ∧ e = .UnsupportedProperties m.data.hashType m.data.fanout) ∨
    ((m.data.filesize ≠ none ∨ m.data.blocksizes ≠ []) ∧ e = .UnexpectedProperties m.data.filesize m.data.blocksizes) := by
  unfold checkHamtshardSupported checkShardSupported at h
  split at h
  · cases h
  split at h
  · next h1 => cases h; exact .inl ⟨h1, rfl⟩
  split at h
  · next h1 =>
    cases h
    refine .inr ⟨?_, rfl⟩
    rcases h1 with h1 | h1
    · left; intro h'; simp [h'] at h1
    · exact .inr h1
  · cases h

theorem shard_ok {m m' : FlatUnixFs} (h : checkHamtshardSupported m = .ok m') : m' = m := by
  unfold checkHamtshardSupported at h
  rw [Res.bind_ok_iff] at h
  obtain ⟨_, _, h⟩ := h
  cases h
  rfl

theorem asWalk_iff (e : FileReadFailed) (e' : WalkError) :
    (WalkError.ofFileReadFailed e : Res WalkError ContinuedWalk) = .err e' ↔ AsWalkError e e' := by
  constructor
  · intro h
    cases e <;> simp [WalkError.ofFileReadFailed] at h <;> subst h <;> constructor
  · intro h; cases h <;> rfl

/-- At any point of any walk: a block is refused only for a reason it gives, and it is accepted exactly when there is no such
reason and none to panic. -/
theorem C64_walk (cid : Cid) (name : Bytes) (h : List (Bytes × ContinuedWalk)) (w : Walker) (hw : Walked cid name h w)
    (hname : slash ∉ name) (a : Awaited) (aw : List Awaited) (ha : awaited cid name (h.map (·.1)) = a :: aw) (block : Bytes)
    (cache : Option VisitCache) (hc : ∀ k, cache = some k → CacheObtainable k) :
    (∀ e, (w.step block cache).1 = .err e → WalkRefused a (fileVisit w) block e) ∧
    ((∃ x, (w.step block cache).1 = .ok x) ↔
      ¬ WalkPanics (h.map (·.2)).getLast? a (fileVisit w) block ∧ ∀ e, ¬ WalkRefused a (fileVisit w) block e) := by
  have hpan := C27_walk_exact_partial cid name h w hw hname a aw ha block cache hc
  suffices hs : (∀ e, (w.step block cache).1 = .err e → WalkRefused a (fileVisit w) block e) ∧
      (∀ x, (w.step block cache).1 = .ok x → ∀ e, ¬ WalkRefused a (fileVisit w) block e) by
    refine ⟨hs.1, ?_, ?_⟩
    · rintro ⟨x, hx⟩
      refine ⟨?_, hs.2 x hx⟩
      rw [← hpan, hx]
      rintro ⟨p, hp⟩
      cases hp
    · rintro ⟨hn, hr⟩
      cases hx : (w.step block cache).1 with
      | ok x => exact ⟨x, rfl⟩
      | err e => exact absurd (hs.1 e hx) (hr e)
      | panic p => exact absurd (hpan.1 ⟨p, hx⟩) hn
  by_cases hwhat : a.what = .fileBlock
  · obtain ⟨ie, v, sz, root, ls, h3, h4, h5⟩ := inFile_of_awaited hw ha hwhat
    have hv : fileVisit w = some v := by simp [fileVisit, h3, h4]
    obtain ⟨-, i, hi⟩ := C27_pending_nonempty root ls v h5
    obtain ⟨hce, hco⟩ := C64_visit none root ls v h5 i hi block cache
    rw [step_inFile h3 h4]
    unfold WalkRefused
    rw [hwhat, hv]
    unfold Walker.nextFile
    rcases hx : v.continueWalk block cache with ⟨r, k⟩
    rw [hx] at hce hco
    cases r with
    | panic q => exact ⟨by simp, by simp⟩
    | ok x =>
      refine ⟨by simp, ?_⟩
      rintro - - e ⟨v', i', e', hv', hi', hr, -⟩
      cases hv'
      rw [hi] at hi'
      cases hi'
      exact (hco.1 ⟨x, rfl⟩).2 e' hr
    | err e =>
      refine ⟨?_, ?_⟩
      · intro e' he'
        exact ⟨v, i, e, rfl, hi, hce e rfl, (asWalk_iff e e').1 he'⟩
      · intro x hx'
        cases e <;> cases hx'
  · obtain ⟨hr, hi⟩ := atRest_of_awaited hw ha hwhat
    have hwr : ∀ e, WalkRefused a (fileVisit w) block e ↔ EntryRefused block e := by
      intro e
      unfold WalkRefused
      cases hx : a.what with
      | fileBlock => exact absurd hx hwhat
      | entry => exact Iff.rfl
      | bucket => exact Iff.rfl
    simp only [hwr]
    rw [step_atRest hr]
    unfold Walker.nextBlock
    cases hm : FlatUnixFs.tryParse block with
    | error e' =>
      refine ⟨?_, by simp⟩
      intro e he
      simp only [Res.err.injEq] at he
      subst he
      cases e' with
      | InvalidDagPb e => exact .dagPb hm
      | NoData n => exact .noData hm
      | InvalidUnixFs e n => exact .unixFs hm
    | ok m =>
      simp only
      have hfirst : m.data.Ty = .File ∨ m.data.Ty = .Raw → (∀ e, (w.nextFirst m cache).1 = .err e → EntryRefused block e) ∧
          (∀ x, (w.nextFirst m cache).1 = .ok x → ∀ e, ¬ EntryRefused block e) := by
        intro hty
        unfold Walker.nextFirst
        have hst := start_parsed hm none hc
        have hok := start_ok_iff none block
        obtain ⟨hpan, herr, -⟩ := C26_exact_partial none block
        rcases hx : ({} : IdleFileVisit).startFromParsed m cache with ⟨r, k⟩
        rw [show (IdleFileVisit.mk none) = {} from rfl] at hst hok hpan herr
        rw [hx] at hst
        simp only at hst
        rw [← hst] at hok hpan herr
        cases r with
        | panic q => exact ⟨by simp, by simp⟩
        | err e =>
          refine ⟨?_, ?_⟩
          · intro e' he'
            exact .file hm hty (herr e rfl) ((asWalk_iff e e').1 he')
          · intro x hx'
            cases e <;> cases hx'
        | ok r =>
          simp only
          cases hn : w.next with
          | none => exact ⟨by simp, by simp⟩
          | some n =>
            simp only
            cases hen : w.enterLeaf (.File r.next r.total_size) r.metadata n with
            | panic q => exact ⟨by simp, by simp⟩
            | err e => exact absurd hen (enterLeaf_ne_err _)
            | ok ie =>
              refine ⟨by simp, ?_⟩
              intro x _ e he
              have hno := (hok.1 ⟨r, rfl⟩).2
              cases he with
              | dagPb h => rw [hm] at h; cases h
              | unixFs h => rw [hm] at h; cases h
              | noData h => rw [hm] at h; cases h
              | file h h1 h2 h3 => exact hno _ h2
              | metadata h h1 => rw [hm] at h; cases h; rw [h1] at hty; simp at hty
              | directory h h1 => rw [hm] at h; cases h; rw [h1] at hty; simp at hty
              | directoryLink h h1 => rw [hm] at h; cases h; rw [h1] at hty; simp at hty
              | shardKind h h1 => rw [hm] at h; cases h; rw [h1] at hty; simp at hty
              | shard h h1 => rw [hm] at h; cases h; rw [h1] at hty; simp at hty
              | shardLink h h1 => rw [hm] at h; cases h; rw [h1] at hty; simp at hty
      cases hty : m.data.Ty with
      | File => exact hfirst (.inl hty)
      | Raw => exact hfirst (.inr hty)
      | Metadata =>
        refine ⟨?_, by simp⟩
        intro e he
        simp only [Res.err.injEq] at he
        subst he
        exact .metadata hm hty
      | Symlink =>
        simp only
        unfold Walker.nextSymlink
        cases hn : w.next with
        | none => exact ⟨by simp, by simp⟩
        | some n =>
          simp only
          cases hen : w.enterLeaf .Symlink (Metadata.ofUnixFs m.data) n with
          | panic q => exact ⟨by simp, by simp⟩
          | err e => exact absurd hen (enterLeaf_ne_err _)
          | ok ie =>
            refine ⟨by simp, ?_⟩
            intro x _ e he
            cases he with
            | dagPb h => rw [hm] at h; cases h
            | unixFs h => rw [hm] at h; cases h
            | noData h => rw [hm] at h; cases h
            | file h h1 => rw [hm] at h; cases h; rw [hty] at h1; simp at h1
            | metadata h h1 => rw [hm] at h; cases h; rw [h1] at hty; cases hty
            | directory h h1 => rw [hm] at h; cases h; rw [h1] at hty; cases hty
            | directoryLink h h1 => rw [hm] at h; cases h; rw [h1] at hty; cases hty
            | shardKind h h1 => rw [hm] at h; cases h; rw [h1] at hty; cases hty
            | shard h h1 => rw [hm] at h; cases h; rw [h1] at hty; cases hty
            | shardLink h h1 => rw [hm] at h; cases h; rw [h1] at hty; cases hty
      | Directory =>
        simp only
        have hsup := directorySupported_iff m hty
        cases hck : checkDirectorySupported m with
        | error e =>
          refine ⟨?_, by simp⟩
          intro e' he'
          simp only [Res.err.injEq] at he'
          subst he'
          rw [directory_err hck]
          refine .directory hm hty ?_
          intro hd
          obtain ⟨_, h'⟩ := hsup.2 hd
          rw [hck] at h'
          cases h'
        | ok m' =>
          have hd := hsup.1 ⟨m', hck⟩
          obtain rfl := directory_ok hck
          simp only
          refine ⟨?_, ?_⟩
          · intro e he
            obtain ⟨k, l, ce, h1, rfl⟩ := nextDir_refused (fun d => converts_entry (d + 1)) (fun d => names_entry (d + 1))
              (fun _ e => enterDirectory_ne_err e) he
            exact .directoryLink hm hty h1
          · intro x hx e he
            cases he with
            | dagPb h => rw [hm] at h; cases h
            | unixFs h => rw [hm] at h; cases h
            | noData h => rw [hm] at h; cases h
            | file h h1 => rw [hm] at h; cases h; rw [hty] at h1; simp at h1
            | metadata h h1 => rw [hm] at h; cases h; rw [h1] at hty; cases hty
            | directory h h1 h2 => rw [hm] at h; cases h; exact h2 hd
            | directoryLink h h1 h2 =>
              rw [hm] at h; cases h
              exact nextDir_ok (fun d => converts_entry (d + 1)) hx h2
            | shardKind h h1 => rw [hm] at h; cases h; rw [h1] at hty; cases hty
            | shard h h1 => rw [hm] at h; cases h; rw [h1] at hty; cases hty
            | shardLink h h1 => rw [hm] at h; cases h; rw [h1] at hty; cases hty
      | HAMTShard =>
        simp only
        obtain ⟨hsup, hnp⟩ := shardSupported_iff m hty
        cases hck : checkHamtshardSupported m with
        | panic p => exact absurd hck (hnp p)
        | err e =>
          refine ⟨?_, by simp⟩
          intro e' he'
          simp only [Res.err.injEq] at he'
          subst he'
          rcases shard_err hck with ⟨h1, rfl⟩ | ⟨h1, rfl⟩
          · exact .shardKind hm hty h1
          · exact .shard hm hty h1
        | ok m' =>
          have hd := hsup.1 ⟨m', hck⟩
          obtain rfl := shard_ok hck
          simp only
          refine ⟨?_, ?_⟩
          · intro e he
            obtain ⟨k, l, ce, h1, rfl⟩ := nextDir_refused (fun d => converts_slot (d + 1) d) (fun d => names_slot (d + 1) d)
              (fun _ e => enterShard_ne_err e) he
            exact .shardLink hm hty h1
          · intro x hx e he
            obtain ⟨-, d1, d2, d3, d4⟩ := hd
            cases he with
            | dagPb h => rw [hm] at h; cases h
            | unixFs h => rw [hm] at h; cases h
            | noData h => rw [hm] at h; cases h
            | file h h1 => rw [hm] at h; cases h; rw [hty] at h1; simp at h1
            | metadata h h1 => rw [hm] at h; cases h; rw [h1] at hty; cases hty
            | directory h h1 h2 => rw [hm] at h; cases h; rw [h1] at hty; cases hty
            | directoryLink h h1 h2 => rw [hm] at h; cases h; rw [h1] at hty; cases hty
            | shardKind h h1 h2 => rw [hm] at h; cases h; simp [d1, d2] at h2
            | shard h h1 h2 => rw [hm] at h; cases h; simp [d3, d4] at h2
            | shardLink h h1 h2 =>
              rw [hm] at h; cases h
              exact nextDir_ok (fun d => converts_slot (d + 1) d) hx h2

/-- A directory of three links, the last of which is fine, the second has no Cid, and the first has no name: the walker names the
second. (The first block of a walk is awaited.) -/
def badDir : Bytes := (dirMsg [⟨some (cidN 1).toBytes, none, none⟩, ⟨some [1, 2], some [98], none⟩, linkN 3 [99]]).write

example : ∃ e, ((Walker.new (cidN 0) [114]).step badDir none).1 = .err (.InvalidCid ⟨1, [1, 2], [98], e⟩) ∧
    WalkRefused ⟨cidN 0, [[114]], .entry⟩ (fileVisit (Walker.new (cidN 0) [114])) badDir (.InvalidCid ⟨1, [1, 2], [98], e⟩) := by
  have h : ∃ e, ((Walker.new (cidN 0) [114]).step badDir none).1 = .err (.InvalidCid ⟨1, [1, 2], [98], e⟩) := by
    have : (match ((Walker.new (cidN 0) [114]).step badDir none).1 with
      | .err (.InvalidCid x) => x.nth == 1 && x.hash == [1, 2] && x.name == [98]
      | _ => false) = true := by decide +kernel
    split at this
    · next x hx =>
      refine ⟨x.source, ?_⟩
      rw [hx]
      simp only [Bool.and_eq_true, beq_iff_eq] at this
      obtain ⟨⟨h1, h2⟩, h3⟩ := this
      cases x
      simp only at h1 h2 h3
      simp [h1, h2, h3]
    · cases this
  obtain ⟨e, h⟩ := h
  exact ⟨e, h, (C64_walk (cidN 0) [114] [] _ .new (by decide) _ [] rfl badDir none (by simp)).1 _ h⟩

/-- A visit in the middle of a file: a leaf with metadata is refused for that reason. -/
example : ∃ v i, Visiting (some ⟨0, 4⟩) (oneLink 4) [] v ∧ nextInterval v = some i ∧
    (v.continueWalk (FlatUnixFs.mk [] { Ty := .File, Data := some [1, 2, 3, 4], filesize := some 4, mode := some 420 }).write none).1 =
      .err (.File (.NonRootDefinesMetadata ⟨some 420, none⟩)) ∧
    ContinueRefused v i (FlatUnixFs.mk [] { Ty := .File, Data := some [1, 2, 3, 4], filesize := some 4, mode := some 420 }).write
      (.File (.NonRootDefinesMetadata ⟨some 420, none⟩)) := by
  have h1 : (IdleFileVisit.mk (some ⟨0, 4⟩)).start (oneLink 4) =
      .ok ⟨[], 4, {}, some ⟨[(cidOf toySha [], ⟨0, 4⟩)], some ⟨0, 4⟩, ⟨.TreeCoverage 4, 0, 4, {}⟩⟩⟩ := by decide +kernel
  have hv := Visiting.start h1 rfl
  have he : (FileVisit.continueWalk ⟨[(cidOf toySha [], ⟨0, 4⟩)], some ⟨0, 4⟩, ⟨.TreeCoverage 4, 0, 4, {}⟩⟩
      (FlatUnixFs.mk [] { Ty := .File, Data := some [1, 2, 3, 4], filesize := some 4, mode := some 420 }).write none).1 =
      .err (.File (.NonRootDefinesMetadata ⟨some 420, none⟩)) := by decide +kernel
  exact ⟨_, ⟨0, 4⟩, hv, rfl, he, (C64_visit _ _ _ _ hv _ rfl _ none).1 _ he⟩

end Verif.Props
