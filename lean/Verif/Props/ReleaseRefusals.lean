import Verif.Spec.ReleaseRefusals
import Verif.Props.ReleasePlaces
import Verif.Props.Refusals
/-
C131: which blocks a release build refuses, and why.
-/
namespace Verif.Props
open Verif Verif.Spec Verif.Examples

/-! ### reading a node -/

theorem wanted_iff {t : Option Rng} {i : Rng} : Wanted t i ↔ blockIsInTargetRange i t = true := by
  unfold Wanted
  cases t with
  | none => exact ⟨fun _ => rfl, fun _ _ h => nomatch h⟩
  | some r =>
    simp only [Option.some.injEq, forall_eq', blockIsInTargetRange, touches, decide_eq_true_eq]
    omega

theorem intervalW_zero (base n : Nat) (ns : List Nat) : intervalW base (n :: ns) 0 = ⟨base, addW base n⟩ := rfl

theorem intervalW_succ (base n : Nat) (ns : List Nat) (k : Nat) : intervalW base (n :: ns) (k + 1) = intervalW (addW base n) ns k := rfl

theorem collectLinksR_err {t : Option Rng} : ∀ (links : List PBLink) (sizes : List Nat) (i base : Nat) {e : FileReadFailed}, links.length = sizes.length →
    collectLinksR t i base (links.zip sizes) = .err e →
    ∃ k l ce, links[k]? = some l ∧ Wanted t (intervalW base sizes k) ∧ Cid.tryFrom (l.Hash.getD []) = .error ce ∧
      e = .InvalidCid ⟨i + k, l.Hash.getD [], l.Name.getD [], ce⟩
  | [], _, i, base, e, _, h => by simp [collectLinksR] at h
  | l :: links, [], i, base, e, hl, h => by simp at hl
  | l :: links, n :: sizes, i, base, e, hl, h => by
    simp only [List.length_cons, Nat.add_right_cancel_iff] at hl
    have next : collectLinksR t (i + 1) (addW base n) (links.zip sizes) = .err e → _ := collectLinksR_err links sizes (i + 1) (addW base n) hl
    have lift : (∃ k l' ce, links[k]? = some l' ∧ Wanted t (intervalW (addW base n) sizes k) ∧ Cid.tryFrom (l'.Hash.getD []) = .error ce ∧
        e = .InvalidCid ⟨i + 1 + k, l'.Hash.getD [], l'.Name.getD [], ce⟩) →
        ∃ k l' ce, (l :: links)[k]? = some l' ∧ Wanted t (intervalW base (n :: sizes) k) ∧ Cid.tryFrom (l'.Hash.getD []) = .error ce ∧
        e = .InvalidCid ⟨i + k, l'.Hash.getD [], l'.Name.getD [], ce⟩ := by
      rintro ⟨k, l', ce, h1, h2, h3, h4⟩
      refine ⟨k + 1, l', ce, by simpa using h1, by rw [intervalW_succ]; exact h2, h3, ?_⟩
      rw [h4]
      congr 2
      omega
    rw [List.zip_cons_cons, collectLinksR] at h
    by_cases hw : blockIsInTargetRange ⟨base, addW base n⟩ t = false
    · rw [if_pos hw] at h
      exact lift (next h)
    · rw [if_neg hw, toPending] at h
      cases hc : Cid.tryFrom (l.Hash.getD []) with
      | error ce =>
        rw [hc] at h
        cases h
        refine ⟨0, l, ce, rfl, ?_, hc, rfl⟩
        rw [intervalW_zero, wanted_iff]
        simpa using hw
      | ok c =>
        rw [hc] at h
        simp only [Res.bind_ok] at h
        cases hq : collectLinksR t (i + 1) (addW base n) (links.zip sizes) with
        | panic q => rw [hq] at h; cases h
        | ok ps => rw [hq] at h; cases h
        | err e' =>
          rw [hq] at h
          cases h
          exact lift (next hq)

theorem collectLinksR_fine {t : Option Rng} : ∀ (links : List PBLink) (sizes : List Nat) (i base : Nat) {ps : List Pending}, links.length = sizes.length →
    collectLinksR t i base (links.zip sizes) = .ok ps →
    ∀ (k : Nat) (l : PBLink), links[k]? = some l → Wanted t (intervalW base sizes k) → ∃ c, Cid.tryFrom (l.Hash.getD []) = .ok c
  | [], _, i, base, ps, _, h => by intro k l hk; simp at hk
  | l :: links, [], i, base, ps, hl, h => by simp at hl
  | l :: links, n :: sizes, i, base, ps, hl, h => by
    simp only [List.length_cons, Nat.add_right_cancel_iff] at hl
    rw [List.zip_cons_cons, collectLinksR] at h
    intro k l' hk hw
    by_cases hb : blockIsInTargetRange ⟨base, addW base n⟩ t = false
    · rw [if_pos hb] at h
      cases k with
      | zero =>
        rw [intervalW_zero, wanted_iff, hb] at hw
        cases hw
      | succ k => exact collectLinksR_fine links sizes _ _ hl h k l' (by simpa using hk) (by rwa [intervalW_succ] at hw)
    · rw [if_neg hb, toPending] at h
      cases hc : Cid.tryFrom (l.Hash.getD []) with
      | error ce => rw [hc] at h; cases h
      | ok c =>
        rw [hc] at h
        simp only [Res.bind_ok] at h
        cases hq : collectLinksR t (i + 1) (addW base n) (links.zip sizes) with
        | panic q => rw [hq] at h; cases h
        | err e' => rw [hq] at h; cases h
        | ok ps =>
          cases k with
          | zero =>
            simp only [List.getElem?_cons_zero, Option.some.injEq] at hk
            exact ⟨c, hk ▸ hc⟩
          | succ k => exact collectLinksR_fine links sizes _ _ hl hq k l' (by simpa using hk) (by rwa [intervalW_succ] at hw)

theorem fromPartsR_err {m : FlatUnixFs} {o : Nat} {md : Metadata} {e : FileReadFailed} (t : Option Rng) (base : Nat) (h : FileReader.fromPartsR m o md = .err e) :
    NodeRefused t base m e := by
  unfold FileReader.fromPartsR at h
  simp only at h
  split at h
  · next h1 => cases h; exact .type h1.1 h1.2
  split at h
  · next h2 => cases h; exact .mismatch h2
  split at h
  · next h3 =>
    cases h
    cases hf : m.data.filesize with
    | none => simp [hf] at h3
    | some n => exact .noContent h3.2.2 h3.1 hf (by simpa [hf] using h3.2.1)
  split at h
  · next h4 => cases h; exact .properties (isSome_or h4)
  unfold FileReader.endOfR at h
  cases hf : m.data.filesize with
  | some n =>
    rw [hf] at h
    split at h <;> cases h
  | none =>
    rw [hf] at h
    by_cases hl : m.links = []
    · rw [if_pos hl] at h
      cases h
    · rw [if_neg hl] at h
      cases h
      exact .noFilesize hl hf

/-- A node with which nothing is wrong. -/
theorem not_nodeRefused {t : Option Rng} {base : Nat} {m : FlatUnixFs} {n : Nat} (hp : Passed m) (hf : m.data.filesize = some n)
    (hl : ∀ (k : Nat) (l : PBLink), m.links[k]? = some l → Wanted t (intervalW base m.data.blocksizes k) → ∃ c, Cid.tryFrom (l.Hash.getD []) = .ok c) (e : FileReadFailed) :
    ¬ NodeRefused t base m e := by
  intro h
  cases h with
  | type h1 h2 => rcases hp.type with h | h <;> contradiction
  | mismatch h => exact h hp.sizes
  | noContent h1 h2 h3 h4 =>
    have := hp.content h1 h2
    rw [h3] at this
    exact h4 this
  | properties h => rcases h with h | h
                    · exact h hp.hashType
                    · exact h hp.fanout
  | noFilesize h1 h2 => rw [hf] at h2; cases h2
  | cid h1 h2 h3 =>
    obtain ⟨c, hc⟩ := hl _ _ h1 h2
    rw [hc] at h3
    cases h3

theorem sliceChecked_ne_err {ε : Type} {c : Bytes} {a b : Nat} {e : ε} : (sliceChecked c a b : Res ε Bytes) ≠ .err e := by
  unfold sliceChecked
  split <;> nofun

theorem maybeTargetSliceR_ne_err {c : Bytes} {i : Rng} {t : Option Rng} {e : FileReadFailed} : (maybeTargetSliceR c i t : Res FileReadFailed Bytes) ≠ .err e := by
  unfold maybeTargetSliceR
  cases t with
  | none => nofun
  | some r =>
    simp only [targetSliceR]
    split
    · nofun
    split
    · exact sliceChecked_ne_err
    split <;> exact sliceChecked_ne_err

/-! ### visits -/

/-- Starting from what was parsed. -/
theorem startFromReaderR_refused {t : Option Rng} {m : FlatUnixFs} {cache : Option VisitCache} {n : Nat} {e : Ending} {md : Metadata} (hp : Passed m) (hf : m.data.filesize = some n) :
    (∀ err, ((IdleFileVisit.mk t).startFromReaderR (.mk 0 e m.links (m.data.Data.getD []) m.data.blocksizes md n) cache).1 = .err err → NodeRefused t 0 m err) ∧
    ∀ r, ((IdleFileVisit.mk t).startFromReaderR (.mk 0 e m.links (m.data.Data.getD []) m.data.blocksizes md n) cache).1 = .ok r → ∀ err, ¬ NodeRefused t 0 m err := by
  simp only [IdleFileVisit.startFromReaderR, FileReader.content]
  by_cases hl : m.links = []
  · rw [if_pos hl]
    simp only
    refine ⟨?_, fun _ _ => not_nodeRefused hp hf (by rw [hl]; intro k l hk; simp at hk)⟩
    intro err he
    cases hs : (maybeTargetSliceR (m.data.Data.getD []) ⟨0, (m.data.Data.getD []).length⟩ t : Res FileReadFailed Bytes) with
    | err e' => exact absurd hs maybeTargetSliceR_ne_err
    | ok c => rw [hs] at he; cases he
    | panic q => rw [hs] at he; cases he
  · rw [if_neg hl]
    simp only
    cases hc : collectLinksR t 0 0 (m.links.zip m.data.blocksizes) with
    | panic q => exact ⟨nofun, nofun⟩
    | err e' =>
      refine ⟨?_, nofun⟩
      intro err he
      cases he
      obtain ⟨k, l, ce, h1, h2, h3, rfl⟩ := collectLinksR_err _ _ _ _ hp.sizes hc
      rw [Nat.zero_add]
      exact .cid h1 h2 h3
    | ok ps =>
      simp only
      refine ⟨?_, fun _ _ => not_nodeRefused hp hf (collectLinksR_fine _ _ _ _ hp.sizes hc)⟩
      intro err he
      split at he <;> cases he

/-- C131, the first block: a release build refuses it only for a reason which it gives; and takes it exactly if it reads it, does not panic, and there is
no such reason. -/
theorem C131_start (target : Option Rng) (ht : RangeFits target) (b : Bytes) :
    (∀ e, (IdleFileVisit.mk target).startRel b = some (.err e) → StartRefusedRel target b e) ∧
    ((∃ r, (IdleFileVisit.mk target).startRel b = some (.ok r)) ↔ ¬ Endless b ∧ ¬ StartPanicsRel b ∧ ∀ e, ¬ StartRefusedRel target b e) := by
  have key : (∀ e, (IdleFileVisit.mk target).startRel b = some (.err e) → StartRefusedRel target b e) ∧
      (∀ r, (IdleFileVisit.mk target).startRel b = some (.ok r) → ∀ e, ¬ StartRefusedRel target b e) := by
    unfold IdleFileVisit.startRel
    cases hparse : FlatUnixFs.tryParseR b with
    | none => exact ⟨nofun, nofun⟩
    | some parsed =>
      simp only [Option.map_some, Option.some.injEq]
      cases parsed with
      | error pe =>
        refine ⟨?_, nofun⟩
        intro e he
        cases he
        cases pe with
        | InvalidDagPb e => exact .parse (.dagPb hparse)
        | InvalidUnixFs e n => exact .parse (.unixFs hparse)
        | NoData n => exact .parse (.noData hparse)
      | ok m =>
        have hst : (IdleFileVisit.mk target).startP (.ok m) = (do
            let fr ← FileReader.fromPartsR m 0 (Metadata.ofUnixFs m.data)
            ((IdleFileVisit.mk target).startFromReaderR fr none).1) := rfl
        have node : ∀ e, StartRefusedRel target b e → NodeRefused target 0 m e := by
          intro e h
          cases h with
          | parse h => cases h <;> (rename_i h; rw [hparse] at h; cases h)
          | node h h' => unfold Reads at h; rw [hparse] at h; cases h; exact h'
        rw [hst]
        rcases fromPartsR_cases m 0 (Metadata.ofUnixFs m.data) with ⟨-, -, -, h4⟩ | ⟨-, -, e, h3⟩ | ⟨fs, e, h1, h2, h3⟩
        · rw [h4]; exact ⟨nofun, nofun⟩
        · rw [h3]
          refine ⟨?_, nofun⟩
          intro e' he
          cases he
          exact .node hparse (fromPartsR_err _ _ h3)
        · rw [h3]
          simp only [Res.bind_ok]
          obtain ⟨s1, s2⟩ := startFromReaderR_refused (t := target) (cache := none) (e := e) (md := Metadata.ofUnixFs m.data) h1 h2
          exact ⟨fun e' he => .node hparse (s1 e' he), fun r hr e' he => s2 r hr e' (node e' he)⟩
  obtain ⟨c1, c2⟩ := C109_start target ht b
  refine ⟨key.1, ?_, ?_⟩
  · rintro ⟨r, hr⟩
    rw [← c1, ← c2, hr]
    exact ⟨nofun, (by rintro ⟨p, h⟩; cases h), key.2 r hr⟩
  · rintro ⟨n1, n2, n3⟩
    rw [← c1] at n1
    rw [← c2] at n2
    cases hx : (IdleFileVisit.mk target).startRel b with
    | none => exact absurd hx n1
    | some r =>
      cases r with
      | ok r => exact ⟨r, rfl⟩
      | err e => exact absurd (key.1 e hx) (n3 e)
      | panic p => exact absurd ⟨p, hx⟩ n2

theorem suitable_err {v : FileVisit} {i : Rng} {e : FileError} (h : v.state.last_ending.checkIsSuitableNext v.state.last_offset i = .error e) :
    OutOfPlace v i (.File e) := by
  unfold Ending.checkIsSuitableNext at h
  cases hend : v.state.last_ending with
  | Chunk c =>
    simp only [hend] at h
    by_cases hc : i.lo ≠ c
    · rw [if_pos hc] at h; cases h; exact .jumps hend hc
    · rw [if_neg hc] at h; cases h
  | TreeCoverage c =>
    simp only [hend] at h
    by_cases h1 : i.lo ≤ v.state.last_offset ∧ i.hi > c
    · rw [if_pos h1] at h; cases h; exact .expands hend h1.1 h1.2
    rw [if_neg h1] at h
    by_cases h2 : i.lo < c ∧ i.hi > c
    · rw [if_pos h2] at h; cases h; exact .overlaps hend h2.1 h2.2
    rw [if_neg h2] at h
    by_cases h3 : i.lo < v.state.last_offset
    · rw [if_pos h3] at h; cases h; exact .earlier hend h3
    rw [if_neg h3] at h
    cases h

theorem not_outOfPlace {v : FileVisit} {i : Rng} (h : v.state.last_ending.checkIsSuitableNext v.state.last_offset i = .ok ()) (e : FileReadFailed) : ¬ OutOfPlace v i e := by
  have hf : Follows v.state.last_ending v.state.last_offset i := by rw [follows_iff]; exact h
  intro hr
  cases hr with
  | jumps h3 h4 => rw [h3] at hf; exact h4 hf
  | expands h3 h4 h5 => rw [h3] at hf; simp only [Follows] at hf; omega
  | overlaps h3 h4 h5 => rw [h3] at hf; simp only [Follows] at hf; omega
  | earlier h3 h4 => rw [h3] at hf; simp only [Follows] at hf; omega

/-- C131, the blocks after: the same, in every state of a visit. -/
theorem C131_continue (v : FileVisit) (hv : RangeFits v.range) (i : Rng) (hi : nextInterval v = some i) (b : Bytes) (cache : Option VisitCache) :
    (∀ e k, v.continueWalkRel b cache = some (.err e, k) → ContinueRefusedRel v i b e) ∧
    ((∃ r k, v.continueWalkRel b cache = some (.ok r, k)) ↔ ¬ (Follows v.state.last_ending v.state.last_offset i ∧ Endless b) ∧ ¬ ContinuePanicsRel v b ∧
      ∀ e, ¬ ContinueRefusedRel v i b e) := by
  have key : (∀ e k, v.continueWalkRel b cache = some (.err e, k) → ContinueRefusedRel v i b e) ∧
      (∀ r k, v.continueWalkRel b cache = some (.ok r, k) → ∀ e, ¬ ContinueRefusedRel v i b e) := by
    unfold FileVisit.continueWalkRel
    unfold nextInterval at hi
    cases hP : v.pending.getLast? with
    | none => rw [hP] at hi; cases hi
    | some p =>
      obtain ⟨pc, i'⟩ := p
      rw [hP] at hi
      cases hi
      simp only
      cases hck : v.state.last_ending.checkIsSuitableNext v.state.last_offset i' with
      | error e =>
        refine ⟨?_, nofun⟩
        intro e' k he
        cases he
        exact .place (suitable_err hck)
      | ok u =>
        simp only
        cases hparse : FlatUnixFs.tryParseR b with
        | none => exact ⟨nofun, nofun⟩
        | some parsed =>
          simp only [Option.map_some, Option.some.injEq]
          cases parsed with
          | error pe =>
            refine ⟨?_, nofun⟩
            intro e k he
            cases he
            cases pe with
            | InvalidDagPb e => exact .parse (.dagPb hparse)
            | InvalidUnixFs e n => exact .parse (.unixFs hparse)
            | NoData n => exact .parse (.noData hparse)
          | ok m =>
            have back : ∀ e, ContinueRefusedRel v i' b e → (m.data.mode ≠ none ∨ m.data.mtime ≠ none) ∨ NodeRefused v.range i'.lo m e := by
              intro e h
              cases h with
              | place h => exact absurd h (not_outOfPlace hck e)
              | parse h => cases h <;> (rename_i h; rw [hparse] at h; cases h)
              | metadata h h' => unfold Reads at h; rw [hparse] at h; cases h; exact .inl h'
              | node h h' => unfold Reads at h; rw [hparse] at h; cases h; exact .inr h'
            unfold FileReader.fromContinuedP
            simp only
            by_cases hm : m.data.mode.isSome = true ∨ m.data.mtime.isSome = true
            · rw [if_pos hm]
              refine ⟨?_, nofun⟩
              intro e k he
              cases he
              exact .metadata hparse (isSome_or hm)
            rw [if_neg hm]
            have hm' : ¬ (m.data.mode ≠ none ∨ m.data.mtime ≠ none) := by
              rintro (h | h)
              · exact hm (.inl (Option.isSome_iff_ne_none.2 h))
              · exact hm (.inr (Option.isSome_iff_ne_none.2 h))
            rcases fromPartsR_cases m i'.lo v.state.metadata with ⟨-, -, -, h4⟩ | ⟨-, -, e, h3⟩ | ⟨fs, e, h1, h2, h3⟩
            · rw [h4]; exact ⟨nofun, nofun⟩
            · rw [h3]
              refine ⟨?_, nofun⟩
              intro e' k he
              cases he
              exact .node hparse (fromPartsR_err _ _ h3)
            · rw [h3]
              simp only [FileVisit.continueWith, FileReader.content]
              by_cases hl : m.links = []
              · rw [if_pos hl]
                simp only
                refine ⟨?_, fun _ _ _ e' h => (back e' h).elim hm' (not_nodeRefused h1 h2 (by rw [hl]; intro k l hk; simp at hk) e')⟩
                intro e' k he
                cases hs : (maybeTargetSliceR (m.data.Data.getD []) i' v.range : Res FileReadFailed Bytes) with
                | err e' => exact absurd hs maybeTargetSliceR_ne_err
                | panic q => rw [hs] at he; cases he
                | ok c =>
                  rw [hs] at he
                  simp only at he
                  split at he <;> cases he
              · rw [if_neg hl]
                simp only
                cases hc : collectLinksR v.range 0 i'.lo (m.links.zip m.data.blocksizes) with
                | panic q => exact ⟨nofun, nofun⟩
                | err e' =>
                  refine ⟨?_, nofun⟩
                  intro err k he
                  cases he
                  obtain ⟨k, l, ce, g1, g2, g3, rfl⟩ := collectLinksR_err _ _ _ _ h1.sizes hc
                  rw [Nat.zero_add]
                  exact .node hparse (.cid g1 g2 g3)
                | ok ps => exact ⟨nofun, fun _ _ _ e' h => (back e' h).elim hm' (not_nodeRefused h1 h2 (collectLinksR_fine _ _ _ _ h1.sizes hc) e')⟩
  obtain ⟨c1, c2⟩ := C109_continue v hv b cache
  have c1' : v.continueWalkRel b cache = none ↔ (Follows v.state.last_ending v.state.last_offset i ∧ Endless b) := by
    rw [c1]
    exact ⟨fun ⟨j, h1, h2⟩ => by rw [hi] at h1; cases h1; exact h2, fun h => ⟨i, hi, h⟩⟩
  refine ⟨key.1, ?_, ?_⟩
  · rintro ⟨r, k, hr⟩
    rw [← c1', ← c2, hr]
    exact ⟨nofun, (by rintro ⟨p, c, h⟩; cases h), key.2 r k hr⟩
  · rintro ⟨n1, n2, n3⟩
    rw [← c1'] at n1
    rw [← c2] at n2
    cases hx : v.continueWalkRel b cache with
    | none => exact absurd hx n1
    | some r =>
      obtain ⟨r, k⟩ := r
      cases r with
      | ok r => exact ⟨r, k, rfl⟩
      | err e => exact absurd (key.1 e k hx) (n3 e)
      | panic p => exact absurd ⟨p, k, hx⟩ n2

/-! ### walkers -/

theorem nextDir_refused' {label : Option Bytes → Prop} {w : Walker} {links : List PBLink} {conv : Nat → Nat → PBLink → Res InvalidCidInLink WalkLink}
    {enter : WalkLink → Res WalkError (InnerEntry × ContinuedWalk)} {cache : Option VisitCache} (hconv : ∀ d, Converts label (conv d))
    (hn : ∀ d, Names (conv d)) (henter : ∀ n e, w.next = some n → enter n ≠ .err e) {e : WalkError} (h : (w.nextDir links conv enter cache).1 = .err e) :
    ∃ k l ce, CidTrouble label links k l ce ∧ e = .InvalidCid ⟨k, l.Hash.getD [], l.Name.getD [], ce⟩ := by
  unfold Walker.nextDir at h
  cases hx : w.next with
  | none => simp [hx] at h
  | some n =>
    simp only [hx] at h
    rcases hp : pushLinks (conv n.depth) links.zipIdx.reverse w.pending with ⟨r, q⟩
    rw [hp] at h
    cases r with
    | panic p => simp at h
    | err e' =>
      simp only [Res.err.injEq] at h
      subst h
      obtain ⟨k, l, ce, h1, rfl⟩ := pushLinks_cidTrouble (hconv _) (hn _) hp
      exact ⟨k, l, ce, h1, rfl⟩
    | ok u =>
      simp only at h
      cases he : enter n with
      | panic p => simp [he] at h
      | ok x => simp [he] at h
      | err e' => exact absurd he (henter _ _ hx)

theorem stepRel_answer {w : Walker} {b : Bytes} {cache : Option VisitCache} : (∃ x w' k, w.stepRel b cache = some (.ok x, w', k)) ∨
    (∃ e w' k, w.stepRel b cache = some (.err e, w', k)) ∨ (∃ p w' k, w.stepRel b cache = some (.panic p, w', k)) ∨ w.stepRel b cache = none := by
  cases h : w.stepRel b cache with
  | none => exact .inr (.inr (.inr rfl))
  | some r =>
    obtain ⟨r, w', k⟩ := r
    cases r with
    | ok x => exact .inl ⟨x, w', k, rfl⟩
    | err e => exact .inr (.inl ⟨e, w', k, rfl⟩)
    | panic p => exact .inr (.inr (.inl ⟨p, w', k, rfl⟩))

theorem enterLeafR_ne_err {w : Walker} (hr : w.atRest) {k : InnerKind} {md : Metadata} {n : WalkLink} (hd : 1 ≤ n.depth) {e : WalkError} :
    w.enterLeafR k md n ≠ .err e := by
  rw [enterLeafR_eq hr _ _ hd]
  cases enteredPath w n <;> nofun

/-- What a walker makes of a node. -/
theorem nextBlockP_refused {w : Walker} (hr : w.atRest) {n : WalkLink} (hn : w.next = some n) (hd : 1 ≤ n.depth)
    (hdir : ∀ md e, w.enterDirectoryR md n ≠ .err e) (hsh : ∀ md e, w.enterShardR md n ≠ .err e)
    {cache : Option VisitCache} (m : FlatUnixFs) :
    (∀ e, (w.nextBlockP cache (.ok m)).1 = .err e → EntryNodeRefused m e) ∧ (∀ x, (w.nextBlockP cache (.ok m)).1 = .ok x → ∀ e, ¬ EntryNodeRefused m e) := by
  unfold Walker.nextBlockP
  simp only
  have hfirst : m.data.Ty = .File ∨ m.data.Ty = .Raw → (∀ e, (w.nextFirstR m cache).1 = .err e → EntryNodeRefused m e) ∧
      (∀ x, (w.nextFirstR m cache).1 = .ok x → ∀ e, ¬ EntryNodeRefused m e) := by
    intro hty
    have hstart : (∀ err, (IdleFileVisit.startFromParsedR {} m cache).1 = .err err → NodeRefused none 0 m err) ∧
        ∀ r, (IdleFileVisit.startFromParsedR {} m cache).1 = .ok r → ∀ err, ¬ NodeRefused none 0 m err := by
      unfold IdleFileVisit.startFromParsedR FileReader.fromParsedR
      rcases fromPartsR_cases m 0 (Metadata.ofUnixFs m.data) with ⟨-, -, -, h4⟩ | ⟨-, -, e, h3⟩ | ⟨fs, e, h1, h2, h3⟩
      · rw [h4]; exact ⟨nofun, nofun⟩
      · rw [h3]
        refine ⟨?_, nofun⟩
        intro e' he
        cases he
        exact fromPartsR_err _ _ h3
      · rw [h3]
        exact startFromReaderR_refused h1 h2
    unfold Walker.nextFirstR
    rcases hx : IdleFileVisit.startFromParsedR {} m cache with ⟨r, k⟩
    rw [hx] at hstart
    simp only at hstart
    cases r with
    | panic q => exact ⟨nofun, nofun⟩
    | err e =>
      refine ⟨?_, ?_⟩
      · intro e' he'
        exact .file hty (hstart.1 e rfl) ((asWalk_iff e e').1 he')
      · intro x hx'
        cases e <;> cases hx'
    | ok r =>
      simp only [hn]
      cases hen : w.enterLeafR (.File r.next r.total_size) r.metadata n with
      | panic q => exact ⟨nofun, nofun⟩
      | err e => exact absurd hen (enterLeafR_ne_err hr hd)
      | ok ie =>
        refine ⟨nofun, ?_⟩
        intro x _ e he
        have hno := hstart.2 r rfl
        cases he with
        | file h1 h2 h3 => exact hno _ h2
        | metadata h1 => rw [h1] at hty; simp at hty
        | directory h1 => rw [h1] at hty; simp at hty
        | directoryLink h1 => rw [h1] at hty; simp at hty
        | shardKind h1 => rw [h1] at hty; simp at hty
        | shard h1 => rw [h1] at hty; simp at hty
        | shardLink h1 => rw [h1] at hty; simp at hty
  cases hty : m.data.Ty with
  | File => exact hfirst (.inl hty)
  | Raw => exact hfirst (.inr hty)
  | Metadata =>
    refine ⟨?_, nofun⟩
    intro e he
    cases he
    exact .metadata hty
  | Symlink =>
    simp only [Walker.nextSymlinkR, hn]
    cases hen : w.enterLeafR .Symlink (Metadata.ofUnixFs m.data) n with
    | panic q => exact ⟨nofun, nofun⟩
    | err e => exact absurd hen (enterLeafR_ne_err hr hd)
    | ok ie =>
      refine ⟨nofun, ?_⟩
      intro x _ e he
      cases he with
      | file h1 => rw [hty] at h1; simp at h1
      | metadata h1 => rw [h1] at hty; cases hty
      | directory h1 => rw [h1] at hty; cases hty
      | directoryLink h1 => rw [h1] at hty; cases hty
      | shardKind h1 => rw [h1] at hty; cases hty
      | shard h1 => rw [h1] at hty; cases hty
      | shardLink h1 => rw [h1] at hty; cases hty
  | Directory =>
    simp only
    have hsup := directorySupported_iff m hty
    cases hck : checkDirectorySupported m with
    | error e =>
      refine ⟨?_, nofun⟩
      intro e' he'
      cases he'
      rw [directory_err hck]
      refine .directory hty ?_
      intro hd
      obtain ⟨_, h'⟩ := hsup.2 hd
      rw [hck] at h'
      cases h'
    | ok m' =>
      have hd := hsup.1 ⟨m', hck⟩
      obtain rfl := directory_ok hck
      simp only
      have henter : ∀ n' e, w.next = some n' → w.enterDirectoryR (Metadata.ofUnixFs m'.data) n' ≠ .err e := by
        intro n' e h'
        rw [hn] at h'
        cases h'
        exact hdir _ _
      refine ⟨?_, ?_⟩
      · intro e he
        obtain ⟨k, l, ce, h1, rfl⟩ := nextDir_refused' (fun d => converts_entry (d + 1)) (fun d => names_entry (d + 1)) henter he
        exact .directoryLink hty h1
      · intro x hx e he
        cases he with
        | file h1 => rw [hty] at h1; simp at h1
        | metadata h1 => rw [h1] at hty; cases hty
        | directory h1 h2 => exact h2 hd
        | directoryLink h1 h2 => exact nextDir_ok (fun d => converts_entry (d + 1)) hx h2
        | shardKind h1 => rw [h1] at hty; cases hty
        | shard h1 => rw [h1] at hty; cases hty
        | shardLink h1 => rw [h1] at hty; cases hty
  | HAMTShard =>
    simp only
    obtain ⟨hsup, hnp⟩ := shardSupported_iff m hty
    cases hck : checkHamtshardSupported m with
    | panic p => exact absurd hck (hnp p)
    | err e =>
      refine ⟨?_, nofun⟩
      intro e' he'
      cases he'
      rcases shard_err hck with ⟨h1, rfl⟩ | ⟨h1, rfl⟩
      · exact .shardKind hty h1
      · exact .shard hty h1
    | ok m' =>
      have hd := hsup.1 ⟨m', hck⟩
      obtain rfl := shard_ok hck
      simp only
      have henter : ∀ n' e, w.next = some n' → w.enterShardR (Metadata.ofUnixFs m'.data) n' ≠ .err e := by
        intro n' e h'
        rw [hn] at h'
        cases h'
        exact hsh _ _
      refine ⟨?_, ?_⟩
      · intro e he
        obtain ⟨k, l, ce, h1, rfl⟩ := nextDir_refused' (fun d => converts_slot (d + 1) d) (fun d => names_slot (d + 1) d) henter he
        exact .shardLink hty h1
      · intro x hx e he
        obtain ⟨-, d1, d2, d3, d4⟩ := hd
        cases he with
        | file h1 => rw [hty] at h1; simp at h1
        | metadata h1 => rw [h1] at hty; cases hty
        | directory h1 => rw [h1] at hty; cases hty
        | directoryLink h1 => rw [h1] at hty; cases hty
        | shardKind h1 h2 => simp [d1, d2] at h2
        | shard h1 h2 => simp [d3, d4] at h2
        | shardLink h1 h2 => exact nextDir_ok (fun d => converts_slot (d + 1) d) hx h2

/-- C131, walking: at any point of any walk, with any root name, a walker of a release build refuses a block only for a reason which it gives; and takes
it exactly if it answers, does not panic, and there is no such reason. -/
theorem C131_walk (cid : Cid) (name : Bytes) (ps : List Bytes) (hps : Pieces name ps) (h : List (Bytes × ContinuedWalk)) (w : Walker)
    (hw : RoamedRel cid name h w) (a : Place) (aw : List Place) (ha : placesRel cid name (h.map (·.1)) = a :: aw)
    (block : Bytes) (cache : Option VisitCache) (hc : ∀ k, cache = some k → CacheObtainable k) :
    (∀ e w' k, w.stepRel block cache = some (.err e, w', k) → WalkRefusedRel a (fileVisit w) block e) ∧
    ((∃ x w' k, w.stepRel block cache = some (.ok x, w', k)) ↔ ¬ WalkHangsRel a (fileVisit w) block ∧
      ¬ WalkPanicsRel (h.map (·.2)).getLast? (lastLevel cid name (h.map (·.1))) a (fileVisit w) block ∧ ∀ e, ¬ WalkRefusedRel a (fileVisit w) block e) := by
  have hpan := C130_panics cid name ps hps h w hw a aw ha block cache hc
  have hhang := C130_hangs cid name ps hps h w hw a aw ha block cache
  suffices hs : (∀ e w' k, w.stepRel block cache = some (.err e, w', k) → WalkRefusedRel a (fileVisit w) block e) ∧
      (∀ x w' k, w.stepRel block cache = some (.ok x, w', k) → ∀ e, ¬ WalkRefusedRel a (fileVisit w) block e) by
    refine ⟨hs.1, ?_, ?_⟩
    · rintro ⟨x, w', k, hx⟩
      rw [← hpan, ← hhang, hx]
      exact ⟨nofun, (by rintro ⟨_, _, _, h⟩; cases h), hs.2 x w' k hx⟩
    · rintro ⟨n1, n2, n3⟩
      rw [← hhang] at n1
      rw [← hpan] at n2
      rcases stepRel_answer (w := w) (b := block) (cache := cache) with hx | ⟨e, w', k, hx⟩ | hx | hx
      · exact hx
      · exact absurd (hs.1 e w' k hx) (n3 e)
      · exact absurd hx n2
      · exact absurd hx n1
  obtain ⟨fb, rest, h1, h2⟩ := roamed_at hps hw ha
  have hwhats := h2.fb_what
  by_cases hfb : fb = []
  · subst hfb
    simp only [List.nil_append] at h1
    subst h1
    have haw : a.what ≠ .fileBlock := hwhats.2 a (by simp)
    have hr := h2.resting
    obtain ⟨n, hn⟩ := h2.nextIs
    have hwr : ∀ e, WalkRefusedRel a (fileVisit w) block e ↔ EntryRefusedRel block e := by
      intro e
      unfold WalkRefusedRel
      cases hx : a.what with
      | fileBlock => exact absurd hx haw
      | entry => exact Iff.rfl
      | bucket => exact Iff.rfl
    simp only [hwr]
    rw [stepRel_atRest hr]
    cases hparse : FlatUnixFs.tryParseR block with
    | none =>
      rw [Option.map_none]
      exact ⟨fun _ _ _ h => (by cases h), fun _ _ _ h => (by cases h)⟩
    | some parsed =>
      simp only [Option.map_some, Option.some.injEq]
      cases parsed with
      | error pe =>
        have hq : w.nextBlockP cache (.error pe) = (.err (match pe with
            | .InvalidDagPb e => .DagPbParsingFailed e | .InvalidUnixFs e _ => .UnixFsParsingFailed e | .NoData _ => .EmptyDagPbNode), { w with should_continue := false }, cache) := by
          unfold Walker.nextBlockP
          cases pe <;> rfl
        rw [hq]
        refine ⟨?_, fun x w' k he => by have := congrArg Prod.fst he; dsimp only at this; cases this⟩
        intro e w' k he
        have he := congrArg Prod.fst he
        dsimp only at he
        injection he with he
        subst he
        cases pe with
        | InvalidDagPb e => exact .dagPb hparse
        | InvalidUnixFs e n => exact .unixFs hparse
        | NoData n => exact .noData hparse
      | ok m =>
        have hdir : ∀ md e, w.enterDirectoryR md n ≠ .err e := by
          intro md e
          rw [enterDirectoryR_eq hr _ hn.deep]
          cases enteredPath w n <;> nofun
        have hsh : ∀ md e, w.enterShardR md n ≠ .err e := by
          intro md e
          rcases whats haw with hw' | hw'
          · obtain ⟨item0, ie0, g1, g2, g3, g4, g5, g6⟩ := h2.bucket hn hw'
            obtain ⟨b1, b2⟩ := enterShardR_bucket g1.cur hr md g3 g4 g5 g6
            by_cases hd : ie0.kind = .Directory
            · obtain ⟨p, hp⟩ := b1 hd
              rw [hp]
              nofun
            · rw [b2 hd]
              cases upBy (ie0.depth - n.depth) ie0.path <;> nofun
          · have hnn : w.current = none ∨ n.name ≠ [] := by
              have := hn.what
              rw [hw'] at this
              by_cases e : w.current ≠ none ∧ n.name = []
              · rw [if_pos e] at this; cases this
              · by_cases e1 : w.current = none
                · exact .inl e1
                · exact .inr fun e2 => e ⟨e1, e2⟩
            rw [enterShardR_named hr _ hn.deep hnn]
            cases enteredPath w n <;> nofun
        obtain ⟨s1, s2⟩ := nextBlockP_refused hr hn.next hn.deep hdir hsh m (cache := cache)
        refine ⟨fun e w' k he => .node hparse (s1 e (congrArg Prod.fst he)), ?_⟩
        intro x w' k hx e he
        cases he with
        | dagPb h => rw [hparse] at h; cases h
        | unixFs h => rw [hparse] at h; cases h
        | noData h => rw [hparse] at h; cases h
        | node h h' => unfold Reads at h; rw [hparse] at h; cases h; exact s2 x (congrArg Prod.fst hx) e h'
  · obtain ⟨ie, v, sz, seg, e1, e2, e3, -, -⟩ := h2.inFile hfb
    have haw : a.what = .fileBlock := by
      obtain ⟨x, fb', rfl⟩ := List.exists_cons_of_ne_nil hfb
      cases h1
      exact hwhats.1 a (by simp)
    obtain ⟨i, hi⟩ : ∃ i, nextInterval v = some i := by
      unfold nextInterval
      cases hp : v.pending.getLast? with
      | none => exact absurd (List.getLast?_eq_none_iff.1 hp) e3.2
      | some p => exact ⟨p.2, rfl⟩
    obtain ⟨hce, hco⟩ := C131_continue v (by rw [e3.1]; intro t h; cases h) i hi block cache
    unfold WalkRefusedRel
    simp only [haw, fileVisit_some e1 e2]
    rw [stepRel_inFile e1 e2]
    cases hx : v.continueWalkRel block cache with
    | none =>
      rw [Option.map_none]
      exact ⟨fun _ _ _ h => (by cases h), fun _ _ _ h => (by cases h)⟩
    | some y =>
      obtain ⟨r, k⟩ := y
      simp only [Option.map_some, Option.some.injEq]
      unfold Walker.nextFileP
      cases r with
      | panic q => exact ⟨fun _ _ _ h => (by cases congrArg Prod.fst h), fun _ _ _ h => (by cases congrArg Prod.fst h)⟩
      | ok x =>
        refine ⟨fun _ _ _ h => (by cases congrArg Prod.fst h), ?_⟩
        rintro - - - - e ⟨v', i', e', hv', hi', hr, -⟩
        cases hv'
        rw [hi] at hi'
        cases hi'
        exact (hco.1 ⟨x, k, hx⟩).2.2 e' hr
      | err e =>
        refine ⟨?_, ?_⟩
        · intro e' w' k' he'
          exact ⟨v, i, e, rfl, hi, hce e k hx, (asWalk_iff e e').1 (congrArg Prod.fst he')⟩
        · intro x w' k' hx'
          cases e <;> cases hx'

/-! ### examples -/

/-- A file of two parts, of which the second is so large that the offsets wrap around, and has no Cid. -/
def wrapsAround : Bytes := (FlatUnixFs.mk [linkN 1 [], ⟨some [1, 2], some [98], none⟩]
  { Ty := .File, filesize := some 4, blocksizes := [4, 2 ^ 64 - 2] }).write

/-- In a release build the second part is reported if all is wanted, but a range never wants it; in a debug build the visit panics (C27). -/
theorem C131_example : (∃ e, (IdleFileVisit.mk none).startRel wrapsAround = some (.err (.InvalidCid ⟨1, [1, 2], [98], e⟩)) ∧
      StartRefusedRel none wrapsAround (.InvalidCid ⟨1, [1, 2], [98], e⟩)) ∧
    (∃ r, (IdleFileVisit.mk (some ⟨1, 7⟩)).startRel wrapsAround = some (.ok r)) ∧ (∀ e, ¬ StartRefusedRel (some ⟨1, 7⟩) wrapsAround e) ∧
    (∃ p, (IdleFileVisit.mk none).start wrapsAround = .panic p) := by
  have hp : FlatUnixFs.tryParseR wrapsAround = some (FlatUnixFs.tryParse wrapsAround) := tame_agree (by decide +kernel)
  have h1 : ∃ e, (IdleFileVisit.mk none).startRel wrapsAround = some (.err (.InvalidCid ⟨1, [1, 2], [98], e⟩)) := by
    rw [startRel_eq hp]
    have : (match (IdleFileVisit.mk none).startR wrapsAround with
      | .err (.InvalidCid x) => x.nth == 1 && x.hash == [1, 2] && x.name == [98]
      | _ => false) = true := by decide +kernel
    split at this
    · next x hx =>
      refine ⟨x.source, ?_⟩
      rw [hx]
      simp only [Bool.and_eq_true, beq_iff_eq] at this
      obtain ⟨⟨h1, h2⟩, h3⟩ := this
      cases x
      simp only at h1 h2 h3
      simp [h1, h2, h3]
    · cases this
  have h2 : ∃ r, (IdleFileVisit.mk (some ⟨1, 7⟩)).startRel wrapsAround = some (.ok r) := by
    rw [startRel_eq hp]
    have : (match (IdleFileVisit.mk (some ⟨1, 7⟩)).startR wrapsAround with
      | .ok _ => true
      | _ => false) = true := by decide +kernel
    split at this
    · next x hx => exact ⟨x, by rw [hx]⟩
    · cases this
  obtain ⟨e, h1⟩ := h1
  refine ⟨⟨e, h1, (C131_start none (by intro t h; cases h) wrapsAround).1 _ h1⟩, h2,
    ((C131_start (some ⟨1, 7⟩) (by intro t h; cases h; decide) wrapsAround).2.1 h2).2.2, ?_⟩
  have : (match (IdleFileVisit.mk none).start wrapsAround with
    | .panic _ => true
    | _ => false) = true := by decide +kernel
  split at this
  · next x hx => exact ⟨x, hx⟩
  · cases this

/-- A directory of three links, the last of which is fine, the second has no Cid, and the first has no name: a walker of a release build names the
second. -/
theorem C131_example_walk : ∃ e w' k, (Walker.new (cidN 0) [114]).stepRel badDir none = some (.err (.InvalidCid ⟨1, [1, 2], [98], e⟩), w', k) ∧
    WalkRefusedRel ⟨cidN 0, 2, [114], .entry⟩ (fileVisit (Walker.new (cidN 0) [114])) badDir (.InvalidCid ⟨1, [1, 2], [98], e⟩) := by
  have hp : FlatUnixFs.tryParseR badDir = some (FlatUnixFs.tryParse badDir) := tame_agree (by decide +kernel)
  have h : ∃ e w' k, (Walker.new (cidN 0) [114]).stepRel badDir none = some (.err (.InvalidCid ⟨1, [1, 2], [98], e⟩), w', k) := by
    rw [stepRel_eq hp]
    have : (match ((Walker.new (cidN 0) [114]).stepR badDir none).1 with
      | .err (.InvalidCid x) => x.nth == 1 && x.hash == [1, 2] && x.name == [98]
      | _ => false) = true := by decide +kernel
    rcases hx : (Walker.new (cidN 0) [114]).stepR badDir none with ⟨r, w', k⟩
    rw [hx] at this
    dsimp only at this
    split at this
    · next x =>
      refine ⟨x.source, w', k, ?_⟩
      simp only [Bool.and_eq_true, beq_iff_eq] at this
      obtain ⟨⟨h1, h2⟩, h3⟩ := this
      cases x
      simp only at h1 h2 h3
      simp [h1, h2, h3]
    · cases this
  obtain ⟨e, w', k, h⟩ := h
  exact ⟨e, w', k, h, (C131_walk (cidN 0) [114] [[114]] ⟨by decide, by decide, by decide⟩ [] _ .new _ [] rfl badDir none (by simp)).1 _ _ _ h⟩

end Verif.Props
