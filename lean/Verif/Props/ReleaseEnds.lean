import Verif.Spec.ReleaseEnds
import Verif.ReleaseWalk
import Verif.Props.Ends
import Verif.Props.ReleaseRun
import Verif.Props.DirExact
import Verif.Props.ReleaseSafe
/-
C115: in a release build, reading, walking and looking names up come to an end, unless links go around in circles or a block is never read to
its end.
-/
namespace Verif.Props
open Verif Verif.Spec

/-! ### Counting -/

theorem countRel_append {get : Cid → Option Bytes} {a b : List Cid} {i j : Nat} (h : CountRel get a i) (h' : CountRel get b j) :
    CountRel get (a ++ b) (i + j) := by
  induction h with
  | nil => simpa using h'
  | @missing c cs k h1 h2 ih =>
    have := CountRel.missing h1 ih
    rw [show k + 1 + j = k + j + 1 by omega]
    exact this
  | @block c b cs n k h1 h2 h3 _ ih =>
    have := CountRel.block h1 h2 ih
    rw [show n + k + 1 + j = n + (k + j) + 1 by omega]
    exact this

theorem countRel_sublist {get : Cid → Option Bytes} {a b : List Cid} (hs : a.Sublist b) :
    ∀ {n : Nat}, CountRel get b n → ∃ k, CountRel get a k ∧ k ≤ n := by
  induction hs with
  | slnil => intro n h; exact ⟨n, h, Nat.le_refl n⟩
  | cons c _ ih =>
    intro n h
    cases h with
    | missing h1 h2 => obtain ⟨k, hk, hle⟩ := ih h2; exact ⟨k, hk, by omega⟩
    | block h1 h2 h3 => obtain ⟨k, hk, hle⟩ := ih h3; exact ⟨k, hk, by omega⟩
  | cons_cons c _ ih =>
    intro n h
    cases h with
    | missing h1 h2 => obtain ⟨k, hk, hle⟩ := ih h2; exact ⟨_, .missing h1 hk, by omega⟩
    | block h1 h2 h3 => obtain ⟨k, hk, hle⟩ := ih h3; exact ⟨_, .block h1 h2 hk, by omega⟩

theorem countRel_step {get : Cid → Option Bytes} {c : Cid} {rest S : List Cid} {b : Bytes} {n : Nat}
    (h : CountRel get (c :: rest) n) (hg : get c = some b) (hS : S.Sublist (linkCidsRel b)) :
    ∃ i j, CountRel get S i ∧ CountRel get rest j ∧ i + j + 1 ≤ n := by
  cases h with
  | missing h1 _ => rw [hg] at h1; cases h1
  | block h1 h2 h3 =>
    rw [hg] at h1
    cases h1
    obtain ⟨k, hk, hle⟩ := countRel_sublist hS h2
    exact ⟨k, _, hk, h3, by omega⟩

theorem countRel_pos {get : Cid → Option Bytes} {c : Cid} {cs : List Cid} {n : Nat} (h : CountRel get (c :: cs) n) : 1 ≤ n := by
  cases h <;> omega

theorem countRel_mem {get : Cid → Option Bytes} {cs : List Cid} {n : Nat} (h : CountRel get cs n) {c : Cid} (hc : c ∈ cs) :
    ∃ k, CountRel get [c] k ∧ k ≤ n :=
  countRel_sublist (List.singleton_sublist.2 hc) h

/-! ### Chains -/

theorem countRel_of_acc {get : Cid → Option Bytes} {c : Cid} (h : Acc (fun a b => RefersToRel get b a) c) :
    ∀ {cs : List Cid} {k : Nat}, CountRel get cs k → ∃ n, CountRel get (c :: cs) n := by
  induction h with
  | intro c _ ih =>
    intro cs k hk
    cases hg : get c with
    | none => exact ⟨_, .missing hg hk⟩
    | some b =>
      have : ∀ xs : List Cid, (∀ x ∈ xs, x ∈ linkCidsRel b) → ∃ n, CountRel get xs n := by
        intro xs
        induction xs with
        | nil => intro _; exact ⟨0, .nil⟩
        | cons x xs ihc =>
          intro hx
          obtain ⟨n, hn⟩ := ihc (fun y hy => hx y (by simp [hy]))
          exact ih x ⟨b, hg, hx x (by simp)⟩ hn
      obtain ⟨n, hn⟩ := this _ (fun _ hx => hx)
      exact ⟨_, .block hg hn hk⟩

theorem acc_of_chainsEndRel {get : Cid → Option Bytes} {c : Cid} (h : ChainsEndRel get c) : Acc (fun a b => RefersToRel get b a) c := by
  refine Classical.byContradiction fun hn => h ?_
  have hstep : ∀ x : {x : Cid // ¬ Acc (fun a b => RefersToRel get b a) x}, ∃ y : {x : Cid // ¬ Acc (fun a b => RefersToRel get b a) x},
      RefersToRel get x.1 y.1 := by
    rintro ⟨x, hx⟩
    refine Classical.byContradiction fun hno => hx ⟨_, fun y hy => ?_⟩
    exact Classical.byContradiction fun hy' => hno ⟨⟨y, hy'⟩, hy⟩
  let f := fun x => Classical.choose (hstep x)
  let chain : Nat → {x : Cid // ¬ Acc (fun a b => RefersToRel get b a) x} := fun n => Nat.rec ⟨c, hn⟩ (fun _ x => f x) n
  exact ⟨fun n => (chain n).1, rfl, fun n => Classical.choose_spec (hstep (chain n))⟩

/-- The blocks below `c` can be counted exactly if no endless chain of links starts there. -/
theorem C115_count (get : Cid → Option Bytes) (c : Cid) : (∃ n, CountRel get [c] n) ↔ ChainsEndRel get c := by
  refine ⟨?_, fun h => countRel_of_acc (acc_of_chainsEndRel h) .nil⟩
  rintro ⟨n, hn⟩
  induction n using Nat.strongRecOn generalizing c with
  | ind n ih =>
    rintro ⟨chain, h0, hl⟩
    obtain ⟨b, hb, hm⟩ := hl 0
    rw [h0] at hb
    cases hn with
    | missing hg _ => rw [hg] at hb; cases hb
    | block hg h _ =>
      rw [hg] at hb
      cases hb
      obtain ⟨k, hk, hle⟩ := countRel_mem h hm
      exact ih k (by omega) _ hk ⟨fun n => chain (n + 1), rfl, fun n => hl (n + 1)⟩

theorem noneEndless_step {get : Cid → Option Bytes} {c : Cid} (h : NoneEndless get c) {b : Bytes} (hg : get c = some b) :
    ¬ Endless b ∧ ∀ x ∈ linkCidsRel b, NoneEndless get x :=
  ⟨h c b (.here c) hg, fun x hx c' b' hl => h c' b' (.further ⟨b, hg, hx⟩ hl)⟩

theorem linkCidsRel_ok {b : Bytes} {m : FlatUnixFs} (h : FlatUnixFs.tryParseR b = some (.ok m)) :
    linkCidsRel b = m.links.filterMap (fun l => (Cid.tryFrom (l.Hash.getD [])).toOption) := by
  simp [linkCidsRel, h]

/-- Every block which is waited for is fine. -/
def Fine (get : Cid → Option Bytes) (cs : List Cid) : Prop := ∀ c ∈ cs, NoneEndless get c

theorem fine_step {get : Cid → Option Bytes} {c : Cid} {rest S : List Cid} (h : Fine get (c :: rest)) {b : Bytes} (hg : get c = some b)
    (hS : S.Sublist (linkCidsRel b)) : FlatUnixFs.tryParseR b ≠ none ∧ Fine get S ∧ Fine get rest := by
  obtain ⟨h1, h2⟩ := noneEndless_step (h c (by simp)) hg
  exact ⟨h1, fun x hx => h2 x (hS.subset hx), fun x hx => h x (by simp [hx])⟩

theorem fine_append {get : Cid → Option Bytes} {a b : List Cid} (h : Fine get a) (h' : Fine get b) : Fine get (a ++ b) := by
  intro c hc
  rcases List.mem_append.1 hc with hc | hc
  · exact h c hc
  · exact h' c hc

/-! ### Files -/

theorem toPending_cid {nth : Nat} {l : PBLink} {r : Rng} {p : Pending} (h : toPending nth l r = .ok p) : Cid.tryFrom (l.Hash.getD []) = .ok p.1 := by
  unfold toPending at h
  split at h
  · next c hc => cases h; exact hc
  · cases h

theorem collectLinksR_sublist (t : Option Rng) : ∀ (links : List PBLink) (sizes : List Nat) (i base : Nat) (ps : List Pending),
    collectLinksR t i base (links.zip sizes) = .ok ps →
    (ps.map (·.1)).Sublist (links.filterMap (fun l => (Cid.tryFrom (l.Hash.getD [])).toOption))
  | [], _, i, base, ps, h => by simp [collectLinksR] at h; cases h; simp
  | _ :: _, [], i, base, ps, h => by simp [collectLinksR] at h; cases h; simp
  | l :: ls, n :: ns, i, base, ps, h => by
    rw [List.zip_cons_cons, collectLinksR] at h
    split at h
    · have := collectLinksR_sublist t ls ns _ _ _ h
      rw [List.filterMap_cons]
      split
      · exact this
      · exact this.cons _
    · rw [Res.bind_ok_iff] at h
      obtain ⟨p, hp, h⟩ := h
      rw [Res.bind_ok_iff] at h
      obtain ⟨qs, hq, h⟩ := h
      cases h
      rw [List.filterMap_cons, toPending_cid hp]
      exact (collectLinksR_sublist t ls ns _ _ _ hq).cons_cons _

/-- What a reader takes from a parsed block: the links are those of the block. -/
theorem fromPartsR_content {m : FlatUnixFs} {o : Nat} {md : Metadata} {fr : FileReader} (h : FileReader.fromPartsR m o md = .ok fr) :
    fr.content.1 = .Bytes (m.data.Data.getD []) ∨ fr.content.1 = .Links o (m.links.zip m.data.blocksizes) := by
  unfold FileReader.fromPartsR at h
  simp only at h
  split at h
  · cases h
  split at h
  · cases h
  split at h
  · cases h
  split at h
  · cases h
  rw [Res.bind_ok_iff] at h
  obtain ⟨e, -, h⟩ := h
  cases hfs : m.data.filesize with
  | none => rw [hfs] at h; cases h
  | some fs =>
    rw [hfs] at h
    cases h
    unfold FileReader.content
    simp only
    split
    · exact .inl rfl
    · exact .inr rfl

theorem startFromReaderR_links {self : IdleFileVisit} {m : FlatUnixFs} {o : Nat} {md : Metadata} {fr : FileReader}
    (hfr : FileReader.fromPartsR m o md = .ok fr) {cache k : Option VisitCache} (hc : ∀ k, cache = some k → CacheObtainable k)
    {r : FileVisitResult} (h : self.startFromReaderR fr cache = (.ok r, k)) {v : FileVisit} (hv : r.next = some v) :
    (v.pending.reverse.map (·.1)).Sublist (m.links.filterMap (fun l => (Cid.tryFrom (l.Hash.getD [])).toOption)) := by
  have hin : (cache.getD {}).inner = [] := by
    cases cache with
    | none => rfl
    | some k => rcases hc k rfl with rfl | ⟨vec, rfl⟩ <;> rfl
  have hcont := fromPartsR_content hfr
  unfold IdleFileVisit.startFromReaderR at h
  generalize fr.content = fc at h hcont
  obtain ⟨fc, t⟩ := fc
  rcases hcont with hcont | hcont <;> simp only at hcont <;> subst hcont
  · simp only [Prod.mk.injEq] at h
    obtain ⟨h, -⟩ := h
    rw [Res.bind_ok_iff] at h
    obtain ⟨_, -, h⟩ := h
    cases h
    cases hv
  · simp only [hin, List.nil_append] at h
    cases hcl : collectLinksR self.range 0 o (m.links.zip m.data.blocksizes) with
    | err e => rw [hcl] at h; cases h
    | panic p => rw [hcl] at h; cases h
    | ok ps =>
      rw [hcl] at h
      simp only at h
      split at h
      · cases h; cases hv
      · cases h
        cases hv
        simp only [List.reverse_reverse]
        exact collectLinksR_sublist _ _ _ _ _ _ hcl

theorem pendingLinks_drop {v : FileVisit} {first : Cid} {rest : List Cid} (hp : v.pendingLinks = .ok (first, rest)) :
    v.pending.reverse.map (·.1) = first :: rest ∧ v.pending.dropLast.reverse.map (·.1) = rest := by
  unfold FileVisit.pendingLinks at hp
  split at hp
  · next f r hr =>
    cases hp
    refine ⟨hr, ?_⟩
    rw [← List.tail_reverse, List.map_tail, hr]
    rfl
  · cases hp

/-- After a block the visit waits for some of the links of the block, and then for what it waited for before. -/
theorem continueWalkRel_links {v : FileVisit} {first : Cid} {rest : List Cid} (hp : v.pendingLinks = .ok (first, rest)) {b : Bytes}
    {cache cache' : Option VisitCache} {c : Bytes} {v' : FileVisit} (h : v.continueWalkRel b cache = some (.ok (c, some v'), cache')) :
    ∃ S : List Cid, S.Sublist (linkCidsRel b) ∧ v'.pending.reverse.map (·.1) = S ++ rest := by
  have hpr := (pendingLinks_drop hp).2
  unfold FileVisit.continueWalkRel at h
  split at h
  · cases h
  split at h
  · cases h
  · next range _ _ _ =>
  obtain ⟨parsed, hparse, h⟩ := Option.map_eq_some_iff.1 h
  unfold FileReader.fromContinuedP at h
  cases parsed with
  | error e => cases h
  | ok m =>
    simp only at h
    split at h
    · cases h
    · cases hfr : FileReader.fromPartsR m range.lo v.state.metadata with
      | err e => rw [hfr] at h; cases h
      | panic p => rw [hfr] at h; cases h
      | ok fr =>
        rw [hfr] at h
        unfold FileVisit.continueWith at h
        simp only at h
        have hcont := fromPartsR_content hfr
        generalize fr.content = fc at h hcont
        obtain ⟨fc, t⟩ := fc
        rcases hcont with hcont | hcont <;> simp only at hcont <;> subst hcont
        · simp only at h
          split at h
          · cases h
          · cases h
          · split at h
            · cases h
              exact ⟨[], List.nil_sublist _, by simpa using hpr⟩
            · cases h
        · simp only at h
          split at h
          · cases h
          · cases h
          · next ps hcl =>
            cases h
            refine ⟨ps.map (·.1), ?_, ?_⟩
            · rw [linkCidsRel_ok hparse]
              exact collectLinksR_sublist _ _ _ _ _ _ hcl
            · simp only [List.reverse_append, List.reverse_reverse, List.map_append, hpr]

theorem continueWalkRel_none {v : FileVisit} {b : Bytes} {cache : Option VisitCache} (h : v.continueWalkRel b cache = none) :
    FlatUnixFs.tryParseR b = none := by
  unfold FileVisit.continueWalkRel at h
  split at h
  · cases h
  split at h
  · cases h
  · simpa using h

/-- Reading on from any state of a visit ends. -/
theorem readFromRel_ends (get : Cid → Option Bytes) (v : FileVisit) (n : Nat) (h : CountRel get (v.pending.reverse.map (·.1)) n)
    (hf : Fine get (v.pending.reverse.map (·.1))) :
    ∃ r, readFromRel get v = some r ∧ ∀ x q, r = .ok (x, q) → q.length ≤ n := by
  induction n using Nat.strongRecOn generalizing v with
  | ind n ih =>
    rw [readFromRel.eq_1]
    cases hp : v.pendingLinks with
    | panic p => exact ⟨_, rfl, nofun⟩
    | err e => exact ⟨_, rfl, nofun⟩
    | ok fr =>
      obtain ⟨first, rest⟩ := fr
      simp only
      rw [(pendingLinks_drop hp).1] at h hf
      cases hg : get first with
      | none => exact ⟨_, rfl, nofun⟩
      | some block =>
        simp only
        have hne := (fine_step hf hg (List.nil_sublist _)).1
        cases hc : v.continueWalkRel block none with
        | none => exact absurd (continueWalkRel_none hc) hne
        | some x =>
          obtain ⟨r, k⟩ := x
          simp only [Option.bind_eq_bind, Option.bind_some]
          cases r with
          | panic p => exact ⟨_, rfl, nofun⟩
          | err e => exact ⟨_, rfl, nofun⟩
          | ok cv =>
            obtain ⟨content, v'⟩ := cv
            cases v' with
            | none =>
              refine ⟨_, rfl, fun x q hx => ?_⟩
              cases hx
              have := countRel_pos h
              simpa using this
            | some v' =>
              obtain ⟨S, hS, hv'⟩ := continueWalkRel_links hp hc
              obtain ⟨i, j, h1, h2, hle⟩ := countRel_step h hg hS
              obtain ⟨-, h3, h4⟩ := fine_step hf hg hS
              obtain ⟨r, hr, hq⟩ := ih (i + j) (by omega) v' (by rw [hv']; exact countRel_append h1 h2) (by rw [hv']; exact fine_append h3 h4)
              simp only [hr, Option.bind_some]
              refine ⟨_, rfl, fun x q hx => ?_⟩
              cases r with
              | ok y =>
                cases hx
                have := hq y.1 y.2 rfl
                simp only [List.length_cons]
                omega
              | err e => cases hx
              | panic p => cases hx

/-- C115, files: reading what is at `c` with a release build ends, for any range. -/
theorem C115_file (get : Cid → Option Bytes) (c : Cid) (root : Bytes) (idle : IdleFileVisit) (n : Nat) (hg : get c = some root)
    (h : CountRel get [c] n) (hf : NoneEndless get c) :
    ∃ r, readFileRel get idle root = some r ∧ ∀ x q, r = .ok (x, q) → q.length + 1 ≤ n := by
  have hpos := countRel_pos h
  have hf' : Fine get [c] := fun x hx => by cases List.mem_singleton.1 hx; exact hf
  have hne := (fine_step hf' hg (List.nil_sublist _)).1
  unfold readFileRel IdleFileVisit.startRel
  cases hparse : FlatUnixFs.tryParseR root with
  | none => exact absurd hparse hne
  | some parsed =>
    simp only [Option.map_some]
    cases hs : idle.startP parsed with
    | panic p => exact ⟨_, rfl, nofun⟩
    | err e => exact ⟨_, rfl, nofun⟩
    | ok r =>
      obtain ⟨content, total, md, next⟩ := r
      cases next with
      | none => exact ⟨_, rfl, fun x q hx => by cases hx; simpa using hpos⟩
      | some v =>
        simp only
        unfold IdleFileVisit.startP at hs
        rw [Res.bind_ok_iff] at hs
        obtain ⟨fr, hfr, hs⟩ := hs
        unfold FileReader.fromBlockP at hfr
        cases parsed with
        | error e => cases hfr
        | ok m =>
          simp only at hfr
          have hsub := startFromReaderR_links hfr (cache := none) nofun (k := (idle.startFromReaderR fr none).2) (by rw [← hs]) rfl
          rw [← linkCidsRel_ok hparse] at hsub
          obtain ⟨i, j, h1, h2, hle⟩ := countRel_step h hg hsub
          obtain ⟨-, h3, -⟩ := fine_step hf' hg hsub
          obtain ⟨r, hr, hq⟩ := readFromRel_ends get v i h1 h3
          rw [hr]
          refine ⟨_, rfl, fun x q hx => ?_⟩
          cases r with
          | ok y =>
            cases hx
            have := hq y.1 y.2 rfl
            omega
          | err e => cases hx
          | panic p => cases hx

/-! ### Walks -/

/-- What a walker waits for, in order. -/
def waits (w : Walker) : List Cid :=
  (match w.current.map InnerEntry.kind with
    | some (.File (some v) _) => v.pending.reverse.map (·.1)
    | _ => []) ++ w.links.map (·.cid)

theorem waits_pending {w : Walker} {first : Cid} {rest : List Cid} (h : w.pendingLinks = .ok (first, rest)) : waits w = first :: rest := by
  unfold Walker.pendingLinks at h
  unfold waits
  simp only at h ⊢
  split at h
  · next v sz hk =>
    rw [Res.bind_ok_iff] at h
    obtain ⟨⟨f, r⟩, h1, h2⟩ := h
    cases h2
    simp only [hk, (pendingLinks_drop h1).1, Walker.links, List.map_append, List.map_reverse, List.cons_append]
    cases w.next <;> rfl
  · next hk =>
    split at h
    · cases h
    · next n hn =>
      cases h
      rw [show (match w.current.map InnerEntry.kind with
        | some (.File (some v) _) => v.pending.reverse.map (·.1)
        | _ => []) = ([] : List Cid) from by
          split
          · next v sz hk' => exact absurd hk' (hk v sz)
          · rfl]
      simp [Walker.links, hn, List.map_reverse]

theorem converted_sublist {conv : Nat → PBLink → Res InvalidCidInLink WalkLink}
    (hconv : ∀ i l x, conv i l = .ok x → Cid.tryFrom (l.Hash.getD []) = .ok x.cid) :
    ∀ (links : List PBLink) (k : Nat) (ls : List WalkLink), (links.zipIdx k).map (fun x => conv x.2 x.1) = ls.map .ok →
      (ls.map (·.cid)).Sublist (links.filterMap (fun l => (Cid.tryFrom (l.Hash.getD [])).toOption))
  | [], k, ls, h => by
    cases ls with
    | nil => simp
    | cons x xs => simp at h
  | l :: links, k, ls, h => by
    cases ls with
    | nil => simp at h
    | cons x xs =>
      simp only [List.zipIdx_cons, List.map_cons, List.cons.injEq] at h
      rw [List.filterMap_cons, hconv _ _ _ h.1]
      exact (converted_sublist hconv links _ xs h.2).cons_cons _

/-- The links which a walker takes from a block are links of the block. -/
theorem stepRel_links {w w' : Walker} (hr : w.atRest) {b : Bytes} {cache cache' : Option VisitCache} {item : ContinuedWalk}
    (h : w.stepRel b cache = some (.ok item, w', cache')) :
    ∃ ls : List WalkLink, (ls.map (·.cid)).Sublist (linkCidsRel b) ∧ w'.links = ls ++ w.pending.reverse := by
  rw [stepRel_atRest hr] at h
  obtain ⟨parsed, hp, h⟩ := Option.map_eq_some_iff.1 h
  unfold Walker.nextBlockP at h
  cases parsed with
  | error e => cases h
  | ok m =>
    rw [linkCidsRel_ok hp]
    simp only at h
    have first : w.nextFirstR m cache = (.ok item, w', cache') → w'.links = w.pending.reverse := by
      intro h
      unfold Walker.nextFirstR at h
      split at h
      · cases h
      · next e _ _ => exact absurd (congrArg Prod.fst h) (ofFileReadFailed_ne_ok e _)
      · split at h
        · cases h
        · simp only at h
          split at h
          · cases h
          · cases h
          · cases h; exact popNext_rlinks _ _
    split at h
    · split at h
      · cases h
      · next m' hm' =>
        cases checkDirectorySupported_ok hm'
        obtain ⟨n, ls, ie, hn, hls, he, rfl⟩ := nextDir_ok h
        exact ⟨ls, converted_sublist (conv := convertLink (n.depth + 1)) (fun i l x hx => (convertLink_took hx).2.2.2.2) _ _ _ hls, by rw [popNext_rlinks]; simp⟩
    · split at h
      · cases h
      · cases h
      · next m' hm' =>
        cases checkHamtshardSupported_ok hm'
        obtain ⟨n, ls, ie, hn, hls, he, rfl⟩ := nextDir_ok h
        refine ⟨ls, converted_sublist (conv := convertShardedLink (n.depth + 1) n.depth) (fun i l x hx => ?_) _ _ _ hls, by rw [popNext_rlinks]; simp⟩
        obtain ⟨s, h1, h2, h3⟩ := convertShardedLink_took hx
        exact h2
    · exact ⟨[], List.nil_sublist _, first h⟩
    · exact ⟨[], List.nil_sublist _, first h⟩
    · cases h
    · refine ⟨[], List.nil_sublist _, ?_⟩
      unfold Walker.nextSymlinkR at h
      simp only at h
      split at h
      · cases h
      · split at h
        · cases h
        · cases h
        · cases h; exact popNext_rlinks _ _

theorem not_atRest {w : Walker} {ie : InnerEntry} {v : FileVisit} {sz : Nat} (hc : w.current = some ie) (hk : ie.kind = .File (some v) sz) : ¬ w.atRest :=
  fun h => h ie v sz hc hk

/-- After a step a walker waits for some of the links of the block and for what it waited for before. -/
theorem stepRel_waits {w w' : Walker} {first : Cid} {rest : List Cid} (hp : w.pendingLinks = .ok (first, rest)) {b : Bytes}
    {cache cache' : Option VisitCache} (hc : ∀ k, cache = some k → CacheObtainable k) {item : ContinuedWalk}
    (h : w.stepRel b cache = some (.ok item, w', cache')) :
    ∃ S : List Cid, S.Sublist (linkCidsRel b) ∧ (waits w').Sublist (S ++ rest) := by
  cases stepRel_ok h with
  | later ie ie' v sz c next h1 h2 h3 h4 h5 h6 h7 h8 h9 h10 h11 =>
    obtain ⟨k, h9⟩ := h9
    unfold Walker.pendingLinks at hp
    simp only [h1, Option.map_some, h2] at hp
    rw [Res.bind_ok_iff] at hp
    obtain ⟨⟨f, r⟩, hp1, hp2⟩ := hp
    cases hp2
    have hrest : r ++ ((w.next.map (·.cid)).toList ++ (w.pending.map (·.cid)).reverse) = r ++ w.links.map (·.cid) := by
      simp only [Walker.links, List.map_append, List.map_reverse]
      cases w.next <;> rfl
    rw [hrest]
    cases next with
    | none =>
      refine ⟨[], List.nil_sublist _, ?_⟩
      simp only [waits, h6, Option.map_some, h8, List.nil_append, h7]
      exact List.sublist_append_right _ _
    | some v' =>
      obtain ⟨S, hS, hv'⟩ := continueWalkRel_links hp1 h9
      refine ⟨S, hS, ?_⟩
      simp only [waits, h6, Option.map_some, h8, h7, hv', List.append_assoc]
      exact List.Sublist.refl _
  | block m n ls ie' h1 h2 h3 h4 h5 h6 h7 h8 h9 h10 h11 h12 h13 h14 h15 =>
    have hrest : rest = w.pending.reverse.map (·.cid) := by
      unfold Walker.pendingLinks at hp
      simp only at hp
      split at hp
      · next v sz hk =>
        obtain ⟨ie, hie, hk⟩ := Option.map_eq_some_iff.1 hk
        exact absurd hk (h1 ie v sz hie)
      · rw [h3] at hp; cases hp; rw [List.map_reverse]
    obtain ⟨ls', hsub, hl⟩ := stepRel_links h1 h
    have : ls' = ls := List.append_cancel_right (hl.symm.trans h10)
    subst this
    by_cases hk : ∃ v sz, ie'.kind = .File (some v) sz
    · obtain ⟨v, sz, hk⟩ := hk
      obtain ⟨hty, r, k, hst, hv⟩ := h14 v sz hk
      have hnil : ls' = [] := by
        cases ls' with
        | nil => rfl
        | cons l _ =>
          exfalso
          cases h4 l (by simp) with
          | entry x _ h _ => rcases hty with k | k <;> (rw [k] at h; cases h)
          | shardEntry x s _ h _ => rcases hty with k | k <;> (rw [k] at h; cases h)
          | bucket x s _ h _ => rcases hty with k | k <;> (rw [k] at h; cases h)
      unfold IdleFileVisit.startFromParsedR at hst
      split at hst
      · next fr hfr =>
        have := startFromReaderR_links hfr hc hst hv
        rw [← linkCidsRel_ok h2] at this
        refine ⟨_, this, ?_⟩
        simp only [waits, h9, Option.map_some, hk, h10, hnil, List.nil_append, hrest]
        exact List.Sublist.refl _
      · cases hst
      · cases hst
    · refine ⟨_, hsub, ?_⟩
      have : waits w' = w'.links.map (·.cid) := by
        unfold waits
        rw [h9, Option.map_some]
        split
        · next v sz hk' => exact absurd ⟨v, sz, Option.some.inj hk'⟩ hk
        · rfl
      rw [this, h10, List.map_append, hrest]
      exact List.Sublist.refl _

theorem startFromReaderR_cache {self : IdleFileVisit} {fr : FileReader} {cache : Option VisitCache} (h : ∀ k, cache = some k → CacheObtainable k) :
    ∀ k, (self.startFromReaderR fr cache).2 = some k → CacheObtainable k := by
  unfold IdleFileVisit.startFromReaderR
  simp only
  split
  · exact h
  · split
    · nofun
    · nofun
    · split
      · rintro k ⟨⟩; exact .inr ⟨_, rfl⟩
      · nofun

theorem continueWalkRel_cache {v : FileVisit} {b : Bytes} {cache : Option VisitCache} (h : ∀ k, cache = some k → CacheObtainable k) {r}
    (hr : v.continueWalkRel b cache = some r) : ∀ k, r.2 = some k → CacheObtainable k := by
  unfold FileVisit.continueWalkRel at hr
  split at hr
  · cases hr; exact h
  split at hr
  · cases hr; exact h
  · obtain ⟨x, -, rfl⟩ := Option.map_eq_some_iff.1 hr
    unfold FileVisit.continueWith
    simp only
    repeat' split
    all_goals first
      | exact h
      | (rintro k ⟨⟩; exact .inr ⟨_, rfl⟩)

theorem stepRel_keeps {w : Walker} {b : Bytes} {cache : Option VisitCache} (h : ∀ k, cache = some k → CacheObtainable k) {r : WalkStep}
    (hr : w.stepRel b cache = some r) : ∀ k, r.2.2 = some k → CacheObtainable k := by
  unfold Walker.stepRel at hr
  split at hr
  · obtain ⟨x, hx, rfl⟩ := Option.map_eq_some_iff.1 hr
    have := continueWalkRel_cache h hx
    unfold Walker.nextFileP
    split <;> exact this
  · obtain ⟨x, hx, rfl⟩ := Option.map_eq_some_iff.1 hr
    unfold Walker.nextBlockP
    simp only
    split
    · exact h
    · next m =>
      split
      · split
        · exact h
        · rw [nextDir_cache]; exact h
      · split
        · exact h
        · exact h
        · rw [nextDir_cache]; exact h
      case h_5 => exact h
      case h_6 =>
        unfold Walker.nextSymlinkR
        simp only
        repeat' split
        all_goals exact h
      all_goals
        have : ∀ k, (IdleFileVisit.startFromParsedR {} m cache).2 = some k → CacheObtainable k := by
          unfold IdleFileVisit.startFromParsedR
          split
          · exact startFromReaderR_cache h
          · exact h
          · exact h
        unfold Walker.nextFirstR
        simp only
        split <;> rename_i hx <;> rw [hx] at this
        · exact this
        · exact this
        · repeat' split
          all_goals exact this

theorem stepRel_none {w : Walker} {b : Bytes} {cache : Option VisitCache} (h : w.stepRel b cache = none) : FlatUnixFs.tryParseR b = none := by
  unfold Walker.stepRel at h
  split at h
  · exact continueWalkRel_none (by simpa using h)
  · simpa using h

theorem walkFromRel_ends (get : Cid → Option Bytes) (w : Walker) (cache : Option VisitCache) (hc : ∀ k, cache = some k → CacheObtainable k) (n : Nat)
    (h : CountRel get (waits w) n) (hf : Fine get (waits w)) :
    ∃ r, walkFromRel get w cache = some r ∧ ∀ items, r = .ok items → items.length ≤ n := by
  induction n using Nat.strongRecOn generalizing w cache with
  | ind n ih =>
    rw [walkFromRel.eq_1]
    by_cases hsc : w.shouldContinue = false
    · rw [if_pos hsc]; exact ⟨_, rfl, fun items hi => by cases hi; simp⟩
    rw [if_neg hsc]
    cases hp : w.pendingLinks with
    | panic p => exact ⟨_, rfl, nofun⟩
    | err e => exact ⟨_, rfl, nofun⟩
    | ok fr =>
      obtain ⟨first, rest⟩ := fr
      simp only
      rw [waits_pending hp] at h hf
      cases hg : get first with
      | none => exact ⟨_, rfl, nofun⟩
      | some block =>
        simp only
        have hne := (fine_step hf hg (List.nil_sublist _)).1
        cases hst : w.stepRel block cache with
        | none => exact absurd (stepRel_none hst) hne
        | some x =>
          have hcache := stepRel_keeps hc hst
          obtain ⟨r, w', cache'⟩ := x
          simp only [Option.bind_eq_bind, Option.bind_some]
          cases r with
          | panic p => exact ⟨_, rfl, nofun⟩
          | err e => exact ⟨_, rfl, nofun⟩
          | ok item =>
            simp only
            obtain ⟨S, hS, hw'⟩ := stepRel_waits hp hc hst
            obtain ⟨i, j, h1, h2, hle⟩ := countRel_step h hg hS
            obtain ⟨-, h3, h4⟩ := fine_step hf hg hS
            obtain ⟨k, hk, hkle⟩ := countRel_sublist hw' (countRel_append h1 h2)
            obtain ⟨r, hr, hq⟩ := ih k (by omega) w' cache' hcache hk (fun c hc => fine_append h3 h4 c (hw'.subset hc))
            simp only [hr, Option.bind_some]
            refine ⟨_, rfl, fun items hi => ?_⟩
            cases r with
            | ok y =>
              cases hi
              have := hq y rfl
              simp only [List.length_cons]
              omega
            | err e => cases hi
            | panic p => cases hi

/-- C115, walks: a walk with a release build of whatever is at `c` ends, and has no more steps than there are blocks below `c`. -/
theorem C115_walk (get : Cid → Option Bytes) (c : Cid) (name : Bytes) (cache : Option VisitCache)
    (hc : ∀ k, cache = some k → CacheObtainable k) (n : Nat) (h : CountRel get [c] n) (hf : NoneEndless get c) :
    ∃ r, walkFromRel get (Walker.new c name) cache = some r ∧ ∀ items, r = .ok items → items.length ≤ n :=
  walkFromRel_ends get _ cache hc n h (fun x hx => by cases List.mem_singleton.1 hx; exact hf)

/-! ### Looking names up -/

theorem finishStep_next {needle : Bytes} {links : List PBLink} {queue : List Cid} {cache cache' : Option LookupCache} {l : ShardedLookup}
    (h : ShardedLookup.finishStep needle links queue cache = (.ok (.NeedToLoadMore l), cache')) : l.links = queue ++ bucketCids links := by
  obtain ⟨r, hr⟩ := shardRead_total needle queue links
  have := shardRead_result cache hr
  rw [h] at this
  simp only at this
  subst this
  cases hr with
  | more h1 h2 => rfl

theorem continueRel_more {l l' : ShardedLookup} {first : Cid} {rest : List Cid} (hp : l.pendingLinks = .ok (first, rest)) {b : Bytes}
    {cache cache' : Option LookupCache} (h : l.continueWalkRel b cache = some (.ok (.NeedToLoadMore l'), cache')) :
    ∃ S : List Cid, S.Sublist (linkCidsRel b) ∧ l'.links = rest ++ S := by
  have hl := pending_links hp
  unfold ShardedLookup.continueWalkRel at h
  rw [hl] at h
  simp only at h
  obtain ⟨parsed, hparse, h⟩ := Option.map_eq_some_iff.1 h
  unfold ShardedLookup.continueP at h
  split at h
  · cases h
  · cases h
  · cases h
  · next m =>
    split at h
    · cases h
    split at h
    · cases h
    · cases h
    · refine ⟨bucketCids m.links, ?_, finishStep_next h⟩
      rw [linkCidsRel_ok hparse]
      exact bucketCids_sublist _

theorem continueRel_none {l : ShardedLookup} {b : Bytes} {cache : Option LookupCache} (h : l.continueWalkRel b cache = none) :
    FlatUnixFs.tryParseR b = none := by
  unfold ShardedLookup.continueWalkRel at h
  split at h
  · cases h
  · simpa using h

theorem lookupFromRel_ends (get : Cid → Option Bytes) (l : ShardedLookup) (cache : Option LookupCache) (n : Nat)
    (h : CountRel get l.links n) (hf : Fine get l.links) :
    ∃ r, lookupFromRel get l cache = some r ∧ ∀ x q, r = .ok (x, q) → q.length ≤ n := by
  induction n using Nat.strongRecOn generalizing l cache with
  | ind n ih =>
    rw [lookupFromRel.eq_1]
    cases hp : l.pendingLinks with
    | panic p => exact ⟨_, rfl, nofun⟩
    | err e => exact ⟨_, rfl, nofun⟩
    | ok fr =>
      obtain ⟨first, rest⟩ := fr
      simp only
      rw [pending_links hp] at h hf
      cases hg : get first with
      | none => exact ⟨_, rfl, nofun⟩
      | some block =>
        simp only
        have hne := (fine_step hf hg (List.nil_sublist _)).1
        have hpos := countRel_pos h
        cases hst : l.continueWalkRel block cache with
        | none => exact absurd (continueRel_none hst) hne
        | some x =>
          obtain ⟨r, cache'⟩ := x
          simp only [Option.bind_eq_bind, Option.bind_some]
          cases r with
          | panic p => exact ⟨_, rfl, nofun⟩
          | err e => exact ⟨_, rfl, nofun⟩
          | ok y =>
            cases y with
            | Found c => exact ⟨_, rfl, fun x q hx => by cases hx; simpa using hpos⟩
            | NotFound => exact ⟨_, rfl, fun x q hx => by cases hx; simpa using hpos⟩
            | NeedToLoadMore l' =>
              obtain ⟨S, hS, hl'⟩ := continueRel_more hp hst
              obtain ⟨i, j, h1, h2, hle⟩ := countRel_step h hg hS
              obtain ⟨-, h3, h4⟩ := fine_step hf hg hS
              obtain ⟨r, hr, hq⟩ := ih (j + i) (by omega) l' cache' (by rw [hl']; exact countRel_append h2 h1) (by rw [hl']; exact fine_append h4 h3)
              simp only [hr, Option.bind_some]
              refine ⟨_, rfl, fun x q hx => ?_⟩
              cases r with
              | ok y =>
                cases hx
                have := hq y.1 y.2 rfl
                simp only [List.length_cons]
                omega
              | err e => cases hx
              | panic p => cases hx

/-- C115, look-ups: looking a name up in whatever block is at `d` with a release build ends. -/
theorem C115_lookup (get : Cid → Option Bytes) (d : Cid) (block name : Bytes) (cache : Option LookupCache)
    (hc : ∀ k, cache = some k → k.buffer = []) (n : Nat) (hg : get d = some block) (h : CountRel get [d] n) (hf : NoneEndless get d) :
    ∃ r, lookupNameRel get block name cache = some r ∧ ∀ x q, r = .ok (x, q) → q.length + 1 ≤ n := by
  have hpos := countRel_pos h
  have hf' : Fine get [d] := fun x hx => by cases List.mem_singleton.1 hx; exact hf
  have hne := (fine_step hf' hg (List.nil_sublist _)).1
  have hq : (cache.getD {}).buffer = [] := by
    cases cache with
    | none => rfl
    | some k => exact hc k rfl
  unfold lookupNameRel resolveRel
  cases hparse : FlatUnixFs.tryParseR block with
  | none => exact absurd hparse hne
  | some parsed =>
    simp only [Option.map_some]
    rcases hr : resolveP name cache parsed with ⟨x, c1⟩
    cases x with
    | panic p => exact ⟨_, rfl, nofun⟩
    | err e => exact ⟨_, rfl, nofun⟩
    | ok y =>
      cases y with
      | Found c => exact ⟨_, rfl, fun x q hx => by cases hx; simpa using hpos⟩
      | NotFound => exact ⟨_, rfl, fun x q hx => by cases hx; simpa using hpos⟩
      | NeedToLoadMore l =>
        simp only
        have plain : ∀ links k, (resolveInLinks links name, k) ≠ ((.ok (.NeedToLoadMore l), c1) : Res ResolveError MaybeResolved × Option LookupCache) :=
          fun links k he => resolveInLinks_not_more links name l (congrArg Prod.fst he)
        obtain ⟨m, rfl, hlinks⟩ : ∃ m, parsed = .ok m ∧ l.links = bucketCids m.links := by
          unfold resolveP at hr
          split at hr
          · next m =>
            refine ⟨m, rfl, ?_⟩
            split at hr
            · simp only [Prod.mk.injEq] at hr
              obtain ⟨hr, -⟩ := hr
              unfold ShardedLookup.lookupOrStart at hr
              split at hr
              · cases hr
              · cases hr
              · rw [hq] at hr
                rcases hfs : ShardedLookup.finishStep name m.links [] none with ⟨z, k⟩
                rw [hfs] at hr
                cases z with
                | ok y => cases hr; simpa using finishStep_next hfs
                | err e => cases hr
                | panic p => cases hr
            · split at hr
              · cases hr
              · exact absurd hr (plain _ _)
            · cases hr
          · exact absurd hr (plain _ _)
          · exact absurd hr (plain _ _)
          · cases hr
        have hsub : (bucketCids m.links).Sublist (linkCidsRel block) := by rw [linkCidsRel_ok hparse]; exact bucketCids_sublist _
        obtain ⟨i, j, h1, h2, hle⟩ := countRel_step h hg hsub
        obtain ⟨-, h3, -⟩ := fine_step hf' hg hsub
        obtain ⟨r, hr, hq⟩ := lookupFromRel_ends get l c1 i (by rw [hlinks]; exact h1) (by rw [hlinks]; exact h3)
        rw [hr]
        refine ⟨_, rfl, fun x q hx => ?_⟩
        have := hq x q hx
        omega

/-! ### Stores of blocks which nothing overruns -/

theorem linkCidsRel_eq {b : Bytes} (h : FlatUnixFs.tryParseR b = some (FlatUnixFs.tryParse b)) : linkCidsRel b = linkCids b := by
  unfold linkCidsRel linkCids
  rw [h]
  cases FlatUnixFs.tryParse b <;> rfl

/-- C115: over a store of blocks which nothing overruns it is only circles which keep a release build from ending, as a checked one (C87). -/
theorem C115_kept (get : Cid → Option Bytes) (hget : ∀ c b, get c = some b → Kept b) (c : Cid) (h : ChainsEnd get c) :
    (∀ root idle, get c = some root → readFileRel get idle root ≠ none) ∧
    (∀ name cache, (∀ k, cache = some k → CacheObtainable k) → walkFromRel get (Walker.new c name) cache ≠ none) ∧
    ∀ block name cache, get c = some block → (∀ k, cache = some k → k.buffer = []) → lookupNameRel get block name cache ≠ none := by
  have hp : ∀ c b, get c = some b → FlatUnixFs.tryParseR b = some (FlatUnixFs.tryParse b) := fun c b hb => kept_parse (hget c b hb)
  have hn : NoneEndless get c := fun c' b _ hb he => by
    unfold Endless at he
    rw [hp c' b hb] at he
    cases he
  have hc : ChainsEndRel get c := by
    rintro ⟨chain, h0, hl⟩
    refine h ⟨chain, h0, fun n => ?_⟩
    obtain ⟨b, hb, hm⟩ := hl n
    rw [linkCidsRel_eq (hp _ b hb)] at hm
    exact ⟨b, hb, hm⟩
  obtain ⟨n, hcount⟩ := (C115_count get c).2 hc
  refine ⟨fun root idle hg => ?_, fun name cache hcache => ?_, fun block name cache hg hcache => ?_⟩
  · obtain ⟨r, hr, -⟩ := C115_file get c root idle n hg hcount hn
    rw [hr]; nofun
  · obtain ⟨r, hr, -⟩ := C115_walk get c name cache hcache n hcount hn
    rw [hr]; nofun
  · obtain ⟨r, hr, -⟩ := C115_lookup get c block name cache hcache n hg hcount hn
    rw [hr]; nofun

theorem lookupFrom_kept {get : Cid → Option Bytes} (hp : ∀ c b, get c = some b → FlatUnixFs.tryParseR b = some (FlatUnixFs.tryParse b))
    (l : ShardedLookup) (cache : Option LookupCache) : lookupFromRel get l cache = lookupFrom get l cache := by
  apply option_ext
  · refine fun x h => lookupFromRel.partial_correctness get (fun l cache x => lookupFrom get l cache = some x) ?_ l cache x h
    intro rec ih l cache r h
    rw [lookupFrom.eq_1]
    cases hl : l.pendingLinks with
    | panic p => simp only [hl] at h ⊢; exact h
    | err e => simp only [hl] at h ⊢; exact h
    | ok fr =>
      obtain ⟨first, rest⟩ := fr
      simp only [hl] at h ⊢
      cases hg : get first with
      | none => rw [hg] at h; exact h
      | some block =>
        rw [hg] at h
        simp only [lookupRel_eq (hp _ _ hg), Option.bind_eq_bind, Option.bind_some] at h ⊢
        rcases hk : l.continueWalk block cache with ⟨x, k⟩
        rw [hk] at h
        cases x with
        | panic p => exact h
        | err e => exact h
        | ok y =>
          cases y with
          | Found c => exact h
          | NotFound => exact h
          | NeedToLoadMore l' =>
            simp only at h ⊢
            cases hr : rec l' k with
            | none => rw [hr] at h; cases h
            | some r' => rw [hr] at h; rw [ih l' k r' hr]; exact h
  · refine fun x h => lookupFrom.partial_correctness get (fun l cache x => lookupFromRel get l cache = some x) ?_ l cache x h
    intro rec ih l cache r h
    rw [lookupFromRel.eq_1]
    cases hl : l.pendingLinks with
    | panic p => simp only [hl] at h ⊢; exact h
    | err e => simp only [hl] at h ⊢; exact h
    | ok fr =>
      obtain ⟨first, rest⟩ := fr
      simp only [hl] at h ⊢
      cases hg : get first with
      | none => rw [hg] at h; exact h
      | some block =>
        rw [hg] at h
        simp only [lookupRel_eq (hp _ _ hg), Option.bind_eq_bind, Option.bind_some] at h ⊢
        rcases hk : l.continueWalk block cache with ⟨x, k⟩
        rw [hk] at h
        cases x with
        | panic p => exact h
        | err e => exact h
        | ok y =>
          cases y with
          | Found c => exact h
          | NotFound => exact h
          | NeedToLoadMore l' =>
            simp only at h ⊢
            cases hr : rec l' k with
            | none => rw [hr] at h; cases h
            | some r' => rw [hr] at h; rw [ih l' k r' hr]; exact h

/-- C109, look-ups to the end: over a store of blocks which nothing overruns, looking a name up in a directory is as in a checked build. -/
theorem C109_lookup (get : Cid → Option Bytes) (hget : ∀ c b, get c = some b → Kept b) (block : Bytes) (hb : Kept block) (name : Bytes)
    (cache : Option LookupCache) : lookupNameRel get block name cache = lookupName get block name cache := by
  unfold lookupNameRel lookupName
  rw [resolveRel_eq (kept_parse hb)]
  rcases resolve block name cache with ⟨x, k⟩
  cases x with
  | panic p => rfl
  | err e => rfl
  | ok y =>
    cases y with
    | Found c => rfl
    | NotFound => rfl
    | NeedToLoadMore l => exact lookupFrom_kept (fun c b hg => kept_parse (hget c b hg)) l k

/-! ### Cases -/

/-- A store with a directory of two files, one of which is `backToEnd`, which a checked build panics at. -/
def oddBlocks : List (UInt8 × Bytes) :=
  [(0, (dirMsg [linkN 1 [97], linkN 2 [98], linkN 1 [99]]).write), (1, backToEnd), (2, (partMsg [1, 2, 3]).write)]

theorem odd_get {c : Cid} {b : Bytes} (h : storeB oddBlocks c = some b) : ∃ e ∈ oddBlocks, cidN e.1 = c ∧ b = e.2 := by
  unfold storeB at h
  obtain ⟨e, he, h⟩ := Option.map_eq_some_iff.1 h
  have := List.find?_some he
  exact ⟨e, List.mem_of_find?_eq_some he, by simpa using this, h.symm⟩

theorem odd_links : linkCidsRel (dirMsg [linkN 1 [97], linkN 2 [98], linkN 1 [99]]).write = [cidN 1, cidN 2, cidN 1] ∧ linkCidsRel backToEnd = [] ∧
    linkCidsRel (partMsg [1, 2, 3]).write = [] := by
  refine ⟨?_, ?_, ?_⟩
  · rw [linkCidsRel_eq (tame_agree (by decide +kernel))]; decide +kernel
  · unfold linkCidsRel
    rw [C108_accepts.2]
    decide +kernel
  · rw [linkCidsRel_eq (tame_agree (by decide +kernel))]; decide +kernel

/-- C115: the hypotheses are met by a store of which not all blocks are accepted by a checked build: four blocks are counted, one of them
twice. -/
theorem C115_example : CountRel (storeB oddBlocks) [cidN 0] 4 ∧ NoneEndless (storeB oddBlocks) (cidN 0) ∧ ChainsEndRel (storeB oddBlocks) (cidN 0) := by
  obtain ⟨l1, l2, l3⟩ := odd_links
  have c2 : storeB oddBlocks (cidN 2) = some (partMsg [1, 2, 3]).write := by decide +kernel
  have c1 : storeB oddBlocks (cidN 1) = some backToEnd := by decide +kernel
  have h : CountRel (storeB oddBlocks) [cidN 0] 4 := by
    refine CountRel.block (n := 3) (k := 0) (b := (dirMsg [linkN 1 [97], linkN 2 [98], linkN 1 [99]]).write) (by decide +kernel) ?_ .nil
    rw [l1]
    have e3 := CountRel.block (n := 0) (k := 0) c1 (by rw [l2]; exact .nil) .nil
    have e2 := CountRel.block (n := 0) (k := 1) c2 (by rw [l3]; exact .nil) e3
    exact CountRel.block (n := 0) (k := 2) c1 (by rw [l2]; exact .nil) e2
  refine ⟨h, ?_, (C115_count _ _).1 ⟨4, h⟩⟩
  intro c' b _ hb he
  obtain ⟨e, hm, -, rfl⟩ := odd_get hb
  simp only [oddBlocks, List.mem_cons, List.not_mem_nil, or_false] at hm
  unfold Endless at he
  rcases hm with rfl | rfl | rfl
  · rw [tame_agree (by decide +kernel)] at he; cases he
  · rw [C108_accepts.2] at he; cases he
  · rw [tame_agree (by decide +kernel)] at he; cases he

theorem readFromRel_fixed {get : Cid → Option Bytes} {v : FileVisit} {first : Cid} {rest : List Cid} {block : Bytes} {c : Bytes} {k : Option VisitCache}
    (h1 : v.pendingLinks = .ok (first, rest)) (h2 : get first = some block) (h3 : v.continueWalkRel block none = some (.ok (c, some v), k)) :
    readFromRel get v = none := by
  cases hr : readFromRel get v with
  | none => rfl
  | some r =>
    refine False.elim (readFromRel.partial_correctness get (fun w _ => w = v → False) ?_ v r hr rfl)
    intro rec ih w r h hw
    subst hw
    simp only [h1, h2, h3, Option.bind_eq_bind, Option.bind_some] at h
    cases hx : rec w with
    | none => rw [hx] at h; cases h
    | some r' => exact ih w r' hx rfl

/-- C115, both conditions are needed: a file which is its own only part is not read to its end, and neither is a file of which a part is a block
which is read forever; there is no endless block in the first store and no endless chain in the second. -/
theorem C115_needed :
    (∃ get c root, get c = some root ∧ NoneEndless get c ∧ ¬ ChainsEndRel get c ∧ readFileRel get {} root = none) ∧
    (∃ get c root, get c = some root ∧ ChainsEndRel get c ∧ ¬ NoneEndless get c ∧ readFileRel get {} root = none) := by
  constructor
  · have hp : FlatUnixFs.tryParseR loopFile = some (FlatUnixFs.tryParse loopFile) := tame_agree (by decide +kernel)
    have hl : linkCidsRel loopFile = [loopCid] := by rw [linkCidsRel_eq hp]; decide +kernel
    have hg : loopGet loopFile loopCid = some loopFile := if_pos rfl
    refine ⟨loopGet loopFile, loopCid, loopFile, hg, ?_, ?_, ?_⟩
    · intro c' b _ hb he
      unfold loopGet at hb
      split at hb
      · cases hb
        unfold Endless at he
        rw [hp] at he
        cases he
      · cases hb
    · intro h
      exact h ⟨fun _ => loopCid, rfl, fun _ => ⟨loopFile, hg, by rw [hl]; simp⟩⟩
    · have h : IdleFileVisit.startR {} loopFile = .ok ⟨[], 1, {}, some loopVisit⟩ := by decide +kernel
      unfold readFileRel
      rw [startRel_eq hp, h]
      simp only
      rw [readFromRel_fixed (v := loopVisit) (first := loopCid) (rest := []) (block := loopFile) (c := []) (k := none) (by decide +kernel) hg
        (by rw [continueWalkRel_eq hp]; exact congrArg some (by decide +kernel))]
      rfl
  · have hend : FlatUnixFs.tryParseR endlessLink = none := C108_hangs [] [] [] .nil (by decide)
    have hp : FlatUnixFs.tryParseR loopFile = some (FlatUnixFs.tryParse loopFile) := tame_agree (by decide +kernel)
    have hl : linkCidsRel loopFile = [loopCid] := by rw [linkCidsRel_eq hp]; decide +kernel
    have hle : linkCidsRel endlessLink = [] := by unfold linkCidsRel; rw [hend]
    let get : Cid → Option Bytes := fun c => if c = loopCid then some endlessLink else if c = cidN 0 then some loopFile else none
    have h0 : get (cidN 0) = some loopFile := by
      simp only [get]
      rw [if_neg (by decide +kernel), if_pos trivial]
    have h1 : get loopCid = some endlessLink := if_pos rfl
    refine ⟨get, cidN 0, loopFile, h0, ?_, ?_, ?_⟩
    · refine (C115_count _ _).1 ⟨2, .block (n := 1) (k := 0) h0 ?_ .nil⟩
      rw [hl]
      exact .block (n := 0) (k := 0) h1 (by rw [hle]; exact .nil) .nil
    · intro h
      exact h loopCid endlessLink (.further ⟨loopFile, h0, by rw [hl]; simp⟩ (.here _)) h1 hend
    · have h : IdleFileVisit.startR {} loopFile = .ok ⟨[], 1, {}, some loopVisit⟩ := by decide +kernel
      unfold readFileRel
      rw [startRel_eq hp, h]
      simp only
      have hv : loopVisit.pendingLinks = .ok (loopCid, []) := by decide +kernel
      have hcw : loopVisit.continueWalkRel endlessLink none = none := by
        unfold FileVisit.continueWalkRel
        rw [hend]
        decide +kernel
      rw [readFromRel.eq_1, hv]
      simp only [h1, hcw, Option.bind_eq_bind, Option.bind_none]

end Verif.Props
