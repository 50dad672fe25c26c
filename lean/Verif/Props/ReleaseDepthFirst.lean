import Verif.Spec.ReleaseDepthFirst
import Verif.Props.DepthFirst
import Verif.Props.ReleaseRefusals
import Verif.Props.ReleaseEnds
import Verif.Props.ReleaseLookups
/-
C138: which blocks a walk or a read of a release build which finishes has asked for, and in which order, whatever the blocks are.
-/
namespace Verif.Props
open Verif Verif.Spec Verif.Examples

/-! ### the order -/

theorem linksAreRel_unique {b : Bytes} {x y : List Cid} (h1 : LinksAreRel b x) (h2 : LinksAreRel b y) : x = y := by
  obtain ⟨m, hm, h1⟩ := h1
  obtain ⟨m', hm', h2⟩ := h2
  unfold Reads at hm hm'
  rw [hm] at hm'
  cases hm'
  by_cases ht : m.data.Ty = .Symlink
  · rw [if_pos ht] at h1 h2; rw [h1, h2]
  · rw [if_neg ht] at h1 h2
    rw [h1] at h2
    exact (List.map_inj_right (f := Except.ok) (fun _ _ h => Except.ok.inj h)).1 h2

theorem depthFirstRelL_append {get : Cid → Option Bytes} {a b order : List Cid} :
    DepthFirstRelL get (a ++ b) order ↔ ∃ x y, DepthFirstRelL get a x ∧ DepthFirstRelL get b y ∧ order = x ++ y := by
  induction a generalizing order with
  | nil =>
    constructor
    · intro h; exact ⟨[], order, .nil, h, rfl⟩
    · rintro ⟨x, y, h1, h2, rfl⟩; cases h1; exact h2
  | cons c cs ih =>
    constructor
    · intro h
      cases h with
      | cons h1 h2 =>
        obtain ⟨x, y, h3, h4, rfl⟩ := ih.1 h2
        exact ⟨_, y, .cons h1 h3, h4, by simp⟩
    · rintro ⟨x, y, h1, h2, rfl⟩
      cases h1 with
      | cons h1 h3 =>
        rw [List.append_assoc]
        exact .cons h1 (ih.2 ⟨_, _, h3, h2, rfl⟩)

/-- C138: there is at most one such order. -/
theorem C138_unique (get : Cid → Option Bytes) (c : Cid) (o1 o2 : List Cid) (h1 : DepthFirstRel get c o1) (h2 : DepthFirstRel get c o2) : o1 = o2 := by
  refine DepthFirstRel.rec (motive_1 := fun c o1 _ => ∀ o2, DepthFirstRel get c o2 → o1 = o2)
    (motive_2 := fun cs o1 _ => ∀ o2, DepthFirstRelL get cs o2 → o1 = o2) ?_ ?_ ?_ h1 o2 h2
  · intro c b links order hg hla _ ih o2 h2
    cases h2 with
    | block hg' hla' h3 =>
      rw [hg] at hg'
      cases hg'
      cases linksAreRel_unique hla hla'
      rw [ih _ h3]
  · intro o2 h2; cases h2; rfl
  · intro c cs o1 o2 _ _ ih1 ih2 o h
    cases h with
    | cons h3 h4 => rw [ih1 _ h3, ih2 _ h4]

theorem depthFirstRel_sound {get : Cid → Option Bytes} {c : Cid} {order : List Cid} (h : DepthFirstRel get c order) : ∀ d ∈ order, LinkedToRel get c d := by
  refine DepthFirstRel.rec (motive_1 := fun c order _ => ∀ d ∈ order, LinkedToRel get c d)
    (motive_2 := fun cs order _ => ∀ d ∈ order, ∃ k ∈ cs, LinkedToRel get k d) ?_ ?_ ?_ h
  · intro c b links order hg hla _ ih d hd
    rcases List.mem_cons.1 hd with rfl | hd
    · exact .here _
    · obtain ⟨k, hk, hl⟩ := ih d hd
      exact .link hg hla hk hl
  · intro d hd; cases hd
  · intro c cs o1 o2 _ _ ih1 ih2 d hd
    rcases List.mem_append.1 hd with hd | hd
    · exact ⟨c, by simp, ih1 d hd⟩
    · obtain ⟨k, hk, hl⟩ := ih2 d hd
      exact ⟨k, by simp [hk], hl⟩

theorem depthFirstRelL_mem {get : Cid → Option Bytes} {cs order : List Cid} {k : Cid} (h : DepthFirstRelL get cs order) (hk : k ∈ cs) :
    ∃ o, DepthFirstRel get k o ∧ ∀ d ∈ o, d ∈ order := by
  induction cs generalizing order with
  | nil => cases hk
  | cons c cs ih =>
    cases h with
    | cons h1 h2 =>
      rcases List.mem_cons.1 hk with rfl | hk
      · exact ⟨_, h1, fun d hd => by simp [hd]⟩
      · obtain ⟨o, h3, h4⟩ := ih h2 hk
        exact ⟨o, h3, fun d hd => by simp [h4 d hd]⟩

theorem depthFirstRel_complete {get : Cid → Option Bytes} {c d : Cid} (h : LinkedToRel get c d) : ∀ order, DepthFirstRel get c order → d ∈ order := by
  induction h with
  | here c => intro order h; cases h; simp
  | link hg hla hk _ ih =>
    intro order h
    cases h with
    | block hg' hla' h3 =>
      rw [hg] at hg'
      cases hg'
      cases linksAreRel_unique hla hla'
      obtain ⟨o, h4, h5⟩ := depthFirstRelL_mem h3 hk
      exact List.mem_cons_of_mem _ (h5 _ (ih o h4))

/-- C138: the blocks in this order are those to which some chain of links leads; all of them are in the store. -/
theorem C138_blocks (get : Cid → Option Bytes) (c : Cid) (order : List Cid) (h : DepthFirstRel get c order) (d : Cid) :
    (d ∈ order ↔ LinkedToRel get c d) ∧ (d ∈ order → ∃ b, get d = some b) := by
  refine ⟨⟨depthFirstRel_sound h d, fun hl => depthFirstRel_complete hl order h⟩, ?_⟩
  intro hd
  refine DepthFirstRel.rec (motive_1 := fun c order _ => ∀ d ∈ order, ∃ b, get d = some b)
    (motive_2 := fun cs order _ => ∀ d ∈ order, ∃ b, get d = some b) ?_ ?_ ?_ h d hd
  · intro c b links order hg hla _ ih d hd
    rcases List.mem_cons.1 hd with rfl | hd
    · exact ⟨b, hg⟩
    · exact ih d hd
  · intro d hd; cases hd
  · intro c cs o1 o2 _ _ ih1 ih2 d hd
    rcases List.mem_append.1 hd with hd | hd
    · exact ih1 d hd
    · exact ih2 d hd

/-! ### the links which a step follows -/

theorem place_cids {f : PBLink → Option Place} : ∀ {links : List PBLink}, (∀ l ∈ links, ∃ p, Cid.tryFrom (l.Hash.getD []) = .ok p.cid ∧ f l = some p) →
    links.map (fun l => Cid.tryFrom (l.Hash.getD [])) = ((links.filterMap f).map (·.cid)).map .ok
  | [], _ => rfl
  | l :: links, h => by
    obtain ⟨p, h1, h2⟩ := h l List.mem_cons_self
    rw [List.filterMap_cons, h2]
    simp only [List.map_cons, h1, place_cids (fun l hl => h l (List.mem_cons_of_mem _ hl))]

theorem placeAt_ok {level : Nat} {name : Bytes} {what : What} {l : PBLink} (h : CidOk l) :
    ∃ p, Cid.tryFrom (l.Hash.getD []) = .ok p.cid ∧ placeAt level name what l = some p := by
  obtain ⟨c, hc⟩ := h
  exact ⟨⟨c, level, name, what⟩, hc, by rw [placeAt, hc]⟩

theorem followRel_ok {a : Place} {m : FlatUnixFs} (h : a.what = .fileBlock ∨ (m.data.Ty ≠ .Symlink ∧ m.data.Ty ≠ .Metadata)) {l : PBLink} (hl : CidOk l) :
    ∃ p, Cid.tryFrom (l.Hash.getD []) = .ok p.cid ∧ followRel a m l = some p := by
  unfold followRel
  by_cases ha : a.what = .fileBlock
  · rw [if_pos ha]; exact placeAt_ok hl
  · rw [if_neg ha]
    obtain ⟨h1, h2⟩ := h.resolve_left ha
    cases ht : m.data.Ty with
    | Symlink => exact absurd ht h1
    | Metadata => exact absurd ht h2
    | Directory => exact placeAt_ok hl
    | File => exact placeAt_ok hl
    | Raw => exact placeAt_ok hl
    | HAMTShard =>
      simp only
      split
      · exact placeAt_ok hl
      · exact placeAt_ok hl

/-- One of the links has no valid Cid: the last such one is followed by links which are all fine, or by one with a name that is not. -/
theorem last_trouble {label : Option Bytes → Prop} {links : List PBLink} (h : ¬ ∀ l ∈ links, CidOk l) :
    NameTrouble label links ∨ ∃ k l e, CidTrouble label links k l e := by
  induction links with
  | nil => exact absurd (fun l hl => nomatch hl) h
  | cons l links ih =>
    by_cases hr : ∀ x ∈ links, CidOk x
    · by_cases hf : AllFine label links
      · refine .inr ⟨0, l, ?_⟩
        cases hc : Cid.tryFrom (l.Hash.getD []) with
        | ok c => exact absurd (fun x hx => (List.mem_cons.1 hx).elim (fun h => h ▸ ⟨c, hc⟩) (hr x)) h
        | error e => exact ⟨e, [], links, rfl, rfl, hc, hf⟩
      · -- the last link with a bad name
        refine .inl ?_
        have : ∀ (ls : List PBLink), (∀ x ∈ ls, CidOk x) → ¬ AllFine label ls → NameTrouble label ls := by
          intro ls
          induction ls with
          | nil => intro _ hn; exact absurd (fun l hl => nomatch hl) hn
          | cons y ys ih =>
            intro hok hn
            by_cases hy : AllFine label ys
            · refine ⟨[], y, ys, rfl, hok y List.mem_cons_self, fun hlab => hn fun x hx => ?_, hy⟩
              rcases List.mem_cons.1 hx with rfl | hx
              · exact ⟨hok _ List.mem_cons_self, hlab⟩
              · exact hy x hx
            · obtain ⟨b, z, a, h1, h2, h3, h4⟩ := ih (fun x hx => hok x (List.mem_cons_of_mem _ hx)) hy
              exact ⟨y :: b, z, a, by rw [h1]; rfl, h2, h3, h4⟩
        obtain ⟨b, z, a, h1, h2, h3, h4⟩ := this links hr hf
        exact ⟨l :: b, z, a, by rw [h1]; rfl, h2, h3, h4⟩
    · rcases ih hr with ⟨b, z, a, h1, h2, h3, h4⟩ | ⟨k, z, e, b, a, h1, h2, h3, h4⟩
      · exact .inl ⟨l :: b, z, a, by rw [h1]; rfl, h2, h3, h4⟩
      · exact .inr ⟨k + 1, z, e, l :: b, a, by rw [h1]; rfl, by rw [h2]; rfl, h3, h4⟩

theorem bad_link {links : List PBLink} (h : ¬ ∀ l ∈ links, CidOk l) : ∃ (k : Nat) (l : PBLink) (e : CidError), links[k]? = some l ∧ Cid.tryFrom (l.Hash.getD []) = .error e := by
  refine Classical.byContradiction fun hn => h fun l hl => ?_
  obtain ⟨k, hk⟩ := List.mem_iff_getElem?.1 hl
  cases hc : Cid.tryFrom (l.Hash.getD []) with
  | ok c => exact ⟨c, hc⟩
  | error e => exact absurd ⟨k, l, e, hk, hc⟩ hn

theorem node_fine {base : Nat} {m : FlatUnixFs} (h : ∀ e, ¬ NodeRefused none base m e) : (m.data.Ty = .File ∨ m.data.Ty = .Raw) ∧ ∀ l ∈ m.links, CidOk l := by
  constructor
  · refine Classical.byContradiction fun hn => ?_
    exact h _ (.type (fun ht => hn (.inl ht)) (fun ht => hn (.inr ht)))
  · refine Classical.byContradiction fun hn => ?_
    obtain ⟨k, l, e, h1, h2⟩ := bad_link hn
    exact h _ (.cid h1 nofun h2)

section
variable {cid : Cid} {name : Bytes} {ps : List Bytes} {h : List (Bytes × ContinuedWalk)} {w w' : Walker} {a : Place} {aw : List Place}

/-- The links which a step of a walk follows are all links of the block. -/
theorem stepRel_allLinks (hps : Pieces name ps) (hw : RoamedRel cid name h w) (ha : placesRel cid name (h.map (·.1)) = a :: aw)
    {block : Bytes} {cache k : Option VisitCache} (hc : ∀ k, cache = some k → CacheObtainable k) {item : ContinuedWalk}
    (hs : w.stepRel block cache = some (.ok item, w', k)) :
    ∃ m, Reads block m ∧ LinksAreRel block ((m.links.filterMap (followRel a m)).map (·.cid)) := by
  obtain ⟨m, -, hm, -, -, -⟩ := C130_items cid name ps hps h w hw a aw ha block cache k hc item w' hs
  refine ⟨m, hm, m, hm, ?_⟩
  obtain ⟨-, hnp, hnr⟩ := (C131_walk cid name ps hps h w hw a aw ha block cache hc).2.1 ⟨_, _, _, hs⟩
  by_cases hwhat : a.what = .fileBlock
  · obtain ⟨fb, rest, hq, hinv⟩ := roamed_at hps hw ha
    have hfb : fb ≠ [] := by
      rintro rfl
      rw [List.nil_append] at hq
      exact (hinv.fb_what.2 a (by rw [hq]; exact List.mem_cons_self)) hwhat
    obtain ⟨ie, v, sz, seg, h1, h2, h3, -, -⟩ := hinv.inFile hfb
    have hv := fileVisit_some h1 h2
    have hi : ∃ i, nextInterval v = some i := by
      unfold nextInterval
      cases hl : v.pending.getLast? with
      | none => exact absurd (List.getLast?_eq_none_iff.1 hl) h3.2
      | some p => exact ⟨_, rfl⟩
    obtain ⟨i, hi⟩ := hi
    have hno : ∀ e e', ContinueRefusedRel v i block e' → ¬ AsWalkError e' e := fun e e' h1 h2 => by
      refine hnr e ?_
      unfold WalkRefusedRel
      rw [hwhat]
      exact ⟨v, i, e', hv, hi, h1, h2⟩
    have hty : m.data.Ty = .File ∨ m.data.Ty = .Raw := by
      refine Classical.byContradiction fun hn => ?_
      exact hno _ _ (.node hm (.type (fun ht => hn (.inl ht)) (fun ht => hn (.inr ht)))) .type
    have hok : ∀ l ∈ m.links, CidOk l := by
      refine Classical.byContradiction fun hn => ?_
      obtain ⟨k, l, e, h4, h5⟩ := bad_link hn
      exact hno _ _ (.node hm (.cid h4 (by rw [h3.1]; nofun) h5)) .cid
    rw [if_neg (by rcases hty with h | h <;> rw [h] <;> nofun)]
    exact place_cids fun l hl => followRel_ok (.inl hwhat) (hok l hl)
  · have hnr' : ∀ e, ¬ EntryNodeRefused m e := fun e he => by
      refine hnr e ?_
      unfold WalkRefusedRel
      have : EntryRefusedRel block e := .node hm he
      cases hwh : a.what with
      | fileBlock => exact absurd hwh hwhat
      | entry => exact this
      | bucket => exact this
    have hnp' : ¬ EntryPanicsRel (h.map (·.2)).getLast? (lastLevel cid name (h.map (·.1))) a m := fun he => by
      refine hnp ?_
      unfold WalkPanicsRel
      have : ∃ m, Reads block m ∧ EntryPanicsRel (h.map (·.2)).getLast? (lastLevel cid name (h.map (·.1))) a m := ⟨m, hm, he⟩
      cases hwh : a.what with
      | fileBlock => exact absurd hwh hwhat
      | entry => exact this
      | bucket => exact this
    by_cases hsym : m.data.Ty = .Symlink
    · rw [if_pos hsym]
      have : followRel a m = fun _ => none := by
        funext l
        simp [followRel, hwhat, hsym]
      rw [this]
      simp
    rw [if_neg hsym]
    have hmeta : m.data.Ty ≠ .Metadata := fun ht => hnr' _ (.metadata ht)
    refine place_cids fun l hl => followRel_ok (.inr ⟨hsym, hmeta⟩) ?_
    revert l hl
    refine Classical.byContradiction fun hn => ?_
    cases ht : m.data.Ty with
    | Symlink => exact hsym ht
    | Metadata => exact hmeta ht
    | Directory =>
      have hd : DirNode m := Classical.byContradiction fun hd => hnr' _ (.directory ht hd)
      rcases last_trouble (label := EntryLabel) hn with hl | ⟨k, l, e, hl⟩
      · refine hnp' ?_
        unfold EntryPanicsRel
        simp only [ht]
        exact ⟨hd, .inl hl⟩
      · exact hnr' _ (.directoryLink ht hl)
    | HAMTShard =>
      have hd : ShardNode m := by
        refine Classical.byContradiction fun hd => ?_
        by_cases h1 : m.data.fanout = some 256 ∧ m.data.hashType = some 34
        · by_cases h2 : m.data.filesize = none ∧ m.data.blocksizes = []
          · exact hd ⟨ht, h1.1, h1.2, h2.1, h2.2⟩
          · exact hnr' _ (.shard ht (Classical.byContradiction fun h3 => h2 ⟨Classical.byContradiction fun h4 => h3 (.inl h4),
              Classical.byContradiction fun h4 => h3 (.inr h4)⟩))
        · exact hnr' _ (.shardKind ht (Classical.byContradiction fun h3 => h1 ⟨Classical.byContradiction fun h4 => h3 (.inl h4),
              Classical.byContradiction fun h4 => h3 (.inr h4)⟩))
      rcases last_trouble (label := SlotLabel) hn with hl | ⟨k, l, e, hl⟩
      · refine hnp' ?_
        unfold EntryPanicsRel
        simp only [ht]
        exact ⟨hd, .inl hl⟩
      · exact hnr' _ (.shardLink ht hl)
    | File =>
      obtain ⟨k, l, e, h4, h5⟩ := bad_link hn
      exact hnr' _ (.file (.inl ht) (.cid h4 nofun h5) .cid)
    | Raw =>
      obtain ⟨k, l, e, h4, h5⟩ := bad_link hn
      exact hnr' _ (.file (.inr ht) (.cid h4 nofun h5) .cid)
end

/-! ### walks -/

theorem walkRel_depthFirst (get : Cid → Option Bytes) (cid : Cid) (name : Bytes) (ps : List Bytes) (hps : Pieces name ps) (w : Walker) (cache : Option VisitCache) (r)
    (h : walkLogRel get w cache = some r) :
    ∀ hist, RoamedRel cid name hist w → (∀ k, cache = some k → CacheObtainable k) →
      (r.2 = .finished → DepthFirstRelL get ((placesRel cid name (hist.map (·.1))).map (·.cid)) (r.1.map (·.1))) ∧
      ∀ order, DepthFirstRelL get ((placesRel cid name (hist.map (·.1))).map (·.cid)) order → r.1.map (·.1) <+: order := by
  refine walkLogRel.partial_correctness get (fun w cache r => ∀ hist, RoamedRel cid name hist w → (∀ k, cache = some k → CacheObtainable k) →
      (r.2 = .finished → DepthFirstRelL get ((placesRel cid name (hist.map (·.1))).map (·.cid)) (r.1.map (·.1))) ∧
      ∀ order, DepthFirstRelL get ((placesRel cid name (hist.map (·.1))).map (·.cid)) order → r.1.map (·.1) <+: order) ?_ w cache r h
  intro rec ih w cache r h hist hw hc
  obtain ⟨hsc', hask⟩ := C130_asks cid name ps hps hist w hw
  by_cases hsc : w.shouldContinue = false
  · rw [if_pos hsc] at h
    cases h
    have hnil : placesRel cid name (hist.map (·.1)) = [] := Classical.byContradiction fun hn => by
      rw [hsc'.2 hn] at hsc; cases hsc
    rw [hnil]
    exact ⟨fun _ => .nil, fun _ _ => List.nil_prefix⟩
  · rw [if_neg hsc] at h
    have hsc : w.shouldContinue = true := by simpa using hsc
    cases hq : placesRel cid name (hist.map (·.1)) with
    | nil => exact absurd hq (hsc'.1 hsc)
    | cons a aw =>
      rw [hask a aw hq] at h
      simp only at h
      cases hg : get a.cid with
      | none => simp only [hg] at h; cases h; exact ⟨nofun, fun _ _ => List.nil_prefix⟩
      | some block =>
        simp only [hg] at h
        cases hst : w.stepRel block cache with
        | none => rw [hst] at h; cases h
        | some y =>
          obtain ⟨x, w', cache'⟩ := y
          rw [hst] at h
          simp only [Option.bind_eq_bind, Option.bind_some] at h
          cases x with
          | panic p => cases h; exact ⟨nofun, fun _ _ => List.nil_prefix⟩
          | err e => cases h; exact ⟨nofun, fun _ _ => List.nil_prefix⟩
          | ok item =>
            simp only at h
            cases hr : rec w' cache' with
            | none => rw [hr] at h; cases h
            | some r' =>
              rw [hr] at h
              cases h
              obtain ⟨m, hm, hla⟩ := stepRel_allLinks hps hw hq hc hst
              obtain ⟨h3, h4⟩ := ih w' cache' r' hr _ (hw.next hsc hc hst) (stepRel_cache hc hst)
              have hpl : placesRel cid name ((hist ++ [(block, item)]).map (·.1)) = m.links.filterMap (followRel a m) ++ aw := by
                unfold Reads at hm
                rw [List.map_append, placesRel, List.foldl_append, ← placesRel, hq]
                simp only [List.map_cons, List.map_nil, List.foldl_cons, List.foldl_nil, visitRel, hm]
              rw [hpl, List.map_append] at h3 h4
              constructor
              · intro hfin
                obtain ⟨x, y, h5, h6, h7⟩ := depthFirstRelL_append.1 (h3 hfin)
                simp only [List.map_cons, h7]
                exact .cons (.block hg hla h5) h6
              · intro order ho
                simp only [List.map_cons] at ho ⊢
                cases ho with
                | cons h5 h6 =>
                  cases h5 with
                  | block hg' hla' h7 =>
                    rw [hg] at hg'
                    cases hg'
                    rw [linksAreRel_unique hla' hla] at h7
                    exact List.cons_prefix_cons.2 ⟨rfl, h4 _ (depthFirstRelL_append.2 ⟨_, _, h7, h6, rfl⟩)⟩

/-- C138, walks: a walk of a release build which finishes has asked for every block below its root, depth first in the order of the links, and for
nothing else; no link was left out and none followed twice. -/
theorem C138_walk (get : Cid → Option Bytes) (c : Cid) (name : Bytes) (cache : Option VisitCache)
    (hc : ∀ k, cache = some k → CacheObtainable k) (log : List (Cid × ContinuedWalk))
    (h : walkLogRel get (Walker.new c name) cache = some (log, .finished)) : DepthFirstRel get c (log.map (·.1)) := by
  obtain ⟨ps, hps⟩ := pieces_exist name
  have := (walkRel_depthFirst get c name ps hps _ _ _ h [] .new hc).1 rfl
  simp only [placesRel, List.map_nil, List.foldl_nil, List.map_cons] at this
  generalize List.map (fun x => x.1) log = order at this
  cases this with
  | cons h1 h2 => cases h2; simpa using h1

/-- C138: a walk which stops before, for whatever reason, has asked for the first blocks in this order. -/
theorem C138_stopped (get : Cid → Option Bytes) (c : Cid) (name : Bytes) (cache : Option VisitCache)
    (hc : ∀ k, cache = some k → CacheObtainable k) (log : List (Cid × ContinuedWalk)) (stop : Stop WalkError)
    (h : walkLogRel get (Walker.new c name) cache = some (log, stop)) (order : List Cid) (ho : DepthFirstRel get c order) :
    log.map (·.1) <+: order := by
  obtain ⟨ps, hps⟩ := pieces_exist name
  refine (walkRel_depthFirst get c name ps hps _ _ _ h [] .new hc).2 order ?_
  simpa [placesRel] using DepthFirstRelL.cons ho .nil

/-! ### the loop -/

theorem walkLogRel_sound (get : Cid → Option Bytes) (w : Walker) (cache : Option VisitCache) (r) (h : walkLogRel get w cache = some r) :
    walkFromRel get w cache = some (walkResult r) := by
  refine walkLogRel.partial_correctness get (fun w cache r => walkFromRel get w cache = some (walkResult r)) ?_ w cache r h
  intro rec ih w cache r h
  rw [walkFromRel.eq_1]
  by_cases hs : w.shouldContinue = false
  · rw [if_pos hs] at h ⊢; cases h; rfl
  rw [if_neg hs] at h ⊢
  cases hp : w.pendingLinks with
  | panic p => simp only [hp] at h ⊢; cases h; rfl
  | err e => simp only [hp] at h ⊢; cases h; rfl
  | ok fr =>
    obtain ⟨first, rest⟩ := fr
    simp only [hp] at h ⊢
    cases hg : get first with
    | none => simp only [hg] at h ⊢; cases h; rfl
    | some block =>
      simp only [hg] at h ⊢
      cases hc : w.stepRel block cache with
      | none => rw [hc] at h; cases h
      | some y =>
        obtain ⟨a, w', cache'⟩ := y
        rw [hc] at h
        simp only [Option.bind_eq_bind, Option.bind_some] at h ⊢
        cases a with
        | panic p => simp only at h ⊢; cases h; rfl
        | err e => simp only at h ⊢; cases h; rfl
        | ok item =>
          simp only at h ⊢
          cases hr : rec w' cache' with
          | none => rw [hr] at h; cases h
          | some r' =>
            rw [hr] at h
            cases h
            rw [ih w' cache' r' hr]
            simp only [Option.bind_some, walkResult_cons]

/-- What `walkFromRel` answers is what the log tells. -/
theorem C138_log (get : Cid → Option Bytes) (w : Walker) (cache : Option VisitCache) (a) : walkFromRel get w cache = some a ↔
    ∃ r, walkLogRel get w cache = some r ∧ a = walkResult r := by
  constructor
  case mpr => rintro ⟨r, h, rfl⟩; exact walkLogRel_sound get w cache r h
  intro h
  suffices hh : ∃ r, walkLogRel get w cache = some r by
    obtain ⟨r, hr⟩ := hh
    have := walkLogRel_sound get w cache r hr
    rw [h] at this
    exact ⟨r, hr, by injection this⟩
  refine walkFromRel.partial_correctness get (fun w cache _ => ∃ r, walkLogRel get w cache = some r) ?_ w cache a h
  intro rec ih w cache a h
  rw [walkLogRel.eq_1]
  by_cases hs : w.shouldContinue = false
  · rw [if_pos hs]; exact ⟨_, rfl⟩
  rw [if_neg hs] at h ⊢
  cases hp : w.pendingLinks with
  | panic p => simp only [hp]; exact ⟨_, rfl⟩
  | err e => simp only [hp]; exact ⟨_, rfl⟩
  | ok fr =>
    obtain ⟨first, rest⟩ := fr
    simp only [hp] at h ⊢
    cases hg : get first with
    | none => exact ⟨_, rfl⟩
    | some block =>
      simp only [hg] at h ⊢
      cases hc : w.stepRel block cache with
      | none => rw [hc] at h; cases h
      | some y =>
        obtain ⟨a, w', cache'⟩ := y
        rw [hc] at h
        simp only [Option.bind_eq_bind, Option.bind_some] at h ⊢
        cases a with
        | panic p => exact ⟨_, rfl⟩
        | err e => exact ⟨_, rfl⟩
        | ok item =>
          simp only at h ⊢
          cases hr : rec w' cache' with
          | none => rw [hr] at h; cases h
          | some a' =>
            obtain ⟨r', hr'⟩ := ih w' cache' a' hr
            rw [hr']
            exact ⟨_, rfl⟩

/-! ### reading -/

theorem collectLinksR_all : ∀ {links : List PBLink} {sizes : List Nat} {nth base : Nat} {ps : List Pending},
    links.length = sizes.length → collectLinksR none nth base (links.zip sizes) = .ok ps →
    links.map (fun l => Cid.tryFrom (l.Hash.getD [])) = (ps.map (·.1)).map .ok
  | [], _, nth, base, ps, _, h => by
    simp only [List.zip_nil_left, collectLinksR] at h
    cases h; rfl
  | l :: links, [], nth, base, ps, hlen, h => by cases hlen
  | l :: links, n :: sizes, nth, base, ps, hlen, h => by
    simp only [List.zip_cons_cons, collectLinksR, blockIsInTargetRange, Bool.true_eq_false, if_false] at h
    rw [Res.bind_ok_iff] at h
    obtain ⟨p, hp, h⟩ := h
    rw [Res.bind_ok_iff] at h
    obtain ⟨qs, hq, h⟩ := h
    cases h
    simp only [List.map_cons, toPending_cid hp, collectLinksR_all (by simpa using hlen) hq]

theorem fromPartsR_all {m : FlatUnixFs} {o : Nat} {md : Metadata} {fr : FileReader} (h : FileReader.fromPartsR m o md = .ok fr) :
    (m.data.Ty = .File ∨ m.data.Ty = .Raw) ∧ m.links.length = m.data.blocksizes.length ∧ ∃ t,
      fr.content = if m.links = [] then (.Bytes (m.data.Data.getD []), t) else (.Links o (m.links.zip m.data.blocksizes), t) := by
  unfold FileReader.fromPartsR at h
  simp only at h
  split at h
  · cases h
  next hty =>
  split at h
  · cases h
  next hlen =>
  split at h
  · cases h
  split at h
  · cases h
  rw [Res.bind_ok_iff] at h
  obtain ⟨e, -, h⟩ := h
  cases hfs : m.data.filesize with
  | none => rw [hfs] at h; cases h
  | some fs =>
    rw [hfs] at h
    cases h
    refine ⟨Classical.byContradiction fun hn => hty ⟨fun h => hn (.inl h), fun h => hn (.inr h)⟩, Classical.byContradiction hlen, ?_⟩
    unfold FileReader.content
    simp only
    by_cases hl : m.links = []
    · rw [if_pos hl]; exact ⟨_, (if_pos hl).symm⟩
    · rw [if_neg hl]; exact ⟨_, (if_neg hl).symm⟩

theorem zip_nil_of {links : List PBLink} {sizes : List Nat} (hne : links ≠ []) (hl : links.length = sizes.length) {ps : List Pending} {n b : Nat}
    (h : collectLinksR none n b (links.zip sizes) = .ok ps) : ps ≠ [] := by
  rintro rfl
  have := collectLinksR_all hl h
  simp at this
  exact hne this

/-- What a visit without a range asks for after it took a block: all links of this block, and then what it asked for before. -/
theorem continueWalkRel_all {v : FileVisit} (hv : v.range = none) {first : Cid} {rest : List Cid} (hp : v.pendingLinks = .ok (first, rest)) {b : Bytes}
    {cache cache' : Option VisitCache} {c : Bytes} {next : Option FileVisit} (h : v.continueWalkRel b cache = some (.ok (c, next), cache')) :
    ∃ S : List Cid, LinksAreRel b S ∧ (next = none → S ++ rest = []) ∧
      ∀ v', next = some v' → v'.range = none ∧ v'.pending.reverse.map (·.1) = S ++ rest := by
  have hpr := (pendingLinks_drop hp).2
  unfold FileVisit.continueWalkRel at h
  split at h
  · cases h
  split at h
  · cases h
  · next range _ _ _ =>
  obtain ⟨parsed, hparse, h⟩ := Option.map_eq_some_iff.1 h
  unfold FileReader.fromContinuedP at h
  cases parsed with
  | error e => cases h
  | ok m =>
    simp only at h
    split at h
    · cases h
    · cases hfr : FileReader.fromPartsR m range.lo v.state.metadata with
      | err e => rw [hfr] at h; cases h
      | panic p => rw [hfr] at h; cases h
      | ok fr =>
        rw [hfr] at h
        unfold FileVisit.continueWith at h
        simp only at h
        obtain ⟨hty, hlen, t, hcont⟩ := fromPartsR_all hfr
        rw [hcont] at h
        have hsym : m.data.Ty ≠ .Symlink := by rcases hty with h | h <;> rw [h] <;> nofun
        by_cases hl : m.links = []
        · rw [if_pos hl] at h
          simp only at h
          split at h
          · cases h
          · cases h
          · have hla : LinksAreRel b [] := ⟨m, hparse, by rw [if_neg hsym, hl]; rfl⟩
            split at h
            · cases h
              refine ⟨[], hla, nofun, ?_⟩
              rintro v' ⟨⟩
              exact ⟨hv, hpr⟩
            · next hn =>
              cases h
              refine ⟨[], hla, fun _ => ?_, nofun⟩
              have : v.pending.dropLast = [] := Classical.byContradiction hn
              rw [← hpr, this]; rfl
        · rw [if_neg hl] at h
          simp only [hv] at h
          split at h
          · cases h
          · cases h
          · next ps hcl =>
            cases h
            refine ⟨ps.map (·.1), ⟨m, hparse, by rw [if_neg hsym]; exact collectLinksR_all hlen hcl⟩, nofun, ?_⟩
            rintro v' ⟨⟩
            exact ⟨rfl, by simp only [List.reverse_append, List.reverse_reverse, List.map_append, hpr]⟩

theorem readRel_depthFirst (get : Cid → Option Bytes) (v : FileVisit) (r) (h : readFromRel get v = some r) :
    v.range = none → ∀ x q, r = .ok (x, q) → DepthFirstRelL get (v.pending.reverse.map (·.1)) q := by
  refine readFromRel.partial_correctness get (fun v r => v.range = none → ∀ x q, r = .ok (x, q) →
    DepthFirstRelL get (v.pending.reverse.map (·.1)) q) ?_ v r h
  intro rec ih v r hr hrange x q hrq
  subst hrq
  cases hp : v.pendingLinks with
  | panic p => rw [hp] at hr; cases hr
  | err e => rw [hp] at hr; cases hr
  | ok fl =>
    obtain ⟨first, rest⟩ := fl
    rw [hp] at hr
    simp only at hr
    rw [(pendingLinks_drop hp).1]
    cases hg : get first with
    | none => rw [hg] at hr; cases hr
    | some block =>
      rw [hg] at hr
      simp only at hr
      cases hc : v.continueWalkRel block none with
      | none => rw [hc] at hr; cases hr
      | some y =>
        obtain ⟨a, k⟩ := y
        rw [hc] at hr
        simp only [Option.bind_eq_bind, Option.bind_some] at hr
        cases a with
        | panic p => cases hr
        | err e => cases hr
        | ok cs =>
          obtain ⟨content, next⟩ := cs
          obtain ⟨S, hla, hnone, hsome⟩ := continueWalkRel_all hrange hp hc
          cases next with
          | none =>
            cases hr
            obtain ⟨rfl, rfl⟩ := List.append_eq_nil_iff.1 (hnone rfl)
            exact .cons (o2 := []) (.block hg hla .nil) .nil
          | some v' =>
            obtain ⟨h1, h2⟩ := hsome v' rfl
            simp only at hr
            cases hrec : rec v' with
            | none => rw [hrec] at hr; cases hr
            | some r' =>
              rw [hrec] at hr
              cases r' with
              | panic p => cases hr
              | err e => cases hr
              | ok y =>
                obtain ⟨x', q'⟩ := y
                cases hr
                have := ih v' _ hrec h1 x' q' rfl
                rw [h2] at this
                obtain ⟨o1, o2, h3, h4, rfl⟩ := depthFirstRelL_append.1 this
                exact .cons (o1 := first :: o1) (.block hg hla h3) h4

/-- C138, files: reading a whole file in a release build, whatever its blocks are, asks for them in the same order; the first one is the root, which
the caller has. -/
theorem C138_read (get : Cid → Option Bytes) (c : Cid) (root : Bytes) (hg : get c = some root) (x : Bytes) (asked : List Cid)
    (h : readFileRel get {} root = some (.ok (x, asked))) : DepthFirstRel get c (c :: asked) := by
  unfold readFileRel at h
  cases hst : IdleFileVisit.startRel {} root with
  | none => rw [hst] at h; cases h
  | some r =>
    rw [hst] at h
    cases r with
    | panic p => cases h
    | err e => cases h
    | ok r =>
      unfold IdleFileVisit.startRel at hst
      obtain ⟨parsed, hparse, hst⟩ := Option.map_eq_some_iff.1 hst
      cases parsed with
      | error e => cases e <;> cases hst
      | ok m =>
        cases hfr : FileReader.fromPartsR m 0 (Metadata.ofUnixFs m.data) with
        | err e => simp [IdleFileVisit.startP, FileReader.fromBlockP, hfr] at hst
        | panic p => simp [IdleFileVisit.startP, FileReader.fromBlockP, hfr] at hst
        | ok fr =>
          have hst : (IdleFileVisit.startFromReaderR {} fr none).1 = .ok r := by simpa [IdleFileVisit.startP, FileReader.fromBlockP, hfr] using hst
          obtain ⟨hty, hlen, t, hcont⟩ := fromPartsR_all hfr
          have hsym : m.data.Ty ≠ .Symlink := by rcases hty with h | h <;> rw [h] <;> nofun
          unfold IdleFileVisit.startFromReaderR at hst
          rw [hcont] at hst
          by_cases hl : m.links = []
          · rw [if_pos hl] at hst
            simp only [maybeTargetSliceR, Res.bind_ok, Res.ok.injEq] at hst
            subst hst
            cases h
            exact .block hg ⟨m, hparse, by rw [if_neg hsym, hl]; rfl⟩ .nil
          · rw [if_neg hl] at hst
            simp only [Option.getD_none] at hst
            split at hst
            · cases hst
            · cases hst
            · next ps hcl =>
              rw [if_neg (by simpa using zip_nil_of hl hlen hcl)] at hst
              cases hst
              simp only at h
              cases hrec : readFromRel get (.mk ([] ++ ps).reverse none t) with
              | none => rw [hrec] at h; cases h
              | some r' =>
                rw [hrec] at h
                cases r' with
                | panic p => cases h
                | err e => cases h
                | ok y =>
                  obtain ⟨x', q'⟩ := y
                  cases h
                  have := readRel_depthFirst get _ _ hrec rfl x' q' rfl
                  simp only [List.nil_append, List.reverse_reverse] at this
                  exact .block hg ⟨m, hparse, by rw [if_neg hsym]; exact collectLinksR_all hlen hcl⟩ this

/-! ### blocks which nothing overruns -/

theorem linksAre_kept {b : Bytes} (hb : Kept b) (cids : List Cid) : LinksAreRel b cids ↔ LinksAre b cids := by
  unfold LinksAreRel LinksAre Reads
  rw [kept_parse hb]
  simp only [Option.some.injEq]

theorem depthFirst_rel {get : Cid → Option Bytes} (hget : ∀ c b, get c = some b → Kept b) {c : Cid} {order : List Cid} (h : DepthFirst get c order) :
    DepthFirstRel get c order :=
  DepthFirst.rec (motive_1 := fun c order _ => DepthFirstRel get c order) (motive_2 := fun cs order _ => DepthFirstRelL get cs order)
    (fun hg hla _ ih => .block hg ((linksAre_kept (hget _ _ hg) _).2 hla) ih) .nil (fun _ _ ih1 ih2 => .cons ih1 ih2) h

theorem depthFirst_checked {get : Cid → Option Bytes} (hget : ∀ c b, get c = some b → Kept b) {c : Cid} {order : List Cid} (h : DepthFirstRel get c order) :
    DepthFirst get c order :=
  DepthFirstRel.rec (motive_1 := fun c order _ => DepthFirst get c order) (motive_2 := fun cs order _ => DepthFirstL get cs order)
    (fun hg hla _ ih => .block hg ((linksAre_kept (hget _ _ hg) _).1 hla) ih) .nil (fun _ _ ih1 ih2 => .cons ih1 ih2) h

/-- C138: over blocks which nothing overruns the order is that of a checked build. -/
theorem C138_kept (get : Cid → Option Bytes) (hget : ∀ c b, get c = some b → Kept b) (c : Cid) (order : List Cid) :
    DepthFirstRel get c order ↔ DepthFirst get c order := ⟨depthFirst_checked hget, depthFirst_rel hget⟩

/-- C138, trees: over such blocks walking a well-formed tree in a release build finishes, having asked for all its blocks, depth first. -/
theorem C138_tree (get : Cid → Option Bytes) (hget : ∀ c b, get c = some b → Kept b) (t : FsTree) (cache : Option VisitCache) (hat : FsAt get t) (ht : t.Named)
    (hname : slash ∉ t.name) (hc : ∀ k, cache = some k → CacheObtainable k) (hd : ¬ DirThenBucket t.walkItems) :
    ∃ log, walkLogRel get (Walker.new t.cid t.name) cache = some (log, .finished) ∧ log.map (·.2) = rootCids t.cid t.walkItems ∧
      DepthFirstRel get t.cid (log.map (·.1)) := by
  have h := (C109_runs get hget).2 (Walker.new t.cid t.name) cache
  rw [C67_walk_wellformed get t cache hat ht hname hc, (C45_tree_partial get t cache hat ht hname hc).1 hd] at h
  obtain ⟨⟨log, stop⟩, h1, h2⟩ := (C138_log get _ cache _).1 h
  cases stop with
  | finished =>
    simp only [walkResult, Res.ok.injEq] at h2
    exact ⟨log, h1, h2.symm, C138_walk get t.cid t.name cache hc log h1⟩
  | missing c => cases h2
  | failed e => cases h2
  | noLinks => cases h2
  | panicked p => cases h2

/-- The sample tree, in a release build: eight blocks, asked for in the order of their numbers. -/
theorem C138_example : ∃ log, walkLogRel (storeN sampleFsBlocks) (Walker.new (cidN 0) []) none = some (log, .finished) ∧
    log.map (·.1) = [cidN 0, cidN 1, cidN 2, cidN 3, cidN 4, cidN 5, cidN 6, cidN 7] ∧
    DepthFirstRel (storeN sampleFsBlocks) (cidN 0) (log.map (·.1)) := by
  have hk : ∀ c b, storeN sampleFsBlocks c = some b → Kept b := by
    intro c b h
    have : sampleFsBlocks.all (fun e => tame e.2.write) = true := by decide +kernel
    unfold storeN at h
    obtain ⟨e, he, rfl⟩ := Option.map_eq_some_iff.1 h
    exact tame_kept (List.all_eq_true.1 this e (List.mem_of_find?_eq_some he))
  obtain ⟨log, h1, -, h3⟩ := C138_tree (storeN sampleFsBlocks) hk sampleRoot none sampleRoot_at trivial (by decide) nofun (by
    rw [show sampleRoot.walkItems = _ :: _ from rfl, ← bad_iff]; decide +kernel)
  obtain ⟨log', -, h5, h6⟩ := C120_example
  have h7 : DepthFirstRel (storeN sampleFsBlocks) (cidN 0) (log'.map (·.1)) := (C138_kept _ hk _ _).2 h6
  refine ⟨log, h1, ?_, h3⟩
  rw [← h5]
  exact C138_unique _ _ _ _ h3 h7

end Verif.Props
