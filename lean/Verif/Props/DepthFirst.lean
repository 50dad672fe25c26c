import Verif.Spec.DepthFirst
import Verif.Props.Prefetch
/-
C120: which blocks a walk or a read which finishes has asked for, and in which order, whatever the blocks are.
-/
namespace Verif.Props
open Verif Verif.Spec

/-! ### the links which a step follows -/

theorem collectLinks_all : ∀ {links : List PBLink} {sizes : List Nat} {nth base : Nat} {ps : List Pending},
    links.length = sizes.length → collectLinks none nth base (links.zip sizes) = .ok ps →
    links.map (fun l => Cid.tryFrom (l.Hash.getD [])) = (ps.map (·.1)).map .ok := by
  intro links
  induction links with
  | nil =>
    intro sizes nth base ps _ h
    simp only [List.zip_nil_left, collectLinks] at h
    cases h; rfl
  | cons l links ih =>
    intro sizes nth base ps hlen h
    cases sizes with
    | nil => cases hlen
    | cons n sizes =>
      simp only [List.zip_cons_cons, collectLinks, blockIsInTargetRange] at h
      rw [Res.bind_ok_iff] at h
      obtain ⟨stop, _, h⟩ := h
      simp only [Bool.true_eq_false, if_false] at h
      rw [Res.bind_ok_iff] at h
      obtain ⟨p, hp, h⟩ := h
      rw [Res.bind_ok_iff] at h
      obtain ⟨ps', hps, h⟩ := h
      cases h
      have := ih (by simpa using hlen) hps
      unfold toPending at hp
      split at hp
      · next cid hc =>
        cases hp
        simp [this, hc]
      · cases hp

theorem converted_all {conv : Nat → PBLink → Res InvalidCidInLink WalkLink} (hconv : ∀ i l w, conv i l = .ok w → Cid.tryFrom (l.Hash.getD []) = .ok w.cid) :
    ∀ {links : List PBLink} {k : Nat} {ls : List WalkLink}, (links.zipIdx k).map (fun x => conv x.2 x.1) = ls.map .ok →
      links.map (fun l => Cid.tryFrom (l.Hash.getD [])) = (ls.map (·.cid)).map .ok := by
  intro links
  induction links with
  | nil =>
    intro k ls h
    cases ls with
    | nil => rfl
    | cons _ _ => cases h
  | cons l links ih =>
    intro k ls h
    cases ls with
    | nil => simp at h
    | cons w ls =>
      simp only [List.zipIdx_cons, List.map_cons, List.cons.injEq] at h
      simp only [List.map_cons, ih h.2, hconv _ _ _ h.1]

/-- The links which a step of a walk follows are all links of the block. -/
theorem step_links {w w' : Walker} {fb rest aw : List Awaited} {a : Awaited} {b : Bytes} {cache : Option VisitCache} {item : ContinuedWalk}
    {m : FlatUnixFs} (h : WInv w fb rest) (hc : CacheOk cache) (hq : fb ++ rest = a :: aw) (hm : FlatUnixFs.tryParse b = .ok m)
    (hs : WStep w b cache item w') : LinksAre b ((m.links.filterMap (follow a m)).map (·.cid)) := by
  refine ⟨m, hm, ?_⟩
  cases hs with
  | later ie v sz c next h1 h2 h3 h4 h5 =>
    obtain ⟨hne, hwhat, hcids, root, ls, hv⟩ := h.file.of_inFile h1 h2
    obtain ⟨P, cid, i, m', fs, hp, -, hm', -, ha, hl, hn⟩ := continueWalk_ok h3
    rw [hm] at hm'
    cases hm'
    have haw : a.what = .fileBlock := by
      cases fb with
      | nil => exact absurd rfl hne
      | cons a' fb => cases hq; exact hwhat a (by simp)
    have hty : m.data.Ty ≠ .Symlink := by
      rcases ha.node.1 with h | h <;> rw [h] <;> nofun
    rw [if_neg hty]
    by_cases hlinks : m.links = []
    · rw [hlinks]; rfl
    · obtain ⟨_, ps, hps, -⟩ := hn hlinks
      rw [(visiting_inv hv).2.1] at hps
      have hk := collectLinks_follow (path := a.path) ha.sizes hps
      rw [← filterMap_follow_fileBlock a m haw] at hk
      rw [hk]
      exact collectLinks_all ha.sizes hps
  | directory m' n ls ie hr hm' hty hsup hn hls he hw =>
    rw [hm] at hm'
    cases hm'
    have hfb := h.file.of_atRest hr
    subst hfb
    have ha : a.what ≠ .fileBlock := h.what a (by rw [List.nil_append] at hq; rw [hq]; simp)
    have hk := directory_links (a := a) ha hty hls
    rw [if_neg (by rw [hty]; nofun), converted_all (conv := fun i l => convertLink (n.depth + 1) i l) (fun i l w hw => by
      obtain ⟨_, _, hx, _⟩ := convertLink_cid hw; exact hx) hls,
      ← zip_map_eq (f := (·.cid)) (g := (·.cid)) hk.1 (fun x hx => by rw [(hk.2 x hx).1])]
  | shard m' n ls ie hr hm' hty hsup hn hls he hw =>
    rw [hm] at hm'
    cases hm'
    have hfb := h.file.of_atRest hr
    subst hfb
    have ha : a.what ≠ .fileBlock := h.what a (by rw [List.nil_append] at hq; rw [hq]; simp)
    have hk := shard_links (a := a) ha hty hls
    rw [if_neg (by rw [hty]; nofun), converted_all (conv := fun i l => convertShardedLink (n.depth + 1) n.depth i l) (fun i l w hw => by
      obtain ⟨_, _, hx, _⟩ := convertShardedLink_cid hw; exact hx) hls,
      ← zip_map_eq (f := (·.cid)) (g := (·.cid)) hk.1 (fun x hx => by rcases hk.2 x hx with h | h <;> rw [h.1])]
  | first m' n r ie hr hm' hty hres hn he hitem hw =>
    rw [hm] at hm'
    cases hm'
    have hst : (IdleFileVisit.mk none).start b = .ok r := by rw [← start_parsed hm none hc]; exact hres
    obtain ⟨m', fs, hm', hacc, hl, hl'⟩ := start_ok hst
    rw [hm] at hm'
    cases hm'
    rw [if_neg (by rcases hty with h | h <;> rw [h] <;> nofun)]
    by_cases hlinks : m.links = []
    · rw [hlinks]; rfl
    · obtain ⟨ps, hps, hr'⟩ := hl' hlinks
      have hk := collectLinks_follow (path := a.path) hacc.sizes hps
      rw [← filterMap_follow_file a m hty] at hk
      rw [hk]
      exact collectLinks_all hacc.sizes hps
  | symlink m' n ie hr hm' hty hn he hitem hw =>
    rw [hm] at hm'
    cases hm'
    rw [if_pos hty]
    have hfb := h.file.of_atRest hr
    subst hfb
    have ha : a.what ≠ .fileBlock := h.what a (by rw [List.nil_append] at hq; rw [hq]; simp)
    have : follow a m = fun _ => none := by
      funext l
      simp [follow, ha, hty]
    rw [this]
    simp

theorem linksAre_unique {b : Bytes} {x y : List Cid} (h1 : LinksAre b x) (h2 : LinksAre b y) : x = y := by
  obtain ⟨m, hm, h1⟩ := h1
  obtain ⟨m', hm', h2⟩ := h2
  rw [hm] at hm'
  cases hm'
  by_cases ht : m.data.Ty = .Symlink
  · rw [if_pos ht] at h1 h2; rw [h1, h2]
  · rw [if_neg ht] at h1 h2
    rw [h1] at h2
    exact (List.map_inj_right (f := Except.ok) (fun _ _ h => Except.ok.inj h)).1 h2

theorem depthFirstL_append {get : Cid → Option Bytes} {a b order : List Cid} :
    DepthFirstL get (a ++ b) order ↔ ∃ x y, DepthFirstL get a x ∧ DepthFirstL get b y ∧ order = x ++ y := by
  induction a generalizing order with
  | nil =>
    constructor
    · intro h; exact ⟨[], order, .nil, h, rfl⟩
    · rintro ⟨x, y, h1, h2, rfl⟩; cases h1; exact h2
  | cons c cs ih =>
    constructor
    · intro h
      cases h with
      | cons h1 h2 =>
        obtain ⟨x, y, h3, h4, rfl⟩ := ih.1 h2
        exact ⟨_, y, .cons h1 h3, h4, by simp⟩
    · rintro ⟨x, y, h1, h2, rfl⟩
      cases h1 with
      | cons h1 h3 =>
        rw [List.append_assoc]
        exact .cons h1 (ih.2 ⟨_, _, h3, h2, rfl⟩)

theorem walk_depthFirst (get : Cid → Option Bytes) (w : Walker) (cache : Option VisitCache) (r) (h : walkLog get w cache = some r) :
    ∀ fb rest, WInv w fb rest → CacheOk cache →
      (r.2 = .finished → DepthFirstL get ((fb ++ rest).map (·.cid)) (r.1.map (·.1))) ∧
      ∀ order, DepthFirstL get ((fb ++ rest).map (·.cid)) order → r.1.map (·.1) <+: order := by
  refine walkLog.partial_correctness get (fun w cache r => ∀ fb rest, WInv w fb rest → CacheOk cache →
      (r.2 = .finished → DepthFirstL get ((fb ++ rest).map (·.cid)) (r.1.map (·.1))) ∧
      ∀ order, DepthFirstL get ((fb ++ rest).map (·.cid)) order → r.1.map (·.1) <+: order) ?_ w cache r h
  intro rec ih w cache r h fb rest hw hc
  by_cases hsc : w.shouldContinue = false
  · rw [if_pos hsc] at h
    cases h
    have := hw.cont
    rw [show w.should_continue = false from hsc] at this
    have hnil : fb ++ rest = [] := by simpa using this
    rw [hnil]
    exact ⟨fun _ => .nil, fun _ _ => List.nil_prefix⟩
  · rw [if_neg hsc] at h
    cases hq : fb ++ rest with
    | nil =>
      have := hw.cont
      rw [hq] at this
      exact absurd this hsc
    | cons a aw =>
      rw [pendingLinks_eq hw hq] at h
      simp only at h
      cases hg : get a.cid with
      | none => simp only [hg] at h; cases h; exact ⟨nofun, fun _ _ => List.nil_prefix⟩
      | some block =>
        simp only [hg] at h
        have h2 := step_cache (w := w) (b := block) hc
        rcases hst : w.step block cache with ⟨x, w', cache'⟩
        rw [hst] at h2 h
        cases x with
        | panic p => cases h; exact ⟨nofun, fun _ _ => List.nil_prefix⟩
        | err e => cases h; exact ⟨nofun, fun _ _ => List.nil_prefix⟩
        | ok item =>
          simp only at h
          cases hr : rec w' cache' with
          | none => rw [hr] at h; cases h
          | some r' =>
            rw [hr] at h
            cases h
            obtain ⟨m, a', aw', fb', rest', hm, haw, hk, hw'⟩ := hw.step hc (step_ok hst)
            have hla := step_links hw hc hq hm (step_ok hst)
            rw [hq] at haw
            simp only [List.cons.injEq] at haw
            obtain ⟨rfl, rfl⟩ := haw
            obtain ⟨h3, h4⟩ := ih w' cache' r' hr fb' rest' hw' h2
            rw [← hk, List.map_append] at h3 h4
            constructor
            · intro hfin
              obtain ⟨x, y, h5, h6, h7⟩ := depthFirstL_append.1 (h3 hfin)
              simp only [List.map_cons, h7]
              exact .cons (.block hg hla h5) h6
            · intro order ho
              simp only [List.map_cons] at ho ⊢
              cases ho with
              | cons h5 h6 =>
                cases h5 with
                | block hg' hla' h7 =>
                  rw [hg] at hg'
                  cases hg'
                  rw [linksAre_unique hla' hla] at h7
                  exact List.cons_prefix_cons.2 ⟨rfl, h4 _ (depthFirstL_append.2 ⟨_, _, h7, h6, rfl⟩)⟩

/-- C120, walks: a walk which finishes has asked for every block below its root, depth first in the order of the links, and for nothing
else; no link was left out and none followed twice. -/
theorem C120_walk (get : Cid → Option Bytes) (c : Cid) (name : Bytes) (cache : Option VisitCache)
    (hc : ∀ k, cache = some k → CacheObtainable k) (log : List (Cid × ContinuedWalk))
    (h : walkLog get (Walker.new c name) cache = some (log, .finished)) : DepthFirst get c (log.map (·.1)) := by
  have := (walk_depthFirst get _ _ _ h _ _ (WInv.new c name) hc).1 rfl
  simp only [List.nil_append, List.map_cons, List.map_nil] at this
  generalize List.map (fun x => x.1) log = order at this
  cases this with
  | cons h1 h2 => cases h2; simpa using h1

/-- C120: a walk which stops before, for whatever reason, has asked for the first blocks in this order. -/
theorem C120_stopped (get : Cid → Option Bytes) (c : Cid) (name : Bytes) (cache : Option VisitCache)
    (hc : ∀ k, cache = some k → CacheObtainable k) (log : List (Cid × ContinuedWalk)) (stop : Stop WalkError)
    (h : walkLog get (Walker.new c name) cache = some (log, stop)) (order : List Cid) (ho : DepthFirst get c order) :
    log.map (·.1) <+: order := by
  refine (walk_depthFirst get _ _ _ h _ _ (WInv.new c name) hc).2 order ?_
  simpa using DepthFirstL.cons ho .nil

theorem walk_finishes (get : Cid → Option Bytes) (w : Walker) (cache : Option VisitCache) (items : List ContinuedWalk)
    (h : walkFrom get w cache = some (.ok items)) : ∃ log, walkLog get w cache = some (log, .finished) ∧ log.map (·.2) = items := by
  obtain ⟨⟨log, stop⟩, hr, he⟩ := walkFrom_log _ _ _ _ h
  refine ⟨log, ?_, ?_⟩
  · rw [hr]
    cases stop with
    | finished => rfl
    | missing c => cases he
    | failed e => cases he
    | noLinks => cases he
    | panicked p => cases he
  · cases stop with
    | finished => simp only [walkResult, Res.ok.injEq] at he; exact he.symm
    | missing c => cases he
    | failed e => cases he
    | noLinks => cases he
    | panicked p => cases he

/-- C120, trees: walking a well-formed tree finishes, having asked for all its blocks, depth first; one item is reported for each. -/
theorem C120_tree (get : Cid → Option Bytes) (t : FsTree) (cache : Option VisitCache) (hat : FsAt get t) (ht : t.Named)
    (hname : slash ∉ t.name) (hc : ∀ k, cache = some k → CacheObtainable k) (hd : ¬ DirThenBucket t.walkItems) :
    ∃ log, walkLog get (Walker.new t.cid t.name) cache = some (log, .finished) ∧ log.map (·.2) = rootCids t.cid t.walkItems ∧
      DepthFirst get t.cid (log.map (·.1)) := by
  obtain ⟨log, h1, h2⟩ := walk_finishes _ _ _ _ ((C45_tree_partial get t cache hat ht hname hc).1 hd)
  exact ⟨log, h1, h2, C120_walk get t.cid t.name cache hc log h1⟩

/-! ### reading -/

theorem read_depthFirst (get : Cid → Option Bytes) (v : FileVisit) (r) (h : readFrom get v = some r) :
    v.range = none → ∀ x q, r = .ok (x, q) → DepthFirstL get (v.pending.reverse.map (·.1)) q := by
  refine readFrom.partial_correctness get (fun v r => v.range = none → ∀ x q, r = .ok (x, q) →
    DepthFirstL get (v.pending.reverse.map (·.1)) q) ?_ v r h
  intro rec ih v r hr hrange x q hrq
  subst hrq
  cases hp : v.pendingLinks with
  | panic p => rw [hp] at hr; cases hr
  | err e => rw [hp] at hr; cases hr
  | ok fl =>
    obtain ⟨first, rest⟩ := fl
    rw [hp] at hr
    simp only at hr
    cases hg : get first with
    | none => rw [hg] at hr; cases hr
    | some block =>
      rw [hg] at hr
      simp only at hr
      cases hc : (v.continueWalk block none).1 with
      | panic p => rw [hc] at hr; cases hr
      | err e => rw [hc] at hr; cases hr
      | ok cs =>
        obtain ⟨content, next⟩ := cs
        rw [hc] at hr
        obtain ⟨P, cid, i, m, fs, hpend, hs, hm, -, ha, h1, h2⟩ := continueWalk_ok hc
        have hfirst : cid = first ∧ P.reverse.map (·.1) = rest := by
          unfold FileVisit.pendingLinks at hp
          rw [hpend] at hp
          simp only [List.reverse_append, List.reverse_cons, List.reverse_nil, List.nil_append, List.singleton_append,
            List.map_cons] at hp
          cases hp
          exact ⟨rfl, rfl⟩
        obtain ⟨rfl, hrest⟩ := hfirst
        have hty : m.data.Ty ≠ .Symlink := by
          rcases ha.node.1 with h | h <;> rw [h] <;> nofun
        have hq : v.pending.reverse.map (·.1) = cid :: rest := by rw [hpend, ← hrest]; simp
        rw [hq]
        by_cases hl : m.links = []
        · have hla : LinksAre block [] := ⟨m, hm, by rw [if_neg hty, hl]; rfl⟩
          obtain ⟨-, hnext⟩ := h1 hl
          by_cases hP : P = []
          · rw [if_pos hP] at hnext
            subst hnext
            cases hr
            subst hP
            rw [← hrest]
            exact .cons (o2 := []) (.block hg hla .nil) .nil
          · rw [if_neg hP] at hnext
            subst hnext
            simp only at hr
            cases hrec : rec (.mk P v.range (.mk (.Chunk (i.lo + fs)) i.lo fs v.state.metadata)) with
            | none => rw [hrec] at hr; cases hr
            | some r' =>
              rw [hrec] at hr
              cases r' with
              | panic p => cases hr
              | err e => cases hr
              | ok y =>
                obtain ⟨x', q'⟩ := y
                cases hr
                have := ih _ _ hrec hrange x' q' rfl
                rw [hrest] at this
                exact .cons (o1 := [cid]) (.block hg hla .nil) this
        · obtain ⟨-, ps, hps, hnext⟩ := h2 hl
          subst hnext
          rw [hrange] at hps
          have hla : LinksAre block (ps.map (·.1)) := ⟨m, hm, by rw [if_neg hty]; exact collectLinks_all ha.sizes hps⟩
          simp only at hr
          cases hrec : rec (.mk (P ++ ps.reverse) v.range (.mk (.TreeCoverage (i.lo + fs)) i.lo fs v.state.metadata)) with
          | none => rw [hrec] at hr; cases hr
          | some r' =>
            rw [hrec] at hr
            cases r' with
            | panic p => cases hr
            | err e => cases hr
            | ok y =>
              obtain ⟨x', q'⟩ := y
              cases hr
              have := ih _ _ hrec hrange x' q' rfl
              simp only [List.reverse_append, List.reverse_reverse, List.map_append, hrest] at this
              obtain ⟨o1, o2, h3, h4, rfl⟩ := depthFirstL_append.1 this
              exact .cons (o1 := cid :: o1) (.block hg hla h3) h4

/-- C120, files: reading a whole file to the end asks for every block below the first one, depth first in the order of the links. -/
theorem C120_read (get : Cid → Option Bytes) (c : Cid) (root : Bytes) (hg : get c = some root) (x : Bytes) (asked : List Cid)
    (h : readFile get ⟨none⟩ root = some (.ok (x, asked))) : DepthFirst get c (c :: asked) := by
  unfold readFile at h
  cases hs : (IdleFileVisit.mk none).start root with
  | panic p => rw [hs] at h; cases h
  | err e => rw [hs] at h; cases h
  | ok r =>
    obtain ⟨m, fs, hm, ha, hl, hl'⟩ := start_ok hs
    have hty : m.data.Ty ≠ .Symlink := by
      rcases ha.node.1 with h | h <;> rw [h] <;> nofun
    rw [hs] at h
    by_cases hlinks : m.links = []
    · rw [hl hlinks] at h
      cases h
      exact .block hg ⟨m, hm, by rw [if_neg hty, hlinks]; rfl⟩ .nil
    · obtain ⟨ps, hps, hr⟩ := hl' hlinks
      obtain ⟨p, ps', rfl, _⟩ := collectLinks_none_head hps (zip_ne_nil hlinks ha.sizes)
      rw [if_neg (by simp)] at hr
      rw [hr] at h
      simp only at h
      cases hrec : readFrom get (.mk (p :: ps').reverse none (.mk (.TreeCoverage fs) 0 fs (Metadata.ofUnixFs m.data))) with
      | none => rw [hrec] at h; cases h
      | some r' =>
        rw [hrec] at h
        cases r' with
        | panic p => cases h
        | err e => cases h
        | ok y =>
          obtain ⟨x', q'⟩ := y
          cases h
          have := read_depthFirst get _ _ hrec rfl x' _ rfl
          simp only [List.reverse_reverse] at this
          exact .block hg ⟨m, hm, by rw [if_neg hty]; exact collectLinks_all ha.sizes hps⟩ this

/-- C120, files: so does reading a well-formed file, which always gets to the end. -/
theorem C120_file (get : Cid → Option Bytes) (c : Cid) (t : FTree) (root : Bytes) (hg : get c = some root) (h : FileAt get t root) :
    ∃ asked, readFile get {} root = some (.ok (t.content, asked)) ∧ DepthFirst get c (c :: asked) := by
  obtain ⟨asked, ha⟩ := C18_read_wellformed get t root h
  exact ⟨asked, ha, C120_read get c root hg _ asked ha⟩

/-! ### what this order is -/

/-- C120: there is at most one such order. -/
theorem C120_unique (get : Cid → Option Bytes) (c : Cid) (o1 o2 : List Cid) (h1 : DepthFirst get c o1) (h2 : DepthFirst get c o2) : o1 = o2 := by
  refine DepthFirst.rec (motive_1 := fun c o1 _ => ∀ o2, DepthFirst get c o2 → o1 = o2)
    (motive_2 := fun cs o1 _ => ∀ o2, DepthFirstL get cs o2 → o1 = o2) ?_ ?_ ?_ h1 o2 h2
  · intro c b links order hg hla _ ih o2 h2
    cases h2 with
    | block hg' hla' h3 =>
      rw [hg] at hg'
      cases hg'
      cases linksAre_unique hla hla'
      rw [ih _ h3]
  · intro o2 h2; cases h2; rfl
  · intro c cs o1 o2 _ _ ih1 ih2 o h
    cases h with
    | cons h3 h4 => rw [ih1 _ h3, ih2 _ h4]

theorem depthFirst_sound {get : Cid → Option Bytes} {c : Cid} {order : List Cid} (h : DepthFirst get c order) : ∀ d ∈ order, LinkedTo get c d := by
  refine DepthFirst.rec (motive_1 := fun c order _ => ∀ d ∈ order, LinkedTo get c d)
    (motive_2 := fun cs order _ => ∀ d ∈ order, ∃ k ∈ cs, LinkedTo get k d) ?_ ?_ ?_ h
  · intro c b links order hg hla _ ih d hd
    rcases List.mem_cons.1 hd with rfl | hd
    · exact .here _
    · obtain ⟨k, hk, hl⟩ := ih d hd
      exact .link hg hla hk hl
  · intro d hd; cases hd
  · intro c cs o1 o2 _ _ ih1 ih2 d hd
    rcases List.mem_append.1 hd with hd | hd
    · exact ⟨c, by simp, ih1 d hd⟩
    · obtain ⟨k, hk, hl⟩ := ih2 d hd
      exact ⟨k, by simp [hk], hl⟩

theorem depthFirstL_mem {get : Cid → Option Bytes} {cs order : List Cid} {k : Cid} (h : DepthFirstL get cs order) (hk : k ∈ cs) :
    ∃ o, DepthFirst get k o ∧ ∀ d ∈ o, d ∈ order := by
  induction cs generalizing order with
  | nil => cases hk
  | cons c cs ih =>
    cases h with
    | cons h1 h2 =>
      rcases List.mem_cons.1 hk with rfl | hk
      · exact ⟨_, h1, fun d hd => by simp [hd]⟩
      · obtain ⟨o, h3, h4⟩ := ih h2 hk
        exact ⟨o, h3, fun d hd => by simp [h4 d hd]⟩

theorem depthFirst_complete {get : Cid → Option Bytes} {c d : Cid} (h : LinkedTo get c d) : ∀ order, DepthFirst get c order → d ∈ order := by
  induction h with
  | here c => intro order h; cases h; simp
  | link hg hla hk _ ih =>
    intro order h
    cases h with
    | block hg' hla' h3 =>
      rw [hg] at hg'
      cases hg'
      cases linksAre_unique hla hla'
      obtain ⟨o, h4, h5⟩ := depthFirstL_mem h3 hk
      exact List.mem_cons_of_mem _ (h5 _ (ih o h4))

/-- C120: the blocks in this order are those to which some chain of links leads; all of them are in the store. -/
theorem C120_blocks (get : Cid → Option Bytes) (c : Cid) (order : List Cid) (h : DepthFirst get c order) (d : Cid) :
    (d ∈ order ↔ LinkedTo get c d) ∧ (d ∈ order → ∃ b, get d = some b) := by
  refine ⟨⟨depthFirst_sound h d, fun hl => depthFirst_complete hl order h⟩, ?_⟩
  intro hd
  refine DepthFirst.rec (motive_1 := fun c order _ => ∀ d ∈ order, ∃ b, get d = some b)
    (motive_2 := fun cs order _ => ∀ d ∈ order, ∃ b, get d = some b) ?_ ?_ ?_ h d hd
  · intro c b links order hg hla _ ih d hd
    rcases List.mem_cons.1 hd with rfl | hd
    · exact ⟨b, hg⟩
    · exact ih d hd
  · intro d hd; cases hd
  · intro c cs o1 o2 _ _ ih1 ih2 d hd
    rcases List.mem_append.1 hd with hd | hd
    · exact ih1 d hd
    · exact ih2 d hd

/-! ### an example -/

/-- `LinksAre` by computation. -/
def theLinks (b : Bytes) : Option (List Cid) :=
  match FlatUnixFs.tryParse b with
  | .error _ => none
  | .ok m => if m.data.Ty = .Symlink then some [] else m.links.mapM (fun l => (Cid.tryFrom (l.Hash.getD [])).toOption)

/-- `DepthFirstL` by computation, at most `n` blocks. -/
def goOn (get : Cid → Option Bytes) : Nat → List Cid → Option (List Cid)
  | _, [] => some []
  | 0, _ :: _ => none
  | n + 1, c :: cs =>
    match get c with
    | none => none
    | some b => match theLinks b with
      | none => none
      | some ks => match goOn get n (ks ++ cs) with
        | none => none
        | some order => some (c :: order)

theorem theLinks_sound {b : Bytes} {ks : List Cid} (h : theLinks b = some ks) : LinksAre b ks := by
  unfold theLinks at h
  cases hm : FlatUnixFs.tryParse b with
  | error e => rw [hm] at h; cases h
  | ok m =>
    rw [hm] at h
    simp only at h
    refine ⟨m, hm, ?_⟩
    by_cases ht : m.data.Ty = .Symlink
    · rw [if_pos ht] at h ⊢; cases h; rfl
    · rw [if_neg ht] at h ⊢
      generalize m.links = ls at h
      induction ls generalizing ks with
      | nil => simp only [List.mapM_nil] at h; cases h; rfl
      | cons l ls ih =>
        simp only [List.mapM_cons, Option.bind_eq_bind, Option.bind_eq_some_iff] at h
        obtain ⟨c, hc, ks', hks, h⟩ := h
        cases h
        simp only [List.map_cons, ih hks]
        cases hl : Cid.tryFrom (l.Hash.getD []) with
        | error e => rw [hl] at hc; cases hc
        | ok c' => rw [hl] at hc; cases hc; rfl

theorem goOn_sound {get : Cid → Option Bytes} : ∀ (n : Nat) (cs order : List Cid), goOn get n cs = some order → DepthFirstL get cs order
  | _, [], order, h => by
    unfold goOn at h
    cases h; exact .nil
  | 0, _ :: _, order, h => by cases h
  | n + 1, c :: cs, order, h => by
    unfold goOn at h
    cases hg : get c with
    | none => rw [hg] at h; cases h
    | some b =>
      rw [hg] at h
      simp only at h
      cases hk : theLinks b with
      | none => rw [hk] at h; cases h
      | some ks =>
        rw [hk] at h
        simp only at h
        cases hr : goOn get n (ks ++ cs) with
        | none => rw [hr] at h; cases h
        | some o =>
          rw [hr] at h
          cases h
          obtain ⟨x, y, h1, h2, rfl⟩ := depthFirstL_append.1 (goOn_sound n _ _ hr)
          exact .cons (o1 := c :: x) (.block hg (theLinks_sound hk) h1) h2

/-- The sample tree of `Props/Get.lean`, with a file of three blocks, a sharded directory with a bucket and a symlink, and an empty directory:
eight blocks, asked for in the order of their numbers. -/
theorem C120_example : ∃ log, walkLog (storeN sampleFsBlocks) (Walker.new (cidN 0) []) none = some (log, .finished) ∧
    log.map (·.1) = [cidN 0, cidN 1, cidN 2, cidN 3, cidN 4, cidN 5, cidN 6, cidN 7] ∧
    DepthFirst (storeN sampleFsBlocks) (cidN 0) (log.map (·.1)) := by
  obtain ⟨log, h1, h2, h3⟩ := C120_tree (storeN sampleFsBlocks) sampleRoot none sampleRoot_at trivial (by decide) nofun (by
    rw [show sampleRoot.walkItems = _ :: _ from rfl, ← bad_iff]; decide +kernel)
  refine ⟨log, h1, C120_unique _ _ _ _ h3 ?_, h3⟩
  have := goOn_sound 9 [cidN 0] [cidN 0, cidN 1, cidN 2, cidN 3, cidN 4, cidN 5, cidN 6, cidN 7]
    (show goOn (storeN sampleFsBlocks) 9 [cidN 0] = _ by decide +kernel)
  generalize [cidN 0, cidN 1, cidN 2, cidN 3, cidN 4, cidN 5, cidN 6, cidN 7] = order at this ⊢
  cases this with
  | cons h4 h5 => cases h5; rw [List.append_nil]; exact h4

end Verif.Props
