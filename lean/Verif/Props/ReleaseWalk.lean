import Verif.ReleaseWalk
import Verif.Props.ReleaseRun
import Verif.Props.RootNames
/-
C112: where the paths lead to which a release build reports.
-/
namespace Verif.Props
open Verif Verif.Spec

/-! ### paths -/

theorem popGe_prefix {ε : Type} (depth : Nat) : ∀ (d : Nat) (p q : PathBuf), (popWhileGe depth d p : Res ε PathBuf) = .ok q →
    q.absolute = p.absolute ∧ q.comps <+: p.comps
  | 0, p, q, h => by cases h; exact ⟨rfl, List.prefix_refl _⟩
  | d + 1, p, q, h => by
    rw [popWhileGe] at h
    split at h
    · unfold PathBuf.pop at h
      by_cases hp : p.comps = []
      · simp only [hp, if_true] at h; cases h
      · simp only [hp, if_false] at h
        have := popGe_prefix depth d _ q h
        exact ⟨this.1, this.2.trans (List.dropLast_prefix _)⟩
    · cases h; exact ⟨rfl, List.prefix_refl _⟩

theorem popGt_prefix {ε : Type} (depth : Nat) : ∀ (d : Nat) (p : PathBuf) (q : Nat × PathBuf), (popWhileGt depth d p : Res ε _) = .ok q →
    q.2.absolute = p.absolute ∧ q.2.comps <+: p.comps
  | 0, p, q, h => by cases h; exact ⟨rfl, List.prefix_refl _⟩
  | d + 1, p, q, h => by
    rw [popWhileGt] at h
    split at h
    · unfold PathBuf.pop at h
      by_cases hp : p.comps = []
      · simp only [hp, if_true] at h; cases h
      · simp only [hp, if_false] at h
        have := popGt_prefix depth d _ q h
        exact ⟨this.1, this.2.trans (List.dropLast_prefix _)⟩
    · cases h; exact ⟨rfl, List.prefix_refl _⟩

theorem popGe_take {ε : Type} (depth : Nat) (hd : 2 ≤ depth) : ∀ (d : Nat) (p q : PathBuf), d = p.comps.length + 1 →
    (popWhileGe depth d p : Res ε PathBuf) = .ok q → q = ⟨p.absolute, p.comps.take (depth - 2)⟩
  | 0, p, q, hl, h => by omega
  | d + 1, p, q, hl, h => by
    rw [popWhileGe] at h
    split at h
    · next hle =>
      unfold PathBuf.pop at h
      by_cases hp : p.comps = []
      · rw [hp] at hl; simp at hl; omega
      · simp only [hp, if_false] at h
        have hpos := List.length_pos_iff.mpr hp
        have := popGe_take depth hd d _ q (by simp only [List.length_dropLast]; omega) h
        rw [this]
        simp only [PathBuf.mk.injEq, true_and]
        rw [List.dropLast_eq_take, List.take_take, Nat.min_eq_left (by omega)]
    · cases h
      obtain ⟨a, c⟩ := p
      simp only at hl ⊢
      rw [List.take_of_length_le (by omega)]

theorem popGt_take {ε : Type} (depth : Nat) (hd : 1 ≤ depth) : ∀ (d : Nat) (p : PathBuf) (q : Nat × PathBuf), d = p.comps.length + 1 →
    (popWhileGt depth d p : Res ε _) = .ok q → q.2 = ⟨p.absolute, p.comps.take (depth - 1)⟩
  | 0, p, q, hl, h => by omega
  | d + 1, p, q, hl, h => by
    rw [popWhileGt] at h
    split at h
    · next hle =>
      unfold PathBuf.pop at h
      by_cases hp : p.comps = []
      · rw [hp] at hl; simp at hl; omega
      · simp only [hp, if_false] at h
        have hpos := List.length_pos_iff.mpr hp
        have := popGt_take depth hd d _ q (by simp only [List.length_dropLast]; omega) h
        rw [this]
        simp only [PathBuf.mk.injEq, true_and]
        rw [List.dropLast_eq_take, List.take_take, Nat.min_eq_left (by omega)]
    · cases h
      obtain ⟨a, c⟩ := p
      simp only at hl ⊢
      rw [List.take_of_length_le (by omega)]

theorem push_free {p : PathBuf} {n : Bytes} (h : slash ∉ n) :
    (p.push n).absolute = p.absolute ∧ (∀ c ∈ (p.push n).comps, c ∈ p.comps ∨ (c = n ∧ n ≠ [])) ∧
    (n ≠ [] → n ≠ dot → (p.push n).comps = p.comps ++ [n]) := by
  unfold PathBuf.push
  rw [if_neg (noHead h), splitSlash_single h]
  refine ⟨rfl, ?_, ?_⟩
  · intro c hc
    simp only [pathComps, List.filter_nil, List.append_nil] at hc
    rcases List.mem_append.1 hc with hc | hc
    · exact .inl hc
    · split at hc
      · cases hc
      · next hn => exact .inr ⟨List.mem_singleton.1 hc, fun e => hn (.inl e)⟩
  · intro h1 h2
    simp [pathComps, h1, h2]

/-! ### the components -/

/-- A name which one of the blocks gives. -/
def Given (blocks : List Bytes) (c : Bytes) : Prop := c ≠ [] ∧ slash ∉ c ∧ ∃ b ∈ blocks, GivesNameRel b c

theorem Given.mono {bs bs' : List Bytes} {c : Bytes} (h : Given bs c) : Given (bs ++ bs') c := by
  obtain ⟨h1, h2, b, h3, h4⟩ := h
  exact ⟨h1, h2, b, List.mem_append_left _ h3, h4⟩

theorem took_given {b : Bytes} {m : FlatUnixFs} (hm : Reads b m) {bs : List Bytes} (hb : b ∈ bs) {d : Nat} {l : WalkLink} (h : TookLink m d l) :
    l.name = [] ∨ Given bs l.name := by
  cases h with
  | entry x hx hty hn h1 h2 _ _ => exact .inr ⟨h1, h2, b, hb, m, x, _, hm, hx, hn, .inl ⟨hty, rfl⟩⟩
  | shardEntry x s hx hty hn hl he h2 _ _ =>
    refine .inr ⟨?_, h2, b, hb, m, x, s, hm, hx, hn, .inr ⟨hty, hl, he⟩⟩
    intro e
    rw [he] at e
    have := congrArg List.length e
    rw [List.length_drop] at this
    simp at this
    omega
  | bucket _ _ _ _ _ _ h _ _ => exact .inl h

/-- What is known of the walker: before the first step, and afterwards. -/
def Known (cid : Cid) (name : Bytes) (blocks : List Bytes) (w : Walker) : Prop :=
  w = Walker.new cid name ∨
  (∃ ie, w.current = some ie ∧ ie.path.absolute = (PathBuf.push {} name).absolute ∧ ∀ c ∈ ie.path.comps, c ∈ (PathBuf.push {} name).comps ∨ Given blocks c) ∧
  ∀ l ∈ w.links, l.name = [] ∨ Given blocks l.name

theorem next_mem {w : Walker} {n : WalkLink} (h : w.next = some n) : w.links = n :: w.pending.reverse := by
  unfold Walker.links; rw [h]; rfl

theorem free_of_given {bs : List Bytes} {n : Bytes} (h : n = [] ∨ Given bs n) : slash ∉ n := by
  rcases h with rfl | h
  · nofun
  · exact h.2.1

theorem walkedRel_known {cid : Cid} {name : Bytes} {h : List (Bytes × ContinuedWalk)} {w : Walker} (hw : WalkedRel cid name h w) :
    Known cid name (h.map (·.1)) w ∧ ∀ x ∈ h, (pathOf x.2).absolute = (PathBuf.push {} name).absolute ∧
      ∀ c ∈ (pathOf x.2).comps, c ∈ (PathBuf.push {} name).comps ∨ Given (h.map (·.1)) c := by
  induction hw with
  | new => exact ⟨.inl rfl, nofun⟩
  | @next h w w' block cache cache' item hw hsc hs ih =>
    obtain ⟨hk, ih⟩ := ih
    rw [List.map_append, List.map_cons, List.map_nil]
    have key : Known cid name (h.map (·.1) ++ [block]) w' ∧ (pathOf item).absolute = (PathBuf.push {} name).absolute ∧
        ∀ c ∈ (pathOf item).comps, c ∈ (PathBuf.push {} name).comps ∨ Given (h.map (·.1) ++ [block]) c := by
      cases stepRel_ok hs with
      | later ie ie' v sz _ _ hc _ hp hp' _ hc' hl =>
        rcases hk with rfl | ⟨⟨ie0, h0, h1, h2⟩, h3⟩
        · cases hc
        · rw [hc] at h0
          cases h0
          have h2' := fun c hc => (h2 c hc).imp_right (Given.mono (bs' := [block]))
          refine ⟨.inr ⟨⟨ie', hc', ?_, ?_⟩, ?_⟩, ?_, ?_⟩
          · rw [hp']; exact h1
          · rw [hp']; exact h2'
          · rw [hl]; exact fun l hl => (h3 l hl).imp_right Given.mono
          · rw [hp]; exact h1
          · rw [hp]; exact h2'
      | block m n ls ie' _ hm hn hls hmv _ hd hp hc' hl =>
        have hpath : ie'.path.absolute = (PathBuf.push {} name).absolute ∧ ∀ c ∈ ie'.path.comps, c ∈ (PathBuf.push {} name).comps ∨ Given (h.map (·.1) ++ [block]) c := by
          rcases hk with rfl | ⟨⟨ie0, h0, h1, h2⟩, h3⟩
          · cases hn
            cases hmv with
            | root _ hp' _ => rw [hp']; exact ⟨rfl, fun c hc => .inl hc⟩
            | entry _ _ h => cases h
            | same _ h => cases h
            | bucket _ h => cases h
          · have hname := h3 n (by rw [next_mem hn]; simp)
            have h2' := fun c hc => (h2 c hc).imp_right (Given.mono (bs' := [block]))
            cases hmv with
            | root h => rw [h] at h0; cases h0
            | entry ie p h4 h5 h6 _ =>
              rw [h4] at h0
              cases h0
              have hpp := popGe_prefix _ _ _ _ h5
              have hpu := push_free (p := p) (free_of_given hname)
              rw [h6, hpu.1, hpp.1]
              refine ⟨h1, fun c hc => ?_⟩
              rcases hpu.2.1 c hc with hc | ⟨rfl, hne⟩
              · exact h2' c (hpp.2.subset hc)
              · exact .inr (hname.resolve_left hne).mono
            | same ie h4 _ _ h5 _ =>
              rw [h4] at h0
              cases h0
              rw [h5]
              exact ⟨h1, h2'⟩
            | bucket ie h4 _ h5 _ =>
              rw [h4] at h0
              cases h0
              have hpp := popGt_prefix _ _ _ _ h5
              rw [hpp.1]
              exact ⟨h1, fun c hc => h2' c (hpp.2.subset hc)⟩
        refine ⟨.inr ⟨⟨ie', hc', hpath⟩, ?_⟩, by rw [hp]; exact hpath.1, by rw [hp]; exact hpath.2⟩
        rw [hl]
        intro l hl
        rcases List.mem_append.1 hl with hl | hl
        · exact took_given hm (by simp) (hls l hl)
        · rcases hk with rfl | ⟨_, h3⟩
          · cases hl
          · exact (h3 l (by rw [next_mem hn]; simp at hl ⊢; exact .inr hl)).imp_right Given.mono
    refine ⟨key.1, fun x hx => ?_⟩
    rcases List.mem_append.1 hx with hx | hx
    · exact ⟨(ih x hx).1, fun c hc => ((ih x hx).2 c hc).imp_right Given.mono⟩
    · rw [List.mem_singleton.1 hx]
      exact key.2

/-- Whatever the blocks are, a release build reports only paths which are absolute exactly if the root name is, and whose components are
components of the root name or names which the blocks gave: not empty, without slashes. -/
theorem C112_components (cid : Cid) (name : Bytes) (ps : List Bytes) (hps : Pieces name ps) (h : List (Bytes × ContinuedWalk)) (w : Walker)
    (hw : WalkedRel cid name h w) : ∀ x ∈ h, (pathOf x.2).absolute = (namePath ps).absolute ∧
      ∀ c ∈ (pathOf x.2).comps, c ∈ (namePath ps).comps ∨ (c ≠ [] ∧ slash ∉ c ∧ ∃ b ∈ h.map (·.1), GivesNameRel b c) := by
  rw [← push_root hps]
  exact (walkedRel_known hw).2

/-- So a path leads out of where it starts only if the root name has `..` in it, or a block names something so. -/
theorem C112_inside (cid : Cid) (name : Bytes) (ps : List Bytes) (hps : Pieces name ps) (h : List (Bytes × ContinuedWalk)) (w : Walker)
    (hw : WalkedRel cid name h w) (hname : dotdot ∉ ps) (hdd : ∀ b ∈ h.map (·.1), ¬ GivesNameRel b dotdot) :
    ∀ x ∈ h, ¬ Escapes 0 (pathOf x.2).comps := by
  intro x hx
  apply not_escapes
  intro hd
  rcases (C112_components cid name ps hps h w hw x hx).2 _ hd with hd | ⟨-, -, b, hb, hg⟩
  · simp only [namePath] at hd
    rcases List.mem_append.1 hd with hd | hd
    · exact hname (List.mem_of_mem_take (List.mem_filter.1 hd).1)
    · exact hname (List.mem_of_mem_drop (List.mem_filter.1 hd).1)
  · exact hdd b hb hg

/-! ### below the root -/

/-- The full statement: if no block names anything `..`, the paths lead to somewhere below the root. -/
def C112_full : Prop := ∀ (get : Cid → Option Bytes) (cid : Cid) (name : Bytes) (h : List (Bytes × ContinuedWalk)) (w : Walker), slash ∉ name →
  WalkedIn get cid name h w → (∀ b ∈ h.map (·.1), ¬ GivesNameRel b dotdot) → ∀ x ∈ h, ∃ below, pathOf x.2 = ⟨false, rootPath name ++ below⟩ ∧ ¬ Escapes 0 below

theorem walkedIn_rel {get : Cid → Option Bytes} {cid : Cid} {name : Bytes} {h : List (Bytes × ContinuedWalk)} {w : Walker}
    (hw : WalkedIn get cid name h w) : WalkedRel cid name h w := by
  induction hw with
  | new => exact .new
  | next _ hsc _ _ _ hs ih => exact .next ih hsc hs

/-- The depth of the directory which the link is in. -/
def parentDepth (l : WalkLink) : Nat := if l.name = [] then l.depth else l.depth - 1

/-- What is known of the path. -/
def Under (name : Bytes) (blocks : List Bytes) (p : PathBuf) : Prop :=
  ∃ below, p = ⟨false, rootPath name ++ below⟩ ∧ ∀ c ∈ below, Given blocks c

theorem Under.mono {name : Bytes} {bs bs' : List Bytes} {p : PathBuf} (h : Under name bs p) : Under name (bs ++ bs') p := by
  obtain ⟨below, h1, h2⟩ := h
  exact ⟨below, h1, fun c hc => (h2 c hc).mono⟩

structure LinkFine (get : Cid → Option Bytes) (name : Bytes) (blocks : List Bytes) (l : WalkLink) : Prop where
  given : l.name = [] ∨ Given blocks l.name
  deep : (rootPath name).length + 1 ≤ parentDepth l
  shard : l.name = [] → ∀ b m, get l.cid = some b → Reads b m → m.data.Ty = .HAMTShard

/-- What is known of the walker after the first step. -/
structure Within' (get : Cid → Option Bytes) (name : Bytes) (blocks : List Bytes) (w : Walker) (ie : InnerEntry) : Prop where
  current : w.current = some ie
  depth : ie.depth = ie.path.comps.length + 1
  path : Under name blocks ie.path
  links : ∀ l ∈ w.links, LinkFine get name blocks l ∧ parentDepth l ≤ ie.depth
  order : w.links.Pairwise (fun a b => parentDepth b ≤ parentDepth a)

theorem pendingLinks_atRest {w : Walker} (h : w.atRest) {n : WalkLink} (hn : w.next = some n) {c : Cid} {cs : List Cid}
    (hp : w.pendingLinks = .ok (c, cs)) : c = n.cid := by
  unfold Walker.pendingLinks at hp
  split at hp
  · next v sz hk =>
    cases hc : w.current with
    | none => rw [hc] at hk; cases hk
    | some ie =>
      rw [hc] at hk
      exact absurd (Option.some.inj hk) (h ie v sz hc)
  · rw [hn] at hp
    cases hp
    rfl

theorem rootPath_push {name : Bytes} (h : slash ∉ name) : PathBuf.push {} name = ⟨false, rootPath name⟩ := by
  unfold PathBuf.push rootPath
  rw [if_neg (noHead h), splitSlash_single h]
  by_cases hn : name = [] <;> simp [pathComps, hn]

theorem root_depth (name : Bytes) : (if name = [] then 1 else 2) = (rootPath name).length + 1 := by
  unfold rootPath
  split <;> rfl

theorem take_under {r below : List Bytes} {k : Nat} (h : r.length ≤ k) : (r ++ below).take k = r ++ below.take (k - r.length) := by
  rw [List.take_append, List.take_of_length_le h]

theorem took_depth {m : FlatUnixFs} {d : Nat} {l : WalkLink} (h : TookLink m d l) : parentDepth l = d := by
  unfold parentDepth
  cases h with
  | entry x _ _ _ h1 _ h2 _ => rw [if_neg h1, h2]; rfl
  | shardEntry x s _ _ _ hl he _ h2 _ =>
    rw [if_neg, h2]; rfl
    intro e
    rw [he] at e
    have := congrArg List.length e
    rw [List.length_drop] at this
    simp at this
    omega
  | bucket _ _ _ _ _ _ h1 h2 _ => rw [if_pos h1, h2]

theorem took_fine {get : Cid → Option Bytes} (hget : BucketsAreShards get) {c : Cid} {b : Bytes} {m : FlatUnixFs} (hg : get c = some b) (hm : Reads b m)
    {name : Bytes} {bs : List Bytes} (hb : b ∈ bs) {d : Nat} (hd : (rootPath name).length + 1 ≤ d) {l : WalkLink} (h : TookLink m d l) :
    LinkFine get name bs l := by
  refine ⟨took_given hm hb h, by rw [took_depth h]; exact hd, ?_⟩
  intro hn b' m' hg' hm'
  cases h with
  | entry x _ _ _ h1 _ h2 _ => exact absurd hn h1
  | shardEntry x s _ _ _ hl he _ h2 _ =>
    exfalso
    rw [he] at hn
    have := congrArg List.length hn
    rw [List.length_drop] at this
    simp at this
    omega
  | bucket x s hx hty hs hl _ _ hc => exact hget c b m hg hm hty x hx s hs hl l.cid b' m' hc hg' hm'

theorem walkedIn_under {get : Cid → Option Bytes} (hget : BucketsAreShards get) {cid : Cid} {name : Bytes} (hname : slash ∉ name)
    {h : List (Bytes × ContinuedWalk)} {w : Walker} (hw : WalkedIn get cid name h w) : (∀ b ∈ h.map (·.1), ¬ GivesNameRel b dot) →
    (w = Walker.new cid name ∨ ∃ ie, Within' get name (h.map (·.1)) w ie) ∧ ∀ x ∈ h, Under name (h.map (·.1)) (pathOf x.2) := by
  induction hw with
  | new => exact fun _ => ⟨.inl rfl, nofun⟩
  | @next h w w' first rest block cache cache' item hw hsc hpl hgb hca hs ih =>
    rw [List.map_append, List.map_cons, List.map_nil]
    intro hdot
    obtain ⟨hk, ih⟩ := ih (fun b hb => hdot b (List.mem_append_left _ hb))
    have key : (∃ ie, Within' get name (h.map (·.1) ++ [block]) w' ie) ∧ Under name (h.map (·.1) ++ [block]) (pathOf item) := by
      cases stepRel_ok hs with
      | later ie ie' v sz _ _ hc _ hp hp' hd' hc' hl =>
        rcases hk with rfl | ⟨ie0, hk⟩
        · cases hc
        · have := hk.current
          rw [hc] at this
          cases this
          refine ⟨⟨ie', hc', by rw [hd', hp']; exact hk.depth, by rw [hp']; exact hk.path.mono, ?_, by rw [hl]; exact hk.order⟩, by rw [hp]; exact hk.path.mono⟩
          rw [hl, hd']
          intro l hl
          obtain ⟨⟨h1, h2, h3⟩, h4⟩ := hk.links l hl
          exact ⟨⟨h1.imp_right Given.mono, h2, h3⟩, h4⟩
      | block m n ls ie' hrest hm hn hls hmv hbk hd hp hc' hl =>
        have hfirst := pendingLinks_atRest hrest hn hpl
        have hpath : Under name (h.map (·.1) ++ [block]) ie'.path ∧ ie'.depth = ie'.path.comps.length + 1 ∧
            (rootPath name).length + 1 ≤ n.depth ∧ (∀ l ∈ w.pending.reverse, LinkFine get name (h.map (·.1)) l ∧ parentDepth l ≤ n.depth) ∧
            w.pending.reverse.Pairwise (fun a b => parentDepth b ≤ parentDepth a) := by
          rcases hk with rfl | ⟨ie0, hk⟩
          · cases hn
            cases hmv with
            | root _ hp' hd' =>
              rw [hp', rootPath_push hname, hd']
              refine ⟨⟨[], by simp, nofun⟩, ?_, ?_, nofun, .nil⟩
              · exact root_depth name
              · exact Nat.le_of_eq (root_depth name).symm
            | entry _ _ h => cases h
            | same _ h => cases h
            | bucket _ h => cases h
          · have hord := hk.order
            rw [next_mem hn, List.pairwise_cons] at hord
            have hlk := hk.links
            rw [next_mem hn] at hlk
            obtain ⟨hfine, hle⟩ := hlk n (by simp)
            have hpn : parentDepth n ≤ n.depth := by unfold parentDepth; split <;> omega
            obtain ⟨below, hb1, hb2⟩ := hk.path
            have hdep := hk.depth
            refine ⟨?_, ?_, Nat.le_trans hfine.deep hpn, fun l hl => ⟨(hlk l (by simp at hl ⊢; exact .inr hl)).1, Nat.le_trans (hord.1 l hl) hpn⟩, hord.2⟩
            all_goals
              rcases hfine.given with hnil | hgiven
              · have hty := hfine.shard hnil block m (by rw [← hfirst]; exact hgb) hm
                obtain ⟨ie, hc, hcase⟩ := hbk hnil hty (by rw [hk.current]; nofun)
                rw [hk.current] at hc
                cases hc
                have hpd : parentDepth n = n.depth := by unfold parentDepth; rw [if_pos hnil]
                have hdeep := hfine.deep
                rw [hpd] at hdeep hle
                rcases hcase with ⟨h1, h2⟩ | h1
                · first
                  | rw [h2]; exact Under.mono ⟨below, hb1, hb2⟩
                  | rw [h2, hd, ← h1]; exact hdep
                · have h2 := popGt_take n.depth (by omega) _ _ _ hdep h1
                  simp only at h2
                  rw [hb1] at h2 hdep
                  simp only [List.length_append] at hdep
                  simp only at h2
                  rw [take_under (by omega)] at h2
                  first
                  | exact ⟨below.take (n.depth - 1 - (rootPath name).length), h2, fun c hc => (hb2 c (List.mem_of_mem_take hc)).mono⟩
                  | rw [h2, hd]; simp only [List.length_append, List.length_take]; omega
              · have hne := hgiven.1
                have hnd : n.name ≠ dot := by
                  intro e
                  obtain ⟨-, -, b, hb, hg⟩ := hgiven
                  rw [e] at hg
                  exact hdot b (List.mem_append_left _ hb) hg
                have hpd : parentDepth n = n.depth - 1 := by unfold parentDepth; rw [if_neg hne]
                have hdeep := hfine.deep
                rw [hpd] at hdeep hle
                cases hmv with
                | root h => rw [hk.current] at h; cases h
                | entry ie p h4 h5 h6 _ =>
                  rw [hk.current] at h4
                  cases h4
                  have h2 := popGe_take n.depth (by omega) _ _ _ hdep h5
                  rw [hb1] at h2 hdep
                  simp only [List.length_append] at hdep
                  simp only at h2
                  rw [take_under (by omega)] at h2
                  have hpu := push_free (p := p) hgiven.2.1
                  have hcs := hpu.2.2 hne hnd
                  have hab := hpu.1
                  rw [← h6, h2] at hcs hab
                  first
                  | refine ⟨below.take (n.depth - 2 - (rootPath name).length) ++ [n.name], ?_, ?_⟩
                    · generalize ie'.path = q at hcs hab
                      obtain ⟨a, c⟩ := q
                      simp only at hcs hab
                      rw [hab, hcs, List.append_assoc]
                    · intro c hc
                      rcases List.mem_append.1 hc with hc | hc
                      · exact (hb2 c (List.mem_of_mem_take hc)).mono
                      · rw [List.mem_singleton.1 hc]; exact hgiven.mono
                  | rw [hcs, hd]; simp only [List.length_append, List.length_take, List.length_cons, List.length_nil]; omega
                | same _ _ h => exact absurd h hne
                | bucket _ _ h => exact absurd h hne
        obtain ⟨p1, p2, p3, p4, p5⟩ := hpath
        refine ⟨⟨ie', hc', p2, p1, ?_, ?_⟩, by rw [hp]; exact p1⟩
        · rw [hl, hd]
          intro l hl
          rcases List.mem_append.1 hl with hl | hl
          · exact ⟨took_fine hget hgb hm (by simp) p3 (hls l hl), Nat.le_of_eq (took_depth (hls l hl))⟩
          · obtain ⟨⟨h1, h2, h3⟩, h4⟩ := p4 l hl
            exact ⟨⟨h1.imp_right Given.mono, h2, h3⟩, h4⟩
        · rw [hl, List.pairwise_append]
          refine ⟨?_, p5, ?_⟩
          · exact List.pairwise_of_forall_mem_list (fun a ha b hb => by rw [took_depth (hls a ha), took_depth (hls b hb)]; exact Nat.le_refl _)
          · intro a ha b hb
            rw [took_depth (hls a ha)]
            exact (p4 b hb).2
    refine ⟨.inr key.1, fun x hx => ?_⟩
    rcases List.mem_append.1 hx with hx | hx
    · exact (ih x hx).mono
    · rw [List.mem_singleton.1 hx]
      exact key.2

/-- If no block names anything `.`, and what shards link to with two bytes for a name are shards, the paths are the root name followed by names which
the blocks gave. -/
theorem C112_below_partial (get : Cid → Option Bytes) (hget : BucketsAreShards get) (cid : Cid) (name : Bytes) (hname : slash ∉ name)
    (h : List (Bytes × ContinuedWalk)) (w : Walker) (hw : WalkedIn get cid name h w) (hdot : ∀ b ∈ h.map (·.1), ¬ GivesNameRel b dot) :
    ∀ x ∈ h, ∃ below, pathOf x.2 = ⟨false, rootPath name ++ below⟩ ∧ (∀ c ∈ below, c ≠ [] ∧ slash ∉ c ∧ ∃ b ∈ h.map (·.1), GivesNameRel b c) ∧
      ((∀ b ∈ h.map (·.1), ¬ GivesNameRel b dotdot) → ¬ Escapes 0 below) := by
  intro x hx
  obtain ⟨below, h1, h2⟩ := (walkedIn_under hget hname hw hdot).2 x hx
  refine ⟨below, h1, h2, fun hdd => not_escapes _ _ fun hd => ?_⟩
  obtain ⟨-, -, b, hb, hg⟩ := h2 _ hd
  exact hdd b hb hg

/-! ### examples -/

theorem parsesR {b : Bytes} {m : FlatUnixFs} (hb : b.length < 2 ^ 63) (h : FlatUnixFs.tryParse b = .ok m) :
    FlatUnixFs.tryParseR b = some (FlatUnixFs.tryParse b) :=
  flat_agree hb (by rw [h]; nofun) (fun n => by rw [h]; nofun)

/-- A store of short blocks which are read as they were written. -/
def Plain (blocks : List (UInt8 × FlatUnixFs)) : Prop :=
  ∀ e ∈ blocks, (FlatUnixFs.tryParse e.2.write).toOption = some e.2 ∧ e.2.write.length < 1000

instance (blocks : List (UInt8 × FlatUnixFs)) : Decidable (Plain blocks) := by unfold Plain; infer_instance

theorem toOption_ok {α β : Type} {x : Except α β} {y : β} (h : x.toOption = some y) : x = .ok y := by
  cases x with
  | error e => cases h
  | ok z => cases h; rfl

theorem plain_get {blocks : List (UInt8 × FlatUnixFs)} (hp : Plain blocks) {c : Cid} {b : Bytes} (h : storeN blocks c = some b) :
    ∃ e ∈ blocks, cidN e.1 = c ∧ b = e.2.write ∧ FlatUnixFs.tryParseR b = some (FlatUnixFs.tryParse b) ∧ ∀ m, Reads b m → m = e.2 := by
  unfold storeN at h
  obtain ⟨e, he, rfl⟩ := Option.map_eq_some_iff.1 h
  have hmem := List.mem_of_find?_eq_some he
  have hc := List.find?_some he
  obtain ⟨h1, h2⟩ := hp e hmem
  have h1 := toOption_ok h1
  have h3 : FlatUnixFs.tryParseR e.2.write = some (FlatUnixFs.tryParse e.2.write) := parsesR (by omega) h1
  refine ⟨e, hmem, by simpa using hc, rfl, h3, fun m hm => ?_⟩
  unfold Reads at hm
  rw [h3, h1] at hm
  cases hm
  rfl

/-- Walking for some steps. -/
def walkSteps (get : Cid → Option Bytes) : Nat → Walker → Option (List (Bytes × ContinuedWalk) × Walker)
  | 0, w => some ([], w)
  | n + 1, w =>
    if w.shouldContinue = true then
      match w.pendingLinks with
      | .ok (first, _) =>
        match get first with
        | some block =>
          match w.stepR block none with
          | (.ok item, w', _) => (walkSteps get n w').map (fun x => ((block, item) :: x.1, x.2))
          | _ => none
        | none => none
      | _ => none
    else none

theorem walkSteps_walked {blocks : List (UInt8 × FlatUnixFs)} (hp : Plain blocks) {cid : Cid} {name : Bytes} : ∀ (n : Nat) (w w' : Walker)
    (h h' : List (Bytes × ContinuedWalk)), WalkedIn (storeN blocks) cid name h w → walkSteps (storeN blocks) n w = some (h', w') →
    WalkedIn (storeN blocks) cid name (h ++ h') w'
  | 0, w, w', h, h', hw, hs => by cases hs; rw [List.append_nil]; exact hw
  | n + 1, w, w', h, h', hw, hs => by
    rw [walkSteps] at hs
    split at hs
    · next hsc =>
      split at hs
      · next first rest hpl =>
        split at hs
        · next block hg =>
          split at hs
          · next item w1 c1 hst =>
            obtain ⟨x, hx, he⟩ := Option.map_eq_some_iff.1 hs
            obtain ⟨x1, x2⟩ := x
            cases he
            obtain ⟨_, _, _, _, hr, _⟩ := plain_get hp hg
            have := walkSteps_walked hp n w1 x2 (h ++ [(block, item)]) x1
              (.next hw hsc hpl hg (cache := none) (fun _ h => nomatch h) (by rw [stepRel_eq hr, hst])) hx
            simpa using this
          · cases hs
        · cases hs
      · cases hs
    · cases hs

theorem walked_get {get : Cid → Option Bytes} {cid : Cid} {name : Bytes} {h : List (Bytes × ContinuedWalk)} {w : Walker}
    (hw : WalkedIn get cid name h w) : ∀ b ∈ h.map (·.1), ∃ c, get c = some b := by
  induction hw with
  | new => nofun
  | next _ _ _ hg _ _ ih =>
    rw [List.map_append, List.map_cons, List.map_nil]
    intro b hb
    rcases List.mem_append.1 hb with hb | hb
    · exact ih b hb
    · rw [List.mem_singleton.1 hb]; exact ⟨_, hg⟩

/-- The names in a block. -/
def namesIn (m : FlatUnixFs) : List Bytes :=
  match m.data.Ty with
  | .Directory => m.links.filterMap (·.Name)
  | .HAMTShard => (m.links.filterMap (·.Name)).map (·.drop 2)
  | _ => []

theorem plain_names {blocks : List (UInt8 × FlatUnixFs)} (hp : Plain blocks) {n : Bytes} (hn : ∀ e ∈ blocks, n ∉ namesIn e.2)
    {c : Cid} {b : Bytes} (h : storeN blocks c = some b) : ¬ GivesNameRel b n := by
  rintro ⟨m, l, x, hm, hl, hx, hc⟩
  obtain ⟨e, he, _, _, _, hu⟩ := plain_get hp h
  cases hu m hm
  apply hn e he
  have hmem : x ∈ e.2.links.filterMap (·.Name) := List.mem_filterMap.2 ⟨l, hl, hx⟩
  unfold namesIn
  rcases hc with ⟨hty, rfl⟩ | ⟨hty, _, rfl⟩
  · rw [hty]; exact hmem
  · rw [hty]; exact List.mem_map.2 ⟨x, hmem, rfl⟩

theorem dotBlocks_plain : Plain dotBlocks := by decide +kernel

/-- A directory walked as `r` in which a symlink called `.` comes before one called `x`: the second is reported as `x`, not as `r/x`. -/
theorem C112_dot : ∃ h w, WalkedIn (storeN dotBlocks) (cidN 0) [114] h w ∧ (∀ b ∈ h.map (·.1), ¬ GivesNameRel b dotdot) ∧
    h.map (fun x => pathOf x.2) = [⟨false, [[114]]⟩, ⟨false, [[114]]⟩, ⟨false, [[120]]⟩] := by
  have hs : (walkSteps (storeN dotBlocks) 3 (Walker.new (cidN 0) [114])).map (fun x => x.1.map (fun y => pathOf y.2)) =
      some [⟨false, [[114]]⟩, ⟨false, [[114]]⟩, ⟨false, [[120]]⟩] := by decide +kernel
  obtain ⟨⟨h, w⟩, h1, h2⟩ := Option.map_eq_some_iff.1 hs
  have hw := walkSteps_walked dotBlocks_plain 3 _ w [] h .new h1
  rw [List.nil_append] at hw
  refine ⟨h, w, hw, fun b hb => ?_, h2⟩
  obtain ⟨c, hc⟩ := walked_get hw b hb
  exact plain_names dotBlocks_plain (by decide +kernel) hc

theorem C112_full_false : ¬ C112_full := by
  intro hf
  obtain ⟨h, w, hw, hdd, hp⟩ := C112_dot
  have hz : (⟨false, [[120]]⟩ : PathBuf) ∈ h.map (fun x => pathOf x.2) := by rw [hp]; simp
  obtain ⟨z, hz, he⟩ := List.mem_map.1 hz
  obtain ⟨below, hb, -⟩ := hf _ _ _ _ _ (by decide) hw hdd z hz
  rw [he] at hb
  simp [rootPath] at hb

/-- A sharded directory in which a link with two bytes for a name leads to a symlink, with a symlink called `x` after it. -/
def strayBlocks : List (UInt8 × FlatUnixFs) :=
  [(0, shardMsg [linkN 1 [65, 66], linkN 2 [65, 67, 120]]), (1, ⟨[], { Ty := .Symlink, Data := some [46] }⟩), (2, ⟨[], { Ty := .Symlink, Data := some [46] }⟩)]

theorem strayBlocks_plain : Plain strayBlocks := by decide +kernel

/-- Walked as `r`, the first is reported without any path, the second as `x`. -/
theorem C112_stray : ∃ h w, WalkedIn (storeN strayBlocks) (cidN 0) [114] h w ∧ (∀ b ∈ h.map (·.1), ¬ GivesNameRel b dotdot ∧ ¬ GivesNameRel b dot) ∧
    h.map (fun x => pathOf x.2) = [⟨false, [[114]]⟩, ⟨false, []⟩, ⟨false, [[120]]⟩] := by
  have hs : (walkSteps (storeN strayBlocks) 3 (Walker.new (cidN 0) [114])).map (fun x => x.1.map (fun y => pathOf y.2)) =
      some [⟨false, [[114]]⟩, ⟨false, []⟩, ⟨false, [[120]]⟩] := by decide +kernel
  obtain ⟨⟨h, w⟩, h1, h2⟩ := Option.map_eq_some_iff.1 hs
  have hw := walkSteps_walked strayBlocks_plain 3 _ w [] h .new h1
  rw [List.nil_append] at hw
  refine ⟨h, w, hw, fun b hb => ?_, h2⟩
  obtain ⟨c, hc⟩ := walked_get hw b hb
  exact ⟨plain_names strayBlocks_plain (by decide +kernel) hc, plain_names strayBlocks_plain (by decide +kernel) hc⟩

/-- A directory with a sharded one in it, which has a bucket. -/
def fineBlocks : List (UInt8 × FlatUnixFs) :=
  [(0, dirMsg [linkN 1 [115], linkN 2 [121]]), (1, shardMsg [linkN 3 [65, 66], linkN 2 [65, 67, 120]]), (2, ⟨[], { Ty := .Symlink, Data := some [46] }⟩),
   (3, shardMsg [linkN 2 [65, 68, 122]])]

theorem fineBlocks_plain : Plain fineBlocks := by decide +kernel

theorem plain_buckets {blocks : List (UInt8 × FlatUnixFs)} (hp : Plain blocks)
    (hb : ∀ e ∈ blocks, ∀ l ∈ e.2.links, l.Name.map (·.length) = some 2 → ∀ f ∈ blocks, Cid.tryFrom (l.Hash.getD []) = .ok (cidN f.1) → f.2.data.Ty = .HAMTShard) :
    BucketsAreShards (storeN blocks) := by
  intro c b m hg hm _ l hl x hx hlen c' b' m' hc' hg' hm'
  obtain ⟨e, he, _, _, _, hu⟩ := plain_get hp hg
  cases hu m hm
  obtain ⟨f, hf, hfc, _, _, hu'⟩ := plain_get hp hg'
  cases hu' m' hm'
  exact hb e he l hl (by rw [hx]; simp [hlen]) f hf (by rw [hc', hfc])

/-- It meets the hypotheses of the theorems, and is reported with the paths `r`, `r/s`, `r/s` (the bucket), `r/s/z`, `r/s/x`, `r/y`. -/
theorem C112_fine : BucketsAreShards (storeN fineBlocks) ∧ Pieces [114] [[114]] ∧ ∃ h w, WalkedIn (storeN fineBlocks) (cidN 0) [114] h w ∧
    WalkedRel (cidN 0) [114] h w ∧ (∀ b ∈ h.map (·.1), ¬ GivesNameRel b dotdot ∧ ¬ GivesNameRel b dot) ∧
    h.map (fun x => pathOf x.2) = [⟨false, [[114]]⟩, ⟨false, [[114], [115]]⟩, ⟨false, [[114], [115]]⟩, ⟨false, [[114], [115], [122]]⟩,
      ⟨false, [[114], [115], [120]]⟩, ⟨false, [[114], [121]]⟩] := by
  refine ⟨plain_buckets fineBlocks_plain (by decide +kernel), ⟨by simp, by simp [slash], rfl⟩, ?_⟩
  have hs : (walkSteps (storeN fineBlocks) 6 (Walker.new (cidN 0) [114])).map (fun x => x.1.map (fun y => pathOf y.2)) =
      some [⟨false, [[114]]⟩, ⟨false, [[114], [115]]⟩, ⟨false, [[114], [115]]⟩, ⟨false, [[114], [115], [122]]⟩,
        ⟨false, [[114], [115], [120]]⟩, ⟨false, [[114], [121]]⟩] := by decide +kernel
  obtain ⟨⟨h, w⟩, h1, h2⟩ := Option.map_eq_some_iff.1 hs
  have hw := walkSteps_walked fineBlocks_plain 6 _ w [] h .new h1
  rw [List.nil_append] at hw
  refine ⟨h, w, hw, walkedIn_rel hw, fun b hb => ?_, h2⟩
  obtain ⟨c, hc⟩ := walked_get hw b hb
  exact ⟨plain_names fineBlocks_plain (by decide +kernel) hc, plain_names fineBlocks_plain (by decide +kernel) hc⟩

end Verif.Props
