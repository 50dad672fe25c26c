import Verif.Spec.RootNames
import Verif.Props.WalkExact
import Verif.Props.Escaping
/-
C96: root names with slashes in them.
-/
namespace Verif.Props
open Verif Verif.Spec

/-! ### What path a root name is -/

theorem pathComps_fresh (ps : List Bytes) : pathComps true ps = (ps.take 1).filter (fun p => p ≠ []) ++ (ps.drop 1).filter (fun p => p ≠ [] ∧ p ≠ dot) := by
  cases ps with
  | nil => rfl
  | cons x xs =>
    by_cases hx : x = [] <;> simp [pathComps, hx]

theorem head_slash {ps : List Bytes} (hne : ps ≠ []) (h : ∀ p ∈ ps, slash ∉ p) :
    (joinSlash ps).head? = some slash ↔ 1 < ps.length ∧ ps.head? = some [] := by
  match ps with
  | [] => exact absurd rfl hne
  | [x] =>
    have hx := h x (by simp)
    cases x with
    | nil => simp [joinSlash]
    | cons b t =>
      have : b ≠ slash := fun e => hx (by simp [e])
      simp [joinSlash, this]
  | x :: y :: xs =>
    have hx := h x (by simp)
    cases x with
    | nil => simp [joinSlash]
    | cons b t =>
      have : b ≠ slash := fun e => hx (by simp [e])
      simp [joinSlash, this]

theorem push_root {name : Bytes} {ps : List Bytes} (h : Pieces name ps) : PathBuf.push {} name = namePath ps := by
  obtain ⟨h1, h2, rfl⟩ := h
  have hs := head_slash h1 h2
  unfold PathBuf.push namePath
  rw [split_joinSlash h1 h2]
  by_cases hh : 1 < ps.length ∧ ps.head? = some []
  · rw [if_pos (hs.2 hh)]
    obtain ⟨hl, hh⟩ := hh
    cases ps with
    | nil => cases hh
    | cons x xs =>
      simp only [List.head?_cons, Option.some.injEq] at hh
      subst hh
      simpa [pathComps] using hl
  · rw [if_neg (fun e => hh (hs.1 e))]
    simp only [decide_eq_false hh]
    simp only [List.nil_append]
    rw [← pathComps_fresh]
    simp

theorem pieces_exist (name : Bytes) : ∃ ps, Pieces name ps := ⟨_, splitSlash_ne_nil name, splitSlash_free name, (joinSlash_split name).symm⟩

/-! ### One component: the same walk -/

def absIE (a : Bool) (ie : InnerEntry) : InnerEntry := { ie with path := ⟨a, ie.path.comps⟩ }
def absW (a : Bool) (w : Walker) : Walker := { w with current := w.current.map (absIE a) }

theorem popGe_abs {ε : Type} (a : Bool) (depth : Nat) : ∀ (d : Nat) (p : PathBuf),
    (popWhileGe depth d ⟨a, p.comps⟩ : Res ε PathBuf) = (popWhileGe depth d p).map (fun q => ⟨a, q.comps⟩)
  | 0, p => rfl
  | d + 1, p => by
    rw [popWhileGe, popWhileGe]
    by_cases h : depth ≤ d + 1
    · rw [if_pos h, if_pos h]
      unfold PathBuf.pop
      by_cases hp : p.comps = []
      · simp [hp, Res.map]
      · simp only [hp, if_false]
        exact popGe_abs a depth d ⟨p.absolute, p.comps.dropLast⟩
    · rw [if_neg h, if_neg h]; rfl

theorem popGe_len {ε : Type} (depth : Nat) (hd : 3 ≤ depth) : ∀ (d : Nat) (p q : PathBuf), d = p.comps.length + 1 → p.comps ≠ [] →
    (popWhileGe depth d p : Res ε PathBuf) = .ok q → q.comps ≠ []
  | 0, p, q, h, _, _ => by omega
  | d + 1, p, q, h, hp, hq => by
    rw [popWhileGe] at hq
    split at hq
    next hle =>
      unfold PathBuf.pop at hq
      simp only [hp, if_false] at hq
      refine popGe_len depth hd d _ q ?_ ?_ hq
      · simp only [List.length_dropLast]; omega
      · intro h0
        have : p.comps.dropLast.length = 0 := by simp only [] at h0; rw [h0]; rfl
        rw [List.length_dropLast] at this
        omega
    · cases hq; exact hp

theorem popGt_abs {ε : Type} (a : Bool) (depth : Nat) : ∀ (d : Nat) (p : PathBuf),
    (popWhileGt depth d ⟨a, p.comps⟩ : Res ε (Nat × PathBuf)) = (popWhileGt depth d p).map (fun q => (q.1, ⟨a, q.2.comps⟩))
  | 0, p => rfl
  | d + 1, p => by
    rw [popWhileGt, popWhileGt]
    by_cases h : depth < d + 1
    · rw [if_pos h, if_pos h]
      unfold PathBuf.pop
      by_cases hp : p.comps = []
      · simp [hp, Res.map]
      · simp only [hp, if_false]
        exact popGt_abs a depth d ⟨p.absolute, p.comps.dropLast⟩
    · rw [if_neg h, if_neg h]; rfl

theorem popGt_len {ε : Type} (depth : Nat) (hd : 1 ≤ depth) : ∀ (d : Nat) (p : PathBuf) (q : Nat × PathBuf), d = p.comps.length + 1 →
    (popWhileGt depth d p : Res ε _) = .ok q → q.1 = q.2.comps.length + 1
  | 0, p, q, h, hq => by omega
  | d + 1, p, q, h, hq => by
    rw [popWhileGt] at hq
    split at hq
    next hle =>
      unfold PathBuf.pop at hq
      have hp : p.comps ≠ [] := by
        intro h0; rw [h0] at h; simp at h; omega
      simp only [hp, if_false] at hq
      refine popGt_len depth hd d _ q ?_ hq
      simp only [List.length_dropLast]
      have := List.length_pos_iff.mpr hp
      omega
    · cases hq; exact h

/-- A link to an entry of a directory, or to more of a sharded one, at a place below the root. -/
def LinkOk (l : WalkLink) : Prop := 2 ≤ l.depth ∧ l.name.head? ≠ some slash ∧ (l.name ≠ [] → 3 ≤ l.depth)

theorem push_abs (a : Bool) {p : PathBuf} {name : Bytes} (hn : name.head? ≠ some slash) (h : name = [] ∨ p.comps ≠ []) :
    (⟨a, p.comps⟩ : PathBuf).push name = ⟨a, (p.push name).comps⟩ := by
  unfold PathBuf.push
  rw [if_neg hn, if_neg hn]
  rcases h with rfl | h
  · simp [splitSlash, pathComps]
  · simp [h]

def Placed (ie : InnerEntry) : Prop := ie.depth = ie.path.comps.length + 1 ∧ ie.path.comps ≠ []

theorem setPath_abs {ε : Type} (a : Bool) {ie : InnerEntry} (hp : Placed ie) {n : WalkLink} (hn : LinkOk n) :
    ((absIE a ie).setPath n.name n.depth : Res ε _) = (ie.setPath n.name n.depth).map (absIE a) ∧
    ∀ ie', (ie.setPath n.name n.depth : Res ε _) = .ok ie' → Placed ie' := by
  have h1 : ie.depth = ie.path.ancestorsCount := hp.1
  have h1' : (absIE a ie).depth = (absIE a ie).path.ancestorsCount := hp.1
  unfold InnerEntry.setPath
  rw [if_neg (not_not_intro h1'), if_neg (not_not_intro h1)]
  have := popGe_abs (ε := ε) a n.depth ie.depth ie.path
  have e : (popWhileGe n.depth (absIE a ie).depth (absIE a ie).path : Res ε _) = popWhileGe n.depth ie.depth ⟨a, ie.path.comps⟩ := rfl
  rw [e, this]
  cases hq : (popWhileGe n.depth ie.depth ie.path : Res ε PathBuf) with
  | err e => exact ⟨rfl, nofun⟩
  | panic p => exact ⟨rfl, nofun⟩
  | ok q =>
    have hne : n.name = [] ∨ q.comps ≠ [] := by
      by_cases h0 : n.name = []
      · exact .inl h0
      · exact .inr (popGe_len n.depth (hn.2.2 h0) _ _ _ hp.1 hp.2 hq)
    have hpush := push_abs a hn.2.1 hne
    simp only [Res.map, Res.bind_ok]
    simp only [hpush]
    have hcnt : (⟨a, (q.push n.name).comps⟩ : PathBuf).ancestorsCount = (q.push n.name).ancestorsCount := rfl
    rw [hcnt]
    by_cases hd : n.depth ≠ (q.push n.name).ancestorsCount
    · rw [if_pos hd, if_pos hd]; exact ⟨rfl, nofun⟩
    · rw [if_neg hd, if_neg hd]
      refine ⟨rfl, ?_⟩
      intro ie' h
      cases h
      refine ⟨by simpa [PathBuf.ancestorsCount] using hd, ?_⟩
      intro h0
      have : n.depth = (q.push n.name).comps.length + 1 := by simpa [PathBuf.ancestorsCount] using hd
      simp only at h0
      rw [h0] at this
      simp at this
      have := hn.1
      omega

theorem asKind_abs {ε : Type} (a : Bool) {ie : InnerEntry} (hp : Placed ie) {n : WalkLink} (hn : LinkOk n) (k : InnerKind) (m : Metadata) :
    ((absIE a ie).asKind k n.cid n.name n.depth m : Res ε _) = (ie.asKind k n.cid n.name n.depth m).map (absIE a) ∧
    ∀ ie', (ie.asKind k n.cid n.name n.depth m : Res ε _) = .ok ie' → Placed ie' := by
  have hx : Placed { ie with cid := n.cid, kind := k } := hp
  obtain ⟨h1, h2⟩ := setPath_abs (ε := ε) a hx hn
  have key : ((({ absIE a ie with cid := n.cid, kind := k }.setPath n.name n.depth >>= fun ie => Res.ok { ie with metadata := m }) : Res ε InnerEntry) =
      ({ ie with cid := n.cid, kind := k }.setPath n.name n.depth >>= fun ie => Res.ok { ie with metadata := m }).map (absIE a)) ∧
      ∀ ie', (({ ie with cid := n.cid, kind := k }.setPath n.name n.depth >>= fun ie => Res.ok { ie with metadata := m }) : Res ε InnerEntry) = .ok ie' → Placed ie' := by
    have e : (({ absIE a ie with cid := n.cid, kind := k } : InnerEntry).setPath n.name n.depth : Res ε _) =
      (absIE a { ie with cid := n.cid, kind := k }).setPath n.name n.depth := rfl
    rw [e, h1]
    cases hq : (({ ie with cid := n.cid, kind := k } : InnerEntry).setPath n.name n.depth : Res ε InnerEntry) with
    | err e => exact ⟨rfl, nofun⟩
    | panic p => exact ⟨rfl, nofun⟩
    | ok q => exact ⟨rfl, by intro ie' h; cases h; exact h2 q hq⟩
  unfold InnerEntry.asKind
  have hk : (absIE a ie).kind = ie.kind := rfl
  rw [hk]
  cases ie.kind with
  | File v sz =>
    cases v with
    | some v => exact ⟨rfl, nofun⟩
    | none => exact key
  | _ => exact key

theorem asBucket_abs {ε : Type} (a : Bool) {ie : InnerEntry} (hp : Placed ie) {n : WalkLink} (hn : LinkOk n) :
    ((absIE a ie).asBucket n.cid n.depth : Res ε _) = (ie.asBucket n.cid n.depth).map (absIE a) ∧
    ∀ ie', (ie.asBucket n.cid n.depth : Res ε _) = .ok ie' → Placed ie' := by
  have key : ((popWhileGt n.depth (absIE a ie).depth (absIE a ie).path >>= fun x =>
        if x.1 ≠ n.depth then Res.panic .walkBucketDepth
        else .ok { absIE a ie with cid := n.cid, kind := .Bucket, path := x.2, depth := x.1 }) : Res ε InnerEntry) =
      (popWhileGt n.depth ie.depth ie.path >>= fun x =>
        if x.1 ≠ n.depth then Res.panic .walkBucketDepth
        else .ok { ie with cid := n.cid, kind := .Bucket, path := x.2, depth := x.1 }).map (absIE a) ∧
      ∀ ie', ((popWhileGt n.depth ie.depth ie.path >>= fun x =>
        if x.1 ≠ n.depth then Res.panic .walkBucketDepth
        else .ok { ie with cid := n.cid, kind := .Bucket, path := x.2, depth := x.1 }) : Res ε InnerEntry) = .ok ie' → Placed ie' := by
    have e : (popWhileGt n.depth (absIE a ie).depth (absIE a ie).path : Res ε _) = popWhileGt n.depth ie.depth ⟨a, ie.path.comps⟩ := rfl
    rw [e, popGt_abs]
    cases hq : (popWhileGt n.depth ie.depth ie.path : Res ε (Nat × PathBuf)) with
    | err e => exact ⟨rfl, nofun⟩
    | panic p => exact ⟨rfl, nofun⟩
    | ok q =>
      simp only [Res.map, Res.bind_ok]
      have hl := popGt_len n.depth (by have := hn.1; omega) _ _ _ hp.1 hq
      by_cases hd : q.1 ≠ n.depth
      · rw [if_pos hd, if_pos hd]; exact ⟨rfl, nofun⟩
      · rw [if_neg hd, if_neg hd]
        refine ⟨rfl, ?_⟩
        intro ie' h
        cases h
        refine ⟨hl, ?_⟩
        intro h0
        simp only at h0
        rw [h0] at hl
        simp at hl
        have : q.1 = n.depth := by simpa using hd
        have := hn.1
        omega
  unfold InnerEntry.asBucket
  have hk : (absIE a ie).kind = ie.kind := rfl
  rw [hk]
  cases hkk : ie.kind with
  | BucketAtRoot =>
    have hd : (absIE a ie).depth = ie.depth := rfl
    simp only [hd]
    by_cases h : ie.depth ≠ n.depth
    · rw [if_pos h, if_pos h]; exact ⟨rfl, nofun⟩
    · rw [if_neg h, if_neg h]; exact ⟨rfl, by intro ie' h; cases h; exact hp⟩
  | RootBucket => exact key
  | Bucket => exact key
  | Symlink => exact key
  | File v sz =>
    cases v with
    | some v => exact ⟨rfl, nofun⟩
    | none => exact key
  | _ => exact ⟨rfl, nofun⟩

/-- Two walkers which differ in whether the paths are absolute; and perhaps in the root name, before the first step. -/
structure Sim (a : Bool) (W w : Walker) : Prop where
  current : W.current = w.current.map (absIE a)
  pending : W.pending = w.pending
  cont : W.should_continue = w.should_continue
  next : W.next.map (fun n => (n.cid, n.depth)) = w.next.map (fun n => (n.cid, n.depth))

/-- The same answers except for this; and the same walkers if these are successes. -/
def Alike (a : Bool) (R r : WalkStep) : Prop := R.1 = r.1.map (rooted a) ∧ ((∃ item, r.1 = .ok item) → R.2.1 = absW a r.2.1)

theorem popNext_abs (a : Bool) (ie : InnerEntry) (p : List WalkLink) :
    Walker.popNext (some (absIE a ie)) p = absW a (Walker.popNext (some ie) p) := by
  unfold Walker.popNext
  split <;> rfl

theorem nextDir_abs {a : Bool} {W w : Walker} (hs : Sim a W w) (links : List PBLink) (conv : Nat → Nat → PBLink → Res InvalidCidInLink WalkLink)
    (E e : WalkLink → Res WalkError (InnerEntry × ContinuedWalk)) (cache : Option VisitCache)
    (he : ∀ N n, W.next = some N → w.next = some n → E N = (e n).map (fun x => (absIE a x.1, rooted a x.2))) :
    Alike a (W.nextDir links conv E cache) (w.nextDir links conv e cache) := by
  have hn := hs.next
  unfold Walker.nextDir
  cases hW : W.next with
  | none =>
    rw [hW] at hn
    cases hw : w.next with
    | none => exact ⟨rfl, by rintro ⟨_, h⟩; cases h⟩
    | some n => rw [hw] at hn; cases hn
  | some N =>
    rw [hW] at hn
    cases hw : w.next with
    | none => rw [hw] at hn; cases hn
    | some n =>
      rw [hw] at hn
      simp only [Option.map_some, Option.some.injEq, Prod.mk.injEq] at hn
      simp only [hn.2, hs.pending]
      rcases pushLinks (conv n.depth) links.zipIdx.reverse w.pending with ⟨x, p⟩
      cases x with
      | panic p => exact ⟨rfl, by rintro ⟨_, h⟩; cases h⟩
      | err e => exact ⟨rfl, by rintro ⟨_, h⟩; cases h⟩
      | ok u =>
        simp only [he N n hW hw]
        cases e n with
        | panic p => exact ⟨rfl, by rintro ⟨_, h⟩; cases h⟩
        | err e => exact ⟨rfl, by rintro ⟨_, h⟩; cases h⟩
        | ok x => exact ⟨rfl, fun _ => popNext_abs a x.1 p⟩

theorem nextFirst_abs {a : Bool} {W w : Walker} (hs : Sim a W w) (m : FlatUnixFs) (cache : Option VisitCache)
    (he : ∀ k md N n, W.next = some N → w.next = some n → W.enterLeaf k md N = (w.enterLeaf k md n).map (absIE a)) :
    Alike a (W.nextFirst m cache) (w.nextFirst m cache) := by
  have hn := hs.next
  unfold Walker.nextFirst
  rcases IdleFileVisit.startFromParsed {} m cache with ⟨x, c⟩
  cases x with
  | panic p => exact ⟨rfl, by rintro ⟨_, h⟩; cases h⟩
  | err e => exact ⟨by cases e <;> rfl, by rintro ⟨_, h⟩; exact absurd h (ofFileReadFailed_ne_ok e _)⟩
  | ok r =>
    simp only
    cases hW : W.next with
    | none =>
      rw [hW] at hn
      cases hw : w.next with
      | none => exact ⟨rfl, by rintro ⟨_, h⟩; cases h⟩
      | some n => rw [hw] at hn; cases hn
    | some N =>
      rw [hW] at hn
      cases hw : w.next with
      | none => rw [hw] at hn; cases hn
      | some n =>
        simp only [he _ _ N n hW hw, hs.pending]
        cases w.enterLeaf (.File r.next r.total_size) r.metadata n with
        | panic p => exact ⟨rfl, by rintro ⟨_, h⟩; cases h⟩
        | err e => exact ⟨rfl, by rintro ⟨_, h⟩; cases h⟩
        | ok ie =>
          refine ⟨rfl, fun _ => ?_⟩
          simp only [Res.map, popNext_abs]
          rfl

theorem nextSymlink_abs {a : Bool} {W w : Walker} (hs : Sim a W w) (m : FlatUnixFs) (md : Metadata) (cache : Option VisitCache)
    (he : ∀ k md N n, W.next = some N → w.next = some n → W.enterLeaf k md N = (w.enterLeaf k md n).map (absIE a)) :
    Alike a (W.nextSymlink m md cache) (w.nextSymlink m md cache) := by
  have hn := hs.next
  unfold Walker.nextSymlink
  cases hW : W.next with
  | none =>
    rw [hW] at hn
    cases hw : w.next with
    | none => exact ⟨rfl, by rintro ⟨_, h⟩; cases h⟩
    | some n => rw [hw] at hn; cases hn
  | some N =>
    rw [hW] at hn
    cases hw : w.next with
    | none => rw [hw] at hn; cases hn
    | some n =>
      simp only [he _ _ N n hW hw, hs.pending]
      cases w.enterLeaf .Symlink md n with
      | panic p => exact ⟨rfl, by rintro ⟨_, h⟩; cases h⟩
      | err e => exact ⟨rfl, by rintro ⟨_, h⟩; cases h⟩
      | ok ie => exact ⟨rfl, fun _ => popNext_abs a ie _⟩

theorem nextBlock_abs {a : Bool} {W w : Walker} (hs : Sim a W w) (b : Bytes) (cache : Option VisitCache)
    (hd : ∀ md N n, W.next = some N → w.next = some n → W.enterDirectory md N = (w.enterDirectory md n).map (fun x => (absIE a x.1, rooted a x.2)))
    (hb : ∀ md N n, W.next = some N → w.next = some n → W.enterShard md N = (w.enterShard md n).map (fun x => (absIE a x.1, rooted a x.2)))
    (he : ∀ k md N n, W.next = some N → w.next = some n → W.enterLeaf k md N = (w.enterLeaf k md n).map (absIE a)) :
    Alike a (W.nextBlock b cache) (w.nextBlock b cache) := by
  unfold Walker.nextBlock
  cases FlatUnixFs.tryParse b with
  | error e => exact ⟨rfl, by rintro ⟨_, h⟩; cases h⟩
  | ok m =>
    simp only
    cases m.data.Ty with
    | Directory =>
      simp only
      cases checkDirectorySupported m with
      | error e => exact ⟨rfl, by rintro ⟨_, h⟩; cases h⟩
      | ok m => exact nextDir_abs hs _ _ _ _ _ (hd _)
    | HAMTShard =>
      simp only
      cases checkHamtshardSupported m with
      | panic p => exact ⟨rfl, by rintro ⟨_, h⟩; cases h⟩
      | err e => exact ⟨rfl, by rintro ⟨_, h⟩; cases h⟩
      | ok m => exact nextDir_abs hs _ _ _ _ _ (hb _)
    | Raw => exact nextFirst_abs hs _ _ he
    | File => exact nextFirst_abs hs _ _ he
    | Metadata => exact ⟨rfl, by rintro ⟨_, h⟩; cases h⟩
    | Symlink => exact nextSymlink_abs hs _ _ _ he

/-- The walker after the first step. -/
structure Underway (w : Walker) : Prop where
  current : ∃ ie, w.current = some ie ∧ Placed ie
  links : ∀ l ∈ w.links, LinkOk l

theorem absW_sim (a : Bool) (w : Walker) : Sim a (absW a w) w := ⟨rfl, rfl, rfl, rfl⟩

theorem next_linkOk {w : Walker} (hu : Underway w) {n : WalkLink} (h : w.next = some n) : LinkOk n :=
  hu.links n (by simp [Walker.links, h])

theorem step_abs (a : Bool) {w : Walker} (hu : Underway w) (b : Bytes) (cache : Option VisitCache) :
    Alike a ((absW a w).step b cache) (w.step b cache) := by
  obtain ⟨ie, hc, hp⟩ := hu.current
  have hC : (absW a w).current = some (absIE a ie) := by simp [absW, hc]
  by_cases hf : ∃ v sz, ie.kind = .File (some v) sz
  · obtain ⟨v, sz, hk⟩ := hf
    rw [step_inFile hc hk, step_inFile hC hk]
    unfold Walker.nextFile
    rcases v.continueWalk b cache with ⟨x, c⟩
    cases x with
    | panic p => exact ⟨rfl, by rintro ⟨_, h⟩; cases h⟩
    | err e => exact ⟨by cases e <;> rfl, by rintro ⟨_, h⟩; exact absurd h (ofFileReadFailed_ne_ok e _)⟩
    | ok x => exact ⟨rfl, fun _ => rfl⟩
  · have hr : w.atRest := by
      intro ie' v sz h1 h2
      rw [hc] at h1
      cases h1
      exact hf ⟨v, sz, h2⟩
    have hR : (absW a w).atRest := by
      intro ie' v sz h1 h2
      rw [hC] at h1
      cases h1
      exact hf ⟨v, sz, h2⟩
    rw [step_atRest hr, step_atRest hR]
    refine nextBlock_abs (absW_sim a w) b cache ?_ ?_ ?_
    · intro md N n hN hn
      have : N = n := Option.some.inj (hN.symm.trans hn)
      subst this
      unfold Walker.enterDirectory
      simp only [hC, hc, (asKind_abs a hp (next_linkOk hu hn) _ _).1]
      cases (ie.asKind .Directory N.cid N.name N.depth md : Res WalkError InnerEntry) <;> rfl
    · intro md N n hN hn
      have : N = n := Option.some.inj (hN.symm.trans hn)
      subst this
      unfold Walker.enterShard
      simp only [hC, hc, (asKind_abs a hp (next_linkOk hu hn) _ _).1, (asBucket_abs a hp (next_linkOk hu hn)).1]
      split
      · cases (ie.asBucket N.cid N.depth : Res WalkError InnerEntry) <;> rfl
      · cases (ie.asKind .RootBucket N.cid N.name N.depth md : Res WalkError InnerEntry) <;> rfl
    · intro k md N n hN hn
      have : N = n := Option.some.inj (hN.symm.trans hn)
      subst this
      unfold Walker.enterLeaf
      simp only [hC, hc, (asKind_abs a hp (next_linkOk hu hn) _ _).1]

theorem links_popNext (c : Option InnerEntry) (p : List WalkLink) : (Walker.popNext c p).links = p.reverse := popNext_links c p

theorem mem_converted {conv : Nat → PBLink → Res InvalidCidInLink WalkLink} {links : List PBLink} {ls : List WalkLink}
    (h : links.zipIdx.map (fun x => conv x.2 x.1) = ls.map .ok) {l : WalkLink} (hl : l ∈ ls) : ∃ i x, conv i x = .ok l := by
  have : Res.ok l ∈ links.zipIdx.map (fun x => conv x.2 x.1) := by rw [h]; exact List.mem_map_of_mem hl
  obtain ⟨x, -, hx⟩ := List.mem_map.1 this
  exact ⟨_, _, hx⟩

theorem noHead {x : Bytes} (h : slash ∉ x) : x.head? ≠ some slash := by
  intro e
  cases x with
  | nil => cases e
  | cons b t => simp at e; exact h (by simp [e])

theorem underway_step {w w' : Walker} {b : Bytes} {cache : Option VisitCache} {item : ContinuedWalk} (hs : WStep w b cache item w')
    (hlinks : ∀ l ∈ w.links, 2 ≤ l.depth ∧ (w.current ≠ none → LinkOk l)) (hpend : ∀ l ∈ w.pending, LinkOk l)
    (hcur : ∀ ie, w.current = some ie → Placed ie)
    (hroot : w.current = none → ∀ n, w.next = some n → ∀ k md, Placed (InnerEntry.newRoot k n.cid md n.name n.depth)) : Underway w' := by
  have hnext : ∀ n, w.next = some n → 2 ≤ n.depth ∧ (w.current ≠ none → LinkOk n) := fun n h => hlinks n (by simp [Walker.links, h])
  have hkind : ∀ n, w.next = some n → ∀ ie, w.current = some ie → ∀ k md ie', (ie.asKind k n.cid n.name n.depth md : Res WalkError _) = .ok ie' → Placed ie' := by
    intro n hn ie hc k md ie' h
    exact (asKind_abs true (hcur ie hc) ((hnext n hn).2 (by simp [hc])) k md).2 ie' h
  have hleaf : ∀ n, w.next = some n → ∀ k md ie', w.enterLeaf k md n = .ok ie' → Placed ie' := by
    intro n hn k md ie' h
    unfold Walker.enterLeaf at h
    cases hc : w.current with
    | none => rw [hc] at h; cases h; exact hroot hc n hn k md
    | some ie => rw [hc] at h; exact hkind n hn ie hc k md ie' h
  cases hs with
  | later ie v sz c next h1 h2 h3 h4 h5 =>
    subst h5
    refine ⟨⟨_, rfl, hcur ie h1⟩, ?_⟩
    intro l hl
    exact (hlinks l hl).2 (by simp [h1])
  | directory m n ls ie hr hm hty hsup hn hconv he hw' =>
    subst hw'
    refine ⟨⟨ie, popNext_current _ _, ?_⟩, ?_⟩
    · unfold Walker.enterDirectory at he
      cases hc : w.current with
      | none => rw [hc] at he; cases he; exact hroot hc n hn _ _
      | some i =>
        rw [hc] at he
        simp only at he
        rw [Res.bind_ok_iff] at he
        obtain ⟨i', h1, h2⟩ := he
        cases h2
        exact hkind n hn i hc _ _ _ h1
    · intro l hl
      rw [links_popNext, List.mem_reverse, List.mem_append, List.mem_reverse] at hl
      rcases hl with hl | hl
      · exact hpend l hl
      · obtain ⟨i, x, hx⟩ := mem_converted (conv := fun i x => convertLink (n.depth + 1) i x) hconv hl
        obtain ⟨nm, -, -, -, h4, h5⟩ := convertLink_cid hx
        rw [h5]
        have := (hnext n hn).1
        exact ⟨by simp only; omega, noHead h4, fun _ => by simp only; omega⟩
  | shard m n ls ie hr hm hty hsup hn hconv he hw' =>
    subst hw'
    refine ⟨⟨ie, popNext_current _ _, ?_⟩, ?_⟩
    · unfold Walker.enterShard at he
      cases hc : w.current with
      | none => rw [hc] at he; cases he; exact hroot hc n hn _ _
      | some i =>
        rw [hc] at he
        simp only at he
        split at he
        · rw [Res.bind_ok_iff] at he
          obtain ⟨i', h1, h2⟩ := he
          cases h2
          exact (asBucket_abs true (hcur i hc) ((hnext n hn).2 (by simp [hc]))).2 _ h1
        · rw [Res.bind_ok_iff] at he
          obtain ⟨i', h1, h2⟩ := he
          cases h2
          exact hkind n hn i hc _ _ _ h1
    · intro l hl
      rw [links_popNext, List.mem_reverse, List.mem_append, List.mem_reverse] at hl
      rcases hl with hl | hl
      · exact hpend l hl
      · obtain ⟨i, x, hx⟩ := mem_converted (conv := fun i x => convertShardedLink (n.depth + 1) n.depth i x) hconv hl
        obtain ⟨nm, -, -, h⟩ := convertShardedLink_cid hx
        have := (hnext n hn).1
        rcases h with ⟨-, h4, h5⟩ | ⟨-, h5⟩
        · rw [h5]; exact ⟨by simp only; omega, noHead h4, fun _ => by simp only; omega⟩
        · rw [h5]; exact ⟨this, by simp, fun h => absurd rfl h⟩
  | first m n r ie hr hm hty hst hn he hitem hw' =>
    subst hw'
    refine ⟨⟨ie, popNext_current _ _, hleaf n hn _ _ _ he⟩, ?_⟩
    intro l hl
    have : l ∈ (Walker.popNext (some ie) w.pending).links := hl
    rw [links_popNext, List.mem_reverse] at this
    exact hpend l this
  | symlink m n ie hr hm hty hn he hitem hw' =>
    subst hw'
    refine ⟨⟨ie, popNext_current _ _, hleaf n hn _ _ _ he⟩, ?_⟩
    intro l hl
    rw [links_popNext, List.mem_reverse] at hl
    exact hpend l hl

/-- The walkers of two walks with the same blocks, after them. -/
structure Same (cid : Cid) (name x : Bytes) (a : Bool) (h : List (Bytes × ContinuedWalk)) (W w : Walker) : Prop where
  sim : Sim a W w
  start : h = [] → W = Walker.new cid name ∧ w = Walker.new cid x
  later : h ≠ [] → W = absW a w ∧ Underway w

theorem sim_pending {a : Bool} {W w : Walker} (h : Sim a W w) : W.pendingLinks = w.pendingLinks := by
  unfold Walker.pendingLinks
  have hn : W.next.map (·.cid) = w.next.map (·.cid) := by
    have := congrArg (Option.map Prod.fst) h.next
    simpa [Option.map_map, Function.comp_def] using this
  have hk : W.current.map InnerEntry.kind = w.current.map InnerEntry.kind := by
    rw [h.current]
    cases w.current <;> rfl
  simp only [hk, hn, h.pending]
  have hnone : (match W.next with | none => (Res.panic .walkNoNext : Res Unit (Cid × List Cid)) | some n => .ok (n.cid, (w.pending.map WalkLink.cid).reverse)) =
      (match w.next with | none => (Res.panic .walkNoNext : Res Unit (Cid × List Cid)) | some n => .ok (n.cid, (w.pending.map WalkLink.cid).reverse)) := by
    cases hW : W.next <;> cases hw : w.next <;> rw [hW, hw] at hn <;> simp_all
  cases w.current.map InnerEntry.kind with
  | none => exact hnone
  | some k =>
    cases k with
    | File v sz =>
      cases v with
      | some v => rfl
      | none => exact hnone
    | _ => exact hnone

theorem one_component {name x : Bytes} {ps : List Bytes} (hp : Pieces name ps) (hx : (namePath ps).comps = [x]) :
    name ≠ [] ∧ x ≠ [] ∧ slash ∉ x ∧ PathBuf.push {} name = ⟨(namePath ps).absolute, [x]⟩ ∧ PathBuf.push {} x = ⟨false, [x]⟩ := by
  have hmem : x ∈ (namePath ps).comps := by rw [hx]; simp
  have hx' : x ≠ [] ∧ x ∈ ps := by
    simp only [namePath, List.mem_append, List.mem_filter, decide_eq_true_eq] at hmem
    rcases hmem with ⟨h1, h2⟩ | ⟨h1, h2⟩
    · exact ⟨h2, List.mem_of_mem_take h1⟩
    · exact ⟨h2.1, List.mem_of_mem_drop h1⟩
  have hs := hp.2.1 x hx'.2
  have hpush := push_root hp
  refine ⟨?_, hx'.1, hs, ?_, ?_⟩
  · rintro rfl
    have : (namePath ps).comps = [] := by rw [← hpush]; rfl
    rw [hx] at this
    cases this
  · rw [hpush, ← hx]
  · rw [push_root (name := x) (ps := [x]) ⟨by simp, by simpa using hs, rfl⟩]
    simp [namePath, hx'.1]

theorem same_step {cid : Cid} {name x : Bytes} {ps : List Bytes} (hp : Pieces name ps) (hx : (namePath ps).comps = [x])
    {h : List (Bytes × ContinuedWalk)} {W w : Walker} (hs : Same cid name x (namePath ps).absolute h W w) (b : Bytes) (cache : Option VisitCache) :
    Alike (namePath ps).absolute (W.step b cache) (w.step b cache) := by
  obtain ⟨h1, h2, h3, h4, h5⟩ := one_component hp hx
  by_cases hh : h = []
  · obtain ⟨rfl, rfl⟩ := hs.start hh
    rw [step_atRest (by intro ie v sz h; cases h), step_atRest (by intro ie v sz h; cases h)]
    have hroot : ∀ (k : InnerKind) (c : Cid) (md : Metadata) (d : Nat), InnerEntry.newRoot k c md name d = absIE (namePath ps).absolute (InnerEntry.newRoot k c md x d) := by
      intro k c md d
      unfold InnerEntry.newRoot
      rw [h4, h5]
      rfl
    have hn : ∀ N n, (Walker.new cid name).next = some N → (Walker.new cid x).next = some n → N = ⟨cid, name, 2⟩ ∧ n = ⟨cid, x, 2⟩ := by
      intro N n hN hn
      simp only [Walker.new, h1, h2, if_false, Option.some.injEq] at hN hn
      exact ⟨hN.symm, hn.symm⟩
    refine nextBlock_abs hs.sim b cache ?_ ?_ ?_
    · intro md N n hN hn'
      obtain ⟨rfl, rfl⟩ := hn N n hN hn'
      show Res.ok _ = Res.ok _
      rw [hroot]; rfl
    · intro md N n hN hn'
      obtain ⟨rfl, rfl⟩ := hn N n hN hn'
      show Res.ok _ = Res.ok _
      rw [hroot]; rfl
    · intro k md N n hN hn'
      obtain ⟨rfl, rfl⟩ := hn N n hN hn'
      show Res.ok _ = Res.ok _
      rw [hroot]
  · obtain ⟨rfl, hu⟩ := hs.later hh
    exact step_abs _ hu b cache

theorem same_next {cid : Cid} {name x : Bytes} {ps : List Bytes} (hp : Pieces name ps) (hx : (namePath ps).comps = [x])
    {h : List (Bytes × ContinuedWalk)} {W w : Walker} (hs : Same cid name x (namePath ps).absolute h W w) {b : Bytes} {cache cache' : Option VisitCache}
    {item : ContinuedWalk} {w' : Walker} (hw : w.step b cache = (.ok item, w', cache')) :
    (W.step b cache).1 = .ok (rooted (namePath ps).absolute item) ∧
      Same cid name x (namePath ps).absolute (h ++ [(b, item)]) (W.step b cache).2.1 w' := by
  obtain ⟨h1, h2, h3, h4, h5⟩ := one_component hp hx
  obtain ⟨e1, e2⟩ := same_step hp hx hs b cache
  rw [hw] at e1 e2
  have e3 := e2 ⟨item, rfl⟩
  refine ⟨e1, ?_, by simp, fun _ => ⟨e3, ?_⟩⟩
  · rw [e3]; exact absW_sim _ _
  · by_cases hh : h = []
    · obtain ⟨-, rfl⟩ := hs.start hh
      refine underway_step (step_ok hw) ?_ (by simp [Walker.new]) (by intro ie h; cases h) ?_
      · intro l hl
        have : l = ⟨cid, x, 2⟩ := by simpa [Walker.links, Walker.new, h2] using hl
        subst this
        exact ⟨Nat.le_refl _, fun h => absurd rfl h⟩
      · intro _ n hn k md
        simp only [Walker.new, h2, if_false, Option.some.injEq] at hn
        subst hn
        unfold InnerEntry.newRoot
        rw [h5]
        exact ⟨rfl, by simp⟩
    · obtain ⟨-, hu⟩ := hs.later hh
      obtain ⟨ie, hc, hpl⟩ := hu.current
      refine underway_step (step_ok hw) (fun l hl => ⟨(hu.links l hl).1, fun _ => hu.links l hl⟩)
        (fun l hl => hu.links l (by simp [Walker.links, hl])) (fun i hi => by rw [hc] at hi; cases hi; exact hpl) (fun h => by rw [hc] at h; cases h)

theorem same_start {cid : Cid} {name x : Bytes} {ps : List Bytes} (hp : Pieces name ps) (hx : (namePath ps).comps = [x]) :
    Same cid name x (namePath ps).absolute [] (Walker.new cid name) (Walker.new cid x) := by
  obtain ⟨h1, h2, -⟩ := one_component hp hx
  refine ⟨⟨rfl, rfl, rfl, ?_⟩, fun _ => ⟨rfl, rfl⟩, fun h => absurd rfl h⟩
  simp [Walker.new, h1, h2]

theorem one_there {cid : Cid} {name x : Bytes} {ps : List Bytes} (hp : Pieces name ps) (hx : (namePath ps).comps = [x]) : ∀ h w, Walked cid x h w → ∃ w', Walked cid name (h.map (fun y => (y.1, rooted (namePath ps).absolute y.2))) w' ∧
    Same cid name x (namePath ps).absolute h w' w := by
  intro h w hw
  induction hw with
  | new => exact ⟨_, .new, same_start hp hx⟩
  | @next h w w1 block cache cache' item hw hcont hc hstep ih =>
    obtain ⟨W, hW, hs⟩ := ih
    obtain ⟨e1, e2⟩ := same_next hp hx hs hstep
    refine ⟨_, ?_, e2⟩
    rw [List.map_append]
    refine .next hW (hs.sim.cont.trans hcont) hc (cache' := (W.step block cache).2.2) ?_
    rw [← e1]

theorem one_back {cid : Cid} {name x : Bytes} {ps : List Bytes} (hp : Pieces name ps) (hx : (namePath ps).comps = [x]) : ∀ h' w', Walked cid name h' w' → ∃ h w, Walked cid x h w ∧ h' = h.map (fun y => (y.1, rooted (namePath ps).absolute y.2)) ∧
    Same cid name x (namePath ps).absolute h w' w := by
  intro h w hw
  induction hw with
  | new => exact ⟨[], _, .new, rfl, same_start hp hx⟩
  | @next h' W W' block cache cache' item hw hcont hc hstep ih =>
    obtain ⟨h, w, hw1, rfl, hs⟩ := ih
    have ha := (same_step hp hx hs block cache).1
    rw [hstep] at ha
    rcases hst : w.step block cache with ⟨r, w1, c1⟩
    rw [hst] at ha
    cases r with
    | err e => cases ha
    | panic p => cases ha
    | ok i =>
      have hi : item = rooted (namePath ps).absolute i := by simpa [Res.map] using ha
      obtain ⟨e1, e2⟩ := same_next hp hx hs hst
      rw [hstep] at e2
      refine ⟨_, w1, .next hw1 (hs.sim.cont.symm.trans hcont) hc hst, by simp [hi], e2⟩

/-- C96. A root name which is a path of one component (`/a`, `a/`, `.//`): the walk is the walk of the component, with the same
answers to the same blocks, the same links pending and the same end; only its paths are absolute if the name is. -/
theorem C96_one_component (cid : Cid) (name x : Bytes) (ps : List Bytes) (hp : Pieces name ps) (hx : (namePath ps).comps = [x]) :
    (∀ h w, Walked cid x h w → ∃ w', Walked cid name (h.map (fun y => (y.1, rooted (namePath ps).absolute y.2))) w' ∧
      w'.shouldContinue = w.shouldContinue ∧ w'.pendingLinks = w.pendingLinks ∧
      ∀ block cache, (w'.step block cache).1 = (w.step block cache).1.map (rooted (namePath ps).absolute)) ∧
    (∀ h' w', Walked cid name h' w' → ∃ h w, Walked cid x h w ∧ h' = h.map (fun y => (y.1, rooted (namePath ps).absolute y.2)) ∧
      w'.shouldContinue = w.shouldContinue ∧ w'.pendingLinks = w.pendingLinks ∧
      ∀ block cache, (w'.step block cache).1 = (w.step block cache).1.map (rooted (namePath ps).absolute)) := by
  constructor
  · intro h w hw
    obtain ⟨W, h1, h2⟩ := one_there hp hx h w hw
    exact ⟨W, h1, h2.sim.cont, sim_pending h2.sim, fun b c => (same_step hp hx h2 b c).1⟩
  · intro h' w' hw
    obtain ⟨h, w, h1, h2, h3⟩ := one_back hp hx h' w' hw
    exact ⟨h, w, h1, h2, h3.sim.cont, sim_pending h3.sim, fun b c => (same_step hp hx h3 b c).1⟩

/-! ### Other root names: nothing but the root is reported -/

/-- The root with a name which is not one component, and nothing else so far. -/
structure Stuck (cid : Cid) (path : PathBuf) (w : Walker) (ie : InnerEntry) : Prop where
  current : w.current = some ie
  path : ie.path = path
  depth : ie.depth ≠ ie.path.ancestorsCount
  two : ie.depth = 2
  kind : ie.kind = .RootDirectory ∨ ie.kind = .BucketAtRoot ∨ (∃ v sz, ie.kind = .File v sz) ∨ ie.kind = .Symlink
  leaf : (∃ v sz, ie.kind = .File v sz) ∨ ie.kind = .Symlink → w.links = []

theorem stuck_kind {ε : Type} {cid : Cid} {path : PathBuf} {w : Walker} {ie : InnerEntry} (hs : Stuck cid path w ie) (k : InnerKind) (c : Cid) (name : Bytes)
    (d : Nat) (md : Metadata) : ∀ ie', (ie.asKind k c name d md : Res ε _) ≠ .ok ie' := by
  intro ie' h
  have hset : (({ ie with cid := c, kind := k } : InnerEntry).setPath name d : Res ε InnerEntry) = .panic .walkPathDepth := by
    unfold InnerEntry.setPath
    rw [if_pos hs.depth]
  unfold InnerEntry.asKind at h
  rw [hset] at h
  split at h <;> cases h

theorem stuck_step {cid : Cid} {path : PathBuf} {w w' : Walker} {ie : InnerEntry} (hs : Stuck cid path w ie) {b : Bytes} {cache : Option VisitCache}
    {item : ContinuedWalk} (h : WStep w b cache item w') : itemPath item = path ∧ MoreOfTheSame item ∧ ∃ ie', Stuck cid path w' ie' := by
  have hleaf : ∀ k md n ie', w.enterLeaf k md n ≠ .ok ie' := by
    intro k md n ie' he
    unfold Walker.enterLeaf at he
    rw [hs.current] at he
    exact stuck_kind hs _ _ _ _ _ _ he
  cases h with
  | later ie' v sz c next h1 h2 h3 h4 h5 =>
    rw [hs.current] at h1
    cases h1
    subst h4 h5
    have hl := hs.leaf (.inl ⟨_, _, h2⟩)
    refine ⟨hs.path, rfl, _, rfl, hs.path, hs.depth, hs.two, .inr (.inr (.inl ⟨_, _, rfl⟩)), fun _ => hl⟩
  | directory m n ls ie' hr hm hty hsup hn hconv he hw' =>
    exfalso
    unfold Walker.enterDirectory at he
    rw [hs.current] at he
    simp only at he
    rw [Res.bind_ok_iff] at he
    obtain ⟨i, h1, -⟩ := he
    exact stuck_kind hs _ _ _ _ _ _ h1
  | shard m n ls ie' hr hm hty hsup hn hconv he hw' =>
    subst hw'
    unfold Walker.enterShard at he
    rw [hs.current] at he
    simp only at he
    split at he
    · rw [Res.bind_ok_iff] at he
      obtain ⟨i, h1, h2⟩ := he
      cases h2
      unfold InnerEntry.asBucket at h1
      rcases hs.kind with hk | hk | hk | hk
      · rw [hk] at h1; cases h1
      · rw [hk] at h1
        simp only at h1
        split at h1
        · cases h1
        · cases h1
          exact ⟨hs.path, trivial, ie, popNext_current _ _, hs.path, hs.depth, hs.two, hs.kind,
            by rintro (⟨v, sz, h⟩ | h) <;> rw [hk] at h <;> cases h⟩
      · have := hs.leaf (.inl hk)
        rw [Walker.links, hn] at this
        cases this
      · have := hs.leaf (.inr hk)
        rw [Walker.links, hn] at this
        cases this
    · rw [Res.bind_ok_iff] at he
      obtain ⟨i, h1, -⟩ := he
      exact absurd h1 (stuck_kind hs _ _ _ _ _ _)
  | first m n r ie' hr hm hty hst hn he hitem hw' => exact absurd he (hleaf _ _ _ _)
  | symlink m n ie' hr hm hty hn he hitem hw' => exact absurd he (hleaf _ _ _ _)

theorem stuck_first {cid : Cid} {name : Bytes} {ps : List Bytes} (hp : Pieces name ps) (hname : name ≠ []) (hne : (namePath ps).comps.length ≠ 1)
    {w' : Walker} {b : Bytes} {cache : Option VisitCache} {item : ContinuedWalk} (h : WStep (Walker.new cid name) b cache item w') :
    ∃ ie', Stuck cid (namePath ps) w' ie' := by
  have hpush := push_root hp
  have hroot : ∀ k md, (InnerEntry.newRoot k cid md name 2).path = namePath ps ∧
      (InnerEntry.newRoot k cid md name 2).depth ≠ (InnerEntry.newRoot k cid md name 2).path.ancestorsCount ∧ (InnerEntry.newRoot k cid md name 2).depth = 2 := by
    intro k md
    refine ⟨hpush, ?_, rfl⟩
    show 2 ≠ PathBuf.ancestorsCount (PathBuf.push {} name)
    rw [hpush, PathBuf.ancestorsCount]
    omega
  have hn' : ∀ n, (Walker.new cid name).next = some n → n = ⟨cid, name, 2⟩ := by
    intro n hn
    simp only [Walker.new, hname, if_false, Option.some.injEq] at hn
    exact hn.symm
  cases h with
  | later ie v sz c next h1 => cases h1
  | directory m n ls ie hr hm hty hsup hn hconv he hw' =>
    cases hn' n hn
    cases he
    subst hw'
    obtain ⟨h1, h2, h3⟩ := hroot .RootDirectory (Metadata.ofUnixFs m.data)
    exact ⟨_, popNext_current _ _, h1, h2, h3, .inl rfl, by rintro (⟨v, sz, h⟩ | h) <;> cases h⟩
  | shard m n ls ie hr hm hty hsup hn hconv he hw' =>
    cases hn' n hn
    cases he
    subst hw'
    obtain ⟨h1, h2, h3⟩ := hroot .BucketAtRoot (Metadata.ofUnixFs m.data)
    exact ⟨_, popNext_current _ _, h1, h2, h3, .inr (.inl rfl), by rintro (⟨v, sz, h⟩ | h) <;> cases h⟩
  | first m n r ie hr hm hty hst hn he hitem hw' =>
    cases hn' n hn
    cases he
    subst hw'
    obtain ⟨h1, h2, h3⟩ := hroot (.File r.next r.total_size) r.metadata
    exact ⟨_, popNext_current _ _, h1, h2, h3, .inr (.inr (.inl ⟨_, _, rfl⟩)), fun _ => rfl⟩
  | symlink m n ie hr hm hty hn he hitem hw' =>
    cases hn' n hn
    cases he
    subst hw'
    obtain ⟨h1, h2, h3⟩ := hroot .Symlink (Metadata.ofUnixFs m.data)
    exact ⟨_, popNext_current _ _, h1, h2, h3, .inr (.inr (.inr rfl)), fun _ => rfl⟩

theorem first_path {cid : Cid} {name : Bytes} {ps : List Bytes} (hp : Pieces name ps)
    {w' : Walker} {b : Bytes} {cache : Option VisitCache} {item : ContinuedWalk} (h : WStep (Walker.new cid name) b cache item w') :
    itemPath item = namePath ps := by
  have hpush := push_root hp
  cases h with
  | later ie v sz c next h1 => cases h1
  | directory m n ls ie hr hm hty hsup hn hconv he hw' => cases hn; cases he; exact hpush
  | shard m n ls ie hr hm hty hsup hn hconv he hw' => cases hn; cases he; exact hpush
  | first m n r ie hr hm hty hst hn he hitem hw' => cases hn; cases he; subst hitem; exact hpush
  | symlink m n ie hr hm hty hn he hitem hw' => cases hn; cases he; subst hitem; exact hpush

/-- C96. Whatever the root name: the first item of a walk is at the path which the name is. -/
theorem C96_root_path (cid : Cid) (name : Bytes) (ps : List Bytes) (hp : Pieces name ps) (h : List (Bytes × ContinuedWalk)) (w : Walker)
    (hw : Walked cid name h w) (x : Bytes × ContinuedWalk) (hx : h.head? = some x) : itemPath x.2 = namePath ps := by
  induction hw with
  | new => cases hx
  | @next h w w1 block cache cache' item hw hcont hc hstep ih =>
    cases h with
    | cons y ys => exact ih hx
    | nil =>
      cases hx
      generalize hh : ([] : List (Bytes × ContinuedWalk)) = h0 at hw
      cases hw with
      | new => exact first_path hp (step_ok hstep)
      | next _ _ _ _ => simp at hh

/-- C96. A root name which is a path of no component (`/`, `//.`) or of several (`a/b`, `./a`): a walk reports the root only, namely its
first block and what belongs to it (more of the file, more of the sharded directory). It never gets to an entry of the root: it
fails or panics there. -/
theorem C96_other_names (cid : Cid) (name : Bytes) (hname : name ≠ []) (ps : List Bytes) (hp : Pieces name ps)
    (hne : (namePath ps).comps.length ≠ 1) (h : List (Bytes × ContinuedWalk)) (w : Walker) (hw : Walked cid name h w) :
    (∀ x ∈ h, itemPath x.2 = namePath ps) ∧ ∀ x ∈ h.tail, MoreOfTheSame x.2 := by
  suffices ((∀ x ∈ h, itemPath x.2 = namePath ps) ∧ ∀ x ∈ h.tail, MoreOfTheSame x.2) ∧ (h = [] ∧ w = Walker.new cid name ∨ h ≠ [] ∧ ∃ ie, Stuck cid (namePath ps) w ie) from this.1
  induction hw with
  | new => exact ⟨⟨nofun, nofun⟩, .inl ⟨rfl, rfl⟩⟩
  | @next h w w1 block cache cache' item hw hcont hc hstep ih =>
    obtain ⟨⟨i1, i2⟩, i3⟩ := ih
    rcases i3 with ⟨rfl, rfl⟩ | ⟨hn, ie, hs⟩
    · refine ⟨⟨?_, by simp⟩, .inr ⟨by simp, stuck_first hp hname hne (step_ok hstep)⟩⟩
      intro x hx
      simp only [List.nil_append, List.mem_singleton] at hx
      subst hx
      exact first_path hp (step_ok hstep)
    · obtain ⟨h1, h2, h3⟩ := stuck_step hs (step_ok hstep)
      refine ⟨⟨?_, ?_⟩, .inr ⟨by simp, h3⟩⟩
      · intro x hx
        rcases List.mem_append.1 hx with hx | hx
        · exact i1 x hx
        · simp only [List.mem_singleton] at hx; subst hx; exact h1
      · intro x hx
        rw [List.tail_append_of_ne_nil hn] at hx
        rcases List.mem_append.1 hx with hx | hx
        · exact i2 x hx
        · simp only [List.mem_singleton] at hx; subst hx; exact h2

/-! ### Cases -/

/-- `/a` is the absolute path of one component, `a//` and `./` are relative ones of one component; `/` and `//.` have none, `a/b` and `./a` have two. -/
example : Pieces [47, 97] [[], [97]] ∧ namePath [[], [97]] = ⟨true, [[97]]⟩ ∧
    Pieces [97, 47, 47] [[97], [], []] ∧ namePath [[97], [], []] = ⟨false, [[97]]⟩ ∧
    Pieces [46, 47] [[46], []] ∧ namePath [[46], []] = ⟨false, [[46]]⟩ ∧
    Pieces [47] [[], []] ∧ namePath [[], []] = ⟨true, []⟩ ∧
    Pieces [47, 47, 46] [[], [], [46]] ∧ namePath [[], [], [46]] = ⟨true, []⟩ ∧
    Pieces [97, 47, 98] [[97], [98]] ∧ namePath [[97], [98]] = ⟨false, [[97], [98]]⟩ ∧
    Pieces [46, 47, 97] [[46], [97]] ∧ namePath [[46], [97]] = ⟨false, [[46], [97]]⟩ := by
  unfold Pieces
  decide

/-- From `/a`: a directory and a file in it. -/
example : ∃ h w, Walked (cidN 0) [47, 97] h w ∧ h.map (fun x => itemPath x.2) = [⟨true, [[97]]⟩, ⟨true, [[97], [98]]⟩] := by
  let w1 : Walker := ((Walker.new (cidN 0) [47, 97]).step (dirMsg [linkN 1 [98]]).write none).2.1
  have h1 : (Walker.new (cidN 0) [47, 97]).step (dirMsg [linkN 1 [98]]).write none =
    (.ok (.RootDirectory (cidN 0) ⟨true, [[97]]⟩ { mode := some 0o755 }), w1, none) := by decide +kernel
  let w2 : Walker := (w1.step upFile none).2.1
  have h2 : w1.step upFile none = (.ok (.File ⟨[1], true, true⟩ (cidN 1) ⟨true, [[97], [98]]⟩ {} 1), w2, none) := by decide +kernel
  exact ⟨_, w2, .next (h := [_]) (.next (h := []) .new rfl (fun k hk => by cases hk) h1) (by decide +kernel) (fun k hk => by cases hk) h2, rfl⟩

/-- From `a/b`: the directory, then a panic at the file in it. -/
example : ∃ h w, Walked (cidN 0) [97, 47, 98] h w ∧ h.map (fun x => itemPath x.2) = [⟨false, [[97], [98]]⟩] ∧ w.shouldContinue = true ∧
    ∃ p, (w.step upFile none).1 = .panic p := by
  let w1 : Walker := ((Walker.new (cidN 0) [97, 47, 98]).step (dirMsg [linkN 1 [98]]).write none).2.1
  have h1 : (Walker.new (cidN 0) [97, 47, 98]).step (dirMsg [linkN 1 [98]]).write none =
    (.ok (.RootDirectory (cidN 0) ⟨false, [[97], [98]]⟩ { mode := some 0o755 }), w1, none) := by decide +kernel
  exact ⟨_, w1, .next (h := []) .new rfl (fun k hk => by cases hk) h1, rfl, by decide +kernel, .walkPathDepth, by decide +kernel⟩

end Verif.Props
