import Verif.ReleasePlaces
import Verif.Props.RootNames
/-
The invariant of a walker of a release build, and its steps.
-/
namespace Verif
open Verif.Spec Verif.Props

/-- What is known of a walker after `item` was reported last, with `ie` as its current entry. -/
structure Going (cid : Cid) (before : List ContinuedWalk) (item : ContinuedWalk) (ie : InnerEntry) (w : Walker) (fb rest : List Place) : Prop where
  last : before.getLast? = some item
  cur : w.current = some ie
  path : ie.path = pathOf item
  places : rest = w.links.map toPlace
  free : ∀ l ∈ w.links, slash ∉ l.name
  dir : ie.kind = .Directory ↔ ∃ c p md, item = .Directory c p md
  rootDir : ie.kind = .RootDirectory → ∀ l ∈ w.links, l.name ≠ []
  atRoot : ie.kind = .BucketAtRoot → ie.cid = cid ∧ RootBuckets before ∧ ∀ l ∈ w.links, l.name = [] → l.depth = ie.depth
  onlyBuckets : RootBuckets before → ie.kind = .BucketAtRoot ∨ ∀ l ∈ w.links, l.name ≠ []
  stack : (ie.depth :: w.links.map parentDepth).Pairwise (fun a b => b ≤ a)
  deep : ∀ l ∈ w.links, 1 ≤ l.depth
  pend : w.next = none → w.pending = []
  cont : w.should_continue = decide (fb ++ rest ≠ [])
  file : (w.atRest ∧ fb = []) ∨ ∃ v sz seg, ie.kind = .File (some v) sz ∧ Asking v ∧ item = .File seg ie.cid ie.path ie.metadata sz ∧
    fb.map (·.cid) = visitAsks (some v) ∧ ∀ a ∈ fb, a.what = .fileBlock ∧ a.level = ie.depth

/-- What is known of a walker; `level` is the level of what was reported last. -/
def RInv (cid : Cid) (name : Bytes) (before : List ContinuedWalk) (level : Nat) (w : Walker) (fb rest : List Place) : Prop :=
  (before = [] ∧ w = Walker.new cid name ∧ fb = [] ∧ rest = [⟨cid, if name = [] then 1 else 2, name, .entry⟩]) ∨
  ∃ item ie, Going cid before item ie w fb rest ∧ ie.depth = level

theorem links_eq {w : Walker} {n : WalkLink} (h : w.next = some n) : w.links = n :: w.pending.reverse := next_mem h

section
variable {cid : Cid} {name : Bytes} {before : List ContinuedWalk} {level : Nat} {w : Walker} {fb rest aw : List Place} {a : Place}

/-- A file visit goes on exactly if something of it is waited for. -/
theorem RInv.inFile (h : RInv cid name before level w fb rest) (hfb : fb ≠ []) : ∃ ie v sz seg, w.current = some ie ∧ ie.kind = .File (some v) sz ∧ Asking v ∧
    before.getLast? = some (.File seg ie.cid ie.path ie.metadata sz) ∧ fb.map (·.cid) = visitAsks (some v) := by
  rcases h with ⟨-, -, h, -⟩ | ⟨item, ie, h, -⟩
  · exact absurd h hfb
  · rcases h.file with hf | ⟨v, sz, seg, h1, h2, h3, h4, h5⟩
    · exact absurd hf.2 hfb
    · exact ⟨ie, v, sz, seg, h.cur, h1, h2, h3 ▸ h.last, h4⟩

theorem RInv.resting (h : RInv cid name before level w [] rest) : w.atRest := by
  rcases h with ⟨-, rfl, -, -⟩ | ⟨item, ie, h, -⟩
  · intro ie v sz h; cases h
  · rcases h.file with hf | ⟨v, sz, seg, h1, h2, h3, h4, h5⟩
    · exact hf.1
    · exfalso
      have h6 := h2.2
      simp only [List.map_nil, visitAsks] at h4
      have := congrArg List.length h4
      simp only [List.length_nil, List.length_map, List.length_reverse] at this
      exact h6 (List.length_eq_zero_iff.1 this.symm)

theorem RInv.fb_what (h : RInv cid name before level w fb rest) : (∀ x ∈ fb, x.what = .fileBlock) ∧ ∀ x ∈ rest, x.what ≠ .fileBlock := by
  rcases h with ⟨-, -, rfl, rfl⟩ | ⟨item, ie, h, -⟩
  · exact ⟨nofun, by simp⟩
  · refine ⟨?_, ?_⟩
    · rcases h.file with hf | ⟨v, sz, seg, h1, h2, h3, h4, h5⟩
      · rw [hf.2]; nofun
      · exact fun x hx => (h5 x hx).1
    · intro x hx
      rw [h.places] at hx
      obtain ⟨l, _, rfl⟩ := List.mem_map.1 hx
      unfold toPlace
      simp only
      split <;> nofun

theorem RInv.empty_iff (h : RInv cid name before level w fb rest) : before = [] ↔ w.current = none := by
  rcases h with ⟨h, rfl, -, -⟩ | ⟨item, ie, h, -⟩
  · exact ⟨fun _ => rfl, fun _ => h⟩
  · refine ⟨fun e => ?_, fun e => ?_⟩
    · have := h.last; rw [e] at this; cases this
    · rw [h.cur] at e; cases e

theorem RInv.continues (h : RInv cid name before level w fb rest) : w.shouldContinue = decide (fb ++ rest ≠ []) := by
  rcases h with ⟨-, rfl, rfl, rfl⟩ | ⟨item, ie, h, -⟩
  · simp [Walker.shouldContinue, Walker.new]
  · exact h.cont

/-- The link which is next. -/
structure NextIs (cid : Cid) (name : Bytes) (w : Walker) (a : Place) (aw : List Place) (n : WalkLink) : Prop where
  next : w.next = some n
  cid_eq : a.cid = n.cid
  level_eq : a.level = n.depth
  name_eq : a.name = n.name
  aw_eq : aw = w.pending.reverse.map toPlace
  deep : 1 ≤ n.depth
  what : a.what = if w.current ≠ none ∧ n.name = [] then .bucket else .entry
  root : w.current = none → w = Walker.new cid name

theorem RInv.nextIs (h : RInv cid name before level w [] (a :: aw)) : ∃ n, NextIs cid name w a aw n := by
  rcases h with ⟨-, rfl, -, h⟩ | ⟨item, ie, h, -⟩
  · cases h
    refine ⟨_, rfl, rfl, rfl, rfl, rfl, ?_, rfl, fun _ => rfl⟩
    simp only
    split <;> omega
  · have hp := h.places
    cases hn : w.next with
    | none =>
      have : w.links = [] := by simp [Walker.links, hn, h.pend hn]
      rw [this] at hp
      cases hp
    | some n =>
      rw [links_eq hn, List.map_cons] at hp
      have ha := (List.cons.inj hp).1
      refine ⟨n, hn, by rw [ha]; rfl, by rw [ha]; rfl, by rw [ha]; rfl, (List.cons.inj hp).2, h.deep n (by rw [links_eq hn]; simp), ?_, ?_⟩
      · rw [ha, h.cur]
        simp [toPlace]
      · intro e; rw [h.cur] at e; cases e

theorem RInv.pending_links (h : RInv cid name before level w fb rest) (ha : fb ++ rest = a :: aw) : w.pendingLinks = .ok (a.cid, aw.map (·.cid)) := by
  cases hf : fb with
  | nil =>
    subst hf
    simp only [List.nil_append] at ha
    subst ha
    obtain ⟨n, hn⟩ := h.nextIs
    have hr := h.resting
    have hcs : aw.map (·.cid) = (w.pending.map (·.cid)).reverse := by
      rw [hn.aw_eq, List.map_map, ← List.map_reverse]
      rfl
    unfold Walker.pendingLinks
    simp only
    rw [hn.next, hn.cid_eq, hcs]
    cases hc : w.current with
    | none => rfl
    | some ie =>
      have := fun v sz => hr ie v sz hc
      obtain ⟨c, k, p, md, d⟩ := ie
      simp only at this
      cases k with
      | File v sz => cases v with
        | none => rfl
        | some v => exact absurd rfl (this v sz)
      | _ => rfl
  | cons x fb' =>
    obtain ⟨ie, v, sz, seg, h1, h2, h3, h4, h5⟩ := h.inFile (by rw [hf]; nofun)
    rw [hf] at ha h5
    simp only [List.cons_append, List.cons.injEq] at ha
    obtain ⟨rfl, rfl⟩ := ha
    have hv : v.pendingLinks = .ok (x.cid, fb'.map (·.cid)) := by
      unfold FileVisit.pendingLinks
      simp only [visitAsks, List.map_cons] at h5
      rw [← h5]
    have hrest : rest.map (·.cid) = (w.next.map (·.cid)).toList ++ (w.pending.map (·.cid)).reverse := by
      rcases h with ⟨-, -, h, -⟩ | ⟨item, ie, h, -⟩
      · rw [hf] at h; cases h
      · rw [h.places, List.map_map]
        unfold Walker.links
        rw [List.map_append, ← List.map_reverse]
        cases w.next <;> rfl
    unfold Walker.pendingLinks
    rw [h1]
    simp only [Option.map_some, h2, hv, Res.bind_ok, List.map_append, hrest]

/-- The path of what is next. -/
theorem RInv.enteredPath_eq {ps : List Bytes} (hps : Pieces name ps) (h : RInv cid name before level w [] (a :: aw)) {n : WalkLink} (hn : NextIs cid name w a aw n) :
    enteredPath w n = pathTo (namePath ps) before.getLast? level a False := by
  unfold enteredPath pathTo
  rcases h with ⟨rfl, rfl, -, h⟩ | ⟨item, ie, h, rfl⟩
  · cases hn.next
    exact congrArg some (Props.push_root hps)
  · rw [h.cur, h.last]
    simp only [if_false, hn.level_eq, hn.name_eq, h.path]
    have hfree : slash ∉ n.name := h.free n (by rw [links_eq hn.next]; simp)
    congr 1
    funext p
    exact push_into hfree

theorem upBy_none {k : Nat} {p : PathBuf} : upBy k p = none ↔ p.comps.length < k := by
  unfold upBy
  split
  · exact ⟨nofun, fun h => absurd h (by omega)⟩
  · exact ⟨fun _ => by omega, fun _ => rfl⟩

theorem pathTo_none {root : PathBuf} {last : Option ContinuedWalk} : pathTo root last level a False = none ↔
    ∃ item, last = some item ∧ (pathOf item).comps.length < level + 1 - a.level := by
  cases last with
  | none => exact ⟨nofun, by rintro ⟨_, h, _⟩; cases h⟩
  | some item =>
    simp only [pathTo, if_false, Option.map_eq_none_iff, upBy_none, Option.some.injEq, exists_eq_left']

/-- What is known when a bucket is next. -/
theorem RInv.bucket (h : RInv cid name before level w [] (a :: aw)) {n : WalkLink} (hn : NextIs cid name w a aw n) (hb : a.what = .bucket) :
    ∃ item ie, Going cid before item ie w [] (a :: aw) ∧ ie.depth = level ∧ n.name = [] ∧ n.depth ≤ ie.depth ∧ (ie.kind = .BucketAtRoot → n.depth = ie.depth) ∧
      ie.kind ≠ .RootDirectory := by
  have hw := hn.what
  rw [hb] at hw
  split at hw
  · next hx =>
    rcases h with ⟨-, rfl, -, h⟩ | ⟨item, ie, h, hl⟩
    · exact absurd rfl hx.1
    · have hmem : n ∈ w.links := by rw [links_eq hn.next]; simp
      refine ⟨item, ie, h, hl, hx.2, ?_, fun hk => (h.atRoot hk).2.2 n hmem hx.2, fun hk => h.rootDir hk n hmem hx.2⟩
      have := (List.pairwise_cons.1 h.stack).1 (parentDepth n) (List.mem_map_of_mem hmem)
      unfold parentDepth at this
      rwa [if_pos hx.2] at this
  · cases hw

/-- Entering. -/
theorem RInv.enter (h : RInv cid name before level w [] (a :: aw)) {n : WalkLink} (hn : NextIs cid name w a aw n) {ls : List WalkLink}
    (hls : ∀ l ∈ ls, slash ∉ l.name ∧ ((l.name ≠ [] ∧ l.depth = n.depth + 1) ∨ (l.name = [] ∧ l.depth = n.depth)))
    {ie' : InnerEntry} {item' : ContinuedWalk} {w' : Walker} {fb' : List Place} (hd : ie'.depth = n.depth) (hc : w'.current = some ie')
    (hl : w'.links = ls ++ w.pending.reverse) (hp : ie'.path = pathOf item')
    (hdir : ie'.kind = .Directory ↔ ∃ c p md, item' = .Directory c p md) (hrd : ie'.kind = .RootDirectory → w.current = none ∧ ∀ l ∈ ls, l.name ≠ [])
    (hbk : (∃ c p, item' = .Bucket c p) → w.current ≠ none ∧ n.name = [] ∧ ∀ ie, w.current = some ie → ie.kind = .BucketAtRoot → ie'.kind = .BucketAtRoot)
    (hat : ie'.kind = .BucketAtRoot → ie'.cid = cid ∧ (w.current = none ∨ ∃ ie, w.current = some ie ∧ ie.kind = .BucketAtRoot ∧ ie.depth = n.depth ∧ ∃ c p, item' = .Bucket c p))
    (hfirst : w.current = none → ie'.kind = .BucketAtRoot ∨ ∀ l ∈ ls, l.name ≠ []) (hpend : w'.next = none → w'.pending = [])
    (hcont : w'.should_continue = decide (fb' ++ (ls.map toPlace ++ aw) ≠ []))
    (hfile : (w'.atRest ∧ fb' = []) ∨ ∃ v sz seg, ie'.kind = .File (some v) sz ∧ Asking v ∧ item' = .File seg ie'.cid ie'.path ie'.metadata sz ∧
      fb'.map (·.cid) = visitAsks (some v) ∧ ∀ a ∈ fb', a.what = .fileBlock ∧ a.level = ie'.depth) :
    RInv cid name (before ++ [item']) a.level w' fb' (ls.map toPlace ++ aw) := by
  refine .inr ⟨item', ie', ?_, by rw [hd, hn.level_eq]⟩
  have hold : ∀ l ∈ w.pending.reverse, ∃ item ie, Going cid before item ie w [] (a :: aw) ∧ l ∈ w.links ∧ parentDepth l ≤ n.depth ∧ ie.depth = level := by
    intro l hl
    rcases h with ⟨-, rfl, -, -⟩ | ⟨item, ie, h, hlev⟩
    · cases hl
    · have hm : l ∈ w.links := by rw [links_eq hn.next]; simp [List.mem_reverse.1 hl]
      have hst := h.stack
      rw [links_eq hn.next, List.map_cons] at hst
      have := (List.pairwise_cons.1 (List.pairwise_cons.1 hst).2).1 (parentDepth l) (List.mem_map_of_mem hl)
      refine ⟨item, ie, h, hm, Nat.le_trans this ?_, hlev⟩
      unfold parentDepth
      split <;> omega
  have hnone : w.current = none → w.pending.reverse = [] := by
    intro e
    rw [hn.root e]
    rfl
  have hmem : ∀ l ∈ w'.links, l ∈ ls ∨ l ∈ w.pending.reverse := by
    intro l hl'
    rw [hl] at hl'
    exact List.mem_append.1 hl'
  have hlast : (before ++ [item']).getLast? = some item' := by simp
  refine ⟨hlast, hc, hp, by rw [hl, List.map_append, ← hn.aw_eq], ?_, hdir, ?_, ?_, ?_, ?_, ?_, hpend, hcont, hfile⟩
  · intro l hl'
    rcases hmem l hl' with h1 | h1
    · exact (hls l h1).1
    · obtain ⟨_, _, h2, h3, -⟩ := hold l h1
      exact h2.free l h3
  · intro hk l hl'
    rcases hmem l hl' with h1 | h1
    · exact (hrd hk).2 l h1
    · rw [hnone (hrd hk).1] at h1; cases h1
  · intro hk
    obtain ⟨h1, h2⟩ := hat hk
    refine ⟨h1, ?_, ?_⟩
    · rcases h2 with h2 | ⟨ie, h2, h3, -, h4⟩
      · rw [h.empty_iff.2 h2]
        exact ⟨by simp, by simp⟩
      · rcases h with ⟨-, rfl, -, -⟩ | ⟨item, ie0, h, -⟩
        · cases h2
        · rw [h.cur] at h2
          cases h2
          obtain ⟨-, ⟨h6, h7⟩, -⟩ := h.atRoot h3
          refine ⟨by simp, ?_⟩
          intro x hx
          rw [List.drop_append_of_le_length (by have := List.length_pos_iff.2 h6; omega)] at hx
          rcases List.mem_append.1 hx with hx | hx
          · exact h7 x hx
          · rw [List.mem_singleton.1 hx]; exact h4
    · intro l hl' hne
      rcases hmem l hl' with h3 | h3
      · rcases (hls l h3).2 with h4 | h4
        · exact absurd hne h4.1
        · rw [hd, h4.2]
      · rcases h2 with h2 | ⟨ie, h2, h4, h5, -⟩
        · rw [hnone h2] at h3; cases h3
        · obtain ⟨item, ie0, h6, h7, -⟩ := hold l h3
          rw [h6.cur] at h2
          cases h2
          rw [(h6.atRoot h4).2.2 l h7 hne, h5, hd]
  · intro hrb
    by_cases hcn : w.current = none
    · rcases hfirst hcn with h1 | h1
      · exact .inl h1
      · refine .inr fun l hl' => ?_
        rcases hmem l hl' with h3 | h3
        · exact h1 l h3
        · rw [hnone hcn] at h3; cases h3
    · have hbne : before ≠ [] := fun e => hcn (h.empty_iff.1 e)
      have hpos := List.length_pos_iff.2 hbne
      obtain ⟨-, hb2⟩ := hrb
      rw [List.drop_append_of_le_length (by omega)] at hb2
      have hit := hbk (hb2 item' (by simp))
      rcases h with ⟨h, -, -, -⟩ | ⟨item, ie, h, -⟩
      · exact absurd h hbne
      · have hold' : RootBuckets before := ⟨hbne, fun x hx => hb2 x (List.mem_append_left _ hx)⟩
        rcases h.onlyBuckets hold' with h1 | h1
        · exact .inl (hit.2.2 ie h.cur h1)
        · exact absurd hit.2.1 (h1 n (by rw [links_eq hn.next]; simp))
  · rw [hl, hd, List.map_append, List.pairwise_cons]
    have h1 : ∀ x ∈ ls.map parentDepth, x = n.depth := by
      intro x hx
      obtain ⟨l, hl', rfl⟩ := List.mem_map.1 hx
      unfold parentDepth
      rcases (hls l hl').2 with h2 | h2
      · rw [if_neg h2.1, h2.2]; rfl
      · rw [if_pos h2.1, h2.2]
    have h2 : ∀ x ∈ w.pending.reverse.map parentDepth, x ≤ n.depth := by
      intro x hx
      obtain ⟨l, hl', rfl⟩ := List.mem_map.1 hx
      obtain ⟨_, _, _, _, h3, -⟩ := hold l hl'
      exact h3
    refine ⟨?_, List.pairwise_append.2 ⟨?_, ?_, ?_⟩⟩
    · intro x hx
      rcases List.mem_append.1 hx with hx | hx
      · rw [h1 x hx]; omega
      · exact h2 x hx
    · rw [List.eq_replicate_of_mem h1, List.pairwise_replicate]
      exact .inr (by omega)
    · rcases h with ⟨-, rfl, -, -⟩ | ⟨item, ie, h, -⟩
      · exact .nil
      · have := h.stack
        rw [links_eq hn.next, List.map_cons] at this
        exact (List.pairwise_cons.1 (List.pairwise_cons.1 this).2).2
    · intro x hx y hy
      rw [h1 x hx]
      exact h2 y hy
  · intro l hl'
    rcases hmem l hl' with h1 | h1
    · rcases (hls l h1).2 with h2 | h2 <;> (rw [h2.2]; have := hn.deep; omega)
    · obtain ⟨_, _, h2, h3, -⟩ := hold l h1
      exact h2.deep l h3
end

end Verif
