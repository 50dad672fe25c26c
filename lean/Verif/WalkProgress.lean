import Verif.WalkReport
/-
When a step of a walker succeeds.
-/
namespace Verif
open Verif.Spec Verif.Props

/-- Both invariants hold throughout. -/
theorem walked_both {cid : Cid} {name : Bytes} {h : List (Bytes × ContinuedWalk)} {w : Walker} (hw : Walked cid name h w)
    (hname : slash ∉ name) :
    ∃ fb rest, awaited cid name (h.map (·.1)) = fb ++ rest ∧ WInv w fb rest ∧ PInv cid name (h.map (·.2)) w rest := by
  induction hw with
  | new => exact ⟨[], _, rfl, WInv.new cid name, .inl ⟨rfl, rfl, rfl⟩⟩
  | @next h w w' block cache cache' item hw hsc hc hs ih =>
    obtain ⟨fb, rest, h1, h2, h2'⟩ := ih
    obtain ⟨m, a, aw, fb', rest', hm, h3, h4, h5⟩ := h2.step hc (step_ok hs)
    have h6 := h2'.step h2 hname hc (step_ok hs) hm h3 h4 h5
    refine ⟨fb', rest', ?_, h5, by simpa using h6.1⟩
    rw [List.map_append, awaited, List.foldl_append, ← awaited, h1, h3]
    simp only [List.map_cons, List.map_nil, List.foldl_cons, List.foldl_nil]
    rw [visit_ok hm, h4]

theorem awaited_snoc {cid : Cid} {name : Bytes} {bs : List Bytes} {b : Bytes} {m : FlatUnixFs} {a : Awaited} {aw : List Awaited}
    (h : awaited cid name bs = a :: aw) (hm : FlatUnixFs.tryParse b = .ok m) :
    awaited cid name (bs ++ [b]) = m.links.filterMap (follow a m) ++ aw := by
  rw [awaited, List.foldl_append, ← awaited, h]
  simp only [List.foldl_cons, List.foldl_nil]
  rw [visit_ok hm]

/-! ### entering -/

theorem next_some {w : Walker} {fb aw : List Awaited} {a : Awaited} (h : WInv w fb (a :: aw)) : ∃ n, w.next = some n := by
  cases hn : w.next with
  | some n => exact ⟨n, rfl⟩
  | none =>
    have := h.cids
    rw [Walker.links, hn, h.pend hn] at this
    cases this

section
variable {cid : Cid} {name : Bytes} {before : List ContinuedWalk} {w : Walker} {a : Awaited} {aw : List Awaited} {n : WalkLink}

theorem dotDeep_iff {cur : List Bytes} {B : Nat} {x : Bytes} (hB : B ≤ cur.length) :
    DotDeep (cur.take B ++ [x]) ↔ x = dot ∧ B ≠ 0 := by
  unfold DotDeep
  simp only [List.getLast?_append, List.getLast?_singleton, Option.some_or, Option.some.injEq, List.length_append, List.length_take,
    List.length_singleton, Nat.min_eq_left hB]
  constructor
  · rintro ⟨h1, h2⟩; exact ⟨h2, by omega⟩
  · rintro ⟨h1, h2⟩; exact ⟨by omega, h1⟩

theorem PInv.asKind_ok (hp : PInv cid name before w (a :: aw)) (hr : w.atRest) (ha : a.what = .entry) (hd : ¬ DotDeep a.path)
    (hn : w.next = some n) {ie : InnerEntry} (hc : w.current = some ie) (k : InnerKind) (md : Metadata) :
    ∃ ie', (ie.asKind k n.cid n.name n.depth md : Res WalkError InnerEntry) = .ok ie' := by
  have hps := hp.ofCurrent hc
  have hstack := hps.stack
  rw [links_some hn] at hstack
  cases hstack with
  | @entry _ B _ _ _ _ hB g1 g2 g4 g5 g6 g7 g8 =>
    rw [g5, dotDeep_iff hB] at hd
    rw [g4, asKind_eq hps.ok hB g1 g2 (fun h => Classical.byContradiction fun h0 => hd ⟨h, h0⟩) (fun v sz => hr ie v sz hc)]
    exact ⟨_, rfl⟩
  | bucket _ _ _ _ _ g5 _ => rw [ha] at g5; cases g5

theorem PInv.current_of_dot (hp : PInv cid name before w (a :: aw)) (hd : DotDeep a.path) : ∃ ie, w.current = some ie := by
  rcases hp with h | ⟨ie, h, _⟩
  · have := h.rest
    cases this
    have hl := hd.1
    unfold rootPath at hl
    split at hl <;> simp at hl
  · exact ⟨ie, h⟩

theorem PInv.asKind_dot (hp : PInv cid name before w (a :: aw)) (hr : w.atRest) (ha : a.what = .entry) (hd : DotDeep a.path)
    (hn : w.next = some n) {ie : InnerEntry} (hc : w.current = some ie) (k : InnerKind) (md : Metadata) :
    n.name ≠ [] ∧ (ie.asKind k n.cid n.name n.depth md : Res WalkError InnerEntry) = .panic .walkPathDepth := by
  have hps := hp.ofCurrent hc
  have hstack := hps.stack
  rw [links_some hn] at hstack
  cases hstack with
  | @entry _ B _ _ _ _ hB g1 g2 g4 g5 g6 g7 g8 =>
    rw [g5, dotDeep_iff hB] at hd
    rw [g4, hd.1]
    exact ⟨by decide, Verif.asKind_dot hps.ok hB hd.2 (fun v sz => hr ie v sz hc) _ _ _⟩
  | bucket _ _ _ _ _ g5 _ => rw [ha] at g5; cases g5

theorem PInv.asKind_panic (hp : PInv cid name before w (a :: aw)) (ha : a.what = .bucket) (hn : w.next = some n)
    {ie : InnerEntry} (hc : w.current = some ie) (k : InnerKind) (md : Metadata) :
    ∃ p, (ie.asKind k n.cid n.name n.depth md : Res WalkError InnerEntry) = .panic p := by
  have hps := hp.ofCurrent hc
  have hstack := hps.stack
  rw [links_some hn] at hstack
  cases hstack with
  | entry _ _ _ _ _ _ g7 _ => rw [ha] at g7; cases g7
  | @bucket _ B _ _ _ _ hB g1 g2 g3 g4 g5 g6 =>
    obtain ⟨p, hpan⟩ := asKind_bucket (ε := WalkError) hps.ok hB k n.cid md
    rw [g1, g2, hpan]
    exact ⟨_, rfl⟩

theorem PInv.enterLeaf_ok (hp : PInv cid name before w (a :: aw)) (hr : w.atRest) (ha : a.what = .entry) (hd : ¬ DotDeep a.path) (hn : w.next = some n)
    (k : InnerKind) (md : Metadata) : ∃ ie, w.enterLeaf k md n = .ok ie := by
  unfold Walker.enterLeaf
  split
  · exact ⟨_, rfl⟩
  next ie hc => exact hp.asKind_ok hr ha hd hn hc k md

theorem PInv.enterDirectory_ok (hp : PInv cid name before w (a :: aw)) (hr : w.atRest) (ha : a.what = .entry) (hd : ¬ DotDeep a.path) (hn : w.next = some n)
    (md : Metadata) : ∃ r, w.enterDirectory md n = .ok r := by
  unfold Walker.enterDirectory
  split
  · exact ⟨_, rfl⟩
  next ie hc =>
    obtain ⟨ie', h⟩ := hp.asKind_ok hr ha hd hn hc .Directory md
    rw [h]
    exact ⟨_, rfl⟩

/-- The last item reported is a plain directory other than the root. -/
def LastIsDirectory (before : List ContinuedWalk) : Prop := ∃ c p m, before.getLast? = some (.Directory c p m)

theorem PInv.current_of_bucket (hp : PInv cid name before w (a :: aw)) (ha : a.what = .bucket) : ∃ ie, w.current = some ie := by
  rcases hp with h | ⟨ie, h, _⟩
  · have := h.rest
    cases this
    cases ha
  · exact ⟨ie, h⟩

theorem PInv.asBucket_ok (hp : PInv cid name before w (a :: aw)) (hr : w.atRest) (ha : a.what = .bucket) (hn : w.next = some n)
    {ie : InnerEntry} (hc : w.current = some ie) (hl : ¬ LastIsDirectory before) :
    n.name = [] ∧ ∃ ie', (ie.asBucket n.cid n.depth : Res WalkError InnerEntry) = .ok ie' := by
  have hps := hp.ofCurrent hc
  have hstack := hps.stack
  have hmem : n ∈ w.links := by rw [links_some hn]; simp
  rw [links_some hn] at hstack
  cases hstack with
  | entry _ _ _ _ _ _ g7 _ => rw [ha] at g7; cases g7
  | @bucket _ B _ _ _ _ hB g1 g2 g3 g4 g5 g6 =>
    refine ⟨g1, ?_⟩
    have hpop := popWhileGt_eq (ε := WalkError) hB
    have hpe := hps.ok.path_eq
    have hde := hps.ok.depth
    have h1 : ie.kind ≠ .RootDirectory := fun h => hps.rootDir h n hmem g1
    have h2 : ie.kind ≠ .Directory := fun h => hl (hps.dir.1 h)
    have h3 : ∀ v sz, ie.kind ≠ .File (some v) sz := fun v sz => hr ie v sz hc
    have h4 : ie.kind = .BucketAtRoot → ie.depth = n.depth := fun h => ((hps.atRoot h).2.2 n hmem g1).symm
    have hgen : ∃ ie', ((do
        let (d, path) ← popWhileGt n.depth ie.depth ie.path
        if d ≠ n.depth then .panic .walkBucketDepth
        else .ok { ie with cid := n.cid, kind := .Bucket, path := path, depth := d }) : Res WalkError InnerEntry) = .ok ie' := by
      rw [hde, g2, hpe, hpop]
      simp only [Res.bind_ok, ne_eq, not_true_eq_false, if_false]
      exact ⟨_, rfl⟩
    unfold InnerEntry.asBucket
    cases hk : ie.kind with
    | RootDirectory => exact absurd hk h1
    | BucketAtRoot => simp only; rw [if_neg (by rw [h4 hk]; simp)]; exact ⟨_, rfl⟩
    | RootBucket => exact hgen
    | Bucket => exact hgen
    | Directory => exact absurd hk h2
    | Symlink => exact hgen
    | File v sz =>
      cases v with
      | none => exact hgen
      | some v => exact absurd hk (h3 v sz)

theorem PInv.asBucket_bad (hp : PInv cid name before w (a :: aw)) (hn : w.next = some n) (ha : a.what = .bucket)
    {ie : InnerEntry} (hc : w.current = some ie) (hl : LastIsDirectory before) :
    n.name = [] ∧ (ie.asBucket n.cid n.depth : Res WalkError InnerEntry) = .panic .walkBucketKind := by
  have hps := hp.ofCurrent hc
  have hstack := hps.stack
  rw [links_some hn] at hstack
  cases hstack with
  | entry _ _ _ _ _ _ g7 _ => rw [ha] at g7; cases g7
  | @bucket _ B _ _ _ _ hB g1 g2 g3 g4 g5 g6 =>
    refine ⟨g1, ?_⟩
    have h2 := hps.dir.2 hl
    unfold InnerEntry.asBucket
    rw [h2]

theorem PInv.enterShard_ok (hp : PInv cid name before w (a :: aw)) (hr : w.atRest) (hn : w.next = some n) (hwf : a.what ≠ .fileBlock)
    (hd : ¬ DotDeep a.path ∨ a.what = .bucket)
    (ha : a.what = .bucket → ¬ LastIsDirectory before) (md : Metadata) : ∃ r, w.enterShard md n = .ok r := by
  unfold Walker.enterShard
  split
  · exact ⟨_, rfl⟩
  next ie hc =>
  cases hwhat : a.what with
  | fileBlock => exact absurd hwhat hwf
  | bucket =>
    obtain ⟨h1, ie', h2⟩ := hp.asBucket_ok hr hwhat hn hc (ha hwhat)
    rw [if_pos h1, h2]
    exact ⟨_, rfl⟩
  | entry =>
    obtain ⟨ie', h⟩ := hp.asKind_ok hr hwhat (hd.resolve_right (by rw [hwhat]; simp)) hn hc .RootBucket md
    have hps := hp.ofCurrent hc
    have hstack := hps.stack
    rw [links_some hn] at hstack
    cases hstack with
    | entry hB g1 g2 g4 g5 g6 g7 g8 =>
      rw [if_neg g1, h]
      exact ⟨_, rfl⟩
    | bucket _ _ _ _ _ g5 _ => rw [hwhat] at g5; cases g5

theorem PInv.enterShard_bad (hp : PInv cid name before w (a :: aw)) (hn : w.next = some n)
    (ha : a.what = .bucket) (hl : LastIsDirectory before) (md : Metadata) : w.enterShard md n = .panic .walkBucketKind := by
  obtain ⟨ie, hc⟩ := hp.current_of_bucket ha
  unfold Walker.enterShard
  rw [hc]
  simp only
  obtain ⟨h1, h2⟩ := hp.asBucket_bad hn ha hc hl
  rw [if_pos h1, h2]
  rfl
end

/-! ### converting links -/

/-- Every link gets converted. -/
theorem convert_all {conv : Nat → PBLink → Res InvalidCidInLink WalkLink} : ∀ (links : List PBLink) (k : Nat),
    (∀ l ∈ links, ∀ i, ∃ w, conv i l = .ok w) → ∃ ls : List WalkLink, (links.zipIdx k).map (fun x => conv x.2 x.1) = ls.map .ok := by
  intro links
  induction links with
  | nil => intro k _; exact ⟨[], rfl⟩
  | cons l links ih =>
    intro k h
    obtain ⟨w, hw⟩ := h l (by simp) k
    obtain ⟨ls, hls⟩ := ih (k + 1) (fun l hl => h l (by simp [hl]))
    exact ⟨w :: ls, by simp [hw, hls]⟩

theorem nextDir_of {w : Walker} {links : List PBLink} {conv : Nat → Nat → PBLink → Res InvalidCidInLink WalkLink}
    {enter : WalkLink → Res WalkError (InnerEntry × ContinuedWalk)} {cache : Option VisitCache}
    {n : WalkLink} (hn : w.next = some n) (hl : ∀ l ∈ links, ∀ i, ∃ x, conv n.depth i l = .ok x)
    {ie : InnerEntry} {item : ContinuedWalk} (he : enter n = .ok (ie, item)) :
    ∃ w', w.nextDir links conv enter cache = (.ok item, w', cache) := by
  obtain ⟨ls, hls⟩ := convert_all links 0 hl
  unfold Walker.nextDir
  rw [hn]
  simp only
  rw [pushLinks_rev.2 ⟨ls, rfl, hls⟩]
  simp only [he]
  exact ⟨_, rfl⟩

theorem nextDir_panic {w : Walker} {links : List PBLink} {conv : Nat → Nat → PBLink → Res InvalidCidInLink WalkLink}
    {enter : WalkLink → Res WalkError (InnerEntry × ContinuedWalk)} {cache : Option VisitCache}
    {n : WalkLink} (hn : w.next = some n) (hl : ∀ l ∈ links, ∀ i, ∃ x, conv n.depth i l = .ok x)
    {p : Panic} (he : enter n = .panic p) :
    (w.nextDir links conv enter cache).1 = .panic p := by
  obtain ⟨ls, hls⟩ := convert_all links 0 hl
  unfold Walker.nextDir
  rw [hn]
  simp only
  rw [pushLinks_rev.2 ⟨ls, rfl, hls⟩]
  simp only [he]

/-! ### caches -/

theorem startFromReader_cache {idle : IdleFileVisit} {fr : FileReader} {cache : Option VisitCache}
    (h : ∀ k, cache = some k → CacheObtainable k) : ∀ k, (idle.startFromReader fr cache).2 = some k → CacheObtainable k := by
  unfold IdleFileVisit.startFromReader
  simp only
  split
  · exact h
  · split
    · intro k h; cases h
    · intro k h; cases h
    · split
      · intro k h; cases h; exact .inr ⟨_, rfl⟩
      · intro k h; cases h

theorem startFromParsed_cache {idle : IdleFileVisit} {m : FlatUnixFs} {cache : Option VisitCache}
    (h : ∀ k, cache = some k → CacheObtainable k) : ∀ k, (idle.startFromParsed m cache).2 = some k → CacheObtainable k := by
  unfold IdleFileVisit.startFromParsed
  split
  · exact startFromReader_cache h
  · exact h
  · exact h

theorem continueWalk_cache {v : FileVisit} {b : Bytes} {cache : Option VisitCache}
    (h : ∀ k, cache = some k → CacheObtainable k) : ∀ k, (v.continueWalk b cache).2 = some k → CacheObtainable k := by
  unfold FileVisit.continueWalk
  simp only
  repeat' split
  all_goals first
    | exact h
    | (intro k h; cases h; exact .inr ⟨_, rfl⟩)

theorem nextDir_cache {w : Walker} {links : List PBLink} {conv : Nat → Nat → PBLink → Res InvalidCidInLink WalkLink}
    {enter : WalkLink → Res WalkError (InnerEntry × ContinuedWalk)} {cache : Option VisitCache} :
    (w.nextDir links conv enter cache).2.2 = cache := by
  unfold Walker.nextDir
  repeat' split
  all_goals rfl

theorem step_cache {w : Walker} {b : Bytes} {cache : Option VisitCache} (h : ∀ k, cache = some k → CacheObtainable k) :
    ∀ k, (w.step b cache).2.2 = some k → CacheObtainable k := by
  unfold Walker.step
  split
  · next v _ _ _ _ _ =>
    have := continueWalk_cache (v := v) (b := b) h
    unfold Walker.nextFile
    simp only
    split <;> rename_i hx <;> rw [hx] at this <;> exact this
  · unfold Walker.nextBlock
    simp only
    split
    · exact h
    · next m _ =>
      split
      · split
        · exact h
        · rw [nextDir_cache]; exact h
      · split
        · exact h
        · exact h
        · rw [nextDir_cache]; exact h
      case h_5 => exact h
      case h_6 =>
        unfold Walker.nextSymlink
        simp only
        repeat' split
        all_goals exact h
      all_goals
        have := startFromParsed_cache (idle := {}) (m := m) h
        unfold Walker.nextFirst
        simp only
        split <;> rename_i hx <;> rw [hx] at this
        · exact this
        · exact this
        · repeat' split
          all_goals exact this

end Verif
