import Verif.Spec.ReleaseWalk
import Verif.WalkLemmas
/-
Lemmas about single steps of a walker in a release build.
-/
namespace Verif
open Verif.Spec

/-- The new current entry of a release build, as made from the previous one for the link `n`. -/
inductive Moved (cur : Option InnerEntry) (n : WalkLink) (ie' : InnerEntry) : Prop
  | root : cur = none → ie'.path = PathBuf.push {} n.name → ie'.depth = n.depth → Moved cur n ie'
  | entry (ie : InnerEntry) (p : PathBuf) : cur = some ie → (popWhileGe n.depth ie.depth ie.path : Res WalkError PathBuf) = .ok p →
      ie'.path = p.push n.name → ie'.depth = n.depth → Moved cur n ie'
  | same (ie : InnerEntry) : cur = some ie → n.name = [] → ie.depth = n.depth → ie'.path = ie.path → ie'.depth = ie.depth → Moved cur n ie'
  | bucket (ie : InnerEntry) : cur = some ie → n.name = [] →
      (popWhileGt n.depth ie.depth ie.path : Res WalkError (Nat × PathBuf)) = .ok (n.depth, ie'.path) → ie'.depth = n.depth → Moved cur n ie'

/-- A link of a block, as the walker keeps it: of a directory or of a shard at a depth. -/
inductive TookLink (m : FlatUnixFs) (depth : Nat) (l : WalkLink) : Prop
  | entry (x : PBLink) : x ∈ m.links → m.data.Ty = .Directory → x.Name = some l.name → l.name ≠ [] → slash ∉ l.name → l.depth = depth + 1 →
      Cid.tryFrom (x.Hash.getD []) = .ok l.cid → TookLink m depth l
  | shardEntry (x : PBLink) (s : Bytes) : x ∈ m.links → m.data.Ty = .HAMTShard → x.Name = some s → 2 < s.length → l.name = s.drop 2 → slash ∉ l.name →
      l.depth = depth + 1 → Cid.tryFrom (x.Hash.getD []) = .ok l.cid → TookLink m depth l
  | bucket (x : PBLink) (s : Bytes) : x ∈ m.links → m.data.Ty = .HAMTShard → x.Name = some s → s.length = 2 → l.name = [] → l.depth = depth →
      Cid.tryFrom (x.Hash.getD []) = .ok l.cid → TookLink m depth l

/-- The possible ways of a successful step of a release build, as far as paths are concerned. -/
inductive RStep (w : Walker) (b : Bytes) (cache : Option VisitCache) (item : ContinuedWalk) (w' : Walker) : Prop
  | later (ie ie' : InnerEntry) (v : FileVisit) (sz : Nat) (c : Bytes) (next : Option FileVisit) : w.current = some ie → ie.kind = .File (some v) sz → pathOf item = ie.path → ie'.path = ie.path → ie'.depth = ie.depth →
      w'.current = some ie' → w'.links = w.links → ie'.kind = .File next sz → (∃ k, v.continueWalkRel b cache = some (.ok (c, next), k)) →
      w'.should_continue = (next.isSome || w.next.isSome) → w'.next = w.next → RStep w b cache item w'
  | block (m : FlatUnixFs) (n : WalkLink) (ls : List WalkLink) (ie' : InnerEntry) : w.atRest → Reads b m → w.next = some n →
      (∀ l ∈ ls, TookLink m n.depth l) → Moved w.current n ie' → (n.name = [] → m.data.Ty = .HAMTShard → w.current ≠ none →
        ∃ ie, w.current = some ie ∧ ((ie.depth = n.depth ∧ ie'.path = ie.path) ∨
          (popWhileGt n.depth ie.depth ie.path : Res WalkError (Nat × PathBuf)) = .ok (n.depth, ie'.path))) →
      ie'.depth = n.depth → pathOf item = ie'.path → w'.current = some ie' →
      w'.links = ls ++ w.pending.reverse → (m.data.Ty = .Directory → m.links ≠ [] → ls ≠ []) →
      (ie'.kind = .Directory ∨ ie'.kind = .RootDirectory → m.data.Ty = .Directory) →
      (ie'.kind = .BucketAtRoot → w.current = none ∨ ∃ ie, w.current = some ie ∧ ie.kind = .BucketAtRoot ∧ ie'.depth = ie.depth) →
      (∀ v sz, ie'.kind = .File (some v) sz → (m.data.Ty = .Raw ∨ m.data.Ty = .File) ∧ ∃ r k, IdleFileVisit.startFromParsedR {} m cache = (.ok r, k) ∧ r.next = some v) →
      (w'.should_continue = true → w'.next.isSome = true ∨ ∃ v sz, ie'.kind = .File (some v) sz) → RStep w b cache item w'

theorem moved_asKindR {ie ie' : InnerEntry} {k : InnerKind} {n : WalkLink} {md : Metadata}
    (h : (ie.asKindR k n.cid n.name n.depth md : Res WalkError _) = .ok ie') : Moved (some ie) n ie' ∧ ie'.kind = k := by
  unfold InnerEntry.asKindR at h
  split at h
  · cases h
  · rw [Res.bind_ok_iff] at h
    obtain ⟨ie1, h1, h2⟩ := h
    unfold InnerEntry.setPathR at h1
    rw [Res.bind_ok_iff] at h1
    obtain ⟨p, hp, h3⟩ := h1
    cases h3
    cases h2
    exact ⟨.entry ie p rfl hp rfl rfl, rfl⟩

theorem moved_asBucket {ie ie' : InnerEntry} {n : WalkLink} (h : (ie.asBucket n.cid n.depth : Res WalkError _) = .ok ie') :
    ((ie.depth = n.depth ∧ ie'.path = ie.path) ∨ (popWhileGt n.depth ie.depth ie.path : Res WalkError (Nat × PathBuf)) = .ok (n.depth, ie'.path)) ∧
      ie'.depth = n.depth ∧ ((ie'.kind = .BucketAtRoot ∧ ie.kind = .BucketAtRoot ∧ ie'.depth = ie.depth) ∨ ie'.kind = .Bucket) := by
  have pop : (do
      let (d, path) ← (popWhileGt n.depth ie.depth ie.path : Res WalkError (Nat × PathBuf))
      if d ≠ n.depth then .panic .walkBucketDepth
      else .ok { ie with cid := n.cid, kind := .Bucket, path := path, depth := d }) = .ok ie' →
      (popWhileGt n.depth ie.depth ie.path : Res WalkError (Nat × PathBuf)) = .ok (n.depth, ie'.path) ∧ ie'.depth = n.depth ∧ ie'.kind = .Bucket := by
    intro h
    rw [Res.bind_ok_iff] at h
    obtain ⟨⟨d, p⟩, h1, h2⟩ := h
    simp only at h2
    split at h2
    · cases h2
    · next hd =>
      cases h2
      have : d = n.depth := Classical.byContradiction hd
      exact ⟨by rw [h1, this], this, rfl⟩
  unfold InnerEntry.asBucket at h
  split at h
  · next hk =>
    split at h
    · cases h
    · next hd =>
      cases h
      have : ie.depth = n.depth := Classical.byContradiction hd
      exact ⟨.inl ⟨this, rfl⟩, this, .inl ⟨hk, hk, rfl⟩⟩
  · exact ⟨.inr (pop h).1, (pop h).2.1, .inr (pop h).2.2⟩
  · exact ⟨.inr (pop h).1, (pop h).2.1, .inr (pop h).2.2⟩
  · exact ⟨.inr (pop h).1, (pop h).2.1, .inr (pop h).2.2⟩
  · exact ⟨.inr (pop h).1, (pop h).2.1, .inr (pop h).2.2⟩
  · cases h

theorem moved_leafR {w : Walker} {k : InnerKind} {md : Metadata} {n : WalkLink} {ie' : InnerEntry} (h : w.enterLeafR k md n = .ok ie') :
    Moved w.current n ie' ∧ ie'.kind = k := by
  unfold Walker.enterLeafR at h
  split at h
  · next hc => cases h; exact ⟨.root hc rfl rfl, rfl⟩
  · next ie hc => rw [hc]; exact moved_asKindR h

theorem _root_.Verif.Moved.depth {cur : Option InnerEntry} {n : WalkLink} {ie' : InnerEntry} (h : Moved cur n ie') : ie'.depth = n.depth := by
  cases h with
  | root _ _ h => exact h
  | entry _ _ _ _ _ h => exact h
  | same _ _ _ h1 _ h2 => rw [h2, h1]
  | bucket _ _ _ _ h => exact h

theorem moved_directoryR {w : Walker} {md : Metadata} {n : WalkLink} {ie' : InnerEntry} {item : ContinuedWalk}
    (h : w.enterDirectoryR md n = .ok (ie', item)) : Moved w.current n ie' ∧ pathOf item = ie'.path ∧ (ie'.kind = .Directory ∨ ie'.kind = .RootDirectory) := by
  unfold Walker.enterDirectoryR at h
  split at h
  · next hc => cases h; exact ⟨.root hc rfl rfl, rfl, .inr rfl⟩
  · next ie hc =>
    rw [Res.bind_ok_iff] at h
    obtain ⟨ie1, h1, h2⟩ := h
    cases h2
    rw [hc]
    exact ⟨(moved_asKindR h1).1, rfl, .inl (moved_asKindR h1).2⟩

theorem moved_shardR {w : Walker} {md : Metadata} {n : WalkLink} {ie' : InnerEntry} {item : ContinuedWalk}
    (h : w.enterShardR md n = .ok (ie', item)) : Moved w.current n ie' ∧ pathOf item = ie'.path ∧
      (n.name = [] → w.current ≠ none → ∃ ie, w.current = some ie ∧ ((ie.depth = n.depth ∧ ie'.path = ie.path) ∨
          (popWhileGt n.depth ie.depth ie.path : Res WalkError (Nat × PathBuf)) = .ok (n.depth, ie'.path))) ∧
      ((ie'.kind = .BucketAtRoot ∧ (w.current = none ∨ ∃ ie, w.current = some ie ∧ ie.kind = .BucketAtRoot ∧ ie'.depth = ie.depth)) ∨
        ie'.kind = .Bucket ∨ ie'.kind = .RootBucket) := by
  unfold Walker.enterShardR at h
  split at h
  · next hc => cases h; exact ⟨.root hc rfl rfl, rfl, fun _ h => absurd hc h, .inl ⟨rfl, .inl hc⟩⟩
  · next ie hc =>
    split at h
    · next hn =>
      rw [Res.bind_ok_iff] at h
      obtain ⟨ie1, h1, h2⟩ := h
      cases h2
      have hb := moved_asBucket h1
      refine ⟨?_, rfl, fun _ _ => ⟨ie, hc, hb.1⟩, hb.2.2.elim (fun k => .inl ⟨k.1, .inr ⟨ie, hc, k.2⟩⟩) (fun k => .inr (.inl k))⟩
      rw [hc]
      rcases hb.1 with ⟨h3, h4⟩ | h3
      · exact .same ie rfl hn h3 h4 (by rw [hb.2.1, h3])
      · exact .bucket ie rfl hn h3 hb.2.1
    · next hn =>
      rw [Res.bind_ok_iff] at h
      obtain ⟨ie1, h1, h2⟩ := h
      cases h2
      rw [hc]
      exact ⟨(moved_asKindR h1).1, rfl, fun h => absurd h hn, .inr (.inr (moved_asKindR h1).2)⟩

theorem convertLink_took {d i : Nat} {x : PBLink} {l : WalkLink} (h : convertLink (d + 1) i x = .ok l) :
    x.Name = some l.name ∧ l.name ≠ [] ∧ slash ∉ l.name ∧ l.depth = d + 1 ∧ Cid.tryFrom (x.Hash.getD []) = .ok l.cid := by
  unfold convertLink at h
  split at h
  · cases h
  · next c hc =>
    split at h
    · cases h
    · next s hs =>
      split at h
      · cases h
      · next h1 =>
        split at h
        · cases h
        · next h2 => cases h; exact ⟨hs, h1, h2, rfl, hc⟩

theorem convertShardedLink_took {d i : Nat} {x : PBLink} {l : WalkLink} (h : convertShardedLink (d + 1) d i x = .ok l) :
    ∃ s, x.Name = some s ∧ Cid.tryFrom (x.Hash.getD []) = .ok l.cid ∧
      ((2 < s.length ∧ l.name = s.drop 2 ∧ slash ∉ l.name ∧ l.depth = d + 1) ∨ (s.length = 2 ∧ l.name = [] ∧ l.depth = d)) := by
  unfold convertShardedLink at h
  split at h
  · cases h
  · next c hc =>
    split at h
    · cases h
    · next s hs =>
      split at h
      · next h1 =>
        split at h
        · cases h
        · split at h
          · cases h
          · next h2 => cases h; exact ⟨s, hs, hc, .inl ⟨h1, rfl, h2, rfl⟩⟩
      · split at h
        · next h1 => cases h; exact ⟨s, hs, hc, .inr ⟨h1, rfl, rfl⟩⟩
        · cases h

theorem took {conv : Nat → PBLink → Res InvalidCidInLink WalkLink} {links : List PBLink} {ls : List WalkLink}
    (h : links.zipIdx.map (fun x => conv x.2 x.1) = ls.map .ok) {l : WalkLink} (hl : l ∈ ls) : ∃ i, ∃ x ∈ links, conv i x = .ok l := by
  have : Res.ok l ∈ links.zipIdx.map (fun x => conv x.2 x.1) := by rw [h]; exact List.mem_map_of_mem hl
  obtain ⟨x, hx, he⟩ := List.mem_map.1 this
  refine ⟨x.2, x.1, ?_, he⟩
  have := (List.mem_zipIdx hx).2.2
  rw [this]
  exact List.getElem_mem _

theorem popNext_rlinks (c : Option InnerEntry) (p : List WalkLink) : (Walker.popNext c p).links = p.reverse := popNext_links c p

theorem stepRel_atRest {w : Walker} (h : w.atRest) (b : Bytes) (cache : Option VisitCache) :
    w.stepRel b cache = (FlatUnixFs.tryParseR b).map (w.nextBlockP cache) := by
  unfold Walker.stepRel
  split
  · rename_i h'
    exact absurd rfl (h _ _ _ h')
  · rfl

theorem stepRel_inFile {w : Walker} {ie : InnerEntry} {v : FileVisit} {sz : Nat} (h : w.current = some ie)
    (hk : ie.kind = .File (some v) sz) (b : Bytes) (cache : Option VisitCache) :
    w.stepRel b cache = (v.continueWalkRel b cache).map (w.nextFileP ie sz) := by
  obtain ⟨c, k, p, m, d⟩ := ie
  simp only at hk
  subst hk
  simp [Walker.stepRel, h]

theorem nextFirstR_ok {w w' : Walker} {b : Bytes} {cache cache' : Option VisitCache} {item : ContinuedWalk} {m : FlatUnixFs} (hr : w.atRest)
    (hp : Reads b m) (hty : m.data.Ty = .Raw ∨ m.data.Ty = .File) (h : w.nextFirstR m cache = (.ok item, w', cache')) : RStep w b cache item w' := by
  have hne : m.data.Ty ≠ .HAMTShard := by rcases hty with h | h <;> (rw [h]; nofun)
  unfold Walker.nextFirstR at h
  split at h
  · cases h
  · next e _ _ => exact absurd (congrArg Prod.fst h) (ofFileReadFailed_ne_ok e _)
  · next r k hr' =>
    split at h
    · cases h
    · next n hn =>
      simp only at h
      split at h
      · cases h
      · cases h
      · next ie hie =>
        cases h
        have hm := moved_leafR hie
        refine .block m n [] ie hr hp hn (fun _ h => nomatch h) hm.1 (fun _ h => absurd h hne) hm.1.depth rfl
          (popNext_current _ _) (popNext_rlinks _ _) (fun h => by rcases hty with k | k <;> (rw [k] at h; cases h)) (fun h => by rw [hm.2] at h; rcases h with h | h <;> cases h) (fun h => by rw [hm.2] at h; cases h) ?_ ?_
        · intro v sz hk
          rw [hm.2] at hk
          exact ⟨hty, r, _, hr', (InnerKind.File.inj hk).1⟩
        · intro h
          cases hv : r.next with
          | none => rw [hv] at h; exact .inl (by simpa using h)
          | some v => exact .inr ⟨v, r.total_size, by rw [hm.2, hv]⟩

theorem nextSymlinkR_ok {w w' : Walker} {b : Bytes} {cache cache' : Option VisitCache} {item : ContinuedWalk} {m : FlatUnixFs} {md : Metadata} (hr : w.atRest)
    (hp : Reads b m) (hty : m.data.Ty = .Symlink) (h : w.nextSymlinkR m md cache = (.ok item, w', cache')) : RStep w b cache item w' := by
  unfold Walker.nextSymlinkR at h
  simp only at h
  split at h
  · cases h
  · next n hn =>
    split at h
    · cases h
    · cases h
    · next ie hie =>
      cases h
      have hm := moved_leafR hie
      exact .block m n [] ie hr hp hn (fun _ h => nomatch h) hm.1 (fun _ h => by rw [hty] at h; cases h) hm.1.depth rfl
        (popNext_current _ _) (popNext_rlinks _ _) (fun h => by rw [hty] at h; cases h) (fun h => by rw [hm.2] at h; rcases h with h | h <;> cases h) (fun h => by rw [hm.2] at h; cases h)
        (fun _ _ h => by rw [hm.2] at h; cases h) (fun h => .inl (by rw [← h, popNext_continue]))

theorem stepRel_ok {w w' : Walker} {b : Bytes} {cache cache' : Option VisitCache} {item : ContinuedWalk}
    (h : w.stepRel b cache = some (.ok item, w', cache')) : RStep w b cache item w' := by
  by_cases hf : ∃ ie v sz, w.current = some ie ∧ ie.kind = .File (some v) sz
  · obtain ⟨ie, v, sz, hc, hk⟩ := hf
    rw [stepRel_inFile hc hk] at h
    obtain ⟨x, hx, h⟩ := Option.map_eq_some_iff.1 h
    unfold Walker.nextFileP at h
    split at h
    · cases h
    · next e _ =>
      exact absurd (congrArg Prod.fst h) (ofFileReadFailed_ne_ok e _)
    · cases h
      exact .later ie { ie with kind := .File _ sz } v sz _ _ hc hk rfl rfl rfl rfl rfl rfl ⟨_, hx⟩ rfl rfl
  · have hr : w.atRest := fun ie v sz hc hk => hf ⟨ie, v, sz, hc, hk⟩
    rw [stepRel_atRest hr] at h
    obtain ⟨parsed, hp, h⟩ := Option.map_eq_some_iff.1 h
    unfold Walker.nextBlockP at h
    cases parsed with
    | error e => cases h
    | ok m =>
      simp only at h
      split at h
      · next hty =>
        split at h
        · cases h
        · next m' hm' =>
          cases checkDirectorySupported_ok hm'
          obtain ⟨n, ls, ie, hn, hls, he, rfl⟩ := nextDir_ok h
          have hm := moved_directoryR he
          refine .block m n ls ie hr hp hn (fun l hl => ?_) hm.1 (fun _ h => by rw [hty] at h; cases h) hm.1.depth hm.2.1 (popNext_current _ _) (by rw [popNext_rlinks]; simp)
            (fun _ hne e => by
              rw [e] at hls
              have := congrArg List.length hls
              rw [List.length_map, List.length_zipIdx] at this
              exact hne (List.length_eq_zero_iff.1 this))
            (fun _ => hty) (fun h => by rcases hm.2.2 with k | k <;> (rw [k] at h; cases h)) (fun _ _ h => by rcases hm.2.2 with k | k <;> (rw [k] at h; cases h))
            (fun h => .inl (by rw [← h, popNext_continue]))
          obtain ⟨i, x, hx, hcv⟩ := took hls hl
          obtain ⟨h1, h2, h3, h4, h5⟩ := convertLink_took hcv
          exact .entry x hx hty h1 h2 h3 h4 h5
      · next hty =>
        split at h
        · cases h
        · cases h
        · next m' hm' =>
          cases checkHamtshardSupported_ok hm'
          obtain ⟨n, ls, ie, hn, hls, he, rfl⟩ := nextDir_ok h
          have hm := moved_shardR he
          refine .block m n ls ie hr hp hn (fun l hl => ?_) hm.1 (fun h1 _ h2 => hm.2.2.1 h1 h2) hm.1.depth hm.2.1 (popNext_current _ _) (by rw [popNext_rlinks]; simp)
            (fun h => by rw [hty] at h; cases h)
            (fun h => by rcases hm.2.2.2 with ⟨k, _⟩ | k | k <;> (rw [k] at h; rcases h with h | h <;> cases h))
            (fun h => by rcases hm.2.2.2 with ⟨_, k⟩ | k | k; (exact k); all_goals (rw [k] at h; cases h))
            (fun _ _ h => by rcases hm.2.2.2 with ⟨k, _⟩ | k | k <;> (rw [k] at h; cases h))
            (fun h => .inl (by rw [← h, popNext_continue]))
          obtain ⟨i, x, hx, hcv⟩ := took hls hl
          obtain ⟨s, h1, h2, h3 | h3⟩ := convertShardedLink_took hcv
          · exact .shardEntry x s hx hty h1 h3.1 h3.2.1 h3.2.2.1 h3.2.2.2 h2
          · exact .bucket x s hx hty h1 h3.1 h3.2.1 h3.2.2 h2
      · next hty => exact nextFirstR_ok hr hp (.inl hty) h
      · next hty => exact nextFirstR_ok hr hp (.inr hty) h
      · cases h
      · next hty => exact nextSymlinkR_ok hr hp hty h

end Verif
