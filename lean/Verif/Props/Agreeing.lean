import Verif.Spec.Agreeing
import Verif.Props.DepthFirst
import Verif.Props.Resolve
/-
C121: what a walk reports at a path and what looking the names up finds.
-/
namespace Verif.Props
open Verif Verif.Spec Verif.Examples

/-- What is visited when following the links below something awaited. -/
inductive Beneath (get : Cid → Option Bytes) : Awaited → Awaited → Prop
  | self (a : Awaited) : Beneath get a a
  | link {a a' b : Awaited} {block : Bytes} {m : FlatUnixFs} : get a.cid = some block → FlatUnixFs.tryParse block = .ok m →
      a' ∈ m.links.filterMap (follow a m) → Beneath get a' b → Beneath get a b

/-- What is known about a block which a walk accepted. -/
structure Sound (a : Awaited) (m : FlatUnixFs) : Prop where
  bucket : a.what = .bucket → m.data.Ty = .HAMTShard
  dir : a.what ≠ .fileBlock → m.data.Ty = .Directory → DirNode m
  shard : a.what ≠ .fileBlock → m.data.Ty = .HAMTShard → ShardNode m ∧ ∀ l ∈ m.links, 2 ≤ (shardName l).length ∧
    (2 < (shardName l).length → isCharBoundary (shardName l) 2 = true)

theorem converted_each {conv : Nat → PBLink → Res InvalidCidInLink WalkLink} : ∀ {links : List PBLink} {k : Nat} {ls : List WalkLink},
    (links.zipIdx k).map (fun x => conv x.2 x.1) = ls.map .ok → ∀ l ∈ links, ∃ i w, conv i l = .ok w := by
  intro links
  induction links with
  | nil => intro k ls _ l hl; cases hl
  | cons x links ih =>
    intro k ls h l hl
    cases ls with
    | nil => simp at h
    | cons w ls =>
      simp only [List.zipIdx_cons, List.map_cons, List.cons.injEq] at h
      rcases List.mem_cons.1 hl with rfl | hl
      · exact ⟨_, _, h.1⟩
      · exact ih h.2 l hl

theorem dirNode_of_check {m : FlatUnixFs} (ht : m.data.Ty = .Directory) (h : checkDirectorySupported m = .ok m) : DirNode m := by
  unfold checkDirectorySupported at h
  simp only at h
  split at h
  · cases h
  next hn =>
    simp only [not_or, Decidable.not_not, Option.not_isSome_iff_eq_none] at hn
    exact ⟨ht, hn.1, hn.2.1, hn.2.2.1, hn.2.2.2.1, hn.2.2.2.2⟩

theorem shardNode_of_check {m : FlatUnixFs} (ht : m.data.Ty = .HAMTShard) (h : checkHamtshardSupported m = .ok m) : ShardNode m := by
  unfold checkHamtshardSupported checkShardSupported at h
  rw [Res.bind_ok_iff] at h
  obtain ⟨_, h, -⟩ := h
  rw [if_neg (by simp [ht])] at h
  split at h
  · cases h
  next h1 =>
  split at h
  · cases h
  next h2 =>
    simp only [not_or, Decidable.not_not, Option.not_isSome_iff_eq_none] at h1 h2
    exact ⟨ht, h1.1, h1.2, h2.1, h2.2⟩

theorem step_sound {w w' : Walker} {fb rest aw : List Awaited} {a : Awaited} {b : Bytes} {cache : Option VisitCache} {item : ContinuedWalk}
    {m : FlatUnixFs} {cid : Cid} {before : List ContinuedWalk} {last : Bool} (h : WInv w fb rest) (hq : fb ++ rest = a :: aw)
    (hm : FlatUnixFs.tryParse b = .ok m) (hs : WStep w b cache item w') (hrep : reportedFor cid before a m last item) : Sound a m := by
  have hb : a.what = .bucket → m.data.Ty = .HAMTShard := by
    intro ha
    by_cases hr : RootBuckets before
    · exact (hrep.2 ha hr).1
    · have := hrep.1 (fun h => hr h.2)
      unfold itemFor at this
      rw [ha] at this
      revert this
      cases m.data.Ty <;> simp
  refine ⟨hb, ?_, ?_⟩
  · intro ha ht
    cases hs with
    | later ie v sz c next h1 h2 h3 h4 h5 =>
      obtain ⟨hne, hwhat, -⟩ := h.file.of_inFile h1 h2
      cases fb with
      | nil => exact absurd rfl hne
      | cons a' fb => cases hq; exact absurd (hwhat a (by simp)) ha
    | directory m' n ls ie hr hm' hty hsup hn hls he hw => rw [hm] at hm'; cases hm'; exact dirNode_of_check hty hsup
    | shard m' n ls ie hr hm' hty hsup hn hls he hw => rw [hm] at hm'; cases hm'; rw [ht] at hty; cases hty
    | first m' n r ie hr hm' hty hres hn he hitem hw => rw [hm] at hm'; cases hm'; rw [ht] at hty; rcases hty with h | h <;> cases h
    | symlink m' n ie hr hm' hty hn he hitem hw => rw [hm] at hm'; cases hm'; rw [ht] at hty; cases hty
  · intro ha ht
    cases hs with
    | later ie v sz c next h1 h2 h3 h4 h5 =>
      obtain ⟨hne, hwhat, -⟩ := h.file.of_inFile h1 h2
      cases fb with
      | nil => exact absurd rfl hne
      | cons a' fb => cases hq; exact absurd (hwhat a (by simp)) ha
    | directory m' n ls ie hr hm' hty hsup hn hls he hw => rw [hm] at hm'; cases hm'; rw [ht] at hty; cases hty
    | shard m' n ls ie hr hm' hty hsup hn hls he hw =>
      rw [hm] at hm'
      cases hm'
      refine ⟨shardNode_of_check hty hsup, ?_⟩
      intro l hl
      obtain ⟨i, x, hx⟩ := converted_each (conv := fun i l => convertShardedLink (n.depth + 1) n.depth i l) hls l hl
      unfold convertShardedLink at hx
      split at hx
      · cases hx
      split at hx
      · cases hx
      next s hs =>
      have hsn : shardName l = s := by simp [shardName, hs]
      rw [hsn]
      split at hx
      next h1 =>
        split at hx
        · cases hx
        next h2 => exact ⟨by omega, fun _ => by simpa using h2⟩
      next h1 =>
        split at hx
        next h2 => exact ⟨by omega, fun h => absurd h h1⟩
        · cases hx
    | first m' n r ie hr hm' hty hres hn he hitem hw => rw [hm] at hm'; cases hm'; rw [ht] at hty; rcases hty with h | h <;> cases h
    | symlink m' n ie hr hm' hty hn he hitem hw => rw [hm] at hm'; cases hm'; rw [ht] at hty; cases hty

/-- What is reported for a block: the first block of something gives its Cid and path; more of a file repeats what was said. -/
theorem whereIs_reported {cid : Cid} {before : List ContinuedWalk} {a : Awaited} {m : FlatUnixFs} {last : Bool} {item : ContinuedWalk}
    (h : reportedFor cid before a m last item) :
    (a.what = .entry → whereIs item = some (a.cid, ⟨false, a.path⟩)) ∧ (a.what = .bucket → whereIs item = none) ∧
    (a.what = .fileBlock → ∃ x, before.getLast? = some x ∧ whereIs item = whereIs x) := by
  refine ⟨?_, ?_, ?_⟩
  · intro ha
    have := h.1 (by rw [ha]; simp)
    unfold itemFor at this
    rw [ha] at this
    revert this
    cases m.data.Ty <;> simp only <;> try (intro h; cases h; done)
    all_goals try (intro h; cases h; rfl)
    intro h
    split at h <;> (cases h; rfl)
  · intro ha
    by_cases hr : RootBuckets before
    · rw [(h.2 ha hr).2]; rfl
    · have := h.1 (fun h => hr h.2)
      unfold itemFor at this
      rw [ha] at this
      revert this
      cases m.data.Ty <;> simp only <;> try (intro h; cases h; done)
      intro h; cases h; rfl
  · intro ha
    have := h.1 (by rw [ha]; simp)
    unfold itemFor at this
    rw [ha] at this
    simp only at this
    split at this
    next x _ _ _ _ _ hx => cases this; exact ⟨_, hx, rfl⟩
    · cases this

theorem walk_where (get : Cid → Option Bytes) (cid : Cid) (name : Bytes) (hname : slash ∉ name) (w : Walker) (cache : Option VisitCache) (r)
    (h : walkLog get w cache = some r) :
    ∀ fb rest before, St cid name before w fb rest → CacheOk cache → r.2 = .finished →
      (∀ a ∈ fb ++ rest, ∀ b, Beneath get a b → (∃ block m, get b.cid = some block ∧ FlatUnixFs.tryParse block = .ok m ∧ Sound b m) ∧
        (b.what = .entry → ∃ x ∈ r.1, whereIs x.2 = some (b.cid, ⟨false, b.path⟩))) ∧
      ∀ x ∈ r.1, ∀ y, whereIs x.2 = some y → (∃ a ∈ fb ++ rest, ∃ b, Beneath get a b ∧ b.what = .entry ∧ y = (b.cid, ⟨false, b.path⟩)) ∨
        ∃ z, before.getLast? = some z ∧ whereIs z = some y := by
  refine walkLog.partial_correctness get (fun w cache r => ∀ fb rest before, St cid name before w fb rest → CacheOk cache → r.2 = .finished →
      (∀ a ∈ fb ++ rest, ∀ b, Beneath get a b → (∃ block m, get b.cid = some block ∧ FlatUnixFs.tryParse block = .ok m ∧ Sound b m) ∧
        (b.what = .entry → ∃ x ∈ r.1, whereIs x.2 = some (b.cid, ⟨false, b.path⟩))) ∧
      ∀ x ∈ r.1, ∀ y, whereIs x.2 = some y → (∃ a ∈ fb ++ rest, ∃ b, Beneath get a b ∧ b.what = .entry ∧ y = (b.cid, ⟨false, b.path⟩)) ∨
        ∃ z, before.getLast? = some z ∧ whereIs z = some y) ?_ w cache r h
  intro rec ih w cache r h fb rest before hst0 hc hfin
  have hw := hst0.wi
  by_cases hsc : w.shouldContinue = false
  · rw [if_pos hsc] at h
    cases h
    have := hw.cont
    rw [show w.should_continue = false from hsc] at this
    have hnil : fb ++ rest = [] := by simpa using this
    rw [hnil]
    exact ⟨nofun, nofun⟩
  · rw [if_neg hsc] at h
    cases hq : fb ++ rest with
    | nil =>
      have := hw.cont
      rw [hq] at this
      exact absurd this hsc
    | cons a aw =>
      rw [pendingLinks_eq hw hq] at h
      simp only at h
      cases hg : get a.cid with
      | none => simp only [hg] at h; cases h; cases hfin
      | some block =>
        simp only [hg] at h
        rcases hst : w.step block cache with ⟨x, w', cache'⟩
        rw [hst] at h
        cases x with
        | panic p => cases h; cases hfin
        | err e => cases h; cases hfin
        | ok item =>
          simp only at h
          cases hr : rec w' cache' with
          | none => rw [hr] at h; cases h
          | some r' =>
            rw [hr] at h
            cases h
            obtain ⟨m, a', aw', fb0, rest0, hm, haw, hk0, hw'0⟩ := hw.step hc (step_ok hst)
            obtain ⟨w1, c1, fb', rest', hstep, hc1, -, hk, hrep, hst1⟩ := hst0.step (get := get) hq hg hc hname hm (item := item) (by rw [hst])
            rw [hst] at hstep
            cases hstep
            have hsound := step_sound hw hq hm (step_ok hst) hrep
            obtain ⟨h3, h4⟩ := ih w' cache' r' hr fb' rest' (before ++ [item]) hst1 hc1 hfin
            rw [← hk] at h3 h4
            obtain ⟨e1, e2, e3⟩ := whereIs_reported hrep
            have hat : ∀ y, whereIs item = some y → (∃ a1 ∈ a :: aw, ∃ b, Beneath get a1 b ∧ b.what = .entry ∧ y = (b.cid, ⟨false, b.path⟩)) ∨
                ∃ z, before.getLast? = some z ∧ whereIs z = some y := by
              intro y hy
              cases hwh : a.what with
              | entry =>
                rw [e1 hwh] at hy
                exact .inl ⟨a, by simp, a, .self a, hwh, by cases hy; rfl⟩
              | bucket => rw [e2 hwh] at hy; cases hy
              | fileBlock =>
                obtain ⟨z, hz1, hz2⟩ := e3 hwh
                exact .inr ⟨z, hz1, by rw [← hz2]; exact hy⟩
            constructor
            · intro a1 ha1 b hb
              rcases List.mem_cons.1 ha1 with rfl | ha1
              · cases hb with
                | self => exact ⟨⟨block, m, hg, hm, hsound⟩, fun hwh => ⟨(a1.cid, item), by simp, e1 hwh⟩⟩
                | link hg' hm' ha' hb' =>
                  rw [hg] at hg'
                  cases hg'
                  rw [hm] at hm'
                  cases hm'
                  obtain ⟨h5, h6⟩ := h3 _ (List.mem_append_left _ ha') b hb'
                  exact ⟨h5, fun hwh => by obtain ⟨x, hx, hx'⟩ := h6 hwh; exact ⟨x, by simp [hx], hx'⟩⟩
              · obtain ⟨h5, h6⟩ := h3 _ (List.mem_append_right _ ha1) b hb
                exact ⟨h5, fun hwh => by obtain ⟨x, hx, hx'⟩ := h6 hwh; exact ⟨x, by simp [hx], hx'⟩⟩
            · intro x hx y hy
              rcases List.mem_cons.1 hx with rfl | hx
              · exact hat y hy
              · rcases h4 x hx y hy with ⟨a1, ha1, b, hb, hwh, hyb⟩ | ⟨z, hz, hzy⟩
                · rcases List.mem_append.1 ha1 with ha1 | ha1
                  · exact .inl ⟨a, by simp, b, .link hg hm ha1 hb, hwh, hyb⟩
                  · exact .inl ⟨a1, by simp [ha1], b, hb, hwh, hyb⟩
                · rw [List.getLast?_concat] at hz
                  cases hz
                  exact hat y hzy

/-! ### names and what is visited -/

section
variable {get : Cid → Option Bytes}

theorem follow_what_file {a : Awaited} {m : FlatUnixFs} {a' : Awaited} (h : a' ∈ m.links.filterMap (follow a m))
    (ha : a.what = .fileBlock ∨ a.what ≠ .fileBlock ∧ (m.data.Ty = .File ∨ m.data.Ty = .Raw)) : a'.what = .fileBlock := by
  obtain ⟨l, -, hl⟩ := List.mem_filterMap.1 h
  unfold follow at hl
  rcases ha with ha | ⟨ha, h | h⟩
  · simp only [ha, if_true] at hl; exact linkTo_what hl
  · simp only [ha, if_false, h] at hl; exact linkTo_what hl
  · simp only [ha, if_false, h] at hl; exact linkTo_what hl

theorem beneath_file {a b : Awaited} (h : Beneath get a b) : a.what = .fileBlock → b.what = .fileBlock := by
  induction h with
  | self => exact id
  | link _ _ ha' _ ih => intro ha; exact ih (follow_what_file ha' (.inl ha))

theorem linkTo_eq {path : List Bytes} {what : What} {l : PBLink} {a : Awaited} (h : linkTo path what l = some a) :
    Cid.tryFrom (l.Hash.getD []) = .ok a.cid ∧ a.path = path ∧ a.what = what := by
  unfold linkTo at h
  split at h
  next c hc => cases h; exact ⟨hc, rfl, rfl⟩
  · cases h

/-- What is visited below an entry, or below a bucket, is found by its names. -/
theorem beneath_path {a b : Awaited} (h : Beneath get a b) :
    (∀ x, Beneath get a x → ∃ block m, get x.cid = some block ∧ FlatUnixFs.tryParse block = .ok m ∧ Sound x m) → b.what = .entry →
    (a.what = .entry → ∃ names, b.path = a.path ++ names ∧ Path get a.cid names b.cid) ∧
    (a.what = .bucket → ∃ block m name names c, get a.cid = some block ∧ FlatUnixFs.tryParse block = .ok m ∧ ShardNode m ∧
      b.path = a.path ++ name :: names ∧ InShard get name m.links c ∧ Path get c names b.cid) := by
  induction h with
  | self a => intro _ hb; exact ⟨fun _ => ⟨[], by simp, .here _⟩, fun h => by rw [hb] at h; cases h⟩
  | @link a a' b block m hg hm ha' hb ih =>
    intro hall hbw
    obtain ⟨block', m', hg', hm', hs⟩ := hall a (.self a)
    rw [hg] at hg'
    cases hg'
    rw [hm] at hm'
    cases hm'
    obtain ⟨ih1, ih2⟩ := ih (fun x hx => hall x (.link hg hm ha' hx)) hbw
    have hnf : a'.what ≠ .fileBlock := by
      intro h
      have := beneath_file hb h
      rw [hbw] at this
      cases this
    have haf : a.what ≠ .fileBlock := fun h => hnf (follow_what_file ha' (.inl h))
    obtain ⟨l, hl, hfl⟩ := List.mem_filterMap.1 ha'
    cases hty : m.data.Ty with
    | File => exact absurd (follow_what_file ha' (.inr ⟨haf, .inl hty⟩)) hnf
    | Raw => exact absurd (follow_what_file ha' (.inr ⟨haf, .inr hty⟩)) hnf
    | Symlink => simp [follow, haf, hty] at hfl
    | Metadata => simp [follow, haf, hty] at hfl
    | Directory =>
      simp only [follow, haf, if_false, hty] at hfl
      obtain ⟨hc, hp, hw⟩ := linkTo_eq hfl
      obtain ⟨names, h1, h2⟩ := ih1 hw
      refine ⟨fun _ => ⟨l.Name.getD [] :: names, by rw [h1, hp]; simp, .step (.plain hg (links := m.links) (.inl ?_) hl rfl hc) h2⟩, fun h => ?_⟩
      · have := hs.dir haf hty
        exact ⟨m, hm, this.1, this.2.1, this.2.2.1, this.2.2.2.1, this.2.2.2.2.1, this.2.2.2.2.2, rfl⟩
      · rw [hs.bucket h] at hty; cases hty
    | HAMTShard =>
      obtain ⟨hsn, hnames⟩ := hs.shard haf hty
      have key : ∃ name names c, b.path = a.path ++ name :: names ∧ InShard get name m.links c ∧ Path get c names b.cid := by
        simp only [follow, haf, if_false, hty] at hfl
        split at hfl
        next h2 =>
          obtain ⟨hc, hp, hw⟩ := linkTo_eq hfl
          obtain ⟨block1, m1, name, names, c, h3, h4, h5, h6, h7, h8⟩ := ih2 hw
          exact ⟨name, names, c, by rw [h6, hp], .bucket hl h2 hc h3 h4 h5 h7, h8⟩
        next h2 =>
          obtain ⟨hc, hp, hw⟩ := linkTo_eq hfl
          obtain ⟨names, h3, h4⟩ := ih1 hw
          obtain ⟨h5, h6⟩ := hnames l hl
          have h7 : 2 < (shardName l).length := by unfold shardName at h5 ⊢; omega
          exact ⟨(shardName l).drop 2, names, a'.cid, by rw [h3, hp]; simp [shardName], .here hl ⟨h7, h6 h7, rfl⟩ hc, h4⟩
      obtain ⟨name, names, c, h3, h4, h5⟩ := key
      exact ⟨fun _ => ⟨name :: names, h3, .step (.sharded hg hm hsn h4) h5⟩, fun _ => ⟨block, m, name, names, c, hg, hm, hsn, h3, h4, h5⟩⟩

theorem inShard_beneath {name : Bytes} {links : List PBLink} {c : Cid} (h : InShard get name links c) :
    ∀ (a : Awaited) (block : Bytes) (m : FlatUnixFs), a.what ≠ .fileBlock → get a.cid = some block → FlatUnixFs.tryParse block = .ok m →
      m.data.Ty = .HAMTShard → m.links = links → ∀ b, Beneath get ⟨c, a.path ++ [name], .entry⟩ b → Beneath get a b := by
  induction h with
  | @here links l c hl hhit hc =>
    intro a block m ha hg hm hty hlinks b hb
    refine .link hg hm (List.mem_filterMap.2 ⟨l, by rw [hlinks]; exact hl, ?_⟩) hb
    obtain ⟨h1, -, h3⟩ := hhit
    unfold shardName at h1 h3
    simp only [follow, ha, if_false, hty]
    rw [if_neg (by omega)]
    simp [linkTo, hc, h3]
  | @bucket links l b' block' m' c hl hb' hc hg' hm' hsn _ ih =>
    intro a block m ha hg hm hty hlinks b hb
    refine .link hg hm (a' := ⟨b', a.path, .bucket⟩) (List.mem_filterMap.2 ⟨l, by rw [hlinks]; exact hl, ?_⟩) ?_
    · unfold IsBucket shardName at hb'
      simp only [follow, ha, if_false, hty]
      rw [if_pos hb']
      simp [linkTo, hc]
    · exact ih ⟨b', a.path, .bucket⟩ block' m' (by simp) hg' hm' hsn.1 rfl b hb

theorem path_beneath {d : Cid} {names : List Bytes} {c : Cid} (h : Path get d names c) : ∀ path : List Bytes,
    (∀ x, Beneath get ⟨d, path, .entry⟩ x → ∃ block m, get x.cid = some block ∧ FlatUnixFs.tryParse block = .ok m ∧ Sound x m) →
    Beneath get ⟨d, path, .entry⟩ ⟨c, path ++ names, .entry⟩ := by
  induction h with
  | here d => intro path _; rw [List.append_nil]; exact .self _
  | @step d d' c name names he _ ih =>
    intro path hall
    have down : ∀ b, Beneath get ⟨d', path ++ [name], .entry⟩ b → Beneath get ⟨d, path, .entry⟩ b := by
      intro b hb
      cases he with
      | @plain block links l hg hpd hl hn hc =>
        obtain ⟨block', m, hg', hm, -⟩ := hall _ (.self _)
        simp only at hg'
        rw [hg] at hg'
        cases hg'
        rcases hpd with ⟨m', hm', hty, -, -, -, -, -, rfl⟩ | ⟨n, hn', -, hd⟩
        · rw [hm] at hm'
          cases hm'
          refine .link hg hm (List.mem_filterMap.2 ⟨l, hl, ?_⟩) hb
          simp [follow, hty, linkTo, hc, hn]
        · exfalso
          unfold FlatUnixFs.tryParse at hm
          rw [hn'] at hm
          rcases hd with hd | ⟨s, hd, hs | ⟨e, he⟩⟩
          · simp [hd] at hm
          · simp [hd, hs] at hm
          · simp only [hd, he] at hm
            split at hm <;> cases hm
      | @sharded block m hg hm hsn hin =>
        exact inShard_beneath hin ⟨d, path, .entry⟩ block m (by simp) hg hm hsn.1 rfl b hb
    have := down _ (ih (path ++ [name]) (fun x hx => hall x (down x hx)))
    simpa using this

end

theorem whole_walk (get : Cid → Option Bytes) (c : Cid) (name : Bytes) (hname : slash ∉ name) (cache : Option VisitCache)
    (hc : ∀ k, cache = some k → CacheObtainable k) (log : List (Cid × ContinuedWalk))
    (h : walkLog get (Walker.new c name) cache = some (log, .finished)) :
    (∀ b, Beneath get ⟨c, rootPath name, .entry⟩ b → (∃ block m, get b.cid = some block ∧ FlatUnixFs.tryParse block = .ok m ∧ Sound b m) ∧
        (b.what = .entry → ∃ x ∈ log, whereIs x.2 = some (b.cid, ⟨false, b.path⟩))) ∧
      ∀ x ∈ log, ∀ y, whereIs x.2 = some y → ∃ b, Beneath get ⟨c, rootPath name, .entry⟩ b ∧ b.what = .entry ∧ y = (b.cid, ⟨false, b.path⟩) := by
  have hs : St c name [] (Walker.new c name) [] [⟨c, rootPath name, .entry⟩] := ⟨WInv.new _ _, .inl ⟨rfl, rfl, rfl⟩⟩
  obtain ⟨h1, h2⟩ := walk_where get c name hname _ cache _ h _ _ _ hs hc rfl
  refine ⟨fun b hb => h1 _ (by simp) b hb, ?_⟩
  intro x hx y hy
  rcases h2 x hx y hy with ⟨a, ha, b, hb, hw, hyb⟩ | ⟨z, hz, -⟩
  · simp only [List.nil_append, List.mem_singleton] at ha
    subst ha
    exact ⟨b, hb, hw, hyb⟩
  · cases hz

/-- C121: after a walk over whatever blocks has finished, something with a Cid was reported at a path exactly if the names of the path lead
from the root to this Cid, through entries of directories of either kind. -/
theorem C121_reported (get : Cid → Option Bytes) (c : Cid) (name : Bytes) (hname : slash ∉ name) (cache : Option VisitCache)
    (hc : ∀ k, cache = some k → CacheObtainable k) (log : List (Cid × ContinuedWalk))
    (h : walkLog get (Walker.new c name) cache = some (log, .finished)) (names : List Bytes) (d : Cid) :
    (∃ x ∈ log, whereIs x.2 = some (d, ⟨false, rootPath name ++ names⟩)) ↔ Path get c names d := by
  obtain ⟨h1, h2⟩ := whole_walk get c name hname cache hc log h
  constructor
  · rintro ⟨x, hx, hw⟩
    obtain ⟨b, hb, hbw, hy⟩ := h2 x hx _ hw
    obtain ⟨names', h3, h4⟩ := (beneath_path hb (fun x hx => (h1 x hx).1) hbw).1 rfl
    simp only [Prod.mk.injEq, PathBuf.mk.injEq, true_and] at hy
    rw [hy.1]
    rw [h3] at hy
    rw [List.append_cancel_left hy.2]
    exact h4
  · intro hp
    have hb := path_beneath hp (rootPath name) (fun x hx => (h1 x hx).1)
    exact (h1 _ hb).2 rfl

/-- C121: nothing is reported elsewhere than below the root. -/
theorem C121_below (get : Cid → Option Bytes) (c : Cid) (name : Bytes) (hname : slash ∉ name) (cache : Option VisitCache)
    (hc : ∀ k, cache = some k → CacheObtainable k) (log : List (Cid × ContinuedWalk))
    (h : walkLog get (Walker.new c name) cache = some (log, .finished)) (x) (hx : x ∈ log) (d : Cid) (p : PathBuf)
    (hw : whereIs x.2 = some (d, p)) : ∃ names, p = ⟨false, rootPath name ++ names⟩ ∧ Path get c names d := by
  obtain ⟨h1, h2⟩ := whole_walk get c name hname cache hc log h
  obtain ⟨b, hb, hbw, hy⟩ := h2 x hx _ hw
  obtain ⟨names', h3, h4⟩ := (beneath_path hb (fun x hx => (h1 x hx).1) hbw).1 rfl
  simp only [Prod.mk.injEq] at hy
  exact ⟨names', by rw [hy.2, h3], by rw [hy.1]; exact h4⟩

theorem path_split {get : Cid → Option Bytes} : ∀ {before : List Bytes} {c d : Cid} {name : Bytes} {after : List Bytes},
    Path get c (before ++ name :: after) d → ∃ d1 d2, Path get c before d1 ∧ EntryOf get d1 name d2 ∧ Path get d2 after d := by
  intro before
  induction before with
  | nil =>
    intro c d name after h
    cases h with
    | step h1 h2 => exact ⟨c, _, .here c, h1, h2⟩
  | cons n before ih =>
    intro c d name after h
    cases h with
    | step h1 h2 =>
      obtain ⟨d1, d2, h3, h4, h5⟩ := ih h2
      exact ⟨d1, d2, .step h1 h3, h4, h5⟩

/-- C121, the resolve example: a Cid which it finds for some names was reported by the walk at this path; and if no path was reported for two
different Cids, nothing was reported at a path for which it says that there is nothing. -/
theorem C121_resolve (get : Cid → Option Bytes) (c : Cid) (name : Bytes) (hname : slash ∉ name) (cache : Option VisitCache)
    (hc : ∀ k, cache = some k → CacheObtainable k) (log : List (Cid × ContinuedWalk))
    (h : walkLog get (Walker.new c name) cache = some (log, .finished)) (names : List Bytes) :
    (∀ d, resolveWalk get ⟨c, names⟩ = some (.ok (some d)) → ∃ x ∈ log, whereIs x.2 = some (d, ⟨false, rootPath name ++ names⟩)) ∧
    ((∀ x ∈ log, ∀ y ∈ log, ∀ d d' p, whereIs x.2 = some (d, p) → whereIs y.2 = some (d', p) → d = d') →
      resolveWalk get ⟨c, names⟩ = some (.ok none) → ∀ x ∈ log, ∀ d, whereIs x.2 ≠ some (d, ⟨false, rootPath name ++ names⟩)) := by
  have hr := C121_reported get c name hname cache hc log h
  refine ⟨fun d hd => (hr names d).2 (C73_found get c names d hd), ?_⟩
  intro hone hn x hx d hw
  obtain ⟨before, n, after, d0, rfl, hp, hno⟩ := C73_notFound get c names hn
  have hpath := (hr _ d).1 ⟨x, hx, hw⟩
  obtain ⟨d1, d2, h1, h2, -⟩ := path_split hpath
  obtain ⟨x1, hx1, hw1⟩ := (hr before d1).2 h1
  obtain ⟨x0, hx0, hw0⟩ := (hr before d0).2 hp
  rw [hone x1 hx1 x0 hx0 d1 d0 _ hw1 hw0] at h2
  exact hno d2 h2

/-- The sample tree: the symlink in the bucket of the sharded directory is reported at its path, and looking up the two names leads there;
nothing is called `b`. -/
theorem C121_example : ∃ log, walkLog (storeN sampleFsBlocks) (Walker.new (cidN 0) []) none = some (log, .finished) ∧
    Path (storeN sampleFsBlocks) (cidN 0) [[115], [108]] (cidN 6) ∧ ∀ d, ¬ Path (storeN sampleFsBlocks) (cidN 0) [[98]] d := by
  obtain ⟨log, h1, h2, -⟩ := C120_tree (storeN sampleFsBlocks) sampleRoot none sampleRoot_at trivial (by decide) nofun (by
    rw [show sampleRoot.walkItems = _ :: _ from rfl, ← bad_iff]; decide +kernel)
  have h1' : walkLog (storeN sampleFsBlocks) (Walker.new (cidN 0) []) none = some (log, .finished) := h1
  have hr := C121_reported _ (cidN 0) [] (by decide) none nofun log h1'
  have hitems : ∀ y, (∃ x ∈ log, whereIs x.2 = some y) ↔ some y ∈ (rootCids sampleRoot.cid sampleRoot.walkItems).map whereIs := by
    intro y
    rw [← h2, List.map_map, List.mem_map]
    rfl
  have hlist : (rootCids sampleRoot.cid sampleRoot.walkItems).map whereIs = [some (cidN 0, ⟨false, []⟩), some (cidN 1, ⟨false, [[97]]⟩),
      some (cidN 1, ⟨false, [[97]]⟩), some (cidN 1, ⟨false, [[97]]⟩), some (cidN 4, ⟨false, [[115]]⟩), none,
      some (cidN 6, ⟨false, [[115], [108]]⟩), some (cidN 7, ⟨false, [[100]]⟩)] := by decide +kernel
  refine ⟨log, h1', (hr _ _).1 ((hitems _).2 ?_), ?_⟩
  · rw [hlist]; simp [rootPath]
  · intro d hd
    have := (hitems _).1 ((hr _ _).2 hd)
    rw [hlist] at this
    simp [rootPath] at this

end Verif.Props
