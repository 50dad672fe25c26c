import Verif.Props.ReleaseWalk
/-
C113: when walking does not panic in a release build.
-/
namespace Verif.Props
open Verif Verif.Spec

/-! ### files -/

theorem fromPartsR_ne_read {m : FlatUnixFs} {o : Nat} {md : Metadata} (e : Option PbError) : FileReader.fromPartsR m o md ≠ .err (.Read e) := by
  rcases fromPartsR_cases m o md with ⟨-, -, -, h⟩ | ⟨-, -, e', h⟩ | ⟨fs, e', -, -, h⟩
  · rw [h]; nofun
  · intro h'
    unfold FileReader.fromPartsR at h'
    dsimp only at h'
    split at h'
    · cases h'
    split at h'
    · cases h'
    split at h'
    · cases h'
    split at h'
    · cases h'
    unfold FileReader.endOfR at h'
    split at h'
    · simp only [Res.bind_ok] at h'
      split at h' <;> cases h'
    · cases hf : m.data.filesize with
      | none => rw [hf] at h'; cases h'
      | some fs => rw [hf] at h'; cases h'
  · rw [h]; nofun

theorem collectLinksR_ne_read (t : Option Rng) (e : Option PbError) : ∀ (z : List (PBLink × Nat)) (i base : Nat),
    collectLinksR t i base z ≠ .err (.Read e)
  | [], _, _, h => by cases h
  | (l, n) :: z, i, base, h => by
    rw [collectLinksR] at h
    split at h
    · exact collectLinksR_ne_read t e z _ _ h
    · unfold toPending at h
      cases hc : Cid.tryFrom (l.Hash.getD []) with
      | error e => rw [hc] at h; cases h
      | ok c =>
        rw [hc] at h
        simp only [Res.bind_ok] at h
        cases hq : collectLinksR t (i + 1) (addW base n) z with
        | panic q => rw [hq] at h; cases h
        | err e' =>
          rw [hq] at h
          have h' : e' = .Read e := by simpa [Bind.bind, Res.bind] using h
          rw [h'] at hq
          exact collectLinksR_ne_read t e z _ _ hq
        | ok qs => rw [hq] at h; cases h

theorem collectLinksR_mem (t : Option Rng) : ∀ (z : List (PBLink × Nat)) (i base : Nat) (ps : List Pending), collectLinksR t i base z = .ok ps →
    ∀ p ∈ ps, ∃ x ∈ z, Cid.tryFrom (x.1.Hash.getD []) = .ok p.1
  | [], _, _, ps, h => by cases h; nofun
  | (l, n) :: z, i, base, ps, h => by
    rw [collectLinksR] at h
    split at h
    · intro p hp
      obtain ⟨x, hx, he⟩ := collectLinksR_mem t z _ _ ps h p hp
      exact ⟨x, List.mem_cons_of_mem _ hx, he⟩
    · unfold toPending at h
      cases hc : Cid.tryFrom (l.Hash.getD []) with
      | error e => rw [hc] at h; cases h
      | ok c =>
        rw [hc] at h
        simp only [Res.bind_ok] at h
        cases hq : collectLinksR t (i + 1) (addW base n) z with
        | panic q => rw [hq] at h; cases h
        | err e' => rw [hq] at h; cases h
        | ok qs =>
          rw [hq] at h
          cases h
          intro p hp
          rcases List.mem_cons.1 hp with rfl | hp
          · exact ⟨(l, n), List.mem_cons_self, hc⟩
          · obtain ⟨x, hx, he⟩ := collectLinksR_mem t z _ _ qs hq p hp
            exact ⟨x, List.mem_cons_of_mem _ hx, he⟩

/-- The link in the message leads there. -/
def PartOf (m : FlatUnixFs) (c : Cid) : Prop := ∃ l ∈ m.links, Cid.tryFrom (l.Hash.getD []) = .ok c

theorem cache_empty {cache : Option VisitCache} (hc : ∀ k, cache = some k → CacheObtainable k) : (cache.getD {}).inner = [] := by
  cases cache with
  | none => rfl
  | some k =>
    rcases hc k rfl with rfl | ⟨vec, rfl⟩
    · rfl
    · rfl

/-- How the first block of a file goes. -/
theorem startParsedR_facts (m : FlatUnixFs) (cache : Option VisitCache) (hc : ∀ k, cache = some k → CacheObtainable k) :
    (∀ k, (IdleFileVisit.startFromParsedR {} m cache).2 = some k → CacheObtainable k) ∧
    ((m.data.Ty = .File ∨ m.data.Ty = .Raw → m.links = [] → m.data.filesize ≠ none) → ∀ p, (IdleFileVisit.startFromParsedR {} m cache).1 ≠ .panic p) ∧
    (∀ e, (IdleFileVisit.startFromParsedR {} m cache).1 ≠ .err (.Read e)) ∧
    ∀ r v, (IdleFileVisit.startFromParsedR {} m cache).1 = .ok r → r.next = some v → Asking v ∧ ∀ p ∈ v.pending, PartOf m p.1 := by
  unfold IdleFileVisit.startFromParsedR FileReader.fromParsedR
  rcases fromPartsR_cases m 0 (Metadata.ofUnixFs m.data) with ⟨h1, h2, h3, h4⟩ | ⟨-, -, e, h3⟩ | ⟨fs, e, -, -, h3⟩
  · rw [h4]
    exact ⟨hc, fun hs => absurd h3 (hs h1.type h2), (fun _ h => nomatch h), (fun _ _ h => nomatch h)⟩
  · rw [h3]
    refine ⟨hc, (fun _ _ h => nomatch h), fun e' h => ?_, (fun _ _ h => nomatch h)⟩
    cases h
    exact fromPartsR_ne_read _ h3
  · rw [h3]
    simp only [IdleFileVisit.startFromReaderR, FileReader.content]
    by_cases hl : m.links = []
    · rw [if_pos hl]
      refine ⟨hc, (fun _ _ h => nomatch h), (fun e' h => nomatch h), fun r v h hv => ?_⟩
      cases h
      cases hv
    · rw [if_neg hl]
      simp only
      rw [cache_empty hc]
      cases hq : collectLinksR none 0 0 (m.links.zip m.data.blocksizes) with
      | panic q => exact (collectLinksR_no_panic _ _ _ _ _ hq).elim
      | err e =>
        refine ⟨(fun _ h => nomatch h), (fun _ _ h => nomatch h), fun e' h => ?_, (fun _ _ h => nomatch h)⟩
        cases h
        exact collectLinksR_ne_read _ _ _ _ _ hq
      | ok ps =>
        simp only [List.nil_append]
        by_cases hne : ps.reverse = []
        · rw [if_pos hne]
          refine ⟨fun k h => by cases h; exact .inr ⟨_, rfl⟩, (fun _ _ h => nomatch h), (fun _ h => nomatch h), fun r v h hv => ?_⟩
          cases h
          cases hv
        · rw [if_neg hne]
          refine ⟨(fun _ h => nomatch h), (fun _ _ h => nomatch h), (fun _ h => nomatch h), fun r v h hv => ?_⟩
          cases h
          cases hv
          refine ⟨⟨rfl, hne⟩, fun p hp => ?_⟩
          obtain ⟨x, hx, he⟩ := collectLinksR_mem _ _ _ _ _ hq p (List.mem_reverse.1 hp)
          exact ⟨x.1, (List.of_mem_zip hx).1, he⟩

/-- How a block of a file goes later. -/
theorem continueRel_facts (v : FileVisit) (b : Bytes) (cache : Option VisitCache) {r : Res FileReadFailed (Bytes × Option FileVisit)} {k : Option VisitCache}
    (h : v.continueWalkRel b cache = some (r, k)) :
    ((∀ x, cache = some x → CacheObtainable x) → ∀ x, k = some x → CacheObtainable x) ∧
    (∀ e, r = .err (.Read e) → ∃ e', FlatUnixFs.tryParseR b = some (.error e')) ∧
    ∀ c v', r = .ok (c, some v') → ∀ p ∈ v'.pending, p ∈ v.pending ∨ ∃ m, Reads b m ∧ (m.data.Ty = .File ∨ m.data.Ty = .Raw) ∧ PartOf m p.1 := by
  unfold FileVisit.continueWalkRel at h
  split at h
  · cases h; exact ⟨id, (fun _ h => nomatch h), (fun _ _ h => nomatch h)⟩
  · next i hi =>
    split at h
    · cases h; exact ⟨id, (fun _ h => nomatch h), (fun _ _ h => nomatch h)⟩
    · obtain ⟨parsed, hp, h⟩ := Option.map_eq_some_iff.1 h
      unfold FileVisit.continueWith at h
      cases parsed with
      | error e =>
        simp only [FileReader.fromContinuedP] at h
        cases h
        exact ⟨id, fun _ _ => ⟨e, hp⟩, (fun _ _ h => nomatch h)⟩
      | ok m =>
        simp only [FileReader.fromContinuedP] at h
        by_cases hmeta : m.data.mode.isSome ∨ m.data.mtime.isSome
        · rw [if_pos hmeta] at h
          cases h
          exact ⟨id, (fun _ h => nomatch h), (fun _ _ h => nomatch h)⟩
        · rw [if_neg hmeta] at h
          rcases fromPartsR_cases m i.lo v.state.metadata with ⟨-, -, -, h4⟩ | ⟨-, -, e, h3⟩ | ⟨fs, e, h1, -, h3⟩
          · rw [h4] at h
            cases h
            exact ⟨id, (fun _ h => nomatch h), (fun _ _ h => nomatch h)⟩
          · rw [h3] at h
            cases h
            refine ⟨id, fun e' h => ?_, (fun _ _ h => nomatch h)⟩
            cases h
            exact (fromPartsR_ne_read _ h3).elim
          · rw [h3] at h
            simp only [FileReader.content] at h
            by_cases hl : m.links = []
            · rw [if_pos hl] at h
              simp only at h
              have hne : ∀ e', (maybeTargetSliceR (m.data.Data.getD []) i v.range : Res FileReadFailed Bytes) ≠ .err e' := by
                intro e' he
                cases hr : v.range with
                | none => rw [hr] at he; cases he
                | some t =>
                  rw [hr] at he
                  simp only [maybeTargetSliceR, targetSliceR] at he
                  have hs : ∀ (c : Bytes) (a b : Nat), (sliceChecked c a b : Res FileReadFailed Bytes) ≠ .err e' := by
                    intro c a b
                    unfold sliceChecked
                    split <;> nofun
                  split at he
                  · cases he
                  · split at he
                    · exact hs _ _ _ he
                    · split at he
                      · exact hs _ _ _ he
                      · exact hs _ _ _ he
              cases hsl : (maybeTargetSliceR (m.data.Data.getD []) i v.range : Res FileReadFailed Bytes) with
              | err e' => exact (hne e' hsl).elim
              | panic q =>
                rw [hsl] at h
                cases h
                exact ⟨id, (fun _ h => nomatch h), (fun _ _ h => nomatch h)⟩
              | ok c =>
                rw [hsl] at h
                simp only at h
                split at h
                · cases h
                  refine ⟨id, (fun _ h => nomatch h), fun c v' h p hp => ?_⟩
                  cases h
                  exact .inl (List.dropLast_subset _ hp)
                · cases h
                  refine ⟨fun _ x h => by cases h; exact .inr ⟨_, rfl⟩, (fun _ h => nomatch h), fun c v' h => ?_⟩
                  cases h
            · rw [if_neg hl] at h
              simp only at h
              cases hq : collectLinksR v.range 0 i.lo (m.links.zip m.data.blocksizes) with
              | panic q => exact (collectLinksR_no_panic _ _ _ _ _ hq).elim
              | err e =>
                rw [hq] at h
                cases h
                refine ⟨id, fun e' h => ?_, (fun _ _ h => nomatch h)⟩
                cases h
                exact (collectLinksR_ne_read _ _ _ _ _ hq).elim
              | ok ps =>
                rw [hq] at h
                cases h
                refine ⟨id, (fun _ h => nomatch h), fun c v' h p hp' => ?_⟩
                cases h
                rcases List.mem_append.1 hp' with hm | hm
                · exact .inl (List.dropLast_subset _ hm)
                · obtain ⟨x, hx, he⟩ := collectLinksR_mem _ _ _ _ _ hq p (List.mem_reverse.1 hm)
                  exact .inr ⟨m, hp, h1.type, x.1, (List.of_mem_zip hx).1, he⟩

/-! ### the state of the walker -/

def PartFine (get : Cid → Option Bytes) (c : Cid) : Prop := ∀ b, get c = some b → ∀ e, FlatUnixFs.tryParseR b ≠ some (.error e)

structure Calm (get : Cid → Option Bytes) (name : Bytes) (w : Walker) (ie : InnerEntry) : Prop where
  rootKind : ie.kind = .BucketAtRoot → ie.depth = (rootPath name).length + 1
  dirs : w.links.Pairwise (fun a b => b.name = [] → InSharded get a.cid)
  notDir : (∀ l, w.links.head? = some l → l.name = [] → ie.kind ≠ .Directory ∧ ie.kind ≠ .RootDirectory)
  visit : ∀ v sz, ie.kind = .File (some v) sz → Asking v ∧ ∀ p ∈ v.pending, PartFine get p.1
  cont : w.should_continue = true → w.next.isSome = true ∨ ∃ v sz, ie.kind = .File (some v) sz

theorem took_inShard {get : Cid → Option Bytes} {c : Cid} {b : Bytes} {m : FlatUnixFs} (hg : get c = some b) (hm : Reads b m)
    {d : Nat} {l : WalkLink} (h : TookLink m d l) (hty : m.data.Ty = .HAMTShard ∨ InSharded get c) : InSharded get l.cid := by
  cases h with
  | entry x hx h _ _ _ _ hc =>
    rcases hty with hty | hin
    · rw [hty] at h; cases h
    · exact .deeper hin hg hm h hx hc
  | shardEntry x s hx h _ _ _ _ _ hc => exact .slot hg hm h hx hc
  | bucket x s hx h _ _ _ _ hc => exact .slot hg hm h hx hc

theorem took_entry {m : FlatUnixFs} {d : Nat} {l : WalkLink} (h : TookLink m d l) : (m.data.Ty = .Directory ∧ l.name ≠ []) ∨ m.data.Ty = .HAMTShard := by
  cases h with
  | entry x _ h _ h1 _ _ _ => exact .inl ⟨h, h1⟩
  | shardEntry x s hx h _ _ _ _ _ hc => exact .inr h
  | bucket x s hx h _ _ _ _ hc => exact .inr h

theorem noDot_history {get : Cid → Option Bytes} (hget : WalkSafe get) {cid : Cid} {name : Bytes} {h : List (Bytes × ContinuedWalk)} {w : Walker}
    (hw : WalkedIn get cid name h w) : ∀ b ∈ h.map (·.1), ¬ GivesNameRel b dot := by
  intro b hb
  obtain ⟨c, hc⟩ := walked_get hw b hb
  exact hget.noDot c b hc

theorem walkedIn_calm {get : Cid → Option Bytes} (hget : WalkSafe get) {cid : Cid} {name : Bytes} (hname : slash ∉ name)
    {h : List (Bytes × ContinuedWalk)} {w : Walker} (hw : WalkedIn get cid name h w) :
    w = Walker.new cid name ∨ ∃ ie, Within' get name (h.map (·.1)) w ie ∧ Calm get name w ie := by
  induction hw with
  | new => exact .inl rfl
  | @next h w w' first rest block cache cache' item hw hsc hpl hgb hca hs ih =>
    have hw' : WalkedIn get cid name (h ++ [(block, item)]) w' := .next hw hsc hpl hgb hca hs
    have hwi := (walkedIn_under hget.buckets hname hw' (noDot_history hget hw')).1
    right
    cases stepRel_ok hs with
    | later ie ie' v sz c next hc hk hp hp' hd' hc' hl hk' hcw hsc' hn' =>
      rcases ih with rfl | ⟨ie0, hin, hcalm⟩
      · cases hc
      · have := hin.current
        rw [hc] at this
        cases this
        have hwi' : ∃ ie, Within' get name ((h ++ [(block, item)]).map (·.1)) w' ie := by
          rcases hwi with rfl | hwi
          · cases hc'
          · exact hwi
        obtain ⟨ie1, hwi'⟩ := hwi'
        have := hwi'.current
        rw [hc'] at this
        cases this
        refine ⟨ie', hwi', (fun h => by rw [hk'] at h; cases h), by rw [hl]; exact hcalm.dirs, (fun _ _ _ => by rw [hk']; exact ⟨nofun, nofun⟩), ?_, ?_⟩
        · intro v' sz' h'
          rw [hk'] at h'
          cases h'
          obtain ⟨k, hcw⟩ := hcw
          have hv := hcalm.visit v sz hk
          refine ⟨continueWalkRel_asking hv.1 hcw, fun p hp => ?_⟩
          rcases (continueRel_facts v block cache hcw).2.2 _ _ rfl p hp with hp | ⟨m, hm, hty, l, hl, hcid⟩
          · exact hv.2 p hp
          · intro b hb e
            exact hget.parts first block m hgb hm hty l hl p.1 b hcid hb e
        · intro h'
          rw [hsc'] at h'
          cases next with
          | none => left; rw [hn']; simpa using h'
          | some v' => exact .inr ⟨v', sz, hk'⟩
    | block m n ls ie' hrest hm hn hls hmv hbk hd hp hc' hl hne' hdirk hrk hfk hcont =>
      have hwi' : ∃ ie, Within' get name ((h ++ [(block, item)]).map (·.1)) w' ie := by
        rcases hwi with rfl | hwi
        · cases hc'
        · exact hwi
      obtain ⟨ie1, hwi'⟩ := hwi'
      have := hwi'.current
      rw [hc'] at this
      cases this
      have hfirst := pendingLinks_atRest hrest hn hpl
      have hpend : w.pending.reverse.Pairwise (fun a b => b.name = [] → InSharded get a.cid) ∧ ∀ l ∈ w.pending.reverse, l.name = [] → InSharded get n.cid := by
        rcases ih with rfl | ⟨ie0, hin, hcalm⟩
        · exact ⟨.nil, nofun⟩
        · have := hcalm.dirs
          rw [next_mem hn, List.pairwise_cons] at this
          exact ⟨this.2, fun l hl => this.1 l hl⟩
      refine ⟨ie', hwi', ?_, ?_, ?_, ?_, hcont⟩
      · intro hk
        rcases hrk hk with h0 | ⟨ie, h0, h1, h2⟩
        · rcases ih with rfl | ⟨ie0, hin, hcalm⟩
          · cases hn
            rw [hd]
            exact root_depth name
          · rw [hin.current] at h0; cases h0
        · rcases ih with rfl | ⟨ie0, hin, hcalm⟩
          · cases h0
          · rw [hin.current] at h0
            cases h0
            rw [h2]
            exact hcalm.rootKind h1
      · rw [hl, List.pairwise_append]
        refine ⟨?_, hpend.1, ?_⟩
        · apply List.pairwise_of_forall_mem_list
          intro a ha b hb hbn
          rcases took_entry (hls b hb) with ⟨_, hne⟩ | hty
          · exact absurd hbn hne
          · exact took_inShard hgb hm (hls a ha) (.inl hty)
        · intro a ha b hb hbn
          rw [hfirst] at hgb
          exact took_inShard hgb hm (hls a ha) (.inr (hpend.2 b hb hbn))
      · intro l hlm hln
        have hne : m.data.Ty ≠ .Directory := by
          rw [hl] at hlm
          intro hty
          cases ls with
          | nil =>
            rw [List.nil_append] at hlm
            have hin := hpend.2 l (List.mem_of_mem_head? hlm) hln
            exact hne' hty (hget.noEmpty n.cid block m hin (by rw [← hfirst]; exact hgb) hm hty) rfl
          | cons l' ls =>
            cases hlm
            rcases took_entry (hls l (by simp)) with ⟨_, hne⟩ | hty'
            · exact hne hln
            · rw [hty] at hty'; cases hty'
        exact ⟨fun h => hne (hdirk (.inl h)), fun h => hne (hdirk (.inr h))⟩
      · intro v sz hk
        obtain ⟨hty, r, k, hr, hv⟩ := hfk v sz hk
        have := (startParsedR_facts m cache hca).2.2.2 r v (by rw [hr]) hv
        refine ⟨this.1, fun p hp b hb e => ?_⟩
        obtain ⟨l, hl, hcid⟩ := this.2 p hp
        exact hget.parts first block m hgb hm hty.symm l hl p.1 b hcid hb e

/-! ### no step panics -/

theorem popGe_ok {ε : Type} (depth : Nat) (hd : 2 ≤ depth) : ∀ (d : Nat) (p : PathBuf), d = p.comps.length + 1 →
    ∃ q, (popWhileGe depth d p : Res ε PathBuf) = .ok q
  | 0, p, hl => by omega
  | d + 1, p, hl => by
    rw [popWhileGe]
    split
    · next hle =>
      unfold PathBuf.pop
      by_cases hp : p.comps = []
      · rw [hp] at hl; simp at hl; omega
      · simp only [hp, if_false]
        have hpos := List.length_pos_iff.mpr hp
        exact popGe_ok depth hd d _ (by simp only [List.length_dropLast]; omega)
    · exact ⟨_, rfl⟩

theorem popGt_ok {ε : Type} (depth : Nat) (hd : 1 ≤ depth) : ∀ (d : Nat) (p : PathBuf), d = p.comps.length + 1 → depth ≤ d →
    ∃ q, (popWhileGt depth d p : Res ε _) = .ok (depth, q)
  | 0, p, hl, _ => by omega
  | d + 1, p, hl, hle => by
    rw [popWhileGt]
    split
    · next hlt =>
      unfold PathBuf.pop
      by_cases hp : p.comps = []
      · rw [hp] at hl; simp at hl; omega
      · simp only [hp, if_false]
        have hpos := List.length_pos_iff.mpr hp
        exact popGt_ok depth hd d _ (by simp only [List.length_dropLast]; omega) (by omega)
    · exact ⟨p, by rw [show d + 1 = depth by omega]⟩

theorem asKindR_ok {ie : InnerEntry} (hk : ∀ v sz, ie.kind ≠ .File (some v) sz) (hd : ie.depth = ie.path.comps.length + 1) {n : WalkLink} (hn : 2 ≤ n.depth)
    (k : InnerKind) (md : Metadata) : ∃ ie', (ie.asKindR k n.cid n.name n.depth md : Res WalkError _) = .ok ie' := by
  obtain ⟨q, hq⟩ := popGe_ok (ε := WalkError) n.depth hn ie.depth ie.path hd
  have hset : ∃ x, ((InnerEntry.setPathR { ie with cid := n.cid, kind := k } n.name n.depth : Res WalkError _)) = .ok x := by
    unfold InnerEntry.setPathR
    simp only
    rw [hq]
    exact ⟨_, rfl⟩
  obtain ⟨x, hx⟩ := hset
  unfold InnerEntry.asKindR
  split
  · next h => exact absurd h (hk _ _)
  · rw [hx]
    exact ⟨_, rfl⟩

theorem asBucket_ok {ie : InnerEntry} (hk : ∀ v sz, ie.kind ≠ .File (some v) sz) (hd : ie.depth = ie.path.comps.length + 1) {n : WalkLink} (hn : 1 ≤ n.depth)
    (hle : n.depth ≤ ie.depth) (hroot : ie.kind = .BucketAtRoot → ie.depth = n.depth) (hdir : ie.kind ≠ .Directory ∧ ie.kind ≠ .RootDirectory) :
    ∃ ie', (ie.asBucket n.cid n.depth : Res WalkError _) = .ok ie' := by
  obtain ⟨q, hq⟩ := popGt_ok (ε := WalkError) n.depth hn ie.depth ie.path hd hle
  unfold InnerEntry.asBucket
  split
  · next h => rw [if_neg (by rw [hroot h]; simp)]; exact ⟨_, rfl⟩
  all_goals first
    | (rw [hq]; simp only [Res.bind_ok, ne_eq, not_true_eq_false, if_false]; exact ⟨_, rfl⟩)
    | skip
  · next h1 h2 h3 h4 h5 =>
    exfalso
    cases hkk : ie.kind with
    | RootDirectory => exact hdir.2 hkk
    | BucketAtRoot => exact h1 hkk
    | RootBucket => exact h2 hkk
    | Bucket => exact h3 hkk
    | Directory => exact hdir.1 hkk
    | File v sz =>
      cases v with
      | none => exact h4 _ hkk
      | some v => exact hk _ _ hkk
    | Symlink => exact h5 hkk

theorem enterR_ok {get : Cid → Option Bytes} {cid : Cid} {name : Bytes} {bs : List Bytes} {w : Walker} {n : WalkLink} (hn : w.next = some n) (hr : w.atRest)
    (h : w = Walker.new cid name ∨ ∃ ie, Within' get name bs w ie ∧ Calm get name w ie) :
    ((∀ md, n.name ≠ [] ∨ w.current = none → ∃ x, w.enterDirectoryR md n = .ok x) ∧
     (∀ k md, n.name ≠ [] ∨ w.current = none → ∃ x, w.enterLeafR k md n = .ok x) ∧ ∀ md, ∃ x, w.enterShardR md n = .ok x) := by
  rcases h with rfl | ⟨ie, hin, hcalm⟩
  · exact ⟨fun _ _ => ⟨_, rfl⟩, fun _ _ _ => ⟨_, rfl⟩, fun _ => ⟨_, rfl⟩⟩
  · have hk : ∀ v sz, ie.kind ≠ .File (some v) sz := fun v sz => hr ie v sz hin.current
    have hl := hin.links
    rw [next_mem hn] at hl
    obtain ⟨hfine, hle⟩ := hl n (by simp)
    have hdeep := hfine.deep
    have named : n.name ≠ [] → ∀ k md, ∃ ie', (ie.asKindR k n.cid n.name n.depth md : Res WalkError _) = .ok ie' := by
      intro hne k md
      unfold parentDepth at hdeep
      rw [if_neg hne] at hdeep
      exact asKindR_ok hk hin.depth (by omega) k md
    have hcur : ∀ {P : Prop}, (n.name ≠ [] ∨ w.current = none) → (n.name ≠ [] → P) → P := by
      intro P h hp
      rcases h with h | h
      · exact hp h
      · rw [hin.current] at h; cases h
    refine ⟨fun md h => hcur h fun hne => ?_, fun k md h => hcur h fun hne => ?_, fun md => ?_⟩
    · obtain ⟨x, hx⟩ := named hne .Directory md
      unfold Walker.enterDirectoryR
      rw [hin.current]
      simp only
      rw [hx]
      exact ⟨_, rfl⟩
    · obtain ⟨x, hx⟩ := named hne k md
      unfold Walker.enterLeafR
      rw [hin.current]
      exact ⟨x, hx⟩
    · unfold Walker.enterShardR
      rw [hin.current]
      simp only
      by_cases hne : n.name = []
      · rw [if_pos hne]
        unfold parentDepth at hdeep hle
        rw [if_pos hne] at hdeep hle
        obtain ⟨x, hx⟩ := asBucket_ok (n := n) hk hin.depth (by omega) hle (fun h => by have := hcalm.rootKind h; omega)
          (hcalm.notDir n (by rw [next_mem hn]; rfl) hne)
        rw [hx]
        exact ⟨_, rfl⟩
      · rw [if_neg hne]
        obtain ⟨x, hx⟩ := named hne .RootBucket md
        rw [hx]
        exact ⟨_, rfl⟩

theorem ofFileReadFailed_panic {α : Type} {e : FileReadFailed} {p : Panic} (h : (WalkError.ofFileReadFailed e : Res WalkError α) = .panic p) :
    ∃ x, e = .Read x := by
  cases e with
  | Read x => exact ⟨x, rfl⟩
  | _ => cases h

theorem visit_first {v : FileVisit} {c : Cid} {cs : List Cid} (h : v.pendingLinks = .ok (c, cs)) : ∃ p ∈ v.pending, p.1 = c := by
  unfold FileVisit.pendingLinks at h
  split at h
  · next f r hr =>
    cases h
    have : c ∈ v.pending.reverse.map (·.1) := by rw [hr]; simp
    obtain ⟨p, hp, he⟩ := List.mem_map.1 this
    exact ⟨p, List.mem_reverse.1 hp, he⟩
  · cases h

/-- Over such a store no step of a walk panics, and nothing which is asked of the walker in between. -/
theorem walk_step_safe {get : Cid → Option Bytes} (hget : WalkSafe get) {cid : Cid} {name : Bytes} (hname : slash ∉ name)
    {h : List (Bytes × ContinuedWalk)} {w : Walker} (hw : WalkedIn get cid name h w) (hsc : w.shouldContinue = true) :
    ∃ first rest, w.pendingLinks = .ok (first, rest) ∧ ∀ block, get first = some block → ∀ cache, (∀ k, cache = some k → CacheObtainable k) →
      ∀ p w' k, w.stepRel block cache ≠ some (.panic p, w', k) := by
  have hst := walkedIn_calm hget hname hw
  by_cases hf : ∃ ie v sz, w.current = some ie ∧ ie.kind = .File (some v) sz
  · obtain ⟨ie, v, sz, hc, hk⟩ := hf
    have hv : Asking v ∧ ∀ p ∈ v.pending, PartFine get p.1 := by
      rcases hst with rfl | ⟨ie0, hin, hcalm⟩
      · cases hc
      · rw [hin.current] at hc
        cases hc
        exact hcalm.visit v sz hk
    obtain ⟨first, rest, hpv⟩ := pendingLinks_asking hv.1
    obtain ⟨q, hq, hqc⟩ := visit_first hpv
    refine ⟨first, rest ++ ((w.next.map (·.cid)).toList ++ (w.pending.map (·.cid)).reverse), ?_, ?_⟩
    · unfold Walker.pendingLinks
      rw [hc]
      simp only [Option.map_some, hk]
      rw [hpv]
      rfl
    · intro block hg cache hca p w' k hs
      rw [stepRel_inFile hc hk] at hs
      obtain ⟨⟨r, k'⟩, hx, hs⟩ := Option.map_eq_some_iff.1 hs
      cases r with
      | panic p' =>
        rcases (C109_continue v (by rw [hv.1.1]; intro t h; cases h) block cache).2.1 ⟨p', k', hx⟩ with
          h1 | ⟨i, m, -, -, h2, -, -, h5, h3, h4 | ⟨r, h4, -⟩⟩
        · simp only [nextInterval, Option.map_eq_none_iff, List.getLast?_eq_none_iff] at h1
          exact hv.1.2 h1
        · exact hget.sized _ _ m hg h2 h5.type h3 h4
        · rw [hv.1.1] at h4; cases h4
      | err e =>
        obtain ⟨x, hx'⟩ := ofFileReadFailed_panic (congrArg Prod.fst hs)
        obtain ⟨e', he'⟩ := (continueRel_facts v block cache hx).2.1 x (by rw [hx'])
        exact hv.2 q hq block (by rw [hqc]; exact hg) e' he'
      | ok y => cases hs
  · have hr : w.atRest := fun ie v sz hc hk => hf ⟨ie, v, sz, hc, hk⟩
    have hnext : ∃ n, w.next = some n := by
      rcases hst with rfl | ⟨ie0, hin, hcalm⟩
      · exact ⟨_, rfl⟩
      · rcases hcalm.cont hsc with h | ⟨v, sz, hk⟩
        · exact Option.isSome_iff_exists.1 h
        · exact absurd hk (hr ie0 v sz hin.current)
    obtain ⟨n, hn⟩ := hnext
    refine ⟨n.cid, (w.pending.map (·.cid)).reverse, ?_, ?_⟩
    · unfold Walker.pendingLinks
      split
      · next v sz hk =>
        cases hc : w.current with
        | none => rw [hc] at hk; cases hk
        | some ie =>
          rw [hc] at hk
          exact absurd (Option.some.inj hk) (hr ie v sz hc)
      · rw [hn]
    · intro block hg cache hca p w' k hs
      rw [stepRel_atRest hr] at hs
      obtain ⟨parsed, hp, hs⟩ := Option.map_eq_some_iff.1 hs
      cases parsed with
      | error e => cases hs
      | ok m =>
        have hent := enterR_ok (cid := cid) hn hr hst
        have hnotShard : m.data.Ty ≠ .HAMTShard → n.name ≠ [] ∨ w.current = none := by
          intro hty
          rcases hst with rfl | ⟨ie, hin, hcalm⟩
          · exact .inr rfl
          · left
            intro hne
            have hl := hin.links
            rw [next_mem hn] at hl
            exact hty ((hl n (by simp)).1.shard hne block m hg hp)
        unfold Walker.nextBlockP at hs
        simp only at hs
        split at hs
        · next hty =>
          split at hs
          · cases hs
          · next m' hm' =>
            cases checkDirectorySupported_ok hm'
            refine nextDir_noPanic hn (fun l hl i => ?_) (hent.1 _ (hnotShard (by rw [hty]; nofun))) p (congrArg Prod.fst hs)
            exact convertLink_noPanic (hget.entries _ _ m hg hp hty l hl)
        · next hty =>
          split at hs
          · next p' hpp =>
            unfold checkHamtshardSupported checkShardSupported at hpp
            rw [if_neg (by rw [hty]; simp)] at hpp
            split at hpp
            · cases hpp
            · split at hpp <;> cases hpp
          · cases hs
          · next m' hm' =>
            cases checkHamtshardSupported_ok hm'
            refine nextDir_noPanic hn (fun l hl i => ?_) (hent.2.2 _) p (congrArg Prod.fst hs)
            exact convertShardedLink_noPanic (hget.slots _ _ m hg hp hty l hl)
        case h_3 hty | h_4 hty =>
          have hsf := startParsedR_facts m cache hca
          unfold Walker.nextFirstR at hs
          generalize IdleFileVisit.startFromParsedR {} m cache = r at hs hsf
          obtain ⟨r, k'⟩ := r
          cases r with
          | panic p' => exact hsf.2.1 (hget.sized _ _ m hg hp) p' rfl
          | err e =>
            obtain ⟨x, hx'⟩ := ofFileReadFailed_panic (congrArg Prod.fst hs)
            exact hsf.2.2.1 x (by rw [hx'])
          | ok r =>
            simp only [hn] at hs
            obtain ⟨x, hx⟩ := hent.2.1 (.File r.next r.total_size) r.metadata (hnotShard (by rw [hty]; nofun))
            rw [hx] at hs
            cases hs
        · cases hs
        · next hty =>
          unfold Walker.nextSymlinkR at hs
          simp only [hn] at hs
          obtain ⟨x, hx⟩ := hent.2.1 .Symlink (Metadata.ofUnixFs m.data) (hnotShard (by rw [hty]; nofun))
          rw [hx] at hs
          cases hs

theorem stepRel_cache {w w' : Walker} {b : Bytes} {cache k : Option VisitCache} {r : Res WalkError ContinuedWalk}
    (hc : ∀ x, cache = some x → CacheObtainable x) (h : w.stepRel b cache = some (r, w', k)) : ∀ x, k = some x → CacheObtainable x := by
  by_cases hf : ∃ ie v sz, w.current = some ie ∧ ie.kind = .File (some v) sz
  · obtain ⟨ie, v, sz, hcur, hk⟩ := hf
    rw [stepRel_inFile hcur hk] at h
    obtain ⟨⟨r', k'⟩, hx, hs⟩ := Option.map_eq_some_iff.1 h
    have := (continueRel_facts v b cache hx).1 hc
    cases r' with
    | panic p => cases hs; exact this
    | err e => cases hs; exact this
    | ok y => cases hs; exact this
  · rw [stepRel_atRest (fun ie v sz hc hk => hf ⟨ie, v, sz, hc, hk⟩)] at h
    obtain ⟨parsed, hp, hs⟩ := Option.map_eq_some_iff.1 h
    have dir : ∀ (links : List PBLink) conv enter, (w.nextDir links conv enter cache).2.2 = cache := by
      intro links conv enter
      unfold Walker.nextDir
      split
      · rfl
      · split
        · rfl
        · rfl
        · split <;> rfl
    have hk : k = ((w.nextBlockP cache parsed).2.2) := by rw [hs]
    rw [hk]
    unfold Walker.nextBlockP
    split
    · exact hc
    · next m =>
      simp only
      split
      · split
        · exact hc
        · rw [dir]; exact hc
      · split
        · exact hc
        · exact hc
        · rw [dir]; exact hc
      case h_3 | h_4 =>
        have hsf := (startParsedR_facts m cache hc).1
        unfold Walker.nextFirstR
        generalize IdleFileVisit.startFromParsedR {} m cache = r at hsf
        obtain ⟨r, k'⟩ := r
        cases r with
        | panic p' => exact hsf
        | err e => exact hsf
        | ok r =>
          simp only
          split
          · exact hsf
          · split <;> exact hsf
      · exact hc
      · unfold Walker.nextSymlinkR
        simp only
        split
        · exact hc
        · split <;> exact hc

/-- Over a store with proper names, in which nothing is called `.`, shards are as shards are made, leaves of files declare their size and files
consist of blocks, walking with a release build never panics, whatever else is wrong with the blocks: not at any step, -/
theorem C113_step (get : Cid → Option Bytes) (hget : WalkSafe get) (cid : Cid) (name : Bytes) (hname : slash ∉ name)
    (h : List (Bytes × ContinuedWalk)) (w : Walker) (hw : WalkedIn get cid name h w) (hsc : w.shouldContinue = true) :
    ∃ first rest, w.pendingLinks = .ok (first, rest) ∧ ∀ block, get first = some block → ∀ cache, (∀ k, cache = some k → CacheObtainable k) →
      ∀ p w' k, w.stepRel block cache ≠ some (.panic p, w', k) :=
  walk_step_safe hget hname hw hsc

/-- nor as a whole. -/
theorem C113_walk (get : Cid → Option Bytes) (hget : WalkSafe get) (cid : Cid) (name : Bytes) (hname : slash ∉ name)
    (cache : Option VisitCache) (hc : ∀ k, cache = some k → CacheObtainable k) (p : Panic) :
    walkFromRel get (Walker.new cid name) cache ≠ some (.panic p) := by
  have key : ∀ w cache, (∃ h, WalkedIn get cid name h w) → (∀ k, cache = some k → CacheObtainable k) → walkFromRel get w cache ≠ some (.panic p) := by
    intro w cache hw hc hx
    refine walkFromRel.partial_correctness get (fun w cache x => (∃ h, WalkedIn get cid name h w) → (∀ k, cache = some k → CacheObtainable k) → x ≠ .panic p)
      ?_ w cache _ hx hw hc rfl
    clear hx hw hc w cache
    intro rec ih w cache x h ⟨hist, hw⟩ hc
    cases hsc : w.shouldContinue with
    | false => rw [hsc] at h; cases h; intro h; cases h
    | true =>
      rw [hsc] at h
      simp only [Bool.true_eq_false, if_false] at h
      obtain ⟨first, rest, hpl, hno⟩ := walk_step_safe hget hname hw hsc
      rw [hpl] at h
      simp only at h
      cases hg : get first with
      | none => rw [hg] at h; cases h; intro h; cases h
      | some block =>
        rw [hg] at h
        simp only at h
        have hno := hno block hg cache hc
        have hnext := fun item w' cache' => WalkedIn.next (item := item) (w' := w') (cache' := cache') hw hsc hpl hg hc
        have hca := fun r w' k => stepRel_cache (w := w) (w' := w') (b := block) (r := r) (k := k) hc
        generalize w.stepRel block cache = s at h hno hnext hca
        cases s with
        | none => cases h
        | some s =>
          obtain ⟨r, w', k⟩ := s
          simp only [Option.bind_eq_bind, Option.bind_some] at h
          cases r with
          | panic q => exact (hno q w' k rfl).elim
          | err e => cases h; intro h; cases h
          | ok item =>
            simp only at h
            cases hr : rec w' k with
            | none => rw [hr] at h; cases h
            | some y =>
              have := ih w' k y hr ⟨_, hnext item w' k rfl⟩ (hca _ _ _ rfl)
              rw [hr] at h
              cases h
              cases y with
              | panic q => intro h; cases h; exact this rfl
              | err e => intro h; cases h
              | ok y => intro h; cases h
  exact key _ _ ⟨[], .new⟩ hc

/-! ### examples -/

/-- A store with the given blocks. -/
def storeB (blocks : List (UInt8 × Bytes)) : Cid → Option Bytes := fun c => (blocks.find? (fun e => cidN e.1 == c)).map (·.2)

/-- Whether a block is short and no reader goes back in it. -/
def tame (b : Bytes) : Bool :=
  decide (b.length < 1000) && match FlatUnixFs.tryParse b with
    | .ok _ => true
    | .error (.InvalidDagPb .overflow) => false
    | .error (.InvalidUnixFs .overflow _) => false
    | .error _ => true

theorem tame_agree {b : Bytes} (h : tame b = true) : FlatUnixFs.tryParseR b = some (FlatUnixFs.tryParse b) := by
  unfold tame at h
  rw [Bool.and_eq_true, decide_eq_true_eq] at h
  obtain ⟨h1, h2⟩ := h
  exact flat_agree (by omega) (fun e => by rw [e] at h2; cases h2) (fun n e => by rw [e] at h2; cases h2)

theorem storeB_get {blocks : List (UInt8 × Bytes)} (hb : ∀ e ∈ blocks, tame e.2 = true) {c : Cid} {b : Bytes} (h : storeB blocks c = some b) :
    ∃ e ∈ blocks, cidN e.1 = c ∧ b = e.2 ∧ FlatUnixFs.tryParseR b = some (FlatUnixFs.tryParse b) := by
  unfold storeB at h
  obtain ⟨e, he, rfl⟩ := Option.map_eq_some_iff.1 h
  have hmem := List.mem_of_find?_eq_some he
  have hc := List.find?_some he
  exact ⟨e, hmem, by simpa using hc, rfl, tame_agree (hb e hmem)⟩

/-- What a block is read as, if it is read. -/
def readAs (b : Bytes) : List FlatUnixFs := (FlatUnixFs.tryParse b).toOption.toList

theorem storeB_reads {blocks : List (UInt8 × Bytes)} (hb : ∀ e ∈ blocks, tame e.2 = true) {c : Cid} {b : Bytes} (h : storeB blocks c = some b)
    {m : FlatUnixFs} (hm : Reads b m) : ∃ e ∈ blocks, cidN e.1 = c ∧ m ∈ readAs e.2 := by
  obtain ⟨e, he, hc, rfl, hp⟩ := storeB_get hb h
  refine ⟨e, he, hc, ?_⟩
  unfold Reads at hm
  rw [hp] at hm
  unfold readAs
  rw [Option.some.inj hm]
  simp [Except.toOption]

/-- What `WalkSafe` asks for, looked up in a list of blocks; `inside` has the numbers of those which are in sharded directories, and condition `skip` is left out. -/
structure SafeList (skip : Nat) (blocks : List (UInt8 × Bytes)) (inside : List UInt8) : Prop where
  tame : ∀ e ∈ blocks, tame e.2 = true
  entries : skip ≠ 0 → ∀ e ∈ blocks, ∀ m ∈ readAs e.2, m.data.Ty = .Directory → ∀ l ∈ m.links, ∀ s ∈ [l.Name.getD []], l.Name ≠ none ∧ s ≠ [] ∧ slash ∉ s
  slots : skip ≠ 1 → ∀ e ∈ blocks, ∀ m ∈ readAs e.2, m.data.Ty = .HAMTShard → ∀ l ∈ m.links, ∀ s ∈ [l.Name.getD []],
    l.Name ≠ none ∧ 2 ≤ s.length ∧ (2 < s.length → isCharBoundary s 2 = true ∧ slash ∉ s.drop 2)
  noDot : skip ≠ 2 → ∀ e ∈ blocks, ∀ m ∈ readAs e.2, dot ∉ namesIn m
  buckets : skip ≠ 3 → ∀ e ∈ blocks, ∀ m ∈ readAs e.2, m.data.Ty = .HAMTShard → ∀ l ∈ m.links, l.Name.map (·.length) = some 2 →
    ∀ f ∈ blocks, Cid.tryFrom (l.Hash.getD []) = .ok (cidN f.1) → ∀ m' ∈ readAs f.2, m'.data.Ty = .HAMTShard
  closed : ∀ e ∈ blocks, ∀ m ∈ readAs e.2, m.data.Ty = .HAMTShard ∨ (m.data.Ty = .Directory ∧ e.1 ∈ inside) → ∀ l ∈ m.links,
    ∀ f ∈ blocks, Cid.tryFrom (l.Hash.getD []) = .ok (cidN f.1) → f.1 ∈ inside
  noEmpty : skip ≠ 4 → ∀ e ∈ blocks, e.1 ∈ inside → ∀ m ∈ readAs e.2, m.data.Ty = .Directory → m.links ≠ []
  sized : skip ≠ 5 → ∀ e ∈ blocks, ∀ m ∈ readAs e.2, m.data.Ty = .File ∨ m.data.Ty = .Raw → m.links = [] → m.data.filesize ≠ none
  parts : skip ≠ 6 → ∀ e ∈ blocks, ∀ m ∈ readAs e.2, m.data.Ty = .File ∨ m.data.Ty = .Raw → ∀ l ∈ m.links,
    ∀ f ∈ blocks, Cid.tryFrom (l.Hash.getD []) = .ok (cidN f.1) → readAs f.2 ≠ []

theorem walkSafe_iff {get : Cid → Option Bytes} : WalkSafe get ↔ ∀ i, SafeCondition get i :=
  ⟨fun h i => match i with
    | 0 => h.entries
    | 1 => h.slots
    | 2 => h.noDot
    | 3 => h.buckets
    | 4 => h.noEmpty
    | 5 => h.sized
    | 6 => h.parts, fun h => ⟨h 0, h 1, h 2, h 3, h 4, h 5, h 6⟩⟩

theorem SafeList.conditions {skip : Nat} {blocks : List (UInt8 × Bytes)} {inside : List UInt8} (h : SafeList skip blocks inside) :
    ∀ i : Fin 7, skip ≠ i.val → SafeCondition (storeB blocks) i
  | 0, hs => by
    intro c b m hg hm hty l hl
    obtain ⟨e, he, _, hr⟩ := storeB_reads h.tame hg hm
    obtain ⟨h1, h2, h3⟩ := h.entries hs e he m hr hty l hl (l.Name.getD []) (by simp)
    cases hn : l.Name with
    | none => exact absurd hn h1
    | some s => rw [hn] at h2 h3; exact ⟨s, rfl, h2, h3⟩
  | 1, hs => by
    intro c b m hg hm hty l hl
    obtain ⟨e, he, _, hr⟩ := storeB_reads h.tame hg hm
    obtain ⟨h1, h2, h3⟩ := h.slots hs e he m hr hty l hl (l.Name.getD []) (by simp)
    cases hn : l.Name with
    | none => exact absurd hn h1
    | some s => rw [hn] at h2 h3; exact ⟨s, rfl, h2, h3⟩
  | 2, hs => by
    intro c b hg
    rintro ⟨m, l, x, hm, hl, hx, hc⟩
    obtain ⟨e, he, _, hr⟩ := storeB_reads h.tame hg hm
    apply h.noDot hs e he m hr
    have hmem : x ∈ m.links.filterMap (·.Name) := List.mem_filterMap.2 ⟨l, hl, hx⟩
    unfold namesIn
    rcases hc with ⟨hty, rfl⟩ | ⟨hty, _, hd⟩
    · rw [hty]; exact hmem
    · rw [hty]; exact List.mem_map.2 ⟨x, hmem, hd.symm⟩
  | 3, hs => by
    intro c b m hg hm hty l hl x hx hlen c' b' m' hc' hg' hm'
    obtain ⟨e, he, _, hr⟩ := storeB_reads h.tame hg hm
    obtain ⟨f, hf, hfc, hr'⟩ := storeB_reads h.tame hg' hm'
    exact h.buckets hs e he m hr hty l hl (by rw [hx]; simp [hlen]) f hf (by rw [hc', hfc]) m' hr'
  | 4, hs => by
    intro c b m hin hg hm hty
    have key : ∀ c, InSharded (storeB blocks) c → ∀ e ∈ blocks, cidN e.1 = c → e.1 ∈ inside := by
      intro c hin
      induction hin with
      | slot hg hm hty hl hc =>
        intro f hf hfc
        obtain ⟨e, he, _, hr⟩ := storeB_reads h.tame hg hm
        exact h.closed e he _ hr (.inl hty) _ hl f hf (by rw [hc, hfc])
      | deeper _ hg hm hty hl hc ih =>
        intro f hf hfc
        obtain ⟨e, he, hec, hr⟩ := storeB_reads h.tame hg hm
        exact h.closed e he _ hr (.inr ⟨hty, ih e he hec⟩) _ hl f hf (by rw [hc, hfc])
    obtain ⟨e, he, hec, hr⟩ := storeB_reads h.tame hg hm
    exact h.noEmpty hs e he (key c hin e he hec) m hr hty
  | 5, hs => by
    intro c b m hg hm hty hl
    obtain ⟨e, he, _, hr⟩ := storeB_reads h.tame hg hm
    exact h.sized hs e he m hr hty hl
  | 6, hs => by
    intro c b m hg hm hty l hl c' b' hc' hg' er
    obtain ⟨e, he, _, hr⟩ := storeB_reads h.tame hg hm
    obtain ⟨f, hf, hfc, rfl, hp⟩ := storeB_get h.tame hg'
    have := h.parts hs e he m hr hty l hl f hf (by rw [hc', hfc])
    rw [hp]
    intro e
    unfold readAs at this
    rw [Option.some.inj e] at this
    exact this rfl

theorem SafeList.safe {blocks : List (UInt8 × Bytes)} {inside : List UInt8} (h : SafeList 7 blocks inside) : WalkSafe (storeB blocks) :=
  walkSafe_iff.2 (fun i => h.conditions i (by omega))

theorem walkSteps_in {get : Cid → Option Bytes} (hp : ∀ c b, get c = some b → FlatUnixFs.tryParseR b = some (FlatUnixFs.tryParse b))
    {cid : Cid} {name : Bytes} : ∀ (n : Nat) (w w' : Walker)
    (h h' : List (Bytes × ContinuedWalk)), WalkedIn get cid name h w → walkSteps get n w = some (h', w') → WalkedIn get cid name (h ++ h') w'
  | 0, w, w', h, h', hw, hs => by cases hs; rw [List.append_nil]; exact hw
  | n + 1, w, w', h, h', hw, hs => by
    rw [walkSteps] at hs
    split at hs
    · next hsc =>
      split at hs
      · next first rest hpl =>
        split at hs
        · next block hg =>
          split at hs
          · next item w1 c1 hst =>
            obtain ⟨x, hx, he⟩ := Option.map_eq_some_iff.1 hs
            obtain ⟨x1, x2⟩ := x
            cases he
            have := walkSteps_in hp n w1 x2 (h ++ [(block, item)]) x1
              (.next hw hsc hpl hg (cache := none) (fun _ h => nomatch h) (by rw [stepRel_eq (hp _ _ hg), hst])) hx
            simpa using this
          · cases hs
        · cases hs
      · cases hs
    · cases hs

/-- What a walk of so many steps and one more ends with: the paths, and the panic of the last step. -/
def panicsAfter (get : Cid → Option Bytes) (n : Nat) (w : Walker) : Option Panic :=
  (walkSteps get n w).bind (fun x => match x.2.pendingLinks with
    | .ok (first, _) => (get first).bind (fun block => match x.2.stepR block none with
      | (.panic p, _, _) => some p
      | _ => none)
    | _ => none)

def link1 (n : UInt8) : PBLink := linkN n []
def symMsg : FlatUnixFs := ⟨[], { Ty := .Symlink, Data := some [46] }⟩
def partMsg (d : Bytes) : FlatUnixFs := ⟨[], { Ty := .File, Data := some d, filesize := some d.length }⟩

/-- A directory with a sharded directory in which there are a bucket and a directory, a file of two blocks, an entry which is no block and one which
is not in the store. -/
def roughBlocks : List (UInt8 × Bytes) :=
  [(0, (dirMsg [linkN 1 [115], linkN 7 [121], linkN 10 [122]]).write),
   (1, (shardMsg [linkN 2 [65, 66], linkN 4 [65, 67, 120]]).write), (2, (shardMsg [linkN 3 [65, 68, 122]]).write), (3, symMsg.write),
   (4, (dirMsg [linkN 3 [97], linkN 5 [98]]).write),
   (5, FlatUnixFs.write ⟨[link1 6, link1 6], { Ty := .File, filesize := some 6, blocksizes := [3, 3] }⟩), (6, (partMsg [1, 2, 3]).write),
   (7, [255, 255, 255])]

/-- Blocks without a name for an entry; with a label of one byte; with `.` in `.`; with a link of two bytes to a file;
with an empty directory before a bucket; with a leaf without a size; with a file which links to what is no block. -/
def badBlocks : List (List (UInt8 × Bytes)) :=
  [[(0, (dirMsg [linkN 1 []]).write), (1, symMsg.write)],
   [(0, (shardMsg [linkN 1 [65]]).write), (1, symMsg.write)],
   [(0, (dirMsg [linkN 1 dot, linkN 2 [120]]).write), (1, (dirMsg [linkN 2 dot]).write), (2, symMsg.write)],
   [(0, (shardMsg [linkN 1 [65, 66], linkN 1 [65, 67]]).write), (1, symMsg.write)],
   [(0, (shardMsg [linkN 1 [65, 66, 67], linkN 2 [65, 68]]).write), (1, (dirMsg []).write), (2, (shardMsg []).write)],
   [(0, FlatUnixFs.write ⟨[], { Ty := .File, Data := some [1] }⟩)],
   [(0, FlatUnixFs.write ⟨[link1 1], { Ty := .File, filesize := some 3, blocksizes := [3] }⟩), (1, [255])]]

theorem storeB_agree {blocks : List (UInt8 × Bytes)} (hb : ∀ e ∈ blocks, tame e.2 = true) (c : Cid) (b : Bytes) (h : storeB blocks c = some b) :
    FlatUnixFs.tryParseR b = some (FlatUnixFs.tryParse b) := by
  obtain ⟨_, _, _, _, hp⟩ := storeB_get hb h
  exact hp

set_option synthInstance.maxSize 1024 in
set_option synthInstance.maxHeartbeats 200000 in
theorem roughBlocks_safe : SafeList 7 roughBlocks [2, 3, 4, 5, 6] where
  tame := by decide +kernel
  entries := by decide +kernel
  slots := by decide +kernel
  noDot := by decide +kernel
  buckets := by decide +kernel
  closed := by decide +kernel
  noEmpty := by decide +kernel
  sized := by decide +kernel
  parts := by decide +kernel


/-- The rough store meets the hypothesis; walked as `r` its first seven steps report `r`, `r/s`, `r/s` (the bucket), `r/s/z`, `r/s/x`, `r/s/x/a` and the first
block of `r/s/x/b`. -/
theorem C113_example : WalkSafe (storeB roughBlocks) ∧ slash ∉ ([114] : Bytes) ∧ ∃ h w, WalkedIn (storeB roughBlocks) (cidN 0) [114] h w ∧
    w.shouldContinue = true ∧ h.map (fun x => pathOf x.2) = [⟨false, [[114]]⟩, ⟨false, [[114], [115]]⟩, ⟨false, [[114], [115]]⟩, ⟨false, [[114], [115], [122]]⟩,
      ⟨false, [[114], [115], [120]]⟩, ⟨false, [[114], [115], [120], [97]]⟩, ⟨false, [[114], [115], [120], [98]]⟩] := by
  refine ⟨roughBlocks_safe.safe, by decide, ?_⟩
  have hs : (walkSteps (storeB roughBlocks) 7 (Walker.new (cidN 0) [114])).map (fun x => (x.2.shouldContinue, x.1.map (fun y => pathOf y.2))) =
      some (true, [⟨false, [[114]]⟩, ⟨false, [[114], [115]]⟩, ⟨false, [[114], [115]]⟩, ⟨false, [[114], [115], [122]]⟩,
        ⟨false, [[114], [115], [120]]⟩, ⟨false, [[114], [115], [120], [97]]⟩, ⟨false, [[114], [115], [120], [98]]⟩]) := by decide +kernel
  obtain ⟨⟨h, w⟩, h1, h2⟩ := Option.map_eq_some_iff.1 hs
  have hw := walkSteps_in (storeB_agree roughBlocks_safe.tame) 7 _ w [] h .new h1
  rw [List.nil_append] at hw
  exact ⟨h, w, hw, congrArg Prod.fst h2, congrArg Prod.snd h2⟩

theorem panicsAfter_walked {blocks : List (UInt8 × Bytes)} (hb : ∀ e ∈ blocks, tame e.2 = true) {n : Nat} {cid : Cid} {name : Bytes} {p : Panic}
    (h : panicsAfter (storeB blocks) n (Walker.new cid name) = some p) : ∃ hs w first rest block w' k, WalkedIn (storeB blocks) cid name hs w ∧
      w.pendingLinks = .ok (first, rest) ∧ storeB blocks first = some block ∧ w.stepRel block none = some (.panic p, w', k) := by
  unfold panicsAfter at h
  obtain ⟨⟨hs, w⟩, h1, h⟩ := Option.bind_eq_some_iff.1 h
  have hw := walkSteps_in (storeB_agree hb) n _ w [] hs .new h1
  rw [List.nil_append] at hw
  simp only at h
  split at h
  · next first rest hpl =>
    obtain ⟨block, hg, h⟩ := Option.bind_eq_some_iff.1 h
    split at h
    · next q w' k hst =>
      cases h
      exact ⟨hs, w, first, rest, block, w', k, hw, hpl, hg, by rw [stepRel_eq (storeB_agree hb _ _ hg), hst]⟩
    · cases h
  · cases h

/-- Each of the seven stores which the hypothesis excludes has one over which a release build panics. -/
theorem C113_excluded : ∀ blocks ∈ badBlocks, ∃ hs w first rest block p w' k, WalkedIn (storeB blocks) (cidN 0) [114] hs w ∧
    w.pendingLinks = .ok (first, rest) ∧ storeB blocks first = some block ∧ w.stepRel block none = some (.panic p, w', k) := by
  intro blocks hb
  have ht : ∀ bs ∈ badBlocks, ∀ e ∈ bs, tame e.2 = true := by decide +kernel
  have hp : ∀ bs ∈ badBlocks, ∃ n ∈ [0, 1, 2, 3], (panicsAfter (storeB bs) n (Walker.new (cidN 0) [114])).isSome = true := by decide +kernel
  obtain ⟨n, _, h⟩ := hp blocks hb
  obtain ⟨p, h⟩ := Option.isSome_iff_exists.1 h
  obtain ⟨hs, w, first, rest, block, w', k, h1, h2, h3, h4⟩ := panicsAfter_walked (ht blocks hb) h
  exact ⟨hs, w, first, rest, block, p, w', k, h1, h2, h3, h4⟩

set_option synthInstance.maxSize 1024 in
set_option synthInstance.maxHeartbeats 200000 in
theorem bad0_safe : SafeList 0 badBlocks[0] [] where
  tame := by decide +kernel
  closed := by decide +kernel
  entries := by decide +kernel
  slots := by decide +kernel
  noDot := by decide +kernel
  buckets := by decide +kernel
  noEmpty := by decide +kernel
  sized := by decide +kernel
  parts := by decide +kernel

set_option synthInstance.maxSize 1024 in
set_option synthInstance.maxHeartbeats 200000 in
theorem bad1_safe : SafeList 1 badBlocks[1] [1] where
  tame := by decide +kernel
  closed := by decide +kernel
  entries := by decide +kernel
  slots := by decide +kernel
  noDot := by decide +kernel
  buckets := by decide +kernel
  noEmpty := by decide +kernel
  sized := by decide +kernel
  parts := by decide +kernel

set_option synthInstance.maxSize 1024 in
set_option synthInstance.maxHeartbeats 200000 in
theorem bad2_safe : SafeList 2 badBlocks[2] [] where
  tame := by decide +kernel
  closed := by decide +kernel
  entries := by decide +kernel
  slots := by decide +kernel
  noDot := by decide +kernel
  buckets := by decide +kernel
  noEmpty := by decide +kernel
  sized := by decide +kernel
  parts := by decide +kernel

set_option synthInstance.maxSize 1024 in
set_option synthInstance.maxHeartbeats 200000 in
theorem bad3_safe : SafeList 3 badBlocks[3] [1] where
  tame := by decide +kernel
  closed := by decide +kernel
  entries := by decide +kernel
  slots := by decide +kernel
  noDot := by decide +kernel
  buckets := by decide +kernel
  noEmpty := by decide +kernel
  sized := by decide +kernel
  parts := by decide +kernel

set_option synthInstance.maxSize 1024 in
set_option synthInstance.maxHeartbeats 200000 in
theorem bad4_safe : SafeList 4 badBlocks[4] [1, 2] where
  tame := by decide +kernel
  closed := by decide +kernel
  entries := by decide +kernel
  slots := by decide +kernel
  noDot := by decide +kernel
  buckets := by decide +kernel
  noEmpty := by decide +kernel
  sized := by decide +kernel
  parts := by decide +kernel

set_option synthInstance.maxSize 1024 in
set_option synthInstance.maxHeartbeats 200000 in
theorem bad5_safe : SafeList 5 badBlocks[5] [] where
  tame := by decide +kernel
  closed := by decide +kernel
  entries := by decide +kernel
  slots := by decide +kernel
  noDot := by decide +kernel
  buckets := by decide +kernel
  noEmpty := by decide +kernel
  sized := by decide +kernel
  parts := by decide +kernel

set_option synthInstance.maxSize 1024 in
set_option synthInstance.maxHeartbeats 200000 in
theorem bad6_safe : SafeList 6 badBlocks[6] [] where
  tame := by decide +kernel
  closed := by decide +kernel
  entries := by decide +kernel
  slots := by decide +kernel
  noDot := by decide +kernel
  buckets := by decide +kernel
  noEmpty := by decide +kernel
  sized := by decide +kernel
  parts := by decide +kernel

/-- C113: each of the conditions is needed. For each of them there is a store which meets all others, over which a walk panics at some step. -/
theorem C113_needed : ∀ i : Fin 7, ∃ get, (∀ j, j ≠ i → SafeCondition get j) ∧ ∃ hs w first rest block p w' k, WalkedIn get (cidN 0) [114] hs w ∧
    w.pendingLinks = .ok (first, rest) ∧ get first = some block ∧ w.stepRel block none = some (.panic p, w', k) := by
  have one : ∀ (i : Fin 7) (blocks : List (UInt8 × Bytes)) (inside : List UInt8), SafeList i.val blocks inside → blocks ∈ badBlocks →
      ∃ get, (∀ j, j ≠ i → SafeCondition get j) ∧ ∃ hs w first rest block p w' k, WalkedIn get (cidN 0) [114] hs w ∧
        w.pendingLinks = .ok (first, rest) ∧ get first = some block ∧ w.stepRel block none = some (.panic p, w', k) :=
    fun i blocks inside h hb => ⟨storeB blocks, fun j hj => h.conditions j (fun e => hj (Fin.ext e.symm)), C113_excluded blocks hb⟩
  exact fun i => match i with
    | 0 => one 0 _ _ bad0_safe (List.getElem_mem (by decide))
    | 1 => one 1 _ _ bad1_safe (List.getElem_mem (by decide))
    | 2 => one 2 _ _ bad2_safe (List.getElem_mem (by decide))
    | 3 => one 3 _ _ bad3_safe (List.getElem_mem (by decide))
    | 4 => one 4 _ _ bad4_safe (List.getElem_mem (by decide))
    | 5 => one 5 _ _ bad5_safe (List.getElem_mem (by decide))
    | 6 => one 6 _ _ bad6_safe (List.getElem_mem (by decide))

end Verif.Props
