import Verif.Spec.ReleasePlaces
import Verif.ReleaseWalk
import Verif.Props.WalkExact
import Verif.Props.ReleaseEnds
import Verif.Props.ReleaseRun
import Verif.Props.ReleaseWalk
import Verif.Props.ReleaseSafe
/-
The invariant of a walker of a release build.
-/
namespace Verif
open Verif.Spec Verif.Props

/-! ### paths -/

theorem upBy_zero (p : PathBuf) : upBy 0 p = some p := by
  simp [upBy]

theorem popGe_eq {ε : Type} (d : Nat) (hd : 1 ≤ d) : ∀ (D : Nat) (p : PathBuf),
    (popWhileGe d D p : Res ε PathBuf) = match upBy (D + 1 - d) p with | none => .panic .walkPathPop | some q => .ok q
  | 0, p => by
    rw [show 0 + 1 - d = 0 by omega, upBy_zero]
    rfl
  | D + 1, p => by
    unfold popWhileGe
    by_cases h : d ≤ D + 1
    · rw [if_pos h]
      unfold PathBuf.pop
      by_cases hc : p.comps = []
      · rw [if_pos hc]
        unfold upBy
        rw [hc, if_neg (by simp only [List.length_nil]; omega)]
      · rw [if_neg hc]
        simp only
        rw [popGe_eq d hd D]
        have hl : 0 < p.comps.length := List.length_pos_iff.2 hc
        unfold upBy
        simp only [List.length_dropLast]
        by_cases hk : D + 1 - d ≤ p.comps.length - 1
        · rw [if_pos hk, if_pos (by omega)]
          simp only
          rw [List.dropLast_eq_take, List.take_take]
          congr 3
          omega
        · rw [if_neg hk, if_neg (by omega)]
    · rw [if_neg h, show D + 1 + 1 - d = 0 by omega, upBy_zero]

theorem popGt_eq {ε : Type} (d : Nat) : ∀ (D : Nat) (p : PathBuf), d ≤ D →
    (popWhileGt d D p : Res ε (Nat × PathBuf)) = match upBy (D - d) p with | none => .panic .walkPathPop | some q => .ok (d, q)
  | 0, p, h => by
    have : d = 0 := by omega
    subst this
    rw [show 0 - 0 = 0 from rfl, upBy_zero]
    rfl
  | D + 1, p, hd => by
    unfold popWhileGt
    by_cases h : d < D + 1
    · rw [if_pos h]
      unfold PathBuf.pop
      by_cases hc : p.comps = []
      · rw [if_pos hc]
        unfold upBy
        rw [hc, if_neg (by simp only [List.length_nil]; omega)]
      · rw [if_neg hc]
        simp only
        rw [popGt_eq d D _ (by omega)]
        have hl : 0 < p.comps.length := List.length_pos_iff.2 hc
        unfold upBy
        simp only [List.length_dropLast]
        by_cases hk : D - d ≤ p.comps.length - 1
        · rw [if_pos hk, if_pos (by omega)]
          simp only
          rw [List.dropLast_eq_take, List.take_take]
          congr 4
          omega
        · rw [if_neg hk, if_neg (by omega)]
    · rw [if_neg h]
      have : d = D + 1 := by omega
      subst this
      rw [show D + 1 - (D + 1) = 0 by omega, upBy_zero]

theorem push_into {p : PathBuf} {n : Bytes} (h : slash ∉ n) : p.push n = into p n := by
  unfold PathBuf.push into
  rw [if_neg (noHead h), splitSlash_single h]
  obtain ⟨a, c⟩ := p
  simp only [pathComps, List.filter_nil, List.append_nil]
  by_cases hn : n = []
  · simp [hn]
  · by_cases hd : n = dot
    · subst hd
      cases a <;> cases c <;> simp
    · simp [hn, hd]

/-! ### entering -/

/-- The path of what is entered for the link. -/
def enteredPath (w : Walker) (n : WalkLink) : Option PathBuf :=
  match w.current with
  | none => some (PathBuf.push {} n.name)
  | some ie => (upBy (ie.depth + 1 - n.depth) ie.path).map (·.push n.name)

theorem asKindR_eq {ε : Type} {ie : InnerEntry} (hk : ∀ v sz, ie.kind ≠ .File (some v) sz) (k : InnerKind) (c : Cid) (n : Bytes) {d : Nat} (hd : 1 ≤ d)
    (md : Metadata) : (ie.asKindR k c n d md : Res ε InnerEntry) = match upBy (ie.depth + 1 - d) ie.path with
      | none => .panic .walkPathPop
      | some p => .ok ⟨c, k, p.push n, md, d⟩ := by
  unfold InnerEntry.asKindR
  split
  · next v sz h => exact absurd h (hk v sz)
  · unfold InnerEntry.setPathR
    simp only [popGe_eq d hd]
    cases upBy (ie.depth + 1 - d) ie.path <;> rfl

theorem enterLeafR_eq {w : Walker} (hr : w.atRest) (k : InnerKind) (md : Metadata) {n : WalkLink} (hd : 1 ≤ n.depth) :
    w.enterLeafR k md n = match enteredPath w n with
      | none => .panic .walkPathPop
      | some p => .ok ⟨n.cid, k, p, md, n.depth⟩ := by
  unfold Walker.enterLeafR enteredPath
  cases hc : w.current with
  | none => rfl
  | some ie =>
    simp only
    rw [asKindR_eq (fun v sz => hr ie v sz hc) _ _ _ hd]
    cases upBy (ie.depth + 1 - n.depth) ie.path <;> rfl

theorem enterDirectoryR_eq {w : Walker} (hr : w.atRest) (md : Metadata) {n : WalkLink} (hd : 1 ≤ n.depth) :
    w.enterDirectoryR md n = match enteredPath w n with
      | none => .panic .walkPathPop
      | some p => .ok (⟨n.cid, if w.current = none then .RootDirectory else .Directory, p, md, n.depth⟩,
          if w.current = none then .RootDirectory n.cid p md else .Directory n.cid p md) := by
  unfold Walker.enterDirectoryR enteredPath
  cases hc : w.current with
  | none => rfl
  | some ie =>
    simp only
    rw [asKindR_eq (fun v sz => hr ie v sz hc) _ _ _ hd]
    cases upBy (ie.depth + 1 - n.depth) ie.path <;> rfl

/-- A shard which is not a bucket. -/
theorem enterShardR_named {w : Walker} (hr : w.atRest) (md : Metadata) {n : WalkLink} (hd : 1 ≤ n.depth) (hn : w.current = none ∨ n.name ≠ []) :
    w.enterShardR md n = match enteredPath w n with
      | none => .panic .walkPathPop
      | some p => .ok (⟨n.cid, if w.current = none then .BucketAtRoot else .RootBucket, p, md, n.depth⟩, .RootDirectory n.cid p md) := by
  unfold Walker.enterShardR enteredPath
  cases hc : w.current with
  | none => rfl
  | some ie =>
    simp only
    rw [if_neg (hn.resolve_left (by rw [hc]; nofun)), asKindR_eq (fun v sz => hr ie v sz hc) _ _ _ hd]
    cases upBy (ie.depth + 1 - n.depth) ie.path <;> rfl

/-- A bucket. -/
theorem enterShardR_bucket {w : Walker} {ie : InnerEntry} (hc : w.current = some ie) (hr : w.atRest) (md : Metadata) {n : WalkLink} (hn : n.name = [])
    (hd : n.depth ≤ ie.depth) (hroot : ie.kind = .BucketAtRoot → n.depth = ie.depth) (hrd : ie.kind ≠ .RootDirectory) :
    (ie.kind = .Directory → ∃ p, w.enterShardR md n = .panic p) ∧
    (ie.kind ≠ .Directory → w.enterShardR md n = match upBy (ie.depth - n.depth) ie.path with
      | none => .panic .walkPathPop
      | some p => .ok (if ie.kind = .BucketAtRoot then ie else ⟨n.cid, .Bucket, p, ie.metadata, n.depth⟩,
          .Bucket (if ie.kind = .BucketAtRoot then ie.cid else n.cid) p)) := by
  have hf := fun v sz => hr ie v sz hc
  unfold Walker.enterShardR
  rw [hc]
  simp only
  rw [if_pos hn]
  obtain ⟨c, k, p, m, d⟩ := ie
  simp only at hd hroot hrd hf ⊢
  unfold InnerEntry.asBucket
  have hpop : (popWhileGt n.depth d p : Res WalkError (Nat × PathBuf)) = _ := popGt_eq n.depth d p hd
  cases k with
  | RootDirectory => exact absurd rfl hrd
  | Directory => exact ⟨fun _ => ⟨_, rfl⟩, fun h => absurd rfl h⟩
  | BucketAtRoot =>
    have hdd := hroot rfl
    refine ⟨nofun, fun _ => ?_⟩
    rw [hdd, Nat.sub_self, upBy_zero]
    simp
  | RootBucket =>
    refine ⟨nofun, fun _ => ?_⟩
    simp only [hpop]
    cases upBy (d - n.depth) p <;> simp
  | Bucket =>
    refine ⟨nofun, fun _ => ?_⟩
    simp only [hpop]
    cases upBy (d - n.depth) p <;> simp
  | Symlink =>
    refine ⟨nofun, fun _ => ?_⟩
    simp only [hpop]
    cases upBy (d - n.depth) p <;> simp
  | File v sz =>
    cases v with
    | some v => exact absurd rfl (hf v sz)
    | none =>
      refine ⟨nofun, fun _ => ?_⟩
      simp only [hpop]
      cases upBy (d - n.depth) p <;> simp

/-! ### links -/

/-- What a kept link stands for. -/
def toPlace (l : WalkLink) : Place := ⟨l.cid, l.depth, l.name, if l.name = [] then .bucket else .entry⟩

theorem converted_places {conv : Nat → PBLink → Res InvalidCidInLink WalkLink} {f : PBLink → Option Place} :
    ∀ {links : List PBLink} {k : Nat} {ls : List WalkLink}, (links.zipIdx k).map (fun x => conv x.2 x.1) = ls.map .ok →
      (∀ l ∈ links, ∀ i w, conv i l = .ok w → f l = some (toPlace w)) → links.filterMap f = ls.map toPlace := by
  intro links
  induction links with
  | nil =>
    intro k ls h _
    cases ls with
    | nil => rfl
    | cons _ _ => cases h
  | cons l links ih =>
    intro k ls h hf
    cases ls with
    | nil => simp at h
    | cons w ls =>
      simp only [List.zipIdx_cons, List.map_cons, List.cons.injEq] at h
      rw [List.filterMap_cons_some (hf l (by simp) _ _ h.1), ih h.2 (fun l hl => hf l (by simp [hl])), List.map_cons]

theorem directory_places {a : Place} {m : FlatUnixFs} {ls : List WalkLink} (ha : a.what ≠ .fileBlock) (hty : m.data.Ty = .Directory)
    (h : m.links.zipIdx.map (fun x => convertLink (a.level + 1) x.2 x.1) = ls.map .ok) :
    m.links.filterMap (followRel a m) = ls.map toPlace ∧ ∀ l ∈ ls, slash ∉ l.name ∧ l.name ≠ [] ∧ l.depth = a.level + 1 := by
  refine ⟨converted_places h ?_, ?_⟩
  · intro l _ i w hw
    obtain ⟨h1, h2, h3, h4, h5⟩ := convertLink_took hw
    simp only [followRel, if_neg ha, hty, placeAt, h5, toPlace, h1, h4, Option.getD_some, if_neg h2]
  · intro l hl
    obtain ⟨i, x, hx, hcv⟩ := took h hl
    obtain ⟨h1, h2, h3, h4, h5⟩ := convertLink_took hcv
    exact ⟨h3, h2, h4⟩

theorem shard_places {a : Place} {m : FlatUnixFs} {ls : List WalkLink} (ha : a.what ≠ .fileBlock) (hty : m.data.Ty = .HAMTShard)
    (h : m.links.zipIdx.map (fun x => convertShardedLink (a.level + 1) a.level x.2 x.1) = ls.map .ok) :
    m.links.filterMap (followRel a m) = ls.map toPlace ∧ ∀ l ∈ ls, slash ∉ l.name ∧
      ((l.name ≠ [] ∧ l.depth = a.level + 1) ∨ (l.name = [] ∧ l.depth = a.level)) := by
  have hne : ∀ {s : Bytes}, 2 < s.length → s.drop 2 ≠ [] := by
    intro s hs e
    have := congrArg List.length e
    rw [List.length_drop, List.length_nil] at this
    omega
  refine ⟨converted_places h ?_, ?_⟩
  · intro l _ i w hw
    obtain ⟨s, h1, h2, h3 | h3⟩ := convertShardedLink_took hw
    · have hn : w.name ≠ [] := by rw [h3.2.1]; exact hne h3.1
      simp only [followRel, if_neg ha, hty, placeAt, h2, toPlace, h1, h3.2.2.2, Option.getD_some]
      rw [if_neg (by omega), if_neg hn, h3.2.1]
    · simp only [followRel, if_neg ha, hty, placeAt, h2, toPlace, h1, h3.2.2, Option.getD_some]
      rw [if_pos h3.1, h3.2.1, if_pos rfl]
  · intro l hl
    obtain ⟨i, x, hx, hcv⟩ := took h hl
    obtain ⟨s, h1, h2, h3 | h3⟩ := convertShardedLink_took hcv
    · exact ⟨h3.2.2.1, .inl ⟨by rw [h3.2.1]; exact hne h3.1, h3.2.2.2⟩⟩
    · exact ⟨by rw [h3.2.1]; nofun, .inr h3.2⟩

/-! ### files -/

/-- The Cids of links. -/
def cidsOf (links : List PBLink) : List Cid := links.filterMap (fun l => (Cid.tryFrom (l.Hash.getD [])).toOption)

/-- What a visit asks for, if there is one. -/
def visitAsks : Option FileVisit → List Cid
  | none => []
  | some v => v.pending.reverse.map (·.1)

theorem placeAt_cids (level : Nat) (name : Bytes) (what : What) : ∀ (links : List PBLink),
    (links.filterMap (placeAt level name what)).map (·.cid) = cidsOf links
  | [] => rfl
  | l :: ls => by
    have ih := placeAt_cids level name what ls
    unfold cidsOf at ih ⊢
    rw [List.filterMap_cons, List.filterMap_cons]
    cases h : Cid.tryFrom (l.Hash.getD []) with
    | ok c => simp [placeAt, h, Except.toOption, ih]
    | error e => simp [placeAt, h, Except.toOption, ih]

theorem collectLinksR_all : ∀ (links : List PBLink) (sizes : List Nat) (i base : Nat) (ps : List Pending), links.length = sizes.length →
    collectLinksR none i base (links.zip sizes) = .ok ps → ps.map (·.1) = cidsOf links ∧ (links ≠ [] → ps ≠ []) ∧ ∀ l ∈ links, CidOk l
  | [], _, i, base, ps, _, h => by simp [collectLinksR] at h; cases h; exact ⟨rfl, fun h => absurd rfl h, nofun⟩
  | _ :: _, [], i, base, ps, hl, h => by cases hl
  | l :: ls, n :: ns, i, base, ps, hl, h => by
    rw [List.zip_cons_cons, collectLinksR] at h
    simp only [blockIsInTargetRange, Bool.true_eq_false, if_false] at h
    rw [Res.bind_ok_iff] at h
    obtain ⟨p, hp, h⟩ := h
    rw [Res.bind_ok_iff] at h
    obtain ⟨qs, hq, h⟩ := h
    cases h
    have ih := collectLinksR_all ls ns _ _ _ (by simpa using hl) hq
    refine ⟨?_, nofun, ?_⟩
    · unfold cidsOf
      rw [List.filterMap_cons, toPending_cid hp]
      simp only [Except.toOption, List.map_cons]
      exact congrArg _ ih.1
    · intro x hx
      rcases List.mem_cons.1 hx with rfl | hx
      · exact ⟨p.1, toPending_cid hp⟩
      · exact ih.2.2 x hx

theorem collectLinksR_works : ∀ (links : List PBLink) (sizes : List Nat) (i base : Nat), (∀ l ∈ links, CidOk l) →
    ∃ ps, collectLinksR none i base (links.zip sizes) = .ok ps
  | [], _, i, base, _ => ⟨[], by simp [collectLinksR]⟩
  | _ :: _, [], i, base, _ => ⟨[], by simp [collectLinksR]⟩
  | l :: ls, n :: ns, i, base, h => by
    obtain ⟨qs, hq⟩ := collectLinksR_works ls ns (i + 1) (addW base n) (fun x hx => h x (List.mem_cons_of_mem _ hx))
    obtain ⟨c, hc⟩ := h l (by simp)
    rw [List.zip_cons_cons, collectLinksR]
    simp only [blockIsInTargetRange, Bool.true_eq_false, if_false, toPending, hc, hq, Res.bind_ok]
    exact ⟨_, rfl⟩

theorem cache_inner {cache : Option VisitCache} (hc : ∀ k, cache = some k → CacheObtainable k) : (cache.getD {}).inner = [] := by
  cases cache with
  | none => rfl
  | some k => rcases hc k rfl with rfl | ⟨vec, rfl⟩ <;> rfl

/-- Starting to read a file. -/
theorem startFromParsedR_ok {m : FlatUnixFs} {cache k : Option VisitCache} (hc : ∀ k, cache = some k → CacheObtainable k) {r : FileVisitResult}
    (h : IdleFileVisit.startFromParsedR {} m cache = (.ok r, k)) :
    FirstFine m ∧ r.content = blockContent m ∧ r.metadata = metaOf m.data ∧ r.total_size = m.data.filesize.getD 0 ∧
      visitAsks r.next = cidsOf m.links ∧ ∀ v, r.next = some v → Asking v := by
  unfold IdleFileVisit.startFromParsedR FileReader.fromParsedR at h
  rcases fromPartsR_cases m 0 (Metadata.ofUnixFs m.data) with ⟨h1, h2, h3, h4⟩ | ⟨h1, h2, e, h3⟩ | ⟨fs, e, h1, h2, h3⟩
  · rw [h4] at h; cases h
  · rw [h3] at h; cases h
  · rw [h3] at h
    simp only [IdleFileVisit.startFromReaderR, FileReader.content] at h
    by_cases hl : m.links = []
    · rw [if_pos hl] at h
      simp only [maybeTargetSliceR, Res.bind_ok] at h
      cases h
      refine ⟨⟨h1, by rw [h2]; nofun, by rw [hl]; nofun⟩, by simp [blockContent, hl], rfl, by rw [h2]; rfl, by rw [hl]; rfl, nofun⟩
    · rw [if_neg hl] at h
      simp only [cache_inner hc, List.nil_append] at h
      cases hcl : collectLinksR none 0 0 (m.links.zip m.data.blocksizes) with
      | err e => rw [hcl] at h; cases h
      | panic p => rw [hcl] at h; cases h
      | ok ps =>
        obtain ⟨g1, g2, g3⟩ := collectLinksR_all _ _ _ _ _ h1.sizes hcl
        rw [hcl] at h
        simp only at h
        rw [if_neg (by simpa using g2 hl)] at h
        cases h
        refine ⟨⟨h1, by rw [h2]; nofun, g3⟩, by simp [blockContent, hl], rfl, by rw [h2]; rfl, ?_, ?_⟩
        · simp only [visitAsks, List.reverse_reverse, g1]
        · intro v hv
          cases hv
          exact ⟨rfl, by simpa using g2 hl⟩

theorem startFromParsedR_panics (m : FlatUnixFs) (cache : Option VisitCache) :
    ((∃ p, (IdleFileVisit.startFromParsedR {} m cache).1 = .panic p) ↔ Passed m ∧ m.links = [] ∧ m.data.filesize = none) ∧
    (FirstFine m → ∃ r, (IdleFileVisit.startFromParsedR {} m cache).1 = .ok r) ∧
    ∀ e, (IdleFileVisit.startFromParsedR {} m cache).1 ≠ .err (.Read e) := by
  unfold IdleFileVisit.startFromParsedR FileReader.fromParsedR
  rcases fromPartsR_cases m 0 (Metadata.ofUnixFs m.data) with ⟨h1, h2, h3, h4⟩ | ⟨h1, h2, e, h3⟩ | ⟨fs, e, h1, h2, h3⟩
  · rw [h4]
    exact ⟨⟨fun _ => ⟨h1, h2, h3⟩, fun _ => ⟨_, rfl⟩⟩, fun h => absurd h3 h.2.1, nofun⟩
  · have hne : ∀ e', e ≠ .Read e' := fun e' he => fromPartsR_ne_read e' (he ▸ h3)
    rw [h3]
    exact ⟨⟨nofun, fun h => (h2 ⟨h.1, h.2.1⟩).elim⟩, fun h => (h1 ⟨h.1, h.2.1⟩).elim, fun e' he => hne e' (Res.err.inj he)⟩
  · rw [h3]
    simp only [IdleFileVisit.startFromReaderR, FileReader.content]
    by_cases hl : m.links = []
    · rw [if_pos hl]
      simp only [maybeTargetSliceR, Res.bind_ok]
      exact ⟨⟨nofun, fun h => by rw [h2] at h; cases h.2.2⟩, fun _ => ⟨_, rfl⟩, nofun⟩
    · rw [if_neg hl]
      simp only
      refine ⟨⟨?_, fun h => absurd h.2.1 hl⟩, ?_, ?_⟩
      · rintro ⟨p, hp⟩
        cases hcl : collectLinksR none 0 0 (m.links.zip m.data.blocksizes) with
        | panic q => exact absurd hcl (collectLinksR_no_panic _ _ _ _ _)
        | err e => rw [hcl] at hp; cases hp
        | ok ps =>
          rw [hcl] at hp
          simp only at hp
          split at hp <;> cases hp
      · intro hf
        obtain ⟨ps, hps⟩ := collectLinksR_works m.links m.data.blocksizes 0 0 hf.2.2
        rw [hps]
        simp only
        split <;> exact ⟨_, rfl⟩
      · intro e' he
        cases hcl : collectLinksR none 0 0 (m.links.zip m.data.blocksizes) with
        | panic q => exact collectLinksR_no_panic _ _ _ _ _ hcl
        | err e =>
          rw [hcl] at he
          exact collectLinksR_ne_read none e' _ _ _ (hcl.trans (congrArg Res.err (Res.err.inj he)))
        | ok ps =>
          rw [hcl] at he
          simp only at he
          split at he <;> cases he

/-- Reading on. -/
theorem continueWalkRel_ok' {v : FileVisit} {b c : Bytes} {cache k : Option VisitCache} {next : Option FileVisit} (hv : Asking v)
    (h : v.continueWalkRel b cache = some (.ok (c, next), k)) :
    ∃ m first rest, Reads b m ∧ visitAsks (some v) = first :: rest ∧ c = blockContent m ∧ visitAsks next = cidsOf m.links ++ rest ∧
      ∀ v', next = some v' → Asking v' := by
  have hask := fun v' (e : next = some v') => continueWalkRel_asking (v' := v') hv (e ▸ h)
  unfold FileVisit.continueWalkRel at h
  cases hP : v.pending.getLast? with
  | none => rw [hP] at h; cases h
  | some pr =>
    obtain ⟨pc, i⟩ := pr
    obtain ⟨P, hP'⟩ := List.getLast?_eq_some_iff.1 hP
    rw [hP] at h
    simp only at h
    split at h
    · cases h
    obtain ⟨parsed, hparse, h⟩ := Option.map_eq_some_iff.1 h
    cases parsed with
    | error e => cases h
    | ok m =>
      refine ⟨m, pc, P.reverse.map (·.1), hparse, by simp [visitAsks, hP'], ?_⟩
      suffices hs : c = blockContent m ∧ visitAsks next = cidsOf m.links ++ P.reverse.map (·.1) from ⟨hs.1, hs.2, hask⟩
      unfold FileVisit.continueWith FileReader.fromContinuedP at h
      simp only [hP', List.dropLast_concat, hv.1] at h
      split at h
      · next hx =>
        split at hx
        · cases h
        · cases h
      · cases h
      · next fr hx =>
        split at hx
        · cases hx
        rcases fromPartsR_cases m i.lo v.state.metadata with ⟨h1, h2, h3, h4⟩ | ⟨h1, h2, e, h3⟩ | ⟨fs, e, h1, h2, h3⟩
        · rw [h4] at hx; cases hx
        · rw [h3] at hx; cases hx
        · rw [h3] at hx
          cases hx
          simp only [FileReader.content] at h
          by_cases hl : m.links = []
          · rw [if_pos hl] at h
            simp only [maybeTargetSliceR] at h
            rw [hl]
            refine ⟨?_, ?_⟩
            · unfold blockContent; rw [if_pos hl]
              split at h <;> (cases h; rfl)
            · split at h
              · cases h; rfl
              · next hp =>
                cases h
                have : P = [] := Classical.byContradiction hp
                rw [this]; rfl
          · rw [if_neg hl] at h
            simp only at h
            cases hcl : collectLinksR none 0 i.lo (m.links.zip m.data.blocksizes) with
            | err e => rw [hcl] at h; cases h
            | panic p => rw [hcl] at h; cases h
            | ok ps =>
              rw [hcl] at h
              cases h
              obtain ⟨g1, g2, g3⟩ := collectLinksR_all _ _ _ _ _ h1.sizes hcl
              refine ⟨by unfold blockContent; rw [if_neg hl], ?_⟩
              simp only [visitAsks, List.reverse_append, List.reverse_reverse, List.map_append, g1]

end Verif
