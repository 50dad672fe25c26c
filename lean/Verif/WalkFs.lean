import Verif.WalkTree
import Verif.DirLemmas
/-
Walking a well-formed file system tree: directories.
-/
namespace Verif
open Verif.Spec Verif.Props

/-! ### flags -/

def report (cid : Cid) : Bool → List ContinuedWalk → List ContinuedWalk
  | _, [] => []
  | r, i :: is => (if r && isBucket i then withBucketCid cid i else i) :: report cid (r && isBucket i) is

def bad : Bool → List ContinuedWalk → Bool
  | _, [] => false
  | d, i :: is => (d && isBucket i) || bad (isDirectory i) is

def endDir (d : Bool) : List ContinuedWalk → Bool
  | [] => d
  | i :: is => endDir (isDirectory i) is

def rootB (before : List ContinuedWalk) : Bool := !before.isEmpty && (before.drop 1).all isBucket

theorem report_append (cid : Cid) : ∀ (r : Bool) (xs ys : List ContinuedWalk),
    report cid r (xs ++ ys) = report cid r xs ++ report cid (r && xs.all isBucket) ys := by
  intro r xs
  induction xs generalizing r with
  | nil => intro ys; simp [report]
  | cons x xs ih => intro ys; simp [report, ih, Bool.and_assoc]

theorem bad_append : ∀ (d : Bool) (xs ys : List ContinuedWalk), bad d (xs ++ ys) = (bad d xs || bad (endDir d xs) ys) := by
  intro d xs
  induction xs generalizing d with
  | nil => intro ys; simp [bad, endDir]
  | cons x xs ih => intro ys; simp [bad, endDir, ih, Bool.or_assoc]

theorem endDir_append (d : Bool) (xs ys : List ContinuedWalk) : endDir d (xs ++ ys) = endDir (endDir d xs) ys := by
  induction xs generalizing d with
  | nil => rfl
  | cons x xs ih => simp [endDir, ih]

theorem isDirectory_with (cid : Cid) (i : ContinuedWalk) : isDirectory (withBucketCid cid i) = isDirectory i := by cases i <;> rfl
theorem isBucket_with (cid : Cid) (i : ContinuedWalk) : isBucket (withBucketCid cid i) = isBucket i := by cases i <;> rfl

theorem endDir_report (cid : Cid) (d r : Bool) (xs : List ContinuedWalk) : endDir d (report cid r xs) = endDir d xs := by
  induction xs generalizing d r with
  | nil => rfl
  | cons x xs ih =>
    simp only [report, endDir, ih]
    split <;> simp [isDirectory_with]

theorem all_report (cid : Cid) (r : Bool) (xs : List ContinuedWalk) : (report cid r xs).all isBucket = xs.all isBucket := by
  induction xs generalizing r with
  | nil => rfl
  | cons x xs ih =>
    simp only [report, List.all_cons, ih]
    split <;> simp [isBucket_with]

theorem rootB_append {before : List ContinuedWalk} (h : before ≠ []) (xs : List ContinuedWalk) :
    rootB (before ++ xs) = (rootB before && xs.all isBucket) := by
  cases before with
  | nil => exact absurd rfl h
  | cons x before => simp [rootB]

theorem isBucket_iff (i : ContinuedWalk) : isBucket i = true ↔ ∃ c p, i = .Bucket c p := by
  cases i <;> simp [isBucket]

theorem rootB_iff (before : List ContinuedWalk) : rootB before = true ↔ RootBuckets before := by
  unfold rootB RootBuckets
  simp only [Bool.and_eq_true, Bool.not_eq_true', List.isEmpty_eq_false_iff, List.all_eq_true, isBucket_iff, ne_eq]

theorem endDir_iff (before : List ContinuedWalk) : endDir false before = true ↔ LastIsDirectory before := by
  unfold LastIsDirectory
  rcases List.eq_nil_or_concat before with rfl | ⟨xs, x, rfl⟩
  · simp [endDir]
  · rw [List.concat_eq_append, endDir_append]
    simp only [endDir, List.getLast?_append, List.getLast?_singleton, Option.some_or, Option.some.injEq]
    cases x <;> simp [isDirectory]

/-! ### outcomes -/

section
variable (cid : Cid) (name : Bytes) (get : Cid → Option Bytes)

/-- What the loop does while it visits everything before `rest`, if that should be reported as `its`. -/
def Outcome (before its : List ContinuedWalk) (w : Walker) (cache : Option VisitCache) (rest : List Awaited) : Prop :=
  (bad (endDir false before) its = false → ∃ w' cache',
    walkFrom get w cache = prepend (report cid (rootB before) its) (walkFrom get w' cache') ∧ CacheOk cache' ∧
    St cid name (before ++ report cid (rootB before) its) w' [] rest) ∧
  (bad (endDir false before) its = true → walkFrom get w cache = some (.panic .walkBucketKind))
end

section
variable {cid : Cid} {name : Bytes} {get : Cid → Option Bytes} {before : List ContinuedWalk} {w : Walker} {rest : List Awaited}
  {cache : Option VisitCache}

theorem Outcome.append {xs ys : List ContinuedWalk} {mid : List Awaited} (hne : before ≠ [])
    (h1 : Outcome cid name get before xs w cache mid)
    (h2 : ∀ w' cache', CacheOk cache' → St cid name (before ++ report cid (rootB before) xs) w' [] mid →
      Outcome cid name get (before ++ report cid (rootB before) xs) ys w' cache' rest) :
    Outcome cid name get before (xs ++ ys) w cache rest := by
  have e1 : endDir false (before ++ report cid (rootB before) xs) = endDir (endDir false before) xs := by
    rw [endDir_append, endDir_report]
  have e2 : rootB (before ++ report cid (rootB before) xs) = (rootB before && xs.all isBucket) := by
    rw [rootB_append hne, all_report]
  constructor
  · intro hb
    rw [bad_append, Bool.or_eq_false_iff] at hb
    obtain ⟨w1, c1, a1, a2, a3⟩ := h1.1 hb.1
    obtain ⟨w2, c2, b1, b2, b3⟩ := (h2 w1 c1 a2 a3).1 (by rw [e1]; exact hb.2)
    refine ⟨w2, c2, ?_, b2, ?_⟩
    · rw [a1, b1, prepend_prepend, report_append, e2]
    · rw [report_append, ← e2, ← List.append_assoc]; exact b3
  · intro hb
    rw [bad_append] at hb
    cases hx : bad (endDir false before) xs with
    | true => exact h1.2 hx
    | false =>
      rw [hx, Bool.false_or] at hb
      obtain ⟨w1, c1, a1, a2, a3⟩ := h1.1 hx
      rw [a1, (h2 w1 c1 a2 a3).2 (by rw [e1]; exact hb)]
      rfl

theorem Outcome.nil (hc : CacheOk cache) (hs : St cid name before w [] rest) : Outcome cid name get before [] w cache rest := by
  constructor
  · intro _
    exact ⟨w, cache, by rw [report, prepend_nil], hc, by simpa [report] using hs⟩
  · intro h; simp [bad] at h

/-- Items other than buckets are reported as they should be. -/
theorem report_named {r : Bool} {xs : List ContinuedWalk} (h : ∀ i ∈ xs, isBucket i = false) : report cid r xs = xs := by
  induction xs generalizing r with
  | nil => rfl
  | cons x xs ih =>
    have hx := h x (by simp)
    simp only [report, hx, Bool.and_false, Bool.false_eq_true, if_false]
    rw [ih (fun i hi => h i (by simp [hi]))]

theorem bad_named {d : Bool} {xs : List ContinuedWalk} (h : ∀ i ∈ xs, isBucket i = false) : bad d xs = false := by
  induction xs generalizing d with
  | nil => rfl
  | cons x xs ih =>
    have hx := h x (by simp)
    simp only [bad, hx, Bool.and_false, Bool.false_or]
    exact ih (fun i hi => h i (by simp [hi]))

theorem Outcome.of_named {its : List ContinuedWalk} (h : ∀ i ∈ its, isBucket i = false) {w' : Walker} {cache' : Option VisitCache}
    (h1 : walkFrom get w cache = prepend its (walkFrom get w' cache')) (h2 : CacheOk cache') (h3 : St cid name (before ++ its) w' [] rest) :
    Outcome cid name get before its w cache rest := by
  constructor
  · intro _
    rw [report_named h]
    exact ⟨w', cache', h1, h2, h3⟩
  · intro hb; rw [bad_named h] at hb; cases hb
end

/-! ### links -/

/-- What a tree in a directory at path `path` looks like before it is visited. -/
def Spec.FsTree.awaits (path : List Bytes) : FsTree → Awaited
  | .bucket c _ => ⟨c, path, .bucket⟩
  | t => ⟨t.cid, path ++ rootPath t.name, .entry⟩

theorem awaits_named {t : FsTree} (h : t.Named) (path : List Bytes) : t.awaits path = ⟨t.cid, path ++ rootPath t.name, .entry⟩ := by
  cases t <;> first | rfl | exact absurd h (by simp [FsTree.Named])

theorem awaits_cid (t : FsTree) (path : List Bytes) : (t.awaits path).cid = t.cid := by cases t <;> rfl

theorem awaits_what (t : FsTree) (path : List Bytes) : (t.awaits path).what ≠ .fileBlock := by cases t <;> simp [FsTree.awaits]

theorem entries_follow {get : Cid → Option Bytes} {a : Awaited} {m : FlatUnixFs} (ha : a.what ≠ .fileBlock) (hty : m.data.Ty = .Directory) :
    ∀ {ks : List FsTree} {ls : List PBLink}, EntriesAt get ks ls →
      ls.filterMap (follow a m) = ks.map (·.awaits a.path) ∧
      (∀ l ∈ ls, ∀ d i, ∃ x, convertLink d i l = .ok x) ∧ ∀ k ∈ ks, FsAt get k ∧ (k.Named → k.name ≠ [] ∧ k.name ≠ dot) := by
  intro ks
  induction ks with
  | nil =>
    intro ls h
    cases ls with
    | nil => simp
    | cons _ _ => simp [EntriesAt] at h
  | cons k ks ih =>
    intro ls h
    cases ls with
    | nil => simp [EntriesAt] at h
    | cons l ls =>
      simp only [EntriesAt] at h
      obtain ⟨⟨h1, ⟨g1, g2, g3, g4⟩, h3, h4, h5⟩, hrest⟩ := h
      obtain ⟨i1, i2, i4⟩ := ih hrest
      have hf : follow a m l = some (k.awaits a.path) := by
        simp only [follow, ha, if_false, hty, linkTo, h4, h3, Option.getD_some]
        rw [awaits_named h1, rootPath, if_neg g1]
      refine ⟨by rw [List.filterMap_cons_some hf, i1]; rfl, ?_, ?_⟩
      · intro l' hl'
        rcases List.mem_cons.1 hl' with rfl | hl'
        · intro d i
          unfold convertLink
          rw [h4, h3]
          simp only
          rw [if_neg g1, if_neg g3]
          exact ⟨_, rfl⟩
        · exact i2 l' hl'
      · intro k' hk'
        rcases List.mem_cons.1 hk' with rfl | hk'
        · exact ⟨h5, fun _ => ⟨g1, g2⟩⟩
        · exact i4 k' hk'

theorem slot_named {t : FsTree} (h : t.Named) (n : Option Bytes) :
    SlotName t n ↔ GoodName t.name ∧ ∃ p q : UInt8, p ≤ 0x7F ∧ q ≤ 0x7F ∧ n = some (p :: q :: t.name) := by
  cases t <;> first | rfl | exact absurd h (by simp [FsTree.Named])

theorem slots_follow {get : Cid → Option Bytes} {a : Awaited} {m : FlatUnixFs} (ha : a.what ≠ .fileBlock) (hty : m.data.Ty = .HAMTShard) :
    ∀ {ks : List FsTree} {ls : List PBLink}, SlotsAt get ks ls →
      ls.filterMap (follow a m) = ks.map (·.awaits a.path) ∧
      (∀ l ∈ ls, ∀ d s i, ∃ x, convertShardedLink d s i l = .ok x) ∧ ∀ k ∈ ks, FsAt get k ∧ (k.Named → k.name ≠ [] ∧ k.name ≠ dot) := by
  intro ks
  induction ks with
  | nil =>
    intro ls h
    cases ls with
    | nil => simp
    | cons _ _ => simp [SlotsAt] at h
  | cons k ks ih =>
    intro ls h
    cases ls with
    | nil => simp [SlotsAt] at h
    | cons l ls =>
      simp only [SlotsAt] at h
      obtain ⟨⟨h1, h4, h5⟩, hrest⟩ := h
      obtain ⟨i1, i2, i4⟩ := ih hrest
      have hthis : follow a m l = some (k.awaits a.path) ∧ (∀ d s i, ∃ x, convertShardedLink d s i l = .ok x) ∧
          (k.Named → k.name ≠ [] ∧ k.name ≠ dot) := by
        by_cases hk : k.Named
        · rw [slot_named hk] at h1
          obtain ⟨⟨g1, g2, g3, g4⟩, p, q, _, _, hn⟩ := h1
          have hpos : 0 < k.name.length := List.length_pos_iff.2 g1
          refine ⟨?_, ?_, ?_⟩
          · simp only [follow, ha, if_false, hty, linkTo, h4, hn, Option.getD_some]
            rw [awaits_named hk, rootPath, if_neg g1, if_neg (by simp; omega)]
            rfl
          · intro d s i
            unfold convertShardedLink
            rw [h4, hn]
            simp only [boundary_two p q k.name g1 g4]
            rw [if_pos (by simp; omega), if_neg (by simp), if_neg (by simpa using g3)]
            exact ⟨_, rfl⟩
          · exact fun _ => ⟨g1, g2⟩
        · cases k with
          | bucket c kids =>
            obtain ⟨s, hs, hlen⟩ := h1
            refine ⟨?_, ?_, ?_⟩
            · simp only [follow, ha, if_false, hty, linkTo, h4, hs, Option.getD_some]
              rw [if_pos hlen]
              rfl
            · intro d s' i
              unfold convertShardedLink
              rw [h4, hs]
              simp only
              rw [if_neg (by omega), if_pos hlen]
              exact ⟨_, rfl⟩
            · exact fun h => absurd h (by simp [FsTree.Named])
          | file e t => exact absurd trivial hk
          | symlink e t => exact absurd trivial hk
          | dir e t => exact absurd trivial hk
          | sharded e t => exact absurd trivial hk
      refine ⟨by rw [List.filterMap_cons_some hthis.1, i1]; rfl, ?_, ?_⟩
      · intro l' hl'
        rcases List.mem_cons.1 hl' with rfl | hl'
        · exact hthis.2.1
        · exact i2 l' hl'
      · intro k' hk'
        rcases List.mem_cons.1 hk' with rfl | hk'
        · exact ⟨h5, hthis.2.2⟩
        · exact i4 k' hk'

/-! ### one block -/

section
variable {cid : Cid} {name : Bytes} {get : Cid → Option Bytes} {before : List ContinuedWalk} {w : Walker} {aw : List Awaited} {a : Awaited}
  {cache : Option VisitCache} {b : Bytes} {m : FlatUnixFs} {kids : List FsTree}

theorem symlink_walk (hname : slash ∉ name) (hs : St cid name before w [] (a :: aw)) (hc : CacheOk cache) (ha : a.what = .entry)
    (hdd : ¬ DotDeep a.path) (hg : get a.cid = some b) (hm : FlatUnixFs.tryParse b = .ok m) (hty : m.data.Ty = .Symlink) :
    ∃ w' cache', walkFrom get w cache = prepend [.Symlink (m.data.Data.getD []) a.cid ⟨false, a.path⟩ (Metadata.ofUnixFs m.data)]
        (walkFrom get w' cache') ∧ CacheOk cache' ∧
      St cid name (before ++ [.Symlink (m.data.Data.getD []) a.cid ⟨false, a.path⟩ (Metadata.ofUnixFs m.data)]) w' [] aw := by
  have hr := hs.atRest
  obtain ⟨n, hn⟩ := next_some hs.wi
  obtain ⟨ie, hie⟩ := hs.pi.enterLeaf_ok hr ha hdd hn .Symlink (Metadata.ofUnixFs m.data)
  have hsok : (w.step b cache).1 = .ok (.Symlink (m.data.Data.getD []) ie.cid ie.path ie.metadata) := by
    rw [step_atRest hr]
    unfold Walker.nextBlock
    rw [hm]
    simp only [hty]
    unfold Walker.nextSymlink
    rw [hn]
    simp only [hie]
  obtain ⟨w', cache', fb', rest', hstep, hc', hwalk, hkids, hrep, hs'⟩ := hs.step (get := get) (b := b) (a := a) (aw := aw) rfl hg hc hname hm hsok
  have hk : m.links.filterMap (follow a m) = [] := by
    rw [List.filterMap_eq_nil_iff]
    intro l _
    simp [follow, ha, hty]
  rw [hk] at hkids
  obtain ⟨rfl, rfl⟩ := split_unique (fb := []) (rest := aw) hkids (by simp) hs'.wi.file.what
    (fun x hx => hs.wi.what x (by simp [hx])) hs'.wi.what
  have hitem := not_reported hrep (by rw [ha]; simp)
  unfold itemFor at hitem
  simp only [ha, hty, Option.some.injEq] at hitem
  rw [← hitem] at hwalk hs'
  exact ⟨w', cache', hwalk, hc', hs'⟩

theorem dir_walk (hname : slash ∉ name) (hs : St cid name before w [] (a :: aw)) (hc : CacheOk cache) (ha : a.what = .entry)
    (hdd : ¬ DotDeep a.path) (hg : get a.cid = some b) (hm : FlatUnixFs.tryParse b = .ok m) (hd : DirNode m) (hk : EntriesAt get kids m.links) {item : ContinuedWalk}
    (hi : item = if before = [] then .RootDirectory a.cid ⟨false, a.path⟩ (Metadata.ofUnixFs m.data)
      else .Directory a.cid ⟨false, a.path⟩ (Metadata.ofUnixFs m.data)) :
    ∃ w' cache', walkFrom get w cache = prepend [item] (walkFrom get w' cache') ∧ CacheOk cache' ∧
      St cid name (before ++ [item]) w' [] (kids.map (·.awaits a.path) ++ aw) := by
  have hr := hs.atRest
  obtain ⟨n, hn⟩ := next_some hs.wi
  obtain ⟨⟨ie, it⟩, hie⟩ := hs.pi.enterDirectory_ok hr ha hdd hn (Metadata.ofUnixFs m.data)
  obtain ⟨hty, d1, d2, d3, d4, d5⟩ := hd
  obtain ⟨f1, f2, -⟩ := entries_follow (a := a) (m := m) (by rw [ha]; simp) hty hk
  have hsok : (w.step b cache).1 = .ok it := by
    rw [step_atRest hr]
    unfold Walker.nextBlock
    rw [hm]
    simp only [hty]
    have : checkDirectorySupported m = .ok m := by
      unfold checkDirectorySupported
      simp only [d1, d2, d3, d4, d5]
      rfl
    rw [this]
    simp only
    obtain ⟨w', hw'⟩ := nextDir_of (w := w) (cache := cache) hn (conv := fun depth nth l => convertLink (depth + 1) nth l)
      (fun l hl i => f2 l hl _ i) hie
    rw [hw']
  obtain ⟨w', cache', fb', rest', hstep, hc', hwalk, hkids, hrep, hs'⟩ := hs.step (get := get) (b := b) (a := a) (aw := aw) rfl hg hc hname hm hsok
  rw [f1] at hkids
  obtain ⟨rfl, rfl⟩ := split_unique (fb := []) (rest := kids.map (·.awaits a.path) ++ aw) hkids (by simp) hs'.wi.file.what
    (by
      intro x hx
      rcases List.mem_append.1 hx with hx | hx
      · obtain ⟨k, _, rfl⟩ := List.mem_map.1 hx
        exact awaits_what k _
      · exact hs.wi.what x (by simp [hx])) hs'.wi.what
  have hitem := not_reported hrep (by rw [ha]; simp)
  unfold itemFor at hitem
  simp only [ha, hty] at hitem
  have : it = item := by
    rw [hi]
    split at hitem
    next h => rw [if_pos h]; exact (Option.some.inj hitem).symm
    next h => rw [if_neg h]; exact (Option.some.inj hitem).symm
  subst this
  exact ⟨w', cache', hwalk, hc', hs'⟩

theorem shard_step (hs : St cid name before w [] (a :: aw))
    (hm : FlatUnixFs.tryParse b = .ok m) (hd : ShardNode m) {n : WalkLink} (hn : w.next = some n) :
    w.step b cache = w.nextDir m.links (fun depth nth l => convertShardedLink (depth + 1) depth nth l)
      (w.enterShard (Metadata.ofUnixFs m.data)) cache := by
  obtain ⟨hty, d1, d2, d3, d4⟩ := hd
  rw [step_atRest hs.atRest]
  unfold Walker.nextBlock
  rw [hm]
  simp only [hty]
  have : checkHamtshardSupported m = .ok m := by
    unfold checkHamtshardSupported checkShardSupported
    simp only [hty, d1, d2, d3, d4]
    rfl
  rw [this]

theorem shard_walk (hname : slash ∉ name) (hs : St cid name before w [] (a :: aw)) (hc : CacheOk cache)
    (hdd : ¬ DotDeep a.path ∨ a.what = .bucket) (ha : a.what = .bucket → ¬ LastIsDirectory before)
    (hg : get a.cid = some b) (hm : FlatUnixFs.tryParse b = .ok m) (hd : ShardNode m) (hk : SlotsAt get kids m.links) {item : ContinuedWalk}
    (hi : item = if a.what = .bucket then .Bucket (if rootB before then cid else a.cid) ⟨false, a.path⟩
      else .RootDirectory a.cid ⟨false, a.path⟩ (Metadata.ofUnixFs m.data)) :
    ∃ w' cache', walkFrom get w cache = prepend [item] (walkFrom get w' cache') ∧ CacheOk cache' ∧
      St cid name (before ++ [item]) w' [] (kids.map (·.awaits a.path) ++ aw) := by
  have hr := hs.atRest
  obtain ⟨n, hn⟩ := next_some hs.wi
  have hawhat : a.what ≠ .fileBlock := hs.wi.what a (by simp)
  obtain ⟨⟨ie, it⟩, hie⟩ := hs.pi.enterShard_ok hr hn hawhat hdd ha (Metadata.ofUnixFs m.data)
  have hty := hd.1
  obtain ⟨f1, f2, -⟩ := slots_follow (a := a) (m := m) hawhat hty hk
  have hsok : (w.step b cache).1 = .ok it := by
    rw [shard_step hs hm hd hn]
    obtain ⟨w', hw'⟩ := nextDir_of (w := w) (cache := cache) hn (conv := fun depth nth l => convertShardedLink (depth + 1) depth nth l)
      (fun l hl i => f2 l hl _ _ i) hie
    rw [hw']
  obtain ⟨w', cache', fb', rest', hstep, hc', hwalk, hkids, hrep, hs'⟩ := hs.step (get := get) (b := b) (a := a) (aw := aw) rfl hg hc hname hm hsok
  rw [f1] at hkids
  obtain ⟨rfl, rfl⟩ := split_unique (fb := []) (rest := kids.map (·.awaits a.path) ++ aw) hkids (by simp) hs'.wi.file.what
    (by
      intro x hx
      rcases List.mem_append.1 hx with hx | hx
      · obtain ⟨k, _, rfl⟩ := List.mem_map.1 hx
        exact awaits_what k _
      · exact hs.wi.what x (by simp [hx])) hs'.wi.what
  have : it = item := by
    rw [hi]
    cases hw : a.what with
    | fileBlock => exact absurd hw hawhat
    | entry =>
      have hitem := not_reported hrep (by rw [hw]; simp)
      unfold itemFor at hitem
      simp only [hw, hty] at hitem
      exact (Option.some.inj hitem).symm
    | bucket =>
      simp only [if_true]
      by_cases hrb : RootBuckets before
      · rw [if_pos ((rootB_iff before).2 hrb)]
        exact (hrep.2 hw hrb).2
      · rw [if_neg (by rw [rootB_iff]; exact hrb)]
        have hitem := hrep.1 (fun h => hrb h.2)
        unfold itemFor at hitem
        simp only [hw, hty] at hitem
        exact (Option.some.inj hitem).symm
  subst this
  exact ⟨w', cache', hwalk, hc', hs'⟩

theorem bucket_clash (hs : St cid name before w [] (a :: aw)) (ha : a.what = .bucket) (hl : LastIsDirectory before)
    (hg : get a.cid = some b) (hm : FlatUnixFs.tryParse b = .ok m) (hd : ShardNode m) (hk : SlotsAt get kids m.links) :
    walkFrom get w cache = some (.panic .walkBucketKind) := by
  obtain ⟨n, hn⟩ := next_some hs.wi
  obtain ⟨f1, f2, -⟩ := slots_follow (a := a) (m := m) (by rw [ha]; simp) hd.1 hk
  have hsok : (w.step b cache).1 = .panic .walkBucketKind := by
    rw [shard_step hs hm hd hn]
    exact nextDir_panic (w := w) (cache := cache) hn (conv := fun depth nth l => convertShardedLink (depth + 1) depth nth l)
      (fun l hl i => f2 l hl _ _ i) (hs.pi.enterShard_bad hn ha hl _)
  rw [walk_step hs.wi (a := a) (aw := aw) rfl hg]
  rcases h : w.step b cache with ⟨r, w', c'⟩
  rw [h] at hsok
  simp only at hsok
  subst hsok
  rfl
end

/-! ### trees -/

section
variable (cid : Cid) (name : Bytes) (get : Cid → Option Bytes)

/-- What the loop does while it visits a tree inside the root. -/
def FsSpec (t : FsTree) : Prop := FsAt get t → (t.Named → t.name ≠ [] ∧ t.name ≠ dot) → ∀ (path : List Bytes) (before : List ContinuedWalk) (w : Walker) (cache : Option VisitCache)
  (rest : List Awaited), before ≠ [] → CacheOk cache → St cid name before w [] (t.awaits path :: rest) →
  Outcome cid name get before (t.items path) w cache rest
end

section
variable {cid : Cid} {name : Bytes} {get : Cid → Option Bytes}

theorem kids_spec : ∀ {kids : List FsTree}, (∀ k ∈ kids, FsSpec cid name get k) → (∀ k ∈ kids, FsAt get k ∧ (k.Named → k.name ≠ [] ∧ k.name ≠ dot)) →
    ∀ {path : List Bytes} {before : List ContinuedWalk} {w : Walker} {cache : Option VisitCache} {rest : List Awaited}, before ≠ [] → CacheOk cache →
    St cid name before w [] (kids.map (·.awaits path) ++ rest) → Outcome cid name get before (FsTree.itemsL path kids) w cache rest := by
  intro kids
  induction kids with
  | nil =>
    intro _ _ path before w cache rest _ hc hs
    rw [FsTree.itemsL]
    exact Outcome.nil hc hs
  | cons k kids ih =>
    intro h1 h2 path before w cache rest hne hc hs
    rw [FsTree.itemsL]
    refine Outcome.append hne (h1 k (by simp) (h2 k (by simp)).1 (h2 k (by simp)).2 path before w cache (kids.map (·.awaits path) ++ rest) hne hc hs) ?_
    intro w' cache' hc' hs'
    exact ih (fun k hk => h1 k (by simp [hk])) (fun k hk => h2 k (by simp [hk])) (by simp [hne]) hc' hs'

/-- After the item for a directory's own block, its children. -/
theorem Outcome.cons {before : List ContinuedWalk} {item : ContinuedWalk} {its : List ContinuedWalk} {w w' : Walker} {cache cache' : Option VisitCache}
    {mid rest : List Awaited} (hne : before ≠ []) (hb : isBucket item = false)
    (h1 : walkFrom get w cache = prepend [item] (walkFrom get w' cache')) (h2 : CacheOk cache') (h3 : St cid name (before ++ [item]) w' [] mid)
    (h4 : ∀ w'' cache'', CacheOk cache'' → St cid name (before ++ [item]) w'' [] mid → Outcome cid name get (before ++ [item]) its w'' cache'' rest) :
    Outcome cid name get before (item :: its) w cache rest := by
  have hn : ∀ i ∈ [item], isBucket i = false := by simpa using hb
  refine Outcome.append (xs := [item]) hne (Outcome.of_named hn h1 h2 h3) ?_
  rw [report_named hn]
  exact h4

theorem fs_spec (hname : slash ∉ name) : ∀ t : FsTree, FsSpec cid name get t
  | .file e t => by
    intro hat hnm path before w cache rest hne hc hs
    simp only [FsAt] at hat
    obtain ⟨b, m, hg, hm, hmd, hf⟩ := hat
    rw [← ofUnixFs_eq] at hmd
    obtain ⟨w', cache', h1, h2, h3⟩ := file_walk hname hs hc rfl (not_dotDeep (hnm trivial)) hg hm hf
    rw [← hmd] at h1 h3
    refine Outcome.of_named ?_ h1 h2 h3
    intro i hi
    obtain ⟨s, _, rfl⟩ := List.mem_map.1 hi
    rfl
  | .symlink e target => by
    intro hat hnm path before w cache rest hne hc hs
    simp only [FsAt] at hat
    obtain ⟨b, m, hg, hm, hmd, hty, htg⟩ := hat
    rw [← ofUnixFs_eq] at hmd
    obtain ⟨w', cache', h1, h2, h3⟩ := symlink_walk hname hs hc rfl (not_dotDeep (hnm trivial)) hg hm hty
    rw [← hmd, htg] at h1 h3
    rw [FsTree.items]
    exact Outcome.of_named (by simp [isBucket]) h1 h2 h3
  | .dir e kids => by
    intro hat hnm path before w cache rest hne hc hs
    simp only [FsAt] at hat
    obtain ⟨b, m, hg, hm, hmd, hd, hk⟩ := hat
    rw [← ofUnixFs_eq] at hmd
    obtain ⟨w', cache', h1, h2, h3⟩ := dir_walk hname hs hc rfl (not_dotDeep (hnm trivial)) hg hm hd hk (by rw [if_neg hne, ← hmd])
    have hall := (entries_follow (a := ⟨e.cid, [], .entry⟩) (m := m) (by simp) hd.1 hk).2.2
    rw [FsTree.items]
    refine Outcome.cons hne rfl h1 h2 h3 ?_
    intro w'' cache'' hc'' hs''
    exact kids_spec (fun k _ => fs_spec hname k) hall (by simp) hc'' hs''
  | .sharded e kids => by
    intro hat hnm path before w cache rest hne hc hs
    simp only [FsAt] at hat
    obtain ⟨b, m, hg, hm, hmd, hd, hk⟩ := hat
    rw [← ofUnixFs_eq] at hmd
    obtain ⟨w', cache', h1, h2, h3⟩ := shard_walk hname hs hc (.inl (not_dotDeep (hnm trivial))) (by intro h; cases h) hg hm hd hk (by rw [if_neg (by simp [FsTree.awaits]), ← hmd])
    have hall := (slots_follow (a := ⟨e.cid, [], .entry⟩) (m := m) (by simp) hd.1 hk).2.2
    rw [FsTree.items]
    refine Outcome.cons hne rfl h1 h2 h3 ?_
    intro w'' cache'' hc'' hs''
    exact kids_spec (fun k _ => fs_spec hname k) hall (by simp) hc'' hs''
  | .bucket c kids => by
    intro hat hnm path before w cache rest hne hc hs
    simp only [FsAt] at hat
    obtain ⟨b, m, hg, hm, hd, hk⟩ := hat
    have hall := (slots_follow (a := ⟨c, [], .entry⟩) (m := m) (by simp) hd.1 hk).2.2
    rw [FsTree.items]
    by_cases hl : LastIsDirectory before
    · constructor
      · intro hb
        rw [bad, (endDir_iff before).2 hl] at hb
        simp [isBucket] at hb
      · intro _
        exact bucket_clash hs rfl hl hg hm hd hk
    · obtain ⟨w', cache', h1, h2, h3⟩ := shard_walk hname hs hc (.inr rfl) (fun _ => hl) hg hm hd hk rfl
      have hend : endDir false before = false := by
        rw [Bool.eq_false_iff]; intro h; exact hl ((endDir_iff before).1 h)
      have hrep : report cid (rootB before) [ContinuedWalk.Bucket c ⟨false, path⟩] = [.Bucket (if rootB before then cid else c) ⟨false, path⟩] := by
        simp only [report, isBucket, Bool.and_true]
        split <;> rfl
      refine Outcome.append (xs := [.Bucket c ⟨false, path⟩]) (mid := kids.map (·.awaits path) ++ rest) hne ⟨?_, ?_⟩ ?_
      · intro _
        rw [hrep]
        exact ⟨w', cache', h1, h2, h3⟩
      · intro hb
        simp [bad, hend] at hb
      · intro w'' cache'' hc'' hs''
        exact kids_spec (fun k _ => fs_spec hname k) hall (by simp [hne]) hc'' hs''

end

/-! ### the root -/

theorem St.done {cid : Cid} {name : Bytes} {get : Cid → Option Bytes} {before : List ContinuedWalk} {w : Walker} {cache : Option VisitCache}
    (h : St cid name before w [] []) : walkFrom get w cache = some (.ok []) := by
  rw [walkFrom.eq_1]
  have : w.shouldContinue = false := by
    show w.should_continue = false
    rw [h.wi.cont]; rfl
  rw [if_pos this]

theorem Outcome.done {cid : Cid} {name : Bytes} {get : Cid → Option Bytes} {before its : List ContinuedWalk} {w : Walker} {cache : Option VisitCache}
    (h : Outcome cid name get before its w cache []) :
    (bad (endDir false before) its = false → walkFrom get w cache = some (.ok (report cid (rootB before) its))) ∧
    (bad (endDir false before) its = true → walkFrom get w cache = some (.panic .walkBucketKind)) := by
  refine ⟨?_, h.2⟩
  intro hb
  obtain ⟨w', cache', h1, h2, h3⟩ := h.1 hb
  rw [h1, h3.done]
  simp [prepend, Res.map]

/-- The whole walk. -/
theorem walk_spec {get : Cid → Option Bytes} {t : FsTree} (hat : FsAt get t) (ht : t.Named) (hname : slash ∉ t.name)
    {cache : Option VisitCache} (hc : CacheOk cache) : ∃ item items, t.walkItems = item :: items ∧
      (bad (isDirectory item) items = false → walkFrom get (Walker.new t.cid t.name) cache = some (.ok (item :: report t.cid true items))) ∧
      (bad (isDirectory item) items = true → walkFrom get (Walker.new t.cid t.name) cache = some (.panic .walkBucketKind)) := by
  have hs : St t.cid t.name [] (Walker.new t.cid t.name) [] [⟨t.cid, rootPath t.name, .entry⟩] :=
    ⟨WInv.new _ _, .inl ⟨rfl, rfl, rfl⟩⟩
  -- after the root's own block
  have hdir : ∀ {item : ContinuedWalk} {kids : List FsTree} {w' : Walker} {cache' : Option VisitCache} {path : List Bytes}, isDirectory item = false →
      walkFrom get (Walker.new t.cid t.name) cache = prepend [item] (walkFrom get w' cache') → CacheOk cache' →
      St t.cid t.name ([] ++ [item]) w' [] (kids.map (·.awaits path) ++ []) → (∀ k ∈ kids, FsAt get k ∧ (k.Named → k.name ≠ [] ∧ k.name ≠ dot)) →
      (bad (isDirectory item) (FsTree.itemsL path kids) = false →
        walkFrom get (Walker.new t.cid t.name) cache = some (.ok (item :: report t.cid true (FsTree.itemsL path kids)))) ∧
      (bad (isDirectory item) (FsTree.itemsL path kids) = true → walkFrom get (Walker.new t.cid t.name) cache = some (.panic .walkBucketKind)) := by
    intro item kids w' cache' path hd h1 h2 h3 hall
    have ho := (kids_spec (fun k _ => fs_spec hname k) hall (by simp) h2 h3).done
    have he : endDir false ([] ++ [item]) = isDirectory item := rfl
    have hr : rootB ([] ++ [item]) = true := rfl
    rw [he, hr] at ho
    constructor
    · intro hb
      rw [h1, ho.1 hb]
      rfl
    · intro hb
      rw [h1, ho.2 hb]
      rfl
  cases t with
  | bucket c kids => exact absurd ht (by simp [FsTree.Named])
  | file e ft =>
    simp only [FsAt] at hat
    obtain ⟨b, m, hg, hm, hmd, hf⟩ := hat
    rw [← ofUnixFs_eq] at hmd
    obtain ⟨w', cache', h1, h2, h3⟩ := file_walk hname hs hc rfl (not_dotDeep_root _) hg hm hf
    rw [h3.done, ← hmd] at h1
    have hits : (FsTree.file e ft).walkItems = (segments true ft.pieces).map (fun s => .File s e.cid ⟨false, rootPath e.name⟩ e.md ft.content.length) := by
      unfold FsTree.walkItems
      simp only [FsTree.items, List.nil_append]
      cases segments true ft.pieces <;> rfl
    have hne : (segments true ft.pieces).map (fun s => ContinuedWalk.File s e.cid ⟨false, rootPath e.name⟩ e.md ft.content.length) ≠ [] := by
      cases ft with
      | leaf d => simp [FTree.pieces, segments]
      | node ts =>
        rw [FTree.pieces]
        cases FTree.piecesL ts <;> simp [segments]
    have hnb : ∀ i ∈ (segments true ft.pieces).map (fun s => ContinuedWalk.File s e.cid ⟨false, rootPath e.name⟩ e.md ft.content.length), isBucket i = false := by
      intro i hi
      obtain ⟨s, _, rfl⟩ := List.mem_map.1 hi
      rfl
    rw [hits]
    cases hl : (segments true ft.pieces).map (fun s => ContinuedWalk.File s e.cid ⟨false, rootPath e.name⟩ e.md ft.content.length) with
    | nil => exact absurd hl hne
    | cons i is =>
      rw [hl] at hnb
      have hnb' : ∀ i ∈ is, isBucket i = false := fun i hi => hnb i (by simp [hi])
      refine ⟨i, is, rfl, ?_, ?_⟩
      · intro _
        rw [report_named hnb']
        have := h1
        simp only [FsTree.cid, FsTree.name] at this ⊢
        rw [this, hl]
        simp [prepend, Res.map]
      · intro hb; rw [bad_named hnb'] at hb; cases hb
  | symlink e target =>
    simp only [FsAt] at hat
    obtain ⟨b, m, hg, hm, hmd, hty, htg⟩ := hat
    rw [← ofUnixFs_eq] at hmd
    obtain ⟨w', cache', h1, h2, h3⟩ := symlink_walk hname hs hc rfl (not_dotDeep_root _) hg hm hty
    rw [h3.done, ← hmd, htg] at h1
    refine ⟨_, [], rfl, ?_, ?_⟩
    · intro _; exact h1
    · intro hb; simp [bad] at hb
  | dir e kids =>
    simp only [FsAt] at hat
    obtain ⟨b, m, hg, hm, hmd, hd, hk⟩ := hat
    rw [← ofUnixFs_eq] at hmd
    obtain ⟨w', cache', h1, h2, h3⟩ := dir_walk hname hs hc rfl (not_dotDeep_root _) hg hm hd hk rfl
    have hall := (entries_follow (a := ⟨e.cid, [], .entry⟩) (m := m) (by simp) hd.1 hk).2.2
    rw [if_pos rfl, ← hmd] at h1 h3
    exact ⟨_, _, rfl, hdir rfl h1 h2 h3 hall⟩
  | sharded e kids =>
    simp only [FsAt] at hat
    obtain ⟨b, m, hg, hm, hmd, hd, hk⟩ := hat
    rw [← ofUnixFs_eq] at hmd
    obtain ⟨w', cache', h1, h2, h3⟩ := shard_walk hname hs hc (.inl (not_dotDeep_root _)) (by intro h; cases h) hg hm hd hk (by rw [if_neg (by simp), ← hmd])
    have hall := (slots_follow (a := ⟨e.cid, [], .entry⟩) (m := m) (by simp) hd.1 hk).2.2
    exact ⟨_, _, rfl, hdir rfl h1 h2 h3 hall⟩

/-! ### the flags in words -/

theorem report_eq (cid : Cid) : ∀ items : List ContinuedWalk,
    report cid true items = (items.takeWhile isBucket).map (withBucketCid cid) ++ items.dropWhile isBucket := by
  have hf : ∀ items, report cid false items = items := by
    intro items
    induction items with
    | nil => rfl
    | cons i is ih => simp [report, ih]
  intro items
  induction items with
  | nil => rfl
  | cons i is ih =>
    cases h : isBucket i with
    | true => simp [report, h, ih]
    | false => simp [report, h, hf]

theorem bad_iff : ∀ (i : ContinuedWalk) (is : List ContinuedWalk), bad (isDirectory i) is = true ↔ DirThenBucket (i :: is) := by
  intro i is
  induction is generalizing i with
  | nil =>
    simp only [bad, Bool.false_eq_true, false_iff]
    rintro ⟨before, d, b, after, h, _⟩
    have := congrArg List.length h
    simp at this
    omega
  | cons x xs ih =>
    simp only [bad, Bool.or_eq_true, Bool.and_eq_true, ih]
    constructor
    · rintro (⟨h1, h2⟩ | ⟨before, d, b, after, h, h1, h2⟩)
      · exact ⟨[], i, x, xs, rfl, h1, h2⟩
      · exact ⟨i :: before, d, b, after, by rw [h]; rfl, h1, h2⟩
    · rintro ⟨before, d, b, after, h, h1, h2⟩
      cases before with
      | nil =>
        simp only [List.nil_append, List.cons.injEq] at h
        obtain ⟨rfl, rfl, rfl⟩ := h
        exact .inl ⟨h1, h2⟩
      | cons y before =>
        simp only [List.cons_append, List.cons.injEq] at h
        exact .inr ⟨before, d, b, after, h.2, h1, h2⟩

end Verif
