import Verif.Props.Walk
/-
Walking well-formed trees (C45, C47), and what is reported whatever the blocks are.
-/
namespace Verif.Props
open Verif Verif.Spec

/-! ### what is reported for a file -/

mutual
theorem pieces_flatten (t : FTree) : t.pieces.flatten = t.content := by
  cases t with
  | leaf d => simp [FTree.pieces, FTree.content]
  | node ts => simp [FTree.pieces, FTree.content, piecesL_flatten ts]
theorem piecesL_flatten (ts : List FTree) : (FTree.piecesL ts).flatten = FTree.contents ts := by
  cases ts with
  | nil => simp [FTree.piecesL, FTree.contents]
  | cons t ts => simp [FTree.piecesL, FTree.contents, pieces_flatten t, piecesL_flatten ts]
end

theorem segments_bytes : ∀ (first : Bool) (ps : List Bytes), (segments first ps).map FileSegment.asBytes = ps := by
  intro first ps
  induction ps generalizing first with
  | nil => rfl
  | cons p ps ih =>
    cases ps with
    | nil => rfl
    | cons q ps => simp only [segments, List.map_cons, ih]; rfl

/-- The segments which `items` lists for a file carry exactly the file's content. -/
theorem C45_file_bytes (t : FTree) : ((segments true t.pieces).map FileSegment.asBytes).flatten = t.content := by
  rw [segments_bytes, pieces_flatten]

/-! ### C45 for well-formed trees -/

/-- The full statement: walking reports what it should, and ends. -/
def C45_full : Prop :=
  ∀ (get : Cid → Option Bytes) (t : FsTree) (cache : Option VisitCache), FsAt get t → t.Named → slash ∉ t.name →
    (∀ k, cache = some k → CacheObtainable k) → walkFrom get (Walker.new t.cid t.name) cache = some (.ok t.walkItems)

/-- Walking any well-formed tree ends. Every directory, file, symlink and bucket is reported with its path and metadata,
depth first in link order; only buckets reported directly after the root carry a wrong Cid. If however somewhere a bucket
comes directly after a plain directory, the walk panics. -/
theorem C45_tree_partial (get : Cid → Option Bytes) (t : FsTree) (cache : Option VisitCache) (hat : FsAt get t) (ht : t.Named)
    (hname : slash ∉ t.name) (hc : ∀ k, cache = some k → CacheObtainable k) :
    (¬ DirThenBucket t.walkItems → walkFrom get (Walker.new t.cid t.name) cache = some (.ok (rootCids t.cid t.walkItems))) ∧
    (DirThenBucket t.walkItems → walkFrom get (Walker.new t.cid t.name) cache = some (.panic .walkBucketKind)) := by
  obtain ⟨item, items, h1, h2, h3⟩ := walk_spec hat ht hname hc
  rw [h1, ← bad_iff]
  constructor
  · intro hb
    rw [h2 (by simpa using hb), report_eq]
    rfl
  · exact h3

theorem rootCids_eq {cid : Cid} : ∀ {items : List ContinuedWalk}, (∀ i, items[1]? = some i → isBucket i = false) →
    rootCids cid items = items := by
  intro items h
  cases items with
  | nil => rfl
  | cons i is =>
    cases is with
    | nil => rfl
    | cons j js =>
      have : isBucket j = false := h j rfl
      simp [rootCids, this]

/-- When the first thing in the root directory is not a bucket and no bucket comes directly after a plain directory, the
walk is as it should be. In particular, whenever there are no buckets at all. -/
theorem C45_exact_partial (get : Cid → Option Bytes) (t : FsTree) (cache : Option VisitCache) (hat : FsAt get t) (ht : t.Named)
    (hname : slash ∉ t.name) (hc : ∀ k, cache = some k → CacheObtainable k) (hb : ¬ DirThenBucket t.walkItems)
    (h1 : ∀ i, t.walkItems[1]? = some i → isBucket i = false) :
    walkFrom get (Walker.new t.cid t.name) cache = some (.ok t.walkItems) := by
  rw [(C45_tree_partial get t cache hat ht hname hc).1 hb, rootCids_eq h1]

/-- Trees in which every directory is plain, below any depth. -/
def Unsharded : FsTree → Prop
  | .file _ _ => True
  | .symlink _ _ => True
  | .dir _ kids => ∀ k ∈ kids, Unsharded k
  | .sharded _ _ => False
  | .bucket _ _ => False

mutual
theorem items_unsharded (p : List Bytes) (t : FsTree) (h : Unsharded t) : ∀ i ∈ t.items p, isBucket i = false := by
  intro i hi
  match t, h with
  | .sharded _ _, h => simp [Unsharded] at h
  | .bucket _ _, h => simp [Unsharded] at h
  | .file e c, _ =>
    simp only [FsTree.items, List.mem_map] at hi
    obtain ⟨s, _, rfl⟩ := hi
    rfl
  | .symlink e c, _ =>
    simp only [FsTree.items, List.mem_singleton] at hi
    subst hi
    rfl
  | .dir e kids, h =>
    simp only [FsTree.items, List.mem_cons] at hi
    rcases hi with rfl | hi
    · rfl
    · exact itemsL_unsharded _ kids (by simpa [Unsharded] using h) i hi
theorem itemsL_unsharded (p : List Bytes) (ts : List FsTree) (h : ∀ t ∈ ts, Unsharded t) : ∀ i ∈ FsTree.itemsL p ts, isBucket i = false := by
  intro i hi
  match ts, h with
  | [], _ => simp [FsTree.itemsL] at hi
  | t :: ts, h =>
    simp only [FsTree.itemsL, List.mem_append] at hi
    rcases hi with hi | hi
    · exact items_unsharded p t (h t (by simp)) i hi
    · exact itemsL_unsharded p ts (fun t ht => h t (by simp [ht])) i hi
end

theorem walkItems_bucket {t : FsTree} (h : ∀ i ∈ t.items [], isBucket i = false) : ∀ i ∈ t.walkItems, isBucket i = false := by
  intro i hi
  unfold FsTree.walkItems at hi
  split at hi
  next c p m rest he =>
    rw [he] at h
    rcases List.mem_cons.1 hi with rfl | hi
    · rfl
    · exact h i (by simp [hi])
  next => exact h i hi

/-- Trees of plain directories, files and symlinks are walked exactly as they should be. -/
theorem C45_plain (get : Cid → Option Bytes) (t : FsTree) (cache : Option VisitCache) (hat : FsAt get t) (hu : Unsharded t)
    (hname : slash ∉ t.name) (hc : ∀ k, cache = some k → CacheObtainable k) :
    walkFrom get (Walker.new t.cid t.name) cache = some (.ok t.walkItems) := by
  have hb := walkItems_bucket (items_unsharded [] t hu)
  have ht : t.Named := by cases t <;> simp [Unsharded, FsTree.Named] at hu ⊢
  refine C45_exact_partial get t cache hat ht hname hc ?_ (fun i hi => hb i (List.mem_of_getElem? hi))
  rintro ⟨before, d, b, after, he, _, hbb⟩
  have := hb b (by rw [he]; simp)
  rw [this] at hbb
  cases hbb

/-! ### samples -/

/-- The Cid used for the `n`-th block of the samples. -/
def cidN (n : UInt8) : Cid := cidOf toySha [n]
/-- A link to it. -/
def linkN (n : UInt8) (name : Bytes) : PBLink := ⟨some (cidN n).toBytes, some name, some 9⟩
/-- A store with the given blocks. -/
def storeN (blocks : List (UInt8 × FlatUnixFs)) : Cid → Option Bytes := fun c =>
  (blocks.find? (fun e => cidN e.1 == c)).map (fun e => e.2.write)

def shardMsg (links : List PBLink) : FlatUnixFs := ⟨links, { Ty := .HAMTShard, hashType := some 34, fanout := some 256 }⟩
def dirMsg (links : List PBLink) : FlatUnixFs := ⟨links, { Ty := .Directory, mode := some 0o755 }⟩

/-- A directory `r` with a file `a` of two leaves, a sharded directory `s` with an entry `l`, a symlink, in a bucket, and
an empty directory `d`. -/
def sampleFs : FsTree :=
  .dir ⟨cidN 0, [114], { mode := some 0o755 }⟩ [
    .file ⟨cidN 1, [97], {}⟩ (.node [.leaf [1, 2], .leaf [3]]),
    .sharded ⟨cidN 4, [115], {}⟩ [.bucket (cidN 5) [.symlink ⟨cidN 6, [108], {}⟩ [46, 46]]],
    .dir ⟨cidN 7, [100], { mode := some 0o755 }⟩ []]

def sampleFsBlocks : List (UInt8 × FlatUnixFs) := [
  (0, dirMsg [linkN 1 [97], linkN 4 [115], linkN 7 [100]]),
  (1, ⟨[linkN 2 [], linkN 3 []], { Ty := .File, filesize := some 3, blocksizes := [2, 1] }⟩),
  (2, ⟨[], { Ty := .Raw, Data := some [1, 2], filesize := some 2 }⟩),
  (3, ⟨[], { Ty := .File, Data := some [3], filesize := some 1 }⟩),
  (4, shardMsg [linkN 5 [0x30, 0x31]]),
  (5, shardMsg [linkN 6 [0x30, 0x31, 108]]),
  (6, ⟨[], { Ty := .Symlink, Data := some [46, 46] }⟩),
  (7, dirMsg [])]

/-- Every block of the list is found and parses. -/
theorem stored {blocks : List (UInt8 × FlatUnixFs)} (h : ∀ e ∈ blocks, storeN blocks (cidN e.1) = some e.2.write ∧
      (FlatUnixFs.tryParse e.2.write).toOption = some e.2) (i : Fin blocks.length) :
    storeN blocks (cidN blocks[i].1) = some blocks[i].2.write ∧ FlatUnixFs.tryParse blocks[i].2.write = .ok blocks[i].2 := by
  have hm : blocks[i] ∈ blocks := List.getElem_mem _
  refine ⟨(h _ hm).1, ?_⟩
  have := (h _ hm).2
  revert this
  generalize blocks[i].2 = m
  intro this
  cases hx : FlatUnixFs.tryParse m.write with
  | error e => rw [hx] at this; cases this
  | ok m' => rw [hx] at this; cases this; rfl

theorem dirNode_msg (links : List PBLink) : DirNode (dirMsg links) := ⟨rfl, rfl, rfl, rfl, rfl, rfl⟩
theorem shardNode_msg (links : List PBLink) : ShardNode (shardMsg links) := ⟨rfl, rfl, rfl, rfl, rfl⟩
theorem goodName_single {c : UInt8} (h : c ≠ 0x2E ∧ c ≠ slash ∧ c ≤ 0x7F) : GoodName [c] := by
  refine ⟨by simp, by simp [dot, h.1], by simp [Ne.symm h.2.1], ?_⟩
  have : ∀ n : Fin 128, validUtf8 [UInt8.ofNat n.1] = true := by decide +kernel
  have h3 : c.toNat < 128 := by
    have := UInt8.le_iff_toNat_le.1 h.2.2
    simp at this
    omega
  simpa using this ⟨c.toNat, h3⟩

theorem sampleFs_stored : ∀ e ∈ sampleFsBlocks, storeN sampleFsBlocks (cidN e.1) = some e.2.write ∧
    (FlatUnixFs.tryParse e.2.write).toOption = some e.2 := by decide +kernel

theorem sampleFs_at : FsAt (storeN sampleFsBlocks) sampleFs := by
  have g := fun i : Fin 8 => stored sampleFs_stored i
  refine ⟨_, _, (g 0).1, (g 0).2, rfl, dirNode_msg _,
    ⟨trivial, goodName_single (by decide), rfl, by decide +kernel, ?_⟩, ⟨trivial, goodName_single (by decide), rfl, by decide +kernel, ?_⟩,
    ⟨trivial, goodName_single (by decide), rfl, by decide +kernel, ?_⟩, trivial⟩
  · refine ⟨_, _, (g 1).1, (g 1).2, rfl, _, (g 1).2, ⟨.inl rfl, rfl, rfl⟩, by simp, rfl, rfl,
      rfl, ⟨_, _, _, by decide +kernel, (g 2).1, (g 2).2, ⟨rfl, rfl⟩, _, (g 2).2,
        ⟨.inr rfl, rfl, rfl⟩, rfl, rfl, rfl, rfl⟩,
      ⟨_, _, _, by decide +kernel, (g 3).1, (g 3).2, ⟨rfl, rfl⟩, _, (g 3).2,
        ⟨.inl rfl, rfl, rfl⟩, rfl, rfl, rfl, rfl⟩, trivial⟩
  · refine ⟨_, _, (g 4).1, (g 4).2, rfl, shardNode_msg _, ⟨⟨_, rfl, rfl⟩, by decide +kernel, ?_⟩, trivial⟩
    refine ⟨_, _, (g 5).1, (g 5).2, shardNode_msg _, ⟨⟨goodName_single (by decide), _, _, ?_, ?_, rfl⟩, by decide +kernel, ?_⟩, trivial⟩
    · decide
    · decide
    · exact ⟨_, _, (g 6).1, (g 6).2, rfl, rfl, rfl⟩
  · exact ⟨_, _, (g 7).1, (g 7).2, rfl, dirNode_msg _, trivial⟩

/-- The walk of the sample, spelled out. -/
theorem sampleFs_walk : walkFrom (storeN sampleFsBlocks) (Walker.new (cidN 0) [114]) none = some (.ok [
    .RootDirectory (cidN 0) ⟨false, [[114]]⟩ { mode := some 0o755 },
    .File ⟨[], true, false⟩ (cidN 1) ⟨false, [[114], [97]]⟩ {} 3,
    .File ⟨[1, 2], false, false⟩ (cidN 1) ⟨false, [[114], [97]]⟩ {} 3,
    .File ⟨[3], false, true⟩ (cidN 1) ⟨false, [[114], [97]]⟩ {} 3,
    .RootDirectory (cidN 4) ⟨false, [[114], [115]]⟩ {},
    .Bucket (cidN 5) ⟨false, [[114], [115]]⟩,
    .Symlink [46, 46] (cidN 6) ⟨false, [[114], [115], [108]]⟩ {},
    .Directory (cidN 7) ⟨false, [[114], [100]]⟩ { mode := some 0o755 }]) := by
  refine C45_exact_partial _ sampleFs none sampleFs_at trivial (by decide) (by simp) ?_ (fun i hi => ?_)
  · rw [show sampleFs.walkItems = _ :: _ from rfl, ← bad_iff]
    decide +kernel
  · cases hi; rfl

/-! ### C47 -/

/-- Every bucket is reported with its own Cid and there is no panic. -/
def C47_full : Prop :=
  ∀ (get : Cid → Option Bytes) (t : FsTree) (cache : Option VisitCache), FsAt get t → t.Named → slash ∉ t.name →
    (∀ k, cache = some k → CacheObtainable k) →
    ∃ items, walkFrom get (Walker.new t.cid t.name) cache = some (.ok items) ∧ items.filter isBucket = t.walkItems.filter isBucket

/-- A sharded directory with an empty directory `d` and, behind it, a bucket. -/
def panicFs : FsTree := .sharded ⟨cidN 0, [], {}⟩ [.dir ⟨cidN 1, [100], { mode := some 0o755 }⟩ [], .bucket (cidN 2) []]
def panicFsBlocks : List (UInt8 × FlatUnixFs) :=
  [(0, shardMsg [linkN 1 [0x30, 0x31, 100], linkN 2 [0x30, 0x32]]), (1, dirMsg []), (2, shardMsg [])]

theorem panicFs_stored : ∀ e ∈ panicFsBlocks, storeN panicFsBlocks (cidN e.1) = some e.2.write ∧
    (FlatUnixFs.tryParse e.2.write).toOption = some e.2 := by decide +kernel

theorem panicFs_at : FsAt (storeN panicFsBlocks) panicFs := by
  have g := fun i : Fin 3 => stored panicFs_stored i
  refine ⟨_, _, (g 0).1, (g 0).2, rfl, shardNode_msg _, ⟨⟨goodName_single (by decide), 0x30, 0x31, by decide, by decide, rfl⟩, by decide +kernel, ?_⟩,
    ⟨⟨_, rfl, rfl⟩, by decide +kernel, ?_⟩, trivial⟩
  · exact ⟨_, _, (g 1).1, (g 1).2, rfl, dirNode_msg _, trivial⟩
  · exact ⟨_, _, (g 2).1, (g 2).2, shardNode_msg _, trivial⟩

/-- A sharded directory with a bucket. -/
def wrongCidFs : FsTree := .sharded ⟨cidN 0, [], {}⟩ [.bucket (cidN 1) []]
def wrongCidFsBlocks : List (UInt8 × FlatUnixFs) := [(0, shardMsg [linkN 1 [0x30, 0x31]]), (1, shardMsg [])]

theorem wrongCidFs_stored : ∀ e ∈ wrongCidFsBlocks, storeN wrongCidFsBlocks (cidN e.1) = some e.2.write ∧
    (FlatUnixFs.tryParse e.2.write).toOption = some e.2 := by decide +kernel

theorem wrongCidFs_at : FsAt (storeN wrongCidFsBlocks) wrongCidFs := by
  have g := fun i : Fin 2 => stored wrongCidFs_stored i
  exact ⟨_, _, (g 0).1, (g 0).2, rfl, shardNode_msg _, ⟨⟨_, rfl, rfl⟩, by decide +kernel, _, _, (g 1).1, (g 1).2, shardNode_msg _, trivial⟩, trivial⟩

/-- The walker panics on a well-formed tree. -/
theorem C47_counterexample_panic : walkFrom (storeN panicFsBlocks) (Walker.new (cidN 0) []) none = some (.panic .walkBucketKind) :=
  (C45_tree_partial _ panicFs none panicFs_at trivial (by decide) (by simp)).2
    ⟨[.RootDirectory (cidN 0) ⟨false, []⟩ {}], .Directory (cidN 1) ⟨false, [[100]]⟩ { mode := some 0o755 }, .Bucket (cidN 2) ⟨false, []⟩, [],
      rfl, rfl, rfl⟩

/-- The walker reports a bucket with the Cid of another block. -/
theorem C47_counterexample_cid : walkFrom (storeN wrongCidFsBlocks) (Walker.new (cidN 0) []) none =
    some (.ok [.RootDirectory (cidN 0) ⟨false, []⟩ {}, .Bucket (cidN 0) ⟨false, []⟩]) ∧
    wrongCidFs.walkItems = [.RootDirectory (cidN 0) ⟨false, []⟩ {}, .Bucket (cidN 1) ⟨false, []⟩] := by
  refine ⟨(C45_tree_partial _ wrongCidFs none wrongCidFs_at trivial (by decide) (by simp)).1 ?_, rfl⟩
  rw [show wrongCidFs.walkItems = _ :: _ from rfl, ← bad_iff]
  decide +kernel

theorem C47_full_false : ¬ C47_full := by
  intro h
  obtain ⟨items, h1, -⟩ := h _ panicFs none panicFs_at trivial (by decide) (by simp)
  have := C47_counterexample_panic
  rw [show panicFs.cid = cidN 0 from rfl, show panicFs.name = [] from rfl, this] at h1
  cases h1

theorem C45_full_false : ¬ C45_full := by
  intro h
  have h1 := h _ panicFs none panicFs_at trivial (by decide) (by simp)
  rw [show panicFs.cid = cidN 0 from rfl, show panicFs.name = [] from rfl, C47_counterexample_panic] at h1
  cases h1

theorem rootCids_getElem (cid : Cid) (items : List ContinuedWalk) (i : Nat) (c : Cid) (p : PathBuf) (h : items[i]? = some (.Bucket c p)) :
    (i ≠ 0 → (∀ j, 1 ≤ j → j ≤ i → ∃ c p, items[j]? = some (.Bucket c p)) → (rootCids cid items)[i]? = some (.Bucket cid p)) ∧
    (¬ (i ≠ 0 ∧ ∀ j, 1 ≤ j → j ≤ i → ∃ c p, items[j]? = some (.Bucket c p)) → (rootCids cid items)[i]? = some (.Bucket c p)) := by
  have key : ∀ (is : List ContinuedWalk) (i : Nat), is[i]? = some (.Bucket c p) →
      ((∀ j, j ≤ i → ∃ c p, is[j]? = some (.Bucket c p)) → (report cid true is)[i]? = some (.Bucket cid p)) ∧
      (¬ (∀ j, j ≤ i → ∃ c p, is[j]? = some (.Bucket c p)) → (report cid true is)[i]? = some (.Bucket c p)) := by
    intro is
    induction is with
    | nil => intro i h; simp at h
    | cons x xs ih =>
      intro i h
      cases i with
      | zero =>
        simp only [List.getElem?_cons_zero, Option.some.injEq] at h
        subst h
        refine ⟨fun _ => rfl, fun hn => absurd (fun j hj => ?_) hn⟩
        obtain rfl : j = 0 := by omega
        exact ⟨c, p, rfl⟩
      | succ i =>
        simp only [List.getElem?_cons_succ] at h
        cases hx : isBucket x with
        | true =>
          obtain ⟨c0, p0, rfl⟩ := (isBucket_iff x).1 hx
          constructor
          · intro hall
            show (report cid true xs)[i]? = _
            exact (ih i h).1 (fun j hj => by simpa using hall (j + 1) (by omega))
          · intro hn
            show (report cid true xs)[i]? = _
            refine (ih i h).2 (fun hall => hn (fun j hj => ?_))
            cases j with
            | zero => exact ⟨c0, p0, rfl⟩
            | succ j => simpa using hall j (by omega)
        | false =>
          have hxs : report cid true (x :: xs) = x :: xs := by
            rw [report_eq]; simp [hx]
          rw [hxs]
          refine ⟨fun hall => ?_, fun _ => h⟩
          obtain ⟨c0, p0, h0⟩ := hall 0 (by omega)
          simp only [List.getElem?_cons_zero, Option.some.injEq] at h0
          rw [h0] at hx
          cases hx
  cases items with
  | nil => simp at h
  | cons x xs =>
    have hr : rootCids cid (x :: xs) = x :: report cid true xs := by rw [report_eq]; rfl
    rw [hr]
    cases i with
    | zero => exact ⟨fun h0 => absurd rfl h0, fun _ => h⟩
    | succ i =>
      have := key xs i (by simpa using h)
      constructor
      · intro _ hall
        exact this.1 (fun j hj => by simpa using hall (j + 1) (by omega) (by omega))
      · intro hn
        refine this.2 (fun hall => hn ⟨by simp, fun j h1 h2 => ?_⟩)
        cases j with
        | zero => omega
        | succ j => simpa using hall j (by omega)

/-- What holds instead: the walk panics iff a bucket comes directly after a plain directory. Otherwise every bucket is reported
at its place with its path; its Cid is right iff something other than a bucket was reported since the root, and else it is the
root's. -/
theorem C47_buckets_partial (get : Cid → Option Bytes) (t : FsTree) (cache : Option VisitCache) (hat : FsAt get t) (ht : t.Named)
    (hname : slash ∉ t.name) (hc : ∀ k, cache = some k → CacheObtainable k) :
    ((∃ p, walkFrom get (Walker.new t.cid t.name) cache = some (.panic p)) ↔ DirThenBucket t.walkItems) ∧
    (¬ DirThenBucket t.walkItems → ∃ items, walkFrom get (Walker.new t.cid t.name) cache = some (.ok items) ∧
      items.length = t.walkItems.length ∧
      (∀ (i : Nat) item, isBucket item = false → (items[i]? = some item ↔ t.walkItems[i]? = some item)) ∧
      ∀ (i : Nat) c p, t.walkItems[i]? = some (.Bucket c p) →
        (i ≠ 0 → (∀ j, 1 ≤ j → j ≤ i → ∃ c p, t.walkItems[j]? = some (.Bucket c p)) → items[i]? = some (.Bucket t.cid p)) ∧
        (¬ (i ≠ 0 ∧ ∀ j, 1 ≤ j → j ≤ i → ∃ c p, t.walkItems[j]? = some (.Bucket c p)) → items[i]? = some (.Bucket c p))) := by
  obtain ⟨h1, h2⟩ := C45_tree_partial get t cache hat ht hname hc
  constructor
  · constructor
    · rintro ⟨p, hp⟩
      apply Classical.byContradiction
      intro hb
      rw [h1 hb] at hp
      cases hp
    · intro hb; exact ⟨_, h2 hb⟩
  · intro hb
    refine ⟨_, h1 hb, ?_, ?_, fun i c p hi => rootCids_getElem t.cid _ i c p hi⟩
    · cases t.walkItems with
      | nil => rfl
      | cons x xs =>
        simp only [rootCids, List.length_cons, List.length_append, List.length_map]
        have := congrArg List.length (List.takeWhile_append_dropWhile (p := isBucket) (l := xs))
        rw [List.length_append] at this
        omega
    · intro i item hitem
      have key : ∀ (is : List ContinuedWalk) (i : Nat), (report t.cid true is)[i]? = some item ↔ is[i]? = some item := by
        intro is
        induction is with
        | nil => intro i; rfl
        | cons x xs ih =>
          intro i
          cases hx : isBucket x with
          | true =>
            obtain ⟨c0, p0, rfl⟩ := (isBucket_iff x).1 hx
            have hr : report t.cid true (.Bucket c0 p0 :: xs) = .Bucket t.cid p0 :: report t.cid true xs := rfl
            rw [hr]
            cases i with
            | zero =>
              constructor
              all_goals
                intro h
                simp only [List.getElem?_cons_zero, Option.some.injEq] at h
                rw [← h] at hitem
                cases hitem
            | succ i => simpa using ih i
          | false =>
            have hxs : report t.cid true (x :: xs) = x :: xs := by
              rw [report_eq]; simp [hx]
            rw [hxs]
      cases t.walkItems with
      | nil => rfl
      | cons x xs =>
        have hr : rootCids t.cid (x :: xs) = x :: report t.cid true xs := by rw [report_eq]; rfl
        rw [hr]
        cases i with
        | zero => rfl
        | succ i => simpa using key xs i

/-! ### C45, C47 whatever the blocks are -/

/-- Each accepted block is reported as it should be, whatever the blocks before were: with its path, its Cid, and its content,
and a segment of a file is flagged as last iff no more blocks of that file are awaited. The exception: buckets reported directly
after a sharded root have the root's Cid. -/
theorem C45_every_item_partial (cid : Cid) (name : Bytes) (h : List (Bytes × ContinuedWalk)) (block : Bytes) (item : ContinuedWalk) (w : Walker)
    (hw : Walked cid name (h ++ [(block, item)]) w) (hname : slash ∉ name) :
    ∃ a aw m, awaited cid name (h.map (·.1)) = a :: aw ∧ FlatUnixFs.tryParse block = .ok m ∧
      (¬ (a.what = .bucket ∧ RootBuckets (h.map (·.2))) →
        itemFor (h.map (·.2)) a m (decide (∀ x ∈ awaited cid name (h.map (·.1) ++ [block]), x.what ≠ .fileBlock)) = some item) ∧
      (a.what = .bucket → RootBuckets (h.map (·.2)) → m.data.Ty = .HAMTShard ∧ item = .Bucket cid ⟨false, a.path⟩) := by
  generalize hg : h ++ [(block, item)] = g at hw
  cases hw with
  | new => simp at hg
  | @next h' w0 w' block' cache cache' item' hw hsc hc hs =>
    obtain ⟨rfl, he⟩ := List.append_inj' hg rfl
    simp only [List.cons.injEq, Prod.mk.injEq, and_true] at he
    obtain ⟨rfl, rfl⟩ := he
    obtain ⟨fb, rest, h1, h2, h3⟩ := walked_both hw hname
    obtain ⟨m, a, aw, fb', rest', hm, h4, h5, h6⟩ := h2.step hc (step_ok hs)
    have h7 := (h3.step h2 hname hc (step_ok hs) hm h4 h5 h6).2
    rw [h4] at h1
    refine ⟨a, aw, m, h1, hm, ?_, h7.2⟩
    have hlast : decide (∀ x ∈ awaited cid name (h.map (·.1) ++ [block]), x.what ≠ .fileBlock) = decide (fb' = []) := by
      rw [awaited_snoc h1 hm, h5]
      congr 1
      apply propext
      constructor
      · intro hall
        cases hfb : fb' with
        | nil => rfl
        | cons y ys =>
          have hy := h6.file.what y (by rw [hfb]; simp)
          exact absurd hy (hall y (by rw [hfb]; simp))
      · rintro rfl x hx
        exact h6.what x (by simpa using hx)
    rw [hlast]
    exact h7.1

end Verif.Props
