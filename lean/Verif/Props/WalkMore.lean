import Verif.Props.WalkTrees
/-
Properties of the walker for arbitrary blocks: C27, C48, C49.
-/
namespace Verif.Props
open Verif Verif.Spec

/-! ### C48 -/

/-- Segments of a file of which more is to come: the first is flagged as such, none as last. -/
def openSegments (first : Bool) : List Bytes → List FileSegment
  | [] => []
  | p :: ps => ⟨p, first, false⟩ :: openSegments false ps

/-- One complete file, or something else than a file. -/
def Complete (g : List ContinuedWalk) : Prop :=
  (∃ item, g = [item] ∧ ∀ s c p m z, item ≠ .File s c p m z) ∨
  ∃ bytes c p m z, bytes ≠ [] ∧ g = (segments true bytes).map (fun s => .File s c p m z)

/-- A file of which more is to come. -/
def Unfinished (g : List ContinuedWalk) : Prop :=
  ∃ bytes c p m z, bytes ≠ [] ∧ g = (openSegments true bytes).map (fun s => .File s c p m z)

theorem openSegments_snoc : ∀ (ps : List Bytes) (f : Bool) (p : Bytes), ps ≠ [] →
    openSegments f ps ++ [⟨p, false, false⟩] = openSegments f (ps ++ [p]) := by
  intro ps
  induction ps with
  | nil => intro f p h; exact absurd rfl h
  | cons q ps ih =>
    intro f p _
    cases ps with
    | nil => rfl
    | cons r ps => rw [openSegments, List.cons_append, ih false p (by simp)]; rfl

theorem segments_snoc : ∀ (ps : List Bytes) (f : Bool) (p : Bytes), ps ≠ [] →
    openSegments f ps ++ [⟨p, false, true⟩] = segments f (ps ++ [p]) := by
  intro ps
  induction ps with
  | nil => intro f p h; exact absurd rfl h
  | cons q ps ih =>
    intro f p _
    cases ps with
    | nil => rfl
    | cons r ps => rw [openSegments, List.cons_append, ih false p (by simp)]; rfl

/-- What was reported so far, split into files, and what is current. -/
def Grouped (items : List ContinuedWalk) (w : Walker) : Prop :=
  ∃ groups : List (List ContinuedWalk), (∀ g ∈ groups, Complete g) ∧
    ((w.atRest ∧ items = groups.flatten) ∨
      ∃ ie v sz bytes, w.current = some ie ∧ ie.kind = .File (some v) sz ∧ bytes ≠ [] ∧
        items = groups.flatten ++ (openSegments true bytes).map (fun s => .File s ie.cid ie.path ie.metadata sz))

theorem Grouped.single {items : List ContinuedWalk} {w w' : Walker} {item : ContinuedWalk} (h : Grouped items w) (hr : w.atRest)
    (hr' : w'.atRest) (hi : ∀ s c p m z, item ≠ .File s c p m z) : Grouped (items ++ [item]) w' := by
  obtain ⟨groups, h1, h2⟩ := h
  rcases h2 with ⟨-, rfl⟩ | ⟨ie, v, sz, bytes, h3, h4, -⟩
  · refine ⟨groups ++ [[item]], ?_, .inl ⟨hr', by simp⟩⟩
    intro g hg
    rcases List.mem_append.1 hg with hg | hg
    · exact h1 g hg
    · simp only [List.mem_singleton] at hg
      subst hg
      exact .inl ⟨item, rfl, hi⟩
  · exact absurd h4 (hr ie v sz h3)

theorem Grouped.step {items : List ContinuedWalk} {w w' : Walker} {item : ContinuedWalk} {b : Bytes} {cache : Option VisitCache}
    (h : Grouped items w) (hs : WStep w b cache item w') : Grouped (items ++ [item]) w' := by
  cases hs with
  | later ie v sz c next h1 h2 h3 h4 h5 =>
    obtain ⟨groups, hg, hh⟩ := h
    rcases hh with ⟨hr, -⟩ | ⟨ie', v', sz', bytes, g1, g2, g3, rfl⟩
    · exact absurd h2 (hr ie v sz h1)
    · rw [h1] at g1
      cases g1
      rw [h2] at g2
      cases g2
      cases next with
      | some v2 =>
        refine ⟨groups, hg, .inr ⟨_, v2, sz, bytes ++ [c], by rw [h5], rfl, by simp, ?_⟩⟩
        rw [h4, ← openSegments_snoc bytes true c g3, List.map_append]
        simp [FileSegment.later]
      | none =>
        refine ⟨groups ++ [(segments true (bytes ++ [c])).map (fun s => .File s ie.cid ie.path ie.metadata sz)], ?_, .inl ⟨?_, ?_⟩⟩
        · intro g hg'
          rcases List.mem_append.1 hg' with hg' | hg'
          · exact hg g hg'
          · simp only [List.mem_singleton] at hg'
            exact .inr ⟨bytes ++ [c], _, _, _, _, by simp, hg'⟩
        · rw [h5]
          exact atRest_of rfl (by simp)
        · rw [h4, ← segments_snoc bytes true c g3, List.map_append]
          simp [FileSegment.later]
  | directory m n ls ie hr hm hty hck hn hls he hw' =>
    obtain ⟨hk, hitem⟩ : (∀ v sz, ie.kind ≠ .File v sz) ∧ ∀ s c p m z, item ≠ .File s c p m z := by
      unfold Walker.enterDirectory at he
      split at he
      · simp only [Res.ok.injEq, Prod.mk.injEq] at he
        obtain ⟨rfl, rfl⟩ := he
        exact ⟨by simp [InnerEntry.newRoot], by simp⟩
      next ie0 _ =>
        cases hx : (ie0.asKind .Directory n.cid n.name n.depth (Metadata.ofUnixFs m.data) : Res WalkError InnerEntry) with
        | err e => rw [hx] at he; cases he
        | panic p => rw [hx] at he; cases he
        | ok ie1 =>
          rw [hx] at he
          simp only [Res.bind_ok, Res.ok.injEq, Prod.mk.injEq] at he
          obtain ⟨rfl, rfl⟩ := he
          have := (asKind_kind hx).1
          exact ⟨by simp [this], by simp⟩
    refine h.single hr ?_ hitem
    rw [hw']
    exact atRest_of (popNext_current _ _) (fun v sz => hk _ sz)
  | shard m n ls ie hr hm hty hck hn hls he hw' =>
    obtain ⟨hk, hitem⟩ : (∀ v sz, ie.kind ≠ .File (some v) sz) ∧ ∀ s c p m z, item ≠ .File s c p m z := by
      refine ⟨by rcases enterShard_kind he with h | h | h <;> simp [h], ?_⟩
      unfold Walker.enterShard at he
      split at he
      · simp only [Res.ok.injEq, Prod.mk.injEq] at he
        obtain ⟨rfl, rfl⟩ := he
        simp
      next ie0 _ =>
        split at he
        · cases hx : (ie0.asBucket n.cid n.depth : Res WalkError InnerEntry) with
          | err e => rw [hx] at he; cases he
          | panic p => rw [hx] at he; cases he
          | ok ie1 =>
            rw [hx] at he
            simp only [Res.bind_ok, Res.ok.injEq, Prod.mk.injEq] at he
            obtain ⟨rfl, rfl⟩ := he
            simp
        · cases hx : (ie0.asKind .RootBucket n.cid n.name n.depth (Metadata.ofUnixFs m.data) : Res WalkError InnerEntry) with
          | err e => rw [hx] at he; cases he
          | panic p => rw [hx] at he; cases he
          | ok ie1 =>
            rw [hx] at he
            simp only [Res.bind_ok, Res.ok.injEq, Prod.mk.injEq] at he
            obtain ⟨rfl, rfl⟩ := he
            simp
    refine h.single hr ?_ hitem
    rw [hw']
    exact atRest_of (popNext_current _ _) hk
  | first m n r ie hr hm hty hres hn he hitem hw' =>
    obtain ⟨groups, h1, h2⟩ := h
    have hk := (enterLeaf_kind he).1
    have hcur : w'.current = some ie := by rw [hw']; exact popNext_current _ _
    rcases h2 with ⟨-, rfl⟩ | ⟨ie', v, sz, bytes, h3, h4, -⟩
    · cases hnext : r.next with
      | none =>
        rw [hnext] at hk hitem
        refine ⟨groups ++ [[item]], ?_, .inl ⟨atRest_of hcur (by simp [hk]), by simp⟩⟩
        intro g hg
        rcases List.mem_append.1 hg with hg | hg
        · exact h1 g hg
        · simp only [List.mem_singleton] at hg
          exact .inr ⟨[r.content], ie.cid, ie.path, ie.metadata, r.total_size, by simp, by rw [hg, hitem]; rfl⟩
      | some v =>
        rw [hnext] at hk hitem
        exact ⟨groups, h1, .inr ⟨ie, v, r.total_size, [r.content], hcur, hk, by simp, by rw [hitem]; rfl⟩⟩
    · exact absurd h4 (hr ie' v sz h3)
  | symlink m n ie hr hm hty hn he hitem hw' =>
    have hk := (enterLeaf_kind he).1
    refine h.single hr ?_ (by rw [hitem]; simp)
    rw [hw']
    exact atRest_of (popNext_current _ _) (by simp [hk])

/-- Whatever blocks were given, the reported items are a sequence of complete files and other things; of each file exactly the
first segment is flagged as first and exactly the last one as last, and all segments of a file carry the same Cid, path,
metadata and size. At the end there may be one file of which more is to come, but not when the walk is over. -/
theorem C48_segments (cid : Cid) (name : Bytes) (h : List (Bytes × ContinuedWalk)) (w : Walker) (hw : Walked cid name h w) :
    ∃ (groups : List (List ContinuedWalk)) (last : List ContinuedWalk), h.map (·.2) = groups.flatten ++ last ∧ (∀ g ∈ groups, Complete g) ∧ (last = [] ∨ Unfinished last) ∧
      (w.shouldContinue = false → last = []) := by
  have hg : Grouped (h.map (·.2)) w := by
    induction hw with
    | new =>
      refine ⟨[], by simp, .inl ⟨?_, rfl⟩⟩
      intro ie v sz h
      cases h
    | next hw hsc hc hs ih => simpa using ih.step (step_ok hs)
  obtain ⟨groups, h1, h2⟩ := hg
  obtain ⟨fb, rest, -, hi⟩ := walked_inv hw
  rcases h2 with ⟨-, h2⟩ | ⟨ie, v, sz, bytes, h2, h3, h4, h5⟩
  · exact ⟨groups, [], by simp [h2], h1, .inl rfl, fun _ => rfl⟩
  · refine ⟨groups, _, h5, h1, .inr ⟨bytes, _, _, _, _, h4, rfl⟩, ?_⟩
    intro hsc
    have hne := (hi.file.of_inFile h2 h3).1
    have := hi.cont
    rw [show w.should_continue = false from hsc] at this
    simp [hne] at this

/-- The flags in words: in the segments of a complete file, the `i`-th is first iff `i = 0`, and last iff it is the last. -/
theorem C48_flags (bytes : List Bytes) (i : Nat) (s : FileSegment) (h : (segments true bytes)[i]? = some s) :
    (s.isFirst = true ↔ i = 0) ∧ (s.isLast = true ↔ i + 1 = bytes.length) ∧ bytes[i]? = some s.asBytes := by
  have key : ∀ (bytes : List Bytes) (f : Bool) (i : Nat) (s : FileSegment), (segments f bytes)[i]? = some s →
      s.isFirst = (f && i == 0) ∧ (s.isLast = true ↔ i + 1 = bytes.length) ∧ bytes[i]? = some s.asBytes := by
    intro bytes
    induction bytes with
    | nil => intro f i s h; simp [segments] at h
    | cons p ps ih =>
      intro f i s h
      cases ps with
      | nil =>
        cases i with
        | zero => simp [segments] at h; subst h; simp [FileSegment.isFirst, FileSegment.isLast, FileSegment.asBytes]
        | succ i => simp [segments] at h
      | cons q ps =>
        cases i with
        | zero => simp [segments] at h; subst h; simp [FileSegment.isFirst, FileSegment.isLast, FileSegment.asBytes]
        | succ i =>
          simp only [segments, List.getElem?_cons_succ] at h
          obtain ⟨h1, h2, h3⟩ := ih false i s h
          refine ⟨by simp [h1], by simp only [h2, List.length_cons]; omega, h3⟩
  obtain ⟨h1, h2, h3⟩ := key bytes true i s h
  exact ⟨by simp [h1], h2, h3⟩

/-- Both kinds of situations occur: the walk of the sample is over after three segments of a file (and other things). -/
example : Complete ((segments true [[], [1, 2], [3]]).map (fun s => .File s (cidN 1) ⟨false, [[114], [97]]⟩ {} 3)) :=
  .inr ⟨_, _, _, _, _, by simp, rfl⟩

/-! ### C49 -/

/-- The next block belongs to nothing which was begun: no file is being visited. -/
theorem atRest_of_awaited {cid : Cid} {name : Bytes} {h : List (Bytes × ContinuedWalk)} {w : Walker} (hw : Walked cid name h w)
    {a : Awaited} {aw : List Awaited} (ha : awaited cid name (h.map (·.1)) = a :: aw) (hwhat : a.what ≠ .fileBlock) :
    w.atRest ∧ WInv w [] (a :: aw) := by
  obtain ⟨fb, rest, h1, h2⟩ := walked_inv hw
  cases fb with
  | cons b fb =>
    rw [ha] at h1
    cases h1
    exact absurd (h2.file.what _ (by simp)) hwhat
  | nil =>
    rw [ha] at h1
    simp only [List.nil_append] at h1
    subst h1
    refine ⟨?_, h2⟩
    rcases h2.file with h | ⟨_, _, _, _, _, h, _⟩
    · exact h.1
    · exact absurd rfl h

/-- The next block belongs to the file being visited. -/
theorem inFile_of_awaited {cid : Cid} {name : Bytes} {h : List (Bytes × ContinuedWalk)} {w : Walker} (hw : Walked cid name h w)
    {a : Awaited} {aw : List Awaited} (ha : awaited cid name (h.map (·.1)) = a :: aw) (hwhat : a.what = .fileBlock) :
    ∃ ie v sz root ls, w.current = some ie ∧ ie.kind = .File (some v) sz ∧ Visiting none root ls v := by
  obtain ⟨fb, rest, h1, h2⟩ := walked_inv hw
  rcases h2.file with ⟨_, rfl⟩ | ⟨ie, v, sz, h3, h4, _, _, _, root, ls, h5⟩
  · rw [ha] at h1
    simp only [List.nil_append] at h1
    exact absurd hwhat (h2.what a (by rw [← h1]; simp))
  · exact ⟨ie, v, sz, root, ls, h3, h4, h5⟩

/-- A block with the given number as UnixFS type, and a file size of 0. -/
def blockOfType (n : UInt8) : Bytes := [0x0A, 4, 8, n, 0x18, 0]

/-- The full statement: undefined types are reported. -/
def C49_full : Prop := ∀ (n : UInt8), 5 < n → n < 128 → ∀ cid name, ∃ t,
  ((Walker.new cid name).step (blockOfType n) none).1 = .err (.UnsupportedType t)

/-- A block of an undefined type is taken for a file. -/
theorem C49_counterexample (cid : Cid) : ((Walker.new cid []).step (blockOfType 6) none).1 =
    .ok (.File ⟨[], true, true⟩ cid {} {} 0) := by
  have hm : FlatUnixFs.tryParse (blockOfType 6) = .ok ⟨[], { Ty := .Raw, filesize := some 0 }⟩ := by decide +kernel
  have hr : (Walker.new cid []).atRest := by intro ie v sz h; cases h
  rw [step_atRest hr]
  unfold Walker.nextBlock
  rw [hm]
  rfl

theorem C49_full_false : ¬ C49_full := by
  intro h
  obtain ⟨t, ht⟩ := h 6 (by decide) (by decide) (cidN 0) []
  rw [C49_counterexample] at ht
  cases ht

/-- What holds: where a new entry or bucket is expected, the error `UnsupportedType` is returned for the blocks of type
`Metadata`, always and only; where more of a file is expected, every block of another type than `File` or `Raw` results in an
error. -/
theorem C49_types_partial (cid : Cid) (name : Bytes) (h : List (Bytes × ContinuedWalk)) (w : Walker) (hw : Walked cid name h w)
    (a : Awaited) (aw : List Awaited) (ha : awaited cid name (h.map (·.1)) = a :: aw) (block : Bytes) (m : FlatUnixFs)
    (hm : FlatUnixFs.tryParse block = .ok m) (cache : Option VisitCache) :
    (a.what ≠ .fileBlock → ∀ t, (w.step block cache).1 = .err (.UnsupportedType t) ↔ m.data.Ty = .Metadata ∧ t = .Metadata) ∧
    (a.what = .fileBlock → m.data.Ty ≠ .File → m.data.Ty ≠ .Raw → ∃ e, (w.step block cache).1 = .err e) := by
  constructor
  · intro hwhat t
    obtain ⟨hr, hi⟩ := atRest_of_awaited hw ha hwhat
    rw [step_atRest hr]
    unfold Walker.nextBlock
    rw [hm]
    simp only
    have hdir : ∀ links conv enter, (∀ n e, enter n ≠ .err e) → (w.nextDir links conv enter cache).1 ≠ .err (.UnsupportedType t) := by
      intro links conv enter henter
      unfold Walker.nextDir
      cases w.next with
      | none => simp
      | some n =>
        simp only
        rcases pushLinks (conv n.depth) links.zipIdx.reverse w.pending with ⟨r, p⟩
        cases r with
        | panic p => simp
        | err e => simp
        | ok u =>
          simp only
          cases hx : enter n with
          | panic p => simp
          | err e => exact absurd hx (henter n e)
          | ok x => simp
    have hleaf : ∀ k md n (f : InnerEntry → WalkStep), (∀ ie, (f ie).1 ≠ .err (.UnsupportedType t)) →
        (match w.enterLeaf k md n with
          | .panic p => ((.panic p : Res WalkError ContinuedWalk), w, cache)
          | .err e => (.err e, w, cache)
          | .ok ie => f ie).1 ≠ .err (.UnsupportedType t) := by
      intro k md n f hf
      cases hx : w.enterLeaf k md n with
      | panic p => simp
      | err e => exact absurd hx (enterLeaf_ne_err e)
      | ok x => exact hf x
    have hfirst : (w.nextFirst m cache).1 ≠ .err (.UnsupportedType t) := by
      unfold Walker.nextFirst
      rcases ({} : IdleFileVisit).startFromParsed m cache with ⟨r, k⟩
      cases r with
      | panic p => simp
      | err e => cases e <;> simp [WalkError.ofFileReadFailed]
      | ok r =>
        simp only
        cases w.next with
        | none => simp
        | some n =>
          simp only
          cases hx : w.enterLeaf (.File r.next r.total_size) r.metadata n with
          | panic p => simp
          | err e => exact absurd hx (enterLeaf_ne_err e)
          | ok x => simp
    cases hty : m.data.Ty with
    | Metadata => simp [eq_comm]
    | Raw => simpa using hfirst
    | File => simpa using hfirst
    | Symlink =>
      have : (w.nextSymlink m (Metadata.ofUnixFs m.data) cache).1 ≠ .err (.UnsupportedType t) := by
        unfold Walker.nextSymlink
        simp only
        cases w.next with
        | none => simp
        | some n =>
          simp only
          cases hx : w.enterLeaf .Symlink (Metadata.ofUnixFs m.data) n with
          | panic p => simp
          | err e => exact absurd hx (enterLeaf_ne_err e)
          | ok x => simp
      simpa using this
    | Directory =>
      simp only
      cases checkDirectorySupported m with
      | error e' => simp
      | ok m' => simpa using hdir _ _ _ (fun n e => enterDirectory_ne_err e)
    | HAMTShard =>
      simp only
      cases checkHamtshardSupported m with
      | err e' => simp
      | panic p => simp
      | ok m' => simpa using hdir _ _ _ (fun n e => enterShard_ne_err e)
  · intro hwhat h1 h2
    obtain ⟨ie, v, sz, root, ls, h3, h4, h5⟩ := inFile_of_awaited hw ha hwhat
    rw [step_inFile h3 h4]
    obtain ⟨hnp, i, hi⟩ := C27_pending_nonempty root ls v h5
    unfold nextInterval at hi
    cases hP : v.pending.getLast? with
    | none => simp [hP] at hi
    | some p =>
      obtain ⟨pc, i'⟩ := p
      simp only [hP, Option.map_some, Option.some.injEq] at hi
      subst hi
      unfold Walker.nextFile FileVisit.continueWalk Traversal.continueWalk FileReader.fromContinued FileReader.fromParts
      simp only [hP, hm]
      cases v.state.last_ending.checkIsSuitableNext v.state.last_offset i' with
      | error e => exact ⟨_, rfl⟩
      | ok u =>
        simp only
        by_cases hmeta : (m.data.mode.isSome ∨ m.data.mtime.isSome)
        · simp [hmeta, WalkError.ofFileReadFailed]
        · rw [if_neg hmeta]
          simp [h1, h2, WalkError.ofFileReadFailed]

/-! ### C27 for the walker -/

/-- The full statement: no block makes a walker panic. -/
def C27_walk_full : Prop := ∀ cid name h w, Walked cid name h w → w.shouldContinue = true → ∀ block cache,
  (w.step block cache).1.NoPanic

/-- The part of the file which the parent's block sizes assign to the block asked for next, when a file is being visited. -/
def fileInterval (w : Walker) : Option Rng :=
  match w.current.map InnerEntry.kind with
  | some (.File (some v) _) => nextInterval v
  | _ => none

/-- The names of a directory's links: there, not empty, without `/`. -/
def LinkNames (m : FlatUnixFs) : Prop := ∀ l ∈ m.links, ∃ n, l.Name = some n ∧ n ≠ [] ∧ slash ∉ n

/-- The names of a shard's links: two or more bytes; the remainder starts at a character and has no `/`. -/
def SlotNames (m : FlatUnixFs) : Prop := ∀ l ∈ m.links, ∃ n, l.Name = some n ∧ 2 ≤ n.length ∧
  (2 < n.length → isCharBoundary n 2 = true ∧ slash ∉ n.drop 2)

/-- Blocks outside the reach of the walker's panics. `a` is what is expected, `before` what was reported before. More of a
file: the block parses, and the conditions of `C27_visit_partial` hold. Otherwise, by type: the names of links are as they
should be; only a shard is given where a bucket is expected, no entry below the top of the walk is called `.`, and not right after a plain directory; the first block of a file
satisfies the conditions of `C26_start_partial`. -/
def SaneStep (before : List ContinuedWalk) (a : Awaited) (interval : Option Rng) (block : Bytes) : Prop :=
  (a.what = .fileBlock → (∃ m, FlatUnixFs.tryParse block = .ok m) ∧ ∀ i, interval = some i → SaneNext none i block) ∧
  (a.what ≠ .fileBlock → ¬ DotDeep a.path ∧ ∀ m, FlatUnixFs.tryParse block = .ok m →
    (m.data.Ty = .Directory → a.what = .entry ∧ LinkNames m) ∧
    (m.data.Ty = .HAMTShard → (a.what = .bucket → ∀ c p md, before.getLast? ≠ some (.Directory c p md)) ∧ SlotNames m) ∧
    (m.data.Ty = .File ∨ m.data.Ty = .Raw → a.what = .entry ∧ Sane block) ∧
    (m.data.Ty = .Symlink → a.what = .entry))

theorem pushLinks_noPanic {conv : Nat → PBLink → Res InvalidCidInLink WalkLink} : ∀ (xs : List (PBLink × Nat)) (pending : List WalkLink),
    (∀ x ∈ xs, (conv x.2 x.1).NoPanic) → (pushLinks conv xs pending).1.NoPanic := by
  intro xs
  induction xs with
  | nil => intro pending _ p hp; simp [pushLinks] at hp
  | cons x xs ih =>
    intro pending h p hp
    obtain ⟨l, i⟩ := x
    rw [pushLinks] at hp
    cases hx : conv i l with
    | ok y => rw [hx] at hp; exact ih _ (fun x hx => h x (by simp [hx])) p hp
    | err e => rw [hx] at hp; cases hp
    | panic q => exact h (l, i) (by simp) q hx

theorem nextDir_noPanic {w : Walker} {links : List PBLink} {conv : Nat → Nat → PBLink → Res InvalidCidInLink WalkLink}
    {enter : WalkLink → Res WalkError (InnerEntry × ContinuedWalk)} {cache : Option VisitCache} {n : WalkLink} (hn : w.next = some n)
    (h1 : ∀ l ∈ links, ∀ i, (conv n.depth i l).NoPanic) (h2 : ∃ r, enter n = .ok r) : (w.nextDir links conv enter cache).1.NoPanic := by
  intro p hp
  unfold Walker.nextDir at hp
  rw [hn] at hp
  simp only at hp
  have hnp := pushLinks_noPanic (conv := conv n.depth) links.zipIdx.reverse w.pending (fun x hx => by
    have := List.mem_reverse.1 hx
    exact h1 x.1 (List.fst_mem_of_mem_zipIdx this) x.2)
  rcases hpl : pushLinks (conv n.depth) links.zipIdx.reverse w.pending with ⟨r, q⟩
  rw [hpl] at hp hnp
  obtain ⟨⟨ie, item⟩, h2⟩ := h2
  cases r with
  | panic q => exact hnp q rfl
  | err e => cases hp
  | ok u => simp only at hp; rw [h2] at hp; cases hp

theorem convertLink_noPanic {d i : Nat} {l : PBLink} (h : ∃ n, l.Name = some n ∧ n ≠ [] ∧ slash ∉ n) : (convertLink d i l).NoPanic := by
  obtain ⟨n, h1, h2, h3⟩ := h
  intro p hp
  unfold convertLink at hp
  split at hp
  · cases hp
  · rw [h1] at hp
    simp only at hp
    rw [if_neg h2, if_neg h3] at hp
    cases hp

theorem convertShardedLink_noPanic {d s i : Nat} {l : PBLink} (h : ∃ n, l.Name = some n ∧ 2 ≤ n.length ∧
    (2 < n.length → isCharBoundary n 2 = true ∧ slash ∉ n.drop 2)) : (convertShardedLink d s i l).NoPanic := by
  obtain ⟨n, h1, h2, h3⟩ := h
  intro p hp
  unfold convertShardedLink at hp
  split at hp
  · cases hp
  · rw [h1] at hp
    simp only at hp
    by_cases hl : 2 < n.length
    · rw [if_pos hl, if_neg (by simp [(h3 hl).1]), if_neg (h3 hl).2] at hp
      cases hp
    · rw [if_neg hl, if_pos (by omega)] at hp
      cases hp

theorem add64_ne_err {ε : Type} {p : Panic} {a b : Nat} (e : ε) : (add64 p a b : Res ε Nat) ≠ .err e := by
  unfold add64
  split <;> simp

theorem fromParts_ne_read {m : FlatUnixFs} {o : Nat} {md : Metadata} (e : Option PbError) : FileReader.fromParts m o md ≠ .err (.Read e) := by
  have hend : FileReader.endOf m o (m.data.Data.getD []) ≠ .err (.Read e) := by
    unfold FileReader.endOf
    have h : ∀ x (f : Nat → Ending), (add64 .readerOverflow o x : Res FileReadFailed Nat).map f ≠ .err (.Read e) := by
      intro x f
      cases hx : (add64 .readerOverflow o x : Res FileReadFailed Nat) with
      | ok y => simp [Res.map]
      | panic p => simp [Res.map]
      | err e' => exact absurd hx (add64_ne_err e')
    split
    · exact h _ _
    · split
      · exact h _ _
      · simp
  unfold FileReader.fromParts
  simp only
  split
  · simp
  split
  · simp
  split
  · simp
  split
  · simp
  cases hx : FileReader.endOf m o (m.data.Data.getD []) with
  | err e' =>
    intro h
    have h' : e' = .Read e := by simpa [Bind.bind, Res.bind] using h
    exact hend (by rw [hx, h'])
  | panic p => simp
  | ok y =>
    simp only [Res.bind_ok]
    split <;> simp

theorem collectLinks_ne_read (e : Option PbError) : ∀ (zs : List (PBLink × Nat)) (t : Option Rng) (i base : Nat),
    collectLinks t i base zs ≠ .err (.Read e) := by
  intro zs
  induction zs with
  | nil => intro t i base hh; simp [collectLinks] at hh
  | cons z zs ih =>
    obtain ⟨l, sz⟩ := z
    intro t i base
    unfold collectLinks
    cases hx : (add64 .rangeOverflow base sz : Res FileReadFailed Nat) with
    | err e' => exact absurd hx (add64_ne_err e')
    | panic p => simp
    | ok y =>
      simp only [Res.bind_ok]
      split
      · exact ih _ _ _
      · cases hz : toPending i l ⟨base, y⟩ with
        | err e' =>
          unfold toPending at hz
          split at hz
          · cases hz
          · cases hz; simp
        | panic p => simp
        | ok z =>
          simp only [Res.bind_ok]
          cases hy : collectLinks t (i + 1) y zs with
          | err e' =>
            intro h
            have h' : e' = .Read e := by simpa [Bind.bind, Res.bind] using h
            exact ih _ _ _ (by rw [hy, h'])
          | panic p => simp
          | ok y => simp

theorem targetSlice_ne_err {ε : Type} {c : Bytes} {i r : Rng} (e : ε) : (targetSlice c i r : Res ε Bytes) ≠ .err e := by
  unfold targetSlice
  split
  · simp
  · unfold sub64 sliceChecked
    repeat' split
    all_goals simp only [Res.bind_ok, Res.bind_panic]
    all_goals first
      | (split <;> simp)
      | simp

theorem maybeTargetSlice_ne_err {ε : Type} {c : Bytes} {i : Rng} {t : Option Rng} (e : ε) : (maybeTargetSlice c i t : Res ε Bytes) ≠ .err e := by
  cases t with
  | none => simp [maybeTargetSlice]
  | some r => exact targetSlice_ne_err e

theorem continueWalk_ne_read {v : FileVisit} {block : Bytes} {cache : Option VisitCache} {m : FlatUnixFs}
    (hm : FlatUnixFs.tryParse block = .ok m) (e : Option PbError) : (v.continueWalk block cache).1 ≠ .err (.Read e) := by
  unfold FileVisit.continueWalk
  split
  · simp
  · unfold Traversal.continueWalk FileReader.fromContinued
    rw [hm]
    simp only
    cases v.state.last_ending.checkIsSuitableNext v.state.last_offset _ with
    | error e' => simp
    | ok u =>
      simp only
      by_cases hmeta : (m.data.mode.isSome ∨ m.data.mtime.isSome)
      · simp [hmeta]
      · rw [if_neg hmeta]
        cases hx : FileReader.fromParts m _ v.state.metadata with
        | err e' =>
          simp only [ne_eq, Res.err.injEq]
          rintro rfl
          exact fromParts_ne_read _ hx
        | panic p => simp
        | ok fr =>
          simp only
          rcases fr.content with ⟨ct, tr⟩
          cases ct with
          | Bytes c =>
            simp only
            split
            next e' hs => exact absurd hs (maybeTargetSlice_ne_err _)
            · simp
            · split <;> simp
          | Links base z =>
            simp only
            split
            next e' hs =>
              simp only [ne_eq, Res.err.injEq]
              rintro rfl
              exact collectLinks_ne_read _ _ _ _ _ hs
            · simp
            · simp

/-- No sane block makes a walker panic, at any point of any walk. -/
theorem C27_walk_partial (cid : Cid) (name : Bytes) (h : List (Bytes × ContinuedWalk)) (w : Walker) (hw : Walked cid name h w)
    (hname : slash ∉ name)
    (a : Awaited) (aw : List Awaited) (ha : awaited cid name (h.map (·.1)) = a :: aw) (block : Bytes)
    (hb : SaneStep (h.map (·.2)) a (fileInterval w) block) (cache : Option VisitCache) (hc : ∀ k, cache = some k → CacheObtainable k) :
    (w.step block cache).1.NoPanic := by
  by_cases hwhat : a.what = .fileBlock
  · obtain ⟨⟨m, hm⟩, hsane⟩ := hb.1 hwhat
    obtain ⟨ie, v, sz, root, ls, h3, h4, h5⟩ := inFile_of_awaited hw ha hwhat
    obtain ⟨-, i, hi⟩ := C27_pending_nonempty root ls v h5
    have hn := C27_visit_partial none root ls v h5 i hi block (hsane i (by simp [fileInterval, h3, h4, hi])) cache
    rw [step_inFile h3 h4]
    intro p hp
    unfold Walker.nextFile at hp
    rcases hx : v.continueWalk block cache with ⟨r, k⟩
    rw [hx] at hp hn
    cases r with
    | ok x => cases hp
    | panic q => exact hn q rfl
    | err e =>
      cases e with
      | File e => cases hp
      | UnexpectedType t => cases hp
      | InvalidCid l => cases hp
      | Read e =>
        have hx1 : (v.continueWalk block cache).1 = .err (.Read e) := by rw [hx]
        exact absurd hx1 (continueWalk_ne_read hm e)
  · obtain ⟨hr, hi⟩ := atRest_of_awaited hw ha hwhat
    obtain ⟨n, hn⟩ := next_some hi
    obtain ⟨fb, rest, g1, g2, g3⟩ := walked_both hw hname
    have hfb : fb = [] := g2.file.of_atRest hr
    subst hfb
    rw [ha] at g1
    simp only [List.nil_append] at g1
    subst g1
    rw [step_atRest hr]
    unfold Walker.nextBlock
    cases hm : FlatUnixFs.tryParse block with
    | error e => intro p hp; cases hp
    | ok m =>
      obtain ⟨hdd, hsane⟩ := hb.2 hwhat
      obtain ⟨hd, hs, hf, hl⟩ := hsane m hm
      simp only
      have hfirst : m.data.Ty = .File ∨ m.data.Ty = .Raw → (w.nextFirst m cache).1.NoPanic := by
        intro hty
        obtain ⟨he, hsane⟩ := hf hty
        intro p hp
        unfold Walker.nextFirst at hp
        have hst := start_parsed hm none hc
        have hnp := (C26_start_partial none block hsane).1
        have href := (C26_start_partial none block hsane).2.1
        rw [← hst] at hnp
        rw [← hst] at href
        rcases hx : ({} : IdleFileVisit).startFromParsed m cache with ⟨r, k⟩
        rw [show (IdleFileVisit.mk none) = {} from rfl, hx] at hnp href
        rw [hx] at hp
        cases r with
        | panic q => exact hnp q rfl
        | err e =>
          cases e with
          | File e => cases hp
          | UnexpectedType t => cases hp
          | InvalidCid l => cases hp
          | Read e =>
            have := href _ rfl
            cases this with
            | dagPb h => rw [hm] at h; cases h
            | unixFs h => rw [hm] at h; cases h
            | noData h => rw [hm] at h; cases h
        | ok r =>
          simp only at hp
          rw [hn] at hp
          simp only at hp
          obtain ⟨ie, hie⟩ := g3.enterLeaf_ok hr he hdd hn (.File r.next r.total_size) r.metadata
          rw [hie] at hp
          cases hp
      cases hty : m.data.Ty with
      | Metadata => intro p hp; cases hp
      | Raw => exact hfirst (.inr hty)
      | File => exact hfirst (.inl hty)
      | Symlink =>
        intro p hp
        simp only [Walker.nextSymlink] at hp
        rw [hn] at hp
        simp only at hp
        obtain ⟨ie, hie⟩ := g3.enterLeaf_ok hr (hl hty) hdd hn .Symlink (Metadata.ofUnixFs m.data)
        rw [hie] at hp
        cases hp
      | Directory =>
        simp only
        cases hck : checkDirectorySupported m with
        | error e => intro p hp; cases hp
        | ok m' =>
          have := checkDirectorySupported_ok hck
          subst this
          obtain ⟨he, hln⟩ := hd hty
          exact nextDir_noPanic hn (fun l hl i => convertLink_noPanic (hln l hl)) (g3.enterDirectory_ok hr he hdd hn _)
      | HAMTShard =>
        simp only
        cases hck : checkHamtshardSupported m with
        | err e => intro p hp; cases hp
        | panic p => simp [checkHamtshardSupported, checkShardSupported, hty] at hck; split at hck <;> (try split at hck) <;> cases hck
        | ok m' =>
          have := checkHamtshardSupported_ok hck
          subst this
          obtain ⟨he, hln⟩ := hs hty
          refine nextDir_noPanic hn (fun l hl i => convertShardedLink_noPanic (hln l hl)) (g3.enterShard_ok hr hn hwhat (.inl hdd) (fun hbk hlast => ?_) _)
          obtain ⟨c, p, md, hlast⟩ := hlast
          exact he hbk c p md hlast

/-- A walker made for `cidN 0` and given the blocks of a list of messages. -/
def fed : List FlatUnixFs → Walker
  | [] => Walker.new (cidN 0) []
  | m :: ms => ((fed ms).step m.write none).2.1

theorem fed_walked {ms : List FlatUnixFs} {m : FlatUnixFs} {h : List (Bytes × ContinuedWalk)} (hw : Walked (cidN 0) [] h (fed ms))
    (ha : (fed ms).shouldContinue = true ∧ (match ((fed ms).step m.write none).1 with | .ok _ => true | _ => false) = true) :
    ∃ h, Walked (cidN 0) [] h (fed (m :: ms)) := by
  cases hx : ((fed ms).step m.write none).1 with
  | ok item => exact ⟨_, .next hw ha.1 (cache := none) (by intro k h; cases h) (by rw [← hx]; rfl)⟩
  | err e => rw [hx] at ha; simp at ha
  | panic p => rw [hx] at ha; simp at ha

/-- A file with two links. -/
def twoLinks : FlatUnixFs := ⟨[linkN 2 [], linkN 3 []], { Ty := .File, filesize := some 3, blocksizes := [2, 1] }⟩

/-- An unparsable block where more of a file is expected makes the walker panic. -/
theorem C27_walk_unparsable_panics : ∃ h w, Walked (cidN 0) [] h w ∧ w.shouldContinue = true ∧ (w.step [1] none).1 = .panic .walkRead := by
  obtain ⟨h, hw⟩ := fed_walked (ms := []) (m := twoLinks) .new (by decide +kernel)
  exact ⟨h, _, hw, by decide +kernel, by decide +kernel⟩

/-- So does anything but a shard where a bucket is expected; -/
theorem C27_walk_not_a_bucket_panics : ∃ h w, Walked (cidN 0) [] h w ∧ w.shouldContinue = true ∧
    (w.step (dirMsg []).write none).1 = .panic .walkPathPop := by
  obtain ⟨h, hw⟩ := fed_walked (ms := []) (m := shardMsg [linkN 1 [0x30, 0x31]]) .new (by decide +kernel)
  exact ⟨h, _, hw, by decide +kernel, by decide +kernel⟩

/-- and a directory with an empty link name, -/
theorem C27_walk_empty_name_panics : ((Walker.new (cidN 0) []).step (dirMsg [linkN 1 []]).write none).1 = .panic .walkEmptyName := by
  decide +kernel

/-- or with a `/` in a link name. -/
theorem C27_walk_slash_panics : ((Walker.new (cidN 0) []).step (dirMsg [linkN 1 [97, slash]]).write none).1 = .panic .walkSlash := by
  decide +kernel

theorem C27_walk_full_false : ¬ C27_walk_full := by
  intro h
  obtain ⟨hist, w, h1, h2, h3⟩ := C27_walk_unparsable_panics
  exact h _ _ _ _ h1 h2 [1] none _ h3

/-- The conditions of `C27_walk_partial` are met by the first block of the sample. -/
example : SaneStep [] ⟨cidN 0, [[114]], .entry⟩ none (dirMsg [linkN 1 [97], linkN 4 [115], linkN 7 [100]]).write := by
  have hm : FlatUnixFs.tryParse (dirMsg [linkN 1 [97], linkN 4 [115], linkN 7 [100]]).write =
    .ok (dirMsg [linkN 1 [97], linkN 4 [115], linkN 7 [100]]) := by decide +kernel
  refine ⟨by simp, fun _ => ⟨by simp [DotDeep], fun m h => ?_⟩⟩
  rw [hm] at h
  cases h
  refine ⟨fun _ => ⟨rfl, ?_⟩, (by intro h; cases h), (by rintro (h | h) <;> cases h), (by intro h; cases h)⟩
  intro l hl
  simp only [dirMsg, linkN, List.mem_cons, List.not_mem_nil, or_false] at hl
  rcases hl with rfl | rfl | rfl <;> exact ⟨_, rfl, by decide, by decide⟩

end Verif.Props
