import Verif.Spec.Release
import Verif.VisitArb
/-
The functions of the release profile compared with those of the checked profiles.
-/
namespace Verif
open Spec

theorem Spec.Agree.rfl {ε α : Type} {d : Res ε α} : Agree d d := .inr _root_.rfl
theorem Spec.AgreeS.rfl {ε α σ : Type} {d : Res ε α × σ} : AgreeS d d := .inr _root_.rfl
theorem Spec.AgreeRun.rfl {ε α : Type} {d : Option (Res ε α)} : AgreeRun d d := .inr _root_.rfl

theorem Spec.Agree.bind {ε α β : Type} {d r : Res ε α} {f g : α → Res ε β} (h : Agree d r) (h' : ∀ a, d = .ok a → Agree (f a) (g a)) :
    Agree (d >>= f) (r >>= g) := by
  rcases h with ⟨p, rfl, hp⟩ | rfl
  · exact .inl ⟨p, _root_.rfl, hp⟩
  · cases r with
    | ok a => exact h' a _root_.rfl
    | err e => exact .rfl
    | panic p => exact .rfl

theorem addW_eq {a b : Nat} (h : a + b < U64) : addW a b = a + b := Nat.mod_eq_of_lt h

theorem subW_eq {a b : Nat} (h : b ≤ a) (ha : a < U64) : subW a b = a - b := by
  unfold subW
  rw [show a + U64 - b = a - b + U64 by omega, Nat.add_mod_right, Nat.mod_eq_of_lt (by omega)]

theorem add64_agree {ε : Type} {p : Panic} (hp : p.checked = true) (a b : Nat) : Agree (add64 p a b : Res ε Nat) (.ok (addW a b)) := by
  unfold add64
  by_cases h : a + b < U64
  · rw [if_pos h, addW_eq h]; exact .rfl
  · rw [if_neg h]; exact .inl ⟨p, rfl, hp⟩

theorem endOf_agree (inner : FlatUnixFs) (offset : Nat) (data : Bytes) :
    Agree (FileReader.endOf inner offset data) (FileReader.endOfR inner offset data) := by
  unfold FileReader.endOf FileReader.endOfR add64
  split
  · by_cases h : offset + inner.data.filesize.getD data.length < U64
    · rw [if_pos h, addW_eq h]; exact .rfl
    · rw [if_neg h]; exact .inl ⟨_, rfl, rfl⟩
  · cases inner.data.filesize with
    | none => exact .rfl
    | some n =>
      dsimp only
      by_cases h : offset + n < U64
      · rw [if_pos h, addW_eq h]; exact .rfl
      · rw [if_neg h]; exact .inl ⟨_, rfl, rfl⟩

theorem fromParts_agree (inner : FlatUnixFs) (offset : Nat) (md : Metadata) :
    Agree (FileReader.fromParts inner offset md) (FileReader.fromPartsR inner offset md) := by
  unfold FileReader.fromParts FileReader.fromPartsR
  dsimp only
  split
  · exact .rfl
  split
  · exact .rfl
  split
  · exact .rfl
  split
  · exact .rfl
  · exact (endOf_agree inner offset _).bind fun _ _ => .rfl

theorem fromBlock_agree (b : Bytes) : Agree (FileReader.fromBlock b) (FileReader.fromBlockR b) := by
  unfold FileReader.fromBlock FileReader.fromBlockR
  cases FlatUnixFs.tryParse b with
  | error e => exact .rfl
  | ok m => exact fromParts_agree ..

theorem fromContinued_agree (t : Traversal) (o : Nat) (b : Bytes) : Agree (FileReader.fromContinued t o b) (FileReader.fromContinuedR t o b) := by
  unfold FileReader.fromContinued FileReader.fromContinuedR
  cases FlatUnixFs.tryParse b with
  | error e => exact .rfl
  | ok m =>
    dsimp only
    split
    · exact .rfl
    · exact fromParts_agree ..

theorem travContinue_agree (t : Traversal) (b : Bytes) (i : Rng) : Agree (t.continueWalk b i) (t.continueWalkR b i) := by
  unfold Traversal.continueWalk Traversal.continueWalkR
  cases t.last_ending.checkIsSuitableNext t.last_offset i with
  | error e => exact .rfl
  | ok u => exact fromContinued_agree ..

theorem targetSlice_agree {ε : Type} (content : Bytes) (block target : Rng) (h : target.lo < U64) (h' : target.hi < U64) :
    Agree (targetSlice content block target : Res ε Bytes) (targetSliceR content block target) := by
  unfold targetSlice targetSliceR
  by_cases h1 : blockIsInTargetRange block (some target) = false
  · rw [if_pos h1, if_pos h1]; exact .rfl
  rw [if_neg h1, if_neg h1]
  have hin : max block.lo target.lo ≤ min block.hi target.hi := by simpa [blockIsInTargetRange] using h1
  by_cases h2 : target.lo < block.lo
  · rw [if_pos h2, if_pos h2, subW_eq (by omega) (by omega), sub64, if_pos (by omega)]; exact .rfl
  rw [if_neg h2, if_neg h2]
  by_cases h3 : target.hi > block.hi
  · rw [if_pos h3, if_pos h3, subW_eq (by omega) (by omega), subW_eq (a := min target.hi block.hi) (by omega) (by omega), sub64, sub64,
      if_pos (by omega), if_pos (by omega)]
    exact .rfl
  · rw [if_neg h3, if_neg h3, subW_eq (by omega) (by omega), subW_eq (a := target.hi) (by omega) (by omega), addW_eq (by omega), sub64,
      sub64, if_pos (by omega), if_pos (by omega)]
    exact .rfl

theorem maybeTargetSlice_agree {ε : Type} (content : Bytes) (block : Rng) {r : Option Rng} (h : RangeFits r) :
    Agree (maybeTargetSlice content block r : Res ε Bytes) (maybeTargetSliceR content block r) := by
  cases r with
  | none => exact .rfl
  | some t => exact targetSlice_agree _ _ _ (h t rfl).1 (h t rfl).2

theorem collectLinks_agree (target : Option Rng) : ∀ (ls : List (PBLink × Nat)) (nth base : Nat),
    Agree (collectLinks target nth base ls) (collectLinksR target nth base ls) := by
  intro ls
  induction ls with
  | nil => intro nth base; exact .rfl
  | cons l ls ih =>
    intro nth base
    obtain ⟨link, bs⟩ := l
    simp only [collectLinks, collectLinksR]
    refine (add64_agree (p := .rangeOverflow) rfl base bs).bind (g := fun stop => if blockIsInTargetRange (.mk base stop) target = false then collectLinksR target (nth + 1) stop ls else do
      let p ← toPending nth link (.mk base stop)
      let ps ← collectLinksR target (nth + 1) stop ls
      .ok (p :: ps)) fun stop _ => ?_
    split
    · exact ih ..
    · exact Agree.rfl.bind fun _ _ => (ih ..).bind fun _ _ => .rfl

theorem startFromReader_agree {self : IdleFileVisit} (h : RangeFits self.range) (fr : FileReader) (cache : Option VisitCache) :
    AgreeS (self.startFromReader fr cache) (self.startFromReaderR fr cache) := by
  unfold IdleFileVisit.startFromReader IdleFileVisit.startFromReaderR
  dsimp only
  obtain ⟨c, t⟩ := fr.content
  cases c with
  | Bytes content =>
    have hb : Agree _ _ := (maybeTargetSlice_agree (ε := FileReadFailed) content (.mk 0 content.length) h).bind
      (f := fun content => .ok (FileVisitResult.mk content t.file_size fr.metadata none))
      (g := fun content => .ok (FileVisitResult.mk content t.file_size fr.metadata none)) fun _ _ => .rfl
    rcases hb with ⟨p, h1, h2⟩ | h1
    · exact .inl ⟨p, h1, h2⟩
    · exact .inr (Prod.ext h1 rfl)
  | Links base zipped =>
    dsimp only
    rcases collectLinks_agree self.range zipped 0 base with ⟨p, h1, h2⟩ | h1
    · rw [h1]; exact .inl ⟨p, rfl, h2⟩
    · rw [h1]
      cases collectLinks self.range 0 base zipped <;> exact .rfl

theorem start_agree {self : IdleFileVisit} (h : RangeFits self.range) (b : Bytes) : Agree (self.start b) (self.startR b) := by
  unfold IdleFileVisit.start IdleFileVisit.startR
  refine (fromBlock_agree b).bind fun fr _ => ?_
  rcases startFromReader_agree h fr none with h1 | h1
  · exact .inl h1
  · rw [h1]; exact .rfl

theorem startFromParsed_agree {self : IdleFileVisit} (h : RangeFits self.range) (m : FlatUnixFs) (cache : Option VisitCache) :
    AgreeS (self.startFromParsed m cache) (self.startFromParsedR m cache) := by
  unfold IdleFileVisit.startFromParsed IdleFileVisit.startFromParsedR
  rcases (fromParts_agree m 0 (Metadata.ofUnixFs m.data)) with ⟨p, h1, h2⟩ | h1
  · rw [show FileReader.fromParsed m = _ from h1]; exact .inl ⟨p, rfl, h2⟩
  · rw [show FileReader.fromParsedR m = FileReader.fromParsed m from h1]
    cases FileReader.fromParsed m with
    | ok fr => exact startFromReader_agree h ..
    | err e => exact .rfl
    | panic p => exact .rfl

theorem continueWalk_agree {self : FileVisit} (h : RangeFits self.range) (b : Bytes) (cache : Option VisitCache) :
    AgreeS (self.continueWalk b cache) (self.continueWalkR b cache) := by
  unfold FileVisit.continueWalk FileVisit.continueWalkR
  cases self.pending.getLast? with
  | none => exact .rfl
  | some q =>
    obtain ⟨c, range⟩ := q
    dsimp only
    rcases travContinue_agree self.state b range with ⟨p, h1, h2⟩ | h1
    · rw [h1]; exact .inl ⟨p, rfl, h2⟩
    rw [h1]
    cases self.state.continueWalk b range with
    | err e => exact .rfl
    | panic p => exact .rfl
    | ok fr =>
      dsimp only
      obtain ⟨c, t⟩ := fr.content
      cases c with
      | Bytes content =>
        dsimp only
        rcases maybeTargetSlice_agree (ε := FileReadFailed) content range h with ⟨p, h1, h2⟩ | h1
        · rw [h1]; exact .inl ⟨p, rfl, h2⟩
        · rw [h1]
          cases (maybeTargetSlice content range self.range : Res FileReadFailed Bytes) <;> exact .rfl
      | Links base zipped =>
        dsimp only
        rcases collectLinks_agree self.range zipped 0 base with ⟨p, h1, h2⟩ | h1
        · rw [h1]; exact .inl ⟨p, rfl, h2⟩
        · rw [h1]
          cases collectLinks self.range 0 base zipped <;> exact .rfl

/-! ### The walker -/

theorem setPath_agree {ε : Type} (ie : InnerEntry) (name : Bytes) (depth : Nat) :
    Agree (ie.setPath name depth : Res ε InnerEntry) (ie.setPathR name depth) := by
  unfold InnerEntry.setPath InnerEntry.setPathR
  split
  · exact .inl ⟨_, rfl, rfl⟩
  · refine Agree.rfl.bind fun path _ => ?_
    dsimp only
    split
    · exact .inl ⟨_, rfl, rfl⟩
    · exact .rfl

theorem asKind_agree {ε : Type} (ie : InnerEntry) (k : InnerKind) (c : Cid) (name : Bytes) (depth : Nat) (md : Metadata) :
    Agree (ie.asKind k c name depth md : Res ε InnerEntry) (ie.asKindR k c name depth md) := by
  unfold InnerEntry.asKind InnerEntry.asKindR
  have key : Agree (({ ie with cid := c, kind := k }.setPath name depth : Res ε InnerEntry) >>= fun ie => .ok { ie with metadata := md })
      ({ ie with cid := c, kind := k }.setPathR name depth >>= fun ie => .ok { ie with metadata := md }) :=
    (setPath_agree ..).bind fun _ _ => .rfl
  generalize ie.kind = kd
  cases kd with
  | File v s =>
    cases v with
    | none => exact key
    | some v => exact .rfl
  | _ => exact key

theorem enterDirectory_agree (w : Walker) (md : Metadata) (n : WalkLink) : Agree (w.enterDirectory md n) (w.enterDirectoryR md n) := by
  unfold Walker.enterDirectory Walker.enterDirectoryR
  cases w.current with
  | none => exact .rfl
  | some ie => exact (asKind_agree ..).bind fun _ _ => .rfl

theorem enterShard_agree (w : Walker) (md : Metadata) (n : WalkLink) : Agree (w.enterShard md n) (w.enterShardR md n) := by
  unfold Walker.enterShard Walker.enterShardR
  cases w.current with
  | none => exact .rfl
  | some ie =>
    dsimp only
    split
    · exact .rfl
    · exact (asKind_agree ..).bind fun _ _ => .rfl

theorem enterLeaf_agree (w : Walker) (k : InnerKind) (md : Metadata) (n : WalkLink) : Agree (w.enterLeaf k md n) (w.enterLeafR k md n) := by
  unfold Walker.enterLeaf Walker.enterLeafR
  cases w.current with
  | none => exact .rfl
  | some ie => exact asKind_agree ..

theorem nextDir_agree (w : Walker) (links : List PBLink) (convert : Nat → Nat → PBLink → Res InvalidCidInLink WalkLink)
    {enter enterR : WalkLink → Res WalkError (InnerEntry × ContinuedWalk)} (h : ∀ n, Agree (enter n) (enterR n))
    (cache : Option VisitCache) : AgreeS (w.nextDir links convert enter cache) (w.nextDir links convert enterR cache) := by
  unfold Walker.nextDir
  cases w.next with
  | none => exact .rfl
  | some n =>
    dsimp only
    obtain ⟨a, pending⟩ := pushLinks (convert n.depth) links.zipIdx.reverse w.pending
    cases a with
    | panic p => exact .rfl
    | err e => exact .rfl
    | ok u =>
      dsimp only
      rcases h n with ⟨p, h1, h2⟩ | h1
      · rw [h1]; exact .inl ⟨p, rfl, h2⟩
      · rw [h1]; exact .rfl

theorem nextFirst_agree (w : Walker) (m : FlatUnixFs) (cache : Option VisitCache) : AgreeS (w.nextFirst m cache) (w.nextFirstR m cache) := by
  unfold Walker.nextFirst Walker.nextFirstR
  have hs := startFromParsed_agree (self := {}) (by intro t h; cases h) m cache
  generalize IdleFileVisit.startFromParsed {} m cache = s at hs
  generalize IdleFileVisit.startFromParsedR {} m cache = sR at hs
  rcases hs with ⟨p, h1, h2⟩ | rfl
  · obtain ⟨s1, s2⟩ := s
    dsimp only at h1
    subst h1
    exact .inl ⟨p, rfl, h2⟩
  · obtain ⟨s1, s2⟩ := sR
    cases s1 with
    | panic p => exact .rfl
    | err e => exact .rfl
    | ok r =>
      dsimp only
      cases w.next with
      | none => exact .rfl
      | some n =>
        dsimp only
        rcases enterLeaf_agree w (.File r.next r.total_size) r.metadata n with ⟨p, h1, h2⟩ | h1
        · rw [h1]; exact .inl ⟨p, rfl, h2⟩
        · rw [h1]
          cases w.enterLeaf (.File r.next r.total_size) r.metadata n <;> exact .rfl

theorem nextSymlink_agree (w : Walker) (m : FlatUnixFs) (md : Metadata) (cache : Option VisitCache) :
    AgreeS (w.nextSymlink m md cache) (w.nextSymlinkR m md cache) := by
  unfold Walker.nextSymlink Walker.nextSymlinkR
  dsimp only
  cases w.next with
  | none => exact .rfl
  | some n =>
    dsimp only
    rcases enterLeaf_agree w .Symlink md n with ⟨p, h1, h2⟩ | h1
    · rw [h1]; exact .inl ⟨p, rfl, h2⟩
    · rw [h1]
      cases w.enterLeaf .Symlink md n <;> exact .rfl

theorem nextBlock_agree (w : Walker) (b : Bytes) (cache : Option VisitCache) : AgreeS (w.nextBlock b cache) (w.nextBlockR b cache) := by
  unfold Walker.nextBlock Walker.nextBlockR
  dsimp only
  cases FlatUnixFs.tryParse b with
  | error e => exact .rfl
  | ok m =>
    dsimp only
    generalize hT : m.data.Ty = T
    cases T with
    | Directory =>
      dsimp only
      cases checkDirectorySupported m with
      | error e => exact .rfl
      | ok m => exact nextDir_agree _ _ _ (fun n => enterDirectory_agree ..) _
    | HAMTShard =>
      dsimp only
      cases checkHamtshardSupported m with
      | panic p => exact .rfl
      | err e => exact .rfl
      | ok m => exact nextDir_agree _ _ _ (fun n => enterShard_agree ..) _
    | Raw => exact nextFirst_agree ..
    | File => exact nextFirst_agree ..
    | Metadata => exact .rfl
    | Symlink => exact nextSymlink_agree ..

theorem nextFile_agree (w : Walker) (ie : InnerEntry) {v : FileVisit} (h : RangeFits v.range) (sz : Nat) (b : Bytes)
    (cache : Option VisitCache) : AgreeS (w.nextFile ie v sz b cache) (w.nextFileR ie v sz b cache) := by
  unfold Walker.nextFile Walker.nextFileR
  have hs := continueWalk_agree h b cache
  generalize v.continueWalk b cache = s at hs
  generalize v.continueWalkR b cache = sR at hs
  rcases hs with ⟨p, h1, h2⟩ | rfl
  · obtain ⟨s1, s2⟩ := s
    dsimp only at h1
    subst h1
    exact .inl ⟨p, rfl, h2⟩
  · obtain ⟨s1, s2⟩ := sR
    cases s1 <;> exact .rfl

/-- The range of an ongoing file visit, if any, fits. -/
def Walker.Fits (w : Walker) : Prop := ∀ ie v sz, w.current = some ie → ie.kind = .File (some v) sz → RangeFits v.range

theorem step_agree {w : Walker} (h : w.Fits) (b : Bytes) (cache : Option VisitCache) : AgreeS (w.step b cache) (w.stepR b cache) := by
  unfold Walker.step Walker.stepR
  have key : AgreeS (w.nextBlock b cache) (w.nextBlockR b cache) := nextBlock_agree ..
  have h' : ∀ ie v sz, w.current = some ie → ie.kind = .File (some v) sz → RangeFits v.range := h
  generalize w.current = cur at h'
  cases cur with
  | none => exact key
  | some ie =>
    obtain ⟨cid, kind, path, md, depth⟩ := ie
    cases kind with
    | File v sz =>
      cases v with
      | none => exact key
      | some v => exact nextFile_agree _ _ (h' _ _ _ rfl rfl) _ _ _
    | _ => exact key

/-! ### The iterator -/

theorem renderDirectory_agree (sha : Bytes → Bytes) (links : Leaves) (buffer : Bytes) (limit : Option Nat) :
    AgreeS (renderDirectory sha links buffer limit) (renderDirectoryR sha links buffer limit) := by
  unfold renderDirectory renderDirectoryR
  cases unwrapAll links with
  | none => exact .rfl
  | some ls =>
    dsimp only
    split
    · exact .rfl
    · split
      · exact .rfl
      · generalize List.take (customSize ls directoryData) _ = buf
        unfold add64
        by_cases h : buf.length + (ls.map (·.total_size)).sum < U64
        · rw [if_pos h, addW_eq h]; exact .rfl
        · rw [if_neg h]; exact .inl ⟨_, rfl, rfl⟩

/-- The comparison of iterator steps. -/
def AgreeI (d r : IterStep) : Prop := (∃ p, d = .panic p ∧ p.checked = true) ∨ r = d

theorem AgreeI.rfl {d : IterStep} : AgreeI d d := .inr _root_.rfl

theorem iterStep_agree (sha : Bytes → Bytes) (it : PostOrderIterator) : AgreeI (it.step sha) (it.stepR sha) := by
  unfold PostOrderIterator.step PostOrderIterator.stepR
  cases it.pending with
  | nil => exact .rfl
  | cons visited pending =>
    dsimp only
    cases updateFullPath it.full_path it.old_depth visited.nameDepth.1 visited.nameDepth.2 with
    | panic p => exact .rfl
    | err e => exact .rfl
    | ok q =>
      obtain ⟨full_path, old_depth⟩ := q
      cases visited with
      | DescentRoot node => exact .rfl
      | Descent node name depth index =>
        dsimp only
        cases node.parent_id <;> exact .rfl
      | Post parent_id depth name index leaves =>
        dsimp only
        cases leaves.intoInner it.persisted_cids with
        | panic p => exact .rfl
        | err e => exact .rfl
        | ok q =>
          obtain ⟨leaves, persisted⟩ := q
          dsimp only
          have hs := renderDirectory_agree sha leaves it.block_buffer it.opts.block_size_limit
          generalize renderDirectory sha leaves it.block_buffer it.opts.block_size_limit = s at hs
          generalize renderDirectoryR sha leaves it.block_buffer it.opts.block_size_limit = sR at hs
          rcases hs with ⟨p, h1, h2⟩ | rfl
          · obtain ⟨s1, s2⟩ := s
            dsimp only at h1
            subst h1
            exact .inl ⟨p, rfl, h2⟩
          · obtain ⟨s1, s2⟩ := sR
            cases s1 with
            | panic p => exact .rfl
            | err e => exact .rfl
            | ok q =>
              obtain ⟨cid, total⟩ := q
              dsimp only
              cases persisted parent_id with
              | none => exact .rfl
              | some vec =>
                dsimp only
                cases vec[index]? with
                | none => exact .rfl
                | some c => cases c <;> exact .rfl
      | PostRoot leaves =>
        dsimp only
        cases leaves.intoInner it.persisted_cids with
        | panic p => exact .rfl
        | err e => exact .rfl
        | ok q =>
          obtain ⟨leaves, persisted⟩ := q
          dsimp only
          split
          · exact .rfl
          · have hs := renderDirectory_agree sha leaves it.block_buffer it.opts.block_size_limit
            generalize renderDirectory sha leaves it.block_buffer it.opts.block_size_limit = s at hs
            generalize renderDirectoryR sha leaves it.block_buffer it.opts.block_size_limit = sR at hs
            rcases hs with ⟨p, h1, h2⟩ | rfl
            · obtain ⟨s1, s2⟩ := s
              dsimp only at h1
              subst h1
              exact .inl ⟨p, rfl, h2⟩
            · obtain ⟨s1, s2⟩ := sR
              cases s1 <;> exact .rfl

/-! ### Loops which may diverge

`P` is one of: "if the checked build answers, so does the release build", and the converse. -/

/-- A way to compare answers which accepts equal ones, and anything if the checked build panics at a check. -/
structure Comparison {α : Type} (bad : α → Prop) (P : Option α → Option α → Prop) : Prop where
  refl : ∀ d, P d d
  bad : ∀ x r, bad x → P (some x) r

theorem compare_left {α : Type} (bad : α → Prop) : Comparison bad (fun d r => ∀ x, d = some x → bad x ∨ r = some x) :=
  ⟨fun _ _ h => .inr h, fun _ _ hb y h => .inl (by cases h; exact hb)⟩

theorem compare_right {α : Type} (bad : α → Prop) :
    Comparison bad (fun d r => ∀ x, r = some x → (∃ y, d = some y ∧ bad y) ∨ d = some x) :=
  ⟨fun _ _ h => .inr h, fun x _ hb _ _ => .inl ⟨x, rfl, hb⟩⟩

theorem compare_both {α : Type} {bad : α → Prop} {d r : Option α} (h : ∀ x, d = some x → bad x ∨ r = some x)
    (h' : ∀ x, r = some x → (∃ y, d = some y ∧ bad y) ∨ d = some x) : (∃ x, d = some x ∧ bad x) ∨ r = d := by
  cases hd : d with
  | some x =>
    rcases h x hd with h1 | h1
    · exact .inl ⟨x, rfl, h1⟩
    · exact .inr h1
  | none =>
    cases hr : r with
    | none => exact .inr rfl
    | some y =>
      rcases h' y hr with ⟨z, h1, _⟩ | h1
      · rw [hd] at h1; cases h1
      · rw [hd] at h1; cases h1

/-- A panic at a check. -/
def BadNext (x : IterNext × PostOrderIterator) : Prop := ∃ p, x.1 = .panic p ∧ p.checked = true

theorem next_body {P : Option (IterNext × PostOrderIterator) → Option (IterNext × PostOrderIterator) → Prop} (hP : Comparison BadNext P)
    (sha : Bytes → Bytes) {next nextR : PostOrderIterator → Option (IterNext × PostOrderIterator)} (h : ∀ it, P (next it) (nextR it))
    (it : PostOrderIterator) :
    P (match it.step sha with
        | .continue it => next it
        | .item it node => some (.item node, it)
        | .failed it e => some (.failed e, it)
        | .done it => some (.finished, it)
        | .panic p => some (.panic p, it))
      (match it.stepR sha with
        | .continue it => nextR it
        | .item it node => some (.item node, it)
        | .failed it e => some (.failed e, it)
        | .done it => some (.finished, it)
        | .panic p => some (.panic p, it)) := by
  rcases iterStep_agree sha it with ⟨p, h1, h2⟩ | h1
  · rw [h1]; exact hP.bad _ _ ⟨p, rfl, h2⟩
  · rw [h1]
    cases it.step sha with
    | «continue» it => exact h it
    | _ => exact hP.refl _

theorem next_agree (sha : Bytes → Bytes) (it : PostOrderIterator) :
    (∃ x, it.next sha = some x ∧ BadNext x) ∨ it.nextR sha = it.next sha := by
  refine compare_both (fun x hx => ?_) fun x hx => ?_
  · refine PostOrderIterator.next.partial_correctness sha (fun it x => BadNext x ∨ it.nextR sha = some x) ?_ it x hx
    intro next ih it x h
    rw [PostOrderIterator.nextR]
    exact next_body (compare_left BadNext) sha (next := next) (nextR := PostOrderIterator.nextR sha) (fun it x h => ih it x h) it x h
  · refine PostOrderIterator.nextR.partial_correctness sha (fun it x => (∃ y, it.next sha = some y ∧ BadNext y) ∨ it.next sha = some x) ?_ it x hx
    intro nextR ih it x h
    rw [PostOrderIterator.next]
    exact next_body (compare_right BadNext) sha (next := PostOrderIterator.next sha) (nextR := nextR) (fun it x h => ih it x h) it x h

/-! ### The adder -/

theorem partitionLinks_agree (level : Nat) : ∀ (ls : List Link) (n : Nested), Agree (partitionLinks level ls n) (partitionLinksR level ls n) := by
  intro ls
  induction ls with
  | nil => intro n; exact .rfl
  | cons l ls ih =>
    intro n
    unfold partitionLinks partitionLinksR
    split
    · exact .rfl
    · unfold partitionLink partitionLinkR
      dsimp only
      by_cases h1 : U64 ≤ n.size + l.file_size
      · rw [if_pos h1]; exact .inl ⟨_, rfl, rfl⟩
      rw [if_neg h1]
      by_cases h2 : U64 ≤ n.total + l.total_size
      · rw [if_pos h2]; exact .inl ⟨_, rfl, rfl⟩
      rw [if_neg h2, addW_eq (by omega), addW_eq (by omega)]
      exact ih _

/-- A panic at a check. -/
def BadRes {ε α : Type} (x : Res ε α) : Prop := ∃ p, x = .panic p ∧ p.checked = true

/-- The body of `flushLevel`. -/
def flushLevelF (sha : Bytes → Bytes) (bf level : Nat) (finishing : Bool) (rec : Nat → Option Nat → FlushState → Run LevelEnd)
    (starting_point : Nat) (last_overwrite : Option Nat) (s : FlushState) : Run LevelEnd :=
  match (s.pending.drop starting_point).findIdx? (fun l => l.depth == level) with
  | none => some (.ok (.next s last_overwrite))
  | some rel =>
    let first_at := rel + starting_point
    if finishing = false ∧ (s.pending.drop first_at).length ≤ bf then
      match last_overwrite with
      | none => some (.ok (.breakOuter s))
      | some o =>
        match drain s.pending (o + 1) first_at with
        | .ok p => some (.ok (.breakOuter { s with pending := p }))
        | .err e => some (.err e)
        | .panic p => some (.panic p)
    else
      let last := Nat.min (first_at + bf) s.pending.length
      match partitionLinks level ((s.pending.take last).drop first_at) {} with
      | .err e => some (.err e)
      | .panic p => some (.panic p)
      | .ok n =>
        if n.links.length ≠ n.blocksizes.length then some (.panic .adderReused)
        else
          let (cid, vec) := renderAndHash sha (linkMessage n)
          let index := match last_overwrite with | some i => i + 1 | none => first_at
          if U64 ≤ n.total + vec.length then some (.panic .adderOverflow)
          else if s.pending.length ≤ index then some (.panic .adderIndex)
          else
            let link : Link :=
              { depth := level + 1, target := cid, total_size := n.total + vec.length, file_size := n.size }
            rec last (some index)
              { pending := s.pending.set index link, ret := s.ret ++ [(cid, vec)],
                reused_links := n.links, reused_blocksizes := n.blocksizes }

/-- The body of `flushLevelR`. -/
def flushLevelFR (sha : Bytes → Bytes) (bf level : Nat) (finishing : Bool) (rec : Nat → Option Nat → FlushState → Run LevelEnd)
    (starting_point : Nat) (last_overwrite : Option Nat) (s : FlushState) : Run LevelEnd :=
  match (s.pending.drop starting_point).findIdx? (fun l => l.depth == level) with
  | none => some (.ok (.next s last_overwrite))
  | some rel =>
    let first_at := rel + starting_point
    if finishing = false ∧ (s.pending.drop first_at).length ≤ bf then
      match last_overwrite with
      | none => some (.ok (.breakOuter s))
      | some o =>
        match drain s.pending (o + 1) first_at with
        | .ok p => some (.ok (.breakOuter { s with pending := p }))
        | .err e => some (.err e)
        | .panic p => some (.panic p)
    else
      let last := Nat.min (first_at + bf) s.pending.length
      match partitionLinksR level ((s.pending.take last).drop first_at) {} with
      | .err e => some (.err e)
      | .panic p => some (.panic p)
      | .ok n =>
        let (cid, vec) := renderAndHash sha (linkMessage n)
        let index := match last_overwrite with | some i => i + 1 | none => first_at
        if s.pending.length ≤ index then some (.panic .adderIndex)
        else
          let link : Link :=
            { depth := level + 1, target := cid, total_size := addW n.total vec.length, file_size := n.size }
          rec last (some index)
            { pending := s.pending.set index link, ret := s.ret ++ [(cid, vec)],
              reused_links := n.links, reused_blocksizes := n.blocksizes }

theorem flushLevel_body {P : Run LevelEnd → Run LevelEnd → Prop} (hP : Comparison BadRes P)
    (sha : Bytes → Bytes) (bf level : Nat) (finishing : Bool) {rec recR : Nat → Option Nat → FlushState → Run LevelEnd}
    (h : ∀ i o s, P (rec i o s) (recR i o s)) (i : Nat) (o : Option Nat) (s : FlushState) :
    P (flushLevelF sha bf level finishing rec i o s) (flushLevelFR sha bf level finishing recR i o s) := by
  unfold flushLevelF flushLevelFR
  cases (s.pending.drop i).findIdx? (fun l => l.depth == level) with
  | none => exact hP.refl _
  | some rel =>
    dsimp only
    by_cases hf : finishing = false ∧ (s.pending.drop (rel + i)).length ≤ bf
    · rw [if_pos hf, if_pos hf]
      cases o with
      | none => exact hP.refl _
      | some o =>
        dsimp only
        cases drain s.pending (o + 1) (rel + i) <;> exact hP.refl _
    · rw [if_neg hf, if_neg hf]
      rcases partitionLinks_agree level ((s.pending.take (Nat.min (rel + i + bf) s.pending.length)).drop (rel + i)) {} with ⟨p, h1, h2⟩ | h1
      · rw [h1]; exact hP.bad _ _ ⟨p, rfl, h2⟩
      rw [h1]
      cases partitionLinks level ((s.pending.take (Nat.min (rel + i + bf) s.pending.length)).drop (rel + i)) {} with
      | err e => exact hP.refl _
      | panic p => exact hP.refl _
      | ok n =>
        dsimp only
        by_cases h2 : n.links.length ≠ n.blocksizes.length
        · rw [if_pos h2]; exact hP.bad _ _ ⟨_, rfl, rfl⟩
        rw [if_neg h2]
        obtain ⟨cid, vec⟩ := renderAndHash sha (linkMessage n)
        dsimp only
        by_cases h3 : U64 ≤ n.total + vec.length
        · rw [if_pos h3]; exact hP.bad _ _ ⟨_, rfl, rfl⟩
        rw [if_neg h3, addW_eq (by omega)]
        cases o with
        | none =>
          dsimp only
          split
          · exact hP.refl _
          · exact h ..
        | some o =>
          dsimp only
          split
          · exact hP.refl _
          · exact h ..

theorem flushLevel_agree (sha : Bytes → Bytes) (bf level : Nat) (finishing : Bool) (i : Nat) (o : Option Nat) (s : FlushState) :
    (∃ x, flushLevel sha bf level finishing i o s = some x ∧ BadRes x) ∨
      flushLevelR sha bf level finishing i o s = flushLevel sha bf level finishing i o s := by
  refine compare_both (fun x hx => ?_) fun x hx => ?_
  · refine flushLevel.partial_correctness sha bf level finishing (fun i o s x => BadRes x ∨ flushLevelR sha bf level finishing i o s = some x) ?_ i o s x hx
    intro rec ih i o s x h
    rw [flushLevelR]
    exact flushLevel_body (compare_left BadRes) sha bf level finishing (rec := rec) (recR := flushLevelR sha bf level finishing)
      (fun i o s x h => ih i o s x h) i o s x h
  · refine flushLevelR.partial_correctness sha bf level finishing (fun i o s x => (∃ y, flushLevel sha bf level finishing i o s = some y ∧ BadRes y) ∨ flushLevel sha bf level finishing i o s = some x) ?_ i o s x hx
    intro rec ih i o s x h
    rw [flushLevel]
    exact flushLevel_body (compare_right BadRes) sha bf level finishing (rec := flushLevel sha bf level finishing) (recR := rec)
      (fun i o s x h => ih i o s x h) i o s x h

/-- The body of `flushLevels`. -/
def flushLevelsF (sha : Bytes → Bytes) (bf : Nat) (finishing : Bool) (rec : Nat → FlushState → Run FlushState) (level : Nat)
    (s : FlushState) : Run FlushState :=
  if (s.pending.length = 1 ∧ finishing = true) ∨ (s.pending.length ≤ bf ∧ finishing = false) then some (.ok s)
  else
    match flushLevel sha bf level finishing 0 none s with
    | none => none
    | some (.err e) => some (.err e)
    | some (.panic p) => some (.panic p)
    | some (.ok (.breakOuter s)) => some (.ok s)
    | some (.ok (.next s last_overwrite)) =>
      let pending := match last_overwrite with | some o => s.pending.take (o + 1) | none => s.pending
      if pending.any (fun l => l.depth == level) then some (.panic .adderLevelLeft)
      else rec (level + 1) { s with pending := pending }

/-- The body of `flushLevelsR`. -/
def flushLevelsFR (sha : Bytes → Bytes) (bf : Nat) (finishing : Bool) (rec : Nat → FlushState → Run FlushState) (level : Nat)
    (s : FlushState) : Run FlushState :=
  if (s.pending.length = 1 ∧ finishing = true) ∨ (s.pending.length ≤ bf ∧ finishing = false) then some (.ok s)
  else
    match flushLevelR sha bf level finishing 0 none s with
    | none => none
    | some (.err e) => some (.err e)
    | some (.panic p) => some (.panic p)
    | some (.ok (.breakOuter s)) => some (.ok s)
    | some (.ok (.next s last_overwrite)) =>
      let pending := match last_overwrite with | some o => s.pending.take (o + 1) | none => s.pending
      rec (level + 1) { s with pending := pending }

theorem flushLevels_body {P : Run FlushState → Run FlushState → Prop} (hP : Comparison BadRes P)
    (sha : Bytes → Bytes) (bf : Nat) (finishing : Bool) {rec recR : Nat → FlushState → Run FlushState}
    (h : ∀ i s, P (rec i s) (recR i s)) (level : Nat) (s : FlushState) :
    P (flushLevelsF sha bf finishing rec level s) (flushLevelsFR sha bf finishing recR level s) := by
  unfold flushLevelsF flushLevelsFR
  split
  · exact hP.refl _
  rcases flushLevel_agree sha bf level finishing 0 none s with ⟨x, h1, p, rfl, h2⟩ | h1
  · rw [h1]; exact hP.bad _ _ ⟨p, rfl, h2⟩
  rw [h1]
  cases flushLevel sha bf level finishing 0 none s with
  | none => exact hP.refl _
  | some x =>
    cases x with
    | err e => exact hP.refl _
    | panic p => exact hP.refl _
    | ok x =>
      cases x with
      | breakOuter s => exact hP.refl _
      | next s o =>
        cases o with
        | none =>
          dsimp only
          split
          · exact hP.bad _ _ ⟨_, rfl, rfl⟩
          · exact h ..
        | some o =>
          dsimp only
          split
          · exact hP.bad _ _ ⟨_, rfl, rfl⟩
          · exact h ..

theorem flushLevels_agree (sha : Bytes → Bytes) (bf : Nat) (finishing : Bool) (level : Nat) (s : FlushState) :
    (∃ x, flushLevels sha bf finishing level s = some x ∧ BadRes x) ∨
      flushLevelsR sha bf finishing level s = flushLevels sha bf finishing level s := by
  refine compare_both (fun x hx => ?_) fun x hx => ?_
  · refine flushLevels.partial_correctness sha bf finishing (fun l s x => BadRes x ∨ flushLevelsR sha bf finishing l s = some x) ?_ level s x hx
    intro rec ih l s x h
    rw [flushLevelsR]
    exact flushLevels_body (compare_left BadRes) sha bf finishing (rec := rec) (recR := flushLevelsR sha bf finishing)
      (fun l s x h => ih l s x h) l s x h
  · refine flushLevelsR.partial_correctness sha bf finishing (fun l s x => (∃ y, flushLevels sha bf finishing l s = some y ∧ BadRes y) ∨ flushLevels sha bf finishing l s = some x) ?_ level s x hx
    intro rec ih l s x h
    rw [flushLevels]
    exact flushLevels_body (compare_right BadRes) sha bf finishing (rec := flushLevels sha bf finishing) (recR := rec)
      (fun l s x h => ih l s x h) l s x h

theorem flushLinks_agree (sha : Bytes → Bytes) (bc : BalancedCollector) (pending : List Link) (finishing : Bool) :
    AgreeRun (flushLinks sha bc pending finishing) (flushLinksR sha bc pending finishing) := by
  unfold flushLinks flushLinksR
  rcases flushLevels_agree sha bc.branching_factor finishing 0
      { pending := pending, reused_links := bc.reused_links, reused_blocksizes := bc.reused_blocksizes } with ⟨x, h1, p, rfl, h2⟩ | h1
  · rw [h1]; exact .inl ⟨p, rfl, h2⟩
  · rw [h1]; exact .rfl

theorem flushChunk_agree (sha : Bytes → Bytes) (a : FileAdder) (chunk : Bytes) : AgreeRun (a.flushChunk sha chunk) (a.flushChunkR sha chunk) := by
  unfold FileAdder.flushChunk FileAdder.flushChunkR
  obtain ⟨leaf, unflushed⟩ := flushBufferedLeaf sha chunk a.unflushed_links false
  cases leaf with
  | none => exact .rfl
  | some leaf =>
    dsimp only
    rcases flushLinks_agree sha a.collector unflushed false with ⟨p, h1, h2⟩ | h1
    · rw [h1]; exact .inl ⟨p, rfl, h2⟩
    · rw [h1]; exact .rfl

theorem finish_agree (sha : Bytes → Bytes) (a : FileAdder) : AgreeRun (a.finish sha) (a.finishR sha) := by
  unfold FileAdder.finish FileAdder.finishR
  obtain ⟨leaf, unflushed⟩ := flushBufferedLeaf sha a.block_buffer a.unflushed_links true
  dsimp only
  rcases flushLinks_agree sha a.collector unflushed true with ⟨p, h1, h2⟩ | h1
  · rw [h1]; exact .inl ⟨p, rfl, h2⟩
  · rw [h1]; exact .rfl

theorem chunkerAccept_agree {max : Nat} (h : max < U64) (input buffered : Bytes) :
    Agree (chunkerAccept max input buffered) (.ok (chunkerAcceptR max input buffered)) := by
  unfold chunkerAccept chunkerAcceptR
  split
  · exact .inl ⟨_, rfl, rfl⟩
  · have hm : Nat.min input.length (max - buffered.length) ≤ max - buffered.length := Nat.min_le_right ..
    dsimp only
    rw [subW_eq (by omega) h, addW_eq (by omega)]
    exact .rfl

theorem push_agree (sha : Bytes → Bytes) {a : FileAdder} (h : a.chunkMax < U64) (input : Bytes) :
    AgreeRun (a.push sha input) (a.pushR sha input) := by
  unfold FileAdder.push FileAdder.pushR
  rcases chunkerAccept_agree h input a.block_buffer with ⟨p, h1, h2⟩ | h1
  · rw [h1]; exact .inl ⟨p, rfl, h2⟩
  rw [← h1]
  obtain ⟨acc, ready⟩ := chunkerAcceptR a.chunkMax input a.block_buffer
  dsimp only
  split
  · rcases flushChunk_agree sha a acc with ⟨p, h1, h2⟩ | h1
    · rw [h1]; exact .inl ⟨p, rfl, h2⟩
    · rw [h1]; exact .rfl
  · split
    · exact .rfl
    · rcases flushChunk_agree sha a (a.block_buffer ++ acc) with ⟨p, h1, h2⟩ | h1
      · rw [h1]; exact .inl ⟨p, rfl, h2⟩
      · rw [h1]; exact .rfl

/-! ### Loops of clients -/

theorem continueWalk_range {v v' : FileVisit} {b c : Bytes} {cache : Option VisitCache} (h : (v.continueWalk b cache).1 = .ok (c, some v')) :
    v'.range = v.range := by
  unfold FileVisit.continueWalk at h
  cases hl : v.pending.getLast? with
  | none => rw [hl] at h; cases h
  | some q =>
    obtain ⟨_, i⟩ := q
    rw [hl] at h
    dsimp only at h
    cases hf : v.state.continueWalk b i with
    | err e => rw [hf] at h; cases h
    | panic p => rw [hf] at h; cases h
    | ok fr =>
      rw [hf] at h
      dsimp only at h
      generalize fr.content = fc at h
      obtain ⟨fc, t⟩ := fc
      cases fc with
      | Bytes content =>
        dsimp only at h
        cases hm : (maybeTargetSlice content i v.range : Res FileReadFailed Bytes) with
        | ok x =>
          rw [hm] at h
          dsimp only at h
          split at h
          · cases h; rfl
          · cases h
        | err e => rw [hm] at h; cases h
        | panic p => rw [hm] at h; cases h
      | Links base zipped =>
        dsimp only at h
        cases hm : collectLinks v.range 0 base zipped with
        | ok x => rw [hm] at h; cases h; rfl
        | err e => rw [hm] at h; cases h
        | panic p => rw [hm] at h; cases h

theorem readFrom_body {P : Option (Res ReadError (Bytes × List Cid)) → Option (Res ReadError (Bytes × List Cid)) → Prop}
    (hP : Comparison BadRes P) (hb : ∀ (f : Bytes × List Cid → Bytes × List Cid) d r, P d r →
      P (d.bind fun x => some (x.map f)) (r.bind fun x => some (x.map f)))
    (get : Cid → Option Bytes) {rec recR : FileVisit → Option (Res ReadError (Bytes × List Cid))}
    (h : ∀ v, RangeFits v.range → P (rec v) (recR v)) (v : FileVisit) (hv : RangeFits v.range) :
    P (match v.pendingLinks with
      | .panic p => some (.panic p)
      | .err () => some (.err .noLinks)
      | .ok (first, _) =>
        match get first with
        | none => some (.err (.missing first))
        | some block =>
          match (v.continueWalk block none).1 with
          | .panic p => some (.panic p)
          | .err e => some (.err (.failed e))
          | .ok (content, none) => some (.ok (content, [first]))
          | .ok (content, some v') => do
            let r ← rec v'
            some (r.map (fun (c, q) => (content ++ c, first :: q))))
      (match v.pendingLinks with
      | .panic p => some (.panic p)
      | .err () => some (.err .noLinks)
      | .ok (first, _) =>
        match get first with
        | none => some (.err (.missing first))
        | some block =>
          match (v.continueWalkR block none).1 with
          | .panic p => some (.panic p)
          | .err e => some (.err (.failed e))
          | .ok (content, none) => some (.ok (content, [first]))
          | .ok (content, some v') => do
            let r ← recR v'
            some (r.map (fun (c, q) => (content ++ c, first :: q)))) := by
  cases v.pendingLinks with
  | panic p => exact hP.refl _
  | err e => exact hP.refl _
  | ok q =>
    obtain ⟨first, rest⟩ := q
    dsimp only
    cases get first with
    | none => exact hP.refl _
    | some block =>
      dsimp only
      have hs := continueWalk_agree hv block none
      have hr : ∀ c v', (v.continueWalk block none).1 = .ok (c, some v') → v'.range = v.range := fun _ _ h => continueWalk_range h
      generalize v.continueWalk block none = s at hs hr
      generalize v.continueWalkR block none = sR at hs
      rcases hs with ⟨p, h1, h2⟩ | rfl
      · rw [h1]; exact hP.bad _ _ ⟨p, rfl, h2⟩
      · obtain ⟨s1, s2⟩ := sR
        cases s1 with
        | panic p => exact hP.refl _
        | err e => exact hP.refl _
        | ok q =>
          obtain ⟨content, v'⟩ := q
          cases v' with
          | none => exact hP.refl _
          | some v' => exact hb _ _ _ (h v' (hr _ _ rfl ▸ hv))

theorem left_bind {ε α : Type} (f : α → α) (d r : Option (Res ε α)) (h : ∀ x, d = some x → BadRes x ∨ r = some x) :
    ∀ x, (d.bind fun x => some (x.map f)) = some x → BadRes x ∨ (r.bind fun x => some (x.map f)) = some x := by
  intro x hx
  cases hd : d with
  | none => rw [hd] at hx; cases hx
  | some y =>
    rw [hd] at hx
    cases hx
    rcases h y hd with ⟨p, rfl, hp⟩ | h1
    · exact .inl ⟨p, rfl, hp⟩
    · rw [h1]; exact .inr rfl

theorem right_bind {ε α : Type} (f : α → α) (d r : Option (Res ε α)) (h : ∀ x, r = some x → (∃ y, d = some y ∧ BadRes y) ∨ d = some x) :
    ∀ x, (r.bind fun x => some (x.map f)) = some x → (∃ y, (d.bind fun x => some (x.map f)) = some y ∧ BadRes y) ∨
      (d.bind fun x => some (x.map f)) = some x := by
  intro x hx
  cases hr : r with
  | none => rw [hr] at hx; cases hx
  | some y =>
    rw [hr] at hx
    cases hx
    rcases h y hr with ⟨_, h1, p, rfl, hp⟩ | h1
    · rw [h1]; exact .inl ⟨_, rfl, p, rfl, hp⟩
    · rw [h1]; exact .inr rfl

theorem agreeRun_of {ε α : Type} {d r : Option (Res ε α)} (h : (∃ x, d = some x ∧ BadRes x) ∨ r = d) : AgreeRun d r := by
  rcases h with ⟨_, h1, p, rfl, hp⟩ | h1
  · exact .inl ⟨p, h1, hp⟩
  · exact .inr h1

theorem readFrom_agree (get : Cid → Option Bytes) (v : FileVisit) (hv : RangeFits v.range) : AgreeRun (readFrom get v) (readFromR get v) := by
  refine agreeRun_of (compare_both (fun x hx => ?_) fun x hx => ?_)
  · refine readFrom.partial_correctness get (fun v x => RangeFits v.range → BadRes x ∨ readFromR get v = some x) ?_ v x hx hv
    intro rec ih v x h hv
    rw [readFromR]
    exact readFrom_body (compare_left BadRes) left_bind get (rec := rec) (recR := readFromR get) (fun v hv x h => ih v x h hv) v hv x h
  · refine readFromR.partial_correctness get (fun v x => RangeFits v.range → (∃ y, readFrom get v = some y ∧ BadRes y) ∨ readFrom get v = some x) ?_ v x hx hv
    intro rec ih v x h hv
    rw [readFrom]
    exact readFrom_body (compare_right BadRes) right_bind get (rec := readFrom get) (recR := rec) (fun v hv x h => ih v x h hv) v hv x h

theorem startFromReader_range {self : IdleFileVisit} {fr : FileReader} {cache : Option VisitCache} {r : FileVisitResult} {v : FileVisit}
    (h : (self.startFromReader fr cache).1 = .ok r) (hv : r.next = some v) : v.range = self.range := by
  unfold IdleFileVisit.startFromReader at h
  dsimp only at h
  generalize fr.content = fc at h
  obtain ⟨c, t⟩ := fc
  cases c with
  | Bytes content =>
    dsimp only at h
    cases hm : (maybeTargetSlice content (.mk 0 content.length) self.range : Res FileReadFailed Bytes) with
    | ok c => rw [hm] at h; cases h; cases hv
    | err e => rw [hm] at h; cases h
    | panic p => rw [hm] at h; cases h
  | Links base zipped =>
    dsimp only at h
    cases hc : collectLinks self.range 0 base zipped with
    | ok ps =>
      rw [hc] at h
      dsimp only at h
      split at h
      · cases h; cases hv
      · cases h; cases hv; rfl
    | err e => rw [hc] at h; cases h
    | panic p => rw [hc] at h; cases h

theorem start_range {self : IdleFileVisit} {b : Bytes} {r : FileVisitResult} {v : FileVisit}
    (h : self.start b = .ok r) (hv : r.next = some v) : v.range = self.range := by
  unfold IdleFileVisit.start at h
  cases hf : FileReader.fromBlock b with
  | ok fr => rw [hf] at h; exact startFromReader_range h hv
  | err e => rw [hf] at h; cases h
  | panic p => rw [hf] at h; cases h

theorem readFile_agree (get : Cid → Option Bytes) (idle : IdleFileVisit) (h : RangeFits idle.range) (root : Bytes) :
    AgreeRun (readFile get idle root) (readFileR get idle root) := by
  unfold readFile readFileR
  rcases start_agree h root with ⟨p, h1, h2⟩ | h1
  · rw [h1]; exact .inl ⟨p, rfl, h2⟩
  rw [h1]
  have hr := fun r v (hs : idle.start root = .ok r) (hv : r.next = some v) => start_range hs hv
  generalize idle.start root = s at hr
  cases s with
  | panic p => exact .rfl
  | err e => exact .rfl
  | ok r =>
    obtain ⟨content, sz, md, v⟩ := r
    cases v with
    | none => exact .rfl
    | some v =>
      dsimp only
      have hv : v.range = idle.range := hr _ v rfl rfl
      rcases readFrom_agree get v (hv ▸ h) with ⟨p, h1, h2⟩ | h1
      · rw [h1]; exact .inl ⟨p, rfl, h2⟩
      · rw [h1]; exact .rfl

/-! ### Walking -/

/-- File visits of a walker have no target range. -/
def Walker.Unranged (w : Walker) : Prop := ∀ ie v sz, w.current = some ie → ie.kind = .File (some v) sz → v.range = none

theorem Walker.Unranged.fits {w : Walker} (h : w.Unranged) : w.Fits := by
  intro ie v sz h1 h2 t ht
  rw [h ie v sz h1 h2] at ht
  cases ht

theorem unranged_new (cid : Cid) (name : Bytes) : (Walker.new cid name).Unranged := by
  intro ie v sz h
  cases h

theorem setPath_kind' {ε : Type} {ie ie' : InnerEntry} {name : Bytes} {depth : Nat} (h : (ie.setPath name depth : Res ε InnerEntry) = .ok ie') :
    ie'.kind = ie.kind := by
  unfold InnerEntry.setPath at h
  by_cases h1 : ie.depth ≠ ie.path.ancestorsCount
  · rw [if_pos h1] at h; cases h
  rw [if_neg h1] at h
  cases hp : (popWhileGe depth ie.depth ie.path : Res ε PathBuf) with
  | ok p =>
    rw [hp, Res.bind_ok] at h
    dsimp only at h
    split at h
    · cases h
    · cases h; rfl
  | err e => rw [hp] at h; cases h
  | panic p => rw [hp] at h; cases h

theorem asKind_kind' {ε : Type} {ie ie' : InnerEntry} {k : InnerKind} {c : Cid} {name : Bytes} {depth : Nat} {md : Metadata}
    (h : (ie.asKind k c name depth md : Res ε InnerEntry) = .ok ie') : ie'.kind = k := by
  have key : ({ ie with cid := c, kind := k }.setPath name depth >>= fun ie => (.ok { ie with metadata := md } : Res ε InnerEntry)) = .ok ie' → ie'.kind = k := by
    intro h
    cases hs : ({ ie with cid := c, kind := k }.setPath name depth : Res ε InnerEntry) with
    | ok i => rw [hs] at h; cases h; exact setPath_kind' hs
    | err e => rw [hs] at h; cases h
    | panic p => rw [hs] at h; cases h
  unfold InnerEntry.asKind at h
  cases hk : ie.kind with
  | File v s =>
    cases v with
    | none => rw [hk] at h; exact key h
    | some v => rw [hk] at h; cases h
  | _ => rw [hk] at h; exact key h

theorem popNext_current' (ie : Option InnerEntry) (pending : List WalkLink) : (Walker.popNext ie pending).current = ie := by
  unfold Walker.popNext
  split <;> rfl

theorem step_unranged {w w' : Walker} {b : Bytes} {cache cache' : Option VisitCache} {item : ContinuedWalk} (hw : w.Unranged)
    (h : w.step b cache = (.ok item, w', cache')) : w'.Unranged := by
  have key : w.nextBlock b cache = (.ok item, w', cache') → w'.Unranged := by
    intro h
    have dir : ∀ links convert (enter : WalkLink → Res WalkError (InnerEntry × ContinuedWalk)),
        (∀ n ie x, enter n = .ok (ie, x) → ∀ v sz, ie.kind ≠ .File v sz) → w.nextDir links convert enter cache = (.ok item, w', cache') → w'.Unranged := by
      intro links convert enter he h
      unfold Walker.nextDir at h
      cases hn : w.next with
      | none => rw [hn] at h; cases h
      | some n =>
        rw [hn] at h
        dsimp only at h
        generalize pushLinks (convert n.depth) links.zipIdx.reverse w.pending = a at h
        obtain ⟨a, pending⟩ := a
        cases a with
        | panic p => cases h
        | err e => cases h
        | ok u =>
          dsimp only at h
          cases hx : enter n with
          | panic p => rw [hx] at h; cases h
          | err e => rw [hx] at h; cases h
          | ok q =>
            obtain ⟨ie, x⟩ := q
            rw [hx] at h
            cases h
            intro ie' v sz h1 h2
            rw [popNext_current'] at h1
            cases h1
            exact absurd h2 (he n _ _ hx _ _)
    unfold Walker.nextBlock at h
    dsimp only at h
    cases hp : FlatUnixFs.tryParse b with
    | error e => rw [hp] at h; cases h
    | ok m =>
      rw [hp] at h
      dsimp only at h
      have file : w.nextFirst m cache = (.ok item, w', cache') → w'.Unranged := by
        intro h
        unfold Walker.nextFirst at h
        have hr := fun fr r v (hs : (IdleFileVisit.startFromReader {} fr cache).1 = .ok r) (hv : r.next = some v) => startFromReader_range hs hv
        cases hs : IdleFileVisit.startFromParsed {} m cache with
        | mk s1 s2 =>
          rw [hs] at h
          cases s1 with
          | panic p => cases h
          | err e =>
            dsimp only at h
            cases e <;> cases h
          | ok r =>
            dsimp only at h
            cases hn : w.next with
            | none => rw [hn] at h; cases h
            | some n =>
              rw [hn] at h
              dsimp only at h
              cases hl : w.enterLeaf (.File r.next r.total_size) r.metadata n with
              | panic p => rw [hl] at h; cases h
              | err e => rw [hl] at h; cases h
              | ok ie =>
                rw [hl] at h
                cases h
                intro ie' v sz h1 h2
                rw [show _ = (Walker.popNext (some ie) w.pending).current from rfl, popNext_current'] at h1
                cases h1
                have hk : ie.kind = .File r.next r.total_size := by
                  unfold Walker.enterLeaf at hl
                  cases hc : w.current with
                  | none => rw [hc] at hl; cases hl; rfl
                  | some i => rw [hc] at hl; exact asKind_kind' hl
                rw [hk] at h2
                injection h2 with h3 h4
                unfold IdleFileVisit.startFromParsed at hs
                cases hf : FileReader.fromParsed m with
                | ok fr => rw [hf] at hs; exact hr fr r v (congrArg Prod.fst hs) h3
                | err e => rw [hf] at hs; cases hs
                | panic p => rw [hf] at hs; cases hs
      generalize hT : m.data.Ty = T at h
      cases T with
      | Directory =>
        dsimp only at h
        cases hd : checkDirectorySupported m with
        | error e => rw [hd] at h; cases h
        | ok m' =>
          rw [hd] at h
          refine dir _ _ _ (fun n ie x he v sz hk => ?_) h
          unfold Walker.enterDirectory at he
          cases hc : w.current with
          | none => rw [hc] at he; cases he; cases hk
          | some i =>
            rw [hc] at he
            dsimp only at he
            cases hi : (i.asKind .Directory n.cid n.name n.depth (Metadata.ofUnixFs m.data) : Res WalkError InnerEntry) with
            | ok i' => rw [hi] at he; cases he; rw [asKind_kind' hi] at hk; cases hk
            | err e => rw [hi] at he; cases he
            | panic p => rw [hi] at he; cases he
      | HAMTShard =>
        dsimp only at h
        cases hd : checkHamtshardSupported m with
        | panic p => rw [hd] at h; cases h
        | err e => rw [hd] at h; cases h
        | ok m' =>
          rw [hd] at h
          refine dir _ _ _ (fun n ie x he v sz hk => ?_) h
          unfold Walker.enterShard at he
          cases hc : w.current with
          | none => rw [hc] at he; cases he; cases hk
          | some i =>
            rw [hc] at he
            dsimp only at he
            split at he
            · cases hi : (i.asBucket n.cid n.depth : Res WalkError InnerEntry) with
              | ok i' =>
                rw [hi] at he
                cases he
                unfold InnerEntry.asBucket at hi
                repeat' split at hi
                all_goals first | cases hi | skip
                · rename_i hb _
                  rw [hk] at hb; cases hb
                all_goals
                  cases hp : (popWhileGt n.depth i.depth i.path : Res WalkError (Nat × PathBuf)) with
                  | ok q =>
                    rw [hp, Res.bind_ok] at hi
                    dsimp only at hi
                    split at hi
                    · cases hi
                    · cases hi; cases hk
                  | err e => rw [hp] at hi; cases hi
                  | panic p => rw [hp] at hi; cases hi
              | err e => rw [hi] at he; cases he
              | panic p => rw [hi] at he; cases he
            · cases hi : (i.asKind .RootBucket n.cid n.name n.depth (Metadata.ofUnixFs m.data) : Res WalkError InnerEntry) with
              | ok i' => rw [hi] at he; cases he; rw [asKind_kind' hi] at hk; cases hk
              | err e => rw [hi] at he; cases he
              | panic p => rw [hi] at he; cases he
      | Raw => exact file h
      | File => exact file h
      | Metadata => cases h
      | Symlink =>
        dsimp only at h
        unfold Walker.nextSymlink at h
        dsimp only at h
        cases hn : w.next with
        | none => rw [hn] at h; cases h
        | some n =>
          rw [hn] at h
          dsimp only at h
          cases hl : w.enterLeaf .Symlink (Metadata.ofUnixFs m.data) n with
          | panic p => rw [hl] at h; cases h
          | err e => rw [hl] at h; cases h
          | ok ie =>
            rw [hl] at h
            cases h
            intro ie' v sz h1 h2
            rw [popNext_current'] at h1
            cases h1
            have hk : ie.kind = .Symlink := by
              unfold Walker.enterLeaf at hl
              cases hc : w.current with
              | none => rw [hc] at hl; cases hl; rfl
              | some i => rw [hc] at hl; exact asKind_kind' hl
            rw [hk] at h2
            cases h2
  unfold Walker.step at h
  split at h
  · rename_i v sz _ _ _ hc
    unfold Walker.nextFile at h
    have hr : ∀ c v', (v.continueWalk b cache).1 = .ok (c, some v') → v'.range = v.range := fun _ _ h => continueWalk_range h
    cases hs : v.continueWalk b cache with
    | mk s1 s2 =>
      rw [hs] at h hr
      cases s1 with
      | panic p => cases h
      | err e =>
        dsimp only at h
        cases e <;> cases h
      | ok q =>
        obtain ⟨content, st⟩ := q
        dsimp only at h
        cases h
        intro ie' v' sz' h1 h2
        cases h1
        injection h2 with h3 h4
        subst h3
        rw [hr content v' rfl]
        exact hw _ _ _ hc rfl
  · exact key h

theorem walkFrom_body {P : Option (Res WalkFail (List ContinuedWalk)) → Option (Res WalkFail (List ContinuedWalk)) → Prop}
    (hP : Comparison BadRes P) (hb : ∀ (f : List ContinuedWalk → List ContinuedWalk) d r, P d r →
      P (d.bind fun x => some (x.map f)) (r.bind fun x => some (x.map f)))
    (get : Cid → Option Bytes) {rec recR : Walker → Option VisitCache → Option (Res WalkFail (List ContinuedWalk))}
    (h : ∀ w cache, w.Unranged → P (rec w cache) (recR w cache)) (w : Walker) (cache : Option VisitCache) (hw : w.Unranged) :
    P (if w.shouldContinue = false then some (.ok [])
      else match w.pendingLinks with
      | .panic p => some (.panic p)
      | .err () => some (.err .noLinks)
      | .ok (first, _) =>
        match get first with
        | none => some (.err (.missing first))
        | some block =>
          match w.step block cache with
          | (.panic p, _, _) => some (.panic p)
          | (.err e, _, _) => some (.err (.failed e))
          | (.ok item, w', cache') => do
            let r ← rec w' cache'
            some (r.map (fun items => item :: items)))
      (if w.shouldContinue = false then some (.ok [])
      else match w.pendingLinks with
      | .panic p => some (.panic p)
      | .err () => some (.err .noLinks)
      | .ok (first, _) =>
        match get first with
        | none => some (.err (.missing first))
        | some block =>
          match w.stepR block cache with
          | (.panic p, _, _) => some (.panic p)
          | (.err e, _, _) => some (.err (.failed e))
          | (.ok item, w', cache') => do
            let r ← recR w' cache'
            some (r.map (fun items => item :: items))) := by
  by_cases hc : w.shouldContinue = false
  · rw [if_pos hc, if_pos hc]; exact hP.refl _
  rw [if_neg hc, if_neg hc]
  cases w.pendingLinks with
  | panic p => exact hP.refl _
  | err e => exact hP.refl _
  | ok q =>
    obtain ⟨first, rest⟩ := q
    dsimp only
    cases get first with
    | none => exact hP.refl _
    | some block =>
      dsimp only
      have hs := step_agree hw.fits block cache
      have hr : ∀ item w' cache', w.step block cache = (.ok item, w', cache') → w'.Unranged := fun _ _ _ h => step_unranged hw h
      generalize w.step block cache = s at hs hr
      generalize w.stepR block cache = sR at hs
      rcases hs with ⟨p, h1, h2⟩ | rfl
      · obtain ⟨s1, s2, s3⟩ := s
        dsimp only at h1
        subst h1
        exact hP.bad _ _ ⟨p, rfl, h2⟩
      · obtain ⟨s1, s2, s3⟩ := sR
        cases s1 with
        | panic p => exact hP.refl _
        | err e => exact hP.refl _
        | ok item => exact hb _ _ _ (h s2 s3 (hr _ _ _ rfl))

theorem walkFrom_agree (get : Cid → Option Bytes) (w : Walker) (cache : Option VisitCache) (hw : w.Unranged) :
    AgreeRun (walkFrom get w cache) (walkFromR get w cache) := by
  refine agreeRun_of (compare_both (fun x hx => ?_) fun x hx => ?_)
  · refine walkFrom.partial_correctness get (fun w cache x => w.Unranged → BadRes x ∨ walkFromR get w cache = some x) ?_ w cache x hx hw
    intro rec ih w cache x h hw
    rw [walkFromR]
    exact walkFrom_body (compare_left BadRes) left_bind get (rec := rec) (recR := walkFromR get) (fun w c hw x h => ih w c x h hw) w cache hw x h
  · refine walkFromR.partial_correctness get (fun w cache x => w.Unranged → (∃ y, walkFrom get w cache = some y ∧ BadRes y) ∨ walkFrom get w cache = some x) ?_ w cache x hx hw
    intro rec ih w cache x h hw
    rw [walkFrom]
    exact walkFrom_body (compare_right BadRes) right_bind get (rec := walkFrom get) (recR := rec) (fun w c hw x h => ih w c x h hw) w cache hw x h

end Verif
