import Verif.VisitArb
import Verif.Props.Adder
import Verif.Spec.Panics
/-
Properties C18-C20, C22-C28 and C46 (file visits): reading files.

`readFile get idle root` is the documented loop of a client which starts `idle` on block `root`, fetches the Cid named
first by `pending_links` from the store `get`, and continues until the visit is over; `some (.ok (bytes, cids))` says that
it terminates without error or panic, having produced `bytes` and fetched `cids`.
`FileAt get t b`: block `b` is the root of a well-formed file of (arbitrary) tree shape `t`, with blocks in `get`.
`Visiting target root ls v`: any history of successful calls with arbitrary blocks; `ls` are the leaves met.
-/
namespace Verif.Props
open Verif Verif.Spec

/-! ### samples -/

/-- An unbalanced tree of five bytes. -/
def sampleTree : FTree := FTree.node [FTree.leaf [1, 2], FTree.node [FTree.leaf [3], FTree.leaf [4, 5]]]

/-- A store with the blocks of the given trees. -/
def storeOf (ts : List FTree) : Cid → Option Bytes := fun c =>
  ((ts.map (FTree.entry toySha)).find? (fun e => e.1 == c)).map (·.2)

theorem sample_fileAt : FileAt (storeOf sampleTree.nodes) sampleTree (sampleTree.block toySha) := by
  apply fileAt_tree toySha_length
  · decide +kernel
  · decide +kernel
  · intro s hs ts he
    simp only [sampleTree, FTree.nodes, FTree.nodesL, List.cons_append, List.nil_append, List.append_nil, List.mem_cons,
      List.not_mem_nil, or_false] at hs
    rcases hs with rfl | rfl | rfl | rfl | rfl <;> cases he <;> simp

/-! ### C18 -/

/-- Any well-formed file reads back its content, whatever the shape of its tree. -/
theorem C18_read_wellformed (get : Cid → Option Bytes) (t : FTree) (root : Bytes) (h : FileAt get t root) :
    ∃ cids, readFile get {} root = some (.ok (t.content, cids)) :=
  ⟨_, readFile_eq get t root h none⟩

/-- Adding any content and reading the last emitted block returns the content. -/
theorem C18_add_then_read (sha : Bytes → Bytes) (hsha : ∀ b, (sha b).length = 32) (c bf : Nat) (hc : 0 < c) (hbf : 0 < bf)
    (x : Bytes) (blocks : List (Cid × Bytes)) (h : Adds sha c bf x blocks) (hsmall : BelowLimit blocks)
    (get : Cid → Option Bytes) (hget : Holds get blocks) :
    ∃ root cids, blocks.getLast? = some root ∧ readFile get {} root.2 = some (.ok (x, cids)) := by
  obtain ⟨T, hh, f⟩ := adds_facts hc hbf h
  have hat := f.fileAt hsha hsmall hget
  refine ⟨T.entry sha, reqs get none T (T.block sha) 0, ?_, ?_⟩
  · rw [f.blocks, List.getLast?_map, f.em.last]; rfl
  · have := readFile_eq get T _ hat none
    simpa [sliceAt, f.content, FTree.entry] using this

example : ∃ cids, readFile (storeOf sampleTree.nodes) {} (sampleTree.block toySha) = some (.ok ([1, 2, 3, 4, 5], cids)) :=
  C18_read_wellformed _ _ _ sample_fileAt

/-! ### C19 -/

/-- C19. Reading with a target range returns the bytes of the content in the range, whatever the shape of the tree. -/
theorem C19_ranged_read (get : Cid → Option Bytes) (t : FTree) (root : Bytes) (h : FileAt get t root) (r : Rng) :
    ∃ cids, readFile get (IdleFileVisit.withTargetRange {} r) root = some (.ok (slice t.content r, cids)) := by
  have := readFile_eq get t root h (some r)
  exact ⟨_, this⟩

example : ∃ cids, readFile (storeOf sampleTree.nodes) (IdleFileVisit.withTargetRange {} ⟨1, 4⟩) (sampleTree.block toySha) =
    some (.ok ([2, 3, 4], cids)) := C19_ranged_read _ _ _ sample_fileAt ⟨1, 4⟩

/-- C19, put together: reading two adjacent ranges one after the other gives the bytes of the whole range, so a client may fetch a
file in parts, in any division. -/
theorem C19_tile (get : Cid → Option Bytes) (t : FTree) (root : Bytes) (h : FileAt get t root) (a b c : Nat) (hab : a ≤ b) (hbc : b ≤ c) :
    ∃ x y p q r, readFile get (IdleFileVisit.withTargetRange {} ⟨a, b⟩) root = some (.ok (x, p)) ∧
      readFile get (IdleFileVisit.withTargetRange {} ⟨b, c⟩) root = some (.ok (y, q)) ∧
      readFile get (IdleFileVisit.withTargetRange {} ⟨a, c⟩) root = some (.ok (x ++ y, r)) := by
  obtain ⟨p, hp⟩ := C19_ranged_read get t root h ⟨a, b⟩
  obtain ⟨q, hq⟩ := C19_ranged_read get t root h ⟨b, c⟩
  obtain ⟨r, hr⟩ := C19_ranged_read get t root h ⟨a, c⟩
  refine ⟨_, _, p, q, r, hp, hq, ?_⟩
  rw [hr]
  have : slice t.content ⟨a, c⟩ = slice t.content ⟨a, b⟩ ++ slice t.content ⟨b, c⟩ := by
    simp only [slice, List.drop_take]
    rw [← List.take_append_drop (b - a) ((t.content.drop a).take (c - a)), List.take_take, List.drop_take, List.drop_drop,
      Nat.min_eq_left (by omega), Nat.add_sub_cancel' hab, show c - a - (b - a) = c - b by omega]
  rw [this]

example : ∃ x y p q r, readFile (storeOf sampleTree.nodes) (IdleFileVisit.withTargetRange {} ⟨1, 3⟩) (sampleTree.block toySha) = some (.ok (x, p)) ∧
    readFile (storeOf sampleTree.nodes) (IdleFileVisit.withTargetRange {} ⟨3, 9⟩) (sampleTree.block toySha) = some (.ok (y, q)) ∧
    readFile (storeOf sampleTree.nodes) (IdleFileVisit.withTargetRange {} ⟨1, 9⟩) (sampleTree.block toySha) = some (.ok (x ++ y, r)) :=
  C19_tile _ _ _ sample_fileAt 1 3 9 (by decide) (by decide)

/-- `slice` is what a byte-wise reading of `[s, e)` gives. -/
theorem slice_getElem? (x : Bytes) (r : Rng) (k : Nat) :
    (slice x r)[k]? = if r.lo + k < r.hi then x[r.lo + k]? else none := by
  simp [slice, List.getElem?_take]

/-! ### C20 -/

/-- The size reported at the start is the one declared by the root block. -/
theorem C20_start_size (target : Option Rng) (root : Bytes) (r : FileVisitResult)
    (h : (IdleFileVisit.mk target).start root = .ok r) :
    ∃ m, FlatUnixFs.tryParse root = .ok m ∧ m.data.filesize = some r.total_size ∧
      ∀ v, r.next = some v → v.fileSize = r.total_size := by
  obtain ⟨m, fs, hm, ha, h1, h2⟩ := start_ok h
  refine ⟨m, hm, ?_, ?_⟩
  · by_cases hl : m.links = []
    · rw [h1 hl]; exact ha.filesize
    · obtain ⟨ps, -, rfl⟩ := h2 hl; exact ha.filesize
  · intro v hv
    by_cases hl : m.links = []
    · rw [h1 hl] at hv; simp at hv
    · obtain ⟨ps, -, rfl⟩ := h2 hl
      simp only at hv
      split at hv
      · cases hv
      · cases hv; rfl

/-- For a well-formed file the reported size is the length of the content, with or without a range. -/
theorem C20_start_wellformed (get : Cid → Option Bytes) (t : FTree) (root : Bytes) (h : FileAt get t root) (target : Option Rng) :
    ∃ r, (IdleFileVisit.mk target).start root = .ok r ∧ r.total_size = t.content.length := by
  have hr := readFile_eq get t root h target
  unfold readFile at hr
  split at hr
  · cases hr
  · cases hr
  all_goals
    next hs =>
    refine ⟨_, hs, ?_⟩
    obtain ⟨m, hm, hf, -⟩ := C20_start_size _ _ _ hs
    cases t with
    | leaf d =>
      simp only [FileAt] at h
      obtain ⟨m', hm', -, -, -, -, hf'⟩ := h
      rw [hm] at hm'; cases hm'
      rw [hf] at hf'; cases hf'; rfl
    | node ts =>
      simp only [FileAt] at h
      obtain ⟨m', hm', -, -, -, hf', -⟩ := h
      rw [hm] at hm'; cases hm'
      rw [hf] at hf'; cases hf'; rfl

/-- The documented behaviour of `FileVisit::file_size`: the total size of the file at every step. -/
def C20_full : Prop := ∀ (get : Cid → Option Bytes) (t : FTree) (root : Bytes), FileAt get t root →
  ∀ ls v, Visiting none root ls v → v.fileSize = t.content.length

/-- What it really returns after a step: the size declared by the block given last. -/
theorem C20_later_steps_partial (v v' : FileVisit) (block c : Bytes) (cache : Option VisitCache)
    (h : (v.continueWalk block cache).1 = .ok (c, some v')) :
    ∃ m, FlatUnixFs.tryParse block = .ok m ∧ m.data.filesize = some v'.fileSize := by
  obtain ⟨P, cid, i, m, fs, -, -, hm, -, ha, h1, h2⟩ := continueWalk_ok h
  refine ⟨m, hm, ?_⟩
  by_cases hl : m.links = []
  · have := (h1 hl).2
    split at this
    · cases this
    · cases this; exact ha.filesize
  · obtain ⟨-, ps, -, this⟩ := h2 hl
    cases this; exact ha.filesize

/-- The value after starting at the sample tree's root and giving it the first requested block. -/
theorem sample_step : ∃ v v' c, (IdleFileVisit.mk none).start (sampleTree.block toySha) = .ok ⟨[], 5, {}, some v⟩ ∧
    (v.continueWalk ((FTree.leaf [1, 2]).block toySha) none).1 = .ok (c, some v') ∧ v'.fileSize = 2 := by
  refine ⟨(match (IdleFileVisit.mk none).start (sampleTree.block toySha) with
      | .ok ⟨_, _, _, some v⟩ => v | _ => ⟨[], none, ⟨.Chunk 0, 0, 0, {}⟩⟩), ?_⟩
  refine ⟨(match ((match (IdleFileVisit.mk none).start (sampleTree.block toySha) with
      | .ok ⟨_, _, _, some v⟩ => v | _ => ⟨[], none, ⟨.Chunk 0, 0, 0, {}⟩⟩ : FileVisit).continueWalk
        ((FTree.leaf [1, 2]).block toySha) none).1 with
      | .ok (_, some v) => v | _ => ⟨[], none, ⟨.Chunk 0, 0, 0, {}⟩⟩), [1, 2], ?_⟩
  decide +kernel

theorem C20_full_false : ¬ C20_full := by
  intro hall
  obtain ⟨v, v', c, h1, h2, h3⟩ := sample_step
  have hm : FlatUnixFs.tryParse ((FTree.leaf [1, 2]).block toySha) = .ok (FTree.msg toySha (FTree.leaf [1, 2])) := by
    decide +kernel
  obtain ⟨P, cid, i, m, fs, hp, -⟩ := continueWalk_ok h2
  have := hall _ _ _ sample_fileAt _ v' (.leaf (.start h1 rfl) h2 hm rfl (i := i)
    (by simp [nextInterval, hp]) (by rfl))
  rw [h3] at this
  revert this
  decide

/-! ### C22 -/

/-- A read asks, in file order and once each, for exactly the blocks below the root whose interval touches the range. -/
theorem C22_requests (get : Cid → Option Bytes) (t : FTree) (root : Bytes) (h : FileAt get t root) (r : Rng) :
    ∃ bytes, readFile get (IdleFileVisit.withTargetRange {} r) root =
      some (.ok (bytes, ((below get t root 0).filter (fun p => touches r p.2)).map (·.1))) :=
  ⟨_, readFile_eq get t root h (some r)⟩

/-- Without a range every block is asked for. -/
theorem C22_requests_all (get : Cid → Option Bytes) (t : FTree) (root : Bytes) (h : FileAt get t root) :
    ∃ bytes, readFile get {} root = some (.ok (bytes, (below get t root 0).map (·.1))) := by
  have := readFile_eq get t root h none
  exact ⟨t.content, by
    rw [this, reqs, List.filter_eq_self.2 (by intros; rfl)]; rfl⟩

theorem touches_iff (r i : Rng) (h : i.lo ≤ i.hi) : touches r i = true ↔ ∃ p, r.lo ≤ p ∧ p ≤ r.hi ∧ i.lo ≤ p ∧ p ≤ i.hi := by
  simp only [touches, decide_eq_true_eq]
  constructor
  · intro h; exact ⟨max r.lo i.lo, by omega, by omega, by omega, by omega⟩
  · rintro ⟨p, h⟩; omega

/-- Four blocks below the sample's root; the range `3..4` touches three of them: the first leaf is not fetched. -/
example : ((below (storeOf sampleTree.nodes) sampleTree (sampleTree.block toySha) 0).filter (fun p => touches ⟨3, 4⟩ p.2)).map (·.2)
    = [⟨2, 5⟩, ⟨2, 3⟩, ⟨3, 5⟩] := by decide +kernel

/-! ### C23 -/

theorem contiguous_append {o : Nat} {ls : List Leaf} {l : Leaf} (h : Contiguous o ls) (hl : l.start = endOf o ls) :
    Contiguous o (ls ++ [l]) := by
  induction ls generalizing o with
  | nil => simpa [Contiguous, endOf] using hl
  | cons a ls ih =>
    obtain ⟨h1, h2⟩ := h
    refine ⟨h1, ih h2 ?_⟩
    rw [hl, endOf, h1]

theorem forward_append {o : Nat} {ls : List Leaf} {l : Leaf} (h : Forward o ls) (hl : endOf o ls ≤ l.start) :
    Forward o (ls ++ [l]) := by
  induction ls generalizing o with
  | nil => exact ⟨hl, trivial⟩
  | cons a ls ih => exact ⟨h.1, ih h.2 hl⟩

theorem endOf_append (o : Nat) (ls : List Leaf) (l : Leaf) : endOf o (ls ++ [l]) = l.start + l.size := by
  induction ls generalizing o with
  | nil => rfl
  | cons a ls ih => exact ih _

theorem nextInterval_eq {v : FileVisit} {P : List Pending} {cid : Cid} {i i' : Rng} (hp : v.pending = P ++ [(cid, i')])
    (hi : nextInterval v = some i) : i' = i := by simpa [nextInterval, hp] using hi

/-- Where a visit accepts to go on. -/
theorem visiting_inv {target : Option Rng} {root : Bytes} {ls : List Leaf} {v : FileVisit} (h : Visiting target root ls v) :
    Forward 0 ls ∧ v.range = target ∧ (∀ p ∈ v.pending, p.2.lo ≤ p.2.hi ∧ p.2.hi < U64) ∧
    (v.state.last_ending = .Chunk (endOf 0 ls) ∨ ∃ e, v.state.last_ending = .TreeCoverage e ∧ endOf 0 ls ≤ v.state.last_offset) := by
  induction h with
  | start hs hn =>
    obtain ⟨m, fs, hm, ha, h1, h2⟩ := start_ok hs
    by_cases hl : m.links = []
    · rw [h1 hl] at hn; simp at hn
    · obtain ⟨ps, hps, rfl⟩ := h2 hl
      simp only at hn
      split at hn
      · cases hn
      · cases hn
        refine ⟨trivial, rfl, ?_, .inr ⟨_, rfl, Nat.le_refl _⟩⟩
        intro p hp
        exact (collectLinks_bounds _ _ _ _ hps p (by simpa using hp)).2
  | link _ hc hm hl ih =>
    obtain ⟨ih1, ih2, ih3, ih4⟩ := ih
    obtain ⟨P, cid, i, m', fs, hp, hs, hm', -, ha, -, h2⟩ := continueWalk_ok hc
    rw [hm] at hm'; cases hm'
    obtain ⟨-, ps, hps, hv⟩ := h2 hl
    cases hv
    refine ⟨ih1, ih2, ?_, .inr ⟨_, rfl, ?_⟩⟩
    · intro p hp'
      rcases List.mem_append.1 hp' with hp' | hp'
      · exact ih3 p (by rw [hp]; simp [hp'])
      · exact (collectLinks_bounds _ _ _ _ hps p (by simpa using hp')).2
    · rcases suitable_next hs with ⟨e, h, h'⟩ | ⟨e, h, h'⟩
      · rcases ih4 with h4 | ⟨e', h4, h5⟩
        · rw [h] at h4; cases h4; simp only; omega
        · rw [h] at h4; cases h4
      · rcases ih4 with h4 | ⟨e', h4, h5⟩
        · rw [h] at h4; cases h4
        · simp only; omega
  | @leaf ls0 _ _ _ _ _ _ _ _ _ hc hm hl hi hn ih =>
    obtain ⟨ih1, ih2, ih3, ih4⟩ := ih
    obtain ⟨P, cid, i', m', fs, hp, hs, hm', -, ha, h1, -⟩ := continueWalk_ok hc
    rw [hm] at hm'; cases hm'
    rw [ha.filesize] at hn; cases hn
    have hv := (h1 hl).2
    split at hv
    · cases hv
    · cases hv
      have := nextInterval_eq hp hi
      subst this
      have hle : endOf 0 ls0 ≤ i'.lo := by
        rcases suitable_next hs with ⟨e, h, h'⟩ | ⟨e, h, h'⟩
        · rcases ih4 with h4 | ⟨e', h4, h5⟩
          · rw [h] at h4; cases h4; omega
          · rw [h] at h4; cases h4
        · rcases ih4 with h4 | ⟨e', h4, h5⟩
          · rw [h] at h4; cases h4
          · omega
      refine ⟨forward_append ih1 hle, ih2, ?_, .inl ?_⟩
      · intro p hp'
        exact ih3 p (by rw [hp]; simp [hp'])
      · rw [endOf_append]

/-- With or without a range, over arbitrary blocks: leaves are accepted only in increasing, non-overlapping order, and
after a leaf only a block starting exactly at the leaf's end is accepted. -/
theorem C23_forward (target : Option Rng) (root : Bytes) (ls : List Leaf) (v : FileVisit) (h : Visiting target root ls v) :
    Forward 0 ls := (visiting_inv h).1

theorem C23_after_leaf (target : Option Rng) (root : Bytes) (ls : List Leaf) (v v' : FileVisit) (block c : Bytes)
    (cache cache' : Option VisitCache) (m : FlatUnixFs) (i j : Rng) (n : Nat) (_h : Visiting target root ls v)
    (hc : (v.continueWalk block cache).1 = .ok (c, some v')) (hm : FlatUnixFs.tryParse block = .ok m) (hl : m.links = [])
    (hi : nextInterval v = some i) (hn : m.data.filesize = some n) (hj : nextInterval v' = some j) (hne : j.lo ≠ i.lo + n) :
    ∀ block', (v'.continueWalk block' cache').1 = .err (.File .TreeJumpsBetweenLinks) := by
  intro block'
  obtain ⟨P, cid, i', m', fs, hp, -, hm', -, ha, h1, -⟩ := continueWalk_ok hc
  rw [hm] at hm'; cases hm'
  rw [ha.filesize] at hn; cases hn
  have hv := (h1 hl).2
  split at hv
  · cases hv
  · cases hv
    have := nextInterval_eq hp hi
    subst this
    unfold nextInterval at hj
    simp only at hj
    cases hP : P.getLast? with
    | none => simp [hP] at hj
    | some p =>
      simp only [hP, Option.map_some, Option.some.injEq] at hj
      subst hj
      obtain ⟨pc, pi⟩ := p
      simp only at hne
      simp only [FileVisit.continueWalk, hP, Traversal.continueWalk, Ending.checkIsSuitableNext]
      rw [if_pos hne]

/-- Without a range there are no holes either: the leaves accepted so far are consecutive from offset 0, each starting at
the sum of the sizes declared by its predecessors. -/
theorem C23_contiguous (root : Bytes) (ls : List Leaf) (v : FileVisit) (h : Visiting none root ls v) :
    Contiguous 0 ls ∧ v.pending ≠ [] ∧ ∀ block cache c next, (v.continueWalk block cache).1 = .ok (c, next) →
      (nextInterval v).map (·.lo) = some (endOf 0 ls) := by
  have key : Contiguous 0 ls ∧ v.pending ≠ [] ∧ (v.state.last_ending = .Chunk (endOf 0 ls) ∨
      ∃ e, v.state.last_ending = .TreeCoverage e ∧ (nextInterval v).map (·.lo) = some (endOf 0 ls)) := by
    induction h with
    | start hs hn =>
      obtain ⟨m, fs, hm, ha, h1, h2⟩ := start_ok hs
      by_cases hl : m.links = []
      · rw [h1 hl] at hn; simp at hn
      · obtain ⟨ps, hps, rfl⟩ := h2 hl
        obtain ⟨p, ps', rfl, hlo⟩ := collectLinks_none_head hps (zip_ne_nil hl ha.sizes)
        simp only [List.cons_ne_nil, if_false] at hn
        cases hn
        refine ⟨trivial, by simp, .inr ⟨_, rfl, ?_⟩⟩
        simp [nextInterval, endOf, hlo]
    | link hv hc hm hl ih =>
      obtain ⟨ih1, ih2, ih4⟩ := ih
      have hrange := (visiting_inv hv).2.1
      obtain ⟨P, cid, i, m', fs, hp, hs, hm', -, ha, -, h2⟩ := continueWalk_ok hc
      rw [hm] at hm'; cases hm'
      obtain ⟨-, ps, hps, hv'⟩ := h2 hl
      rw [hrange] at hps
      obtain ⟨p, ps', rfl, hlo⟩ := collectLinks_none_head hps (zip_ne_nil hl ha.sizes)
      cases hv'
      refine ⟨ih1, by simp, .inr ⟨_, rfl, ?_⟩⟩
      simp only [nextInterval, List.reverse_cons, ← List.append_assoc, List.getLast?_append, List.getLast?_singleton,
        Option.some_or, Option.map_some, hlo]
      congr 1
      rcases suitable_next hs with ⟨e, h, h'⟩ | ⟨e, h, h'⟩
      · rcases ih4 with h4 | ⟨e', h4, h5⟩
        · rw [h] at h4; cases h4; exact h'
        · rw [h] at h4; cases h4
      · rcases ih4 with h4 | ⟨e', h4, h5⟩
        · rw [h] at h4; cases h4
        · simpa [nextInterval, hp] using h5
    | leaf hv hc hm hl hi hn ih =>
      obtain ⟨ih1, ih2, ih4⟩ := ih
      obtain ⟨P, cid, i', m', fs, hp, hs, hm', -, ha, h1, -⟩ := continueWalk_ok hc
      rw [hm] at hm'; cases hm'
      rw [ha.filesize] at hn; cases hn
      have hv := (h1 hl).2
      split at hv
      · cases hv
      next hP =>
        cases hv
        have := nextInterval_eq hp hi
        subst this
        refine ⟨contiguous_append ih1 ?_, hP, .inl (by rw [endOf_append])⟩
        rcases suitable_next hs with ⟨e, h, h'⟩ | ⟨e, h, h'⟩
        · rcases ih4 with h4 | ⟨e', h4, h5⟩
          · rw [h] at h4; cases h4; exact h'
          · rw [h] at h4; cases h4
        · rcases ih4 with h4 | ⟨e', h4, h5⟩
          · rw [h] at h4; cases h4
          · simpa [nextInterval, hp] using h5
  refine ⟨key.1, key.2.1, ?_⟩
  intro block cache c next hc
  obtain ⟨P, cid, i, m', fs, hp, hs, -⟩ := continueWalk_ok hc
  simp only [nextInterval, hp, List.getLast?_append, List.getLast?_singleton, Option.some_or, Option.map_some]
  congr 1
  rcases suitable_next hs with ⟨e, h, h'⟩ | ⟨e, h, h'⟩
  · rcases key.2.2 with h4 | ⟨e', h4, h5⟩
    · rw [h] at h4; cases h4; exact h'
    · rw [h] at h4; cases h4
  · rcases key.2.2 with h4 | ⟨e', h4, h5⟩
    · rw [h] at h4; cases h4
    · simpa [nextInterval, hp] using h5

/-- A visit which has met a leaf and goes on. -/
theorem sample_visiting : ∃ v, Visiting none (sampleTree.block toySha) [⟨0, 2⟩] v := by
  obtain ⟨v, v', c, h1, h2, h3⟩ := sample_step
  have hm : FlatUnixFs.tryParse ((FTree.leaf [1, 2]).block toySha) = .ok (FTree.msg toySha (FTree.leaf [1, 2])) := by
    decide +kernel
  obtain ⟨P, cid, i, m, fs, hp, hs, -⟩ := continueWalk_ok h2
  have hlo := (C23_contiguous _ _ _ (.start h1 rfl)).2.2 _ _ _ _ h2
  simp only [nextInterval, hp, List.getLast?_append, List.getLast?_singleton, Option.some_or, Option.map_some, endOf,
    Option.some.injEq] at hlo
  have := Visiting.leaf (.start h1 rfl) h2 hm rfl (i := i) (n := 2) (by simp [nextInterval, hp]) (by rfl)
  rw [hlo] at this
  exact ⟨v', this⟩

/-! ### C24 -/

/-- At every step of every visit, over arbitrary blocks, the metadata is that of the root block. -/
theorem C24_metadata_of_root (target : Option Rng) (root : Bytes) (ls : List Leaf) (v : FileVisit) (h : Visiting target root ls v) :
    ∃ m, FlatUnixFs.tryParse root = .ok m ∧ v.metadata = metaOf m.data := by
  induction h with
  | start hs hn =>
    obtain ⟨m, fs, hm, ha, h1, h2⟩ := start_ok hs
    refine ⟨m, hm, ?_⟩
    by_cases hl : m.links = []
    · rw [h1 hl] at hn; simp at hn
    · obtain ⟨ps, hps, rfl⟩ := h2 hl
      simp only at hn
      split at hn <;> cases hn
      exact ofUnixFs_eq m.data
  | link _ hc hm hl ih =>
    obtain ⟨m, hm0, hmd⟩ := ih
    obtain ⟨P, cid, i, m', fs, hp, hs, hm', -, ha, -, h2⟩ := continueWalk_ok hc
    rw [hm] at hm'; cases hm'
    obtain ⟨-, ps, hps, hv⟩ := h2 hl
    cases hv
    exact ⟨m, hm0, hmd⟩
  | leaf _ hc hm hl hi hn ih =>
    obtain ⟨m, hm0, hmd⟩ := ih
    obtain ⟨P, cid, i', m', fs, hp, hs, hm', -, ha, h1, -⟩ := continueWalk_ok hc
    rw [hm] at hm'; cases hm'
    have hv := (h1 hl).2
    split at hv
    · cases hv
    · cases hv
      exact ⟨m, hm0, hmd⟩

/-- The metadata returned by `start`, and what is in it. -/
theorem C24_metadata_at_start (target : Option Rng) (root : Bytes) (r : FileVisitResult)
    (h : (IdleFileVisit.mk target).start root = .ok r) :
    ∃ m, FlatUnixFs.tryParse root = .ok m ∧ r.metadata.mode = m.data.mode ∧
      r.metadata.mtime = m.data.mtime.map (fun t => (t.Seconds, t.FractionalNanoseconds.getD 0)) := by
  obtain ⟨m, fs, hm, ha, h1, h2⟩ := start_ok h
  refine ⟨m, hm, ?_⟩
  by_cases hl : m.links = []
  · rw [h1 hl]; exact ⟨rfl, rfl⟩
  · obtain ⟨ps, hps, rfl⟩ := h2 hl; exact ⟨rfl, rfl⟩

/-- A later block with a mode or an mtime is an error at every step. -/
theorem C24_nonroot_rejected (v : FileVisit) (hp : v.pending ≠ []) (block : Bytes) (cache : Option VisitCache) (m : FlatUnixFs)
    (hm : FlatUnixFs.tryParse block = .ok m) (hmeta : m.data.mode ≠ none ∨ m.data.mtime ≠ none) :
    ∃ e, (v.continueWalk block cache).1 = .err (.File e) ∧
      (e = .NonRootDefinesMetadata (metaOf m.data) ∨
        ∃ i, nextInterval v = some i ∧ v.state.last_ending.checkIsSuitableNext v.state.last_offset i = .error e) := by
  unfold FileVisit.continueWalk nextInterval
  cases hP : v.pending.getLast? with
  | none => exact absurd (List.getLast?_eq_none_iff.1 hP) hp
  | some p =>
    obtain ⟨pc, i⟩ := p
    simp only [Traversal.continueWalk]
    cases hck : v.state.last_ending.checkIsSuitableNext v.state.last_offset i with
    | error e => exact ⟨e, rfl, .inr ⟨i, rfl, hck⟩⟩
    | ok u =>
      refine ⟨_, ?_, .inl rfl⟩
      simp only [FileReader.fromContinued, hm]
      rw [← ofUnixFs_eq]
      have hif : m.data.mode.isSome = true ∨ m.data.mtime.isSome = true := by
        rcases hmeta with h | h
        · left; cases hh : m.data.mode with
          | none => exact absurd hh h
          | some _ => rfl
        · right; cases hh : m.data.mtime with
          | none => exact absurd hh h
          | some _ => rfl
      rw [if_pos hif]

/-- A leaf block with a mode. -/
example : ∃ m, FlatUnixFs.tryParse (FlatUnixFs.write { data := { Ty := .File, Data := some [1], filesize := some 1, mode := some 420 } })
    = .ok m ∧ m.data.mode ≠ none :=
  ⟨{ data := { Ty := .File, Data := some [1], filesize := some 1, mode := some 420 } }, by decide +kernel, by decide⟩

/-! ### C25 (file visits) -/

theorem C25_visit_cache (v : FileVisit) (block : Bytes) (c c' : Option VisitCache) :
    (v.continueWalk block c).1 = (v.continueWalk block c').1 ∧
    ∀ k, (v.continueWalk block c).2 = some k → c = some k ∨ CacheObtainable k := by
  unfold FileVisit.continueWalk
  cases v.pending.getLast? with
  | none => exact ⟨rfl, fun k h => .inl h⟩
  | some p =>
    obtain ⟨pc, i⟩ := p
    simp only
    cases v.state.continueWalk block i with
    | err e => exact ⟨rfl, fun k h => .inl h⟩
    | panic q => exact ⟨rfl, fun k h => .inl h⟩
    | ok fr =>
      simp only
      rcases fr.content with ⟨ct, tr⟩
      cases ct with
      | Bytes ct =>
        simp only
        cases maybeTargetSlice (ε := FileReadFailed) ct i v.range with
        | ok b =>
          simp only
          split
          · exact ⟨rfl, fun k h => .inl h⟩
          · exact ⟨rfl, fun k h => .inr (.inr ⟨_, (Option.some.inj h).symm⟩)⟩
        | err e => exact ⟨rfl, fun k h => .inl h⟩
        | panic q => exact ⟨rfl, fun k h => .inl h⟩
      | Links base z =>
        simp only
        cases collectLinks v.range 0 base z with
        | ok ps => exact ⟨rfl, fun k h => .inl h⟩
        | err e => exact ⟨rfl, fun k h => .inl h⟩
        | panic q => exact ⟨rfl, fun k h => .inl h⟩

theorem C25_start_cache (idle : IdleFileVisit) (m : FlatUnixFs) (c c' : Option VisitCache)
    (h : ∀ k, c = some k → CacheObtainable k) (h' : ∀ k, c' = some k → CacheObtainable k) :
    (idle.startFromParsed m c).1 = (idle.startFromParsed m c').1 ∧
    ∀ k, (idle.startFromParsed m c).2 = some k → CacheObtainable k := by
  have hin : ∀ c : Option VisitCache, (∀ k, c = some k → CacheObtainable k) → (c.getD {}).inner = [] := by
    intro c hc
    cases c with
    | none => rfl
    | some k =>
      rcases hc k rfl with rfl | ⟨vec, rfl⟩ <;> rfl
  unfold IdleFileVisit.startFromParsed
  cases FileReader.fromParsed m with
  | err e => exact ⟨rfl, h⟩
  | panic p => exact ⟨rfl, h⟩
  | ok fr =>
    simp only [IdleFileVisit.startFromReader]
    rcases fr.content with ⟨ct, tr⟩
    cases ct with
    | Bytes ct => exact ⟨rfl, h⟩
    | Links base z =>
      simp only [hin c h, hin c' h']
      cases collectLinks idle.range 0 base z with
      | err e => simp
      | panic p => simp
      | ok ps =>
        simp only
        split
        · exact ⟨trivial, fun k h => .inr ⟨_, (Option.some.inj h).symm⟩⟩
        · simp

/-! ### C26 -/

/-- Blocks outside the reach of the two panics: leaves declare their size and the block sizes add up below 2^64. -/
def Sane (b : Bytes) : Prop := ∀ m, FlatUnixFs.tryParse b = .ok m →
  (m.links = [] → m.data.filesize ≠ none) ∧ m.data.blocksizes.sum < U64

theorem linkInterval_zip {ls : List PBLink} {ns : List Nat} (h : ls.length = ns.length) (k : Nat) :
    linkInterval 0 (ls.zip ns) k = ⟨(ns.take k).sum, (ns.take (k + 1)).sum⟩ := by
  have hs : ∀ j, ((ls.zip ns).take j).map (·.2) = ns.take j := by
    intro j
    rw [List.map_take, List.map_snd_zip (by omega)]
  simp [linkInterval, hs]

/-- For every sane block: `start` does not panic; it fails exactly when there is a documented reason, and the error
returned is one of the reasons. -/
theorem C26_start_partial (target : Option Rng) (b : Bytes) (hb : Sane b) :
    ((IdleFileVisit.mk target).start b).NoPanic ∧
    (∀ e, (IdleFileVisit.mk target).start b = .err e → Refused target b e) ∧
    ((∃ e, Refused target b e) → ∃ e, (IdleFileVisit.mk target).start b = .err e) := by
  cases hm : FlatUnixFs.tryParse b with
  | error e =>
    have hst : (IdleFileVisit.mk target).start b = .err (.ofParsing e) := by
      simp [IdleFileVisit.start, FileReader.fromBlock, hm]
    rw [hst]
    refine ⟨by intro p; simp, ?_, fun _ => ⟨_, rfl⟩⟩
    intro e' he
    cases he
    cases e with
    | InvalidDagPb e => exact .dagPb hm
    | NoData n => exact .noData hm
    | InvalidUnixFs e n => exact .unixFs hm
  | ok m =>
    obtain ⟨hfs, hsum⟩ := hb m hm
    have hst : (IdleFileVisit.mk target).start b =
        (do let fr ← FileReader.fromParts m 0 (Metadata.ofUnixFs m.data)
            ((IdleFileVisit.mk target).startFromReader fr none).1) := by
      simp [IdleFileVisit.start, FileReader.fromBlock, hm]
    by_cases h1 : m.data.Ty ≠ .File ∧ m.data.Ty ≠ .Raw
    · have : (IdleFileVisit.mk target).start b = .err (.UnexpectedType m.data.Ty) := by
        rw [hst]; simp only [FileReader.fromParts]; rw [if_pos h1]; rfl
      rw [this]
      exact ⟨by intro p; simp, by intro e he; cases he; exact .type hm h1.1 h1.2, fun _ => ⟨_, rfl⟩⟩
    by_cases h2 : m.links.length ≠ m.data.blocksizes.length
    · have : (IdleFileVisit.mk target).start b = .err (.File .LinksAndBlocksizesMismatch) := by
        rw [hst]; simp only [FileReader.fromParts]; rw [if_neg h1, if_pos h2]; rfl
      rw [this]
      exact ⟨by intro p; simp, by intro e he; cases he; exact .mismatch hm h2, fun _ => ⟨_, rfl⟩⟩
    by_cases h3 : m.data.Data.getD [] = [] ∧ ¬ m.data.filesize.getD 0 = 0 ∧ m.links = []
    · have : (IdleFileVisit.mk target).start b = .err (.File .NoLinksNoContent) := by
        rw [hst]; simp only [FileReader.fromParts]; rw [if_neg h1, if_neg h2, if_pos h3]; rfl
      rw [this]
      refine ⟨by intro p; simp, ?_, fun _ => ⟨_, rfl⟩⟩
      intro e he
      cases he
      obtain ⟨h3a, h3b, h3c⟩ := h3
      cases hf : m.data.filesize with
      | none => simp [hf] at h3b
      | some n => exact .noContent hm h3c h3a hf (by simpa [hf] using h3b)
    by_cases h4 : (m.data.hashType.isSome ∨ m.data.fanout.isSome)
    · have : (IdleFileVisit.mk target).start b = .err (.File (.UnexpectedRawOrFileProperties m.data.hashType m.data.fanout)) := by
        rw [hst]; simp only [FileReader.fromParts]; rw [if_neg h1, if_neg h2, if_neg h3, if_pos h4]; rfl
      rw [this]
      refine ⟨by intro p; simp, ?_, fun _ => ⟨_, rfl⟩⟩
      intro e he
      cases he
      refine .properties hm ?_
      rcases h4 with h | h
      · left; intro h'; simp [h'] at h
      · right; intro h'; simp [h'] at h
    cases hf : m.data.filesize with
    | none =>
      have hl : m.links ≠ [] := fun h => hfs h hf
      have : (IdleFileVisit.mk target).start b = .err (.File .IntermediateNodeWithoutFileSize) := by
        rw [hst]; simp only [FileReader.fromParts]
        rw [if_neg h1, if_neg h2, if_neg h3, if_neg h4]
        simp only [FileReader.endOf]
        rw [if_neg hl]
        simp only [hf]
        rfl
      rw [this]
      exact ⟨by intro p; simp, by intro e he; cases he; exact .noFilesize hm hl hf, fun _ => ⟨_, rfl⟩⟩
    | some fs =>
      have hlt := filesize_lt hm hf
      have hnode : FileNode m := by
        refine ⟨?_, ?_, ?_⟩
        · rcases Classical.em (m.data.Ty = .File) with h | h
          · exact .inl h
          · exact .inr (Classical.byContradiction fun h' => h1 ⟨h, h'⟩)
        · cases hh : m.data.hashType with
          | none => rfl
          | some _ => simp [hh] at h4
        · cases hh : m.data.fanout with
          | none => rfl
          | some _ => simp [hh] at h4
      have h2' : m.links.length = m.data.blocksizes.length := Classical.byContradiction fun h => h2 h
      have hnot : ∀ e, Refused target b e → ∃ k l e', m.links[k]? = some l ∧
          touchesO target ⟨(m.data.blocksizes.take k).sum, (m.data.blocksizes.take (k + 1)).sum⟩ = true ∧
          Cid.tryFrom (l.Hash.getD []) = .error e' := by
        intro e he
        cases he with
        | dagPb h => rw [hm] at h; cases h
        | unixFs h => rw [hm] at h; cases h
        | noData h => rw [hm] at h; cases h
        | type h ha hb => rw [hm] at h; cases h; exact absurd ⟨ha, hb⟩ h1
        | mismatch h ha => rw [hm] at h; cases h; exact absurd ha h2
        | noContent h ha hb hc hd =>
          rw [hm] at h; cases h
          exact absurd ⟨hb, by rw [hc]; simpa using hd, ha⟩ h3
        | properties h ha =>
          rw [hm] at h; cases h
          rcases ha with ha | ha
          · exact absurd hnode.2.1 ha
          · exact absurd hnode.2.2 ha
        | noFilesize h ha hb => rw [hm] at h; cases h; rw [hf] at hb; cases hb
        | cid h ha hb hc => rw [hm] at h; cases h; exact ⟨_, _, _, ha, hb, hc⟩
      by_cases hl : m.links = []
      · have hbs : m.data.blocksizes = [] := by
          rw [hl] at h2'; exact List.length_eq_zero_iff.1 h2'.symm
        have hok : FileReader.fromParts m 0 (Metadata.ofUnixFs m.data) =
            .ok (.mk 0 (.Chunk (0 + fs)) [] (m.data.Data.getD []) [] (Metadata.ofUnixFs m.data) fs) := by
          simp only [FileReader.fromParts]
          rw [if_neg h1, if_neg h2, if_neg h3, if_neg h4]
          simp only [FileReader.endOf, hl, if_true, hf, Option.getD_some, add64]
          rw [if_pos (by omega)]
          simp only [Res.map, Res.bind_ok, hbs]
        have hs := maybeTargetSlice_eq (ε := FileReadFailed) (m.data.Data.getD []) 0 target
        simp only [Nat.zero_add] at hs
        have : ∃ r, (IdleFileVisit.mk target).start b = .ok r := by
          rw [hst, hok]
          simp only [Res.bind_ok, IdleFileVisit.startFromReader, FileReader.content, if_true, hs]
          exact ⟨_, rfl⟩
        obtain ⟨r, hr⟩ := this
        rw [hr]
        refine ⟨by intro p; simp, by simp, ?_⟩
        rintro ⟨e, he⟩
        obtain ⟨k, l, e', hk, -⟩ := hnot e he
        rw [hl] at hk
        simp at hk
      · have hok := fromParts_node hnode hl h2' hf 0 (Metadata.ofUnixFs m.data) (by omega)
        have hsum' : 0 + ((m.links.zip m.data.blocksizes).map (·.2)).sum < U64 := by
          rw [List.map_snd_zip (by omega)]; omega
        rcases collectLinks_cases (target := target) (m.links.zip m.data.blocksizes) 0 0 hsum' with
          ⟨ps, hps, hgood⟩ | ⟨k, l, n, e, hk, ht, he, hps⟩
        · have : ∃ r, (IdleFileVisit.mk target).start b = .ok r := by
            rw [hst, hok]
            simp only [Res.bind_ok, IdleFileVisit.startFromReader, FileReader.content, hl, if_false, hps]
            split <;> exact ⟨_, rfl⟩
          obtain ⟨r, hr⟩ := this
          rw [hr]
          refine ⟨by intro p; simp, by simp, ?_⟩
          rintro ⟨e, he⟩
          obtain ⟨k, l, e', hk, ht, hc⟩ := hnot e he
          have hkl : k < m.links.length := by
            rw [List.getElem?_eq_some_iff] at hk; exact hk.1
          have hz : (m.links.zip m.data.blocksizes)[k]? = some (l, m.data.blocksizes[k]'(by omega)) := by
            rw [List.getElem?_zip_eq_some]
            exact ⟨hk, by simp⟩
          obtain ⟨cid, hcid⟩ := hgood k l _ hz (by rw [linkInterval_zip h2']; exact ht)
          rw [hc] at hcid
          cases hcid
        · have : (IdleFileVisit.mk target).start b = .err (.InvalidCid (.of k l e)) := by
            rw [hst, hok]
            simp only [Res.bind_ok, IdleFileVisit.startFromReader, FileReader.content, hl, if_false, hps, Nat.zero_add]
          rw [this]
          refine ⟨by intro p; simp, ?_, fun _ => ⟨_, rfl⟩⟩
          intro e' he'
          cases he'
          rw [linkInterval_zip h2'] at ht
          exact .cid hm (List.getElem?_zip_eq_some.1 hk).1 ht he

/-- The documented behaviour for every block. -/
def C26_full : Prop := ∀ (target : Option Rng) (b : Bytes), ((IdleFileVisit.mk target).start b).NoPanic

/-- A one-byte file which does not declare its size. -/
def unsizedLeaf : Bytes := FlatUnixFs.write { data := { Ty := .File, Data := some [1] } }

/-- It panics at the `unwrap` of the file size. -/
theorem C26_unsized_panics : (IdleFileVisit.mk none).start unsizedLeaf = .panic .readerFilesize := by decide +kernel

theorem C26_full_false : ¬ C26_full := fun h => h none unsizedLeaf _ C26_unsized_panics

/-- Blocks of well-formed files are sane. -/
example : Sane (sampleTree.block toySha) := by
  intro m hm
  have : FlatUnixFs.tryParse (sampleTree.block toySha) = .ok (sampleTree.msg toySha) := by decide +kernel
  rw [this] at hm
  cases hm
  decide +kernel

/-! ### C27 (file visits) -/

/-- The property for file visits. -/
def C27_visit_full : Prop := ∀ (target : Option Rng) (root : Bytes) (ls : List Leaf) (v : FileVisit), Visiting target root ls v →
  ∀ block cache, (v.continueWalk block cache).1.NoPanic

/-- A continuation block out of reach of the panics, for a visit expecting the interval `i` next: as `Sane`, with the
sizes counted from the interval's start; for ranged visits, leaves are as long as their interval. -/
def SaneNext (target : Option Rng) (i : Rng) (b : Bytes) : Prop := ∀ m, FlatUnixFs.tryParse b = .ok m →
  (m.links = [] → m.data.filesize ≠ none) ∧ i.lo + m.data.filesize.getD 0 < U64 ∧ i.lo + m.data.blocksizes.sum < U64 ∧
  (target ≠ none → m.links = [] → i.hi ≤ i.lo + (m.data.Data.getD []).length)

theorem fromParts_noPanic {m : FlatUnixFs} {o : Nat} {md : Metadata} (h1 : m.links = [] → m.data.filesize ≠ none)
    (h2 : o + m.data.filesize.getD 0 < U64) : (FileReader.fromParts m o md).NoPanic := by
  intro p hp
  unfold FileReader.fromParts at hp
  simp only at hp
  split at hp
  · cases hp
  split at hp
  · cases hp
  split at hp
  · cases hp
  split at hp
  · cases hp
  unfold FileReader.endOf at hp
  cases hf : m.data.filesize with
  | none =>
    have hl : m.links ≠ [] := fun h => h1 h hf
    simp [hf, hl] at hp
  | some fs =>
    rw [hf] at h2
    simp only [Option.getD_some] at h2
    by_cases hl : m.links = [] <;> simp [hf, hl, add64, h2, Res.map] at hp

theorem targetSlice_noPanic {ε : Type} {content : Bytes} {i r : Rng} (h1 : i.lo ≤ i.hi) (h2 : i.hi ≤ i.lo + content.length) :
    (targetSlice content i r : Res ε Bytes).NoPanic := by
  intro p hp
  unfold targetSlice at hp
  rw [inTarget_eq _ h1 (some r)] at hp
  split at hp
  · cases hp
  next h =>
  simp only [touchesO, touches, decide_eq_false_iff_not, Decidable.not_not] at h
  split at hp
  · simp only [sub64] at hp
    rw [if_pos (by omega)] at hp
    simp only [Res.bind_ok, sliceChecked] at hp
    rw [if_pos (by omega)] at hp
    cases hp
  · split at hp
    · simp only [sub64] at hp
      rw [if_pos (by omega), if_pos (by omega)] at hp
      simp only [Res.bind_ok, sliceChecked] at hp
      rw [if_pos (by omega)] at hp
      cases hp
    · simp only [sub64] at hp
      rw [if_pos (by omega), if_pos (by omega)] at hp
      simp only [Res.bind_ok, sliceChecked] at hp
      rw [if_pos (by omega)] at hp
      cases hp

theorem C27_visit_partial (target : Option Rng) (root : Bytes) (ls : List Leaf) (v : FileVisit) (h : Visiting target root ls v)
    (i : Rng) (hi : nextInterval v = some i) (block : Bytes) (hb : SaneNext target i block) (cache : Option VisitCache) :
    (v.continueWalk block cache).1.NoPanic := by
  obtain ⟨-, hr, hbound, -⟩ := visiting_inv h
  unfold nextInterval at hi
  cases hP : v.pending.getLast? with
  | none => simp [hP] at hi
  | some p =>
    obtain ⟨pc, i'⟩ := p
    simp only [hP, Option.map_some, Option.some.injEq] at hi
    subst hi
    have hle := (hbound _ (List.mem_of_getLast? hP)).1
    intro p hp
    simp only [FileVisit.continueWalk, hP, Traversal.continueWalk] at hp
    cases hck : v.state.last_ending.checkIsSuitableNext v.state.last_offset i' with
    | error e => simp [hck] at hp
    | ok u =>
      simp only [hck] at hp
      cases hm : FlatUnixFs.tryParse block with
      | error e => simp [FileReader.fromContinued, hm] at hp
      | ok m =>
        obtain ⟨hb1, hb2, hb3, hb4⟩ := hb m hm
        simp only [FileReader.fromContinued, hm] at hp
        by_cases hmeta : (m.data.mode.isSome ∨ m.data.mtime.isSome)
        · simp [hmeta] at hp
        · rw [if_neg hmeta] at hp
          have hnp := fromParts_noPanic (md := v.state.metadata) hb1 hb2
          cases hfp : FileReader.fromParts m i'.lo v.state.metadata with
          | err e => simp [hfp] at hp
          | panic q => exact hnp q hfp
          | ok fr =>
            obtain ⟨fs, ha, rfl⟩ := fromParts_ok hfp
            by_cases hl : m.links = []
            · simp only [hfp, hl, FileReader.content, if_true, hr] at hp
              cases target with
              | none => simp only [maybeTargetSlice] at hp; split at hp <;> cases hp
              | some r =>
                have hns := targetSlice_noPanic (ε := FileReadFailed) (r := r) hle (hb4 (by simp) hl)
                simp only [maybeTargetSlice] at hp
                cases hts : targetSlice (ε := FileReadFailed) (m.data.Data.getD []) i' r with
                | ok c => simp only [hts] at hp; split at hp <;> cases hp
                | err e => simp [hts] at hp
                | panic q => exact hns q hts
            · simp only [hfp, hl, FileReader.content, if_false, hr] at hp
              rcases collectLinks_cases (target := target) (m.links.zip m.data.blocksizes) 0 i'.lo
                (by rw [List.map_snd_zip (by rw [ha.sizes]; exact Nat.le_refl _)]; exact hb3) with
                ⟨ps, hps, -⟩ | ⟨k, l, n, e, -, -, -, hps⟩
              · simp [hps] at hp
              · simp [hps] at hp

/-- Without a range a visit always has a block to ask for, so `pending_links` and `continue_walk` find one. -/
theorem C27_pending_nonempty (root : Bytes) (ls : List Leaf) (v : FileVisit) (h : Visiting none root ls v) :
    v.pendingLinks.NoPanic ∧ ∃ i, nextInterval v = some i := by
  have hne := (C23_contiguous root ls v h).2.1
  constructor
  · intro p hp
    unfold FileVisit.pendingLinks at hp
    split at hp
    · cases hp
    next hnil => exact hne (by simpa using hnil)
  · unfold nextInterval
    cases hP : v.pending.getLast? with
    | none => exact absurd (List.getLast?_eq_none_iff.1 hP) hne
    | some p => exact ⟨p.2, rfl⟩

theorem C27_visit_full_false : ¬ C27_visit_full := by
  intro hall
  obtain ⟨v, v', c, h1, -⟩ := sample_step
  have hp := C23_contiguous _ _ _ (.start h1 rfl)
  have hall' := hall _ _ _ _ (.start h1 rfl) unsizedLeaf none
  have hv : (IdleFileVisit.mk none).start (sampleTree.block toySha) = .ok ⟨[], 5, {}, some v⟩ := h1
  have hpanic : ∀ v, (IdleFileVisit.mk none).start (sampleTree.block toySha) = .ok ⟨[], 5, {}, some v⟩ →
      (v.continueWalk unsizedLeaf none).1 = .panic .readerFilesize := by
    have hd : (match (IdleFileVisit.mk none).start (sampleTree.block toySha) with
      | .ok ⟨_, _, _, some v⟩ => (v.continueWalk unsizedLeaf none).1 | _ => .err (.Read none)) = .panic .readerFilesize := by
      decide +kernel
    intro v hv
    rw [hv] at hd
    exact hd
  exact hall' _ (hpanic v hv)

/-- A node with one link, covering `n` bytes. -/
def oneLinkMsg (n : Nat) : FlatUnixFs :=
  .mk [.mk (some (cidOf toySha []).toBytes) none none] { Ty := .File, filesize := some n, blocksizes := [n] }

/-- Its block. -/
def oneLink (n : Nat) : Bytes := (oneLinkMsg n).write

/-- With a range, a node which covers less than its parent assigned to it can leave nothing to ask for: the visit goes on
but its `pending_links` panics. -/
theorem C27_pending_links_panics : ∃ v, Visiting (some ⟨3, 4⟩) (oneLink 4) [] v ∧ v.pendingLinks = .panic .visitNoPending := by
  have h1 : ∃ v, (IdleFileVisit.mk (some ⟨3, 4⟩)).start (oneLink 4) = .ok ⟨[], 4, {}, some v⟩ ∧
      ∃ v', (v.continueWalk (oneLink 1) none).1 = .ok ([], some v') ∧ v'.pendingLinks = .panic .visitNoPending :=
    ⟨⟨[(cidOf toySha [], ⟨0, 4⟩)], some ⟨3, 4⟩, ⟨.TreeCoverage 4, 0, 4, {}⟩⟩, by decide +kernel,
      ⟨[], some ⟨3, 4⟩, ⟨.TreeCoverage 1, 0, 1, {}⟩⟩, by decide +kernel⟩
  obtain ⟨v, hv, v', hv', hp⟩ := h1
  have hm : FlatUnixFs.tryParse (oneLink 1) = .ok (oneLinkMsg 1) := by decide +kernel
  exact ⟨v', .link (.start hv rfl) hv' hm (by simp [oneLinkMsg]), hp⟩

/-! ### C28 -/

/-- The bytes of a piece of content starting at file offset `o` whose offsets lie in `r`. -/
def intersection (content : Bytes) (o : Nat) (r : Rng) : Bytes :=
  ((content.zipIdx o).filter (fun p => decide (r.lo ≤ p.2 ∧ p.2 < r.hi))).map (·.1)

theorem intersection_eq (content : Bytes) (o : Nat) (r : Rng) :
    intersection content o r = (content.take (r.hi - o)).drop (r.lo - o) := by
  induction content generalizing o with
  | nil => simp [intersection]
  | cons a d ih =>
    have ih' := ih (o + 1)
    unfold intersection at ih' ⊢
    simp only [List.zipIdx_cons, List.filter_cons]
    by_cases h : r.lo ≤ o ∧ o < r.hi
    · simp only [h, and_self, decide_true, if_true, List.map_cons, ih']
      rw [show r.hi - o = (r.hi - (o + 1)) + 1 by omega, show r.lo - o = 0 by omega, show r.lo - (o + 1) = 0 by omega]
      simp
    · simp only [h, decide_false, Bool.false_eq_true, if_false, ih']
      by_cases h2 : r.hi ≤ o
      · rw [show r.hi - o = 0 by omega, show r.hi - (o + 1) = 0 by omega]; simp
      · rw [show r.hi - o = (r.hi - (o + 1)) + 1 by omega, show r.lo - o = (r.lo - (o + 1)) + 1 by omega]
        simp

/-- The slice of a leaf's content for a target is the intersection, for all offsets, contents and targets (also inverted
or disjoint ones); nothing panics. -/
theorem C28_slice_exact {ε : Type} (content : Bytes) (o : Nat) (target : Rng) :
    (targetSlice content ⟨o, o + content.length⟩ target : Res ε Bytes) = .ok (intersection content o target) := by
  rw [intersection_eq]; exact targetSlice_eq content o target

/-- Contents longer than the interval are cut as well, and do not panic either; shorter ones may panic. -/
theorem C28_in_bounds {ε : Type} (content : Bytes) (i target : Rng) (h1 : i.lo ≤ i.hi) (h2 : i.hi ≤ i.lo + content.length) :
    (targetSlice content i target : Res ε Bytes).NoPanic := targetSlice_noPanic h1 h2

example : (targetSlice [1] ⟨0, 3⟩ ⟨0, 2⟩ : Res Unit Bytes) = .panic .visitSlice := by decide

/-! ### C46 (file visits) -/

/-- The links of a node of interest for the target, in order, as Cids. -/
def wantedLinks (target : Option Rng) : Nat → List (PBLink × Nat) → List Cid
  | _, [] => []
  | base, (l, n) :: rest =>
    (if touchesO target ⟨base, base + n⟩ then
      (match Cid.tryFrom (l.Hash.getD []) with | .ok c => [c] | .error _ => []) else []) ++ wantedLinks target (base + n) rest

theorem collectLinks_wanted {target : Option Rng} (z : List (PBLink × Nat)) (nth base : Nat) (ps : List Pending)
    (h : collectLinks target nth base z = .ok ps) : ps.map (·.1) = wantedLinks target base z := by
  induction z generalizing nth base ps with
  | nil => simp [collectLinks] at h; subst h; rfl
  | cons x z ih =>
    obtain ⟨l, n⟩ := x
    simp only [collectLinks] at h
    rw [Res.bind_ok_iff] at h
    obtain ⟨stop, hs, h⟩ := h
    obtain ⟨h1, rfl⟩ := add64_ok_iff.1 hs
    rw [inTarget_eq _ (by simp)] at h
    simp only [wantedLinks]
    split at h
    · next ht => simp [ht, ih _ _ _ h]
    · next ht =>
      rw [Res.bind_ok_iff] at h
      obtain ⟨p, hp, h⟩ := h
      rw [Res.bind_ok_iff] at h
      obtain ⟨ps', hps, h⟩ := h
      cases h
      unfold toPending at hp
      split at hp
      · next cid hc =>
        cases hp
        simp [ht, hc, ih _ _ _ hps]
      · cases hp

/-- All Cids named by `pending_links` of a continuation; none when the visit is over. -/
def askedFor : Option FileVisit → List Cid
  | none => []
  | some v => match v.pendingLinks with
    | .ok (first, rest) => first :: rest
    | _ => []

theorem askedFor_some (v : FileVisit) : askedFor (some v) = v.pending.reverse.map (·.1) := by
  simp only [askedFor, FileVisit.pendingLinks]
  cases v.pending.reverse.map (·.1) <;> rfl

/-- `pending_links` at every step: after giving the block for the first Cid, the visit asks for the wanted links of that
block, in order, and then for the remaining Cids it had named before; when it ends there were none left. -/
theorem C46_visit_pending (v : FileVisit) (first : Cid) (rest : List Cid) (hp : v.pendingLinks = .ok (first, rest))
    (block : Bytes) (cache : Option VisitCache) (c : Bytes) (next : Option FileVisit)
    (h : (v.continueWalk block cache).1 = .ok (c, next)) :
    ∃ m i, FlatUnixFs.tryParse block = .ok m ∧ nextInterval v = some i ∧
      askedFor next =
        wantedLinks v.range i.lo (m.links.zip m.data.blocksizes) ++ rest := by
  obtain ⟨P, cid, i, m, fs, hpend, hs, hm, -, ha, h1, h2⟩ := continueWalk_ok h
  refine ⟨m, i, hm, by simp [nextInterval, hpend], ?_⟩
  have hrest : rest = P.reverse.map (·.1) := by
    unfold FileVisit.pendingLinks at hp
    rw [hpend] at hp
    simp only [List.reverse_append, List.reverse_cons, List.reverse_nil, List.nil_append, List.singleton_append,
      List.map_cons] at hp
    cases hp
    rfl
  subst hrest
  by_cases hl : m.links = []
  · obtain ⟨-, rfl⟩ := h1 hl
    simp only [hl, List.zip_nil_left, wantedLinks, List.nil_append]
    by_cases hP : P = []
    · subst hP; simp [askedFor]
    · simp [hP, askedFor_some]
  · obtain ⟨-, ps, hps, rfl⟩ := h2 hl
    simp [askedFor_some, ← collectLinks_wanted _ _ _ _ hps]

/-- The first Cid named is the one whose interval the next block is checked against. -/
theorem C46_visit_first (v : FileVisit) (first : Cid) (rest : List Cid) (hp : v.pendingLinks = .ok (first, rest)) :
    ∃ i, v.pending.getLast? = some (first, i) ∧ v.pending.length = rest.length + 1 := by
  unfold FileVisit.pendingLinks at hp
  rcases List.eq_nil_or_concat v.pending with h | ⟨P, ⟨cid, i⟩, h⟩
  · simp [h] at hp
  · rw [List.concat_eq_append] at h
    rw [h] at hp
    simp only [List.reverse_append, List.reverse_cons, List.reverse_nil, List.nil_append, List.singleton_append,
      List.map_cons] at hp
    cases hp
    exact ⟨i, by simp [h], by simp [h]⟩

end Verif.Props
