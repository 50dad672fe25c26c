import Verif.ReleaseLemmas
import Verif.Props.ReaderExact
import Verif.Props.BuildAll
import Verif.Props.AdderMore
import Verif.Props.WalkMore
/-
C67: release builds answer like checked builds, unless those panic at a check which release builds do not have.
-/
namespace Verif.Props
open Verif Verif.Spec

/-! ## C67 -/

/-- The checks which release builds lack are: overflow of additions and subtractions of sizes and offsets, and the debug
assertions of the adder and of the walker. -/
theorem C67_checks (p : Panic) : p.checked = true ↔ p ∈ [.adderAcceptUnderflow, .adderReused, .adderLevelLeft, .adderOverflow,
    .readerOverflow, .rangeOverflow, .visitUnderflow, .iterOverflow, .walkPathDepth] := by
  cases p <;> decide

/-! ### Single calls -/

/-- Starting a file visit, with any block. -/
theorem C67_start (target : Option Rng) (h : RangeFits target) (block : Bytes) :
    Agree ((IdleFileVisit.mk target).start block) ((IdleFileVisit.mk target).startR block) := start_agree (self := ⟨target⟩) h block

/-- Continuing any file visit with any block. -/
theorem C67_continue (v : FileVisit) (h : RangeFits v.range) (block : Bytes) (cache : Option VisitCache) :
    AgreeS (v.continueWalk block cache) (v.continueWalkR block cache) := continueWalk_agree h block cache

theorem walked_unranged {cid : Cid} {name : Bytes} {h : List (Bytes × ContinuedWalk)} {w : Walker} (hw : Walked cid name h w) :
    w.Unranged := by
  induction hw with
  | new => exact unranged_new cid name
  | next _ _ _ hs ih => exact step_unranged ih hs

/-- Giving any block to any walker which was used as intended. -/
theorem C67_walker (cid : Cid) (name : Bytes) (h : List (Bytes × ContinuedWalk)) (w : Walker) (hw : Walked cid name h w) (block : Bytes)
    (cache : Option VisitCache) : AgreeS (w.step block cache) (w.stepR block cache) := step_agree (walked_unranged hw).fits block cache

/-- Any push to, and finishing, any adder. -/
theorem C67_push (sha : Bytes → Bytes) (a : FileAdder) (h : a.chunkMax < U64) (input : Bytes) :
    AgreeRun (a.push sha input) (a.pushR sha input) ∧ AgreeRun (a.finish sha) (a.finishR sha) :=
  ⟨push_agree sha h input, finish_agree sha a⟩

/-- Any call of `next`. -/
theorem C67_next (sha : Bytes → Bytes) (it : PostOrderIterator) :
    (∃ p it', it.next sha = some (.panic p, it') ∧ p.checked = true) ∨ it.nextR sha = it.next sha := by
  rcases next_agree sha it with ⟨⟨x, it'⟩, h1, p, rfl, h3⟩ | h
  · exact .inl ⟨p, it', h1, h3⟩
  · exact .inr h

/-! ### Whole uses -/

/-- Reading a file over any store. -/
theorem C67_read (get : Cid → Option Bytes) (target : Option Rng) (h : RangeFits target) (root : Bytes) :
    AgreeRun (readFile get ⟨target⟩ root) (readFileR get ⟨target⟩ root) := readFile_agree get ⟨target⟩ h root

/-- A well-formed file is read back by a release build. -/
theorem C67_read_wellformed (get : Cid → Option Bytes) (t : FTree) (root : Bytes) (h : FileAt get t root) :
    ∃ cids, readFileR get {} root = some (.ok (t.content, cids)) := by
  obtain ⟨cids, hr⟩ := C18_read_wellformed get t root h
  refine ⟨cids, ?_⟩
  rcases C67_read get none (by intro t h; cases h) root with ⟨p, h1, -⟩ | h1
  · rw [show readFile get ⟨none⟩ root = _ from hr] at h1; cases h1
  · exact h1.trans hr

/-- So is any range of it. -/
theorem C67_ranged_read (get : Cid → Option Bytes) (t : FTree) (root : Bytes) (h : FileAt get t root) (r : Rng)
    (hr : r.lo < U64 ∧ r.hi < U64) : ∃ cids, readFileR get ⟨some r⟩ root = some (.ok (slice t.content r, cids)) := by
  obtain ⟨cids, h1⟩ := C19_ranged_read get t root h r
  refine ⟨cids, ?_⟩
  rcases C67_read get (some r) (by intro t h; cases h; exact hr) root with ⟨p, h2, -⟩ | h2
  · rw [show readFile get ⟨some r⟩ root = _ from h1] at h2; cases h2
  · exact h2.trans h1

/-- Walking over any store. -/
theorem C67_walk (get : Cid → Option Bytes) (cid : Cid) (name : Bytes) (cache : Option VisitCache) :
    AgreeRun (walkFrom get (Walker.new cid name) cache) (walkFromR get (Walker.new cid name) cache) :=
  walkFrom_agree get _ cache (unranged_new cid name)

/-- Over a well-formed tree there is no difference. -/
theorem C67_walk_wellformed (get : Cid → Option Bytes) (t : FsTree) (cache : Option VisitCache) (hat : FsAt get t) (ht : t.Named)
    (hname : slash ∉ t.name) (hc : ∀ k, cache = some k → CacheObtainable k) :
    walkFromR get (Walker.new t.cid t.name) cache = walkFrom get (Walker.new t.cid t.name) cache := by
  rcases C67_walk get t.cid t.name cache with ⟨p, h1, h2⟩ | h1
  · obtain ⟨h3, h4⟩ := C45_tree_partial get t cache hat ht hname hc
    by_cases hd : DirThenBucket t.walkItems
    · rw [h4 hd] at h1; cases h1; cases h2
    · rw [h3 hd] at h1; cases h1
  · exact h1

theorem push_take (sha : Bytes → Bytes) (a : FileAdder) (input : Bytes) :
    a.push sha (input.take (a.chunkMax - a.block_buffer.length)) = a.push sha input := by
  have h : chunkerAccept a.chunkMax (input.take (a.chunkMax - a.block_buffer.length)) a.block_buffer =
      chunkerAccept a.chunkMax input a.block_buffer := by
    unfold chunkerAccept
    split
    · rfl
    · dsimp only
      have hl : Nat.min (input.take (a.chunkMax - a.block_buffer.length)).length (a.chunkMax - a.block_buffer.length) =
          Nat.min input.length (a.chunkMax - a.block_buffer.length) := by
        simp only [List.length_take, Nat.min_def]
        repeat' split
        all_goals omega
      rw [hl, List.take_take]
      have : min (Nat.min input.length (a.chunkMax - a.block_buffer.length)) (a.chunkMax - a.block_buffer.length) =
          Nat.min input.length (a.chunkMax - a.block_buffer.length) := Nat.min_eq_left (Nat.min_le_right ..)
      rw [this]
  unfold FileAdder.push
  rw [h]

theorem pushR_consumed {sha : Bytes → Bytes} {a a' : FileAdder} {input : Bytes} {bs : List (Cid × Bytes)} {n : Nat}
    (h : a.pushR sha input = some (.ok (a', bs, n))) : n = (chunkerAcceptR a.chunkMax input a.block_buffer).1.length := by
  unfold FileAdder.pushR at h
  generalize chunkerAcceptR a.chunkMax input a.block_buffer = q at h ⊢
  obtain ⟨acc, ready⟩ := q
  dsimp only at h ⊢
  by_cases h1 : a.block_buffer = [] ∧ ready = true
  · rw [if_pos h1] at h
    generalize a.flushChunkR sha acc = f at h
    cases f with
    | none => cases h
    | some f => cases f <;> cases h; rfl
  · rw [if_neg h1] at h
    split at h
    · cases h; rfl
    · generalize a.flushChunkR sha (a.block_buffer ++ acc) = f at h
      cases f with
      | none => cases h
      | some f => cases f <;> cases h; rfl

theorem reachesR_iff {sha : Bytes → Bytes} {c bf : Nat} (hc : 0 < c) (hc' : c < U64) (hbf : 0 < bf)
    {x rest : Bytes} {bs : List (Cid × Bytes)} {a : FileAdder} (hall : ∀ t ∈ treesOf bf c (x ++ rest), Fits sha t) :
    ReachesR sha c bf x bs a ↔ Reaches sha c bf x bs a := by
  constructor
  · intro h
    induction h generalizing rest with
    | start => exact .start
    | @push x bs a input a' bs' n h1 h2 ih =>
      have h3 := ih (rest := input.take n ++ rest) (by rw [← List.append_assoc]; exact hall)
      obtain ⟨hm, hb⟩ := reaches_small hc h3
      rcases (C67_push sha a (by omega) input).1 with ⟨p, h5, h6⟩ | h5
      · exfalso
        have hn := pushR_consumed h2
        simp only [chunkerAcceptR, hm, List.length_take] at hn
        rw [subW_eq (by omega) hc'] at hn
        obtain ⟨ds, inv, q1, -, q2⟩ := reaches_inv hc hbf h3
        rcases push_cases sha hbf inv q2 input with ⟨a'', N, ds', e1, -⟩ | ⟨-, e2, e3⟩
        · rw [h5] at e1; cases e1
        · have hn' : n = c - a.block_buffer.length := by
            rw [hn]
            simp only [Nat.min_def]
            repeat' split
            all_goals omega
          refine e3 fun t ht => hall t ?_
          have hfull : ∀ d ∈ ds ++ [a.block_buffer ++ input.take (c - a.block_buffer.length)], d.length = c := by
            intro d hd
            rcases List.mem_append.1 hd with h | h
            · exact inv.full d h
            · rw [List.mem_singleton.1 h, List.length_append, List.length_take]; omega
          have := runT_sub_treesOf hbf hc _ hfull rest t ht
          rw [q1, hn']
          simpa using this
      · rw [h5] at h2
        exact .push input h3 h2
  · intro h
    induction h generalizing rest with
    | start => exact .start
    | @push x bs a input a' bs' n h1 h2 ih =>
      have hm := (reaches_small hc h1).1
      rcases (C67_push sha a (by omega) input).1 with ⟨p, h5, h6⟩ | h5
      · rw [h2] at h5; cases h5
      · exact .push input (ih (rest := input.take n ++ rest) (by rw [← List.append_assoc]; exact hall)) (h5.trans h2)

/-- Adding a content whose balanced tree fits into 64 bits, with any chunk size and any branching factor: a release build reaches the
same states and returns the same blocks as a checked one. -/
theorem C67_add (sha : Bytes → Bytes) (c bf : Nat) (hc : 0 < c) (hc' : c < U64) (hbf : 0 < bf) (x : Bytes) (T : FTree)
    (hT : BalancedTree c bf x T) (hfit : Fits sha T) (blocks : List (Cid × Bytes)) :
    AddsR sha c bf x blocks ↔ Adds sha c bf x blocks := by
  have hf : ∀ bs a, Reaches sha c bf x bs a → a.finishR sha = a.finish sha := by
    intro bs a h
    obtain ⟨bs', h1⟩ := (C10_finish_exact_partial sha c bf hc hbf x bs a h).2 ⟨T, hT, hfit⟩
    rcases finish_agree sha a with ⟨p, h2, -⟩ | h2
    · rw [h1] at h2; cases h2
    · exact h2
  obtain ⟨_, hadd⟩ := (adds_iff hc hbf x).2 ⟨T, hT, hfit⟩
  have hall : ∀ t ∈ treesOf bf c (x ++ []), Fits sha t := by
    rw [List.append_nil]; exact (adds_trees hc hbf hadd).2.2
  constructor
  · rintro ⟨bs, a, bs', h1, h2, rfl⟩
    have h3 := (reachesR_iff hc hc' hbf hall).1 h1
    exact ⟨bs, a, bs', h3, (hf bs a h3).symm.trans h2, rfl⟩
  · rintro ⟨bs, a, bs', h1, h2, rfl⟩
    exact ⟨bs, a, bs', (reachesR_iff hc hc' hbf hall).2 h1, (hf bs a h1).trans h2, rfl⟩

/-- In particular every content of less than 2^50 bytes, with any branching factor from two on. -/
theorem C67_add_small (sha : Bytes → Bytes) (hsha : ∀ b, (sha b).length = 32) (c bf : Nat) (hc : 0 < c) (hc' : c < U64) (hbf : 2 ≤ bf)
    (x : Bytes) (hx : x.length < maxContent) (blocks : List (Cid × Bytes)) : AddsR sha c bf x blocks ↔ Adds sha c bf x blocks := by
  obtain ⟨T, h1, h2⟩ := (adds_iff hc (show 0 < bf by omega) x).1 ⟨_, adds_exists hsha hc hbf x hx⟩
  exact C67_add sha c bf hc hc' (by omega) x T h1 h2 blocks

theorem nextR_eq (sha : Bytes → Bytes) (it : PostOrderIterator) : it.nextR sha = match it.stepR sha with
  | .continue it => PostOrderIterator.nextR sha it
  | .item it node => some (.item node, it)
  | .failed it e => some (.failed e, it)
  | .done it => some (.finished, it)
  | .panic p => some (.panic p, it) := by
  rw [PostOrderIterator.nextR]
  cases it.stepR sha <;> rfl

theorem stepR_of {sha : Bytes → Bytes} {it : PostOrderIterator} {s : IterStep} (h : it.step sha = s) (hs : ∀ p, s = .panic p → p.checked = false) :
    it.stepR sha = s := by
  rcases iterStep_agree sha it with ⟨p, h1, h2⟩ | h1
  · rw [h] at h1
    rw [hs p h1] at h2
    cases h2
  · rw [h1, h]

theorem nextsR_runsA {sha : Bytes → Bytes} {it out it'} (h : RunsA sha it out it') {rest : List IterNext}
    (hend : ∀ n, nextsR sha n it' = firstAnswers n rest) : ∀ n, nextsR sha n it = firstAnswers n (out ++ rest) := by
  induction h with
  | refl => exact hend
  | cont hs _ ih =>
    intro n
    rw [← ih hend n]
    cases n with
    | zero => rfl
    | succ n => rw [nextsR, nextsR, nextR_eq, stepR_of hs (by intro p h; cases h)]
  | item hs _ ih =>
    intro n
    cases n with
    | zero => rfl
    | succ n => rw [nextsR, nextR_eq, stepR_of hs (by intro p h; cases h), List.cons_append, firstAnswers, ← ih hend n]; simp
  | failed hs _ ih =>
    intro n
    cases n with
    | zero => rfl
    | succ n => rw [nextsR, nextR_eq, stepR_of hs (by intro p h; cases h), List.cons_append, firstAnswers, ← ih hend n]; simp

theorem nextsR_nil {sha : Bytes → Bytes} {it : PostOrderIterator} (h : it.pending = []) (n : Nat) : nextsR sha n it = firstAnswers n [] := by
  have hs : it.stepR sha = .done it := by unfold PostOrderIterator.stepR; rw [h]
  induction n with
  | zero => rfl
  | succ n ih => rw [nextsR, nextR_eq, hs, firstAnswers]; simp only; rw [ih]

theorem dirAnswer_checked {sha : Bytes → Bytes} {lim : Option Nat} {path ks f p} (h : IterNext.panic p ∈ dirAnswer sha lim path ks f)
    (hp : p.checked = true) : U64 ≤ (nodeOf sha path ks).total_size := by
  cases f with
  | panicked => cases h
  | missing =>
    simp only [dirAnswer, List.mem_singleton, IterNext.panic.injEq] at h
    subst h; cases hp
  | filled =>
    simp only [dirAnswer] at h
    repeat' split at h
    · simp at h
    · simp at h
    · rename_i h1
      simp only [nodeOf]
      omega

mutual
theorem answers_checked {sha : Bytes → Bytes} {lim : Option Nat} {p : Panic} (hp : p.checked = true) (path : List Bytes) : ∀ k : DTree,
    IterNext.panic p ∈ answers sha lim path k → ∃ x ∈ DTree.postOrder sha path k, U64 ≤ x.total_size
  | .link _ _ _, h => by simp [answers] at h
  | .dir n ks, h => by
    rw [answers, List.mem_append] at h
    rw [DTree.postOrder]
    rcases h with h | h
    · obtain ⟨x, h1, h2⟩ := answersL_checked hp (path ++ [n]) ks h
      exact ⟨x, by simp [h1], h2⟩
    · exact ⟨_, by simp, dirAnswer_checked h hp⟩
theorem answersL_checked {sha : Bytes → Bytes} {lim : Option Nat} {p : Panic} (hp : p.checked = true) (path : List Bytes) : ∀ ks : List DTree,
    IterNext.panic p ∈ answersL sha lim path ks → ∃ x ∈ DTree.postOrderL sha path ks, U64 ≤ x.total_size
  | [], h => by simp [answersL] at h
  | k :: ks, h => by
    rw [answersL, List.mem_append] at h
    rw [DTree.postOrderL]
    rcases h with h | h
    · obtain ⟨x, h1, h2⟩ := answersL_checked hp path ks h
      exact ⟨x, by simp [h1], h2⟩
    · split at h
      · cases h
      · obtain ⟨x, h1, h2⟩ := answers_checked hp path k h
        exact ⟨x, by simp [h1], h2⟩
end

/-- Building any directory tree whose total sizes fit into 64 bits: the answers, however often `next` is called and also after
errors, are those of a checked build. -/
theorem C67_build (sha : Bytes → Bytes) (hsha : ∀ b, (sha b).length = 32) (b : BufferingTreeBuilder) (hb : Obtainable b)
    (hfit : SizesFit sha b) (n : Nat) : nextsR sha n b.build = nexts sha n b.build := by
  rw [C60_all_answers sha hsha b hb n]
  have hno : ∀ p, IterNext.panic p ∈ allAnswers sha b.opts (contents b) → p.checked = false := by
    intro p h
    cases hp : p.checked with
    | false => rfl
    | true =>
      exfalso
      have : ∃ x ∈ allNodes sha b.opts.wrap_with_directory (contents b), U64 ≤ x.total_size := by
        rw [allAnswers, List.mem_append] at h
        unfold allNodes
        rcases h with h | h
        · obtain ⟨x, h1, h2⟩ := answersL_checked hp [] _ h
          exact ⟨x, by simp [h1], h2⟩
        · split at h
          · rename_i hw
            exact ⟨_, by simp [hw], dirAnswer_checked h hp⟩
          · cases h
      obtain ⟨x, h1, h2⟩ := this
      have := hfit x h1
      omega
  obtain ⟨f, h⟩ := all_root sha hsha b.root_builder b.opts (contents_ids hb) (contents_ok hb)
  rcases h with ⟨-, before, p, it', h1, h2, h3⟩ | ⟨-, it', h1, it2, h2, h3⟩
  · rw [contents] at hno ⊢
    rw [h1] at hno ⊢
    refine nextsR_runsA h2 (fun n => ?_) n
    cases n with
    | zero => rfl
    | succ n => rw [nextsR, nextR_eq, stepR_of h3 (by intro q h; cases h; exact hno _ (by simp))]; rfl
  · have := nextsR_runsA h1 (rest := []) (fun n => ?_) n
    · rw [List.append_nil] at this; exact this
    · cases n with
      | zero => rfl
      | succ n =>
        rw [nextsR, nextR_eq, stepR_of h2 (by intro q h; cases h), firstAnswers]
        simp only
        rw [nextsR_nil h3]

/-! ### Cases -/

example : ∃ cids, readFileR (storeOf sampleTree.nodes) {} (sampleTree.block toySha) = some (.ok ([1, 2, 3, 4, 5], cids)) :=
  C67_read_wellformed _ _ _ sample_fileAt

example : ∃ cids, readFileR (storeOf sampleTree.nodes) ⟨some ⟨1, 4⟩⟩ (sampleTree.block toySha) = some (.ok ([2, 3, 4], cids)) :=
  C67_ranged_read _ _ _ sample_fileAt ⟨1, 4⟩ (by decide)

example : ∃ items, walkFromR (storeN sampleFsBlocks) (Walker.new (cidN 0) [114]) none = some (.ok items) ∧ items.length = 8 :=
  ⟨_, (C67_walk_wellformed _ sampleFs none sampleFs_at trivial (by decide) (by simp)).trans sampleFs_walk, rfl⟩

example : ∃ blocks, AddsR toySha 1 2 [1, 2, 3, 4, 5] blocks ∧ blocks.length = 11 := by
  have := adds_exists toySha_length (c := 1) (bf := 2) (by decide) (by decide) [1, 2, 3, 4, 5] (by decide)
  exact ⟨_, (C67_add_small toySha toySha_length 1 2 (by decide) (by decide) (by decide) _ (by decide) _).2 this, by rw [List.length_map]; rfl⟩

example (n : Nat) : nextsR toySha n sampleBuilder.build = nexts toySha n sampleBuilder.build :=
  C67_build toySha toySha_length _ sampleBuilder_obtainable sampleBuilder_fits n

end Verif.Props
