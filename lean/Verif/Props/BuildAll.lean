import Verif.Props.Built
import Verif.IterAll
/-
Every answer of the iterator, also after errors: C60, and when exactly it panics (C38).
-/
namespace Verif.Props
open Verif Verif.Spec

theorem firstAnswers_nil (n : Nat) : firstAnswers n [] = some (List.replicate n .finished) := by
  induction n with
  | zero => rfl
  | succ n ih => rw [firstAnswers, ih]; rfl

theorem nexts_nil {sha : Bytes → Bytes} {it : PostOrderIterator} (h : it.pending = []) (n : Nat) :
    nexts sha n it = firstAnswers n [] := by
  induction n with
  | zero => rfl
  | succ n ih => rw [nexts, next_nil sha h, firstAnswers, ← ih]

theorem nexts_runsA {sha : Bytes → Bytes} {it out it'} (h : RunsA sha it out it') {rest : List IterNext}
    (hend : ∀ n, nexts sha n it' = firstAnswers n rest) : ∀ n, nexts sha n it = firstAnswers n (out ++ rest) := by
  induction h with
  | refl => exact hend
  | cont hs _ ih =>
    intro n
    rw [← ih hend n]
    cases n with
    | zero => rfl
    | succ n => rw [nexts, nexts, next_eq, hs]
  | item hs _ ih =>
    intro n
    cases n with
    | zero => rfl
    | succ n => rw [nexts, next_eq, hs, List.cons_append, firstAnswers, ← ih hend n]; simp
  | failed hs _ ih =>
    intro n
    cases n with
    | zero => rfl
    | succ n => rw [nexts, next_eq, hs, List.cons_append, firstAnswers, ← ih hend n]; simp

/-! ### C60 -/

/-- Every call of `next`, also after errors, on everything which can be built: the answers are those of the specification,
in order, then `None` forever; there are no others. -/
theorem C60_all_answers (sha : Bytes → Bytes) (hsha : ∀ b, (sha b).length = 32) (b : BufferingTreeBuilder) (hb : Obtainable b)
    (n : Nat) : nexts sha n b.build = firstAnswers n (allAnswers sha b.opts (contents b)) := by
  obtain ⟨f, h⟩ := all_root sha hsha b.root_builder b.opts (contents_ids hb) (contents_ok hb)
  rcases h with ⟨-, before, p, it', h1, h2, h3⟩ | ⟨-, it', h1, it2, h2, h3⟩
  · rw [contents, h1]
    refine nexts_runsA h2 (fun n => ?_) n
    cases n with
    | zero => rfl
    | succ n => rw [nexts, next_eq, h3]; rfl
  · have := nexts_runsA h1 (rest := []) (fun n => ?_) n
    · rw [List.append_nil] at this; exact this
    · cases n with
      | zero => rfl
      | succ n =>
        rw [nexts, next_eq, h2, firstAnswers]
        simp only
        rw [nexts_nil h3]

/-! ### C38: when exactly there is a panic -/

/-- No call panics, and each returns. -/
def NeverPanics (sha : Bytes → Bytes) (it : PostOrderIterator) : Prop := ∀ n, (nexts sha n it).isSome

theorem firstAnswers_some (as : List IterNext) : (∀ n, (firstAnswers n as).isSome) ↔ ∀ p, IterNext.panic p ∉ as := by
  induction as with
  | nil => simp [firstAnswers_nil]
  | cons a as ih =>
    cases a with
    | panic p =>
      refine ⟨fun h => ?_, fun h => absurd (List.mem_cons_self ..) (h p)⟩
      have := h 1; cases this
    | _ =>
      simp only [List.mem_cons, reduceCtorEq, false_or]
      rw [← ih]
      refine ⟨fun h n => ?_, fun h n => ?_⟩
      · have := h (n + 1); simpa [firstAnswers] using this
      · cases n with
        | zero => rfl
        | succ n => simpa [firstAnswers] using h n

theorem dirAnswer_panic {sha : Bytes → Bytes} {lim : Option Nat} {path ks f} (hf : f ≠ .panicked) :
    (∀ p, IterNext.panic p ∉ dirAnswer sha lim path ks f) ↔ dirFate sha lim ks f ≠ .panicked := by
  cases f with
  | panicked => exact absurd rfl hf
  | missing => simp [dirAnswer, dirFate]
  | filled =>
    by_cases h1 : tooLarge lim (dirBlock (DTree.items sha ks)).length = true
    · simp [dirAnswer, dirFate, h1]
    · by_cases h2 : dirTotal (DTree.items sha ks) < U64
      · simp [dirAnswer, dirFate, h1, h2]
      · simp [dirAnswer, dirFate, h1, h2]

mutual
theorem answers_panic {sha : Bytes → Bytes} {lim : Option Nat} (path : List Bytes) : ∀ k : DTree,
    (∀ p, IterNext.panic p ∉ answers sha lim path k) ↔ fate sha lim k ≠ .panicked
  | .link _ _ _ => by simp [answers, fate]
  | .dir n ks => by
    rw [answers, fate]
    simp only [List.mem_append, not_or, forall_and]
    rw [answersL_panic]
    by_cases h : fateL sha lim ks = .panicked
    · rw [h]; simp [dirFate]
    · rw [dirAnswer_panic h]; simp [h]
theorem answersL_panic {sha : Bytes → Bytes} {lim : Option Nat} (path : List Bytes) : ∀ ks : List DTree,
    (∀ p, IterNext.panic p ∉ answersL sha lim path ks) ↔ fateL sha lim ks ≠ .panicked
  | [] => by simp [answersL, fateL]
  | k :: ks => by
    rw [answersL, fateL, ne_eq, worse_panicked]
    simp only [List.mem_append, not_or, forall_and]
    rw [answersL_panic]
    by_cases h : fateL sha lim ks = .panicked
    · simp [h]
    · rw [if_neg h, answers_panic]
end

mutual
theorem fits_fate {sha : Bytes → Bytes} {lim : Option Nat} (path : List Bytes) : ∀ k : DTree,
    (∀ x ∈ DTree.postOrder sha path k, x.total_size < U64 ∧ Within lim x) → fate sha lim k = .filled
  | .link _ _ _, _ => rfl
  | .dir n ks, h => by
    rw [fate, dirFate_filled]
    rw [DTree.postOrder] at h
    have := h (nodeOf sha (path ++ [n]) ks) (by simp)
    exact ⟨fits_fateL (path ++ [n]) ks (fun x hx => h x (by simp [hx])), within_iff.1 this.2, this.1⟩
theorem fits_fateL {sha : Bytes → Bytes} {lim : Option Nat} (path : List Bytes) : ∀ ks : List DTree,
    (∀ x ∈ DTree.postOrderL sha path ks, x.total_size < U64 ∧ Within lim x) → fateL sha lim ks = .filled
  | [], _ => rfl
  | k :: ks, h => by
    rw [DTree.postOrderL] at h
    rw [fateL, worse_filled]
    exact ⟨fits_fateL path ks (fun x hx => h x (by simp [hx])), fits_fate path k (fun x hx => h x (by simp [hx]))⟩
end

theorem dirFate_panicked {sha : Bytes → Bytes} {lim : Option Nat} (path : List Bytes) (ks : List DTree) :
    dirFate sha lim ks (fateL sha lim ks) ≠ .panicked ↔
      (∀ x ∈ DTree.postOrderL sha path ks, x.total_size < U64 ∧ Within lim x) ∧
      (Within lim (nodeOf sha path ks) → (nodeOf sha path ks).total_size < U64) := by
  cases hf : fateL sha lim ks with
  | filled =>
    have := fateL_fits sha path ks hf
    unfold dirFate
    rw [within_iff]
    show _ ↔ _ ∧ (tooLarge lim (dirBlock (DTree.items sha ks)).length = false → dirTotal (DTree.items sha ks) < U64)
    cases h : tooLarge lim (dirBlock (DTree.items sha ks)).length with
    | true => simpa using this
    | false =>
      by_cases h2 : dirTotal (DTree.items sha ks) < U64
      · simp only [h2]; simpa using this
      · simp [h2]
  | _ =>
    simp only [dirFate]
    refine ⟨fun h => absurd rfl h, fun h => ?_⟩
    rw [fits_fateL path ks h.1] at hf; cases hf

/-- When exactly no call ever panics: when, in the order of building, every directory but the last one is within the limit
and has a total size below 2^64, and so has the last one unless it is too large. (The full statement, for every builder,
is false: `C38_full_false`.) -/
theorem C38_exact_partial (sha : Bytes → Bytes) (hsha : ∀ b, (sha b).length = 32) (b : BufferingTreeBuilder) (hb : Obtainable b) :
    NeverPanics sha b.build ↔
      (∀ x ∈ (allNodes sha b.opts.wrap_with_directory (contents b)).dropLast, x.total_size < U64 ∧ Within b.opts.block_size_limit x) ∧
      (∀ x, (allNodes sha b.opts.wrap_with_directory (contents b)).getLast? = some x → Within b.opts.block_size_limit x →
        x.total_size < U64) := by
  have h0 : NeverPanics sha b.build ↔ ∀ p, IterNext.panic p ∉ allAnswers sha b.opts (contents b) := by
    rw [← firstAnswers_some]
    refine forall_congr' (fun n => ?_)
    rw [C60_all_answers sha hsha b hb n]
  rw [h0, allAnswers, allNodes]
  simp only [List.mem_append, not_or, forall_and]
  rw [answersL_panic]
  cases hw : b.opts.wrap_with_directory with
  | true =>
    simp only [if_true]
    rw [List.dropLast_concat]
    simp only [List.getLast?_append, List.getLast?_singleton, Option.some_or, Option.some.injEq, forall_eq']
    have hd := dirFate_panicked (sha := sha) (lim := b.opts.block_size_limit) [] (contents b)
    simp only [forall_and] at hd
    rw [← hd]
    by_cases h : fateL sha b.opts.block_size_limit (contents b) = .panicked
    · rw [h]; simp [dirFate]
    · rw [dirAnswer_panic h]; simp [h]
  | false =>
    simp only [Bool.false_eq_true, if_false, List.append_nil, List.not_mem_nil, not_false_eq_true, implies_true, and_true]
    have hlen : (contents b).length ≤ 1 := by
      obtain ⟨opts, ops, hops, rfl⟩ := hb
      exact C32_at_most_one opts (by rw [(runOps_inv (BInv.new opts) hops).2] at hw; exact hw) ops hops
    match hk : contents b, hlen with
    | [], _ => simp [fateL, DTree.postOrderL]
    | [.link _ _ _], _ => simp [fateL, fate, DTree.postOrderL, DTree.postOrder, Fate.worse]
    | [.dir n ks], _ =>
      rw [fateL, fateL, fate, DTree.postOrderL, DTree.postOrderL, DTree.postOrder, List.nil_append, List.dropLast_concat]
      simp only [List.getLast?_append, List.getLast?_singleton, Option.some_or, Option.some.injEq, forall_eq']
      have hd := dirFate_panicked (sha := sha) (lim := b.opts.block_size_limit) ([] ++ [n]) ks
      simp only [forall_and] at hd
      rw [← hd]
      cases dirFate sha b.opts.block_size_limit ks (fateL sha b.opts.block_size_limit ks) <;> simp [Fate.worse]

/-! ### cases -/

/-- A limit of 3 bytes: the first call returns the error for `a/c`, the second panics since `a` misses an entry. -/
example : allAnswers toySha smallLimit.opts (contents smallLimit) =
    [.failed (.TooLargeBlock 4), .panic .customPbMissing] := by decide +kernel

/-- The limit is met by `a/c` and `a/d` but not by `a`: two nodes, the error for `a`, and `None` forever. -/
def rootTooLarge : BufferingTreeBuilder :=
  (runOps (.new { wrap_with_directory := false, block_size_limit := some 10 }) [.setMetadata [97, 47, 99] {}, .setMetadata [97, 47, 100] {}]).2
theorem rootTooLarge_obtainable : Obtainable rootTooLarge := by
  refine ⟨_, _, ?_, rfl⟩
  intro op h
  simp only [List.mem_cons, List.not_mem_nil, or_false] at h
  rcases h with rfl | rfl
  · exact ⟨by decide, by decide⟩
  · exact ⟨by decide, by decide⟩
example : nexts toySha 5 rootTooLarge.build = some
    [.item ⟨[97, 47, 100], cidOf toySha [10, 2, 8, 1], 4, [10, 2, 8, 1]⟩, .item ⟨[97, 47, 99], cidOf toySha [10, 2, 8, 1], 4, [10, 2, 8, 1]⟩,
     .failed (.TooLargeBlock 94), .finished, .finished] := by
  rw [C60_all_answers toySha toySha_length _ rootTooLarge_obtainable]
  decide +kernel
example : NeverPanics toySha rootTooLarge.build := by
  rw [C38_exact_partial toySha toySha_length _ rootTooLarge_obtainable]
  have h1 : ∀ x ∈ (allNodes toySha rootTooLarge.opts.wrap_with_directory (contents rootTooLarge)).dropLast,
      x.total_size < U64 ∧ x.block.length ≤ 10 := by decide +kernel
  have h2 : ∀ x ∈ allNodes toySha rootTooLarge.opts.wrap_with_directory (contents rootTooLarge), x.total_size < U64 := by decide +kernel
  refine ⟨fun x hx => ⟨(h1 x hx).1, fun l hl => ?_⟩, fun x hx _ => h2 x (List.mem_of_getLast? hx)⟩
  have : rootTooLarge.opts.block_size_limit = some 10 := by decide +kernel
  rw [this] at hl; cases hl
  exact (h1 x hx).2

end Verif.Props
