import Verif.Access
import Verif.Props.BuildAll
/-
Property C76: the options of a directory tree builder, set in any order and any number of times.
-/
namespace Verif.Props
open Verif Verif.Spec

/-- A call of one of the two setters of `TreeOptions`. -/
inductive OptionCall where
  | limit (l : Option Nat)
  | wrap
  deriving DecidableEq, Repr

/-- `TreeOptions::default()` followed by calls of the setters. -/
def configured (calls : List OptionCall) : TreeOptions :=
  calls.foldl (fun o c => match c with
    | .limit l => o.setBlockSizeLimit l
    | .wrap => o.setWrapWithDirectory) {}

/-- The limit in force: the one set last, or 512 KiB. -/
def lastLimit (calls : List OptionCall) : Option Nat :=
  match (calls.filterMap (fun | .limit l => some l | .wrap => none)).getLast? with
  | some l => l
  | none => some 524288

theorem configured_eq (calls : List OptionCall) : configured calls = ⟨lastLimit calls, decide (.wrap ∈ calls)⟩ := by
  have gen : ∀ (calls : List OptionCall) (o : TreeOptions),
      calls.foldl (fun o c => match c with
        | .limit l => o.setBlockSizeLimit l
        | .wrap => o.setWrapWithDirectory) o =
      ⟨(match (calls.filterMap (fun | .limit l => some l | .wrap => none)).getLast? with
        | some l => l
        | none => o.block_size_limit), o.wrap_with_directory || decide (.wrap ∈ calls)⟩ := by
    intro calls
    induction calls with
    | nil => intro o; simp
    | cons c t ih =>
      intro o
      rw [List.foldl_cons, ih]
      cases c with
      | limit l =>
        simp only [TreeOptions.setBlockSizeLimit, List.filterMap_cons, List.getLast?_cons, List.mem_cons, reduceCtorEq, false_or]
        cases (t.filterMap (fun | .limit l => some l | .wrap => none)).getLast? <;> rfl
      | wrap =>
        simp only [TreeOptions.setWrapWithDirectory, List.filterMap_cons, List.mem_cons, true_or, decide_true, Bool.or_true, Bool.true_or]
  have := gen calls {}
  simpa [configured, lastLimit] using this

/-- C76, adding entries: a builder with configured options answers every operation as specified, where the tree is wrapped in a
directory if and only if the setter for that was called at all, however often and whenever. -/
theorem C76_operations (calls : List OptionCall) (ops : List Op) (hops : ∀ op ∈ ops, op.Ok) (op : Op) (hop : op.Ok) (cs : List Bytes)
    (hp : PathOf op.path cs) :
    (op.run (runOps (.new (configured calls)) ops).2).1 =
      match refusal (decide (.wrap ∈ calls)) (contents (runOps (.new (configured calls)) ops).2) op cs with
      | none => .ok ()
      | some e => .err e := by
  have hb : Obtainable (runOps (.new (configured calls)) ops).2 := ⟨_, ops, hops, rfl⟩
  have hopts : (runOps (.new (configured calls)) ops).2.opts = configured calls := (runOps_inv (BInv.new _) hops).2
  have hw : (configured calls).wrap_with_directory = decide (.wrap ∈ calls) := by rw [configured_eq]
  rw [C31_outcome _ hb op hop cs hp, hopts, hw]
  cases refusal (decide (.wrap ∈ calls)) (contents (runOps (.new (configured calls)) ops).2) op cs <;> rfl

/-- C76, building: the directory blocks are limited by the limit set last, or by 512 KiB if none was set; there is a block for the
root if and only if wrapping was asked for. -/
theorem C76_answers (sha : Bytes → Bytes) (hsha : ∀ b, (sha b).length = 32) (calls : List OptionCall) (ops : List Op)
    (hops : ∀ op ∈ ops, op.Ok) (n : Nat) :
    let b := (runOps (.new (configured calls)) ops).2
    nexts sha n b.build = firstAnswers n (answersL sha (lastLimit calls) [] (contents b) ++
      if .wrap ∈ calls then dirAnswer sha (lastLimit calls) [] (contents b) (fateL sha (lastLimit calls) (contents b)) else []) := by
  intro b
  have hb : Obtainable b := ⟨_, ops, hops, rfl⟩
  have hopts : b.opts = configured calls := (runOps_inv (BInv.new _) hops).2
  rw [C60_all_answers sha hsha b hb n, hopts, configured_eq]
  simp only [allAnswers, decide_eq_true_eq]

mutual
theorem no_large' {sha : Bytes → Bytes} (size : Nat)
    (nod : ∀ path ks f, IterNext.failed (.TooLargeBlock size) ∉ dirAnswer sha none path ks f) (path : List Bytes) :
    ∀ k : DTree, IterNext.failed (.TooLargeBlock size) ∉ answers sha none path k
  | .link _ _ _ => by simp [answers]
  | .dir n ks => by
    rw [answers]
    simp only [List.mem_append, not_or]
    exact ⟨no_large size nod _ ks, nod _ _ _⟩
theorem no_large {sha : Bytes → Bytes} (size : Nat)
    (nod : ∀ path ks f, IterNext.failed (.TooLargeBlock size) ∉ dirAnswer sha none path ks f) (path : List Bytes) :
    ∀ ks : List DTree, IterNext.failed (.TooLargeBlock size) ∉ answersL sha none path ks
  | [] => by simp [answersL]
  | k :: ks => by
    rw [answersL]
    simp only [List.mem_append, not_or]
    refine ⟨no_large size nod path ks, ?_⟩
    split
    · simp
    · exact no_large' size nod path k
end

/-- C76: with the limit switched off at last no directory is too large. -/
theorem C76_unlimited (sha : Bytes → Bytes) (hsha : ∀ b, (sha b).length = 32) (calls : List OptionCall) (ops : List Op)
    (hops : ∀ op ∈ ops, op.Ok) (n : Nat) (as : List IterNext) (size : Nat)
    (h : nexts sha n (runOps (.new (configured (calls ++ [.limit none]))) ops).2.build = some as) :
    IterNext.failed (.TooLargeBlock size) ∉ as := by
  rw [C76_answers sha hsha _ ops hops n] at h
  have hl : lastLimit (calls ++ [.limit none]) = none := by
    simp [lastLimit]
  rw [hl] at h
  have nod : ∀ path ks f, IterNext.failed (.TooLargeBlock size) ∉ dirAnswer sha none path ks f := by
    intro path ks f
    cases f <;> simp only [dirAnswer, tooLarge, Bool.false_eq_true, if_false] <;> (try split) <;> simp
  have nol : ∀ (path : List Bytes) (ks : List DTree), IterNext.failed (.TooLargeBlock size) ∉ answersL sha none path ks :=
    fun path ks => no_large size nod path ks
  intro hm
  have sub : ∀ (n : Nat) (l as : List IterNext), firstAnswers n l = some as → ∀ a ∈ as, a ∈ l ∨ a = .finished := by
    intro n
    induction n with
    | zero => intro l as h; simp only [firstAnswers, Option.some.injEq] at h; subst h; simp
    | succ n ih =>
      intro l as h a ha
      cases l with
      | nil =>
        rw [firstAnswers] at h
        obtain ⟨r, h1, rfl⟩ := Option.map_eq_some_iff.1 h
        rcases List.mem_cons.1 ha with rfl | ha
        · exact .inr rfl
        · rcases ih _ _ h1 a ha with h | h
          · cases h
          · exact .inr h
      | cons x l =>
        cases x with
        | panic p => simp [firstAnswers] at h
        | _ =>
          rw [firstAnswers] at h
          · obtain ⟨r, h1, rfl⟩ := Option.map_eq_some_iff.1 h
            rcases List.mem_cons.1 ha with rfl | ha
            · exact .inl (by simp)
            · rcases ih _ _ h1 a ha with h | h
              · exact .inl (by simp [h])
              · exact .inr h
          · intro p h; cases h
  rcases sub _ _ _ h _ hm with h | h
  · rcases List.mem_append.1 h with h | h
    · exact nol _ _ h
    · split at h
      · exact nod _ _ _ h
      · cases h
  · cases h

/-- Set twice, with wrapping in between: the last limit counts, and the tree is wrapped. -/
example : configured [.limit (some 7), .wrap, .limit none, .wrap, .limit (some 10)] = ⟨some 10, true⟩ ∧
    lastLimit [.limit (some 7), .wrap, .limit none, .wrap, .limit (some 10)] = some 10 ∧ lastLimit [.wrap] = some 524288 := by decide

example : (runOps (.new (configured [.wrap, .wrap])) sampleOps).1.length = sampleOps.length ∧ ∀ op ∈ sampleOps, op.Ok :=
  ⟨by decide +kernel, sampleOps_ok⟩

end Verif.Props
