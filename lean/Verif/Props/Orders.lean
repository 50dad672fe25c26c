import Verif.Spec.Orders
import Verif.Props.BuildAll
/-
C62: what is built depends only on which calls were successful.
-/
namespace Verif.Props
open Verif Verif.Spec

/-- Histories whose successful calls want the same things at the same paths - in whatever order, whichever other calls failed
between them, and whatever the metadata - lead to the same tree. -/
theorem same_contents (opts opts' : TreeOptions) (ops ops' : List Op) (hops : ∀ op ∈ ops, op.Ok) (hops' : ∀ op ∈ ops', op.Ok)
    (h : ∀ op ∈ successes (.new opts) ops, ∃ op' ∈ successes (.new opts') ops', SameCall op op')
    (h' : ∀ op' ∈ successes (.new opts') ops', ∃ op ∈ successes (.new opts) ops, SameCall op' op) :
    contents (runOps (.new opts) ops).2 = contents (runOps (.new opts') ops').2 := by
  refine lookup_ext _ _ (contents_sorted ⟨opts, ops, hops, rfl⟩) (contents_sorted ⟨opts', ops', hops', rfl⟩) ?_
  intro q
  have link : ∀ (A B : List Op), (∀ op ∈ A, ∃ op' ∈ B, SameCall op op') → ∀ c s, LinkedBy A q c s → LinkedBy B q c s := by
    rintro A B hAB c s ⟨p, hm, hp⟩
    obtain ⟨op', hm', h1, h2⟩ := hAB _ hm
    cases op' with
    | putLink p' c' s' =>
      simp only [Op.path, Op.thing, Thing.link.injEq] at h1 h2
      obtain ⟨rfl, rfl⟩ := h2
      exact ⟨p', hm', h1 ▸ hp⟩
    | setMetadata p' md => cases h2
  have dir : ∀ (A B : List Op), (∀ op ∈ A, ∃ op' ∈ B, SameCall op op') → DirBy A q → DirBy B q := by
    rintro A B hAB (h | ⟨op, hm, cs, hp, hpre, ht⟩)
    · exact .inl h
    · obtain ⟨op', hm', h1, h2⟩ := hAB _ hm
      exact .inr ⟨op', hm', cs, h1 ▸ hp, hpre, h2 ▸ ht⟩
  obtain ⟨h1, h2⟩ := C31_history opts ops hops q
  obtain ⟨h1', h2'⟩ := C31_history opts' ops' hops' q
  have hl : ∀ c s, lookupPath q (contents (runOps (.new opts) ops).2) = some (.link c s) ↔
      lookupPath q (contents (runOps (.new opts') ops').2) = some (.link c s) := by
    intro c s; rw [h1, h1']; exact ⟨link _ _ h c s, link _ _ h' c s⟩
  have hd : lookupPath q (contents (runOps (.new opts) ops).2) = some .dir ↔
      lookupPath q (contents (runOps (.new opts') ops').2) = some .dir := by
    rw [h2, h2']; exact ⟨dir _ _ h, dir _ _ h'⟩
  cases hk : lookupPath q (contents (runOps (.new opts) ops).2) with
  | none =>
    cases hk' : lookupPath q (contents (runOps (.new opts') ops').2) with
    | none => rfl
    | some t =>
      cases t with
      | link c s => rw [(hl c s).2 hk'] at hk; cases hk
      | dir => rw [hd.2 hk'] at hk; cases hk
  | some t =>
    cases t with
    | link c s => exact ((hl c s).1 hk).symm
    | dir => exact (hd.1 hk).symm

theorem run_opts (opts : TreeOptions) (ops : List Op) (hops : ∀ op ∈ ops, op.Ok) : (runOps (.new opts) ops).2.opts = opts :=
  (runOps_inv (BInv.new opts) hops).2

/-- Such histories with the same options lead to the same answers of the iterator, however often it is called: the same nodes with
the same blocks in the same order, the same errors, the same panics. -/
theorem C62_answers (sha : Bytes → Bytes) (hsha : ∀ b, (sha b).length = 32) (opts : TreeOptions) (ops ops' : List Op)
    (hops : ∀ op ∈ ops, op.Ok) (hops' : ∀ op ∈ ops', op.Ok)
    (h : ∀ op ∈ successes (.new opts) ops, ∃ op' ∈ successes (.new opts) ops', SameCall op op')
    (h' : ∀ op' ∈ successes (.new opts) ops', ∃ op ∈ successes (.new opts) ops, SameCall op' op) (n : Nat) :
    nexts sha n (runOps (.new opts) ops).2.build = nexts sha n (runOps (.new opts) ops').2.build := by
  rw [C60_all_answers sha hsha _ ⟨opts, ops, hops, rfl⟩, C60_all_answers sha hsha _ ⟨opts, ops', hops', rfl⟩,
    run_opts opts ops hops, run_opts opts ops' hops', same_contents opts opts ops ops' hops hops' h h']

/-! ### Which calls are compatible -/

theorem compatible_symm {a b : Op} (h : Compatible a b) : Compatible b a :=
  fun p q hp hq => ⟨(h q p hq hp).2, (h q p hq hp).1⟩

theorem successes_length (b : BufferingTreeBuilder) (ops : List Op) : (successes b ops).length ≤ ops.length := by
  induction ops generalizing b with
  | nil => simp [successes]
  | cons op ops ih =>
    have := ih (op.run b).2
    rw [successes]
    split <;> simp <;> omega

/-- All calls of a history are successful (wrapping) if and only if all paths are well-formed and the calls are pairwise
compatible: in particular this does not depend on their order. -/
theorem C62_all_successful (opts : TreeOptions) (hw : opts.wrap_with_directory = true) (ops : List Op) (hops : ∀ op ∈ ops, op.Ok) :
    successes (.new opts) ops = ops ↔ (∀ op ∈ ops, ∃ cs, PathOf op.path cs) ∧ ops.Pairwise Compatible := by
  suffices hs : ∀ n (ops : List Op), ops.length = n → (∀ op ∈ ops, op.Ok) →
      (successes (.new opts) ops = ops ↔ (∀ op ∈ ops, ∃ cs, PathOf op.path cs) ∧ ops.Pairwise Compatible) from hs _ ops rfl hops
  clear hops ops
  intro n
  induction n with
  | zero =>
    intro ops hl _
    rw [List.length_eq_zero_iff.1 hl]
    simp [successes]
  | succ n ih =>
    intro ops hl hops
    obtain ⟨init, op, rfl⟩ : ∃ init op, ops = init ++ [op] :=
      ⟨ops.dropLast, ops.getLast (by intro h; rw [h] at hl; cases hl), (List.dropLast_concat_getLast _).symm⟩
    have hinit : ∀ op ∈ init, op.Ok := fun x hx => hops x (by simp [hx])
    have hop : op.Ok := hops op (by simp)
    have hIH := ih init (by simpa using hl) hinit
    have hsplit : successes (.new opts) (init ++ [op]) = init ++ [op] ↔
        successes (.new opts) init = init ∧ (op.run (runOps (.new opts) init).2).1 = .ok () := by
      rw [successes_append]
      simp only [successes, List.append_nil]
      constructor
      · intro h
        by_cases hok : (op.run (runOps (.new opts) init).2).1 = .ok ()
        · rw [if_pos hok] at h
          exact ⟨(List.append_inj' h rfl).1, hok⟩
        · rw [if_neg hok] at h
          have := congrArg List.length h
          have h2 := successes_length (.new opts) init
          simp at this
          omega
      · rintro ⟨h1, h2⟩
        rw [h1, if_pos h2]
    have hone : successes (.new opts) init = init → ((op.run (runOps (.new opts) init).2).1 = .ok () ↔
        (∃ cs, PathOf op.path cs) ∧ ∀ a ∈ init, Compatible a op) := by
      intro hi
      by_cases hp : ∃ cs, PathOf op.path cs
      · obtain ⟨cs, hp⟩ := hp
        have huniq : ∀ {q}, PathOf op.path q → q = cs := fun h => (C29_components op.path).2 _ _ h hp
        cases op with
        | putLink p c s =>
          rw [C31_put_iff opts hw init hinit p c s hop cs hp, hi]
          constructor
          · rintro ⟨h1, h2⟩
            refine ⟨⟨cs, hp⟩, fun a ha x y hx hy => ?_⟩
            obtain rfl := huniq hy
            cases a with
            | putLink p' c' s' =>
              have := h1 x c' s' ⟨p', ha, hx⟩
              exact ⟨fun _ => this.1, fun _ => this.2⟩
            | setMetadata p' md => exact ⟨fun h => h.elim, fun _ => h2 md p' ha x hx⟩
          · rintro ⟨-, h⟩
            refine ⟨?_, ?_⟩
            · rintro q c' s' ⟨p', ha, hq⟩
              have := h _ ha q cs hq hp
              exact ⟨this.1 trivial, this.2 trivial⟩
            · intro md p' ha q hq
              exact (h _ ha q cs hq hp).2 trivial
        | setMetadata p md =>
          rw [C31_set_metadata_iff opts hw init hinit p md hop cs hp, hi]
          constructor
          · intro h1
            refine ⟨⟨cs, hp⟩, fun a ha x y hx hy => ?_⟩
            obtain rfl := huniq hy
            refine ⟨fun ha' => ?_, fun h => h.elim⟩
            cases a with
            | putLink p' c' s' => exact h1 x c' s' ⟨p', ha, hx⟩
            | setMetadata p' md => exact ha'.elim
          · rintro ⟨-, h⟩ q c' s' ⟨p', ha, hq⟩
            exact (h _ ha q cs hq hp).1 trivial
      · refine ⟨fun hok => absurd ?_ hp, fun h => absurd h.1 hp⟩
        rw [(C29_components op.path).1]
        have hrej := C29_rejected (runOps (.new opts) init).2 op
        rw [hok] at hrej
        have g1 : ¬ ∃ q, op.path = q ++ [slash] := fun h => by cases hrej.1 h
        have g2 : ¬ ∃ x y, op.path = x ++ slash :: slash :: y := fun h => by cases hrej.2.1 g1 h
        exact ⟨g1, g2, fun h => by cases hrej.2.2 g1 g2 h⟩
    rw [hsplit, List.pairwise_append]
    constructor
    · rintro ⟨h1, h2⟩
      obtain ⟨g1, g2⟩ := (hone h1).1 h2
      obtain ⟨e1, e2⟩ := hIH.1 h1
      refine ⟨?_, e2, by simp, ?_⟩
      · intro x hx
        rcases List.mem_append.1 hx with hx | hx
        · exact e1 x hx
        · rw [List.mem_singleton.1 hx]; exact g1
      · intro a ha b hb
        rw [List.mem_singleton.1 hb]; exact g2 a ha
    · rintro ⟨h1, h2, -, h3⟩
      have hi := hIH.2 ⟨fun x hx => h1 x (by simp [hx]), h2⟩
      exact ⟨hi, (hone hi).2 ⟨h1 op (by simp), fun a ha => h3 a ha op (by simp)⟩⟩

/-- If all calls of a history are successful (wrapping), then so are the same calls in any other order, and they lead to the same
answers of the iterator. -/
theorem C62_permuted (sha : Bytes → Bytes) (hsha : ∀ b, (sha b).length = 32) (opts : TreeOptions)
    (hw : opts.wrap_with_directory = true) (ops ops' : List Op) (hops : ∀ op ∈ ops, op.Ok) (hperm : ops.Perm ops')
    (hall : successes (.new opts) ops = ops) :
    successes (.new opts) ops' = ops' ∧
    ∀ n, nexts sha n (runOps (.new opts) ops).2.build = nexts sha n (runOps (.new opts) ops').2.build := by
  have hops' : ∀ op ∈ ops', op.Ok := fun x hx => hops x (hperm.mem_iff.2 hx)
  obtain ⟨h1, h2⟩ := (C62_all_successful opts hw ops hops).1 hall
  have hall' : successes (.new opts) ops' = ops' :=
    (C62_all_successful opts hw ops' hops').2 ⟨fun x hx => h1 x (hperm.mem_iff.2 hx), (hperm.pairwise_iff compatible_symm).1 h2⟩
  refine ⟨hall', C62_answers sha hsha opts ops ops' hops hops' ?_ ?_⟩
  · rw [hall, hall']; exact fun x hx => ⟨x, hperm.mem_iff.1 hx, rfl, rfl⟩
  · rw [hall, hall']; exact fun x hx => ⟨x, hperm.mem_iff.2 hx, rfl, rfl⟩

theorem sampleOps_successes : successes (.new wrapping) sampleOps = sampleOps := by
  rw [show sampleOps = [.putLink [97, 47, 98] (cidOf toySha [1]) 1, .setMetadata [97, 47, 99] {}] from rfl]
  simp only [successes]
  rw [if_pos (by decide +kernel), if_pos (by decide +kernel)]; rfl

/-- The sample calls are both successful, and the other way round they are, too. -/
example : successes (.new wrapping) sampleOps.reverse = sampleOps.reverse ∧
    ∀ n, nexts toySha n (runOps (.new wrapping) sampleOps).2.build = nexts toySha n (runOps (.new wrapping) sampleOps.reverse).2.build :=
  C62_permuted toySha toySha_length wrapping rfl sampleOps _ sampleOps_ok (List.reverse_perm _).symm sampleOps_successes

/-- Wrapping is needed: without it, `set_metadata("a")` and `put_link("a/b")` are successful in this order only. -/
example : (runOps (.new {}) [.setMetadata [97] {}, .putLink [97, 47, 98] (cidOf toySha [1]) 1]).1 = [.ok (), .ok ()] ∧
    (runOps (.new {}) [.putLink [97, 47, 98] (cidOf toySha [1]) 1, .setMetadata [97] {}]).1 = [.ok (), .err .TooManyRootLevelEntries] := by
  decide +kernel

end Verif.Props
