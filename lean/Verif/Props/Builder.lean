import Verif.BuilderTree
import Verif.Props.Dir
/-
Properties of the directory builder: C29, C30, C31, C32, C54.
-/
namespace Verif.Props
open Verif Verif.Spec

theorem obtainable_inv {b : BufferingTreeBuilder} (h : Obtainable b) : BInv b := by
  obtain ⟨opts, ops, hok, rfl⟩ := h
  exact (runOps_inv (BInv.new opts) hok).1

theorem runOps_append (b : BufferingTreeBuilder) (xs ys : List Op) :
    (runOps b (xs ++ ys)).2 = (runOps (runOps b xs).2 ys).2 ∧
    (runOps b (xs ++ ys)).1 = (runOps b xs).1 ++ (runOps (runOps b xs).2 ys).1 := by
  induction xs generalizing b with
  | nil => exact ⟨rfl, rfl⟩
  | cons x xs ih =>
    simp only [List.cons_append, runOps]
    exact ⟨(ih _).1, by rw [(ih _).2]⟩

theorem successes_append (b : BufferingTreeBuilder) (xs ys : List Op) :
    successes b (xs ++ ys) = successes b xs ++ successes (runOps b xs).2 ys := by
  induction xs generalizing b with
  | nil => rfl
  | cons x xs ih => simp only [List.cons_append, successes, runOps, ih, List.append_assoc]

theorem obtainable_new (opts : TreeOptions) : Obtainable (.new opts) := ⟨opts, [], by simp, rfl⟩

theorem obtainable_run {b : BufferingTreeBuilder} (h : Obtainable b) {op : Op} (hop : op.Ok) : Obtainable (op.run b).2 := by
  obtain ⟨opts, ops, hok, rfl⟩ := h
  refine ⟨opts, ops ++ [op], ?_, ?_⟩
  · intro o ho
    rcases List.mem_append.1 ho with ho | ho
    · exact hok o ho
    · rw [List.mem_singleton] at ho; subst ho; exact hop
  · rw [(runOps_append _ _ _).1]; rfl

/-! ### C29 -/

/-- Which paths are rejected for their shape, and how. -/
theorem C29_rejected (b : BufferingTreeBuilder) (op : Op) :
    ((∃ q, op.path = q ++ [slash]) → (op.run b).1 = .err (.PathEndsInSlash op.path)) ∧
    ((¬ ∃ q, op.path = q ++ [slash]) → (∃ x y, op.path = x ++ slash :: slash :: y) →
      (op.run b).1 = .err (.RepeatSlashesInPath op.path)) ∧
    ((¬ ∃ q, op.path = q ++ [slash]) → (¬ ∃ x y, op.path = x ++ slash :: slash :: y) → (∃ q, op.path = slash :: q) →
      (op.run b).1 = .err (.RootedPath op.path)) :=
  ⟨fun h => by rw [run_endsWithSlash op b h], fun h1 h => by rw [run_repeat op b h1 h],
    fun h1 h2 h => by rw [run_rooted op b h1 h2 h]⟩

theorem refusal_kind {wrap ks op cs e} (h : refusal wrap ks op cs = some e) :
    (e = .TooManyRootLevelEntries ∨ e = .LeafAsDirectory op.path ∨ e = .DuplicatePath op.path) := by
  unfold refusal at h
  split at h
  · cases h; exact .inl rfl
  · split at h
    · cases h; exact .inr (.inl rfl)
    · split at h
      · cases h; exact .inr (.inr rfl)
      · cases h; exact .inr (.inl rfl)
      · cases h

/-- Every other path has components, and is never rejected for its shape. -/
theorem C29_accepted (b : BufferingTreeBuilder) (hb : Obtainable b) (op : Op) (hop : op.Ok)
    (h1 : ¬ ∃ q, op.path = q ++ [slash]) (h2 : ¬ ∃ x y, op.path = x ++ slash :: slash :: y) (h3 : ¬ ∃ q, op.path = slash :: q) :
    (∃ cs, PathOf op.path cs) ∧
    ((op.run b).1 = .ok () ∨ ∃ e, (op.run b).1 = .err e ∧
      (e = .TooManyRootLevelEntries ∨ e = .LeafAsDirectory op.path ∨ e = .DuplicatePath op.path)) := by
  refine ⟨⟨_, pathOf_split op.path h1 h2 h3⟩, ?_⟩
  rcases run_path (obtainable_inv hb) hop (pathOf_split op.path h1 h2 h3) with ⟨e, he, h⟩ | ⟨_, b', h, _⟩
  · right; exact ⟨e, by rw [h], refusal_kind he⟩
  · left; rw [h]

/-- The paths with components are exactly those not rejected for their shape, and the components are determined. -/
theorem C29_components (p : Bytes) :
    ((∃ cs, PathOf p cs) ↔ (¬ ∃ q, p = q ++ [slash]) ∧ (¬ ∃ x y, p = x ++ slash :: slash :: y) ∧ ¬ ∃ q, p = slash :: q) ∧
    (∀ cs cs', PathOf p cs → PathOf p cs' → cs = cs') :=
  ⟨⟨fun ⟨_, h⟩ => pathOf_shape h, fun ⟨h1, h2, h3⟩ => ⟨_, pathOf_split p h1 h2 h3⟩⟩,
    fun _ _ h h' => (pathOf_unique h).symm.trans (pathOf_unique h')⟩

/-- The empty path is accepted as a name. -/
example : ((Op.putLink [] (cidOf toySha []) 1).run (.new {})).1 = .ok () := by decide +kernel
/-- `a/b` -/
example : ((Op.putLink [97, 47, 98] (cidOf toySha []) 1).run (.new {})).1 = .ok () := by decide +kernel
/-- `a//b/` -/
example : ((Op.putLink [97, 47, 47, 98, 47] (cidOf toySha []) 1).run (.new {})).1 =
    .err (.PathEndsInSlash [97, 47, 47, 98, 47]) := by decide +kernel
/-- `/a` -/
example : ((Op.putLink [47, 97] (cidOf toySha []) 1).run (.new {})).1 = .err (.RootedPath [47, 97]) := by decide +kernel
example : (Op.putLink [97, 47, 98] (cidOf toySha []) 1).Ok := by
  refine ⟨by unfold NameOk; decide, by decide, by decide⟩

/-! ### C54 -/

/-- No call of the builder panics. -/
theorem C54_no_panic (b : BufferingTreeBuilder) (hb : Obtainable b) (op : Op) (hop : op.Ok) (p : Panic) :
    (op.run b).1 ≠ .panic p := by
  rcases (run_inv (obtainable_inv hb) hop).2.2 with h | ⟨⟨e, h⟩, _⟩ <;> rw [h] <;> simp

/-! ### C30 -/

/-- The same up to the capacity hint. -/
def SameBuilder (b b' : BufferingTreeBuilder) : Prop :=
  b'.root_builder = b.root_builder ∧ b'.counter = b.counter ∧ b'.opts = b.opts

theorem sameBuilder_run {b b' : BufferingTreeBuilder} (h : SameBuilder b b') (op : Op) :
    (op.run b').1 = (op.run b).1 ∧ SameBuilder (op.run b).2 (op.run b').2 := by
  obtain ⟨h1, h2, h3⟩ := h
  rw [op.run_eq, op.run_eq]
  unfold BufferingTreeBuilder.modifyWith SameBuilder
  simp only [h1, h2, h3]
  split
  · simp [h1, h2, h3]
  · split
    · simp [h1, h2, h3]
    · simp

theorem sameBuilder_runOps {b b' : BufferingTreeBuilder} (h : SameBuilder b b') (ops : List Op) :
    (runOps b' ops).1 = (runOps b ops).1 ∧ SameBuilder (runOps b ops).2 (runOps b' ops).2 := by
  induction ops generalizing b b' with
  | nil => exact ⟨rfl, h⟩
  | cons op ops ih =>
    obtain ⟨h1, h2⟩ := sameBuilder_run h op
    obtain ⟨h3, h4⟩ := ih h2
    exact ⟨by simp only [runOps, h1, h3], h4⟩

/-- After a failed call, every series of later calls returns the same and builds the same as without that call. -/
theorem C30_failed_unobservable (b : BufferingTreeBuilder) (hb : Obtainable b) (op : Op) (hop : op.Ok)
    (hfail : (op.run b).1 ≠ .ok ()) (later : List Op) :
    (runOps (op.run b).2 later).1 = (runOps b later).1 ∧ (runOps (op.run b).2 later).2.build = (runOps b later).2.build := by
  rcases (run_inv (obtainable_inv hb) hop).2.2 with h | ⟨_, h⟩
  · exact absurd h hfail
  · rw [h]
    have := sameBuilder_runOps (b := b) (b' := b.touched op.path) ⟨rfl, rfl, rfl⟩ later
    refine ⟨this.1, ?_⟩
    obtain ⟨_, h1, _, h3⟩ := this
    simp only [BufferingTreeBuilder.build, h1, h3]

/-- A failed call leaves the tree itself as it was. -/
theorem C30_failed_contents (b : BufferingTreeBuilder) (hb : Obtainable b) (op : Op) (hop : op.Ok)
    (hfail : (op.run b).1 ≠ .ok ()) : contents (op.run b).2 = contents b := by
  rcases (run_inv (obtainable_inv hb) hop).2.2 with h | ⟨_, h⟩
  · exact absurd h hfail
  · rw [h]; rfl

/-- `put_link("a/b")`, then `put_link("a/b/c")` fails. -/
example : (runOps (.new {}) [.putLink [97, 47, 98] (cidOf toySha []) 1, .putLink [97, 47, 98, 47, 99] (cidOf toySha []) 1]).1 =
    [.ok (), .err (.LeafAsDirectory [97, 47, 98, 47, 99])] := by decide +kernel

/-! ### C31 -/

/-- Which calls succeed, and how the others fail, as a function of what is in the tree. -/
theorem C31_outcome (b : BufferingTreeBuilder) (hb : Obtainable b) (op : Op) (hop : op.Ok) (cs : List Bytes)
    (hp : PathOf op.path cs) :
    (op.run b).1 = match refusal b.opts.wrap_with_directory (contents b) op cs with
      | none => .ok ()
      | some e => .err e := by
  rcases run_path (obtainable_inv hb) hop hp with ⟨e, he, h⟩ | ⟨he, b', h, _⟩ <;> rw [he, h]

/-- After a successful call: the link (or directory) is at its path, directories lead to it, and nothing else changed. -/
theorem C31_update (b : BufferingTreeBuilder) (hb : Obtainable b) (op : Op) (hop : op.Ok) (cs : List Bytes)
    (hp : PathOf op.path cs) (hok : (op.run b).1 = .ok ()) (q : List Bytes) :
    lookupPath q (contents (op.run b).2) = after op.thing cs (contents b) q := by
  rcases run_path (obtainable_inv hb) hop hp with ⟨e, he, h⟩ | ⟨he, b', h, _, _, _, hq⟩
  · rw [h] at hok; cases hok
  · rw [h]; exact hq q

/-- What a history of successful calls says about `q`: a link. -/
def LinkedBy (ops : List Op) (q : List Bytes) (c : Cid) (s : Nat) : Prop := ∃ p, Op.putLink p c s ∈ ops ∧ PathOf p q

/-- What a history of successful calls says about `q`: a directory, which is the root, or leads to something, or was asked
for by `set_metadata`. -/
def DirBy (ops : List Op) (q : List Bytes) : Prop :=
  q = [] ∨ ∃ op ∈ ops, ∃ cs, PathOf op.path cs ∧ q <+: cs ∧ (q ≠ cs ∨ op.thing = .dir)

theorem refusal_none {wrap ks op cs} (h : refusal wrap ks op cs = none) :
    (∀ i < cs.length, ¬ isLink (lookupPath (cs.take i) ks)) ∧ ¬ isLink (lookupPath cs ks) ∧
    (∀ c s, op.thing = .link c s → lookupPath cs ks = none) := by
  unfold refusal at h
  split at h
  · cases h
  · split at h
    · cases h
    · rename_i hne
      refine ⟨fun i hi hl => hne ⟨i, hi, hl⟩, ?_⟩
      split at h
      · cases h
      · cases h
      · rename_i o _ _ h1 h2
        cases o with
        | putLink p c s =>
          cases hl : lookupPath cs ks with
          | none => exact ⟨id, fun _ _ _ => rfl⟩
          | some t => exact absurd hl (h1 p c s t rfl)
        | setMetadata p md =>
          refine ⟨?_, fun c s h => by cases h⟩
          cases hl : lookupPath cs ks with
          | none => exact id
          | some t => cases t with
            | link c s => exact absurd hl (h2 p md c s rfl)
            | dir => exact id

theorem path_join {cs : List Bytes} {p} (h : PathOf p cs) {q} (hq : q <+: cs) (hne : q ≠ []) : PathOf (joinSlash q) q := by
  obtain ⟨_, h1, h2, h3⟩ := h
  refine ⟨rfl, hne, fun c hc => h2 c (hq.subset hc), ?_⟩
  rcases h3 with rfl | h3
  · left
    rcases List.prefix_cons_iff.1 hq with h | ⟨t, rfl, ht⟩
    · exact absurd h hne
    · rw [List.prefix_nil.1 ht]
  · right; exact fun c hc => h3 c (hq.subset hc)

/-- The tree after any history is determined by the successful calls: it has exactly the links put, and exactly the
directories leading to them or asked for by `set_metadata`. -/
theorem C31_history (opts : TreeOptions) (ops : List Op) (hops : ∀ op ∈ ops, op.Ok) (q : List Bytes) :
    (∀ c s, lookupPath q (contents (runOps (.new opts) ops).2) = some (.link c s) ↔
      LinkedBy (successes (.new opts) ops) q c s) ∧
    (lookupPath q (contents (runOps (.new opts) ops).2) = some .dir ↔ DirBy (successes (.new opts) ops) q) := by
  suffices h : ∀ n (ops : List Op), ops.length = n → (∀ op ∈ ops, op.Ok) → ∀ q,
      (∀ c s, lookupPath q (contents (runOps (.new opts) ops).2) = some (.link c s) ↔
        LinkedBy (successes (.new opts) ops) q c s) ∧
      (lookupPath q (contents (runOps (.new opts) ops).2) = some .dir ↔ DirBy (successes (.new opts) ops) q) from
    h ops.length ops rfl hops q
  clear hops q ops
  intro n
  induction n with
  | zero =>
    intro ops hl _ q
    have : ops = [] := List.length_eq_zero_iff.1 hl
    subst this
    have hc : contents (runOps (.new opts) []).2 = [] := rfl
    rw [hc]
    simp only [successes, LinkedBy, DirBy, List.not_mem_nil, false_and, exists_false, iff_false, or_false]
    cases q with
    | nil => simp [lookupPath_nil]
    | cons x q => simp [lookupPath, kid]
  | succ n ih =>
    intro ops hl hops q
    obtain ⟨xs, op, rfl⟩ : ∃ xs op, ops = xs ++ [op] :=
      ⟨ops.dropLast, ops.getLast (by intro h; simp [h] at hl), (List.dropLast_concat_getLast _).symm⟩
    have hxs : ∀ op ∈ xs, op.Ok := fun o ho => hops o (by simp [ho])
    have hop : op.Ok := hops op (by simp)
    have hb : Obtainable (runOps (.new opts) xs).2 := ⟨opts, xs, hxs, rfl⟩
    have hIH := ih xs (by simpa using hl) hxs
    rw [(runOps_append _ _ _).1, successes_append]
    generalize hB : (runOps (.new opts) xs).2 = b at *
    generalize hS : successes (.new opts) xs = S at *
    simp only [runOps, successes, List.append_nil]
    by_cases hres : (op.run b).1 = .ok ()
    · rw [if_pos hres]
      by_cases hshape : ∃ cs, PathOf op.path cs
      · obtain ⟨cs, hp⟩ := hshape
        have hup := C31_update b hb op hop cs hp hres q
        have hout := C31_outcome b hb op hop cs hp
        rw [hres] at hout
        have href : refusal b.opts.wrap_with_directory (contents b) op cs = none := by
          cases hr : refusal b.opts.wrap_with_directory (contents b) op cs with
          | none => rfl
          | some e => rw [hr] at hout; cases hout
        obtain ⟨r1, r2, r3⟩ := refusal_none href
        have hcs : cs ≠ [] := hp.2.1
        have hlinked : ∀ q c s, LinkedBy (S ++ [op]) q c s ↔ LinkedBy S q c s ∨ (q = cs ∧ op.thing = .link c s) := by
          intro q c s
          constructor
          · rintro ⟨p, hm, hq⟩
            rcases List.mem_append.1 hm with hm | hm
            · exact .inl ⟨p, hm, hq⟩
            · rw [List.mem_singleton] at hm
              subst hm
              exact .inr ⟨(C29_components p).2 q cs hq hp, rfl⟩
          · rintro (⟨p, hm, hq⟩ | ⟨rfl, ht⟩)
            · exact ⟨p, by simp [hm], hq⟩
            · cases op with
              | putLink p c' s' => cases ht; exact ⟨p, by simp, hp⟩
              | setMetadata p md => cases ht
        have hdir : ∀ q, DirBy (S ++ [op]) q ↔ DirBy S q ∨ (q <+: cs ∧ (q ≠ cs ∨ op.thing = .dir)) := by
          intro q
          constructor
          · rintro (h | ⟨o, hm, cs', hcs', h⟩)
            · exact .inl (.inl h)
            · rcases List.mem_append.1 hm with hm | hm
              · exact .inl (.inr ⟨o, hm, cs', hcs', h⟩)
              · rw [List.mem_singleton] at hm
                subst hm
                rw [(C29_components o.path).2 cs' cs hcs' hp] at h
                exact .inr h
          · rintro ((h | ⟨o, hm, cs', hcs', h⟩) | h)
            · exact .inl h
            · exact .inr ⟨o, by simp [hm], cs', hcs', h⟩
            · exact .inr ⟨op, by simp, cs, hp, h⟩
        rw [hup, hdir]
        refine ⟨fun c s => ?_, ?_⟩
        · rw [hlinked, ← (hIH q).1]
          unfold after
          by_cases h1 : q = cs
          · subst h1
            rw [if_pos rfl]
            simp only [Option.some.injEq, true_and]
            constructor
            · exact .inr
            · rintro (h | h)
              · rw [h] at r2; exact absurd trivial r2
              · exact h
          · rw [if_neg h1]
            simp only [h1, false_and, or_false]
            by_cases h2 : q <+: cs
            · rw [if_pos h2]
              simp only [Option.some.injEq, reduceCtorEq, false_iff]
              intro h
              have hlen : q.length < cs.length := by
                have := h2.length_le
                rcases Nat.lt_or_ge q.length cs.length with h | h
                · exact h
                · exact absurd (h2.eq_of_length (by omega)) h1
              have := r1 q.length hlen
              rw [← List.prefix_iff_eq_take.1 h2, h] at this
              exact this trivial
            · rw [if_neg h2]
        · rw [← (hIH q).2]
          unfold after
          by_cases h1 : q = cs
          · subst h1
            rw [if_pos rfl]
            simp only [Option.some.injEq, ne_eq, not_true, false_or, List.prefix_refl, true_and]
            constructor
            · exact .inr
            · rintro (h | h)
              · cases ht : op.thing with
                | dir => rfl
                | link c s => rw [r3 c s ht] at h; cases h
              · exact h
          · rw [if_neg h1]
            by_cases h2 : q <+: cs
            · rw [if_pos h2]; simp [h2, h1]
            · rw [if_neg h2]; simp [h2]
      · exfalso
        have hrej := C29_rejected b op
        rw [(C29_components op.path).1] at hshape
        apply hshape
        refine ⟨fun h => ?_, fun h => ?_, fun h => ?_⟩
        · have := hrej.1 h; rw [hres] at this; cases this
        · by_cases h1 : ∃ q, op.path = q ++ [slash]
          · have := hrej.1 h1; rw [hres] at this; cases this
          · have := hrej.2.1 h1 h; rw [hres] at this; cases this
        · by_cases h1 : ∃ q, op.path = q ++ [slash]
          · have := hrej.1 h1; rw [hres] at this; cases this
          · by_cases h2 : ∃ x y, op.path = x ++ slash :: slash :: y
            · have := hrej.2.1 h1 h2; rw [hres] at this; cases this
            · have := hrej.2.2 h1 h2 h; rw [hres] at this; cases this
    · rw [if_neg hres, C30_failed_contents b hb op hop hres, List.append_nil]
      exact hIH q

/-- `put_link` succeeds (wrapping) exactly when no link put before is above, at or below the new path, and no directory
asked for by `set_metadata` is at or below it. -/
theorem C31_put_iff (opts : TreeOptions) (hw : opts.wrap_with_directory = true) (ops : List Op) (hops : ∀ op ∈ ops, op.Ok)
    (p : Bytes) (c : Cid) (s : Nat) (hop : (Op.putLink p c s).Ok) (cs : List Bytes) (hp : PathOf p cs) :
    ((Op.putLink p c s).run (runOps (.new opts) ops).2).1 = .ok () ↔
      (∀ q c' s', LinkedBy (successes (.new opts) ops) q c' s' → ¬ q <+: cs ∧ ¬ cs <+: q) ∧
      (∀ md p', Op.setMetadata p' md ∈ successes (.new opts) ops → ∀ q, PathOf p' q → ¬ cs <+: q) := by
  have hb : Obtainable (runOps (.new opts) ops).2 := ⟨opts, ops, hops, rfl⟩
  have hH := C31_history opts ops hops
  have hout := C31_outcome _ hb (.putLink p c s) hop cs hp
  have hopts : (runOps (.new opts) ops).2.opts = opts := (runOps_inv (BInv.new opts) hops).2
  have hne : cs ≠ [] := hp.2.1
  constructor
  · intro hok
    rw [hok] at hout
    have href : refusal (runOps (.new opts) ops).2.opts.wrap_with_directory (contents (runOps (.new opts) ops).2) (.putLink p c s) cs = none := by
      cases hr : refusal (runOps (.new opts) ops).2.opts.wrap_with_directory (contents (runOps (.new opts) ops).2) (.putLink p c s) cs with
      | none => rfl
      | some e => rw [hr] at hout; cases hout
    obtain ⟨r1, r2, r3⟩ := refusal_none href
    have r3 := r3 c s rfl
    refine ⟨fun q c' s' hl => ⟨fun hpre => ?_, fun hpre => ?_⟩, fun md p' hm q hq hpre => ?_⟩
    · have hlink := ((hH q).1 c' s').2 hl
      rcases Nat.lt_or_ge q.length cs.length with h | h
      · have := r1 q.length h
        rw [← List.prefix_iff_eq_take.1 hpre, hlink] at this
        exact this trivial
      · have := hpre.eq_of_length (by have := hpre.length_le; omega)
        subst this
        rw [r3] at hlink; cases hlink
    · by_cases he : cs = q
      · subst he
        have hlink := ((hH cs).1 c' s').2 hl
        rw [r3] at hlink; cases hlink
      · obtain ⟨p', hm, hq⟩ := hl
        have := ((hH cs).2).2 (.inr ⟨_, hm, q, hq, hpre, .inl he⟩)
        rw [r3] at this; cases this
    · have := ((hH cs).2).2 (.inr ⟨_, hm, q, hq, hpre, .inr rfl⟩)
      rw [r3] at this; cases this
  · rintro ⟨h1, h2⟩
    rw [hout]
    have hnone : lookupPath cs (contents (runOps (.new opts) ops).2) = none := by
      cases hl : lookupPath cs (contents (runOps (.new opts) ops).2) with
      | none => rfl
      | some t =>
        cases t with
        | link c' s' => exact absurd (List.prefix_refl cs) (h1 cs c' s' (((hH cs).1 c' s').1 hl)).1
        | dir =>
          rcases ((hH cs).2).1 hl with h | ⟨o, hm, q, hq, hpre, hk⟩
          · exact absurd h hne
          · cases o with
            | putLink p' c' s' => exact absurd hpre (h1 q c' s' ⟨p', hm, hq⟩).2
            | setMetadata p' md => exact absurd hpre (h2 md p' hm q hq)
    have habove : ¬ ∃ i < cs.length, isLink (lookupPath (cs.take i) (contents (runOps (.new opts) ops).2)) := by
      rintro ⟨i, hi, hl⟩
      cases hk : lookupPath (cs.take i) (contents (runOps (.new opts) ops).2) with
      | none => rw [hk] at hl; exact hl
      | some t =>
        cases t with
        | dir => rw [hk] at hl; exact hl
        | link c' s' => exact absurd (List.take_prefix i cs) (h1 _ c' s' (((hH _).1 c' s').1 hk)).1
    unfold refusal
    rw [if_neg (by rw [hopts, hw]; simp), if_neg habove, hnone]

/-- `set_metadata` succeeds (wrapping) exactly when no link put before is above or at its path. -/
theorem C31_set_metadata_iff (opts : TreeOptions) (hw : opts.wrap_with_directory = true) (ops : List Op) (hops : ∀ op ∈ ops, op.Ok)
    (p : Bytes) (md : Metadata) (hop : (Op.setMetadata p md).Ok) (cs : List Bytes) (hp : PathOf p cs) :
    ((Op.setMetadata p md).run (runOps (.new opts) ops).2).1 = .ok () ↔
      ∀ q c' s', LinkedBy (successes (.new opts) ops) q c' s' → ¬ q <+: cs := by
  have hb : Obtainable (runOps (.new opts) ops).2 := ⟨opts, ops, hops, rfl⟩
  have hH := C31_history opts ops hops
  have hout := C31_outcome _ hb (.setMetadata p md) hop cs hp
  have hopts : (runOps (.new opts) ops).2.opts = opts := (runOps_inv (BInv.new opts) hops).2
  constructor
  · intro hok q c' s' hl hpre
    rw [hok] at hout
    have href : refusal (runOps (.new opts) ops).2.opts.wrap_with_directory (contents (runOps (.new opts) ops).2) (.setMetadata p md) cs = none := by
      cases hr : refusal (runOps (.new opts) ops).2.opts.wrap_with_directory (contents (runOps (.new opts) ops).2) (.setMetadata p md) cs with
      | none => rfl
      | some e => rw [hr] at hout; cases hout
    obtain ⟨r1, r2, _⟩ := refusal_none href
    have hlink := ((hH q).1 c' s').2 hl
    rcases Nat.lt_or_ge q.length cs.length with h | h
    · have := r1 q.length h
      rw [← List.prefix_iff_eq_take.1 hpre, hlink] at this
      exact this trivial
    · have := hpre.eq_of_length (by have := hpre.length_le; omega)
      subst this
      rw [hlink] at r2; exact r2 trivial
  · intro h1
    rw [hout]
    have hno : ∀ q, q <+: cs → ¬ isLink (lookupPath q (contents (runOps (.new opts) ops).2)) := by
      intro q hq hl
      cases hk : lookupPath q (contents (runOps (.new opts) ops).2) with
      | none => rw [hk] at hl; exact hl
      | some t =>
        cases t with
        | dir => rw [hk] at hl; exact hl
        | link c' s' => exact absurd hq (h1 _ c' s' (((hH _).1 c' s').1 hk))
    unfold refusal
    rw [if_neg (by rw [hopts, hw]; simp), if_neg (fun ⟨i, hi, hl⟩ => hno _ (List.take_prefix i cs) hl)]
    have := hno cs (List.prefix_refl cs)
    cases hk : lookupPath cs (contents (runOps (.new opts) ops).2) with
    | none => rfl
    | some t =>
      cases t with
      | dir => rfl
      | link c' s' => rw [hk] at this; exact absurd trivial this

theorem contents_sorted {b : BufferingTreeBuilder} (h : Obtainable b) : SortedL (contents b) :=
  (NInv.iff.1 (obtainable_inv h).nodes).2.2.1

/-- The tree does not depend on the order of the calls: histories with the same successful calls (in any order, and with
any failed ones between them) lead to the same tree. -/
theorem C31_order (opts opts' : TreeOptions) (ops ops' : List Op) (hops : ∀ op ∈ ops, op.Ok) (hops' : ∀ op ∈ ops', op.Ok)
    (h : ∀ op, op ∈ successes (.new opts) ops ↔ op ∈ successes (.new opts') ops') :
    contents (runOps (.new opts) ops).2 = contents (runOps (.new opts') ops').2 := by
  refine lookup_ext _ _ (contents_sorted ⟨opts, ops, hops, rfl⟩) (contents_sorted ⟨opts', ops', hops', rfl⟩) ?_
  intro q
  obtain ⟨h1, h2⟩ := C31_history opts ops hops q
  obtain ⟨h1', h2'⟩ := C31_history opts' ops' hops' q
  have hl : ∀ c s, lookupPath q (contents (runOps (.new opts) ops).2) = some (.link c s) ↔
      lookupPath q (contents (runOps (.new opts') ops').2) = some (.link c s) := by
    intro c s; rw [h1, h1']; simp only [LinkedBy, h]
  have hd : lookupPath q (contents (runOps (.new opts) ops).2) = some .dir ↔
      lookupPath q (contents (runOps (.new opts') ops').2) = some .dir := by
    rw [h2, h2']; simp only [DirBy, h]
  cases hk : lookupPath q (contents (runOps (.new opts) ops).2) with
  | none =>
    cases hk' : lookupPath q (contents (runOps (.new opts') ops').2) with
    | none => rfl
    | some t =>
      cases t with
      | link c s => rw [(hl c s).2 hk'] at hk; cases hk
      | dir => rw [hd.2 hk'] at hk; cases hk
  | some t =>
    cases t with
    | link c s => exact ((hl c s).1 hk).symm
    | dir => exact (hd.1 hk).symm

/-- `put_link("a/b")`, `set_metadata("a/c")`, and the other way round, with a failing call between. -/
def sampleOps : List Op := [.putLink [97, 47, 98] (cidOf toySha [1]) 1, .setMetadata [97, 47, 99] {}]
def sampleOps' : List Op :=
  [.setMetadata [97, 47, 99] {}, .putLink [97] (cidOf toySha [1]) 1, .putLink [97, 47, 98] (cidOf toySha [1]) 1]
def wrapping : TreeOptions := { wrap_with_directory := true }

theorem sampleOps_ok : ∀ op ∈ sampleOps, op.Ok := by
  intro op h
  simp only [sampleOps, List.mem_cons, List.not_mem_nil, or_false] at h
  rcases h with rfl | rfl
  · exact ⟨by unfold NameOk; decide, by decide, by decide⟩
  · show NameOk _; unfold NameOk; decide
example : (runOps (.new wrapping) sampleOps).1 = [.ok (), .ok ()] := by decide +kernel
example : (runOps (.new wrapping) sampleOps').1 = [.ok (), .err (.DuplicatePath [97]), .ok ()] := by decide +kernel
example : successes (.new wrapping) sampleOps = sampleOps := by
  rw [show sampleOps = [.putLink [97, 47, 98] (cidOf toySha [1]) 1, .setMetadata [97, 47, 99] {}] from rfl]
  simp only [successes]
  rw [if_pos (by decide +kernel), if_pos (by decide +kernel)]; rfl

/-! ### C32 -/

/-- Without wrapping there is never more than one entry at the root. -/
theorem C32_at_most_one (opts : TreeOptions) (hw : opts.wrap_with_directory = false) (ops : List Op) (hops : ∀ op ∈ ops, op.Ok) :
    (contents (runOps (.new opts) ops).2).length ≤ 1 := by
  suffices h : ∀ n (ops : List Op), ops.length = n → (∀ op ∈ ops, op.Ok) → ∀ n m,
      lookupPath [n] (contents (runOps (.new opts) ops).2) ≠ none → lookupPath [m] (contents (runOps (.new opts) ops).2) ≠ none →
      n = m by
    have h := h ops.length ops rfl hops
    have hs := contents_sorted ⟨opts, ops, hops, rfl⟩
    generalize contents (runOps (.new opts) ops).2 = ks at *
    match ks, hs, h with
    | [], _, _ => simp
    | [_], _, _ => simp
    | a :: b :: ks, hs, h =>
      exfalso
      have hsome : ∀ k ∈ a :: b :: ks, lookupPath [k.name] (a :: b :: ks) ≠ none := by
        intro k hk
        have := kid_of_mem hs hk
        cases k with
        | link n c s => rw [lookupPath_cons_link this]; simp
        | dir n ks' => rw [lookupPath_cons_dir this, lookupPath_nil]; simp
      have := h a.name b.name (hsome a (by simp)) (hsome b (by simp))
      have hlt := hs.1 b (by simp)
      rw [this] at hlt
      exact List.lt_irrefl _ hlt
  clear hops ops
  intro n
  induction n with
  | zero =>
    intro ops hl _ n m hn
    have : ops = [] := List.length_eq_zero_iff.1 hl
    subst this
    exact absurd rfl hn
  | succ n ih =>
    intro ops hl hops x y hx hy
    obtain ⟨xs, op, rfl⟩ : ∃ xs op, ops = xs ++ [op] :=
      ⟨ops.dropLast, ops.getLast (by intro h; simp [h] at hl), (List.dropLast_concat_getLast _).symm⟩
    have hxs : ∀ op ∈ xs, op.Ok := fun o ho => hops o (by simp [ho])
    have hop : op.Ok := hops op (by simp)
    have hb : Obtainable (runOps (.new opts) xs).2 := ⟨opts, xs, hxs, rfl⟩
    have hopts : (runOps (.new opts) xs).2.opts = opts := (runOps_inv (BInv.new opts) hxs).2
    have hIH := ih xs (by simpa using hl) hxs
    rw [(runOps_append _ _ _).1] at hx hy
    simp only [runOps] at hx hy
    generalize (runOps (.new opts) xs).2 = b at *
    by_cases hres : (op.run b).1 = .ok ()
    · have hshape : ∃ cs, PathOf op.path cs := by
        have hrej := C29_rejected b op
        rw [(C29_components op.path).1]
        refine ⟨fun h => ?_, fun h => ?_, fun h => ?_⟩
        · have := hrej.1 h; rw [hres] at this; cases this
        · by_cases h1 : ∃ q, op.path = q ++ [slash]
          · have := hrej.1 h1; rw [hres] at this; cases this
          · have := hrej.2.1 h1 h; rw [hres] at this; cases this
        · by_cases h1 : ∃ q, op.path = q ++ [slash]
          · have := hrej.1 h1; rw [hres] at this; cases this
          · by_cases h2 : ∃ x y, op.path = x ++ slash :: slash :: y
            · have := hrej.2.1 h1 h2; rw [hres] at this; cases this
            · have := hrej.2.2 h1 h2 h; rw [hres] at this; cases this
      obtain ⟨cs, hp⟩ := hshape
      have hne : cs ≠ [] := hp.2.1
      have hup := C31_update b hb op hop cs hp hres
      have hout := C31_outcome b hb op hop cs hp
      rw [hres] at hout
      have href : refusal b.opts.wrap_with_directory (contents b) op cs = none := by
        cases hr : refusal b.opts.wrap_with_directory (contents b) op cs with
        | none => rfl
        | some e => rw [hr] at hout; cases hout
      have hnf : ¬ (b.opts.wrap_with_directory = false ∧ contents b ≠ [] ∧
          (cs.length = 1 ∨ lookupPath (cs.take 1) (contents b) = none)) := by
        intro h
        unfold refusal at href
        rw [if_pos h] at href
        cases href
      rw [hopts, hw] at hnf
      cases cs with
      | nil => exact absurd rfl hne
      | cons c rest =>
        have key : ∀ z, lookupPath [z] (contents (op.run b).2) ≠ none → z = c ∨ lookupPath [z] (contents b) ≠ none := by
          intro z hz
          rw [hup] at hz
          unfold after at hz
          by_cases h : z = c
          · exact .inl h
          · right
            rwa [if_neg (by simp [h]), if_neg (by rw [List.cons_prefix_cons]; exact fun h' => h h'.1)] at hz
        by_cases hemp : contents b = []
        · have hno : ∀ z, ¬ lookupPath [z] (contents b) ≠ none := by intro z h; rw [hemp] at h; exact h rfl
          rcases key x hx with h | h
          · rcases key y hy with h' | h'
            · rw [h, h']
            · exact absurd h' (hno y)
          · exact absurd h (hno x)
        · have hc : lookupPath [c] (contents b) ≠ none := by
            intro h
            exact hnf ⟨rfl, hemp, .inr (by simpa using h)⟩
          have key' : ∀ z, lookupPath [z] (contents (op.run b).2) ≠ none → lookupPath [z] (contents b) ≠ none := by
            intro z hz
            rcases key z hz with h | h
            · rw [h]; exact hc
            · exact h
          exact hIH x y (key' x hx) (key' y hy)
    · rw [C30_failed_contents b hb op hop hres] at hx hy
      exact hIH x y hx hy

/-- Without wrapping a second root entry is refused, and so is every path of one component once there is an entry. -/
theorem C32_second_refused (b : BufferingTreeBuilder) (hb : Obtainable b) (hw : b.opts.wrap_with_directory = false)
    (hne : contents b ≠ []) (op : Op) (hop : op.Ok) (c : Bytes) (rest : List Bytes) (hp : PathOf op.path (c :: rest))
    (h : rest = [] ∨ lookupPath [c] (contents b) = none) :
    (op.run b).1 = .err .TooManyRootLevelEntries := by
  rw [C31_outcome b hb op hop _ hp, refusal_full ⟨hw, hne, ?_⟩]
  rcases h with rfl | h
  · exact .inl rfl
  · exact .inr h

example : (runOps (.new {}) [.putLink [97, 47, 98] (cidOf toySha []) 1, .putLink [98, 47, 98] (cidOf toySha []) 1,
    .putLink [97, 47, 99] (cidOf toySha []) 1, .setMetadata [97] {}]).1 =
    [.ok (), .err .TooManyRootLevelEntries, .ok (), .err .TooManyRootLevelEntries] := by decide +kernel

end Verif.Props
