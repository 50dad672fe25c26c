import Verif.BuilderLemmas
import Verif.IterRoot
namespace Verif
open Spec

/-! ### splitting paths -/

theorem splitSlash_ne_nil (p : Bytes) : splitSlash p ≠ [] := by
  cases p with
  | nil => simp [splitSlash]
  | cons b t =>
    unfold splitSlash
    split
    · simp
    · split <;> simp

theorem splitSlash_cons {b : UInt8} {t : Bytes} (h : b ≠ slash) : ∃ x xs, splitSlash t = x :: xs ∧ splitSlash (b :: t) = (b :: x) :: xs := by
  cases hs : splitSlash t with
  | nil => exact absurd hs (splitSlash_ne_nil t)
  | cons x xs => exact ⟨x, xs, rfl, by rw [splitSlash, if_neg h, hs]⟩

theorem splitSlash_slash (t : Bytes) : splitSlash (slash :: t) = [] :: splitSlash t := by rw [splitSlash, if_pos rfl]

theorem splitSlash_free (p : Bytes) : ∀ c ∈ splitSlash p, slash ∉ c := by
  induction p with
  | nil => simp [splitSlash]
  | cons b t ih =>
    by_cases hb : b = slash
    · subst hb
      rw [splitSlash_slash]
      intro c hc
      rcases List.mem_cons.1 hc with rfl | hc
      · simp
      · exact ih c hc
    · obtain ⟨x, xs, h1, h2⟩ := splitSlash_cons (t := t) hb
      rw [h2]; rw [h1] at ih
      intro c hc
      rcases List.mem_cons.1 hc with rfl | hc
      · have := ih x (by simp)
        simp only [List.mem_cons, not_or]
        exact ⟨fun h => hb h.symm, this⟩
      · exact ih c (by simp [hc])

theorem joinSlash_cons {x : Bytes} {xs : List Bytes} (h : xs ≠ []) : joinSlash (x :: xs) = x ++ slash :: joinSlash xs := by
  cases xs with
  | nil => exact absurd rfl h
  | cons y ys => rfl

theorem joinSlash_cons_cons (b : UInt8) (x : Bytes) (xs : List Bytes) : joinSlash ((b :: x) :: xs) = b :: joinSlash (x :: xs) := by
  cases xs <;> rfl

theorem joinSlash_split (p : Bytes) : joinSlash (splitSlash p) = p := by
  induction p with
  | nil => rfl
  | cons b t ih =>
    by_cases hb : b = slash
    · subst hb
      rw [splitSlash_slash, joinSlash_cons (splitSlash_ne_nil t), ih]; rfl
    · obtain ⟨x, xs, h1, h2⟩ := splitSlash_cons (t := t) hb
      rw [h2, joinSlash_cons_cons, ← h1, ih]

theorem splitSlash_append {x : Bytes} (h : slash ∉ x) (t : Bytes) : splitSlash (x ++ slash :: t) = x :: splitSlash t := by
  induction x with
  | nil => exact splitSlash_slash t
  | cons b x ih =>
    simp only [List.mem_cons, not_or] at h
    obtain ⟨y, ys, h1, h2⟩ := splitSlash_cons (b := b) (t := x ++ slash :: t) (fun e => h.1 e.symm)
    rw [List.cons_append, h2]
    rw [ih h.2] at h1
    cases h1; rfl

theorem splitSlash_single {x : Bytes} (h : slash ∉ x) : splitSlash x = [x] := by
  induction x with
  | nil => rfl
  | cons b x ih =>
    simp only [List.mem_cons, not_or] at h
    obtain ⟨y, ys, h1, h2⟩ := splitSlash_cons (b := b) (t := x) (fun e => h.1 e.symm)
    rw [h2]
    rw [ih h.2] at h1
    cases h1; rfl

theorem split_joinSlash : ∀ {cs : List Bytes}, cs ≠ [] → (∀ c ∈ cs, slash ∉ c) → splitSlash (joinSlash cs) = cs
  | [], h, _ => absurd rfl h
  | [x], _, h => splitSlash_single (h x (by simp))
  | x :: y :: xs, _, h => by
    rw [joinSlash_cons (by simp), splitSlash_append (h x (by simp)), split_joinSlash (by simp) (fun c hc => h c (by simp [hc]))]

theorem endsWithSlash_iff (p : Bytes) : endsWithSlash p = true ↔ ∃ q, p = q ++ [slash] := by
  unfold endsWithSlash
  rw [beq_iff_eq, List.getLast?_eq_some_iff]

theorem hasRepeatSlash_iff (p : Bytes) : hasRepeatSlash p = true ↔ ∃ a b, p = a ++ slash :: slash :: b := by
  induction p with
  | nil => simp [hasRepeatSlash]
  | cons x t ih =>
    cases t with
    | nil =>
      simp only [hasRepeatSlash, Bool.false_eq_true, false_iff, not_exists]
      intro a b h
      have := congrArg List.length h
      simp only [List.length_cons, List.length_append, List.length_nil] at this
      omega
    | cons y t =>
      simp only [hasRepeatSlash, Bool.or_eq_true, Bool.and_eq_true, beq_iff_eq]
      rw [ih]
      constructor
      · rintro (⟨rfl, rfl⟩ | ⟨a, b, h⟩)
        · exact ⟨[], t, rfl⟩
        · exact ⟨x :: a, b, by rw [h]; rfl⟩
      · rintro ⟨a, b, h⟩
        cases a with
        | nil => cases h; exact .inl ⟨rfl, rfl⟩
        | cons z a =>
          simp only [List.cons_append, List.cons.injEq] at h
          exact .inr ⟨a, b, h.2⟩

/-- The components after the first are not empty. -/
theorem split_tail (p : Bytes) (h1 : ¬ ∃ q, p = q ++ [slash]) (h2 : ¬ ∃ a b, p = a ++ slash :: slash :: b) :
    ∀ c ∈ (splitSlash p).tail, c ≠ [] := by
  induction p with
  | nil => simp [splitSlash]
  | cons b t ih =>
    have hrep : ¬ ∃ a b, t = a ++ slash :: slash :: b := by rintro ⟨a, c, rfl⟩; exact h2 ⟨b :: a, c, rfl⟩
    have hend : ¬ ∃ q, t = q ++ [slash] := by rintro ⟨q, rfl⟩; exact h1 ⟨b :: q, rfl⟩
    by_cases hb : b = slash
    · subst hb
      rw [splitSlash_slash, List.tail_cons]
      cases t with
      | nil => exact absurd ⟨[], rfl⟩ h1
      | cons y t =>
        by_cases hy : y = slash
        · subst hy; exact absurd ⟨[], t, rfl⟩ h2
        · obtain ⟨x, xs, e1, e2⟩ := splitSlash_cons (b := y) (t := t) hy
          have := ih hend hrep
          rw [e2] at this ⊢
          intro c hc
          rcases List.mem_cons.1 hc with rfl | hc
          · simp
          · exact this c hc
    · obtain ⟨x, xs, e1, e2⟩ := splitSlash_cons (t := t) hb
      have := ih hend hrep
      rw [e1] at this
      rw [e2]
      exact this

theorem split_head_nil {p : Bytes} {rest : List Bytes} (h : splitSlash p = [] :: rest) (hr : rest ≠ []) : ∃ q, p = slash :: q := by
  cases p with
  | nil => simp [splitSlash] at h; exact absurd h hr
  | cons b t =>
    by_cases hb : b = slash
    · exact ⟨t, by rw [hb]⟩
    · obtain ⟨x, xs, e1, e2⟩ := splitSlash_cons (t := t) hb
      rw [e2] at h; cases h

theorem pathOf_split (p : Bytes) (h1 : ¬ ∃ q, p = q ++ [slash]) (h2 : ¬ ∃ a b, p = a ++ slash :: slash :: b)
    (h3 : ¬ ∃ q, p = slash :: q) : PathOf p (splitSlash p) := by
  refine ⟨(joinSlash_split p).symm, splitSlash_ne_nil p, splitSlash_free p, ?_⟩
  have ht := split_tail p h1 h2
  cases hs : splitSlash p with
  | nil => exact absurd hs (splitSlash_ne_nil p)
  | cons c rest =>
    rw [hs] at ht
    by_cases hc : c = []
    · subst hc
      by_cases hr : rest = []
      · subst hr; exact .inl rfl
      · exact absurd (split_head_nil hs hr) h3
    · right
      intro x hx
      rcases List.mem_cons.1 hx with rfl | hx
      · exact hc
      · exact ht x hx

theorem pathOf_unique {p cs} (h : PathOf p cs) : splitSlash p = cs := by
  obtain ⟨rfl, h1, h2, _⟩ := h
  exact split_joinSlash h1 h2

theorem pathOf_shape {p cs} (h : PathOf p cs) :
    (¬ ∃ q, p = q ++ [slash]) ∧ (¬ ∃ a b, p = a ++ slash :: slash :: b) ∧ ¬ ∃ q, p = slash :: q := by
  have hs := pathOf_unique h
  obtain ⟨hpj, hne, hfree, hnil⟩ := h
  have key : ∀ a b : Bytes, p = a ++ slash :: b → splitSlash p = splitSlash a ++ splitSlash b := by
    intro a b hp
    rw [hp]
    clear hp hpj hs hne hfree hnil
    induction a with
    | nil => exact splitSlash_slash b
    | cons x a ih =>
      by_cases hx : x = slash
      · subst hx; rw [List.cons_append, splitSlash_slash, splitSlash_slash, ih]; rfl
      · obtain ⟨y, ys, e1, e2⟩ := splitSlash_cons (b := x) (t := a ++ slash :: b) hx
        obtain ⟨z, zs, e3, e4⟩ := splitSlash_cons (b := x) (t := a) hx
        rw [List.cons_append, e2, e4]
        rw [ih, e3] at e1
        cases e1; rfl
  have two : ∀ a b : Bytes, p = a ++ slash :: b → [] ∉ splitSlash a ∧ [] ∉ splitSlash b := by
    intro a b hp
    have hk := key a b hp
    rw [hs] at hk
    rcases hnil with h | h
    · rw [h] at hk
      have := congrArg List.length hk
      have l1 := List.length_pos_iff.2 (splitSlash_ne_nil a)
      have l2 := List.length_pos_iff.2 (splitSlash_ne_nil b)
      simp only [List.length_append, List.length_singleton] at this
      omega
    · refine ⟨fun hm => h [] ?_ rfl, fun hm => h [] ?_ rfl⟩
      · rw [hk]; exact List.mem_append_left _ hm
      · rw [hk]; exact List.mem_append_right _ hm
  refine ⟨?_, ?_, ?_⟩
  · rintro ⟨q, hq⟩; exact (two q [] hq).2 (by simp [splitSlash])
  · rintro ⟨a, b, hq⟩; exact (two a (slash :: b) hq).2 (by rw [splitSlash_slash]; simp)
  · rintro ⟨q, hq⟩; exact (two [] q hq).1 (by simp [splitSlash])

theorem validUtf8_comps : ∀ {cs : List Bytes}, validUtf8 (joinSlash cs) = true → ∀ c ∈ cs, validUtf8 c = true
  | [], _ => by simp
  | [x], h => by simpa [joinSlash] using h
  | x :: y :: xs, h => by
    rw [joinSlash_cons (by simp), validUtf8_split _ (by decide), Bool.and_eq_true] at h
    intro c hc
    rcases List.mem_cons.1 hc with rfl | hc
    · exact h.1
    · exact validUtf8_comps h.2 c hc

theorem length_comps : ∀ {cs : List Bytes}, ∀ c ∈ cs, c.length ≤ (joinSlash cs).length
  | [] => by simp
  | [x] => by simp [joinSlash]
  | x :: y :: xs => by
    rw [joinSlash_cons (by simp)]
    intro c hc
    simp only [List.length_append, List.length_cons]
    rcases List.mem_cons.1 hc with rfl | hc
    · omega
    · have := length_comps (cs := y :: xs) c hc
      omega

/-! ### calls of the builder -/

/-- The builder's invariant. -/
structure BInv (b : BufferingTreeBuilder) : Prop where
  nodes : NInv b.root_builder.id b.counter b.root_builder.nodes
  id : b.root_builder.id < b.counter

theorem BInv.new (opts : TreeOptions) : BInv (.new opts) := ⟨NInv.nil _ _, by simp [BufferingTreeBuilder.new, DirBuilder.root]⟩

def Spec.Op.modification : Op → Modification
  | .putLink _ c s => .putLink c s
  | .setMetadata _ md => .setMetadata md

theorem Spec.Op.run_eq (op : Op) (b : BufferingTreeBuilder) : op.run b = b.modifyWith op.path op.modification := by cases op <;> rfl

theorem Spec.Op.modification_op (op : Op) : op.modification.op op.path = op := by cases op <;> rfl

theorem Spec.Op.Ok.mod {op : Op} (h : op.Ok) : op.modification.Ok ∧ NameOk op.path := by
  cases op with
  | putLink p c s => exact ⟨h.2, h.1⟩
  | setMetadata p md => exact ⟨trivial, h⟩

/-- The builder with only its capacity hint changed. -/
def BufferingTreeBuilder.touched (b : BufferingTreeBuilder) (p : Bytes) : BufferingTreeBuilder :=
  { b with longest_path := max p.length b.longest_path }

theorem run_endsWithSlash (op : Op) (b : BufferingTreeBuilder) (h : ∃ q, op.path = q ++ [slash]) :
    op.run b = (.err (.PathEndsInSlash op.path), b.touched op.path) := by
  rw [op.run_eq, BufferingTreeBuilder.modifyWith, if_pos ((endsWithSlash_iff _).2 h)]; rfl

theorem run_repeat (op : Op) (b : BufferingTreeBuilder) (h1 : ¬ ∃ q, op.path = q ++ [slash])
    (h : ∃ x y, op.path = x ++ slash :: slash :: y) :
    op.run b = (.err (.RepeatSlashesInPath op.path), b.touched op.path) := by
  rw [op.run_eq, BufferingTreeBuilder.modifyWith, if_neg (by rw [endsWithSlash_iff]; exact h1), if_pos ((hasRepeatSlash_iff _).2 h)]; rfl

theorem run_rooted (op : Op) (b : BufferingTreeBuilder) (h1 : ¬ ∃ q, op.path = q ++ [slash])
    (h2 : ¬ ∃ x y, op.path = x ++ slash :: slash :: y) (h : ∃ q, op.path = slash :: q) :
    op.run b = (.err (.RootedPath op.path), b.touched op.path) := by
  obtain ⟨q, hq⟩ := h
  rw [op.run_eq, BufferingTreeBuilder.modifyWith, if_neg (by rw [endsWithSlash_iff]; exact h1),
    if_neg (by rw [hasRepeatSlash_iff]; exact h2)]
  have : splitSlash op.path = [] :: splitSlash q := by rw [hq, splitSlash_slash]
  simp only [this, modifyLoop]
  rw [if_pos ⟨trivial, trivial, splitSlash_ne_nil q⟩]; rfl

theorem run_path {b : BufferingTreeBuilder} (hb : BInv b) {op : Op} (hop : op.Ok) {cs : List Bytes} (hp : PathOf op.path cs) :
    (∃ e, refusal b.opts.wrap_with_directory (contents b) op cs = some e ∧ op.run b = (.err e, b.touched op.path)) ∨
    (refusal b.opts.wrap_with_directory (contents b) op cs = none ∧ ∃ b', op.run b = (.ok (), b') ∧ BInv b' ∧ b'.opts = b.opts ∧
      b'.root_builder.id = b.root_builder.id ∧
      ∀ q, lookupPath q (contents b') = after op.thing cs (contents b) q) := by
  obtain ⟨h1, h2, h3⟩ := pathOf_shape hp
  have hs := pathOf_unique hp
  have hrun : op.run b = ((modifyLoop op.path b.opts.wrap_with_directory op.modification 0 cs b.root_builder b.counter).1,
      { b.touched op.path with
        root_builder := (modifyLoop op.path b.opts.wrap_with_directory op.modification 0 cs b.root_builder b.counter).2.1
        counter := (modifyLoop op.path b.opts.wrap_with_directory op.modification 0 cs b.root_builder b.counter).2.2 }) := by
    rw [op.run_eq, BufferingTreeBuilder.modifyWith, if_neg (by rw [endsWithSlash_iff]; exact h1),
      if_neg (by rw [hasRepeatSlash_iff]; exact h2), hs]
    rfl
  rw [hrun]
  obtain ⟨hpj, hne, hfree, hnil⟩ := hp
  have hmod := hop.mod
  have hcomps : ∀ c ∈ cs, NameOk c ∧ slash ∉ c := by
    intro c hc
    have hl := length_comps c hc
    have hv := validUtf8_comps (cs := cs) (by rw [← hpj]; exact hmod.2.2) c hc
    have := hmod.2.1
    rw [hpj] at this
    exact ⟨⟨by omega, hv⟩, hfree c hc⟩
  by_cases hfull : b.opts.wrap_with_directory = false ∧ contents b ≠ [] ∧ (cs.length = 1 ∨ lookupPath (cs.take 1) (contents b) = none)
  · left
    refine ⟨_, refusal_full hfull, ?_⟩
    obtain ⟨hw, hc, hcase⟩ := hfull
    have hnodes : b.root_builder.nodes ≠ [] := by rw [contents, ne_eq, stripL_eq_nil] at hc; exact hc
    have : modifyLoop op.path b.opts.wrap_with_directory op.modification 0 cs b.root_builder b.counter
        = (.err .TooManyRootLevelEntries, b.root_builder, b.counter) := by
      cases cs with
      | nil => exact absurd rfl hne
      | cons c rest =>
        unfold modifyLoop
        by_cases hrest : rest = []
        · subst hrest
          simp [hw, hnodes]
        · have hc0 : c ≠ [] := by
            rcases hnil with h | h
            · cases h; exact absurd rfl hrest
            · exact h c (by simp)
          rcases hcase with h | h
          · simp at h; exact absurd h hrest
          · have hkid : mapFind c b.root_builder.nodes = none := by
              cases hm : mapFind c b.root_builder.nodes with
              | none => rfl
              | some n =>
                have hkid : kid c (contents b) = some n.strip := by rw [contents, kid_strip, hm]; rfl
                simp only [List.take_succ_cons, List.take_zero] at h
                cases n with
                | leaf k x y => simp only [DNode.strip] at hkid; rw [lookupPath_cons_link hkid] at h; simp at h
                | dir k x y z w => simp only [DNode.strip] at hkid; rw [lookupPath_cons_dir hkid, lookupPath_nil] at h; cases h
            simp [hw, hnodes, hrest, hc0, hkid]
    rw [this]; rfl
  · rw [refusal_rest hfull]
    have hl := loop_spec op.path b.opts.wrap_with_directory op.modification hmod.1 cs 0 b.root_builder b.counter hne hcomps
      (by
        intro h
        rcases hnil with h' | h'
        · subst h'; simp at h
        · exact h')
      (by
        rintro ⟨_, hw, hn, hc⟩
        refine hfull ⟨hw, ?_, hc⟩
        rw [contents, ne_eq, stripL_eq_nil]; exact hn)
      hb.nodes hb.id
    unfold LoopOk at hl
    rw [op.modification_op] at hl
    rcases hl with ⟨e, he, hout⟩ | ⟨he, nodes', c', hout, hle, hi, hn, hq⟩
    · left
      exact ⟨e, he, by rw [hout]; rfl⟩
    · right
      rw [hout]
      refine ⟨he, _, rfl, ?_, rfl, rfl, hq⟩
      exact ⟨hi, Nat.lt_of_lt_of_le hb.id hle⟩

/-- Any call. -/
theorem run_inv {b : BufferingTreeBuilder} (hb : BInv b) {op : Op} (hop : op.Ok) :
    BInv (op.run b).2 ∧ (op.run b).2.opts = b.opts ∧
    ((op.run b).1 = .ok () ∨ ((∃ e, (op.run b).1 = .err e) ∧ (op.run b).2 = b.touched op.path)) := by
  have htouch : BInv (b.touched op.path) := ⟨hb.nodes, hb.id⟩
  by_cases h1 : ∃ q, op.path = q ++ [slash]
  · rw [run_endsWithSlash op b h1]; exact ⟨htouch, rfl, .inr ⟨⟨_, rfl⟩, rfl⟩⟩
  by_cases h2 : ∃ x y, op.path = x ++ slash :: slash :: y
  · rw [run_repeat op b h1 h2]; exact ⟨htouch, rfl, .inr ⟨⟨_, rfl⟩, rfl⟩⟩
  by_cases h3 : ∃ q, op.path = slash :: q
  · rw [run_rooted op b h1 h2 h3]; exact ⟨htouch, rfl, .inr ⟨⟨_, rfl⟩, rfl⟩⟩
  rcases run_path hb hop (pathOf_split op.path h1 h2 h3) with ⟨e, _, h⟩ | ⟨_, b', h, hi, ho, _⟩
  · rw [h]; exact ⟨htouch, rfl, .inr ⟨⟨_, rfl⟩, rfl⟩⟩
  · rw [h]; exact ⟨hi, ho, .inl rfl⟩

theorem runOps_inv {b : BufferingTreeBuilder} (hb : BInv b) {ops : List Op} (hops : ∀ op ∈ ops, op.Ok) :
    BInv (runOps b ops).2 ∧ (runOps b ops).2.opts = b.opts := by
  induction ops generalizing b with
  | nil => exact ⟨hb, rfl⟩
  | cons op ops ih =>
    have h := run_inv hb (hops op (by simp))
    have := ih h.1 (fun o ho => hops o (by simp [ho]))
    exact ⟨this.1, this.2.trans h.2.1⟩

end Verif
