import Verif.IterRun
namespace Verif
open Spec

/-! ### the map of a directory -/

theorem strip_name (n : DNode) : n.strip.name = n.key := by cases n <;> rfl

theorem stripL_map (ns : List DNode) : stripL ns = ns.map DNode.strip := by
  induction ns with
  | nil => rfl
  | cons n ns ih => simp [stripL, ih]

theorem kid_strip (k : Bytes) (ns : List DNode) : kid k (stripL ns) = (mapFind k ns).map DNode.strip := by
  induction ns with
  | nil => rfl
  | cons n ns ih =>
    simp only [stripL, kid, mapFind, strip_name, ih]
    split <;> rfl

theorem mapFind_key {k n} : ∀ {ns : List DNode}, mapFind k ns = some n → n.key = k := by
  intro ns
  induction ns with
  | nil => intro h; cases h
  | cons x ns ih =>
    intro h
    simp only [mapFind] at h
    split at h
    · cases h; assumption
    · exact ih h

theorem mapFind_mem {k n} : ∀ {ns : List DNode}, mapFind k ns = some n → n ∈ ns := by
  intro ns
  induction ns with
  | nil => intro h; cases h
  | cons x ns ih =>
    intro h
    simp only [mapFind] at h
    split at h
    · cases h; simp
    · simp [ih h]

theorem mapFind_set (n : DNode) (k : Bytes) : ∀ ns : List DNode,
    mapFind k (mapSet n ns) = if n.key = k then some n else mapFind k ns := by
  intro ns
  induction ns with
  | nil => rfl
  | cons x ns ih =>
    simp only [mapSet]
    split
    · rfl
    · split
      · rename_i h1 h2
        simp only [mapFind]
        by_cases hk : n.key = k
        · simp [hk]
        · rw [if_neg hk, if_neg hk, if_neg (h2 ▸ hk)]
      · rename_i h1 h2
        simp only [mapFind, ih]
        by_cases hx : x.key = k
        · rw [if_pos hx]
          have : ¬ n.key = k := by rw [← hx]; exact h2
          simp [this, hx]
        · simp [hx]

theorem mem_mapSet {n m : DNode} : ∀ {ns : List DNode}, m ∈ mapSet n ns → m = n ∨ m ∈ ns := by
  intro ns
  induction ns with
  | nil => intro h; simpa [mapSet] using h
  | cons x ns ih =>
    intro h
    simp only [mapSet] at h
    split at h
    · simpa using h
    · split at h
      · rcases List.mem_cons.1 h with h | h
        · exact .inl h
        · exact .inr (by simp [h])
      · rcases List.mem_cons.1 h with h | h
        · exact .inr (by simp [h])
        · rcases ih h with h | h
          · exact .inl h
          · exact .inr (by simp [h])

theorem mapSet_ne_nil (n : DNode) (ns : List DNode) : mapSet n ns ≠ [] := by
  cases ns with
  | nil => simp [mapSet]
  | cons x ns => simp only [mapSet]; split <;> (try split) <;> simp

/-- Keys strictly increasing. -/
def KeysInc (ns : List DNode) : Prop := ns.Pairwise (fun a b => a.key < b.key)

theorem bytes_lt_of {a b : Bytes} (h : ¬ a < b) (hne : ¬ a = b) : b < a := by
  apply Decidable.byContradiction
  intro h'
  exact hne (List.le_antisymm (List.not_lt.1 h') (List.not_lt.1 h))

theorem KeysInc.set {n : DNode} : ∀ {ns : List DNode}, KeysInc ns → KeysInc (mapSet n ns) := by
  intro ns
  induction ns with
  | nil => intro _; simp [mapSet, KeysInc]
  | cons x ns ih =>
    intro h
    obtain ⟨h1, h2⟩ := List.pairwise_cons.1 h
    simp only [mapSet]
    split
    · rename_i hlt
      refine List.pairwise_cons.2 ⟨?_, h⟩
      intro y hy
      rcases List.mem_cons.1 hy with rfl | hy
      · exact hlt
      · exact List.lt_trans hlt (h1 y hy)
    · split
      · rename_i hne heq
        exact List.pairwise_cons.2 ⟨fun y hy => heq ▸ h1 y hy, h2⟩
      · rename_i hne heq
        refine List.pairwise_cons.2 ⟨?_, ih h2⟩
        intro y hy
        rcases mem_mapSet hy with rfl | hy
        · exact bytes_lt_of hne heq
        · exact h1 y hy

theorem mapSet_same {n : DNode} : ∀ {ns : List DNode}, KeysInc ns → mapFind n.key ns = some n → mapSet n ns = ns := by
  intro ns
  induction ns with
  | nil => intro _ h; cases h
  | cons x ns ih =>
    intro h hf
    obtain ⟨h1, h2⟩ := List.pairwise_cons.1 h
    simp only [mapFind] at hf
    simp only [mapSet]
    split at hf
    · rename_i hk
      cases hf
      rw [if_neg (List.lt_irrefl _), if_pos rfl]
    · rename_i hk
      have hlt := h1 n (mapFind_mem hf)
      rw [if_neg (fun h' => List.lt_irrefl _ (List.lt_trans hlt h')), if_neg (fun h' => hk h'.symm), ih h2 hf]

/-! ### invariants -/

mutual
/-- All identifiers in use are below the counter. -/
def IdsLt (counter : Nat) : DNode → Prop
  | .leaf _ _ _ => True
  | .dir _ ns _ _ id => id < counter ∧ IdsLtL counter ns
def IdsLtL (counter : Nat) : List DNode → Prop
  | [] => True
  | n :: ns => IdsLt counter n ∧ IdsLtL counter ns
end

theorem idsLtL_iff {c} : ∀ {ns : List DNode}, IdsLtL c ns ↔ ∀ n ∈ ns, IdsLt c n := by
  intro ns; induction ns with
  | nil => simp [IdsLtL]
  | cons n ns ih => simp [IdsLtL, ih]

theorem idsOkL_iff {c} : ∀ {ns : List DNode}, IdsOkL c ns ↔ ∀ n ∈ ns, IdsOk c n := by
  intro ns; induction ns with
  | nil => simp [IdsOkL]
  | cons n ns ih => simp [IdsOkL, ih]

theorem treeOkL_iff : ∀ {ns : List DNode}, TreeOkL (stripL ns) ↔ ∀ n ∈ ns, TreeOk n.strip := by
  intro ns; induction ns with
  | nil => simp [TreeOkL, stripL]
  | cons n ns ih => simp [TreeOkL, stripL, ih]

theorem sortedL_iff : ∀ {ns : List DNode}, SortedL (stripL ns) ↔ KeysInc ns ∧ ∀ n ∈ ns, Sorted n.strip := by
  intro ns; induction ns with
  | nil => simp [SortedL, stripL, KeysInc]
  | cons n ns ih =>
    simp only [SortedL, stripL, ih, KeysInc, List.pairwise_cons, List.mem_cons, forall_eq_or_imp, strip_name]
    have : (∀ k' ∈ stripL ns, n.key < k'.name) ↔ ∀ m ∈ ns, n.key < m.key := by
      rw [stripL_map]
      simp [strip_name]
    rw [this]
    constructor
    · rintro ⟨a, b, c, d⟩; exact ⟨⟨a, c⟩, b, d⟩
    · rintro ⟨⟨a, c⟩, b, d⟩; exact ⟨a, b, c, d⟩

/-- A well-formed entry of the directory `parent`. -/
structure NodeInv (parent counter : Nat) (n : DNode) : Prop where
  ids : IdsOk parent n
  lt : IdsLt counter n
  sorted : Sorted n.strip
  ok : TreeOk n.strip

/-- A well-formed list of entries of the directory `parent`. -/
structure NInv (parent counter : Nat) (ns : List DNode) : Prop where
  each : ∀ n ∈ ns, NodeInv parent counter n
  inc : KeysInc ns

theorem NInv.iff {p c ns} : NInv p c ns ↔ IdsOkL p ns ∧ IdsLtL c ns ∧ SortedL (stripL ns) ∧ TreeOkL (stripL ns) := by
  rw [idsOkL_iff, idsLtL_iff, sortedL_iff, treeOkL_iff]
  constructor
  · intro h
    exact ⟨fun n hn => (h.each n hn).ids, fun n hn => (h.each n hn).lt, ⟨h.inc, fun n hn => (h.each n hn).sorted⟩,
      fun n hn => (h.each n hn).ok⟩
  · rintro ⟨h1, h2, ⟨h3, h4⟩, h5⟩
    exact ⟨fun n hn => ⟨h1 n hn, h2 n hn, h4 n hn, h5 n hn⟩, h3⟩

theorem NodeInv.dir_iff {p c k ns md pid id} : NodeInv p c (.dir k ns md pid id) ↔
    pid = some p ∧ p < id ∧ id < c ∧ NameOk k ∧ slash ∉ k ∧ (ns ≠ [] → k ≠ []) ∧ NInv id c ns := by
  constructor
  · rintro ⟨⟨h1, h2, h3⟩, ⟨h4, h5⟩, h6, ⟨h7, h8, h9, h10⟩⟩
    exact ⟨h1, h2, h4, h7, h8, fun h => h9 (by rwa [ne_eq, stripL_eq_nil]), NInv.iff.2 ⟨h3, h5, h6, h10⟩⟩
  · rintro ⟨h1, h2, h4, h7, h8, h9, h⟩
    obtain ⟨h3, h5, h6, h10⟩ := NInv.iff.1 h
    exact ⟨⟨h1, h2, h3⟩, ⟨h4, h5⟩, h6, ⟨h7, h8, fun h => h9 (by rwa [ne_eq, stripL_eq_nil] at h), h10⟩⟩

mutual
theorem IdsLt.mono {c d : Nat} (h : c ≤ d) : ∀ {n : DNode}, IdsLt c n → IdsLt d n
  | .leaf _ _ _, _ => trivial
  | .dir _ _ _ _ _, ⟨h1, h2⟩ => ⟨by omega, IdsLtL.mono h h2⟩
theorem IdsLtL.mono {c d : Nat} (h : c ≤ d) : ∀ {ns : List DNode}, IdsLtL c ns → IdsLtL d ns
  | [], _ => trivial
  | _ :: _, ⟨h1, h2⟩ => ⟨IdsLt.mono h h1, IdsLtL.mono h h2⟩
end

theorem NodeInv.mono {p c d n} (h : NodeInv p c n) (hcd : c ≤ d) : NodeInv p d n := ⟨h.ids, h.lt.mono hcd, h.sorted, h.ok⟩
theorem NInv.mono {p c d ns} (h : NInv p c ns) (hcd : c ≤ d) : NInv p d ns := ⟨fun n hn => (h.each n hn).mono hcd, h.inc⟩

theorem NInv.set {p c n ns} (h : NInv p c ns) (hn : NodeInv p c n) : NInv p c (mapSet n ns) := by
  refine ⟨?_, h.inc.set⟩
  intro m hm
  rcases mem_mapSet hm with rfl | hm
  · exact hn
  · exact h.each m hm

theorem NInv.nil (p c) : NInv p c [] := ⟨by simp, List.Pairwise.nil⟩

/-! ### lookups after an insertion -/

theorem lookupPath_nil (ks : List DTree) : lookupPath [] ks = some .dir := by unfold lookupPath; rfl

theorem lookupPath_cons_link {n p ks k c s} (h : kid n ks = some (.link k c s)) :
    lookupPath (n :: p) ks = if p = [] then some (.link c s) else none := by simp [lookupPath, h]
theorem lookupPath_cons_dir {n p ks k ks'} (h : kid n ks = some (.dir k ks')) :
    lookupPath (n :: p) ks = lookupPath p ks' := by simp [lookupPath, h]
theorem lookupPath_cons_none {n p ks} (h : kid n ks = none) :
    lookupPath (n :: p) ks = none := by simp [lookupPath, h]

theorem kid_mapSet (n : DNode) (k : Bytes) (ns : List DNode) :
    kid k (stripL (mapSet n ns)) = if n.key = k then some n.strip else kid k (stripL ns) := by
  rw [kid_strip, mapFind_set, kid_strip]
  split <;> rfl

theorem lookup_other {n : DNode} {ns : List DNode} {k : Bytes} {q : List Bytes} (h : n.key ≠ k) :
    lookupPath (k :: q) (stripL (mapSet n ns)) = lookupPath (k :: q) (stripL ns) := by
  have := kid_mapSet n k ns
  rw [if_neg h] at this
  rw [lookupPath, lookupPath, this]

theorem after_leaf {n : DNode} {c : Bytes} {ns : List DNode} {th : Thing} (hk : n.key = c)
    (h1 : ∀ q, lookupPath (c :: q) (stripL (mapSet n ns)) = if q = [] then some th else lookupPath (c :: q) (stripL ns)) :
    ∀ q, lookupPath q (stripL (mapSet n ns)) = after th [c] (stripL ns) q := by
  intro q
  cases q with
  | nil => simp [after, lookupPath_nil]
  | cons x q =>
    unfold after
    by_cases hx : x = c
    · subst hx
      rw [h1]
      by_cases hq : q = []
      · simp [hq]
      · rw [if_neg hq, if_neg (by simp [hq]), if_neg]
        rw [List.cons_prefix_cons]
        rintro ⟨_, h⟩
        exact hq (List.prefix_nil.1 h)
    · rw [lookup_other (by rw [hk]; exact fun h => hx h.symm), if_neg (by simp [hx]), if_neg]
      rw [List.cons_prefix_cons]
      exact fun h => hx h.1

/-- Replacing (or creating) the directory `c` by one in which `th` was stored at `rest`. -/
theorem after_dir {c : Bytes} {rest : List Bytes} {ns ns' : List DNode} {old : List DTree} {md pid id} {th : Thing}
    (hne : rest ≠ [])
    (hold : (∃ k, kid c (stripL ns) = some (.dir k old)) ∨ (kid c (stripL ns) = none ∧ old = []))
    (h : ∀ q, lookupPath q (stripL ns') = after th rest old q) :
    ∀ q, lookupPath q (stripL (mapSet (.dir c ns' md pid id) ns)) = after th (c :: rest) (stripL ns) q := by
  intro q
  cases q with
  | nil => simp [after, lookupPath_nil]
  | cons x q =>
    by_cases hx : x = c
    · subst hx
      have hk : kid x (stripL (mapSet (.dir x ns' md pid id) ns)) = some (.dir x (stripL ns')) := by
        rw [kid_mapSet]; simp [DNode.key, DNode.strip]
      rw [lookupPath_cons_dir hk, h]
      unfold after
      simp only [List.cons.injEq, true_and, List.cons_prefix_cons]
      split
      · rfl
      · split
        · rfl
        · rename_i h1 h2
          rcases hold with ⟨k, ho⟩ | ⟨ho, rfl⟩
          · rw [lookupPath_cons_dir ho]
          · rw [lookupPath_cons_none ho]
            cases q with
            | nil => exact absurd (List.nil_prefix) h2
            | cons y q => rfl
    · rw [lookup_other (by simpa [DNode.key] using fun h => hx h.symm)]
      unfold after
      rw [if_neg (by simp [hx]), if_neg]
      rw [List.cons_prefix_cons]
      exact fun h => hx h.1

/-! ### the loop -/

/-- The call which a modification is made for. -/
def Modification.op (p : Bytes) : Modification → Op
  | .putLink c s => .putLink p c s
  | .setMetadata md => .setMetadata p md

def Modification.Ok : Modification → Prop
  | .putLink c s => c.Fits ∧ s < U64
  | .setMetadata _ => True

theorem Modification.op_path (p : Bytes) (f : Modification) : (f.op p).path = p := by cases f <;> rfl

/-- The part of `refusal` which does not depend on the root level. -/
def refusal' (ks : List DTree) (op : Op) (cs : List Bytes) : Option TreeBuildingFailed :=
  if ∃ i < cs.length, isLink (lookupPath (cs.take i) ks) then some (.LeafAsDirectory op.path)
  else match op, lookupPath cs ks with
    | .putLink p _ _, some _ => some (.DuplicatePath p)
    | .setMetadata p _, some (.link _ _) => some (.LeafAsDirectory p)
    | _, _ => none

theorem refusal_full {wrap ks op cs} (h : wrap = false ∧ ks ≠ [] ∧ (cs.length = 1 ∨ lookupPath (cs.take 1) ks = none)) :
    refusal wrap ks op cs = some .TooManyRootLevelEntries := by unfold refusal; rw [if_pos h]
theorem refusal_rest {wrap ks op cs} (h : ¬ (wrap = false ∧ ks ≠ [] ∧ (cs.length = 1 ∨ lookupPath (cs.take 1) ks = none))) :
    refusal wrap ks op cs = refusal' ks op cs := by unfold refusal refusal'; rw [if_neg h]; rfl

theorem refusal'_single {ks op c} : refusal' ks op [c] =
    match op, lookupPath [c] ks with
    | .putLink p _ _, some _ => some (.DuplicatePath p)
    | .setMetadata p _, some (.link _ _) => some (.LeafAsDirectory p)
    | _, _ => none := by
  unfold refusal'
  rw [if_neg]
  rintro ⟨i, hi, h⟩
  have : i = 0 := by simpa using hi
  subst this
  simp [lookupPath_nil, isLink] at h

theorem refusal'_link {ks op c rest k ci s} (hne : rest ≠ []) (h : kid c ks = some (.link k ci s)) :
    refusal' ks op (c :: rest) = some (.LeafAsDirectory op.path) := by
  unfold refusal'
  rw [if_pos]
  refine ⟨1, by have := List.length_pos_iff.2 hne; simp; omega, ?_⟩
  simp [lookupPath_cons_link h, isLink]

theorem refusal'_dir {ks op c rest k ks'} (h : kid c ks = some (.dir k ks')) :
    refusal' ks op (c :: rest) = refusal' ks' op rest := by
  have : (∃ i < (c :: rest).length, isLink (lookupPath ((c :: rest).take i) ks)) ↔
      ∃ i < rest.length, isLink (lookupPath (rest.take i) ks') := by
    constructor
    · rintro ⟨i, hi, hl⟩
      cases i with
      | zero => simp [lookupPath_nil, isLink] at hl
      | succ i =>
        rw [List.take_succ_cons, lookupPath_cons_dir h] at hl
        exact ⟨i, by simpa using hi, hl⟩
    · rintro ⟨i, hi, hl⟩
      refine ⟨i + 1, by simpa using hi, ?_⟩
      rw [List.take_succ_cons, lookupPath_cons_dir h]; exact hl
  unfold refusal'
  simp only [this, lookupPath_cons_dir h]

theorem refusal'_none {ks op c rest} (h : kid c ks = none) : refusal' ks op (c :: rest) = none := by
  unfold refusal'
  rw [if_neg]
  · rw [lookupPath_cons_none h]; cases op <;> rfl
  · rintro ⟨i, hi, hl⟩
    cases i with
    | zero => simp [lookupPath_nil, isLink] at hl
    | succ i => rw [List.take_succ_cons, lookupPath_cons_none h] at hl; exact hl

theorem refusal'_nil {op cs} (h : cs ≠ []) : refusal' [] op cs = none := by
  cases cs with
  | nil => exact absurd rfl h
  | cons c cs => exact refusal'_none rfl

/-- What the loop must do, when not refused for the root level. -/
def LoopOk (full_path : Bytes) (f : Modification) (comps : List Bytes) (dir : DirBuilder) (counter : Nat)
    (out : Res TreeBuildingFailed Unit × DirBuilder × Nat) : Prop :=
  (∃ e, refusal' (stripL dir.nodes) (f.op full_path) comps = some e ∧ out = (.err e, dir, counter)) ∨
  (refusal' (stripL dir.nodes) (f.op full_path) comps = none ∧ ∃ nodes' c', out = (.ok (), { dir with nodes := nodes' }, c') ∧
    counter ≤ c' ∧ NInv dir.id c' nodes' ∧ nodes' ≠ [] ∧
    ∀ q, lookupPath q (stripL nodes') = after (f.op full_path).thing comps (stripL dir.nodes) q)

theorem lookup_none_below {ks : List DTree} {c} (h : kid c ks = none) (q : List Bytes) : lookupPath (c :: q) ks = none :=
  lookupPath_cons_none h

theorem apply_ok {f : Modification} (hf : f.Ok) (full_path : Bytes) (dir : DirBuilder) (c : Bytes) (counter : Nat)
    (hc : NameOk c ∧ slash ∉ c) (hinv : NInv dir.id counter dir.nodes) (hid : dir.id < counter) :
    LoopOk full_path f [c] dir counter
      ((f.apply full_path dir c counter).1, (f.apply full_path dir c counter).2.1,
        if (f.apply full_path dir c counter).2.2 then counter + 1 else counter) := by
  unfold LoopOk
  rw [refusal'_single]
  cases hm : mapFind c dir.nodes with
  | none =>
    have hkid : kid c (stripL dir.nodes) = none := by rw [kid_strip, hm]; rfl
    right
    cases f with
    | putLink ci s =>
      refine ⟨by simp [Modification.op, lookupPath_cons_none hkid], _, counter, by simp [Modification.apply, hm]; rfl,
        Nat.le_refl _, ?_, mapSet_ne_nil _ _, ?_⟩
      · exact hinv.set ⟨trivial, trivial, trivial, ⟨hc.1, hf.1, hf.2⟩⟩
      · refine after_leaf rfl ?_
        intro q
        have hk : kid c (stripL (mapSet (.leaf c ci s) dir.nodes)) = some (.link c ci s) := by
          rw [kid_mapSet]; simp [DNode.key, DNode.strip]
        rw [lookupPath_cons_link hk, lookupPath_cons_none hkid]; rfl
    | setMetadata md =>
      have hne : ¬ dir.id = counter := by omega
      refine ⟨by simp [Modification.op, lookupPath_cons_none hkid],
        mapSet (.dir c [] md (some dir.id) counter) dir.nodes, counter + 1, ?_,
        Nat.le_succ _, ?_, mapSet_ne_nil _ _, ?_⟩
      · simp [Modification.apply, hm, DirBuilder.new, hne, DirBuilder.asNode]
      · refine (hinv.mono (Nat.le_succ _)).set (NodeInv.dir_iff.2 ⟨rfl, hid, Nat.lt_succ_self _, hc.1, hc.2, ?_, NInv.nil _ _⟩)
        intro h; exact absurd rfl h
      · refine after_leaf rfl ?_
        intro q
        have hk : kid c (stripL (mapSet (.dir c [] md (some dir.id) counter) dir.nodes)) = some (.dir c []) := by
          rw [kid_mapSet]; simp [DNode.key, DNode.strip, stripL]
        rw [lookupPath_cons_dir hk, lookupPath_cons_none hkid]
        cases q <;> rfl
  | some n =>
    have hkey := mapFind_key hm
    have hkid : kid c (stripL dir.nodes) = some n.strip := by rw [kid_strip, hm]; rfl
    cases f with
    | putLink ci s =>
      left
      refine ⟨.DuplicatePath full_path, ?_, by simp [Modification.apply, hm]⟩
      cases n with
      | leaf k x y => simp only [DNode.strip] at hkid; simp [Modification.op, lookupPath_cons_link hkid]
      | dir k ns md pid id => simp only [DNode.strip] at hkid; simp [Modification.op, lookupPath_cons_dir hkid, lookupPath_nil]
    | setMetadata md =>
      cases n with
      | leaf k x y =>
        left
        simp only [DNode.strip] at hkid
        exact ⟨.LeafAsDirectory full_path, by simp [Modification.op, lookupPath_cons_link hkid], by simp [Modification.apply, hm]⟩
      | dir k ns md' pid id =>
        right
        simp only [DNode.strip] at hkid
        have hk : k = c := hkey
        subst hk
        refine ⟨by simp [Modification.op, lookupPath_cons_dir hkid, lookupPath_nil], mapSet (.dir k ns md pid id) dir.nodes, counter,
          by simp [Modification.apply, hm], Nat.le_refl _, ?_, mapSet_ne_nil _ _, ?_⟩
        · exact hinv.set (NodeInv.dir_iff.2 (NodeInv.dir_iff.1 (hinv.each _ (mapFind_mem hm))))
        · refine after_leaf rfl ?_
          intro q
          have hk : kid k (stripL (mapSet (.dir k ns md pid id) dir.nodes)) = some (.dir k (stripL ns)) := by
            rw [kid_mapSet]; simp [DNode.key, DNode.strip]
          rw [lookupPath_cons_dir hk, lookupPath_cons_dir hkid]
          cases q <;> simp [lookupPath_nil, Modification.op, Op.thing]

/-- The loop below the root level. -/
theorem loop_spec (full_path : Bytes) (wrap : Bool) (f : Modification) (hf : f.Ok) : ∀ (comps : List Bytes) (depth : Nat)
    (dir : DirBuilder) (counter : Nat),
    comps ≠ [] → (∀ c ∈ comps, NameOk c ∧ slash ∉ c) → (comps.length ≠ 1 ∨ depth ≠ 0 → ∀ c ∈ comps, c ≠ []) →
    ¬ (depth = 0 ∧ wrap = false ∧ dir.nodes ≠ [] ∧ (comps.length = 1 ∨ lookupPath (comps.take 1) (stripL dir.nodes) = none)) →
    NInv dir.id counter dir.nodes → dir.id < counter →
    LoopOk full_path f comps dir counter (modifyLoop full_path wrap f depth comps dir counter) := by
  intro comps
  induction comps with
  | nil => intro _ _ _ h; exact absurd rfl h
  | cons c rest ih =>
    intro depth dir counter _ hc hne hfull hinv hid
    unfold modifyLoop
    have hr : rest ≠ [] → c ≠ [] := by
      intro h
      refine hne (.inl ?_) c (by simp)
      have := List.length_pos_iff.2 h
      simp only [List.length_cons]; omega
    rw [if_neg (fun h => hr h.2.2 h.1), if_neg (fun h => hne (.inr h.2) c (by simp) h.1)]
    simp only
    by_cases hrest : rest = []
    · subst hrest
      rw [if_pos rfl, if_neg (fun h => hfull ⟨h.1, h.2.1, h.2.2, .inl rfl⟩)]
      exact apply_ok hf full_path dir c counter (hc c (by simp)) hinv hid
    · rw [if_neg hrest]
      have hlen : 0 < rest.length := List.length_pos_iff.2 hrest
      have hrec : ∀ (d : DirBuilder) (counter : Nat), NInv d.id counter d.nodes → d.id < counter →
          LoopOk full_path f rest d counter (modifyLoop full_path wrap f (depth + 1) rest d counter) := by
        intro d counter h1 h2
        refine ih (depth + 1) d counter hrest (fun x hx => hc x (by simp [hx])) ?_ (fun h => by omega) h1 h2
        intro _ x hx
        exact hne (.inl (by simp only [List.length_cons]; omega)) x (by simp [hx])
      cases hm : mapFind c dir.nodes with
      | none =>
        have hkid : kid c (stripL dir.nodes) = none := by rw [kid_strip, hm]; rfl
        have hnfull : ¬ (depth = 0 ∧ wrap = false ∧ dir.nodes ≠ []) := by
          intro h
          refine hfull ⟨h.1, h.2.1, h.2.2, .inr ?_⟩
          simp [lookupPath_cons_none hkid]
        rw [if_neg hnfull]
        have hne : ¬ dir.id = counter := by omega
        simp only [DirBuilder.new, if_neg hne]
        have := hrec { parent_id := some dir.id, id := counter } (counter + 1) (NInv.nil _ _) (Nat.lt_succ_self _)
        unfold LoopOk at this ⊢
        rw [refusal'_none hkid]
        rw [show stripL ({ parent_id := some dir.id, id := counter } : DirBuilder).nodes = [] from rfl, refusal'_nil hrest] at this
        rcases this with ⟨e, h, _⟩ | ⟨_, nodes', c', hout, hle, hi, hn, hl⟩
        · cases h
        · right
          refine ⟨rfl, mapSet (.dir c nodes' {} (some dir.id) counter) dir.nodes, c', ?_, by omega, ?_, mapSet_ne_nil _ _, ?_⟩
          · rw [hout]; rfl
          · refine (hinv.mono (by omega)).set (NodeInv.dir_iff.2 ⟨rfl, hid, by omega, (hc c (by simp)).1, (hc c (by simp)).2, fun _ => hr hrest, hi⟩)
          · exact after_dir hrest (.inr ⟨hkid, rfl⟩) hl
      | some n =>
        have hkey := mapFind_key hm
        have hkid : kid c (stripL dir.nodes) = some n.strip := by rw [kid_strip, hm]; rfl
        cases n with
        | leaf k x y =>
          left
          simp only [DNode.strip] at hkid
          refine ⟨_, refusal'_link hrest hkid, ?_⟩
          rw [Modification.op_path]
        | dir k ns md pid id =>
          simp only [DNode.strip] at hkid
          have hk : k = c := hkey
          subst hk
          obtain ⟨h1, h2, h3, h4, h5, h6, h7⟩ := NodeInv.dir_iff.1 (hinv.each _ (mapFind_mem hm))
          have := hrec ⟨ns, md, pid, id⟩ counter h7 h3
          unfold LoopOk at this ⊢
          rw [refusal'_dir hkid]
          rcases this with ⟨e, he, hout⟩ | ⟨he, nodes', c', hout, hle, hi, hn, hl⟩
          · left
            refine ⟨e, he, ?_⟩
            simp only [hout, DirBuilder.asNode]
            rw [mapSet_same hinv.inc (by simpa [DNode.key] using hm)]
          · right
            refine ⟨he, mapSet (.dir k nodes' md pid id) dir.nodes, c', ?_, hle, ?_, mapSet_ne_nil _ _, ?_⟩
            · simp only [hout]; rfl
            · exact (hinv.mono hle).set (NodeInv.dir_iff.2 ⟨h1, h2, by omega, h4, h5, fun _ => hr hrest, hi⟩)
            · exact after_dir hrest (.inl ⟨k, hkid⟩) hl

end Verif
