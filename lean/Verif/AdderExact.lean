import Verif.AdderFacts
import Verif.Spec.Balanced
/-
When adding succeeds, exactly: without a bound on the content.
-/
namespace Verif
open Spec

theorem runT_sub {bf : Nat} (ds es : List Bytes) : ∀ t ∈ (runT bf ds).2, t ∈ (runT bf (ds ++ es)).2 := by
  induction es generalizing ds with
  | nil => simp
  | cons e es ih =>
    intro t ht
    rw [show ds ++ e :: es = (ds ++ [e]) ++ es by simp]
    refine ih _ t ?_
    rw [runT_snoc]
    unfold addT
    simp only
    split <;> simp [ht]

/-- What the pushes emit is part of what is emitted in total. -/
theorem runT_sub_treesOf {bf c : Nat} (hbf : 0 < bf) (hc : 0 < c) (ds : List Bytes) (hfull : ∀ d ∈ ds, d.length = c)
    (y : Bytes) : ∀ t ∈ (runT bf ds).2, t ∈ treesOf bf c (ds.flatten ++ y) := by
  intro t ht
  by_cases hds : ds = []
  · subst hds; simp [runT] at ht
  have hgr := groups_append_full hc ds hfull y
  have hne : ds.flatten ++ y ≠ [] := by
    intro h
    obtain ⟨d, ds', rfl⟩ := List.exists_cons_of_ne_nil hds
    have := hfull d (by simp)
    have h2 := congrArg List.length h
    simp only [List.flatten_cons, List.length_append, List.length_nil] at h2
    omega
  unfold treesOf chunks
  rw [if_neg hne, hgr]
  by_cases hy : y = []
  · subst hy
    obtain ⟨ds0, d, rfl⟩ : ∃ x y, ds = x ++ [y] := ⟨ds.dropLast, ds.getLast hds, (List.dropLast_concat_getLast hds).symm⟩
    rw [groups_nil, List.append_nil]
    have hem := emission_flushed hbf ds0 d
    simp only [List.dropLast_concat, List.getLast?_concat, Option.getD_some]
    rw [hem]
    exact List.mem_append_left _ ht
  · have hg := groups_ne_nil hc hy
    rw [List.dropLast_append_of_ne_nil hg]
    unfold emission
    simp only
    exact List.mem_append_left _ (List.mem_append_left _ (runT_sub _ _ t ht))

/-- The feeding loop, whatever the sizes. -/
theorem feed_cases {sha : Bytes → Bytes} {c bf : Nat} (hbf : 2 ≤ bf) (sizes : Nat → Nat) :
    ∀ (k i : Nat) (ds : List Bytes) (a : FileAdder) (x : Bytes), x.length ≤ k → AdderInv sha c bf ds a →
      (∀ t ∈ (runT bf ds).2, Fits sha t) →
      ((∀ t ∈ treesOf bf c (ds.flatten ++ a.block_buffer ++ x), Fits sha t) ∧
        ∃ N, a.feed sha sizes i x = some (.ok (N.map (FTree.entry sha))) ∧
        (runT bf ds).2 ++ N = treesOf bf c (ds.flatten ++ a.block_buffer ++ x)) ∨
      (¬ (∀ t ∈ treesOf bf c (ds.flatten ++ a.block_buffer ++ x), Fits sha t) ∧
        a.feed sha sizes i x = some (.panic .adderOverflow)) := by
  have hlast : ∀ (i : Nat) (ds : List Bytes) (a : FileAdder), AdderInv sha c bf ds a →
      (∀ t ∈ (runT bf ds).2, Fits sha t) →
      ((∀ t ∈ treesOf bf c (ds.flatten ++ a.block_buffer ++ []), Fits sha t) ∧
        ∃ N, a.feed sha sizes i [] = some (.ok (N.map (FTree.entry sha))) ∧
        (runT bf ds).2 ++ N = treesOf bf c (ds.flatten ++ a.block_buffer ++ [])) ∨
      (¬ (∀ t ∈ treesOf bf c (ds.flatten ++ a.block_buffer ++ []), Fits sha t) ∧
        a.feed sha sizes i [] = some (.panic .adderOverflow)) := by
    intro i ds a inv hf
    rw [FileAdder.feed.eq_1, if_pos rfl, List.append_nil]
    by_cases hall : ∀ t ∈ treesOf bf c (ds.flatten ++ a.block_buffer), Fits sha t
    · exact .inl ⟨hall, finish_ok sha hbf inv hall⟩
    · exact .inr ⟨hall, finish_over sha hbf inv hf hall⟩
  intro k
  induction k with
  | zero =>
    intro i ds a x hk inv hf
    have : x = [] := List.length_eq_zero_iff.1 (by omega)
    subst this
    exact hlast i ds a inv hf
  | succ k ih =>
    intro i ds a x hk inv hf
    by_cases hx : x = []
    · subst hx
      exact hlast i ds a inv hf
    rw [FileAdder.feed.eq_1, if_neg hx]
    have hsm := inv.small
    have hpos := List.length_pos_iff.2 hx
    have hn1 : 1 ≤ min (min (max 1 (sizes i)) x.length) (c - a.block_buffer.length) := by omega
    have htk : (x.take (max 1 (sizes i))).take (c - a.block_buffer.length) =
        x.take (min (min (max 1 (sizes i)) x.length) (c - a.block_buffer.length)) := by
      rw [List.take_take]
      by_cases hc : min (c - a.block_buffer.length) (max 1 (sizes i)) ≤ x.length
      · congr 1; omega
      · rw [List.take_of_length_le (by omega), List.take_of_length_le (by omega)]
    rcases push_cases sha (show 0 < bf by omega) inv hf (x.take (max 1 (sizes i))) with
      ⟨a', N, ds', e1, e2, e0, e3, e4, -⟩ | ⟨e1, e2, e3⟩
    · rw [e1]
      simp only [List.length_take]
      rw [htk] at e3
      generalize min (min (max 1 (sizes i)) x.length) (c - a.block_buffer.length) = n at *
      have hcont : ds'.flatten ++ a'.block_buffer ++ x.drop n = ds.flatten ++ a.block_buffer ++ x := by
        rw [e3, List.append_assoc, List.take_append_drop]
      rcases ih (i + 1) ds' a' (x.drop n) (by simp; omega) e2 e0 with ⟨q0, N', q1, q2⟩ | ⟨q0, q1⟩
      · rw [hcont] at q0 q2
        rw [q1]
        refine .inl ⟨q0, N ++ N', by simp [Res.map], ?_⟩
        rw [← List.append_assoc, ← e4, q2]
      · rw [hcont] at q0
        rw [q1]
        exact .inr ⟨q0, rfl⟩
    · rw [e1]
      refine .inr ⟨fun hall => e3 fun t ht => hall t ?_, rfl⟩
      rw [htk] at e3 ht
      have hlen : (a.block_buffer ++ x.take (min (min (max 1 (sizes i)) x.length) (c - a.block_buffer.length))).length = c := by
        rw [List.length_take] at e2
        rw [List.length_append, List.length_take]; omega
      generalize min (min (max 1 (sizes i)) x.length) (c - a.block_buffer.length) = n at *
      have := runT_sub_treesOf (show 0 < bf by omega) (show 0 < c by omega) _ (fun d hd => by
        rcases List.mem_append.1 hd with h | h
        · exact inv.full d h
        · simp only [List.mem_singleton] at h; rw [h]; exact hlen) (x.drop n) t ht
      have e : (ds ++ [a.block_buffer ++ x.take n]).flatten ++ x.drop n = ds.flatten ++ a.block_buffer ++ x := by
        simp
      rwa [e] at this

/-! ### the tree is the balanced one -/

theorem layered_unique {bf : Nat} {ts : List FTree} {T U : FTree} (h : Layered bf ts T) (g : Layered bf ts U) : T = U := by
  induction h with
  | one T =>
    cases g with
    | one => rfl
    | up h _ => simp at h
  | up h1 _ ih =>
    cases g with
    | one => simp at h1
    | up _ h2 => exact ih h2

/-- With branching factor one no tree is ever finished above two or more. -/
theorem layered_one {ts : List FTree} {T : FTree} (h : Layered 1 ts T) : ts.length = 1 := by
  induction h with
  | one => rfl
  | @up ts T h1 _ ih =>
    have := (groups_length (show 0 < 1 by decide) ts).1
    rw [List.length_map] at ih
    rw [ih] at this
    omega

theorem runT_up {bf : Nat} (ds : List Bytes) : ∃ gs : List (List FTree), (runT bf ds).1.1 = gs.map .node ∧
    (∀ g ∈ gs, g.length = bf) ∧ gs.flatten ++ (runT bf ds).1.2 = ds.map .leaf := by
  generalize hn : ds.length = n
  induction n generalizing ds with
  | zero =>
    have : ds = [] := List.length_eq_zero_iff.1 hn
    subst this
    exact ⟨[], by simp [runT]⟩
  | succ n ih =>
    obtain ⟨ds, d, rfl⟩ : ∃ a b, ds = a ++ [b] := by
      have hne : ds ≠ [] := by intro h; rw [h] at hn; simp at hn
      exact ⟨ds.dropLast, ds.getLast hne, (List.dropLast_concat_getLast hne).symm⟩
    obtain ⟨gs, h1, h2, h3⟩ := ih ds (by simpa using hn)
    rw [runT_snoc]
    unfold addT
    simp only
    split
    · exact ⟨gs, h1, h2, by simp [← h3]⟩
    · rename_i hgt
      refine ⟨gs ++ [((runT bf ds).1.2 ++ [FTree.leaf d]).take bf], by simp [h1], ?_, ?_⟩
      · intro g hg
        rcases List.mem_append.1 hg with h | h
        · exact h2 g h
        · simp only [List.mem_singleton] at h
          rw [h, List.length_take]; omega
      · rw [List.flatten_append, List.flatten_cons, List.flatten_nil, List.append_nil, List.append_assoc,
          List.take_append_drop, ← List.append_assoc, h3]
        simp

/-- Link blocks returned by pushes have exactly `bf` leaves below them. -/
theorem runT_nodes {bf : Nat} (ds : List Bytes) : ∀ ts, FTree.node ts ∈ (runT bf ds).2 →
    ts.length = bf ∧ ∀ t ∈ ts, ∃ d ∈ ds, t = .leaf d := by
  generalize hn : ds.length = n
  induction n generalizing ds with
  | zero =>
    have : ds = [] := List.length_eq_zero_iff.1 hn
    subst this
    intro ts h; simp [runT] at h
  | succ n ih =>
    obtain ⟨ds, d, rfl⟩ : ∃ a b, ds = a ++ [b] := by
      have hne : ds ≠ [] := by intro h; rw [h] at hn; simp at hn
      exact ⟨ds.dropLast, ds.getLast hne, (List.dropLast_concat_getLast hne).symm⟩
    have ih := ih ds (by simpa using hn)
    obtain ⟨gs, h1, h2, h3⟩ := runT_up (bf := bf) ds
    have old : ∀ ts, FTree.node ts ∈ (runT bf ds).2 → ts.length = bf ∧ ∀ t ∈ ts, ∃ e ∈ ds ++ [d], t = .leaf e := by
      intro ts h
      obtain ⟨q1, q2⟩ := ih ts h
      refine ⟨q1, fun t ht => ?_⟩
      obtain ⟨e, he, rfl⟩ := q2 t ht
      exact ⟨e, by simp [he], rfl⟩
    intro ts h
    rw [runT_snoc] at h
    unfold addT at h
    simp only at h
    split at h
    · rcases List.mem_append.1 h with h | h
      · exact old ts h
      · simp at h
    · rename_i hgt
      rcases List.mem_append.1 h with h | h
      · exact old ts h
      · simp only [List.mem_cons, FTree.node.injEq, List.not_mem_nil, or_false, reduceCtorEq, false_or] at h
        subst h
        refine ⟨by rw [List.length_take]; omega, fun t ht => ?_⟩
        rcases List.mem_append.1 (List.mem_of_mem_take ht) with h | h
        · have : t ∈ ds.map FTree.leaf := by rw [← h3]; exact List.mem_append_right _ h
          obtain ⟨e, he, rfl⟩ := List.mem_map.1 this
          exact ⟨e, by simp [he], rfl⟩
        · exact ⟨d, by simp, by simpa using h⟩

/-- If a group of `bf` chunks fits then pushes never overflow. -/
theorem runT_fits {sha : Bytes → Bytes} (hsha : ∀ b, (sha b).length = 32) {c bf : Nat} (hg : bf * (c + 256) + 256 < U64)
    {ds : List Bytes} (hfull : ∀ d ∈ ds, d.length = c) : ∀ t ∈ (runT bf ds).2, Fits sha t := by
  intro t ht ts hts
  subst hts
  obtain ⟨h1, h2⟩ := runT_nodes ds ts ht
  have hb := total_bound hsha (.node ts)
  have key : (FTree.contents ts).length = ts.length * c ∧ (FTree.nodesL ts).length = ts.length := by
    clear ht h1 hb
    induction ts with
    | nil => simp [FTree.contents, FTree.nodesL]
    | cons t ts ih =>
      obtain ⟨d, hd, rfl⟩ := h2 t (by simp)
      obtain ⟨q1, q2⟩ := ih (fun s hs => h2 s (by simp [hs]))
      have := hfull d hd
      simp only [FTree.contents, FTree.content, FTree.nodesL, FTree.nodes, List.length_append, List.length_cons,
        List.length_nil, Nat.add_mul, q1, q2, this]
      omega
  simp only [FTree.content, FTree.nodes, List.length_cons] at hb
  rw [key.1, key.2, h1] at hb
  rw [Nat.mul_add] at hg
  omega

theorem finishT_layered {bf : Nat} (hbf : 2 ≤ bf) (k : Nat) : ∀ B : List FTree, B ≠ [] → B.length ≤ k + 1 →
    ∃ T, Layered bf B T ∧ (B = [T] ∨ (finishT bf k [] B).getLast? = some T) := by
  induction k with
  | zero =>
    intro B hB hk
    have hpos := List.length_pos_iff.2 hB
    obtain ⟨T, rfl⟩ := List.length_eq_one_iff.1 (show B.length = 1 by omega)
    exact ⟨T, .one T, .inl rfl⟩
  | succ k ih =>
    intro B hB hk
    have hpos := List.length_pos_iff.2 hB
    by_cases h1 : B.length = 1
    · obtain ⟨T, rfl⟩ := List.length_eq_one_iff.1 h1
      exact ⟨T, .one T, .inl rfl⟩
    · have hlt := groups_lt hbf (l := B) (by omega)
      obtain ⟨T, q1, q2⟩ := ih ((groups bf B).map .node) (by simp [groups_ne_nil (show 0 < bf by omega) hB]) (by simp; omega)
      refine ⟨T, .up (by omega) q1, .inr ?_⟩
      simp only [finishT]
      rw [if_neg (by simpa using h1)]
      simp only [List.nil_append]
      rcases q2 with q2 | q2
      · rw [q2]
        cases k with
        | zero => simp [finishT]
        | succ k => simp [finishT]
      · rw [List.getLast?_append, q2]; rfl

/-- The last emitted tree is the balanced tree over the chunks. -/
theorem treesOf_layered {c bf : Nat} (hc : 0 < c) (hbf : 2 ≤ bf) (x : Bytes) :
    ∃ T, BalancedTree c bf x T ∧ (treesOf bf c x).getLast? = some T := by
  have hs := chunks_split hc x
  unfold BalancedTree treesOf
  generalize (chunks c x).dropLast = ds at *
  generalize (chunks c x).getLast?.getD [] = d at *
  rw [hs]
  obtain ⟨gs, h1, h2, h3⟩ := runT_up (bf := bf) ds
  unfold emission
  simp only [finishT]
  generalize (runT bf ds).1.1 = A at *
  generalize (runT bf ds).1.2 = B at *
  have hall : gs.flatten ++ (B ++ [FTree.leaf d]) = (ds ++ [d]).map .leaf := by
    rw [← List.append_assoc, h3]; simp
  have hgr := groups_append_full (show 0 < bf by omega) gs h2 (B ++ [FTree.leaf d])
  rw [hall] at hgr
  by_cases hone : A.length + (B ++ [FTree.leaf d]).length = 1
  · rw [if_pos hone]
    have hA : A = [] := List.length_eq_zero_iff.1 (by simp at hone; omega)
    have hB : B = [] := List.length_eq_zero_iff.1 (by simp at hone; omega)
    have hgs : gs = [] := by rw [hA] at h1; exact List.map_eq_nil_iff.1 h1.symm
    rw [hgs, hB] at h3
    have hds : ds = [] := List.map_eq_nil_iff.1 h3.symm
    subst hds
    exact ⟨.leaf d, by simpa using Layered.one (FTree.leaf d), by simp⟩
  · rw [if_neg hone]
    have hup : A ++ (groups bf (B ++ [FTree.leaf d])).map FTree.node = (groups bf ((ds ++ [d]).map FTree.leaf)).map .node := by
      rw [hgr, List.map_append, h1]
    have hlen : 2 ≤ ((ds ++ [d]).map FTree.leaf).length := by
      rw [← hall]
      simp only [List.length_append, List.length_singleton] at hone ⊢
      by_cases hA : A = []
      · have : A.length = 0 := by rw [hA]; rfl
        omega
      · have hg : gs ≠ [] := by intro h; rw [h] at h1; exact hA (by simpa using h1)
        obtain ⟨g, gs', rfl⟩ := List.exists_cons_of_ne_nil hg
        have := h2 g (by simp)
        simp; omega
    have hgne : groups bf (B ++ [FTree.leaf d]) ≠ [] := groups_ne_nil (by omega) (by simp)
    have hle : (groups bf (B ++ [FTree.leaf d])).length ≤ B.length + 1 := by
      by_cases hB : B = []
      · have hl := (groups_length (show 0 < bf by omega) (B ++ [FTree.leaf d])).2 (by simp)
        rw [hB] at hl ⊢
        simp only [List.nil_append, List.length_singleton, List.length_nil] at hl ⊢
        refine Decidable.byContradiction fun hcc => ?_
        have h2 : bf * 1 ≤ bf * ((groups bf [FTree.leaf d]).length - 1) := Nat.mul_le_mul_left _ (by omega)
        omega
      · have := groups_lt hbf (l := B ++ [FTree.leaf d]) (by have := List.length_pos_iff.2 hB; simp; omega)
        simp at this; omega
    obtain ⟨T, q1, q2⟩ := finishT_layered hbf (A.length + B.length) (A ++ (groups bf (B ++ [FTree.leaf d])).map FTree.node)
      (by simp [hgne]) (by simp; omega)
    refine ⟨T, .up hlen (by rw [← hup]; exact q1), ?_⟩
    rcases q2 with q2 | q2
    · have hA : A = [] := by
        have := congrArg List.length q2
        have hp := List.length_pos_iff.2 hgne
        simp at this
        exact List.length_eq_zero_iff.1 (by omega)
      rw [hA] at q2 ⊢
      simp only [List.nil_append] at q2 ⊢
      rw [q2]
      cases hk : ([] : List FTree).length + B.length with
      | zero => simp [finishT]
      | succ k => simp [finishT]
    · rw [List.getLast?_append, List.getLast?_append, q2]; rfl

/-! ### success, exactly -/

theorem all_fit {sha : Bytes → Bytes} {c bf : Nat} (hc : 0 < c) (hb : 2 ≤ bf) {x : Bytes} {T : FTree}
    (hl : (treesOf bf c x).getLast? = some T) (hf : Fits sha T) : ∀ t ∈ treesOf bf c x, Fits sha t := by
  obtain ⟨V, h, e⟩ := treesOf_spec hc x (.inl hb) (by omega)
  have : V = T := by have := e.last; rw [hl] at this; cases this; rfl
  subst this
  intro t ht ts hts
  have hm := e.perm.mem_iff.1 ht
  have hle := total_mono sha hm
  cases V with
  | leaf d =>
    simp only [FTree.nodes, List.mem_singleton] at hm
    rw [hm] at hts; cases hts
  | node us => exact Nat.lt_of_le_of_lt hle (hf us rfl)

theorem feed_history {sha : Bytes → Bytes} {c bf : Nat} (sizes : Nat → Nat) :
    ∀ (k i : Nat) (x : Bytes) (bs : List (Cid × Bytes)) (a : FileAdder) (y : Bytes) (bl : List (Cid × Bytes)),
      y.length ≤ k → Reaches sha c bf x bs a → (∀ {x bs a}, Reaches sha c bf x bs a → a.block_buffer.length < a.chunkMax) →
      a.feed sha sizes i y = some (.ok bl) → Adds sha c bf (x ++ y) (bs ++ bl) := by
  intro k
  induction k with
  | zero =>
    intro i x bs a y bl hk h hsm hf
    have : y = [] := List.length_eq_zero_iff.1 (by omega)
    subst this
    rw [FileAdder.feed.eq_1, if_pos rfl] at hf
    exact ⟨bs, a, bl, by simpa using h, hf, rfl⟩
  | succ k ih =>
    intro i x bs a y bl hk h hsm hf
    rw [FileAdder.feed.eq_1] at hf
    by_cases hy : y = []
    · subst hy
      rw [if_pos rfl] at hf
      exact ⟨bs, a, bl, by simpa using h, hf, rfl⟩
    rw [if_neg hy] at hf
    have hpos := List.length_pos_iff.2 hy
    cases hp : a.push sha (y.take (max 1 (sizes i))) with
    | none => rw [hp] at hf; cases hf
    | some r =>
      rw [hp] at hf
      cases r with
      | err e => cases hf
      | panic p => cases hf
      | ok r =>
        obtain ⟨a', b1, n⟩ := r
        have hn := (push_consumed hp).1
        have hs := hsm h
        rw [List.length_take] at hn
        have h2 := Reaches.push _ h hp
        rw [List.take_take, Nat.min_eq_left (by omega)] at h2
        cases hq : a'.feed sha sizes (i + 1) (y.drop n) with
        | none => simp [hq] at hf
        | some r =>
          cases r with
          | err e => simp [hq, Res.map] at hf
          | panic p => simp [hq, Res.map] at hf
          | ok b2 =>
            have h3 := ih (i + 1) _ _ a' (y.drop n) b2 (by simp; omega) h2 hsm hq
            have e : bl = b1 ++ b2 := by simpa [hq, Res.map, eq_comm] using hf
            rw [e, ← List.append_assoc]
            rwa [List.append_assoc, List.take_append_drop] at h3

/-- Adding returns blocks exactly if the balanced tree exists and its size fits. -/
theorem adds_iff {sha : Bytes → Bytes} {c bf : Nat} (hc : 0 < c) (hbf : 0 < bf) (x : Bytes) :
    (∃ blocks, Adds sha c bf x blocks) ↔ ∃ T, BalancedTree c bf x T ∧ Fits sha T := by
  have hsm : ∀ {x bs a}, Reaches sha c bf x bs a → a.block_buffer.length < a.chunkMax := by
    intro x bs a h
    obtain ⟨ds, inv, -⟩ := reaches_inv hc hbf h
    rw [inv.chunk]; exact inv.small
  constructor
  · rintro ⟨blocks, h⟩
    obtain ⟨-, h2, h3⟩ := adds_trees hc hbf h
    rcases h2 with h2 | h2
    · obtain ⟨T, h4, h5⟩ := treesOf_layered hc h2 x
      exact ⟨T, h4, h3 T (List.mem_of_getLast? h5)⟩
    · obtain ⟨d, hd⟩ := List.length_eq_one_iff.1 h2
      exact ⟨.leaf d, by unfold BalancedTree; rw [hd]; exact .one _, by intro ts h; cases h⟩
  · rintro ⟨T, h1, h2⟩
    by_cases hb : 2 ≤ bf
    · obtain ⟨U, h4, h5⟩ := treesOf_layered hc hb x
      obtain rfl := layered_unique h1 h4
      have hall : ∀ t ∈ treesOf bf c x, Fits sha t := all_fit hc hb h5 h2
      rcases feed_cases (sha := sha) hb (fun _ => 1) x.length 0 [] (newAdder c bf) x (Nat.le_refl _) (newAdder_inv sha hc)
        (by simp [runT]) with ⟨-, N, q1, -⟩ | ⟨q0, -⟩
      · have := feed_history (fun _ => 1) x.length 0 [] [] (newAdder c bf) x _ (Nat.le_refl _) .start hsm q1
        exact ⟨_, by simpa using this⟩
      · exact (q0 (by simpa [newAdder, FileAdder.build] using hall)).elim
    · have : bf = 1 := by omega
      subst this
      have hone := layered_one h1
      rw [List.length_map] at hone
      have hxl : x.length ≤ c := by
        obtain ⟨d, hd⟩ := List.length_eq_one_iff.1 hone
        have := chunks_flatten hc x
        rw [hd] at this
        have h3 := chunks_le hc x d (by rw [hd]; simp)
        simp at this; rw [← this]; exact h3
      rcases push_cases sha hbf (newAdder_inv sha (bf := 1) hc) (by simp [runT]) x with
        ⟨a', N, ds', e1, e2, e0, e3, e4, -⟩ | ⟨-, -, e3⟩
      · have hr := Reaches.push x .start e1
        simp only [newAdder, FileAdder.build, List.length_nil, Nat.sub_zero, List.nil_append, List.flatten_nil] at hr e3
        rw [List.take_of_length_le (by omega)] at hr
        rw [List.take_of_length_le hxl] at e3
        obtain ⟨bs, q1, -⟩ := finish_one sha hbf e2 (by rw [e3]; exact hone)
        exact ⟨_, _, a', bs, hr, q1, rfl⟩
      · exfalso
        apply e3
        intro t ht ts hts
        subst hts
        simp [runT, addT] at ht

end Verif
