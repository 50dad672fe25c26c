import Verif.AdderOver
import Verif.Spec.Adding
/-
Histories of an adder.
-/
namespace Verif
open Spec

/-- What `push` reports as consumed, whatever the state. -/
theorem push_consumed {sha : Bytes → Bytes} {a a' : FileAdder} {input : Bytes} {bs : List (Cid × Bytes)} {n : Nat}
    (h : a.push sha input = some (.ok (a', bs, n))) :
    n = min input.length (a.chunkMax - a.block_buffer.length) ∧ a.block_buffer.length ≤ a.chunkMax := by
  unfold FileAdder.push chunkerAccept at h
  by_cases h1 : a.chunkMax < a.block_buffer.length
  · rw [if_pos h1] at h; cases h
  · rw [if_neg h1] at h
    have hl : (input.take (Nat.min input.length (a.chunkMax - a.block_buffer.length))).length =
        min input.length (a.chunkMax - a.block_buffer.length) := by
      rw [List.length_take]; show min (min _ _) _ = _; omega
    refine ⟨?_, by omega⟩
    rw [← hl]
    simp only at h
    generalize List.take (Nat.min input.length (a.chunkMax - a.block_buffer.length)) input = acc at h ⊢
    split at h
    · split at h <;> cases h
      rfl
    · split at h
      · cases h; rfl
      · split at h <;> cases h
        rfl

/-- Totals of the trees emitted by pushes. -/
theorem runT_total {sha : Bytes → Bytes} (hsha : ∀ b, (sha b).length = 32) {bf : Nat} (hbf : 0 < bf)
    (ds : List Bytes) (t : FTree) (ht : t ∈ (runT bf ds).2) :
    t.total sha ≤ ds.flatten.length + 512 * ds.length := by
  have inv := runT_inv hbf ds
  have hlen := runT_length hbf ds
  obtain ⟨⟨⟨A, B⟩, E⟩, hst⟩ : ∃ st, runT bf ds = st := ⟨_, rfl⟩
  rw [hst] at inv ht hlen
  obtain ⟨f, -, -, hfull⟩ := inv
  simp only at f ht hfull hlen
  have h1 := f.perm.mem_iff.1 ht
  obtain ⟨t', ht', htn⟩ := List.mem_flatMap.1 h1
  have h2 := total_mono sha htn
  have h3 := total_bound hsha t'
  have h4 := f.perm.length_eq
  have h5 : t'.nodes.length ≤ ((A ++ B).flatMap FTree.nodes).length := by
    generalize A ++ B = L at ht'
    induction L with
    | nil => simp at ht'
    | cons x L ih =>
      rcases List.mem_cons.1 ht' with rfl | h
      · simp
      · have := ih h; simp only [List.flatMap_cons, List.length_append]; omega
  have h6 : t'.content.length ≤ ds.flatten.length := by
    have e : ds.flatten = (A ++ B).flatMap FTree.content := by
      rw [← f.leaves]
      generalize A ++ B = L
      induction L with
      | nil => rfl
      | cons x L ih => simp [ih, FTree.leaves_flatten]
    rw [e]
    generalize A ++ B = L at ht'
    induction L with
    | nil => simp at ht'
    | cons x L ih =>
      rcases List.mem_cons.1 ht' with rfl | h
      · simp
      · have := ih h; simp only [List.flatMap_cons, List.length_append]; omega
  have h7 : 1 * A.length ≤ bf * A.length := Nat.mul_le_mul_right _ hbf
  omega

theorem flatten_length_ge {c : Nat} (hc : 0 < c) (ds : List Bytes) (h : ∀ d ∈ ds, d.length = c) :
    ds.length ≤ ds.flatten.length := by
  induction ds with
  | nil => simp
  | cons d ds ih =>
    have := ih (fun x hx => h x (by simp [hx]))
    have h2 := h d (by simp)
    simp only [List.flatten_cons, List.length_append, List.length_cons]; omega

/-- The size of content up to which `u64` arithmetic is proved not to overflow: 1 PiB. -/
def maxContent : Nat := 2 ^ 50

/-- A push in a reachable state succeeds. -/
theorem push_step {sha : Bytes → Bytes} (hsha : ∀ b, (sha b).length = 32) {c bf : Nat} (hbf : 0 < bf) {ds : List Bytes}
    {a : FileAdder} (inv : AdderInv sha c bf ds a) (input : Bytes)
    (hlen : (ds.flatten ++ a.block_buffer ++ input.take (c - a.block_buffer.length)).length < maxContent) :
    ∃ a' N ds', a.push sha input =
        some (.ok (a', N.map (FTree.entry sha), min input.length (c - a.block_buffer.length))) ∧
      AdderInv sha c bf ds' a' ∧ ds'.flatten ++ a'.block_buffer =
        ds.flatten ++ a.block_buffer ++ input.take (c - a.block_buffer.length) ∧
      (runT bf ds').2 = (runT bf ds).2 ++ N ∧ N.length ≤ 2 := by
  apply push_ok sha hbf inv input
  intro d hd t ht _ _
  have h1 := runT_total hsha hbf _ t ht
  have h2 := flatten_length_ge (by have := inv.small; omega) ds inv.full
  rw [← hd] at hlen
  simp only [List.flatten_append, List.flatten_cons, List.flatten_nil, List.append_nil, List.length_append,
    List.length_singleton] at h1 hlen
  have h3 : U64 = 2 ^ 64 := rfl
  have h4 : maxContent = 2 ^ 50 := rfl
  omega

/-- The invariant holds in every reachable state; what was emitted fits. -/
theorem reaches_inv {sha : Bytes → Bytes} {c bf : Nat} (hc : 0 < c) (hbf : 0 < bf)
    {x : Bytes} {bs : List (Cid × Bytes)} {a : FileAdder} (h : Reaches sha c bf x bs a) :
    ∃ ds, AdderInv sha c bf ds a ∧ x = ds.flatten ++ a.block_buffer ∧ bs = (runT bf ds).2.map (FTree.entry sha) ∧
      ∀ t ∈ (runT bf ds).2, Fits sha t := by
  induction h with
  | start => exact ⟨[], ⟨rfl, rfl, rfl, by simp, hc⟩, rfl, rfl, by simp [runT]⟩
  | @push x bs a input a' bs' n _ hp ih =>
    obtain ⟨ds, inv, h1, h2, h3⟩ := ih
    obtain ⟨hn, -⟩ := push_consumed hp
    rw [inv.chunk] at hn
    have htk : input.take n = input.take (c - a.block_buffer.length) := by
      rw [hn, Nat.min_def]; split
      · rw [List.take_of_length_le (Nat.le_refl _), List.take_of_length_le (by omega)]
      · rfl
    rw [htk]
    rcases push_cases sha hbf inv h3 input with ⟨a'', N, ds', e1, e2, e0, e3, e4, -⟩ | ⟨e1, -⟩
    · rw [hp] at e1
      cases e1
      exact ⟨ds', e2, by rw [e3, h1], by rw [e4, h2]; simp, e0⟩
    · rw [hp] at e1; cases e1

theorem chunks_length {c : Nat} (hc : 0 < c) (x : Bytes) : (chunks c x).length ≤ x.length + 1 := by
  unfold chunks
  split
  · simp
  · rename_i h
    have h1 := (groups_length hc x).2 h
    have : 1 * ((groups c x).length - 1) ≤ c * ((groups c x).length - 1) := Nat.mul_le_mul_right _ hc
    omega

theorem chunks_ne {c : Nat} (hc : 0 < c) (x : Bytes) : chunks c x ≠ [] := by
  unfold chunks
  split
  · simp
  · rename_i h; exact groups_ne_nil hc h

theorem chunks_split {c : Nat} (hc : 0 < c) (x : Bytes) :
    chunks c x = (chunks c x).dropLast ++ [(chunks c x).getLast?.getD []] := by
  have h := chunks_ne hc x
  rw [List.getLast?_eq_some_getLast h, Option.getD_some, List.dropLast_concat_getLast h]

theorem chunks_flatten {c : Nat} (hc : 0 < c) (x : Bytes) : (chunks c x).flatten = x := by
  unfold chunks
  split
  · rename_i h; rw [h]; rfl
  · exact groups_flatten hc x

theorem treesOf_total {sha : Bytes → Bytes} (hsha : ∀ b, (sha b).length = 32) {c bf : Nat} (hc : 0 < c) (hbf : 2 ≤ bf)
    {x : Bytes} (hx : x.length < maxContent) : ∀ t ∈ treesOf bf c x, t.total sha < U64 := by
  intro t ht
  have h1 := emission_total hsha hbf _ _ t ht
  have h2 := chunks_split hc x
  have h3 := chunks_flatten hc x
  have h4 := chunks_length hc x
  have h5 : (chunks c x).dropLast.flatten ++ (chunks c x).getLast?.getD [] = x := by
    conv => rhs; rw [← h3, h2]
    simp
  rw [h5] at h1
  rw [List.length_dropLast] at h1
  have h6 : U64 = 2 ^ 64 := rfl
  have h7 : maxContent = 2 ^ 50 := rfl
  omega

/-- `finish` in a reachable state, branching factor at least two. -/
theorem finish_step {sha : Bytes → Bytes} (hsha : ∀ b, (sha b).length = 32) {c bf : Nat} (hbf : 2 ≤ bf)
    {ds : List Bytes} {a : FileAdder} (inv : AdderInv sha c bf ds a)
    (hlen : (ds.flatten ++ a.block_buffer).length < maxContent) :
    ∃ N, a.finish sha = some (.ok (N.map (FTree.entry sha))) ∧
      (runT bf ds).2 ++ N = treesOf bf c (ds.flatten ++ a.block_buffer) :=
  finish_ok sha hbf inv fun t ht _ _ => treesOf_total hsha (by have := inv.small; omega) hbf hlen t ht

/-- The feeding loop. -/
theorem feed_ok {sha : Bytes → Bytes} (hsha : ∀ b, (sha b).length = 32) {c bf : Nat} (hbf : 2 ≤ bf) (sizes : Nat → Nat) :
    ∀ (k i : Nat) (ds : List Bytes) (a : FileAdder) (x : Bytes), x.length ≤ k → AdderInv sha c bf ds a →
      (ds.flatten ++ a.block_buffer ++ x).length < maxContent →
      ∃ N, a.feed sha sizes i x = some (.ok (N.map (FTree.entry sha))) ∧
        (runT bf ds).2 ++ N = treesOf bf c (ds.flatten ++ a.block_buffer ++ x) := by
  intro k
  induction k with
  | zero =>
    intro i ds a x hk inv hlen
    have : x = [] := List.length_eq_zero_iff.1 (by omega)
    subst this
    rw [FileAdder.feed.eq_1, if_pos rfl]
    simpa using finish_step hsha hbf inv (by simpa using hlen)
  | succ k ih =>
    intro i ds a x hk inv hlen
    rw [FileAdder.feed.eq_1]
    by_cases hx : x = []
    · subst hx
      rw [if_pos rfl]
      simpa using finish_step hsha hbf inv (by simpa using hlen)
    · rw [if_neg hx]
      have hsm := inv.small
      have hpos := List.length_pos_iff.2 hx
      obtain ⟨a', N, ds', e1, e2, e3, e4, -⟩ := push_step hsha (show 0 < bf by omega) inv
        (x.take (max 1 (sizes i))) (by
          simp only [List.length_append, List.length_take] at hlen ⊢; omega)
      rw [e1]
      simp only [List.length_take]
      generalize hn : min (min (max 1 (sizes i)) x.length) (c - a.block_buffer.length) = n
      have hn1 : 1 ≤ n := by omega
      have htk : (x.take (max 1 (sizes i))).take (c - a.block_buffer.length) = x.take n := by
        rw [List.take_take]
        rw [← hn]
        by_cases hc : min (c - a.block_buffer.length) (max 1 (sizes i)) ≤ x.length
        · congr 1; omega
        · rw [List.take_of_length_le (by omega), List.take_of_length_le (by omega)]
      rw [htk] at e3
      obtain ⟨N', q1, q2⟩ := ih (i + 1) ds' a' (x.drop n) (by simp; omega) e2 (by
        rw [e3, List.append_assoc, List.take_append_drop]; exact hlen)
      rw [q1]
      refine ⟨N ++ N', by simp [Res.map], ?_⟩
      rw [← List.append_assoc, ← e4, q2, e3, List.append_assoc, List.take_append_drop]

theorem newAdder_inv (sha : Bytes → Bytes) {c bf : Nat} (hc : 0 < c) : AdderInv sha c bf [] (newAdder c bf) :=
  ⟨rfl, rfl, rfl, by simp, hc⟩

end Verif
