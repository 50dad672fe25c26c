import Verif.Spec.FileTree
import Verif.CodecLemmas
/-
Lemmas about file trees and grouping.
-/
namespace Verif.Spec
open Verif

theorem groupsF_stable {α : Type} {n : Nat} (hn : 0 < n) (k k' : Nat) (l : List α) (h : l.length ≤ k) (h' : l.length ≤ k') :
    groupsF n k l = groupsF n k' l := by
  induction k generalizing k' l with
  | zero =>
    have : l = [] := List.length_eq_zero_iff.1 (by omega)
    subst this; cases k' <;> simp [groupsF]
  | succ k ih =>
    cases k' with
    | zero =>
      have : l = [] := List.length_eq_zero_iff.1 (by omega)
      subst this; simp [groupsF]
    | succ k' =>
      simp only [groupsF]
      split
      · rfl
      · rename_i hl
        have : l ≠ [] := by simpa using hl
        have := List.length_pos_iff.2 this
        rw [ih k' (l.drop n) (by simp; omega) (by simp; omega)]

@[simp] theorem groups_nil {α : Type} (n : Nat) : groups n ([] : List α) = [] := rfl

theorem groups_cons {α : Type} {n : Nat} (hn : 0 < n) {l : List α} (hl : l ≠ []) :
    groups n l = l.take n :: groups n (l.drop n) := by
  obtain ⟨a, t, rfl⟩ := List.exists_cons_of_ne_nil hl
  unfold groups
  simp only [List.length_cons, groupsF, List.isEmpty_cons, Bool.false_eq_true, if_false]
  rw [groupsF_stable hn _ _ _ (by simp; omega) (Nat.le_refl _)]

theorem groups_induct {α : Type} {n : Nat} (hn : 0 < n) {P : List α → Prop} (h0 : P [])
    (h1 : ∀ l, l ≠ [] → P (l.drop n) → P l) (l : List α) : P l := by
  generalize hk : l.length = k
  induction k using Nat.strongRecOn generalizing l with
  | _ k ih =>
    cases l with
    | nil => exact h0
    | cons a t => exact h1 _ (by simp) (ih _ (by simp at hk ⊢; omega) _ rfl)

theorem groups_flatten {α : Type} {n : Nat} (hn : 0 < n) (l : List α) : (groups n l).flatten = l := by
  induction l using groups_induct hn with
  | h0 => rfl
  | h1 l hl ih => rw [groups_cons hn hl, List.flatten_cons, ih, List.take_append_drop]

theorem groups_mem {α : Type} {n : Nat} (hn : 0 < n) (l : List α) :
    ∀ g ∈ groups n l, 1 ≤ g.length ∧ g.length ≤ n := by
  induction l using groups_induct hn with
  | h0 => simp
  | h1 l hl ih =>
    intro g hg
    rw [groups_cons hn hl] at hg
    rcases List.mem_cons.1 hg with rfl | hg
    · have := List.length_pos_iff.2 hl
      simp only [List.length_take]; omega
    · exact ih g hg

theorem groups_mem_mem {α : Type} {n : Nat} (hn : 0 < n) {l g : List α} {a : α} (hg : g ∈ groups n l) (ha : a ∈ g) :
    a ∈ l := by
  rw [← groups_flatten hn l]; exact List.mem_flatten.2 ⟨g, hg, ha⟩

theorem groups_length {α : Type} {n : Nat} (hn : 0 < n) (l : List α) :
    l.length ≤ n * (groups n l).length ∧ (l ≠ [] → n * ((groups n l).length - 1) < l.length) := by
  induction l using groups_induct hn with
  | h0 => simp
  | h1 l hl ih =>
    rw [groups_cons hn hl]
    have hp := List.length_pos_iff.2 hl
    simp only [List.length_cons, Nat.add_sub_cancel, List.length_drop] at ih ⊢
    refine ⟨by rw [Nat.mul_succ]; omega, fun _ => ?_⟩
    by_cases hd : l.drop n = []
    · rw [hd]; simpa using hp
    · have h2 := ih.2 hd
      have : n < l.length := by
        have := List.length_pos_iff.2 hd; simp at this; omega
      have h3 : 0 < (groups n (l.drop n)).length := by rw [groups_cons hn hd]; simp
      obtain ⟨q, hq⟩ : ∃ q, (groups n (l.drop n)).length = q + 1 := ⟨_, (Nat.succ_pred_eq_of_pos h3).symm⟩
      rw [hq] at h2 ⊢
      simp only [Nat.add_sub_cancel, Nat.mul_succ] at h2 ⊢; omega

theorem groups_ne_nil {α : Type} {n : Nat} (hn : 0 < n) {l : List α} (hl : l ≠ []) : groups n l ≠ [] := by
  rw [groups_cons hn hl]; simp

/-- Grouping a list starting with full pieces. -/
theorem groups_append_full {α : Type} {n : Nat} (hn : 0 < n) (gs : List (List α)) (hg : ∀ g ∈ gs, g.length = n)
    (l : List α) : groups n (gs.flatten ++ l) = gs ++ groups n l := by
  induction gs with
  | nil => rfl
  | cons g gs ih =>
    have h1 := hg g (by simp)
    have : (g :: gs).flatten ++ l ≠ [] := by
      intro h; simp at h; rw [h.1] at h1; simp at h1; omega
    rw [groups_cons hn this]
    simp only [List.flatten_cons, List.append_assoc]
    rw [List.take_append_of_le_length (by omega), List.take_of_length_le (by omega),
      List.drop_append_of_le_length (by omega), List.drop_of_length_le (by omega), List.nil_append,
      ih (fun g h => hg g (by simp [h])), List.cons_append]

namespace FTree

theorem contents_eq (ts : List FTree) : contents ts = ts.flatMap content := by
  induction ts with
  | nil => rfl
  | cons t ts ih => simp [contents, ih]

theorem leavesL_eq (ts : List FTree) : leavesL ts = ts.flatMap leaves := by
  induction ts with
  | nil => rfl
  | cons t ts ih => simp [leavesL, ih]

theorem nodesL_eq (ts : List FTree) : nodesL ts = ts.flatMap nodes := by
  induction ts with
  | nil => rfl
  | cons t ts ih => simp [nodesL, ih]

theorem infos_eq (sha : Bytes → Bytes) (ts : List FTree) : infos sha ts = ts.map (info sha) := by
  induction ts with
  | nil => rfl
  | cons t ts ih => simp [infos, ih]

/-- Induction over trees with the induction hypothesis for every child. -/
theorem induct {P : FTree → Prop} (hl : ∀ d, P (leaf d)) (hn : ∀ ts, (∀ t ∈ ts, P t) → P (node ts)) (t : FTree) : P t :=
  FTree.rec (motive_1 := P) (motive_2 := fun ts => ∀ t ∈ ts, P t) hl hn (by simp)
    (fun t ts h1 h2 s hs => by
      rcases List.mem_cons.1 hs with rfl | h
      · exact h1
      · exact h2 s h) t

theorem leaves_flatten (t : FTree) : t.leaves.flatten = t.content := by
  induction t using induct with
  | hl d => simp [leaves, content]
  | hn ts ih =>
    simp only [leaves, content, leavesL_eq, contents_eq]
    induction ts with
    | nil => rfl
    | cons t ts ih2 => simp [ih t (by simp), ih2 (fun s hs => ih s (by simp [hs]))]

theorem self_mem_nodes (t : FTree) : t ∈ t.nodes := by cases t <;> simp [nodes]

theorem mem_nodes_child {t c : FTree} (h : c ∈ t.children) : c ∈ t.nodes := by
  cases t with
  | leaf d => simp [children] at h
  | node ts =>
    simp only [children] at h
    simp only [nodes, nodesL_eq, List.mem_cons, List.mem_flatMap]
    exact .inr ⟨c, h, self_mem_nodes c⟩

theorem mem_nodes_trans {a b : FTree} (h : a ∈ b.nodes) : ∀ c : FTree, b ∈ c.nodes → a ∈ c.nodes := by
  intro c
  induction c using induct with
  | hl d => intro hb; simp [nodes] at hb; subst hb; exact h
  | hn ts ih =>
    intro hb
    simp only [nodes, nodesL_eq, List.mem_cons, List.mem_flatMap] at hb
    rcases hb with rfl | ⟨t, ht, hb⟩
    · exact h
    · simp only [nodes, nodesL_eq, List.mem_cons, List.mem_flatMap]
      exact .inr ⟨t, ht, ih t ht hb⟩

theorem size_eq (sha : Bytes → Bytes) (t : FTree) : (info sha t).size = t.content.length := by
  induction t using induct with
  | hl d => rfl
  | hn ts ih =>
    simp only [info, nodeInfo, infos_eq, content, contents_eq]
    induction ts with
    | nil => rfl
    | cons t ts ih2 =>
      have h1 := ih t (by simp)
      have h2 := ih2 (fun s hs => ih s (by simp [hs]))
      simp only [List.map_cons, List.sum_cons, List.flatMap_cons, List.length_append] at h1 h2 ⊢
      rw [h1, h2]

theorem total_node (sha : Bytes → Bytes) (ts : List FTree) :
    (node ts).total sha = (ts.map (total sha)).sum + ((node ts).block sha).length := by
  unfold total
  simp only [nodes, nodesL_eq, List.map_cons, List.sum_cons]
  rw [Nat.add_comm]
  congr 1
  induction ts with
  | nil => rfl
  | cons t ts ih => simp only [List.flatMap_cons, List.map_append, List.sum_append, List.map_cons, List.sum_cons, ih]

theorem info_total (sha : Bytes → Bytes) (t : FTree) : (info sha t).total = t.total sha := by
  induction t using induct with
  | hl d => simp [info, leafInfo, total, nodes, block]
  | hn ts ih =>
    rw [total_node]
    simp only [info, nodeInfo, infos_eq, block, List.map_map]
    congr 2
    apply List.map_congr_left
    intro t ht; exact ih t ht

end FTree
end Verif.Spec
