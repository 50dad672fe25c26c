import Verif.AdderTrees
import Verif.AdderLemmas
import Verif.CodecLemmas
/-
Bounds on the sizes of the emitted blocks and on the number of nodes of the emitted tree: these discharge the
`u64` overflow conditions of the adder.
-/
namespace Verif
open Spec

theorem encVarintF_le (k n : Nat) : (encVarintF k n).length ≤ k + 1 := by
  induction k generalizing n with
  | zero => simp [encVarintF]
  | succ k ih =>
    unfold encVarintF
    split
    · simp
    · simp only [List.length_cons]; have := ih (n / 128); omega

theorem encVarint_le (n : Nat) : (encVarint n).length ≤ 10 := encVarintF_le 9 n

theorem leafMsg_length_le (d : Bytes) : (FTree.leafMsg d).write.length ≤ d.length + 40 := by
  have h1 := encVarint_le (FTree.leafMsg d).data.getSize
  have h2 := encVarint_le d.length
  have h3 : (encVarint DataType.File.toNat).length = 1 := rfl
  unfold FTree.leafMsg at h1 ⊢
  simp only [FlatUnixFs.write, List.flatMap_nil, List.nil_append, wMessage, UnixFs.write, wOpt,
    List.length_append, tag_len (show 8 < 128 by decide), tag_len (show 18 < 128 by decide),
    tag_len (show 10 < 128 by decide), tag_len (show 24 < 128 by decide), List.length_nil, Nat.add_zero]
  by_cases hd : d = []
  · subst hd; simp only [if_true, List.length_nil] at *; omega
  · simp only [if_neg hd, tag_len (show 18 < 128 by decide), wBytes, List.length_append] at *; omega

theorem plink_write_le {sha : Bytes → Bytes} (hsha : ∀ b, (sha b).length = 32) (t : FTree) :
    (plink sha t).write.length ≤ 170 := by
  have h1 := Cid.toBytes_length_le _ (cidOf_fits hsha (t.block sha))
  have h2 := encVarint_le (t.cid sha).toBytes.length
  have h3 := encVarint_le (t.total sha)
  have h4 : (encVarint 0).length = 1 := rfl
  unfold plink PBLink.write
  simp only [wOpt, List.length_append, tag_len (show 18 < 128 by decide),
    tag_len (show 10 < 128 by decide), tag_len (show 24 < 128 by decide), wBytes]
  simp only [FTree.cid, List.length_nil] at h2 ⊢
  omega

theorem flatMap_length_le {α β : Type} (l : List α) (f : α → List β) (k : Nat) (h : ∀ a ∈ l, (f a).length ≤ k) :
    (l.flatMap f).length ≤ k * l.length := by
  induction l with
  | nil => simp
  | cons a l ih =>
    have := ih (fun b hb => h b (by simp [hb]))
    have h1 := h a (by simp)
    simp only [List.flatMap_cons, List.length_append, List.length_cons, Nat.mul_add, Nat.mul_one]
    omega

theorem nodeMsg_length_le {sha : Bytes → Bytes} (hsha : ∀ b, (sha b).length = 32) (ts : List FTree) :
    ((FTree.node ts).block sha).length ≤ 200 * ts.length + 40 := by
  unfold FTree.block
  simp only [FTree.info, FTree.nodeInfo]
  rw [nodeMsg_eq]
  simp only [FlatUnixFs.write, List.length_append, UnixFs.write, wOpt, List.length_nil, Nat.add_zero,
    tag_len (show 8 < 128 by decide), tag_len (show 10 < 128 by decide), tag_len (show 24 < 128 by decide), wMessage]
  have a1 := flatMap_length_le (ts.map (plink sha))
    (fun l => wTag 18 (encVarint l.getSize ++ l.write)) 181 (by
      intro l hl
      obtain ⟨t, -, rfl⟩ := List.mem_map.1 hl
      have := plink_write_le hsha t
      have := encVarint_le (plink sha t).getSize
      simp only [tag_len (show 18 < 128 by decide), List.length_append]; omega)
  have a2 := flatMap_length_le (ts.map (fun t => t.content.length)) (fun n => wTag 32 (encVarint n)) 11 (by
      intro l hl
      have := encVarint_le l
      simp only [tag_len (show 32 < 128 by decide)]; omega)
  have a3 := encVarint_le (UnixFs.getSize (UnixFs.mk .File none (some (sizes ts)) (ts.map (fun t => t.content.length)) none none none none))
  have a4 := encVarint_le (sizes ts)
  have a5 := encVarint_le DataType.File.toNat
  simp only [List.length_map] at a1 a2
  omega

theorem total_bound {sha : Bytes → Bytes} (hsha : ∀ b, (sha b).length = 32) (t : FTree) :
    t.total sha + 200 ≤ t.content.length + 256 * t.nodes.length := by
  induction t using FTree.induct with
  | hl d =>
    have := leafMsg_length_le d
    have e : (FTree.leaf d).total sha = (FTree.leafMsg d).write.length := by
      rw [← FTree.info_total]; rfl
    rw [e]; simp only [FTree.content, FTree.nodes, List.length_singleton]; omega
  | hn ts ih =>
    rw [FTree.total_node]
    have h1 := nodeMsg_length_le hsha ts
    have h2 : (ts.map (FTree.total sha)).sum + 200 * ts.length ≤
        (FTree.contents ts).length + 256 * (FTree.nodesL ts).length := by
      clear h1
      induction ts with
      | nil => simp
      | cons t ts ih2 =>
        have a := ih t (by simp)
        have b := ih2 (fun s hs => ih s (by simp [hs]))
        simp only [List.map_cons, List.sum_cons, List.length_cons, FTree.contents, FTree.nodesL, List.length_append]
        omega
    simp only [FTree.content, FTree.nodes, List.length_cons]
    omega

theorem sum_ge_mem {l : List Nat} {n : Nat} (h : n ∈ l) : n ≤ l.sum := by
  induction l with
  | nil => simp at h
  | cons a l ih =>
    rcases List.mem_cons.1 h with rfl | h
    · simp
    · have := ih h; simp only [List.sum_cons]; omega

theorem total_mono (sha : Bytes → Bytes) {s t : FTree} (h : s ∈ t.nodes) : s.total sha ≤ t.total sha := by
  induction t using FTree.induct with
  | hl d => simp only [FTree.nodes, List.mem_singleton] at h; subst h; exact Nat.le_refl _
  | hn ts ih =>
    simp only [FTree.nodes, FTree.nodesL_eq, List.mem_cons, List.mem_flatMap] at h
    rcases h with rfl | ⟨c, hc, h⟩
    · exact Nat.le_refl _
    · rw [FTree.total_node]
      have h1 := ih c hc h
      have h2 := sum_ge_mem (List.mem_map_of_mem (f := FTree.total sha) hc)
      omega

end Verif

namespace Verif.Spec

/-- Number of blocks emitted while finishing. -/
theorem finishT_length {bf : Nat} (hbf : 2 ≤ bf) (k : Nat) (A B : List FTree) (hB : B ≠ []) :
    (finishT bf k A B).length ≤ 3 * (A.length + B.length) + (if A = [] then 0 else 1) := by
  induction k generalizing A B with
  | zero => simp [finishT]
  | succ k ih =>
    unfold finishT
    by_cases h1 : A.length + B.length = 1
    · simp [h1]
    rw [if_neg h1]
    have hgl := (groups_length (show 0 < bf by omega) B)
    have hgne := groups_ne_nil (show 0 < bf by omega) hB
    have hne : A ++ (groups bf B).map FTree.node ≠ [] := by simp [hgne]
    have := ih [] (A ++ (groups bf B).map FTree.node) hne
    simp only [List.length_append, List.length_map, List.length_nil] at this ⊢
    simp only [if_true] at this
    have hpos := List.length_pos_iff.2 hB
    have h2 := hgl.2 hB
    generalize hm : (groups bf B).length = m at *
    have h3 : 2 * (m - 1) ≤ bf * (m - 1) := Nat.mul_le_mul_right _ hbf
    split
    · rename_i hA; subst hA; simp only [List.length_nil] at *; omega
    · omega

theorem runT_length {bf : Nat} (hbf : 0 < bf) (ds : List Bytes) :
    (runT bf ds).2.length = ds.length + (runT bf ds).1.1.length := by
  generalize hn : ds.length = n
  induction n generalizing ds with
  | zero =>
    have : ds = [] := List.length_eq_zero_iff.1 hn
    subst this; rfl
  | succ n ih =>
    obtain ⟨ds, d, rfl⟩ : ∃ a b, ds = a ++ [b] := by
      have hne : ds ≠ [] := by intro h; rw [h] at hn; simp at hn
      exact ⟨ds.dropLast, ds.getLast hne, (List.dropLast_concat_getLast hne).symm⟩
    have h := ih ds (by simpa using hn)
    rw [runT_snoc]
    unfold addT
    simp only
    split <;> simp <;> omega

theorem emission_length {bf : Nat} (hbf : 2 ≤ bf) (ds : List Bytes) (d : Bytes) :
    (emission bf ds d).length ≤ 6 * (ds.length + 1) := by
  have inv := runT_inv (show 0 < bf by omega) ds
  have hl := runT_length (show 0 < bf by omega) ds
  unfold emission
  simp only [List.length_append, List.length_singleton]
  have := finishT_length hbf ((runT bf ds).1.1.length + (runT bf ds).1.2.length + 1) (runT bf ds).1.1
    ((runT bf ds).1.2 ++ [.leaf d]) (by simp)
  have hfull := inv.full
  have h2 : 2 * (runT bf ds).1.1.length ≤ bf * (runT bf ds).1.1.length := Nat.mul_le_mul_right _ hbf
  simp only [List.length_append, List.length_singleton] at this
  split at this
  · rename_i h; rw [h] at hfull h2 hl this; simp only [List.length_nil] at *
    rw [h]; simp only [List.length_nil] at *; omega
  · rename_i h
    have := List.length_pos_iff.2 h
    omega

/-- Every emitted tree has a small enough total size. -/
theorem emission_total {sha : Bytes → Bytes} (hsha : ∀ b, (sha b).length = 32) {bf : Nat} (hbf : 2 ≤ bf)
    (ds : List Bytes) (d : Bytes) (t : FTree) (ht : t ∈ emission bf ds d) :
    t.total sha ≤ (ds.flatten ++ d).length + 1536 * (ds.length + 1) := by
  obtain ⟨T, h, e⟩ := emission_spec hbf ds d
  have h1 : t ∈ T.nodes := e.perm.mem_iff.1 ht
  have h2 := total_mono sha h1
  have h3 := total_bound hsha T
  have h4 : T.content = ds.flatten ++ d := by
    rw [← FTree.leaves_flatten, e.leaves]; simp
  have h5 := e.perm.length_eq
  have h6 := emission_length hbf ds d
  rw [h4] at h3
  omega

end Verif.Spec
