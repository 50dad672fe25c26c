import Verif.Props.AdderMore
import Verif.Props.Parsing
/-
C94: how large the blocks of the adder can be, and what this is good for: blocks below 4 GiB can be read back.
-/
namespace Verif.Props
open Verif Verif.Spec

/-! ### The lengths of the blocks -/

theorem encVarintF_short (j : Nat) : ∀ k n, j ≤ k → n < 128 ^ (j + 1) → (encVarintF k n).length ≤ j + 1 := by
  induction j with
  | zero =>
    intro k n _ hn
    have : n < 128 := by simpa using hn
    cases k <;> simp [encVarintF, this]
  | succ j ih =>
    intro k n hk hn
    obtain ⟨k, rfl⟩ : ∃ k', k = k' + 1 := ⟨k - 1, by omega⟩
    unfold encVarintF
    split
    · simp
    · have := ih k (n / 128) (by omega) (by rw [Nat.pow_succ] at hn; omega)
      simp only [List.length_cons]; omega

/-- The length of the block of a leaf: its data, five bytes, and three numbers. -/
theorem leaf_length {sha : Bytes → Bytes} (d : Bytes) (v : Nat)
    (h1 : (encVarint d.length).length ≤ v) (h2 : (encVarint (FTree.leafMsg d).data.getSize).length ≤ v) :
    ((FTree.leaf d).block sha).length ≤ d.length + 3 * v + 5 := by
  have a3 : (encVarint DataType.File.toNat).length = 1 := rfl
  rw [FTree.block_eq]
  unfold FTree.msg
  unfold FTree.leafMsg at h2 ⊢
  simp only [FlatUnixFs.write, List.flatMap_nil, List.nil_append, wMessage, UnixFs.write, wOpt,
    List.length_append, tag_len (show 8 < 128 by decide), tag_len (show 18 < 128 by decide),
    tag_len (show 10 < 128 by decide), tag_len (show 24 < 128 by decide), List.length_nil, Nat.add_zero]
  by_cases hd : d = []
  · subst hd; simp only [if_true, List.length_nil] at *; omega
  · simp only [if_neg hd, tag_len (show 18 < 128 by decide), wBytes, List.length_append] at *; omega

/-- Numbers below two million take three bytes. -/
theorem leaf_length_default {sha : Bytes → Bytes} (d : Bytes) (h : d.length ≤ 262144) :
    ((FTree.leaf d).block sha).length ≤ d.length + 14 := by
  have a2 : (encVarint d.length).length ≤ 3 := encVarintF_short 2 9 _ (by omega) (by omega)
  refine leaf_length d 3 a2 (encVarintF_short 2 9 _ (by omega) ?_)
  have a4 : sizeofVarint d.length ≤ 3 := by
    rw [sizeofVarint_eq _ (by simp only [U64]; omega)]; exact a2
  have a5 : sizeofVarint DataType.File.toNat = 1 := rfl
  unfold FTree.leafMsg UnixFs.getSize
  by_cases hd : d = []
  · subst hd
    simp [optSize, sizeofLen] at *
    omega
  · simp [optSize, sizeofLen, hd] at *
    omega

theorem cid_length {sha : Bytes → Bytes} (hsha : ∀ b, (sha b).length = 32) (b : Bytes) : (cidOf sha b).toBytes.length = 36 := by
  simp only [cidOf, Cid.toBytes, Cid.hashBytes, List.length_append, hsha]
  rfl

theorem plink_length {sha : Bytes → Bytes} (hsha : ∀ b, (sha b).length = 32) (t : FTree) :
    (plink sha t).write.length ≤ 51 ∧ (encVarint (plink sha t).getSize).length = 1 := by
  have h1 := cid_length hsha (t.block sha)
  have h2 : (encVarint 36).length = 1 := rfl
  have h3 := encVarint_le (t.total sha)
  have h4 : (encVarint 0).length = 1 := rfl
  have h5 := sizeofVarint_le (t.total sha)
  have h6 : sizeofVarint 36 = 1 := rfl
  have h7 : sizeofVarint 0 = 1 := rfl
  constructor
  · unfold plink PBLink.write
    simp only [wOpt, List.length_append, tag_len (show 18 < 128 by decide),
      tag_len (show 10 < 128 by decide), tag_len (show 24 < 128 by decide), wBytes]
    simp only [FTree.cid, List.length_nil, h1]
    omega
  · rw [encVarint_small]
    · rfl
    · simp only [plink, PBLink.getSize, optSize, sizeofLen, List.length_nil, FTree.cid, h1]
      omega

theorem node_length {sha : Bytes → Bytes} (hsha : ∀ b, (sha b).length = 32) (ts : List FTree) :
    ((FTree.node ts).block sha).length ≤ 64 * ts.length + 24 := by
  unfold FTree.block
  simp only [FTree.info, FTree.nodeInfo]
  rw [nodeMsg_eq]
  simp only [FlatUnixFs.write, List.length_append, UnixFs.write, wOpt, List.length_nil, Nat.add_zero,
    tag_len (show 8 < 128 by decide), tag_len (show 10 < 128 by decide), tag_len (show 24 < 128 by decide), wMessage]
  have a1 := flatMap_length_le (ts.map (plink sha))
    (fun l => wTag 18 (encVarint l.getSize ++ l.write)) 53 (by
      intro l hl
      obtain ⟨t, -, rfl⟩ := List.mem_map.1 hl
      obtain ⟨h1, h2⟩ := plink_length hsha t
      simp only [tag_len (show 18 < 128 by decide), List.length_append]; omega)
  have a2 := flatMap_length_le (ts.map (fun t => t.content.length)) (fun n => wTag 32 (encVarint n)) 11 (by
      intro l hl
      have := encVarint_le l
      simp only [tag_len (show 32 < 128 by decide)]; omega)
  have a3 := encVarint_le (UnixFs.getSize (UnixFs.mk .File none (some (sizes ts)) (ts.map (fun t => t.content.length)) none none none none))
  have a4 := encVarint_le (sizes ts)
  have a5 : (encVarint DataType.File.toNat).length = 1 := rfl
  simp only [List.length_map] at a1 a2
  omega

theorem leaves_ne {bf : Nat} (t : FTree) : t.Arity bf → t.leaves ≠ [] := by
  induction t using FTree.induct with
  | hl d => intro _; simp [FTree.leaves]
  | hn ts ih =>
    intro ha
    have h1 := (ha _ (FTree.self_mem_nodes _) ts rfl).1
    cases ts with
    | nil => simp at h1
    | cons t ts =>
      have := ih t (by simp) (arity_sub (FTree.mem_nodes_child (t := .node (t :: ts)) (by simp [FTree.children])) ha)
      simp only [FTree.leaves, FTree.leavesL]
      intro h
      exact this (List.append_eq_nil_iff.1 h).1

/-- A node has at most as many children as it has leaves. -/
theorem children_le_leaves {bf : Nat} {ts : List FTree} (h : ∀ t ∈ ts, t.Arity bf) : ts.length ≤ (ts.flatMap FTree.leaves).length := by
  induction ts with
  | nil => simp
  | cons t ts ih =>
    have h1 := List.length_pos_iff.2 (leaves_ne t (h t (by simp)))
    have h2 := ih (fun s hs => h s (by simp [hs]))
    simp only [List.flatMap_cons, List.length_append, List.length_cons]; omega

theorem leaves_sub {t : FTree} : ∀ {s : FTree}, s ∈ t.nodes → s.leaves.length ≤ t.leaves.length ∧ ∀ d ∈ s.leaves, d ∈ t.leaves := by
  induction t using FTree.induct with
  | hl d => intro s h; simp only [FTree.nodes, List.mem_singleton] at h; subst h; exact ⟨Nat.le_refl _, fun _ h => h⟩
  | hn ts ih =>
    intro s h
    simp only [FTree.nodes, List.mem_cons] at h
    rcases h with rfl | h
    · exact ⟨Nat.le_refl _, fun _ h => h⟩
    · rw [FTree.nodesL_eq] at h
      obtain ⟨t, ht, hs⟩ := List.mem_flatMap.1 h
      obtain ⟨h1, h2⟩ := ih t ht hs
      obtain ⟨p, q, rfl⟩ := List.append_of_mem ht
      simp only [FTree.leaves, FTree.leavesL_eq, List.flatMap_append, List.flatMap_cons, List.length_append, List.mem_append]
      exact ⟨by omega, fun d hd => .inr (.inl (h2 d hd))⟩

/-- What is known about the trees emitted: how many links they have and what their leaves carry. -/
theorem emitted_shape {sha : Bytes → Bytes} {c bf : Nat} (hc : 0 < c) (hbf : 0 < bf) {x : Bytes} {blocks : List (Cid × Bytes)}
    (h : (∃ a, Reaches sha c bf x blocks a) ∨ Adds sha c bf x blocks) :
    ∀ e ∈ blocks, (∃ d, e.2 = (FTree.leaf d).block sha ∧ d.length ≤ c ∧ d.length ≤ x.length) ∨
      ∃ ts, e.2 = (FTree.node ts).block sha ∧ ts.length ≤ bf ∧ ts.length ≤ (x.length + c - 1) / c := by
  have key : ∀ (t : FTree), t.Arity bf → (∀ d ∈ t.leaves, d.length ≤ c ∧ d.length ≤ x.length) →
      (t.leaves.length ≤ (x.length + c - 1) / c ∨ t.leaves.length = 1 ∧ x = [] ∧ ∃ d, t = .leaf d) →
      (∃ d, t.block sha = (FTree.leaf d).block sha ∧ d.length ≤ c ∧ d.length ≤ x.length) ∨
      ∃ ts, t.block sha = (FTree.node ts).block sha ∧ ts.length ≤ bf ∧ ts.length ≤ (x.length + c - 1) / c := by
    intro t ha hl hn
    cases t with
    | leaf d => exact .inl ⟨d, rfl, hl d (by simp [FTree.leaves])⟩
    | node ts =>
      refine .inr ⟨ts, rfl, (ha _ (FTree.self_mem_nodes _) ts rfl).2, ?_⟩
      have h1 : ts.length ≤ (FTree.node ts).leaves.length := by
        rw [FTree.leaves, FTree.leavesL_eq]
        refine children_le_leaves (bf := bf) (fun t ht => arity_sub (FTree.mem_nodes_child (t := .node ts) ?_) ha)
        simpa [FTree.children] using ht
      rcases hn with hn | ⟨-, -, d, hd⟩
      · omega
      · cases hd
  intro e he
  rcases h with ⟨a, h⟩ | h
  · obtain ⟨ds, inv, h1, h2, -⟩ := reaches_inv hc hbf h
    rw [h2] at he
    obtain ⟨t, ht, rfl⟩ := List.mem_map.1 he
    have f := (runT_inv hbf ds).forest
    obtain ⟨t', ht', htn⟩ := List.mem_flatMap.1 (f.perm.mem_iff.1 ht)
    obtain ⟨g1, g2⟩ := leaves_sub htn
    have hsub : ∀ d ∈ t'.leaves, d ∈ ds := fun d hd => by
      have := f.leaves
      rw [← this]; exact List.mem_flatMap.2 ⟨t', ht', hd⟩
    have hxl : x.length = c * ds.length + a.block_buffer.length := by
      rw [h1, List.length_append, flatten_full ds inv.full]
    have hlen : t'.leaves.length ≤ ds.length := by
      have := f.leaves
      obtain ⟨p, q, hpq⟩ := List.append_of_mem ht'
      rw [hpq] at this
      have := congrArg List.length this
      simp only [List.flatMap_append, List.flatMap_cons, List.length_append] at this
      omega
    refine key t (arity_sub htn (f.ar t' ht')) (fun d hd => ?_) (.inl ?_)
    · have hm := hsub d (g2 d hd)
      have hd' := inv.full d hm
      have : c * 1 ≤ c * ds.length := Nat.mul_le_mul_left c (List.length_pos_of_mem hm)
      omega
    · rw [Nat.le_div_iff_mul_le hc, Nat.mul_comm]
      have : c * t.leaves.length ≤ c * ds.length := Nat.mul_le_mul_left c (by omega)
      omega
  · obtain ⟨T, hh, f⟩ := adds_facts hc hbf h
    obtain ⟨h1, h2, h3, h4⟩ := C15_chunks c hc x
    rw [f.blocks] at he
    obtain ⟨t, ht, rfl⟩ := List.mem_map.1 he
    have htn := f.em.perm.mem_iff.1 ht
    obtain ⟨g1, g2⟩ := leaves_sub htn
    refine key t (arity_sub htn f.em.arity) (fun d hd => ?_) ?_
    · have hm := g2 d hd
      rw [f.em.leaves] at hm
      refine ⟨(h3 d hm).1, ?_⟩
      rw [← h1]
      obtain ⟨p, q, hpq⟩ := List.append_of_mem hm
      rw [hpq]; simp only [List.flatten_append, List.flatten_cons, List.length_append]; omega
    · rw [f.em.leaves, h4] at g1
      by_cases hx : x = []
      · right
        subst hx
        have hT : T.leaves = [[]] := by rw [f.em.leaves]; rfl
        have hc1 : (0 + c - 1) / c = 0 := Nat.div_eq_of_lt (by omega)
        simp only [List.length_nil, hc1] at g1
        have := List.length_pos_iff.2 (leaves_ne t (arity_sub htn f.em.arity))
        refine ⟨by omega, rfl, ?_⟩
        have h0 : hh = 0 := by
          rcases f.em.low with h0 | h0
          · exact h0
          · have := Nat.pow_pos (n := hh - 1) hbf
            have e : (chunks c []).length = 1 := rfl
            rw [e] at h0; omega
        have hu := f.em.uniform
        rw [h0] at hu
        cases T with
        | node ts => cases hu
        | leaf d =>
          simp only [FTree.nodes, List.mem_singleton] at htn
          exact ⟨d, htn⟩
      · left
        have : 1 ≤ (x.length + c - 1) / c := by
          rw [Nat.le_div_iff_mul_le hc]
          have := List.length_pos_iff.2 hx
          omega
        omega

/-! ### C94 -/

/-- C94. Every block the adder returns, while adding `x` or at its end, is no longer than a chunk of data and 35 bytes, or than 64 bytes
for each link and 24 more; a chunk has at most the bytes of `x`, a block at most one link per chunk. -/
theorem C94_block_sizes (sha : Bytes → Bytes) (hsha : ∀ b, (sha b).length = 32) (c bf : Nat) (hc : 0 < c) (hbf : 0 < bf) (x : Bytes)
    (blocks : List (Cid × Bytes)) (h : (∃ a, Reaches sha c bf x blocks a) ∨ Adds sha c bf x blocks) :
    ∀ e ∈ blocks, e.2.length ≤ max (min c x.length + 35) (64 * min bf ((x.length + c - 1) / c) + 24) := by
  intro e he
  rcases emitted_shape hc hbf h e he with ⟨d, h1, h2, h3⟩ | ⟨ts, h1, h2, h3⟩
  · rw [h1]
    have := leaf_length (sha := sha) d 10 (encVarint_le _) (encVarint_le _)
    omega
  · rw [h1]
    have := node_length hsha ts
    omega

/-- C94. In the default configuration no block is longer than 262158 bytes, that is 14 more than a chunk. -/
theorem C94_default_sizes (sha : Bytes → Bytes) (hsha : ∀ b, (sha b).length = 32) (x : Bytes)
    (blocks : List (Cid × Bytes)) (h : (∃ a, Reaches sha 262144 174 x blocks a) ∨ Adds sha 262144 174 x blocks) :
    ∀ e ∈ blocks, e.2.length ≤ 262158 := by
  intro e he
  rcases emitted_shape (by decide) (by decide) h e he with ⟨d, h1, h2, h3⟩ | ⟨ts, h1, h2, h3⟩
  · rw [h1]
    have := leaf_length_default (sha := sha) d h2
    omega
  · rw [h1]
    have := node_length hsha ts
    omega

/-- C94. Hence all blocks are below 4 GiB for moderate configurations, or moderate contents. -/
theorem C94_below_limit (sha : Bytes → Bytes) (hsha : ∀ b, (sha b).length = 32) (c bf : Nat) (hc : 0 < c) (hbf : 0 < bf) (x : Bytes)
    (blocks : List (Cid × Bytes)) (h : (∃ a, Reaches sha c bf x blocks a) ∨ Adds sha c bf x blocks)
    (h1 : c < 2 ^ 32 - 35 ∨ x.length < 2 ^ 32 - 35) (h2 : bf < 2 ^ 26 ∨ (x.length + c - 1) / c < 2 ^ 26) : BelowLimit blocks := by
  intro e he
  have := C94_block_sizes sha hsha c bf hc hbf x blocks h e he
  omega

/-- The hypotheses are met; the bound for leaves is not far off: a block of 3 bytes is 11 bytes long. -/
example : ∃ blocks, Adds toySha 2 2 [1, 2, 3] blocks ∧ BelowLimit blocks := by
  have h := adds_exists toySha_length (c := 2) (bf := 2) (by decide) (by decide) [1, 2, 3] (by decide)
  exact ⟨_, h, C94_below_limit toySha toySha_length 2 2 (by decide) (by decide) _ _ (.inr h) (.inl (by decide)) (.inl (by decide))⟩

/-! ### Why there must be a limit -/

theorem data_field_small {ds : List DataField} {b : Bytes} (h : IsUnixFs b ds) :
    ∀ m : UnixFs, (∀ d, m.Data = some d → d.length < 2 ^ 32) → ∀ d, (ds.foldl DataField.apply m).Data = some d → d.length < 2 ^ 32 := by
  induction h with
  | nil => intro m hm d hd; exact hm d hd
  | @cons f fs b bs hf _ ih =>
    intro m hm d hd
    refine ih (f.apply m) (fun d' hd' => ?_) d hd
    cases f with
    | data x =>
      obtain ⟨tb, lb, -, -, hx⟩ := hf
      simp only [DataField.apply, Option.some.injEq] at hd'
      subst hd'
      exact Num32_lt hx
    | _ => exact hm d' hd'

/-- C94. No block can be read as carrying 4 GiB of data or more: lengths are cut to 32 bits. So a chunk of this size, for which
the adder does return a block, is lost: the block is either refused or read as something else. -/
theorem C94_data_below_4GiB (block : Bytes) (m : FlatUnixFs) (h : FlatUnixFs.tryParse block = .ok m) (d : Bytes) (hd : m.data.Data = some d) :
    d.length < 2 ^ 32 := by
  obtain ⟨ns, x, ds, -, -, h3, -, rfl⟩ := (C81_accepted block m).1 h
  exact data_field_small h3 {} (by intro d hd; cases hd) d hd

/-- C94. In particular: when 4 GiB or more are added as a single chunk, one block is returned, and it is not read as carrying them. -/
theorem C94_too_large_lost (sha : Bytes → Bytes) (c bf : Nat) (hbf : 0 < bf) (x : Bytes) (hx : 2 ^ 32 ≤ x.length) (hxc : x.length ≤ c)
    (blocks : List (Cid × Bytes)) (h : Adds sha c bf x blocks) : ∃ e, blocks = [e] ∧ leafContent e ≠ some x := by
  have hc : 0 < c := by omega
  obtain ⟨T, hh, f⟩ := adds_facts hc hbf h
  obtain ⟨-, -, -, h4⟩ := C15_chunks c hc x
  have h1 : (chunks c x).length = 1 := by
    have : (x.length + c - 1) / c = 1 := by
      apply Nat.le_antisymm
      · rw [Nat.div_le_iff_le_mul_add_pred hc]; omega
      · rw [Nat.le_div_iff_mul_le hc]; omega
    rw [h4, this]; rfl
  have h0 : hh = 0 := by
    rcases f.em.low with h0 | h0
    · exact h0
    · have := Nat.pow_pos (n := hh - 1) hbf
      rw [h1] at h0; omega
  have hu := f.em.uniform
  rw [h0] at hu
  cases T with
  | node ts => cases hu
  | leaf d =>
    have hp := f.em.perm
    simp only [FTree.nodes] at hp
    refine ⟨(FTree.leaf d).entry sha, ?_, ?_⟩
    · rw [f.blocks, List.perm_singleton.1 hp]; rfl
    · intro h
      unfold leafContent at h
      split at h
      · rename_i m hm
        split at h
        · cases hd : m.data.Data with
          | none =>
            rw [hd] at h
            simp only [Option.getD_none, Option.some.injEq] at h
            subst h; simp at hx
          | some d =>
            have := C94_data_below_4GiB _ _ hm d hd
            rw [hd] at h
            simp only [Option.getD_some, Option.some.injEq] at h
            subst h; omega
        · cases h
      · cases h

/-- The hypotheses are met: four GiB of zeros can be added with this chunk size. -/
example : ∃ x blocks, 2 ^ 32 ≤ x.length ∧ x.length ≤ 2 ^ 32 ∧ Adds toySha (2 ^ 32) 174 x blocks :=
  ⟨List.replicate (2 ^ 32) 0, _, by rw [List.length_replicate]; exact Nat.le_refl _, by rw [List.length_replicate]; exact Nat.le_refl _,
    adds_exists toySha_length (by omega) (by decide) _ (by rw [List.length_replicate]; decide)⟩

end Verif.Props
