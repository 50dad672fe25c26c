import Verif.Display
import Verif.Spec.Debugging
import Verif.Props.AdderKeeps
/-
C97: what `{:?}` shows of a `FileAdder`. C98: `benches/adder.rs`.
-/
namespace Verif.Props
open Verif Verif.Spec

/-- A run of links of one depth. -/
theorem formatLoop_run (d : Nat) : ∀ (ls rest : List Link) (count : Nat) (out : String), (∀ l ∈ ls, l.depth = d) →
    count < 2 ^ 31 → formatLoop d count (ls ++ rest) out =
      if count + ls.length < 2 ^ 31 then formatLoop d (count + ls.length) rest out else .panic .adderFormat := by
  intro ls
  induction ls with
  | nil => intro rest count out _ hc; simp [hc]
  | cons l ls ih =>
    intro rest count out h hc
    rw [List.cons_append, formatLoop, if_pos (h l (by simp)).symm]
    by_cases hc' : 2 ^ 31 ≤ count + 1
    · rw [if_pos hc', if_neg (by rw [List.length_cons]; omega)]
    · rw [if_neg hc', ih rest (count + 1) out (fun x hx => h x (by simp [hx])) (by omega)]
      rw [List.length_cons, Nat.add_assoc, Nat.add_comm 1 ls.length]

theorem debug_ok {a : FileAdder} {g r c : Nat} (h : linkFormatter a.unflushed_links = .ok (pendingText g r)) (hc : a.chunkMax = c) {capacity : Nat} :
    a.debug capacity = .ok (adderText c a.block_buffer.length capacity g r) := by
  unfold FileAdder.debug adderText
  generalize pendingText g r = t at h
  subst hc
  generalize "FileAdder { chunker: Size(" = s1
  generalize "), block_buffer: " = s2
  generalize ", unflushed_links: " = s3
  generalize " }" = s4
  rw [h]
  rfl

theorem debug_panic {a : FileAdder} {p : Panic} (h : linkFormatter a.unflushed_links = .panic p) {capacity : Nat} :
    a.debug capacity = .panic p := by
  unfold FileAdder.debug
  rw [h]
  rfl

theorem text0 : ("[" ++ toString 0 ++ ": " : String) = "[0: " := by decide

theorem linkFormatter_two (G R : List Link) (hG : ∀ l ∈ G, l.depth = 1) (hR : ∀ l ∈ R, l.depth = 0) (hne : R = [] → G = []) :
    linkFormatter (G ++ R) =
      if G.length < 2 ^ 31 ∧ R.length < 2 ^ 31 then .ok (pendingText G.length R.length) else .panic .adderFormat := by
  by_cases hr : R = []
  · have hg := hne hr
    subst hr hg
    rw [if_pos (by decide)]
    rfl
  have hrl : R.length ≠ 0 := fun h => hr (List.length_eq_zero_iff.1 h)
  by_cases hg : G = []
  · subst hg
    obtain ⟨l, ls, rfl⟩ := List.exists_cons_of_ne_nil hr
    show formatLoop l.depth 0 (l :: ls) "[" = _
    have := formatLoop_run 0 (l :: ls) [] 0 "[" hR (by decide)
    rw [List.append_nil, Nat.zero_add] at this
    rw [hR l (by simp), this]
    by_cases h : (l :: ls).length < 2 ^ 31
    · rw [if_pos h, if_pos ⟨by decide, h⟩, pendingText, if_neg hrl, List.length_nil, if_pos rfl, formatLoop, text0, List.length_cons]
    · rw [if_neg h, if_neg (fun h' => h h'.2)]
  · have hgl : G.length ≠ 0 := fun h => hg (List.length_eq_zero_iff.1 h)
    have e : linkFormatter (G ++ R) = formatLoop 1 0 (G ++ R) "[" := by
      obtain ⟨l, ls, rfl⟩ := List.exists_cons_of_ne_nil hg
      show formatLoop l.depth 0 (l :: (ls ++ R)) "[" = _
      rw [hG l (by simp)]
      rfl
    rw [e, formatLoop_run 1 G R 0 "[" hG (by decide), Nat.zero_add]
    by_cases h : G.length < 2 ^ 31
    · rw [if_pos h]
      obtain ⟨l, ls, rfl⟩ := List.exists_cons_of_ne_nil hr
      have hl : l.depth = 0 := hR l (by simp)
      have h1 : ∀ out, formatLoop 0 1 ls out = if (l :: ls).length < 2 ^ 31 then formatLoop 0 (l :: ls).length [] out else .panic .adderFormat := by
        intro out
        have := formatLoop_run 0 ls [] 1 out (fun x hx => hR x (by simp [hx])) (by decide)
        rw [List.append_nil] at this
        rw [this, List.length_cons, Nat.add_comm 1]
      rw [formatLoop, hl, if_neg (by decide)]
      simp only [Nat.zero_lt_one, if_true, Nat.sub_zero, Nat.lt_irrefl, if_false, Nat.sub_self, List.replicate_zero]
      rw [h1]
      by_cases h' : (l :: ls).length < 2 ^ 31
      · rw [if_pos h', if_pos ⟨h, h'⟩, pendingText, if_neg hrl, if_neg hgl, formatLoop]
        simp only [String.join, List.foldl_nil, String.append_empty, String.append_assoc]
        rfl
      · rw [if_neg h', if_neg (fun x => h' x.2)]
    · rw [if_neg h, if_neg (fun x => h x.1)]

/-- C97. After any pushes: the text shows the size of chunks, the number of bytes since the last whole chunk, and how many link blocks and
leaves are pending; and printing it panics exactly if one of these two numbers is 2^31 or more. -/
theorem C97_debug (sha : Bytes → Bytes) (c bf : Nat) (hc : 0 < c) (hbf : 0 < bf) (x : Bytes) (bs : List (Cid × Bytes)) (a : FileAdder)
    (h : Reaches sha c bf x bs a) (capacity : Nat) :
    a.debug capacity =
      if pendingGroups bf (x.length / c) < 2 ^ 31 ∧ pendingLeaves bf (x.length / c) < 2 ^ 31 then
        .ok (adderText c (x.length % c) capacity (pendingGroups bf (x.length / c)) (pendingLeaves bf (x.length / c)))
      else .panic .adderFormat := by
  obtain ⟨ds, inv, h1, -, -⟩ := reaches_inv hc hbf h
  have hs := inv.small
  have hfl := flatten_full ds inv.full
  have hn : x.length / c = ds.length := by
    rw [h1, List.length_append, hfl, Nat.mul_add_div hc, Nat.div_eq_of_lt hs, Nat.add_zero]
  have hm : x.length % c = a.block_buffer.length := by
    rw [h1, List.length_append, hfl, Nat.mul_add_mod, Nat.mod_eq_of_lt hs]
  have hg : (runT bf ds).1.1.length = pendingGroups bf ds.length := runT_groups hbf ds
  have rinv := runT_inv hbf ds
  have hr : (runT bf ds).1.2.length = pendingLeaves bf ds.length := by
    have := rinv.full
    rw [pendingLeaves, ← hg]
    omega
  have hne : (runT bf ds).1.2.map (lk sha 0) = [] → (runT bf ds).1.1.map (lk sha 1) = [] := by
    intro h'
    have h' := List.map_eq_nil_iff.1 h'
    by_cases hd : ds = []
    · subst hd; rfl
    · exact absurd h' (rinv.ne hd)
  have key := linkFormatter_two ((runT bf ds).1.1.map (lk sha 1)) ((runT bf ds).1.2.map (lk sha 0))
    (fun l hl => by obtain ⟨t, -, rfl⟩ := List.mem_map.1 hl; rfl) (fun l hl => by obtain ⟨t, -, rfl⟩ := List.mem_map.1 hl; rfl) hne
  rw [List.length_map, List.length_map, hg, hr] at key
  rw [hn, hm]
  by_cases hh : pendingGroups bf ds.length < 2 ^ 31 ∧ pendingLeaves bf ds.length < 2 ^ 31
  · rw [if_pos hh] at key ⊢
    exact debug_ok (by rw [inv.links, pend]; exact key) (reaches_small hc h).1
  · rw [if_neg hh] at key ⊢
    exact debug_panic (by rw [inv.links, pend]; exact key)

/-- Both happen: five chunks of one byte with two links in a block, and 2^31 chunks of one byte with as many links in a block. -/
theorem C97_example : (∃ bs a, Reaches toySha 1 2 [1, 2, 3, 4, 5] bs a ∧
      a.debug 64 = .ok "FileAdder { chunker: Size(1), block_buffer: 0/64, unflushed_links: [1: 2/0: 1] }") ∧
    ∃ x bs a, Reaches toySha 1 (2 ^ 31) x bs a ∧ a.debug 0 = .panic .adderFormat := by
  constructor
  · obtain ⟨bs, a, h⟩ := reaches_exists (sha := toySha) (c := 1) (bf := 2) toySha_length (by decide) (by decide) [1, 2, 3, 4, 5] (by decide)
    refine ⟨bs, a, h, ?_⟩
    rw [C97_debug toySha 1 2 (by decide) (by decide) _ bs a h 64, if_pos (by decide)]
    decide
  · obtain ⟨x, hx⟩ : ∃ x : Bytes, x.length = 2 ^ 31 := ⟨List.replicate (2 ^ 31) 0, List.length_replicate ..⟩
    obtain ⟨bs, a, h⟩ := reaches_exists (sha := toySha) (c := 1) (bf := 2 ^ 31) toySha_length (by decide) (by decide) x (by rw [hx]; decide)
    refine ⟨x, bs, a, h, ?_⟩
    rw [C97_debug toySha 1 (2 ^ 31) (by decide) (by decide) x bs a h 0, if_neg]
    rw [hx, pendingLeaves, pendingGroups]
    decide

/-! ### C98 -/

theorem runAdderLoop_ok {sha : Bytes → Bytes} (hsha : ∀ b, (sha b).length = 32) (size : Nat) :
    ∀ (k total : Nat) (bs : List (Cid × Bytes)) (a : FileAdder), total + k = size → Reaches sha 1 174 (List.replicate total 0) bs a →
      ∃ bs' a', Reaches sha 1 174 (List.replicate size 0) bs' a' ∧ runAdderLoop sha size a total bs = some (.ok (a', size, bs')) := by
  intro k
  induction k with
  | zero =>
    intro total bs a hk h
    rw [Nat.add_zero] at hk
    subst hk
    exact ⟨bs, a, h, by rw [runAdderLoop.eq_1, if_neg (Nat.lt_irrefl _)]⟩
  | succ k ih =>
    intro total bs a hk h
    obtain ⟨⟨a1, bs1, n⟩, hp⟩ := C09_push_no_panic_partial sha hsha 1 174 (by decide) (by decide) (by decide) _ bs a h [0]
    obtain ⟨h1, h2, h3⟩ := C07_push_progress sha 1 174 (by decide) _ bs a h [0] a1 bs1 n hp
    have hn : n = 1 := by have := h3 (by simp); omega
    subst hn
    have h4 := Reaches.push [0] h hp
    obtain ⟨bs', a', e1, e2⟩ := ih (total + 1) _ a1 (by omega) (by
      rw [List.replicate_succ']; exact h4)
    refine ⟨bs', a', e1, ?_⟩
    rw [runAdderLoop.eq_1, if_pos (by omega), hp]
    exact e2

/-- C98. For every size below 2^50 the benchmark comes to an end without a panic, and its blocks are those of the balanced tree over
that many zeros. -/
theorem C98_bench (sha : Bytes → Bytes) (hsha : ∀ b, (sha b).length = 32) (size : Nat) (hsize : size < 2 ^ 50) :
    ∃ blocks T, runAdder sha size = some (.ok blocks) ∧ BalancedTree 1 174 (List.replicate size 0) T ∧
      blocks.Perm (T.nodes.map (FTree.entry sha)) ∧ blocks.getLast? = some (T.entry sha) := by
  obtain ⟨bs, a, h1, h2⟩ := runAdderLoop_ok hsha size size 0 [] (newAdder 1 174) (by omega) .start
  obtain ⟨T, hT⟩ := (C70_exists 1 174 (by decide) (by decide) (List.replicate size 0)).2 (.inl (by decide))
  have hf := C70_small_fits sha hsha 1 174 (by decide) (by decide) (List.replicate size 0) (by rw [List.length_replicate]; exact hsize) T hT
  obtain ⟨bs', hfin⟩ := (C10_finish_exact_partial sha 1 174 (by decide) (by decide) _ bs a h1).2 ⟨T, hT, hf⟩
  obtain ⟨U, hU, -, p, l⟩ := C70_tree sha 1 174 (by decide) (by decide) _ _ ⟨bs, a, bs', h1, hfin, rfl⟩
  refine ⟨bs ++ bs', U, ?_, hU, p, l⟩
  unfold runAdder
  rw [show FileAdder.build 1 { branching_factor := 174 } = newAdder 1 174 from rfl, h2]
  simp only [ne_eq, not_true_eq_false, if_false, hfin]

end Verif.Props
