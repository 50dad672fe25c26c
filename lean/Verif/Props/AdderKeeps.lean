import Verif.Props.AdderFinish
/-
C90: what an adder keeps between pushes, and what it leaves to `finish`.
-/
namespace Verif.Props
open Verif Verif.Spec

/-- A link block over leaves. -/
def OverLeaves (bf : Nat) (t : FTree) : Prop := ∃ ds : List Bytes, t = .node (ds.map .leaf) ∧ ds.length = bf

/-- Leaves, and link blocks over leaves, were emitted; only those are pending. -/
theorem runT_low {bf : Nat} (hbf : 0 < bf) (ds : List Bytes) :
    (∀ t ∈ (runT bf ds).2, (∃ d, t = .leaf d) ∨ OverLeaves bf t) ∧ (∃ es : List Bytes, (runT bf ds).1.2 = es.map .leaf) ∧
      (runT bf ds).2.length = ds.length + (runT bf ds).1.1.length := by
  obtain ⟨r, hr⟩ : ∃ r, ds.reverse = r := ⟨_, rfl⟩
  induction r generalizing ds with
  | nil =>
    have : ds = [] := by simpa using hr
    subst this
    exact ⟨by simp [runT], ⟨[], rfl⟩, rfl⟩
  | cons d r ih =>
    have hds : ds = r.reverse ++ [d] := by rw [← List.reverse_cons, ← hr, List.reverse_reverse]
    subst hds
    obtain ⟨h1, ⟨es, h2⟩, h3⟩ := ih r.reverse (by simp)
    have inv := runT_inv hbf r.reverse
    rw [runT_snoc]
    unfold addT
    simp only
    have hes : (runT bf r.reverse).1.2 ++ [FTree.leaf d] = (es ++ [d]).map .leaf := by rw [h2]; simp
    split
    · refine ⟨?_, ⟨es ++ [d], hes⟩, ?_⟩
      · intro t ht
        rcases List.mem_append.1 ht with ht | ht
        · exact h1 t ht
        · exact .inl ⟨d, by simpa using ht⟩
      · simp only [List.length_append, List.length_singleton]
        rw [h3]
        omega
    · rename_i hgt
      refine ⟨?_, ⟨(es ++ [d]).drop bf, ?_⟩, ?_⟩
      · intro t ht
        rcases List.mem_append.1 ht with ht | ht
        · exact h1 t ht
        · simp only [List.mem_cons, List.not_mem_nil, or_false] at ht
          rcases ht with rfl | rfl
          · exact .inl ⟨d, rfl⟩
          · refine .inr ⟨(es ++ [d]).take bf, by rw [hes, List.map_take], ?_⟩
            rw [hes, List.length_map] at hgt
            rw [List.length_take]
            omega
      · simp only
        rw [hes, List.map_drop]
      · simp only [List.length_append, List.length_cons, List.length_nil]
        rw [h3]
        omega

theorem div_of {bf g r n : Nat} (h : bf * g + r = n) (h1 : 1 ≤ r) (h2 : r ≤ bf) : g = (n - 1) / bf := by
  have hbf : 0 < bf := by omega
  have : n - 1 = (r - 1) + bf * g := by omega
  rw [this, Nat.add_mul_div_left _ _ hbf, Nat.div_eq_of_lt (by omega)]
  omega

theorem runT_groups {bf : Nat} (hbf : 0 < bf) (ds : List Bytes) : (runT bf ds).1.1.length = (ds.length - 1) / bf := by
  have inv := runT_inv hbf ds
  by_cases hds : ds = []
  · subst hds
    have h : (([] : List Bytes).length - 1) / bf = 0 := by simp
    rw [h]
    rfl
  · exact div_of inv.full (List.length_pos_iff.2 (inv.ne hds)) inv.len

/-- C90. After `n` whole chunks: the adder keeps the bytes since the last chunk boundary, one link for each of the `(n - 1) / bf` link
blocks it has made and one for each chunk since then; it has returned the `n` leaves and these link blocks, all of which are directly
over leaves. -/
theorem C90_keeps (sha : Bytes → Bytes) (c bf : Nat) (hc : 0 < c) (hbf : 0 < bf) (x : Bytes) (bs : List (Cid × Bytes)) (a : FileAdder)
    (h : Reaches sha c bf x bs a) :
    a.block_buffer = x.drop (c * (x.length / c)) ∧
    a.unflushed_links.length + (bf - 1) * ((x.length / c - 1) / bf) = x.length / c ∧
    bs.length = x.length / c + (x.length / c - 1) / bf ∧
    ∃ ts : List FTree, bs = ts.map (FTree.entry sha) ∧ ∀ t ∈ ts, (∃ d, t = .leaf d) ∨ OverLeaves bf t := by
  obtain ⟨ds, inv, h1, h2, -⟩ := reaches_inv hc hbf h
  have hs := inv.small
  have hfl := flatten_full ds inv.full
  have hn : x.length / c = ds.length := by
    rw [h1, List.length_append, hfl, Nat.mul_add_div hc, Nat.div_eq_of_lt hs, Nat.add_zero]
  obtain ⟨g1, -, g3⟩ := runT_low hbf ds
  have hg := runT_groups hbf ds
  rw [hn]
  refine ⟨?_, ?_, ?_, _, h2, g1⟩
  · rw [h1, List.drop_append_of_le_length (by rw [hfl]; exact Nat.le_refl _), List.drop_of_length_le (by rw [hfl]; exact Nat.le_refl _)]
    rfl
  · have hf := (runT_inv hbf ds).full
    rw [inv.links, pend, List.length_append, List.length_map, List.length_map, ← hg]
    have : bf * (runT bf ds).1.1.length = (bf - 1) * (runT bf ds).1.1.length + (runT bf ds).1.1.length := by
      rw [Nat.sub_mul, Nat.one_mul, Nat.sub_add_cancel (Nat.le_mul_of_pos_left _ hbf)]
    omega
  · rw [h2, List.length_map, g3, hg]

mutual
/-- In a tree of the given arity, leaves are not much more than link blocks. -/
theorem count_nodes {bf : Nat} (hbf : 0 < bf) : ∀ t : FTree, t.Arity bf → ∃ k, t.nodes.length = t.leaves.length + k ∧
    t.leaves.length ≤ 1 + (bf - 1) * k
  | .leaf d, _ => ⟨0, rfl, by simp [FTree.leaves]⟩
  | .node ts, ha => by
    have har := ha (.node ts) (by simp [FTree.nodes]) ts rfl
    obtain ⟨k, h1, h2⟩ := count_nodesL hbf ts (fun t ht s hs => ha s (by
        simp only [FTree.nodes, FTree.nodesL_eq, List.mem_cons, List.mem_flatMap]; exact .inr ⟨t, ht, hs⟩))
    refine ⟨k + 1, ?_, ?_⟩
    · simp only [FTree.nodes, FTree.leaves, List.length_cons, h1]
      omega
    · simp only [FTree.leaves]
      rw [Nat.mul_add, Nat.mul_one]
      omega
theorem count_nodesL {bf : Nat} (hbf : 0 < bf) : ∀ ts : List FTree, (∀ t ∈ ts, t.Arity bf) →
    ∃ k, (FTree.nodesL ts).length = (FTree.leavesL ts).length + k ∧ (FTree.leavesL ts).length ≤ ts.length + (bf - 1) * k
  | [], _ => ⟨0, rfl, by simp [FTree.leavesL]⟩
  | t :: ts, ha => by
    obtain ⟨k, h1, h2⟩ := count_nodes hbf t (ha t (by simp))
    obtain ⟨j, h3, h4⟩ := count_nodesL hbf ts (fun x hx => ha x (by simp [hx]))
    refine ⟨k + j, ?_, ?_⟩
    · simp only [FTree.nodesL, FTree.leavesL, List.length_append, h1, h3]
      omega
    · simp only [FTree.leavesL, List.length_append, List.length_cons]
      rw [Nat.mul_add]
      omega
end

/-- C90. All link blocks which are not directly over leaves come from `finish`, which therefore returns a number of blocks in
proportion to the length of the content: at least one for every `bf * (bf - 1)` chunks. -/
theorem C90_finish (sha : Bytes → Bytes) (c bf : Nat) (hc : 0 < c) (hbf : 0 < bf) (x : Bytes) (bs bs' : List (Cid × Bytes)) (a : FileAdder)
    (h : Reaches sha c bf x bs a) (hf : a.finish sha = some (.ok bs')) :
    x.length / c - 1 ≤ bf * (bf - 1) * bs'.length := by
  obtain ⟨-, -, hlen, -⟩ := C90_keeps sha c bf hc hbf x bs a h
  obtain ⟨T, d, f⟩ := adds_facts hc hbf (⟨bs, a, bs', h, hf, rfl⟩ : Adds sha c bf x (bs ++ bs'))
  obtain ⟨k, h1, h2⟩ := count_nodes hbf T f.em.arity
  have hl := f.em.leaves
  have hb := congrArg List.length f.blocks
  rw [List.length_append, List.length_map, f.em.perm.length_eq, h1, hlen] at hb
  have hch : T.leaves.length = (chunks c x).length := by rw [hl]
  have hge : x.length / c ≤ (chunks c x).length := by
    by_cases hx : x = []
    · subst hx; simp
    · rw [chunks, if_neg hx]
      exact (Nat.div_le_iff_le_mul_add_pred hc).2 (by have := (groups_length hc x).1; omega)
  rw [hch] at hb h2
  generalize (chunks c x).length = n' at *
  generalize x.length / c = n at *
  have hk : k ≤ bs'.length + (n - 1) / bf := by omega
  have hg : bf * ((n - 1) / bf) ≤ n - 1 := Nat.mul_div_le _ _
  have e1 : bf * (bf - 1) * k ≤ bf * (bf - 1) * (bs'.length + (n - 1) / bf) := Nat.mul_le_mul_left _ hk
  have e2 : bf * (n - 1) ≤ bf * (bf - 1) * k := by
    rw [Nat.mul_assoc]; exact Nat.mul_le_mul_left _ (by omega)
  have e3 : bf * (bf - 1) * ((n - 1) / bf) ≤ (bf - 1) * (n - 1) := by
    rw [Nat.mul_comm bf, Nat.mul_assoc]; exact Nat.mul_le_mul_left _ hg
  have e4 : bf * (n - 1) = (bf - 1) * (n - 1) + (n - 1) := by
    rw [Nat.sub_mul, Nat.one_mul, Nat.sub_add_cancel (Nat.le_mul_of_pos_left _ hbf)]
  rw [Nat.mul_add] at e1
  omega

/-- What one might expect instead: that full link blocks of every level are emitted as soon as they are complete, so that `finish`
has at most one block for every level left. -/
def C90_expected : Prop := ∀ (sha : Bytes → Bytes), (∀ b, (sha b).length = 32) → ∀ (c bf : Nat), 0 < c → 2 ≤ bf →
  ∀ x bs a bs' d, Reaches sha c bf x bs a → a.finish sha = some (.ok bs') → (chunks c x).length ≤ bf ^ d → bs'.length ≤ d + 1

theorem C90_expected_false : ¬ C90_expected := by
  intro hE
  obtain ⟨bs, a, h⟩ := reaches_exists toySha_length (c := 1) (bf := 2) (by decide) (by decide) (List.replicate 16 7) (by decide)
  obtain ⟨bs', hf⟩ := (C10_finish_iff_partial toySha toySha_length 1 2 (by decide) (by decide) _ _ _ h (by decide)).2 (.inl (by decide))
  have h1 := hE toySha toySha_length 1 2 (by decide) (by decide) _ _ _ _ 4 h hf (by decide)
  have h2 := C90_finish toySha 1 2 (by decide) (by decide) _ _ _ _ h hf
  simp only [List.length_replicate] at h2
  omega

/-- Eleven bytes in chunks of two with two links per block: five whole chunks, two link blocks made, one byte buffered. -/
example : ∃ bs a, Reaches toySha 2 2 [1, 2, 3, 4, 5, 6, 7, 8, 9, 10, 11] bs a ∧ a.block_buffer = [11] ∧ a.unflushed_links.length = 3 ∧
    bs.length = 7 := by
  obtain ⟨bs, a, h⟩ := reaches_exists toySha_length (c := 2) (bf := 2) (by decide) (by decide) [1, 2, 3, 4, 5, 6, 7, 8, 9, 10, 11] (by decide)
  obtain ⟨h1, h2, h3, -⟩ := C90_keeps toySha 2 2 (by decide) (by decide) _ _ _ h
  exact ⟨bs, a, h, h1, by simp at h2; omega, h3⟩

/-! ### C09, exactly -/

/-- Whole chunks and what is left are determined by the content. -/
theorem whole_unique {c : Nat} : ∀ {ds es : List Bytes} {u v : Bytes}, (∀ d ∈ ds, d.length = c) → (∀ d ∈ es, d.length = c) →
    u.length < c → v.length < c → ds.flatten ++ u = es.flatten ++ v → ds = es ∧ u = v
  | [], [], u, v, _, _, _, _, h => ⟨rfl, by simpa using h⟩
  | [], e :: es, u, v, _, he, hu, _, h => by
    have := congrArg List.length h
    simp only [List.flatten_nil, List.nil_append, List.flatten_cons, List.length_append, he e (by simp)] at this
    omega
  | d :: ds, [], u, v, hd, _, _, hv, h => by
    have := congrArg List.length h
    simp only [List.flatten_nil, List.nil_append, List.flatten_cons, List.length_append, hd d (by simp)] at this
    omega
  | d :: ds, e :: es, u, v, hd, he, hu, hv, h => by
    simp only [List.flatten_cons, List.append_assoc] at h
    obtain ⟨h1, h2⟩ := List.append_inj h (by rw [hd d (by simp), he e (by simp)])
    obtain ⟨h3, h4⟩ := whole_unique (fun x hx => hd x (by simp [hx])) (fun x hx => he x (by simp [hx])) hu hv h2
    exact ⟨by rw [h1, h3], h4⟩

theorem leaves_map_leaf (es : List Bytes) : (es.map FTree.leaf).flatMap FTree.leaves = es := by
  induction es with
  | nil => rfl
  | cons e es ih => rw [List.map_cons, List.flatMap_cons, ih]; rfl

/-- The pending leaves are the last chunks. -/
theorem runT_split {bf : Nat} (hbf : 0 < bf) (ds : List Bytes) :
    ∃ es fs, ds = es ++ fs ∧ es.length = bf * (runT bf ds).1.1.length ∧ (runT bf ds).1.2 = fs.map .leaf ∧ fs.length ≤ bf ∧ (ds ≠ [] → fs ≠ []) := by
  have inv := runT_inv hbf ds
  obtain ⟨-, ⟨fs, h2⟩, -⟩ := runT_low hbf ds
  have hl := inv.forest.leaves
  have hf := inv.full
  have hn := inv.ne
  have hln := inv.len
  rw [h2] at hl hf hn hln
  rw [List.flatMap_append, leaves_map_leaf] at hl
  rw [List.length_map] at hf hln
  refine ⟨_, fs, hl.symm, ?_, h2, hln, fun h e => hn h (by rw [e]; rfl)⟩
  have := congrArg List.length hl
  rw [List.length_append] at this
  omega

/-- The chunk after a whole group makes its link block. -/
theorem runT_next {bf : Nat} (hbf : 0 < bf) (ds : List Bytes) (d : Bytes) (sha : Bytes → Bytes) (hfit : ∀ t ∈ (runT bf ds).2, Fits sha t) :
    (¬ ∀ t ∈ (runT bf (ds ++ [d])).2, Fits sha t) ↔
      ∃ es fs, ds = es ++ fs ∧ bf ∣ es.length ∧ fs.length = bf ∧ 2 ^ 64 ≤ (FTree.node (fs.map .leaf)).total sha := by
  obtain ⟨es, fs, h1, h2, h3, h4, h5⟩ := runT_split hbf ds
  rw [runT_snoc]
  unfold addT
  simp only [h3]
  constructor
  · intro h
    split at h
    · refine absurd ?_ h
      intro t ht
      rcases List.mem_append.1 ht with ht | ht
      · exact hfit t ht
      · rw [List.mem_singleton.1 ht]
        intro ts e; cases e
    · rename_i hlt
      rw [List.length_append, List.length_map, List.length_singleton] at hlt
      have hfs : fs.length = bf := by omega
      have ht : (fs.map FTree.leaf ++ [FTree.leaf d]).take bf = fs.map .leaf := by
        rw [List.take_append_of_le_length (by rw [List.length_map]; omega), List.take_of_length_le (by rw [List.length_map]; omega)]
      rw [ht] at h
      refine ⟨es, fs, h1, ⟨_, h2⟩, hfs, ?_⟩
      refine Nat.le_of_not_lt fun hlt' => h ?_
      intro t ht
      rcases List.mem_append.1 ht with ht | ht
      · exact hfit t ht
      · simp only [List.mem_cons, List.not_mem_nil, or_false] at ht
        rcases ht with rfl | rfl
        · intro ts e; cases e
        · intro ts e; exact hlt'
  · rintro ⟨es', fs', e1, ⟨k, e2⟩, e3, e4⟩ h
    have hlen : ds.length = bf * (k + 1) := by rw [e1, List.length_append, e2, e3, Nat.mul_add, Nat.mul_one]
    have hne : ds ≠ [] := by
      intro h'
      rw [h'] at hlen
      have := Nat.mul_pos hbf (Nat.succ_pos k)
      rw [← hlen] at this
      exact absurd this (by decide)
    have hpos : 0 < fs.length := List.length_pos_iff.2 (h5 hne)
    have hlen' : ds.length = bf * (runT bf ds).1.1.length + fs.length := by rw [← h2, ← List.length_append, ← h1]
    have hfs : fs.length = bf := by
      have h6 : bf * (runT bf ds).1.1.length + fs.length = bf * (k + 1) := by omega
      rcases Nat.lt_or_ge (runT bf ds).1.1.length k with hk | hk
      · have := Nat.mul_le_mul_left bf (show (runT bf ds).1.1.length + 2 ≤ k + 1 by omega)
        rw [Nat.mul_add, Nat.mul_two] at this
        omega
      · rcases Nat.lt_or_ge k (runT bf ds).1.1.length with hk' | hk'
        · have := Nat.mul_le_mul_left bf (show k + 1 ≤ (runT bf ds).1.1.length by omega)
          omega
        · have : (runT bf ds).1.1.length = k := by omega
          rw [this, Nat.mul_add, Nat.mul_one] at h6
          omega
    obtain ⟨-, rfl⟩ := List.append_inj' (h1.symm.trans e1) (by omega)
    rw [if_neg (by rw [List.length_append, List.length_map, List.length_singleton]; omega)] at h
    have ht : (fs.map FTree.leaf ++ [FTree.leaf d]).take bf = fs.map .leaf := by
      rw [List.take_append_of_le_length (by rw [List.length_map]; omega), List.take_of_length_le (by rw [List.length_map]; omega)]
    simp only [ht] at h
    have := h (.node (fs.map .leaf)) (by simp) _ rfl
    exact absurd this (Nat.not_lt.2 e4)

/-- C09, exactly when pushing panics: if chunks are to be empty; or if what was pushed before is a number of whole groups of chunks, one
more group, whose link block would be of 2^64 bytes or more, with everything below it, and a part of a chunk, which is completed now. -/
theorem C09_exact_partial (sha : Bytes → Bytes) (c bf : Nat) (hbf : 0 < bf) (x : Bytes) (bs : List (Cid × Bytes)) (a : FileAdder)
    (h : Reaches sha c bf x bs a) (input : Bytes) :
    (∃ p, a.push sha input = some (.panic p)) ↔ c = 0 ∨
      ∃ (before : Bytes) (group : List Bytes) (rest : Bytes), x = before ++ group.flatten ++ rest ∧ bf * c ∣ before.length ∧ group.length = bf ∧ (∀ d ∈ group, d.length = c) ∧
        rest.length < c ∧ c ≤ rest.length + input.length ∧ 2 ^ 64 ≤ (FTree.node (group.map .leaf)).total sha := by
  by_cases hc0 : c = 0
  · subst hc0
    refine ⟨fun _ => .inl rfl, ?_⟩
    rintro -
    have : a = newAdder 0 bf := by
      induction h with
      | start => rfl
      | push input _ hp ih => rw [ih, C09_size_zero_panics] at hp; cases hp
    exact ⟨_, by rw [this, C09_size_zero_panics]⟩
  have hc : 0 < c := by omega
  obtain ⟨ds, inv, h1, -, hfit⟩ := reaches_inv hc hbf h
  have hsm := inv.small
  have key := runT_next hbf ds (a.block_buffer ++ input.take (c - a.block_buffer.length)) sha hfit
  constructor
  · rintro ⟨p, hp⟩
    right
    rcases push_cases sha hbf inv hfit input with ⟨a'', N, ds', e1, -⟩ | ⟨e1, e2, e3⟩
    · rw [e1] at hp; cases hp
    · obtain ⟨es, fs, g1, ⟨k, g2⟩, g3, g4⟩ := key.1 e3
      refine ⟨es.flatten, fs, a.block_buffer, by rw [h1, g1, List.flatten_append], ?_, g3, fun d hd => inv.full d (by rw [g1]; simp [hd]), hsm, e2, g4⟩
      rw [flatten_full es (fun d hd => inv.full d (by rw [g1]; simp [hd])), g2, Nat.mul_comm c, Nat.mul_right_comm]
      exact ⟨k, rfl⟩
  · rintro (h0 | ⟨before, group, rest, g1, ⟨k, g2⟩, g3, g4, g5, g6, g7⟩)
    · exact absurd h0 hc0
    obtain ⟨es, w1, w2, w3⟩ : ∃ es : List Bytes, es.flatten = before ∧ es.length = bf * k ∧ ∀ d ∈ es, d.length = c := by
      have hlen : before.length = c * (bf * k) := by rw [g2, Nat.mul_comm bf c, Nat.mul_assoc]
      clear g1 g2
      generalize bf * k = m at hlen
      induction m generalizing before with
      | zero => exact ⟨[], by rw [Nat.mul_zero] at hlen; rw [List.length_eq_zero_iff.1 hlen]; rfl, rfl, by simp⟩
      | succ m ih =>
        rw [Nat.mul_succ] at hlen
        obtain ⟨es, i1, i2, i3⟩ := ih (before.drop c) (by rw [List.length_drop]; omega)
        refine ⟨before.take c :: es, by rw [List.flatten_cons, i1, List.take_append_drop], by rw [List.length_cons, i2], ?_⟩
        intro d hd
        rcases List.mem_cons.1 hd with rfl | hd
        · rw [List.length_take]; omega
        · exact i3 d hd
    have hall : ∀ d ∈ es ++ group, d.length = c := by
      intro d hd
      rcases List.mem_append.1 hd with hd | hd
      · exact w3 d hd
      · exact g4 d hd
    obtain ⟨q1, q2⟩ := whole_unique inv.full hall hsm g5 (by rw [← h1, g1, List.flatten_append, w1])
    have e3 := key.2 ⟨es, group, q1, ⟨k, w2⟩, g3, g7⟩
    rcases push_cases sha hbf inv hfit input with ⟨a'', N, ds', e1, e2, e4, e5, -⟩ | ⟨e1, -⟩
    · refine absurd ?_ e3
      have hlen : (a.block_buffer ++ input.take (c - a.block_buffer.length)).length = c := by
        rw [List.length_append, List.length_take, q2]; omega
      obtain ⟨r1, -⟩ := whole_unique (u := a''.block_buffer) (v := []) e2.full
        (show ∀ d ∈ ds ++ [a.block_buffer ++ input.take (c - a.block_buffer.length)], d.length = c by
          intro d hd
          rcases List.mem_append.1 hd with hd | hd
          · exact inv.full d hd
          · rw [List.mem_singleton.1 hd, hlen]) e2.small hc (by rw [e5]; simp)
      rw [← r1]
      exact e4
    · exact ⟨_, e1⟩

/-- The overflow is reached: with chunks of 2^63 bytes and two links in a block, the third chunk panics. -/
theorem C09_overflow_example (sha : Bytes → Bytes) : ∃ x bs a input, Reaches sha (2 ^ 63) 2 x bs a ∧
    ∃ p, a.push sha input = some (.panic p) := by
  generalize hM : (2 : Nat) ^ 63 = M
  obtain ⟨y, hy⟩ : ∃ y : Bytes, y.length = M := ⟨List.replicate M 0, List.length_replicate ..⟩
  have hpos : 0 < M := by omega
  have step : ∀ x bs a, Reaches sha M 2 x bs a → x.length < 2 * M → x.length % M = 0 → ∃ bs' a', Reaches sha M 2 (x ++ y) bs' a' := by
    intro x bs a h hx hm
    rcases C09_push_only_overflow_partial sha M 2 hpos (by decide) x bs a h y with ⟨⟨a', bs', n⟩, hp⟩ | ⟨hp, -⟩
    · obtain ⟨hn, -⟩ := push_consumed hp
      obtain ⟨hb, -⟩ := C90_keeps sha M 2 hpos (by decide) x bs a h
      have hb' : a.block_buffer.length = 0 := by
        have e := Nat.div_add_mod x.length M
        rw [hb, List.length_drop]
        omega
      rw [(reaches_small hpos h).1, hb', hy, Nat.sub_zero, Nat.min_self] at hn
      have h2 := Reaches.push y h hp
      rw [hn, List.take_of_length_le (by omega)] at h2
      exact ⟨_, _, h2⟩
    · exfalso
      rcases (C09_exact_partial sha M 2 (by decide) x bs a h y).1 ⟨_, hp⟩ with h0 | ⟨before, group, rest, g1, -, g3, g4, -⟩
      · omega
      · have := congrArg List.length g1
        rw [List.length_append, List.length_append, flatten_full group g4, g3] at this
        omega
  obtain ⟨bs1, a1, h1⟩ := step [] [] _ .start (by rw [List.length_nil]; omega) (by rw [List.length_nil, Nat.zero_mod])
  obtain ⟨bs2, a2, h2⟩ := step ([] ++ y) bs1 a1 h1 (by rw [List.nil_append, hy]; omega) (by rw [List.nil_append, hy, Nat.mod_self])
  refine ⟨_, bs2, a2, y, h2, (C09_exact_partial sha M 2 (by decide) _ bs2 a2 h2 y).2 (.inr ⟨[], [y, y], [], by simp, ⟨0, rfl⟩, rfl, by simp [hy], hpos, by rw [hy]; simp, ?_⟩)⟩
  have := size_le_total sha (FTree.node ([y, y].map .leaf))
  have e : (FTree.node ([y, y].map .leaf)).content = y ++ y := by simp [FTree.content, FTree.contents]
  rw [e, List.length_append, hy] at this
  omega

end Verif.Props
