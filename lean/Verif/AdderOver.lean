import Verif.AdderRefine
/-
What the adder does when a total size does not fit into 64 bits.
-/
namespace Verif
open Spec

theorem partitionLinks_over (sha : Bytes → Bytes) (h : Nat) (ts : List FTree) (n : Nested) (hlt : n.total < U64)
    (h2 : U64 ≤ n.total + totals sha ts) : partitionLinks h (ts.map (lk sha h)) n = .panic .adderOverflow := by
  induction ts generalizing n with
  | nil => simp only [totals_nil] at h2; omega
  | cons t ts ih =>
    simp only [totals_cons] at h2
    simp only [List.map_cons, partitionLinks]
    rw [if_neg (by simp [lk])]
    unfold partitionLink
    by_cases a1 : U64 ≤ n.size + (lk sha h t).file_size
    · rw [if_pos a1]; rfl
    by_cases a2 : U64 ≤ n.total + (lk sha h t).total_size
    · rw [if_neg a1, if_pos a2]; rfl
    rw [if_neg a1, if_neg a2]
    simp only [Res.bind_ok]
    exact ih _ (by simp only; omega) (by simp only [lk] at a2 ⊢; omega)

theorem group_over (sha : Bytes → Bytes) (h : Nat) (g : List FTree) (hb : U64 ≤ (FTree.node g).total sha) :
    partitionLinks h (g.map (lk sha h)) {} = .panic .adderOverflow ∨
    ∃ n : Nested, partitionLinks h (g.map (lk sha h)) {} = .ok n ∧ n.links.length = n.blocksizes.length ∧
      renderAndHash sha (linkMessage n) = (FTree.node g).entry sha ∧
      U64 ≤ n.total + ((FTree.node g).block sha).length := by
  have hs := sizes_le_totals sha g
  have ht : (FTree.node g).total sha = totals sha g + ((FTree.node g).block sha).length := FTree.total_node sha g
  by_cases hf : totals sha g < U64
  · refine .inr ⟨_, partitionLinks_ok sha h g {} (by simp only; omega) (by simp only; omega), by simp, ?_, ?_⟩
    · simp only [renderAndHash, linkMessage, FTree.entry, FTree.cid, FTree.block, FTree.info, FTree.nodeInfo, nodeMsg_eq]
      simp
    · simp only; omega
  · exact .inl (partitionLinks_over sha h g {} (by decide) (by simp only; omega))

/-- A group which does not fit ends the loop. -/
theorem flushLevel_over (sha : Bytes → Bytes) (bf h : Nat) (finishing : Bool) (start : Nat) (ow : Option Nat) (s : FlushState) (rel : Nat)
    (g : List FTree) (hf : (s.pending.drop start).findIdx? (fun l => l.depth == h) = some rel)
    (hgo : ¬ (finishing = false ∧ (s.pending.drop (rel + start)).length ≤ bf))
    (hslice : (s.pending.take (Nat.min (rel + start + bf) s.pending.length)).drop (rel + start) = g.map (lk sha h))
    (hb : U64 ≤ (FTree.node g).total sha) : flushLevel sha bf h finishing start ow s = some (.panic .adderOverflow) := by
  rw [flushLevel.eq_1, hf]
  dsimp only
  rw [if_neg hgo, hslice]
  rcases group_over sha h g hb with e | ⟨n, e1, e2, e3, e4⟩
  · rw [e]
  · rw [e1]
    dsimp only
    rw [if_neg (by rw [e2]; simp), e3]
    simp only [FTree.entry]
    exact if_pos e4

theorem flushLevel_finish_over (sha : Bytes → Bytes) (bf h : Nat) (hbf : 0 < bf) (ts : List FTree)
    (hover : ∃ g ∈ groups bf ts, U64 ≤ (FTree.node g).total sha)
    (start ow : Nat) (s : FlushState) (how : ow < start) (hlen : start ≤ s.pending.length)
    (hs : s.pending.drop start = ts.map (lk sha h)) :
    flushLevel sha bf h true start (some ow) s = some (.panic .adderOverflow) := by
  induction ts using groups_induct hbf generalizing start ow s with
  | h0 => obtain ⟨g, hg, -⟩ := hover; simp at hg
  | h1 ts hne ih =>
    have hplen : s.pending.length = start + ts.length := by
      have := congrArg List.length hs; simp at this; omega
    have hpos := List.length_pos_iff.2 hne
    have hf : (s.pending.drop start).findIdx? (fun l => l.depth == h) = some 0 := by
      rw [hs]
      obtain ⟨t, ts', rfl⟩ := List.exists_cons_of_ne_nil hne
      simp [List.findIdx?_cons, lk]
    rw [groups_cons hbf hne] at hover
    have hlast : Nat.min (start + bf) s.pending.length = start + Nat.min bf ts.length := by
      rw [hplen]; show min _ _ = _ + min _ _; omega
    have hslice : (s.pending.take (start + Nat.min bf ts.length)).drop start = (ts.take bf).map (lk sha h) := by
      rw [List.drop_take, hs, List.map_take]
      have : start + Nat.min bf ts.length - start = min bf ts.length := by show _ = Nat.min _ _; omega
      rw [this, ← List.length_map (f := lk sha h) (as := ts)]
      rw [Nat.min_def]
      split
      · rfl
      · rw [List.take_of_length_le (Nat.le_refl _), List.take_of_length_le (by omega)]
    by_cases hb0 : U64 ≤ (FTree.node (ts.take bf)).total sha
    · exact flushLevel_over sha bf h true start _ s 0 _ hf (by simp) (by rw [Nat.zero_add, hlast, hslice]) hb0
    have hb := Nat.lt_of_not_le hb0
    obtain ⟨n, e1, e2, e3, e4, e5⟩ := group_ok sha h (ts.take bf) hb
    let link : Link := lk sha (h + 1) (.node (ts.take bf))
    let s1 : FlushState := { pending := s.pending.set (ow + 1) link, ret := s.ret ++ [(FTree.node (ts.take bf)).entry sha],
                             reused_links := n.links, reused_blocksizes := n.blocksizes }
    have hmin : Nat.min bf ts.length = min bf ts.length := rfl
    have hstep : flushLevel sha bf h true start (some ow) s =
        flushLevel sha bf h true (start + Nat.min bf ts.length) (some (ow + 1)) s1 := by
      rw [flushLevel.eq_1]
      simp only [hf, Nat.zero_add, hlast, hslice, e1, e2, ne_eq, not_true_eq_false, if_false, e3, Bool.true_eq_false,
        false_and, FTree.entry, e4]
      rw [if_neg (by omega), if_neg (by omega)]
      simp only [s1, link, lk, e5, FTree.entry]
    rw [hstep]
    refine ih ?_ (start + Nat.min bf ts.length) (ow + 1) s1 (by omega) (by simp only [s1, List.length_set]; omega) ?_
    · obtain ⟨g, hg, hg2⟩ := hover
      rcases List.mem_cons.1 hg with rfl | hg
      · exact (hb0 hg2).elim
      · exact ⟨g, hg, hg2⟩
    · simp only [s1]
      rw [List.drop_set_of_lt (by omega), ← List.drop_drop, hs, ← List.map_drop]
      congr 1
      by_cases hle : bf ≤ ts.length
      · rw [hmin, Nat.min_eq_left hle]
      · rw [hmin, Nat.min_eq_right (by omega), List.drop_of_length_le (Nat.le_refl _), List.drop_of_length_le (by omega)]

theorem flushLevels_finish_step_over (sha : Bytes → Bytes) (bf h : Nat) (hbf : 0 < bf) (A B : List FTree) (hB : B ≠ [])
    (hlen : A.length + B.length ≠ 1)
    (hover : ∃ g ∈ groups bf B, U64 ≤ (FTree.node g).total sha) (s : FlushState)
    (hs : s.pending = A.map (lk sha (h + 1)) ++ B.map (lk sha h)) :
    flushLevels sha bf true h s = some (.panic .adderOverflow) := by
  have hpos := List.length_pos_iff.2 hB
  have hplen : s.pending.length = A.length + B.length := by rw [hs]; simp
  have hf : (s.pending.drop 0).findIdx? (fun l => l.depth == h) = some A.length := by
    obtain ⟨t, ts', rfl⟩ := List.exists_cons_of_ne_nil hB
    rw [List.drop_zero, hs]
    have := findIdx_none_then (fun l : Link => l.depth == h) (A.map (lk sha (h + 1))) (ts'.map (lk sha h)) (lk sha h t)
      (by intro y hy; obtain ⟨a, -, rfl⟩ := List.mem_map.1 hy; simp [lk]) (by simp [lk])
    simpa using this
  have hmin : Nat.min bf B.length = min bf B.length := rfl
  have hlast : Nat.min (A.length + bf) s.pending.length = A.length + Nat.min bf B.length := by
    rw [hplen]; show min _ _ = _ + min _ _; omega
  have hslice : (s.pending.take (A.length + Nat.min bf B.length)).drop A.length = (B.take bf).map (lk sha h) := by
    rw [List.drop_take, hs, List.drop_append_of_le_length (by simp), List.drop_of_length_le (by simp), List.nil_append,
      ← List.map_take]
    congr 1
    rw [Nat.add_sub_cancel_left, hmin, Nat.min_def]
    split
    · rfl
    · rw [List.take_of_length_le (Nat.le_refl _), List.take_of_length_le (by omega)]
  have key : flushLevel sha bf h true 0 none s = some (.panic .adderOverflow) := by
    by_cases hb0 : U64 ≤ (FTree.node (B.take bf)).total sha
    · exact flushLevel_over sha bf h true 0 none s A.length _ hf (by simp) (by rw [Nat.add_zero, hlast, hslice]) hb0
    have hb := Nat.lt_of_not_le hb0
    obtain ⟨n, e1, e2, e3, e4, e5⟩ := group_ok sha h (B.take bf) hb
    let link : Link := lk sha (h + 1) (.node (B.take bf))
    let s1 : FlushState := { pending := s.pending.set A.length link, ret := s.ret ++ [(FTree.node (B.take bf)).entry sha],
                             reused_links := n.links, reused_blocksizes := n.blocksizes }
    have hstep : flushLevel sha bf h true 0 none s =
        flushLevel sha bf h true (A.length + Nat.min bf B.length) (some A.length) s1 := by
      rw [flushLevel.eq_1]
      simp only [hf, Nat.add_zero, hlast, hslice, e1, e2, ne_eq, not_true_eq_false, if_false, e3, Bool.true_eq_false,
        false_and, FTree.entry, e4]
      rw [if_neg (by omega), if_neg (by omega)]
      simp only [s1, link, lk, e5, FTree.entry]
    rw [hstep]
    refine flushLevel_finish_over sha bf h hbf (B.drop bf) ?_ (A.length + Nat.min bf B.length) A.length s1
      (by omega) (by simp only [s1, List.length_set]; omega) ?_
    · obtain ⟨g, hg, hg2⟩ := hover
      rw [groups_cons hbf hB] at hg
      rcases List.mem_cons.1 hg with rfl | hg
      · exact (hb0 hg2).elim
      · exact ⟨g, hg, hg2⟩
    · simp only [s1]
      rw [List.drop_set_of_lt (by omega), hs, drop_add_append _ _ _ _ (by simp), ← List.map_drop]
      congr 1
      by_cases hle : bf ≤ B.length
      · rw [hmin, Nat.min_eq_left hle]
      · rw [hmin, Nat.min_eq_right (by omega), List.drop_of_length_le (Nat.le_refl _), List.drop_of_length_le (by omega)]
  rw [flushLevels.eq_1, if_neg (by simp; omega), key]

theorem flushLevels_full_over (sha : Bytes → Bytes) (bf : Nat) (hbf : 0 < bf) (G R : List FTree) (hl : R.length = bf + 1)
    (hb : U64 ≤ (FTree.node (R.take bf)).total sha)
    (s : FlushState) (hs : s.pending = pend sha G R) : flushLevels sha bf false 0 s = some (.panic .adderOverflow) := by
  have hR : R ≠ [] := by intro h; rw [h] at hl; simp at hl
  have hplen : s.pending.length = G.length + (bf + 1) := by rw [hs]; simp [pend, hl]
  have hlast : Nat.min (G.length + bf) s.pending.length = G.length + bf := by
    rw [hplen]; show min _ _ = _; omega
  have hslice : (s.pending.take (G.length + bf)).drop G.length = (R.take bf).map (lk sha 0) := by
    rw [List.drop_take, hs, pend, List.drop_append_of_le_length (by simp), List.drop_of_length_le (by simp),
      List.nil_append, ← List.map_take, Nat.add_sub_cancel_left]
  rw [flushLevels.eq_1, if_neg (by simp; omega)]
  rw [flushLevel_over sha bf 0 false 0 none s G.length _ (by rw [List.drop_zero, hs]; exact findIdx_pend sha G R hR)
    (by simp; omega) (by rw [Nat.add_zero, hlast, hslice]) hb]

theorem flushLevels_finish_over (sha : Bytes → Bytes) (bf : Nat) (hbf : 2 ≤ bf) (k : Nat) :
    ∀ (h : Nat) (A B : List FTree) (s : FlushState), B ≠ [] →
      (∃ t ∈ finishT bf k A B, U64 ≤ t.total sha) →
      s.pending = A.map (lk sha (h + 1)) ++ B.map (lk sha h) →
      flushLevels sha bf true h s = some (.panic .adderOverflow) := by
  induction k with
  | zero => intro h A B s hB ht hs; simp [finishT] at ht
  | succ k ih =>
    intro h A B s hB ht hs
    by_cases h1 : A.length + B.length = 1
    · simp [finishT, h1] at ht
    · simp only [finishT, if_neg h1] at ht
      by_cases hover : ∃ g ∈ groups bf B, U64 ≤ (FTree.node g).total sha
      · exact flushLevels_finish_step_over sha bf h (by omega) A B hB h1 hover s hs
      obtain ⟨s1, r1, r2, r3⟩ := flushLevels_finish_step sha bf h (by omega) A B hB h1
        (fun g hg => Nat.lt_of_not_le fun hh => hover ⟨g, hg, hh⟩) s hs
      have hgne : groups bf B ≠ [] := groups_ne_nil (by omega) hB
      rw [r1]
      refine ih (h + 1) [] (A ++ (groups bf B).map FTree.node) s1 (by simp [hgne]) ?_ (by simpa using r2)
      obtain ⟨t, ht1, ht2⟩ := ht
      rcases List.mem_append.1 ht1 with hm | hm
      · obtain ⟨g, hg, rfl⟩ := List.mem_map.1 hm
        exact (hover ⟨g, hg, ht2⟩).elim
      · exact ⟨t, hm, ht2⟩

theorem not_fits {sha : Bytes → Bytes} {l : List FTree} (h : ¬ ∀ t ∈ l, Fits sha t) :
    ∃ ts, FTree.node ts ∈ l ∧ U64 ≤ (FTree.node ts).total sha := by
  refine Classical.byContradiction fun hn => h fun t ht ts hts => ?_
  subst hts
  exact Nat.lt_of_not_le fun hh => hn ⟨ts, ht, hh⟩

/-- A chunk whose link block does not fit. -/
theorem flushChunk_over (sha : Bytes → Bytes) {c bf : Nat} (hbf : 0 < bf) {ds : List Bytes} {a : FileAdder}
    (inv : AdderInv sha c bf ds a) (hc : 0 < c) (d : Bytes) (hd : d.length = c)
    (hb : ∀ t ∈ (runT bf ds).2, Fits sha t) (hn : ¬ ∀ t ∈ (runT bf (ds ++ [d])).2, Fits sha t) :
    a.flushChunk sha d = some (.panic .adderOverflow) := by
  have hdne : d ≠ [] := by intro h; rw [h] at hd; simp at hd; omega
  have rinv := runT_inv hbf ds
  obtain ⟨⟨⟨A, B⟩, E⟩, hst⟩ : ∃ st, runT bf ds = st := ⟨_, rfl⟩
  have hlinks := inv.links
  have hst2 : runT bf (ds ++ [d]) = addT bf ((A, B), E) d := by rw [runT_snoc, hst]
  rw [hst] at hlinks rinv hb
  simp only at hlinks hb
  have hleaf : flushBufferedLeaf sha d a.unflushed_links false =
      (some ((FTree.leaf d).entry sha), pend sha A (B ++ [.leaf d])) := by
    unfold flushBufferedLeaf
    rw [if_neg (by simp [hdne]), leaf_render]
    simp only [FTree.entry, leaf_link, hlinks, pend]
    simp
  obtain ⟨ts, h1, h2⟩ := not_fits hn
  rw [hst2] at h1
  by_cases hle : (B ++ [FTree.leaf d]).length ≤ bf
  · simp only [addT, if_pos hle] at h1
    rcases List.mem_append.1 h1 with h | h
    · have := hb _ h _ rfl; omega
    · simp at h
  · have hl : (B ++ [FTree.leaf d]).length = bf + 1 := by
      have := rinv.len; simp only at this; simp at hle ⊢; omega
    simp only [addT, if_neg hle] at h1
    have h3 : U64 ≤ (FTree.node ((B ++ [FTree.leaf d]).take bf)).total sha := by
      rcases List.mem_append.1 h1 with h | h
      · have := hb _ h _ rfl; omega
      · simp only [List.mem_cons, FTree.node.injEq, List.not_mem_nil, or_false, reduceCtorEq, false_or] at h
        rw [← h]; exact h2
    unfold FileAdder.flushChunk
    rw [hleaf]
    simp only [flushLinks, inv.bfac]
    rw [flushLevels_full_over sha bf hbf A (B ++ [FTree.leaf d]) hl h3 _ rfl]

/-- A `push` either succeeds or completes a link block which does not fit. -/
theorem push_cases (sha : Bytes → Bytes) {c bf : Nat} (hbf : 0 < bf) {ds : List Bytes} {a : FileAdder}
    (inv : AdderInv sha c bf ds a) (hb : ∀ t ∈ (runT bf ds).2, Fits sha t) (input : Bytes) :
    (∃ a' N ds', a.push sha input =
        some (.ok (a', N.map (FTree.entry sha), min input.length (c - a.block_buffer.length))) ∧
      AdderInv sha c bf ds' a' ∧ (∀ t ∈ (runT bf ds').2, Fits sha t) ∧ ds'.flatten ++ a'.block_buffer =
        ds.flatten ++ a.block_buffer ++ input.take (c - a.block_buffer.length) ∧
      (runT bf ds').2 = (runT bf ds).2 ++ N ∧ N.length ≤ 2) ∨
    (a.push sha input = some (.panic .adderOverflow) ∧ c ≤ a.block_buffer.length + input.length ∧
      ¬ ∀ t ∈ (runT bf (ds ++ [a.block_buffer ++ input.take (c - a.block_buffer.length)])).2, Fits sha t) := by
  have hsm := inv.small
  have hc : 0 < c := by omega
  have hacc : chunkerAccept a.chunkMax input a.block_buffer =
      .ok (input.take (c - a.block_buffer.length),
        decide (c ≤ a.block_buffer.length + min input.length (c - a.block_buffer.length))) := by
    unfold chunkerAccept
    rw [inv.chunk, if_neg (by omega)]
    simp only
    have e : Nat.min input.length (c - a.block_buffer.length) = min (c - a.block_buffer.length) input.length := by
      show min _ _ = _; omega
    rw [e]
    have e2 : input.take (min (c - a.block_buffer.length) input.length) = input.take (c - a.block_buffer.length) := by
      rw [Nat.min_def]; split
      · rfl
      · rw [List.take_of_length_le (Nat.le_refl _), List.take_of_length_le (by omega)]
    rw [e2, Nat.min_comm]
  have hlen : (input.take (c - a.block_buffer.length)).length = min input.length (c - a.block_buffer.length) := by
    rw [List.length_take, Nat.min_comm]
  by_cases hr : c ≤ a.block_buffer.length + min input.length (c - a.block_buffer.length)
  · have hdl : (a.block_buffer ++ input.take (c - a.block_buffer.length)).length = c := by
      rw [List.length_append, hlen]; omega
    by_cases hall : ∀ t ∈ (runT bf (ds ++ [a.block_buffer ++ input.take (c - a.block_buffer.length)])).2, Fits sha t
    · obtain ⟨a', N, e1, e2, e3, e4, -, e6⟩ := flushChunk_ok sha hbf inv hc _ hdl hall
      refine .inl ⟨a', N, _, ?_, e2, hall, by rw [e3]; simp, e4, e6⟩
      unfold FileAdder.push
      rw [hacc]
      simp only [decide_eq_true hr]
      by_cases he : a.block_buffer = []
      · rw [if_pos ⟨he, trivial⟩]
        have : a.block_buffer ++ input.take (c - a.block_buffer.length) = input.take (c - a.block_buffer.length) := by
          rw [he]; rfl
        rw [this] at e1
        rw [e1]
        simp only [hlen]
      · rw [if_neg (by simp [he])]
        simp only [Bool.true_eq_false, if_false]
        rw [e1]
        simp only [hlen]
    · refine .inr ⟨?_, by omega, hall⟩
      have e1 := flushChunk_over sha hbf inv hc _ hdl hb hall
      unfold FileAdder.push
      rw [hacc]
      simp only [decide_eq_true hr]
      by_cases he : a.block_buffer = []
      · rw [if_pos ⟨he, trivial⟩]
        have : a.block_buffer ++ input.take (c - a.block_buffer.length) = input.take (c - a.block_buffer.length) := by
          rw [he]; rfl
        rw [this] at e1
        rw [e1]
      · rw [if_neg (by simp [he])]
        simp only [Bool.true_eq_false, if_false]
        rw [e1]
  · refine .inl ⟨{ a with block_buffer := a.block_buffer ++ input.take (c - a.block_buffer.length) }, [], ds, ?_, ?_, hb, ?_,
      by simp, by simp⟩
    · unfold FileAdder.push
      rw [hacc]
      simp only [decide_eq_false hr, Bool.false_eq_true, and_false, if_false, if_true, hlen, List.map_nil]
    · refine ⟨inv.chunk, inv.bfac, inv.links, inv.full, ?_⟩
      simp only [List.length_append, hlen]; omega
    · simp

/-- `finish` when a link block does not fit. -/
theorem finish_over (sha : Bytes → Bytes) {c bf : Nat} (hbf : 2 ≤ bf) {ds : List Bytes} {a : FileAdder}
    (inv : AdderInv sha c bf ds a) (hb : ∀ t ∈ (runT bf ds).2, Fits sha t)
    (hn : ¬ ∀ t ∈ treesOf bf c (ds.flatten ++ a.block_buffer), Fits sha t) :
    a.finish sha = some (.panic .adderOverflow) := by
  have hc : 0 < c := by have := inv.small; omega
  have hlinks := inv.links
  have rinv := runT_inv (show 0 < bf by omega) ds
  have hgr := groups_append_full hc ds inv.full a.block_buffer
  by_cases hbuf : a.block_buffer = [] ∧ ds ≠ []
  · -- everything was already flushed
    obtain ⟨he, hds⟩ := hbuf
    obtain ⟨ds0, d, hdsd⟩ : ∃ x y, ds = x ++ [y] :=
      ⟨ds.dropLast, ds.getLast hds, (List.dropLast_concat_getLast hds).symm⟩
    have hxne : ds.flatten ++ a.block_buffer ≠ [] := by
      intro h
      have : d.length = c := inv.full d (by rw [hdsd]; simp)
      have h2 := congrArg List.length h
      rw [hdsd] at h2
      simp only [List.flatten_append, List.flatten_cons, List.flatten_nil, List.length_append, List.length_nil] at h2
      omega
    have htr : treesOf bf c (ds.flatten ++ a.block_buffer) = emission bf ds0 d := by
      unfold treesOf chunks
      rw [if_neg hxne, hgr, he, groups_nil, List.append_nil, hdsd]
      simp
    rw [htr] at hn
    have hem := emission_flushed (show 0 < bf by omega) ds0 d
    rw [← hdsd] at hem
    have hRne : (runT bf ds).1.2 ≠ [] := rinv.ne hds
    have hlinksne : a.unflushed_links ≠ [] := by
      rw [hlinks]; simp [pend, hRne]
    obtain ⟨ts, h1, h2⟩ := not_fits hn
    rw [hem] at h1
    have h3 := (List.mem_append.1 h1).resolve_left fun h => by have := hb _ h _ rfl; omega
    unfold FileAdder.finish flushBufferedLeaf
    rw [if_pos ⟨he, .inr hlinksne⟩]
    simp only [flushLinks, inv.bfac]
    rw [flushLevels_finish_over sha bf hbf _ 0 (runT bf ds).1.1 (runT bf ds).1.2 _ hRne ⟨_, h3, h2⟩ hlinks]
  · -- a leaf is flushed now
    have htr : treesOf bf c (ds.flatten ++ a.block_buffer) = emission bf ds a.block_buffer := by
      unfold treesOf chunks
      by_cases he : a.block_buffer = []
      · have hds : ds = [] := Decidable.byContradiction fun h => hbuf ⟨he, h⟩
        subst hds; rw [he]; rfl
      · rw [if_neg (by simp [he]), hgr]
        have : groups c a.block_buffer = [a.block_buffer] := by
          have := inv.small
          rw [groups_cons hc he, List.take_of_length_le (by omega), List.drop_of_length_le (by omega)]; rfl
        rw [this]; simp
    rw [htr] at hn
    have hcond : ¬ (a.block_buffer = [] ∧ (true = false ∨ a.unflushed_links ≠ [])) := by
      rintro ⟨he, h | h⟩
      · cases h
      · have hds : ds = [] := Decidable.byContradiction fun h => hbuf ⟨he, h⟩
        subst hds
        exact h (by rw [hlinks]; rfl)
    have hleaf : flushBufferedLeaf sha a.block_buffer a.unflushed_links true =
        (some ((FTree.leaf a.block_buffer).entry sha),
          pend sha (runT bf ds).1.1 ((runT bf ds).1.2 ++ [.leaf a.block_buffer])) := by
      unfold flushBufferedLeaf
      rw [if_neg hcond, leaf_render]
      simp only [FTree.entry, leaf_link, hlinks, pend]
      simp
    obtain ⟨ts, h1, h2⟩ := not_fits hn
    have h3 : FTree.node ts ∈ finishT bf ((runT bf ds).1.1.length + (runT bf ds).1.2.length + 1)
        (runT bf ds).1.1 ((runT bf ds).1.2 ++ [.leaf a.block_buffer]) := by
      unfold emission at h1
      simp only [List.mem_append, List.mem_singleton, reduceCtorEq, or_false] at h1
      rcases h1 with h | h
      · have := hb _ h _ rfl; omega
      · exact h
    unfold FileAdder.finish
    rw [hleaf]
    simp only [flushLinks, inv.bfac]
    rw [flushLevels_finish_over sha bf hbf _ 0 (runT bf ds).1.1 ((runT bf ds).1.2 ++ [.leaf a.block_buffer]) _ (by simp)
      ⟨_, h3, h2⟩ rfl]

end Verif
