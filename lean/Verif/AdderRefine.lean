import Verif.AdderBound
import Verif.Spec.Balanced
/-
The adder refines the tree algorithm.
-/
namespace Verif
open Spec

/-- The pending links for completed groups `G` and leaves `R`. -/
def pend (sha : Bytes → Bytes) (G R : List FTree) : List Link := G.map (lk sha 1) ++ R.map (lk sha 0)

theorem findIdx_pend (sha : Bytes → Bytes) (G R : List FTree) (hR : R ≠ []) :
    (pend sha G R).findIdx? (fun l => l.depth == 0) = some G.length := by
  obtain ⟨t, ts', rfl⟩ := List.exists_cons_of_ne_nil hR
  have := findIdx_none_then (fun l : Link => l.depth == 0) (G.map (lk sha 1)) (ts'.map (lk sha 0)) (lk sha 0 t)
      (by intro y hy; obtain ⟨a, -, rfl⟩ := List.mem_map.1 hy; simp [lk]) (by simp [lk])
  simpa [pend] using this

/-- Flushing while not finishing, not yet enough leaves: nothing happens. -/
theorem flushLevels_small (sha : Bytes → Bytes) (bf : Nat) (G R : List FTree) (hR : R ≠ []) (hle : R.length ≤ bf)
    (s : FlushState) (hs : s.pending = pend sha G R) : flushLevels sha bf false 0 s = some (.ok s) := by
  rw [flushLevels.eq_1]
  split
  · rfl
  · rw [flushLevel.eq_1]
    rw [List.drop_zero, hs, findIdx_pend sha G R hR]
    simp only [Nat.add_zero]
    rw [if_pos (by
      refine ⟨trivial, ?_⟩
      simp only [pend]
      rw [List.drop_append_of_le_length (by simp)]
      simp; omega)]

/-- Flushing while not finishing with one leaf more than fits. -/
theorem flushLevels_full (sha : Bytes → Bytes) (bf : Nat) (hbf : 0 < bf) (G R : List FTree) (hl : R.length = bf + 1)
    (hb : (FTree.node (R.take bf)).total sha < U64)
    (s : FlushState) (hs : s.pending = pend sha G R) :
    ∃ s', flushLevels sha bf false 0 s = some (.ok s') ∧ s'.pending = pend sha (G ++ [.node (R.take bf)]) (R.drop bf) ∧
      s'.ret = s.ret ++ [(FTree.node (R.take bf)).entry sha] := by
  have hR : R ≠ [] := by intro h; rw [h] at hl; simp at hl
  have hplen : s.pending.length = G.length + (bf + 1) := by rw [hs]; simp [pend, hl]
  obtain ⟨n, e1, e2, e3, e4, e5⟩ := group_ok sha 0 (R.take bf) hb
  have hlast : Nat.min (G.length + bf) s.pending.length = G.length + bf := by
    rw [hplen]; show min _ _ = _; omega
  have hslice : (s.pending.take (G.length + bf)).drop G.length = (R.take bf).map (lk sha 0) := by
    rw [List.drop_take, hs, pend, List.drop_append_of_le_length (by simp), List.drop_of_length_le (by simp),
      List.nil_append, ← List.map_take, Nat.add_sub_cancel_left]
  let link : Link := lk sha 1 (.node (R.take bf))
  let s1 : FlushState := { pending := s.pending.set G.length link, ret := s.ret ++ [(FTree.node (R.take bf)).entry sha],
                           reused_links := n.links, reused_blocksizes := n.blocksizes }
  have hstep : flushLevel sha bf 0 false 0 none s = flushLevel sha bf 0 false (G.length + bf) (some G.length) s1 := by
    rw [flushLevel.eq_1]
    rw [List.drop_zero, show s.pending.findIdx? (fun l => l.depth == 0) = some G.length by rw [hs]; exact findIdx_pend sha G R hR]
    simp only [Nat.add_zero]
    rw [if_neg (by simp; omega)]
    simp only [hlast, hslice, e1, e2, ne_eq, not_true_eq_false, if_false, e3, FTree.entry, e4]
    rw [if_neg (by omega), if_neg (by omega)]
    simp only [s1, link, lk, e5, FTree.entry]
  have hdrop : s1.pending.drop (G.length + bf) = (R.drop bf).map (lk sha 0) := by
    simp only [s1]
    rw [List.drop_set_of_lt (by omega), hs, pend, drop_add_append _ _ _ _ (by simp), ← List.map_drop]
  obtain ⟨x, hx⟩ : ∃ x, R.drop bf = [x] := List.length_eq_one_iff.1 (by simp; omega)
  have hstep2 : flushLevel sha bf 0 false (G.length + bf) (some G.length) s1 =
      some (.ok (.breakOuter { s1 with pending := pend sha (G ++ [.node (R.take bf)]) (R.drop bf) })) := by
    rw [flushLevel.eq_1, hdrop]
    have : ((R.drop bf).map (lk sha 0)).findIdx? (fun l => l.depth == 0) = some 0 := by
      rw [hx]; simp [List.findIdx?_cons, lk]
    rw [this]
    simp only [Nat.zero_add]
    rw [if_pos (by refine ⟨trivial, ?_⟩; rw [hdrop, hx]; simp; omega)]
    have hd : drain s1.pending (G.length + 1) (G.length + bf) =
        .ok (pend sha (G ++ [.node (R.take bf)]) (R.drop bf)) := by
      unfold drain
      rw [if_pos (by simp only [s1, List.length_set]; omega)]
      rw [hdrop]
      simp only [s1]
      rw [take_set_succ _ _ _ (by omega), hs]
      simp only [pend, link]
      rw [List.take_append_of_le_length (by simp), List.take_of_length_le (by simp)]
      simp
    rw [hd]
  refine ⟨{ s1 with pending := pend sha (G ++ [.node (R.take bf)]) (R.drop bf) }, ?_, rfl, rfl⟩
  rw [flushLevels.eq_1, if_neg (by simp; omega), hstep, hstep2]

/-- Finishing emits what `finishT` says. -/
theorem flushLevels_finish (sha : Bytes → Bytes) (bf : Nat) (hbf : 2 ≤ bf) (k : Nat) :
    ∀ (h : Nat) (A B : List FTree) (s : FlushState), B ≠ [] →
      (∀ t ∈ finishT bf k A B, t.total sha < U64) →
      ((A = [] ∧ B.length ≤ k + 1) ∨ A.length + B.length ≤ k) →
      s.pending = A.map (lk sha (h + 1)) ++ B.map (lk sha h) →
      ∃ s', flushLevels sha bf true h s = some (.ok s') ∧ s'.ret = s.ret ++ (finishT bf k A B).map (FTree.entry sha) ∧
        s'.pending.length = 1 := by
  have hone : ∀ (h : Nat) (s : FlushState), s.pending.length = 1 → flushLevels sha bf true h s = some (.ok s) := by
    intro h s hs
    rw [flushLevels.eq_1, if_pos (.inl ⟨hs, rfl⟩)]
  induction k with
  | zero =>
    intro h A B s hB ht hk hs
    have hpos := List.length_pos_iff.2 hB
    rcases hk with ⟨rfl, hk⟩ | hk
    · have : s.pending.length = 1 := by rw [hs]; simp; omega
      exact ⟨s, hone h s this, by simp [finishT], this⟩
    · omega
  | succ k ih =>
    intro h A B s hB ht hk hs
    have hpos := List.length_pos_iff.2 hB
    by_cases h1 : A.length + B.length = 1
    · have : s.pending.length = 1 := by rw [hs]; simp; omega
      exact ⟨s, hone h s this, by simp [finishT, h1], this⟩
    · simp only [finishT, if_neg h1] at ht ⊢
      obtain ⟨s1, r1, r2, r3⟩ := flushLevels_finish_step sha bf h (by omega) A B hB h1
        (fun g hg => ht _ (List.mem_append_left _ (List.mem_map_of_mem hg))) s hs
      have hgne : groups bf B ≠ [] := groups_ne_nil (by omega) hB
      obtain ⟨s2, q1, q2, q3⟩ := ih (h + 1) [] (A ++ (groups bf B).map FTree.node) s1 (by simp [hgne])
        (fun t h => ht t (List.mem_append_right _ h)) (.inl ⟨rfl, by
          simp only [List.length_append, List.length_map]
          rcases hk with ⟨rfl, hk⟩ | hk
          · have := groups_lt hbf (l := B) (by simp at h1; omega)
            simp; omega
          · have : (groups bf B).length ≤ B.length := by
              by_cases hB2 : 2 ≤ B.length
              · exact Nat.le_of_lt (groups_lt hbf hB2)
              · have := (groups_length (show 0 < bf by omega) B).2 hB
                refine Decidable.byContradiction fun hc => ?_
                have h2 : bf * 1 ≤ bf * ((groups bf B).length - 1) := Nat.mul_le_mul_left _ (by omega)
                omega
            omega⟩) (by simpa using r2)
      refine ⟨s2, by rw [r1, q1], ?_, q3⟩
      rw [q2, r3]
      simp [List.map_map, Function.comp_def]

/-- The state of an adder which was built with chunk size `c` and branching factor `bf` and which has consumed
`ds.flatten ++ buf`. -/
structure AdderInv (sha : Bytes → Bytes) (c bf : Nat) (ds : List Bytes) (a : FileAdder) : Prop where
  chunk : a.chunkMax = c
  bfac : a.collector.branching_factor = bf
  links : a.unflushed_links = pend sha (runT bf ds).1.1 (runT bf ds).1.2
  full : ∀ d ∈ ds, d.length = c
  small : a.block_buffer.length < c

theorem finishT_node {bf : Nat} (k : Nat) : ∀ (A B : List FTree), ∀ t ∈ finishT bf k A B, ∃ ts, t = .node ts := by
  induction k with
  | zero => intro A B t ht; simp [finishT] at ht
  | succ k ih =>
    intro A B t ht
    simp only [finishT] at ht
    split at ht
    · simp at ht
    · rcases List.mem_append.1 ht with h | h
      · obtain ⟨g, -, rfl⟩ := List.mem_map.1 h; exact ⟨g, rfl⟩
      · exact ih _ _ t h

theorem finishT_fits {sha : Bytes → Bytes} {bf k : Nat} {A B : List FTree} (h : ∀ t ∈ finishT bf k A B, Fits sha t) :
    ∀ t ∈ finishT bf k A B, t.total sha < U64 := by
  intro t ht
  obtain ⟨ts, hts⟩ := finishT_node k A B t ht
  exact h t ht ts hts

theorem addT_total {sha : Bytes → Bytes} {bf : Nat} {ds : List Bytes} {d : Bytes}
    (h : ∀ t ∈ (runT bf (ds ++ [d])).2, Fits sha t) (hgt : bf < ((runT bf ds).1.2 ++ [FTree.leaf d]).length) :
    (FTree.node (((runT bf ds).1.2 ++ [FTree.leaf d]).take bf)).total sha < U64 := by
  refine h _ ?_ _ rfl
  rw [runT_snoc]
  unfold addT
  simp only
  rw [if_neg (by omega)]
  simp

theorem leafMessage_eq (d : Bytes) : leafMessage d = FTree.leafMsg d := by
  unfold leafMessage FTree.leafMsg
  by_cases h : d = [] <;> simp [h]

theorem leaf_render (sha : Bytes → Bytes) (d : Bytes) : renderAndHash sha (leafMessage d) = (FTree.leaf d).entry sha := by
  rw [leafMessage_eq]
  simp [renderAndHash, FTree.entry, FTree.cid, FTree.block, FTree.info, FTree.leafInfo]

theorem leaf_link (sha : Bytes → Bytes) (d : Bytes) :
    (⟨0, (FTree.leaf d).cid sha, ((FTree.leaf d).block sha).length, d.length⟩ : Link) = lk sha 0 (.leaf d) := by
  unfold lk
  rw [← FTree.info_total]
  simp [FTree.content, FTree.block, FTree.info, FTree.leafInfo]

/-- A chunk is flushed: leaf and at most one link block. -/
theorem flushChunk_ok (sha : Bytes → Bytes) {c bf : Nat} (hbf : 0 < bf) {ds : List Bytes} {a : FileAdder}
    (inv : AdderInv sha c bf ds a) (hc : 0 < c) (d : Bytes) (hd : d.length = c)
    (hb : ∀ t ∈ (runT bf (ds ++ [d])).2, Fits sha t) :
    ∃ a' N, a.flushChunk sha d = some (.ok (a', N.map (FTree.entry sha))) ∧ AdderInv sha c bf (ds ++ [d]) a' ∧
      a'.block_buffer = [] ∧ (runT bf (ds ++ [d])).2 = (runT bf ds).2 ++ N ∧ 1 ≤ N.length ∧ N.length ≤ 2 := by
  have hdne : d ≠ [] := by intro h; rw [h] at hd; simp at hd; omega
  have rinv := runT_inv hbf ds
  obtain ⟨⟨⟨A, B⟩, E⟩, hst⟩ : ∃ st, runT bf ds = st := ⟨_, rfl⟩
  have hlinks := inv.links
  have hst2 : runT bf (ds ++ [d]) = addT bf ((A, B), E) d := by rw [runT_snoc, hst]
  have htot : bf < (B ++ [FTree.leaf d]).length → (FTree.node ((B ++ [FTree.leaf d]).take bf)).total sha < U64 := by
    intro h
    have := addT_total hb (by rw [hst]; exact h)
    rwa [hst] at this
  rw [hst] at hlinks rinv ⊢
  simp only at hlinks ⊢
  have hleaf : flushBufferedLeaf sha d a.unflushed_links false =
      (some ((FTree.leaf d).entry sha), pend sha A (B ++ [.leaf d])) := by
    unfold flushBufferedLeaf
    rw [if_neg (by simp [hdne]), leaf_render]
    simp only [FTree.entry, leaf_link, hlinks, pend]
    simp
  have hfull : ∀ x ∈ ds ++ [d], x.length = c := by
    intro x hx
    rcases List.mem_append.1 hx with h | h
    · exact inv.full x h
    · simp only [List.mem_singleton] at h; rw [h]; exact hd
  by_cases hle : (B ++ [FTree.leaf d]).length ≤ bf
  · have hfl := flushLevels_small sha bf A (B ++ [.leaf d]) (by simp) hle
      { pending := pend sha A (B ++ [.leaf d]), reused_links := a.collector.reused_links,
        reused_blocksizes := a.collector.reused_blocksizes } rfl
    refine ⟨{ a with
        collector := { a.collector with branching_factor := bf },
        block_buffer := [], unflushed_links := pend sha A (B ++ [.leaf d]) }, [.leaf d], ?_, ?_, rfl, ?_, ?_, ?_⟩
    · unfold FileAdder.flushChunk
      rw [hleaf]
      simp only [List.map_cons, List.map_nil]
      unfold flushLinks
      rw [inv.bfac, hfl]
    · refine ⟨inv.chunk, rfl, ?_, hfull, by simpa using hc⟩
      rw [hst2]; simp only [addT, if_pos hle]
    · rw [hst2]; simp only [addT, if_pos hle]
    · simp
    · simp
  · have hl : (B ++ [FTree.leaf d]).length = bf + 1 := by
      have := rinv.len; simp only at this; simp at hle ⊢; omega
    have htot' := htot (by rw [hl]; exact Nat.lt_succ_self bf)
    obtain ⟨s', r1, r2, r3⟩ := flushLevels_full sha bf hbf A (B ++ [FTree.leaf d]) hl htot'
      { pending := pend sha A (B ++ [FTree.leaf d]), reused_links := a.collector.reused_links,
        reused_blocksizes := a.collector.reused_blocksizes } rfl
    refine ⟨{ a with
        collector := { branching_factor := bf, reused_links := s'.reused_links, reused_blocksizes := s'.reused_blocksizes },
        block_buffer := [], unflushed_links := s'.pending },
      [FTree.leaf d, FTree.node ((B ++ [FTree.leaf d]).take bf)], ?_, ?_, rfl, ?_, ?_, ?_⟩
    · unfold FileAdder.flushChunk
      rw [hleaf]
      simp only [flushLinks, inv.bfac, r1, r3, List.map_cons, List.map_nil, List.nil_append]
    · refine ⟨inv.chunk, rfl, ?_, hfull, by simpa using hc⟩
      rw [hst2]; simp only [addT, if_neg hle, r2]
    · rw [hst2]; simp only [addT, if_neg hle]
    · simp
    · simp

/-- One `push`. -/
theorem push_ok (sha : Bytes → Bytes) {c bf : Nat} (hbf : 0 < bf) {ds : List Bytes} {a : FileAdder}
    (inv : AdderInv sha c bf ds a) (input : Bytes)
    (hb : ∀ d, ds.flatten ++ d = ds.flatten ++ a.block_buffer ++ input.take (c - a.block_buffer.length) →
      ∀ t ∈ (runT bf (ds ++ [d])).2, Fits sha t) :
    ∃ a' N ds', a.push sha input =
        some (.ok (a', N.map (FTree.entry sha), min input.length (c - a.block_buffer.length))) ∧
      AdderInv sha c bf ds' a' ∧ ds'.flatten ++ a'.block_buffer =
        ds.flatten ++ a.block_buffer ++ input.take (c - a.block_buffer.length) ∧
      (runT bf ds').2 = (runT bf ds).2 ++ N ∧ N.length ≤ 2 := by
  have hsm := inv.small
  have hc : 0 < c := by omega
  have hacc : chunkerAccept a.chunkMax input a.block_buffer =
      .ok (input.take (c - a.block_buffer.length),
        decide (c ≤ a.block_buffer.length + min input.length (c - a.block_buffer.length))) := by
    unfold chunkerAccept
    rw [inv.chunk, if_neg (by omega)]
    simp only
    have e : Nat.min input.length (c - a.block_buffer.length) = min (c - a.block_buffer.length) input.length := by
      show min _ _ = _; omega
    rw [e]
    have e2 : input.take (min (c - a.block_buffer.length) input.length) = input.take (c - a.block_buffer.length) := by
      rw [Nat.min_def]; split
      · rfl
      · rw [List.take_of_length_le (Nat.le_refl _), List.take_of_length_le (by omega)]
    rw [e2, Nat.min_comm]
  have hlen : (input.take (c - a.block_buffer.length)).length = min input.length (c - a.block_buffer.length) := by
    rw [List.length_take, Nat.min_comm]
  by_cases hr : c ≤ a.block_buffer.length + min input.length (c - a.block_buffer.length)
  · have hdl : (a.block_buffer ++ input.take (c - a.block_buffer.length)).length = c := by
      rw [List.length_append, hlen]; omega
    obtain ⟨a', N, e1, e2, e3, e4, -, e6⟩ := flushChunk_ok sha hbf inv hc _ hdl
      (hb _ (by rw [List.append_assoc]))
    refine ⟨a', N, _, ?_, e2, by rw [e3]; simp, e4, e6⟩
    unfold FileAdder.push
    rw [hacc]
    simp only [decide_eq_true hr]
    by_cases he : a.block_buffer = []
    · rw [if_pos ⟨he, trivial⟩]
      have : a.block_buffer ++ input.take (c - a.block_buffer.length) = input.take (c - a.block_buffer.length) := by
        rw [he]; rfl
      rw [this] at e1
      rw [e1]
      simp only [hlen]
    · rw [if_neg (by simp [he])]
      simp only [Bool.true_eq_false, if_false]
      rw [e1]
      simp only [hlen]
  · refine ⟨{ a with block_buffer := a.block_buffer ++ input.take (c - a.block_buffer.length) }, [], ds, ?_, ?_, ?_,
      by simp, by simp⟩
    · unfold FileAdder.push
      rw [hacc]
      simp only [decide_eq_false hr, Bool.false_eq_true, and_false, if_false, if_true, hlen, List.map_nil]
    · refine ⟨inv.chunk, inv.bfac, inv.links, inv.full, ?_⟩
      simp only [List.length_append, hlen]; omega
    · simp

/-- The trees emitted for a content. -/
def treesOf (bf c : Nat) (x : Bytes) : List FTree :=
  emission bf (chunks c x).dropLast ((chunks c x).getLast?.getD [])

/-- The first blocks of the finish phase do not depend on whether the last chunk was already flushed. -/
theorem emission_flushed {bf : Nat} (hbf : 0 < bf) (ds : List Bytes) (d : Bytes) :
    emission bf ds d = (runT bf (ds ++ [d])).2 ++ finishT bf ((runT bf ds).1.1.length + (runT bf ds).1.2.length + 1)
      (runT bf (ds ++ [d])).1.1 (runT bf (ds ++ [d])).1.2 := by
  have rinv := runT_inv hbf ds
  rw [runT_snoc]
  unfold emission
  obtain ⟨⟨⟨A, B⟩, E⟩, hst⟩ : ∃ st, runT bf ds = st := ⟨_, rfl⟩
  rw [hst] at rinv ⊢
  simp only
  unfold addT
  simp only
  split
  · rfl
  · rename_i hgt
    have hl : (B ++ [FTree.leaf d]).length = bf + 1 := by
      have := rinv.len; simp only at this; simp at hgt ⊢; omega
    generalize hR : B ++ [FTree.leaf d] = R at *
    have hRne : R ≠ [] := by rw [← hR]; simp
    have hd1 : (R.drop bf).length = 1 := by simp; omega
    have hdne : R.drop bf ≠ [] := by intro h; rw [h] at hd1; simp at hd1
    have hg1 : groups bf (R.drop bf) = [R.drop bf] := by
      generalize R.drop bf = Q at hd1 hdne
      rw [groups_cons hbf hdne, List.take_of_length_le (by omega), List.drop_of_length_le (by omega)]; rfl
    have hg : groups bf R = [R.take bf, R.drop bf] := by rw [groups_cons hbf hRne, hg1]
    simp only [finishT]
    rw [if_neg (by omega), if_neg (by simp; omega), hg, hg1]
    simp

theorem finish_ok (sha : Bytes → Bytes) {c bf : Nat} (hbf : 2 ≤ bf) {ds : List Bytes} {a : FileAdder}
    (inv : AdderInv sha c bf ds a)
    (hb : ∀ t ∈ treesOf bf c (ds.flatten ++ a.block_buffer), Fits sha t) :
    ∃ N, a.finish sha = some (.ok (N.map (FTree.entry sha))) ∧
      (runT bf ds).2 ++ N = treesOf bf c (ds.flatten ++ a.block_buffer) := by
  have hc : 0 < c := by have := inv.small; omega
  have hlinks := inv.links
  have rinv := runT_inv (show 0 < bf by omega) ds
  have hgr := groups_append_full hc ds inv.full a.block_buffer
  by_cases hbuf : a.block_buffer = [] ∧ ds ≠ []
  · -- everything was already flushed
    obtain ⟨he, hds⟩ := hbuf
    obtain ⟨ds0, d, hdsd⟩ : ∃ x y, ds = x ++ [y] :=
      ⟨ds.dropLast, ds.getLast hds, (List.dropLast_concat_getLast hds).symm⟩
    have hxne : ds.flatten ++ a.block_buffer ≠ [] := by
      intro h
      have : d.length = c := inv.full d (by rw [hdsd]; simp)
      have h2 := congrArg List.length h
      rw [hdsd] at h2
      simp only [List.flatten_append, List.flatten_cons, List.flatten_nil, List.length_append, List.length_nil] at h2
      omega
    have htr : treesOf bf c (ds.flatten ++ a.block_buffer) = emission bf ds0 d := by
      unfold treesOf chunks
      rw [if_neg hxne, hgr, he, groups_nil, List.append_nil, hdsd]
      simp
    rw [htr] at hb ⊢
    have hem := emission_flushed (show 0 < bf by omega) ds0 d
    rw [← hdsd] at hem
    have rinv0 := runT_inv (show 0 < bf by omega) ds0
    have hRne : (runT bf ds).1.2 ≠ [] := rinv.ne hds
    have hlinksne : a.unflushed_links ≠ [] := by
      rw [hlinks]; simp [pend, hRne]
    have hfuel : (runT bf ds).1.1.length + (runT bf ds).1.2.length ≤
        (runT bf ds0).1.1.length + (runT bf ds0).1.2.length + 1 := by
      rw [hdsd, runT_snoc]
      unfold addT
      simp only
      split
      · simp; omega
      · simp; omega
    obtain ⟨s', r1, r2, -⟩ := flushLevels_finish sha bf hbf _ 0 (runT bf ds).1.1 (runT bf ds).1.2
      { pending := a.unflushed_links, reused_links := a.collector.reused_links,
        reused_blocksizes := a.collector.reused_blocksizes } hRne
      (finishT_fits fun t ht => hb t (by rw [hem]; exact List.mem_append_right _ ht)) (.inr hfuel) hlinks
    refine ⟨_, ?_, hem.symm⟩
    unfold FileAdder.finish flushBufferedLeaf
    rw [if_pos ⟨he, .inr hlinksne⟩]
    simp only [flushLinks, inv.bfac, r1, r2]
    simp
  · -- a leaf is flushed now
    have htr : treesOf bf c (ds.flatten ++ a.block_buffer) = emission bf ds a.block_buffer := by
      unfold treesOf chunks
      by_cases he : a.block_buffer = []
      · have hds : ds = [] := Decidable.byContradiction fun h => hbuf ⟨he, h⟩
        subst hds; rw [he]; rfl
      · rw [if_neg (by simp [he]), hgr]
        have : groups c a.block_buffer = [a.block_buffer] := by
          have := inv.small
          rw [groups_cons hc he, List.take_of_length_le (by omega), List.drop_of_length_le (by omega)]; rfl
        rw [this]; simp
    rw [htr] at hb ⊢
    have hcond : ¬ (a.block_buffer = [] ∧ (true = false ∨ a.unflushed_links ≠ [])) := by
      rintro ⟨he, h | h⟩
      · cases h
      · have hds : ds = [] := Decidable.byContradiction fun h => hbuf ⟨he, h⟩
        subst hds
        exact h (by rw [hlinks]; rfl)
    have hleaf : flushBufferedLeaf sha a.block_buffer a.unflushed_links true =
        (some ((FTree.leaf a.block_buffer).entry sha),
          pend sha (runT bf ds).1.1 ((runT bf ds).1.2 ++ [.leaf a.block_buffer])) := by
      unfold flushBufferedLeaf
      rw [if_neg hcond, leaf_render]
      simp only [FTree.entry, leaf_link, hlinks, pend]
      simp
    obtain ⟨s', r1, r2, -⟩ := flushLevels_finish sha bf hbf
      ((runT bf ds).1.1.length + (runT bf ds).1.2.length + 1) 0 (runT bf ds).1.1
      ((runT bf ds).1.2 ++ [.leaf a.block_buffer])
      { pending := pend sha (runT bf ds).1.1 ((runT bf ds).1.2 ++ [.leaf a.block_buffer]),
        reused_links := a.collector.reused_links,
        reused_blocksizes := a.collector.reused_blocksizes } (by simp)
      (finishT_fits fun t ht => hb t (by unfold emission; exact List.mem_append_right _ ht)) (.inr (by simp; omega)) rfl
    refine ⟨.leaf a.block_buffer :: finishT bf ((runT bf ds).1.1.length + (runT bf ds).1.2.length + 1)
      (runT bf ds).1.1 ((runT bf ds).1.2 ++ [.leaf a.block_buffer]), ?_, ?_⟩
    · unfold FileAdder.finish
      rw [hleaf]
      simp only [flushLinks, inv.bfac, r1, r2]
      simp
    · unfold emission; simp

end Verif
