import Verif.AdderRun
/-
Branching factor one: `finish` returns only when there is at most one chunk.
-/
namespace Verif
open Spec

/-- With branching factor one, finishing a level keeps the number of pending links. -/
theorem flushLevel_one (sha : Bytes → Bytes) (level : Nat) (k : Nat) :
    ∀ (start ow : Nat) (s : FlushState) (e : LevelEnd), s.pending.length = start + k → ow + 1 = start →
      (∀ l ∈ s.pending.drop start, l.depth = level) →
      flushLevel sha 1 level true start (some ow) s = some (.ok e) →
      ∃ s' o, e = .next s' (some o) ∧ o + 1 = s.pending.length ∧ s'.pending.length = s.pending.length ∧
        ∀ l ∈ s'.pending, l ∈ s.pending.take start ∨ l.depth = level + 1 := by
  induction k with
  | zero =>
    intro start ow s e hl how hd h
    rw [flushLevel.eq_1, List.drop_of_length_le (by omega)] at h
    simp only [List.findIdx?_nil] at h
    cases h
    refine ⟨s, ow, rfl, by omega, rfl, ?_⟩
    intro l hl'; left; rw [List.take_of_length_le (by omega)]; exact hl'
  | succ k ih =>
    intro start ow s e hl how hd h
    rw [flushLevel.eq_1] at h
    have hf : (s.pending.drop start).findIdx? (fun l => l.depth == level) = some 0 := by
      cases hq : s.pending.drop start with
      | nil => have := congrArg List.length hq; simp at this; omega
      | cons l ls =>
        have := hd l (by rw [hq]; simp)
        simp [List.findIdx?_cons, this]
    rw [hf] at h
    simp only [Nat.zero_add, Bool.true_eq_false, false_and, if_false] at h
    split at h
    · cases h
    · cases h
    · split at h
      · cases h
      · split at h
        · cases h
        · split at h
          · cases h
          · have hmin : Nat.min (start + 1) s.pending.length = start + 1 := by show min _ _ = _; omega
            rw [hmin, how] at h
            obtain ⟨s', o, r1, r2, r3, r4⟩ := ih (start + 1) start _ e (by simp; omega) rfl (by
              intro l hl'
              simp only at hl'
              rw [List.drop_set_of_lt (by omega)] at hl'
              exact hd l (by
                rw [← List.drop_drop] at hl'
                exact List.mem_of_mem_drop hl')) h
            simp only [List.length_set] at r2 r3
            refine ⟨s', o, r1, r2, r3, ?_⟩
            intro l hl'
            rcases r4 l hl' with h5 | h5
            · simp only at h5
              rw [take_set_succ _ _ _ (by omega)] at h5
              rcases List.mem_append.1 h5 with h6 | h6
              · exact .inl h6
              · right
                simp only [List.mem_singleton] at h6
                rw [h6]
            · exact .inr h5

/-- Finishing never returns with at least two pending links of which the ones of the current level come last. -/
theorem flushLevels_one (sha : Bytes → Bytes) (level : Nat) (s : FlushState) (r : Res Unit FlushState)
    (h : flushLevels sha 1 true level s = some r) :
    2 ≤ s.pending.length →
    (∃ a b, s.pending = a ++ b ∧ b ≠ [] ∧ (∀ l ∈ a, l.depth = level + 1) ∧ (∀ l ∈ b, l.depth = level)) →
    ∀ s', r ≠ .ok s' := by
  revert h
  refine flushLevels.partial_correctness sha 1 true
    (motive := fun level s r => 2 ≤ s.pending.length →
      (∃ a b, s.pending = a ++ b ∧ b ≠ [] ∧ (∀ l ∈ a, l.depth = level + 1) ∧ (∀ l ∈ b, l.depth = level)) →
      ∀ s', r ≠ .ok s') ?_ level s r
  clear level s r
  intro f ih level s r h hlen ⟨a, b, hab, hb, ha, hbl⟩
  rw [if_neg (by simp; omega)] at h
  obtain ⟨x, b', rfl⟩ := List.exists_cons_of_ne_nil hb
  -- first step of the level
  have hf : (s.pending.drop 0).findIdx? (fun l => l.depth == level) = some a.length := by
    rw [List.drop_zero, hab]
    exact findIdx_none_then _ a b' x (by intro y hy; simp [ha y hy]) (by simp [hbl x (by simp)])
  have hone : ∀ e, flushLevel sha 1 level true 0 none s = some (.ok e) →
      ∃ s' o, e = .next s' (some o) ∧ o + 1 = s.pending.length ∧ s'.pending.length = s.pending.length ∧
        ∀ l ∈ s'.pending, l.depth = level + 1 := by
    intro e he
    rw [flushLevel.eq_1, hf] at he
    simp only [Nat.add_zero, Bool.true_eq_false, false_and, if_false] at he
    have hplen : s.pending.length = a.length + 1 + b'.length := by rw [hab]; simp; omega
    split at he
    · cases he
    · cases he
    · split at he
      · cases he
      · split at he
        · cases he
        · split at he
          · cases he
          · have hmin : Nat.min (a.length + 1) s.pending.length = a.length + 1 := by show min _ _ = _; omega
            rw [hmin] at he
            obtain ⟨s', o, r1, r2, r3, r4⟩ := flushLevel_one sha level b'.length (a.length + 1) a.length _ e
              (by simp; omega) rfl (by
                intro l hl'
                simp only at hl'
                rw [List.drop_set_of_lt (by omega), hab, drop_add_append _ _ _ _ rfl] at hl'
                exact hbl l (List.mem_of_mem_drop hl')) he
            simp only [List.length_set] at r2 r3
            refine ⟨s', o, r1, r2, r3, ?_⟩
            intro l hl'
            rcases r4 l hl' with h5 | h5
            · simp only at h5
              rw [take_set_succ _ _ _ (by omega)] at h5
              rcases List.mem_append.1 h5 with h6 | h6
              · rw [hab, List.take_left] at h6
                exact ha l h6
              · simp only [List.mem_singleton] at h6
                rw [h6]
            · exact h5
  cases hfl : flushLevel sha 1 level true 0 none s with
  | none => rw [hfl] at h; cases h
  | some q =>
    rw [hfl] at h
    cases q with
    | err e => cases h; intro s' hs; cases hs
    | panic p => cases h; intro s' hs; cases hs
    | ok e =>
      obtain ⟨s', o, rfl, h2, h3, h4⟩ := hone e hfl
      simp only at h
      have htk : s'.pending.take (o + 1) = s'.pending := List.take_of_length_le (by omega)
      rw [htk] at h
      split at h
      · cases h; intro s' hs; cases hs
      · refine ih _ _ _ h ?_ ?_
        · simp only; omega
        · refine ⟨[], s'.pending, rfl, ?_, by simp, h4⟩
          intro hn; rw [hn] at h3; simp at h3; omega

/-- The state after the leaf was flushed in `finish`: which trees are pending. -/
theorem finish_pending (sha : Bytes → Bytes) {c bf : Nat} (hbf : 0 < bf) {ds : List Bytes} {a : FileAdder}
    (inv : AdderInv sha c bf ds a) :
    ∃ leaf G R, flushBufferedLeaf sha a.block_buffer a.unflushed_links true = (leaf, pend sha G R) ∧ R ≠ [] ∧
      bf * G.length + R.length = (chunks c (ds.flatten ++ a.block_buffer)).length ∧
      (G.length + R.length = 1 → (runT bf ds).2.map (FTree.entry sha) ++ leaf.toList =
        (treesOf bf c (ds.flatten ++ a.block_buffer)).map (FTree.entry sha)) := by
  have hc : 0 < c := by have := inv.small; omega
  have rinv := runT_inv hbf ds
  have hgr := groups_append_full hc ds inv.full a.block_buffer
  have hlinks := inv.links
  by_cases hbuf : a.block_buffer = [] ∧ ds ≠ []
  · obtain ⟨he, hds⟩ := hbuf
    have hRne := rinv.ne hds
    refine ⟨none, (runT bf ds).1.1, (runT bf ds).1.2, ?_, hRne, ?_, ?_⟩
    · unfold flushBufferedLeaf
      rw [if_pos ⟨he, .inr (by rw [hlinks]; simp [pend, hRne])⟩, hlinks]
    · obtain ⟨ds0, d, hdsd⟩ : ∃ x y, ds = x ++ [y] :=
        ⟨ds.dropLast, ds.getLast hds, (List.dropLast_concat_getLast hds).symm⟩
      have hxne : ds.flatten ++ a.block_buffer ≠ [] := by
        intro h
        have : d.length = c := inv.full d (by rw [hdsd]; simp)
        have h2 := congrArg List.length h
        rw [hdsd] at h2
        simp only [List.flatten_append, List.flatten_cons, List.flatten_nil, List.length_append, List.length_nil] at h2
        omega
      unfold chunks
      rw [if_neg hxne, hgr, he, groups_nil, List.append_nil, rinv.full]
    · intro h1
      have hpos := List.length_pos_iff.2 hRne
      have hG : (runT bf ds).1.1 = [] := List.length_eq_zero_iff.1 (by omega)
      have hR : (runT bf ds).1.2.length = 1 := by omega
      have hfull := rinv.full
      rw [hG, hR] at hfull
      simp only [List.length_nil, Nat.mul_zero, Nat.zero_add] at hfull
      obtain ⟨d, rfl⟩ := List.length_eq_one_iff.1 hfull.symm
      have hdl := inv.full d (by simp)
      have hdne : d ≠ [] := by intro h; rw [h] at hdl; simp at hdl; omega
      have hch : chunks c ([d].flatten ++ a.block_buffer) = [d] := by
        unfold chunks
        rw [hgr, if_neg (by simp [hdne]), he]; rfl
      unfold treesOf
      rw [hch]
      have : (runT bf [d]).2 = [.leaf d] := by
        show (addT bf (([], []), []) d).2 = _
        unfold addT
        simp only [List.nil_append, List.length_singleton]
        rw [if_pos (by omega)]
      rw [this]
      simp [emission, runT, finishT]
  · refine ⟨some ((FTree.leaf a.block_buffer).entry sha), (runT bf ds).1.1, (runT bf ds).1.2 ++ [.leaf a.block_buffer],
      ?_, by simp, ?_, ?_⟩
    · have hcond : ¬ (a.block_buffer = [] ∧ (true = false ∨ a.unflushed_links ≠ [])) := by
        rintro ⟨he, h | h⟩
        · cases h
        · have hds : ds = [] := Decidable.byContradiction fun h => hbuf ⟨he, h⟩
          subst hds
          exact h (by rw [hlinks]; rfl)
      unfold flushBufferedLeaf
      rw [if_neg hcond, leaf_render]
      simp only [FTree.entry, leaf_link, hlinks, pend]
      simp
    · have hch : chunks c (ds.flatten ++ a.block_buffer) = ds ++ [a.block_buffer] := by
        unfold chunks
        by_cases he : a.block_buffer = []
        · have hds : ds = [] := Decidable.byContradiction fun h => hbuf ⟨he, h⟩
          subst hds; rw [he]; rfl
        · rw [if_neg (by simp [he]), hgr]
          have : groups c a.block_buffer = [a.block_buffer] := by
            have := inv.small
            rw [groups_cons hc he, List.take_of_length_le (by omega), List.drop_of_length_le (by omega)]; rfl
          rw [this]
      rw [hch]
      have := rinv.full
      simp only [List.length_append, List.length_singleton]; omega
    · intro h1
      simp only [List.length_append, List.length_singleton] at h1
      have hfull := rinv.full
      have hG : (runT bf ds).1.1.length = 0 := by omega
      have hR : (runT bf ds).1.2.length = 0 := by omega
      rw [hG, hR] at hfull
      have : ds = [] := List.length_eq_zero_iff.1 (by simpa using hfull.symm)
      subst this
      have hch : chunks c (([] : List Bytes).flatten ++ a.block_buffer) = [a.block_buffer] := by
        unfold chunks
        by_cases he : a.block_buffer = []
        · rw [he]; rfl
        · rw [if_neg (by simp [he]), hgr]
          have := inv.small
          rw [groups_cons hc he, List.take_of_length_le (by omega), List.drop_of_length_le (by omega)]; rfl
      unfold treesOf
      rw [hch]
      simp [emission, runT, finishT]

/-- With a single pending link `finish` returns. -/
theorem finish_one (sha : Bytes → Bytes) {c bf : Nat} (hbf : 0 < bf) {ds : List Bytes} {a : FileAdder}
    (inv : AdderInv sha c bf ds a) (h : (chunks c (ds.flatten ++ a.block_buffer)).length = 1) :
    ∃ bs, a.finish sha = some (.ok bs) ∧ (runT bf ds).2.map (FTree.entry sha) ++ bs =
        (treesOf bf c (ds.flatten ++ a.block_buffer)).map (FTree.entry sha) := by
  obtain ⟨leaf, G, R, h1, h2, h3, h4⟩ := finish_pending sha hbf inv
  have hpos := List.length_pos_iff.2 h2
  have h7 : 1 * G.length ≤ bf * G.length := Nat.mul_le_mul_right _ hbf
  have h5 : G.length + R.length = 1 := by omega
  refine ⟨leaf.toList, ?_, h4 h5⟩
  unfold FileAdder.finish
  rw [h1]
  simp only [flushLinks]
  rw [flushLevels.eq_1, if_pos (.inl ⟨by simpa [pend] using h5, rfl⟩)]
  simp

/-- With branching factor one and more than one chunk `finish` never returns. -/
theorem finish_stuck (sha : Bytes → Bytes) {c : Nat} {ds : List Bytes} {a : FileAdder}
    (inv : AdderInv sha c 1 ds a) (h : (chunks c (ds.flatten ++ a.block_buffer)).length ≠ 1) (bs : List (Cid × Bytes)) :
    a.finish sha ≠ some (.ok bs) := by
  obtain ⟨leaf, G, R, h1, h2, h3, -⟩ := finish_pending sha (by decide) inv
  have hpos := List.length_pos_iff.2 h2
  intro hf
  unfold FileAdder.finish at hf
  rw [h1] at hf
  simp only [flushLinks, inv.bfac] at hf
  split at hf
  · cases hf
  · cases hf
  · cases hf
  · rename_i hq
    split at hq
    · cases hq
    · cases hq
    · cases hq
    · rename_i s hs
      refine flushLevels_one sha 0 _ _ hs (by simp [pend]; omega)
        ⟨G.map (lk sha 1), R.map (lk sha 0), rfl, by simpa using h2, ?_, ?_⟩ s rfl
      · intro l hl; obtain ⟨t, -, rfl⟩ := List.mem_map.1 hl; rfl
      · intro l hl; obtain ⟨t, -, rfl⟩ := List.mem_map.1 hl; rfl

/-- What a completed addition returned, for every configuration. -/
theorem adds_trees {sha : Bytes → Bytes} {c bf : Nat} (hc : 0 < c) (hbf : 0 < bf)
    {x : Bytes} {blocks : List (Cid × Bytes)} (h : Adds sha c bf x blocks) :
    blocks = (treesOf bf c x).map (FTree.entry sha) ∧ (2 ≤ bf ∨ (chunks c x).length = 1) ∧
      ∀ t ∈ treesOf bf c x, Fits sha t := by
  obtain ⟨bs, a, bs', h1, h2, rfl⟩ := h
  obtain ⟨ds, inv, rfl, rfl, hf⟩ := reaches_inv hc hbf h1
  by_cases hb : 2 ≤ bf
  · by_cases hall : ∀ t ∈ treesOf bf c (ds.flatten ++ a.block_buffer), Fits sha t
    · obtain ⟨N, e1, e2⟩ := finish_ok sha hb inv hall
      rw [e1] at h2; cases h2
      exact ⟨by rw [← e2]; simp, .inl hb, hall⟩
    · rw [finish_over sha hb inv hf hall] at h2; cases h2
  · have : bf = 1 := by omega
    subst this
    have hone : (chunks c (ds.flatten ++ a.block_buffer)).length = 1 :=
      Decidable.byContradiction fun hn => finish_stuck sha inv hn bs' h2
    obtain ⟨bs, e1, e2⟩ := finish_one sha hbf inv hone
    rw [e1] at h2; cases h2
    refine ⟨e2, .inr hone, ?_⟩
    obtain ⟨d, hd⟩ := List.length_eq_one_iff.1 hone
    unfold treesOf
    rw [hd]
    intro t ht ts hts
    subst hts
    simp [emission, runT, finishT] at ht

/-- The emitted trees form a balanced tree. -/
theorem treesOf_spec {c bf : Nat} (hc : 0 < c) (x : Bytes) (hb : 2 ≤ bf ∨ (chunks c x).length = 1) (hbf : 0 < bf) :
    ∃ T h, Emitted bf (chunks c x) (treesOf bf c x) T h := by
  have hs := chunks_split hc x
  rcases hb with hb | hb
  · obtain ⟨T, h, e⟩ := emission_spec hb (chunks c x).dropLast ((chunks c x).getLast?.getD [])
    rw [← hs] at e
    exact ⟨T, h, e⟩
  · obtain ⟨d, hd⟩ := List.length_eq_one_iff.1 hb
    unfold treesOf
    rw [hd]
    simp only [List.dropLast_singleton, List.getLast?_singleton, Option.getD_some]
    have : emission bf [] d = [.leaf d] := by simp [emission, runT, finishT]
    rw [this]
    refine ⟨.leaf d, 0, ⟨trivial, ?_, rfl, by simp [FTree.nodes], ?_, rfl, rfl, by simp, .inl rfl⟩⟩
    · intro s hs ts he
      simp only [FTree.nodes, List.mem_singleton] at hs
      subst hs; cases he
    · intro p t s h c hc
      cases p with
      | nil =>
        simp only [List.nil_append, List.cons.injEq] at h
        obtain ⟨rfl, -⟩ := h
        simp [FTree.children] at hc
      | cons y p => simp at h

end Verif
