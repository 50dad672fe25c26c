import Verif.Spec.Sharing
import Verif.Props.AdderExact
/-
C117: which blocks two files share.
-/
namespace Verif.Props
open Verif Verif.Spec

/-! ### pieces -/

theorem groups_map {α β : Type} {n : Nat} (hn : 0 < n) (f : α → β) (l : List α) : groups n (l.map f) = (groups n l).map (List.map f) := by
  induction l using groups_induct hn with
  | h0 => rfl
  | h1 l hl ih =>
    rw [groups_cons hn hl, groups_cons hn (by simpa using hl), ← List.map_take, ← List.map_drop, ih]
    rfl

theorem groups_take_drop {α : Type} {m : Nat} (hm : 0 < m) (n : Nat) : ∀ l : List α,
    (groups m l).take n = groups m (l.take (m * n)) ∧ (groups m l).drop n = groups m (l.drop (m * n)) := by
  induction n with
  | zero => intro l; simp
  | succ n ih =>
    intro l
    by_cases hl : l = []
    · subst hl; simp
    · have hp := List.length_pos_iff.2 hl
      obtain ⟨h1, h2⟩ := ih (l.drop m)
      have hne : l.take (m * (n + 1)) ≠ [] := by
        intro h
        have := congrArg List.length h
        rw [List.length_take, Nat.mul_succ] at this
        simp only [List.length_nil] at this
        omega
      rw [groups_cons hm hl, List.take_succ_cons, List.drop_succ_cons, h1, h2, groups_cons hm hne, List.take_take, List.drop_take,
        List.drop_drop, Nat.mul_succ]
      refine ⟨?_, ?_⟩
      · rw [Nat.min_eq_left (by omega), Nat.add_sub_cancel]
      · rw [Nat.add_comm m]

theorem groups_groups {α : Type} {m n : Nat} (hm : 0 < m) (hn : 0 < n) (l : List α) :
    groups n (groups m l) = (groups (m * n) l).map (groups m) := by
  induction l using groups_induct (Nat.mul_pos hm hn) with
  | h0 => rfl
  | h1 l hl ih =>
    rw [groups_cons hn (groups_ne_nil hm hl), (groups_take_drop hm n l).1, (groups_take_drop hm n l).2, ih,
      groups_cons (Nat.mul_pos hm hn) hl]
    rfl

theorem chunks_chunks {m n : Nat} (hm : 0 < m) (hn : 0 < n) (x : Bytes) : groups n (chunks m x) = (chunks (m * n) x).map (chunks m) := by
  by_cases hx : x = []
  · subst hx
    simp only [chunks, if_true, List.map_cons, List.map_nil]
    rw [groups_cons hn (by simp), List.take_of_length_le (show [[]].length ≤ n from hn), List.drop_of_length_le (show [[]].length ≤ n from hn), groups_nil]
  · unfold chunks
    rw [if_neg hx, if_neg hx, groups_groups hm hn]
    refine List.map_congr_left fun g hg => ?_
    have := (groups_mem (Nat.mul_pos hm hn) x g hg).1
    rw [if_neg (fun h => by rw [h] at this; simp at this)]

theorem chunks_one_iff {s : Nat} (hs : 0 < s) (x : Bytes) : (chunks s x).length = 1 ↔ x.length ≤ s := by
  by_cases hx : x = []
  · subst hx; simp [chunks]
  · unfold chunks
    rw [if_neg hx]
    have h1 := groups_length hs x
    have h2 := h1.2 hx
    constructor
    · intro h
      have := h1.1
      rw [h, Nat.mul_one] at this
      exact this
    · intro h
      rw [groups_cons hs hx, List.drop_of_length_le h, groups_nil]
      rfl

theorem span_succ (c bf k : Nat) : span c bf (k + 1) = span c bf k * bf := by
  unfold span
  rw [Nat.pow_succ, Nat.mul_assoc]

theorem span_pos {c bf : Nat} (hc : 0 < c) (hbf : 0 < bf) (k : Nat) : 0 < span c bf k := Nat.mul_pos hc (Nat.pow_pos hbf)

theorem range_flatMap {α : Type} (n : Nat) (f : Nat → List α) :
    (List.range (n + 1)).flatMap f = f 0 ++ (List.range n).flatMap (fun j => f (j + 1)) := by
  rw [List.range_succ_eq_map, List.flatMap_cons, List.flatMap_map]

/-- The subtrees at one level. -/
def level (c bf : Nat) (x : Bytes) (k : Nat) : List FTree := (chunks (span c bf k) x).map (pieceTree c bf k)

theorem level_up {c bf : Nat} (hc : 0 < c) (hbf : 0 < bf) (x : Bytes) (k : Nat) :
    (groups bf (level c bf x k)).map .node = level c bf x (k + 1) := by
  unfold level
  rw [groups_map hbf, chunks_chunks (span_pos hc hbf k) hbf, ← span_succ, List.map_map, List.map_map]
  rfl

theorem layered_levels {c bf : Nat} (hc : 0 < c) (hbf : 0 < bf) (x : Bytes) {ts : List FTree} {T : FTree} (h : Layered bf ts T) :
    ∀ k, ts = level c bf x k → ∃ n, (level c bf x (k + n)) = [T] ∧ (∀ j, j < n → span c bf (k + j) < x.length) ∧
      T.nodes.Perm (ts.flatMap FTree.nodes ++ (List.range n).flatMap (fun j => level c bf x (k + 1 + j))) := by
  induction h with
  | one T =>
    intro k hk
    exact ⟨0, hk.symm, nofun, by simp⟩
  | @up ts T h2 _ ih =>
    intro k hk
    subst hk
    obtain ⟨n, h3, h4, h5⟩ := ih (k + 1) (level_up hc hbf x k)
    refine ⟨n + 1, by rw [← h3]; congr 1; omega, ?_, ?_⟩
    · intro j hj
      cases j with
      | zero =>
        have : ¬ (chunks (span c bf k) x).length = 1 := by
          intro h
          rw [level, List.length_map] at h2
          omega
        rw [chunks_one_iff (span_pos hc hbf k)] at this
        simpa using this
      | succ j =>
        have := h4 j (by omega)
        rw [show k + (j + 1) = k + 1 + j by omega]
        exact this
    · refine h5.trans ?_
      rw [range_flatMap, ← List.append_assoc]
      refine List.Perm.append ?_ (List.Perm.of_eq ?_)
      · refine (perm_nodes_groups _).symm.trans ?_
        rw [groups_flatten hbf, level_up hc hbf]
      · congr 1
        funext j
        rw [show k + 1 + 1 + j = k + 1 + (j + 1) by omega]

theorem balanced_levels {c bf : Nat} (hc : 0 < c) (hbf : 0 < bf) {x : Bytes} {T : FTree} (h : BalancedTree c bf x T) :
    ∃ n, RootLevel c bf x n ∧ T = pieceTree c bf n x ∧ T.nodes.Perm ((List.range (n + 1)).flatMap (level c bf x)) := by
  have h0 : (chunks c x).map FTree.leaf = level c bf x 0 := by
    unfold level span
    rw [Nat.pow_zero, Nat.mul_one]
    rfl
  obtain ⟨n, h1, h2, h3⟩ := layered_levels hc hbf x h 0 h0
  have hx : x.length ≤ span c bf n := by
    rw [← chunks_one_iff (span_pos hc hbf n)]
    have := congrArg List.length h1
    rw [level, List.length_map, Nat.zero_add] at this
    exact this
  refine ⟨n, ⟨hx, fun k hk => by simpa using h2 k hk⟩, ?_, ?_⟩
  · rw [Nat.zero_add, level] at h1
    have hf := chunks_flatten (span_pos hc hbf n) x
    cases hch : chunks (span c bf n) x with
    | nil => rw [hch] at h1; cases h1
    | cons d ds =>
      rw [hch] at h1 hf
      simp only [List.map_cons, List.cons.injEq, List.map_eq_nil_iff] at h1
      rw [h1.2] at hf
      rw [← h1.1]
      simp only [List.flatten_cons, List.flatten_nil, List.append_nil] at hf
      rw [hf]
  · refine h3.trans ?_
    rw [range_flatMap]
    refine List.Perm.append (List.Perm.of_eq ?_) (List.Perm.of_eq ?_)
    · rw [← h0]
      induction chunks c x with
      | nil => rfl
      | cons d ds ih => rw [List.map_cons, List.flatMap_cons, ih]; rfl
    · congr 1
      funext j
      rw [show 0 + 1 + j = j + 1 by omega]

/-! ### C117 -/

theorem rootLevel_unique {c bf : Nat} {x : Bytes} {h h' : Nat} (hr : RootLevel c bf x h) (hr' : RootLevel c bf x h') : h = h' := by
  rcases Nat.lt_trichotomy h h' with hl | hl | hl
  · have := hr'.2 h hl
    have := hr.1
    omega
  · exact hl
  · have := hr.2 h' hl
    have := hr'.1
    omega

/-- C117. The blocks of an added content, exactly: at every level up to that of the root one block for each piece of the content of as many
bytes as a full block of the level spans, and it depends on nothing but the level and these bytes. The last one is the root. -/
theorem C117_blocks (sha : Bytes → Bytes) (c bf : Nat) (hc : 0 < c) (hbf : 0 < bf) (x : Bytes) (blocks : List (Cid × Bytes))
    (h : Adds sha c bf x blocks) : ∃ n, RootLevel c bf x n ∧ (∀ n', RootLevel c bf x n' → n' = n) ∧
      blocks.Perm ((List.range (n + 1)).flatMap (levelBlocks sha c bf x)) ∧
      blocks.getLast? = some ((pieceTree c bf n x).entry sha) := by
  obtain ⟨T, h1, -, h2, h3⟩ := C70_tree sha c bf hc hbf x blocks h
  obtain ⟨n, h4, rfl, h5⟩ := balanced_levels hc hbf h1
  refine ⟨n, h4, fun n' h' => rootLevel_unique h' h4, (h2.trans (h5.map _)).trans (List.Perm.of_eq ?_), h3⟩
  rw [List.map_flatMap]
  congr 1
  funext k
  rw [level, levelBlocks, List.map_map]
  rfl

/-! ### counting -/

/-- The piece number `i`. -/
def piece (s : Nat) (x : Bytes) (i : Nat) : Bytes := (x.drop (i * s)).take s

theorem groups_range {s : Nat} (hs : 0 < s) (x : Bytes) : groups s x = (List.range (groups s x).length).map (piece s x) := by
  induction x using groups_induct hs with
  | h0 => rfl
  | h1 x hx ih =>
    rw [groups_cons hs hx, List.length_cons, List.range_succ_eq_map, List.map_cons, List.map_map]
    congr 1
    · simp [piece]
    · rw [ih, List.length_map, List.length_range]
      refine List.map_congr_left fun i _ => ?_
      simp only [piece, Function.comp, List.drop_drop, Nat.succ_mul]
      rw [Nat.add_comm s]

theorem chunks_range {s : Nat} (hs : 0 < s) (x : Bytes) : chunks s x = (List.range (chunks s x).length).map (piece s x) := by
  by_cases hx : x = []
  · subst hx; simp [chunks, piece]
  · unfold chunks
    rw [if_neg hx]
    exact groups_range hs x

/-- How many pieces there are. -/
theorem chunks_count {s : Nat} (hs : 0 < s) (x : Bytes) : (chunks s x).length = max 1 ((x.length + s - 1) / s) := by
  by_cases hx : x = []
  · subst hx
    simp only [chunks, if_true, List.length_cons, List.length_nil, Nat.zero_add]
    rw [Nat.div_eq_of_lt (by omega)]
    rfl
  · have hp := List.length_pos_iff.2 hx
    unfold chunks
    rw [if_neg hx]
    obtain ⟨h1, h2⟩ := groups_length hs x
    have h2 := h2 hx
    have hq : 0 < (groups s x).length := List.length_pos_iff.2 (groups_ne_nil hs hx)
    obtain ⟨q, hq⟩ : ∃ q, (groups s x).length = q + 1 := ⟨_, (Nat.succ_pred_eq_of_pos hq).symm⟩
    rw [hq] at h1 h2 ⊢
    rw [Nat.add_sub_cancel] at h2
    have : (x.length + s - 1) / s = q + 1 := by
      rw [Nat.div_eq_iff hs, Nat.add_mul, Nat.mul_comm q]
      rw [Nat.mul_succ] at h1
      omega
    rw [this]
    omega

theorem filter_range_le (p : Nat → Bool) (a b : Nat) (n : Nat) (h : ∀ i, i < n → p i = true → a ≤ i ∧ i < b) :
    ((List.range n).filter p).length ≤ min n b - a := by
  induction n with
  | zero => simp
  | succ n ih =>
    have := ih (fun i hi => h i (by omega))
    rw [List.range_succ, List.filter_append, List.length_append]
    by_cases hp : p n = true
    · have := h n (by omega) hp
      simp only [List.filter_cons, hp, if_true, List.filter_nil, List.length_cons, List.length_nil]
      omega
    · simp only [List.filter_cons, hp, List.filter_nil]
      simp only [Bool.false_eq_true, if_false, List.length_nil]
      omega

theorem sum_le (f g : Nat → Nat) : ∀ l : List Nat, (∀ k ∈ l, f k ≤ g k) → (l.map f).sum ≤ (l.map g).sum
  | [], _ => by simp
  | k :: l, h => by
    have h1 := h k (by simp)
    have h2 := sum_le f g l (fun k hk => h k (by simp [hk]))
    simp only [List.map_cons, List.sum_cons]
    omega

/-- Counting the new blocks level by level. -/
theorem new_le {sha : Bytes → Bytes} {c bf : Nat} (hc : 0 < c) (hbf : 0 < bf) {z : Bytes} {n : Nat} {blocks there : List (Cid × Bytes)}
    (hp : blocks.Perm ((List.range (n + 1)).flatMap (levelBlocks sha c bf z))) (a b : Nat → Nat)
    (h : ∀ k, k ≤ n → ∀ i, i < (chunks (span c bf k) z).length → (pieceTree c bf k (piece (span c bf k) z i)).entry sha ∉ there →
      a k ≤ i ∧ i < b k) :
    (newBlocks blocks there).length ≤ ((List.range (n + 1)).map (fun k => min (chunks (span c bf k) z).length (b k) - a k)).sum := by
  unfold newBlocks
  rw [(hp.filter _).length_eq, List.filter_flatMap, List.length_flatMap]
  refine sum_le _ _ _ fun k hk => ?_
  have hk : k ≤ n := by simpa [Nat.lt_succ_iff] using hk
  unfold levelBlocks
  rw [chunks_range (span_pos hc hbf k) z, List.map_map, List.filter_map, List.length_map, List.length_map, List.length_range]
  refine filter_range_le _ _ _ _ fun i hi hn => h k hk i hi ?_
  simpa using hn

theorem mem_levels {sha : Bytes → Bytes} {c bf : Nat} (hc : 0 < c) (hbf : 0 < bf) {x : Bytes} {n : Nat} {blocks : List (Cid × Bytes)}
    (hp : blocks.Perm ((List.range (n + 1)).flatMap (levelBlocks sha c bf x))) {k i : Nat} (hk : k ≤ n)
    (hi : i < (chunks (span c bf k) x).length) : (pieceTree c bf k (piece (span c bf k) x i)).entry sha ∈ blocks := by
  rw [hp.mem_iff]
  refine List.mem_flatMap.2 ⟨k, by simpa [Nat.lt_succ_iff] using hk, ?_⟩
  unfold levelBlocks
  rw [chunks_range (span_pos hc hbf k) x, List.map_map]
  exact List.mem_map.2 ⟨i, by simpa using hi, rfl⟩

/-- C117. How many blocks there are: at every level as many as pieces, that is the length divided by the span and rounded up, and one for
the empty content. -/
theorem C117_count (sha : Bytes → Bytes) (c bf : Nat) (hc : 0 < c) (hbf : 0 < bf) (x : Bytes) (blocks : List (Cid × Bytes))
    (h : Adds sha c bf x blocks) (n : Nat) (hn : RootLevel c bf x n) :
    blocks.length = ((List.range (n + 1)).map (fun k => max 1 ((x.length + span c bf k - 1) / span c bf k))).sum := by
  obtain ⟨n', -, h1, h2, -⟩ := C117_blocks sha c bf hc hbf x blocks h
  rw [← h1 n hn] at h2
  rw [h2.length_eq, List.length_flatMap]
  congr 1
  refine List.map_congr_left fun k _ => ?_
  rw [levelBlocks, List.length_map, chunks_count (span_pos hc hbf k)]

/-- C117. Equal pieces at the same level have the same block, wherever they are: it is among the blocks of both contents. -/
theorem C117_shared (sha : Bytes → Bytes) (c bf : Nat) (hc : 0 < c) (hbf : 0 < bf) (x y : Bytes) (bx by_ : List (Cid × Bytes))
    (hx : Adds sha c bf x bx) (hy : Adds sha c bf y by_) (n m : Nat) (hn : RootLevel c bf x n) (hm : RootLevel c bf y m) (k : Nat)
    (hkn : k ≤ n) (hkm : k ≤ m) (d : Bytes) (hdx : d ∈ chunks (span c bf k) x) (hdy : d ∈ chunks (span c bf k) y) :
    (pieceTree c bf k d).entry sha ∈ bx ∧ (pieceTree c bf k d).entry sha ∈ by_ := by
  have key : ∀ (z : Bytes) (bz : List (Cid × Bytes)) (l : Nat), Adds sha c bf z bz → RootLevel c bf z l → k ≤ l → d ∈ chunks (span c bf k) z →
      (pieceTree c bf k d).entry sha ∈ bz := by
    intro z bz l hz hl hk hd
    obtain ⟨l', -, h1, h2, -⟩ := C117_blocks sha c bf hc hbf z bz hz
    rw [← h1 l hl] at h2
    rw [h2.mem_iff]
    exact List.mem_flatMap.2 ⟨k, by simpa [Nat.lt_succ_iff] using hk, List.mem_map.2 ⟨d, hd, rfl⟩⟩
  exact ⟨key x bx n hx hn hkn hdx, key y by_ m hy hm hkm hdy⟩

theorem piece_append {s : Nat} {w : Bytes} (i : Nat) (h : (i + 1) * s ≤ w.length) (u : Bytes) : piece s (w ++ u) i = piece s w i := by
  unfold piece
  rw [Nat.succ_mul] at h
  rw [List.drop_append_of_le_length (by omega), List.take_append_of_le_length (by rw [List.length_drop]; omega)]

/-- C117. Contents with a common beginning `w`: when the blocks of the one are stored, then of the other, at each level, all but as many as
there are whole pieces in `w` have to be stored. -/
theorem C117_prefix (sha : Bytes → Bytes) (c bf : Nat) (hc : 0 < c) (hbf : 0 < bf) (w u v : Bytes) (old blocks : List (Cid × Bytes))
    (ho : Adds sha c bf (w ++ u) old) (h : Adds sha c bf (w ++ v) blocks) (n : Nat) (hn : RootLevel c bf (w ++ v) n) :
    (newBlocks blocks old).length ≤ ((List.range (n + 1)).map (fun k =>
      max 1 (((w ++ v).length + span c bf k - 1) / span c bf k) - w.length / span c bf k)).sum := by
  obtain ⟨n', -, h1, h2, -⟩ := C117_blocks sha c bf hc hbf _ blocks h
  rw [← h1 n hn] at h2
  obtain ⟨m, h3, -, h4, -⟩ := C117_blocks sha c bf hc hbf _ old ho
  refine Nat.le_trans (new_le hc hbf h2 (fun k => w.length / span c bf k) (fun k => (chunks (span c bf k) (w ++ v)).length) ?_) ?_
  · intro k hk i hi hnot
    refine ⟨?_, hi⟩
    rcases Nat.lt_or_ge i (w.length / span c bf k) with hlt | hge
    · exfalso
      have hs := span_pos hc hbf k
      have hle : (i + 1) * span c bf k ≤ w.length := (Nat.le_div_iff_mul_le hs).1 hlt
      have hlen : w.length ≤ (w ++ u).length := by simp
      have hkm : k ≤ m := by
        rcases Nat.lt_or_ge m k with hmk | hkm
        · exfalso
          have e1 := h3.1
          have e2 := hn.2 m (by omega)
          have e3 : span c bf k ≤ w.length := by
            rw [Nat.succ_mul] at hle
            omega
          have e4 : span c bf (m + 1) ≤ span c bf k := by
            unfold span
            exact Nat.mul_le_mul_left _ (Nat.pow_le_pow_right hbf hmk)
          rcases Nat.lt_or_ge (m + 1) k with h5 | h5
          · have := hn.2 (m + 1) (by omega)
            rw [span_succ] at e4
            by_cases hb : bf = 1
            · have hs1 : ∀ j, span c bf j = c := by intro j; simp [span, hb]
              have := hn.2 m (by omega)
              have h6 := hn.1
              rw [hs1] at this h6
              omega
            · have : span c bf m * 2 ≤ span c bf m * bf := Nat.mul_le_mul_left _ (by omega)
              have := span_pos hc hbf m
              omega
          · rw [span_succ] at e4
            by_cases hb : bf = 1
            · have hs1 : ∀ j, span c bf j = c := by intro j; simp [span, hb]
              have h6 := hn.1
              rw [hs1] at e2 h6
              omega
            · have : span c bf m * 2 ≤ span c bf m * bf := Nat.mul_le_mul_left _ (by omega)
              have := span_pos hc hbf m
              omega
        · exact hkm
      refine hnot ?_
      rw [piece_append i hle v, ← piece_append i hle u]
      refine mem_levels hc hbf h4 hkm ?_
      have hne : w ++ u ≠ [] := by
        intro h0
        rw [h0] at hlen
        rw [Nat.succ_mul] at hle
        simp only [List.length_nil] at hlen
        omega
      have := (groups_length hs (w ++ u)).1
      unfold chunks
      rw [if_neg hne]
      rw [Nat.mul_comm] at this
      have h8 : (i + 1) * span c bf k ≤ (groups (span c bf k) (w ++ u)).length * span c bf k := by omega
      exact Nat.le_of_mul_le_mul_right h8 hs
    · exact hge
  · refine sum_le _ _ _ fun k _ => ?_
    rw [Nat.min_self, chunks_count (span_pos hc hbf k)]
    exact Nat.le_refl _

/-- C117. What is appended to a content makes at most one of its blocks superfluous at each level, and none at a level where it consists of
whole pieces. -/
theorem C117_append (sha : Bytes → Bytes) (c bf : Nat) (hc : 0 < c) (hbf : 0 < bf) (x y : Bytes) (hx0 : x ≠ []) (bx bxy : List (Cid × Bytes))
    (hx : Adds sha c bf x bx) (hxy : Adds sha c bf (x ++ y) bxy) (n : Nat) (hn : RootLevel c bf x n) :
    (newBlocks bx bxy).length ≤ ((List.range (n + 1)).filter (fun k => decide (x.length % span c bf k ≠ 0))).length := by
  have h := C117_prefix sha c bf hc hbf x y [] bxy bx hxy (by simpa using hx) n (by simpa using hn)
  refine Nat.le_trans h ?_
  rw [List.append_nil]
  generalize List.range (n + 1) = l
  induction l with
  | nil => simp
  | cons k l ih =>
    rw [List.map_cons, List.sum_cons, List.filter_cons]
    have hs := span_pos hc hbf k
    have hp := List.length_pos_iff.2 hx0
    have hdiv := Nat.div_add_mod x.length (span c bf k)
    have hlt := Nat.mod_lt x.length hs
    by_cases hm : x.length % span c bf k = 0
    · have hq : (x.length + span c bf k - 1) / span c bf k = x.length / span c bf k := by
        rw [Nat.div_eq_iff hs, Nat.mul_comm]
        omega
      have hq1 : 1 ≤ x.length / span c bf k := by
        rcases Nat.eq_zero_or_pos (x.length / span c bf k) with h0 | h0
        · rw [h0, hm] at hdiv; omega
        · exact h0
      rw [hq, if_neg (by simp [hm])]
      omega
    · have hq : (x.length + span c bf k - 1) / span c bf k = x.length / span c bf k + 1 := by
        rw [Nat.div_eq_iff hs, Nat.add_mul, Nat.mul_comm (x.length / span c bf k)]
        omega
      rw [hq, if_pos (by simp [hm]), List.length_cons, Nat.max_eq_right (Nat.le_add_left 1 _), Nat.add_sub_cancel_left]
      omega

theorem piece_eq {s : Nat} {x y : Bytes} {i : Nat} (h : ∀ j, i * s ≤ j → j < i * s + s → x[j]? = y[j]?) : piece s x i = piece s y i := by
  unfold piece
  refine List.ext_getElem? fun j => ?_
  rw [List.getElem?_take, List.getElem?_take]
  by_cases hj : j < s
  · rw [if_pos hj, if_pos hj, List.getElem?_drop, List.getElem?_drop]
    exact h _ (by omega) (by omega)
  · rw [if_neg hj, if_neg hj]

/-- C117. Contents of the same length which are equal outside of the bytes from `lo` to `hi`: when the blocks of the one are stored, then of
the other, at each level, no more have to be stored than there are pieces with some of these bytes. -/
theorem C117_overwrite (sha : Bytes → Bytes) (c bf : Nat) (hc : 0 < c) (hbf : 0 < bf) (x y : Bytes) (lo hi : Nat) (hlo : lo < hi)
    (hlen : x.length = y.length) (hsame : ∀ j, j < lo ∨ hi ≤ j → x[j]? = y[j]?) (bx by_ : List (Cid × Bytes))
    (hx : Adds sha c bf x bx) (hy : Adds sha c bf y by_) (n : Nat) (hn : RootLevel c bf y n) :
    (newBlocks by_ bx).length ≤ ((List.range (n + 1)).map (fun k => (hi - 1) / span c bf k - lo / span c bf k + 1)).sum := by
  obtain ⟨n', -, h1, h2, -⟩ := C117_blocks sha c bf hc hbf _ by_ hy
  rw [← h1 n hn] at h2
  obtain ⟨m, -, h3, h4, -⟩ := C117_blocks sha c bf hc hbf _ bx hx
  have hm : n = m := h3 n ⟨by rw [hlen]; exact hn.1, fun k hk => by rw [hlen]; exact hn.2 k hk⟩
  subst hm
  refine Nat.le_trans (new_le hc hbf h2 (fun k => lo / span c bf k) (fun k => (hi - 1) / span c bf k + 1) ?_) ?_
  · intro k hk i hi' hnot
    have hs := span_pos hc hbf k
    have hcnt : (chunks (span c bf k) x).length = (chunks (span c bf k) y).length := by rw [chunks_count hs, chunks_count hs, hlen]
    have hmem : piece (span c bf k) x i ≠ piece (span c bf k) y i := by
      intro he
      rw [← he] at hnot
      exact hnot (mem_levels hc hbf h4 hk (by omega))
    constructor
    · rcases Nat.lt_or_ge i (lo / span c bf k) with hlt | hge
      · exfalso
        have hle : (i + 1) * span c bf k ≤ lo := (Nat.le_div_iff_mul_le hs).1 hlt
        rw [Nat.succ_mul] at hle
        exact hmem (piece_eq fun j _ hj => hsame j (.inl (by omega)))
      · exact hge
    · rcases Nat.lt_or_ge ((hi - 1) / span c bf k) i with hlt | hge
      · exfalso
        have hle : hi - 1 < i * span c bf k := (Nat.div_lt_iff_lt_mul hs).1 hlt
        exact hmem (piece_eq fun j hj _ => hsame j (.inr (by omega)))
      · omega
  · refine sum_le _ _ _ fun k _ => ?_
    omega

/-- C117. In particular, overwriting bytes of a single chunk changes at most one block at each level. -/
theorem C117_one_chunk (sha : Bytes → Bytes) (c bf : Nat) (hc : 0 < c) (hbf : 0 < bf) (x y : Bytes) (i : Nat)
    (hlen : x.length = y.length) (hsame : ∀ j, j / c ≠ i → x[j]? = y[j]?) (bx by_ : List (Cid × Bytes))
    (hx : Adds sha c bf x bx) (hy : Adds sha c bf y by_) (n : Nat) (hn : RootLevel c bf y n) : (newBlocks by_ bx).length ≤ n + 1 := by
  have h := C117_overwrite sha c bf hc hbf x y (i * c) (i * c + c) (by omega) hlen (by
    intro j hj
    refine hsame j ?_
    rintro rfl
    have h1 := Nat.div_add_mod j c
    have h2 := Nat.mod_lt j hc
    rw [Nat.mul_comm] at h1
    omega) bx by_ hx hy n hn
  refine Nat.le_trans h ?_
  have hz : ∀ k, (i * c + c - 1) / span c bf k - i * c / span c bf k + 1 = 1 := by
    intro k
    unfold span
    rw [← Nat.div_div_eq_div_mul, ← Nat.div_div_eq_div_mul, Nat.mul_div_cancel _ hc]
    have : (i * c + c - 1) / c = i := by
      rw [Nat.div_eq_iff hc]
      omega
    rw [this]
    omega
  have : ∀ m, ((List.range m).map (fun k => (i * c + c - 1) / span c bf k - i * c / span c bf k + 1)).sum = m := by
    intro m
    induction m with
    | zero => rfl
    | succ m ih => rw [List.range_succ, List.map_append, List.sum_append, ih]; simp [hz]
  rw [this]
  exact Nat.le_refl _

theorem adds_small (sha : Bytes → Bytes) (hsha : ∀ b, (sha b).length = 32) (c bf : Nat) (hc : 0 < c) (hbf : 2 ≤ bf) (x : Bytes)
    (hx : x.length < 2 ^ 50) : ∃ blocks, Adds sha c bf x blocks := by
  obtain ⟨T, hT⟩ := (C70_exists c bf hc (by omega) x).2 (.inl hbf)
  exact (C70_succeeds_iff sha c bf hc (by omega) x).2 ⟨T, hT, C70_small_fits sha hsha c bf hc (by omega) x hx T hT⟩

/-- C117 is not vacuous: four chunks of one byte and a fifth one, two links in a block. All seven blocks of the shorter content are blocks of
the longer one, which has eleven; overwriting the third byte changes three blocks at most. -/
theorem C117_example (sha : Bytes → Bytes) (hsha : ∀ b, (sha b).length = 32) :
    (∃ bx bxy, Adds sha 1 2 [1, 2, 3, 4] bx ∧ Adds sha 1 2 [1, 2, 3, 4, 5] bxy ∧ RootLevel 1 2 [1, 2, 3, 4] 2 ∧
      RootLevel 1 2 [1, 2, 3, 4, 5] 3 ∧ bx.length = 7 ∧ bxy.length = 11 ∧ newBlocks bx bxy = [] ∧ (newBlocks bxy bx).length ≤ 4) ∧
    (∃ bx bz, Adds sha 1 2 [1, 2, 3, 4] bx ∧ Adds sha 1 2 [1, 2, 9, 4] bz ∧ (newBlocks bz bx).length ≤ 3) := by
  obtain ⟨bx, hx⟩ := adds_small sha hsha 1 2 (by decide) (by decide) [1, 2, 3, 4] (by decide)
  obtain ⟨bxy, hxy⟩ := adds_small sha hsha 1 2 (by decide) (by decide) [1, 2, 3, 4, 5] (by decide)
  obtain ⟨bz, hz⟩ := adds_small sha hsha 1 2 (by decide) (by decide) [1, 2, 9, 4] (by decide)
  have hr : RootLevel 1 2 [1, 2, 3, 4] 2 := ⟨by decide, by decide⟩
  have hr' : RootLevel 1 2 [1, 2, 3, 4, 5] 3 := ⟨by decide, by decide⟩
  refine ⟨⟨bx, bxy, hx, hxy, hr, hr', C117_count sha 1 2 (by decide) (by decide) _ _ hx 2 hr,
    C117_count sha 1 2 (by decide) (by decide) _ _ hxy 3 hr', ?_, ?_⟩, bx, bz, hx, hz, ?_⟩
  · have := C117_append sha 1 2 (by decide) (by decide) [1, 2, 3, 4] [5] (by decide) bx bxy hx hxy 2 hr
    exact List.length_eq_zero_iff.1 (Nat.le_zero.1 this)
  · exact C117_prefix sha 1 2 (by decide) (by decide) [1, 2, 3, 4] [] [5] bx bxy hx hxy 3 hr'
  · refine C117_one_chunk sha 1 2 (by decide) (by decide) [1, 2, 3, 4] [1, 2, 9, 4] 2 rfl ?_ bx bz hx hz 2 ⟨by decide, by decide⟩
    intro j hj
    rw [Nat.div_one] at hj
    match j, hj with
    | 0, _ => rfl
    | 1, _ => rfl
    | 2, h => exact absurd rfl h
    | 3, _ => rfl
    | j + 4, _ => rfl

end Verif.Props
