import Verif.Spec.Asking
import Verif.Props.Sharing
import Verif.Props.Reader
/-
C119: which blocks, and how many, a ranged read of an added file asks for.
-/
namespace Verif.Props
open Verif Verif.Spec

mutual
/-- The subtrees below a tree, each with the interval it covers. -/
def kidsAt : FTree → Nat → List (FTree × Rng)
  | .leaf _, _ => []
  | .node ts, off => kidsAtL ts off
def kidsAtL : List FTree → Nat → List (FTree × Rng)
  | [], _ => []
  | t :: ts, off => ((t, ⟨off, off + t.content.length⟩) :: kidsAt t off) ++ kidsAtL ts (off + t.content.length)
end

mutual
theorem below_kids {sha : Bytes → Bytes} (hsha : ∀ b, (sha b).length = 32) (get : Cid → Option Bytes) : ∀ (t : FTree) (off : Nat),
    (∀ s ∈ t.nodes, FlatUnixFs.tryParse (s.block sha) = .ok (s.msg sha)) → (∀ s ∈ t.nodes, get (s.cid sha) = some (s.block sha)) →
    below get t (t.block sha) off = (kidsAt t off).map (fun p => (p.1.cid sha, p.2))
  | .leaf d, off, _, _ => by simp [below, kidsAt]
  | .node ts, off, hp, hg => by
    rw [below, kidsAt, hp _ (FTree.self_mem_nodes _)]
    simp only
    rw [msg_links]
    exact belowL_kids hsha get ts off (fun s hs => hp s (by simp [FTree.nodes, hs])) (fun s hs => hg s (by simp [FTree.nodes, hs]))
theorem belowL_kids {sha : Bytes → Bytes} (hsha : ∀ b, (sha b).length = 32) (get : Cid → Option Bytes) : ∀ (ts : List FTree) (off : Nat),
    (∀ s ∈ FTree.nodesL ts, FlatUnixFs.tryParse (s.block sha) = .ok (s.msg sha)) →
    (∀ s ∈ FTree.nodesL ts, get (s.cid sha) = some (s.block sha)) →
    belowL get ts (ts.map (plink sha)) off = (kidsAtL ts off).map (fun p => (p.1.cid sha, p.2))
  | [], off, _, _ => by simp [belowL, kidsAtL]
  | t :: ts, off, hp, hg => by
    have hc : Cid.tryFrom ((plink sha t).Hash.getD []) = .ok (t.cid sha) := by
      have := Cid.tryFrom_toBytes _ (cidOf_fits hsha (t.block sha)) []
      simpa [plink, FTree.cid] using this
    have hmem : t ∈ FTree.nodesL (t :: ts) := by simp [FTree.nodesL, FTree.self_mem_nodes]
    rw [List.map_cons, belowL, kidsAtL, hc]
    simp only [hg t hmem, List.map_append, List.map_cons]
    rw [below_kids hsha get t off (fun s hs => hp s (by simp [FTree.nodesL, hs])) (fun s hs => hg s (by simp [FTree.nodesL, hs])),
      belowL_kids hsha get ts _ (fun s hs => hp s (by simp [FTree.nodesL, hs])) (fun s hs => hg s (by simp [FTree.nodesL, hs]))]
end

/-! ### pieces and where they are -/

/-- Consecutive pieces and where they start. -/
def placed (off : Nat) : List Bytes → List (Bytes × Nat)
  | [] => []
  | d :: ds => (d, off) :: placed (off + d.length) ds

theorem placed_append (a b : List Bytes) : ∀ off, placed off (a ++ b) = placed off a ++ placed (off + a.flatten.length) b := by
  induction a with
  | nil => intro off; simp [placed]
  | cons d a ih => intro off; simp only [List.cons_append, placed, ih, List.flatten_cons, List.length_append, Nat.add_assoc]

theorem placed_flatMap (f : Bytes → List Bytes) (hf : ∀ d, (f d).flatten = d) (ds : List Bytes) :
    ∀ off, (placed off ds).flatMap (fun p => placed p.2 (f p.1)) = placed off (ds.flatMap f) := by
  induction ds with
  | nil => intro off; rfl
  | cons d ds ih =>
    intro off
    rw [placed, List.flatMap_cons, List.flatMap_cons, placed_append, ih, hf]

/-- The subtrees at a level, with their intervals. -/
def levelAt (c bf k : Nat) (x : Bytes) (off : Nat) : List (FTree × Rng) :=
  (placed off (chunks (span c bf k) x)).map (fun p => (pieceTree c bf k p.1, ⟨p.2, p.2 + p.1.length⟩))

theorem pieceTree_content {c bf : Nat} (hc : 0 < c) (hbf : 0 < bf) : ∀ (k : Nat) (d : Bytes), (pieceTree c bf k d).content = d
  | 0, d => rfl
  | k + 1, d => by
    rw [pieceTree, FTree.content]
    have : ∀ ds : List Bytes, FTree.contents (ds.map (pieceTree c bf k)) = ds.flatten := by
      intro ds
      induction ds with
      | nil => rfl
      | cons e ds ih => rw [List.map_cons, FTree.contents, ih, pieceTree_content hc hbf k e, List.flatten_cons]
    rw [this, chunks_flatten (span_pos hc hbf k)]

theorem kidsL_placed {c bf : Nat} (hc : 0 < c) (hbf : 0 < bf) (k : Nat) (ds : List Bytes) : ∀ off,
    (kidsAtL (ds.map (pieceTree c bf k)) off).Perm ((placed off ds).map (fun p => (pieceTree c bf k p.1, ⟨p.2, p.2 + p.1.length⟩)) ++
      (placed off ds).flatMap (fun p => kidsAt (pieceTree c bf k p.1) p.2)) := by
  induction ds with
  | nil => intro off; exact List.Perm.refl _
  | cons d ds ih =>
    intro off
    rw [List.map_cons, kidsAtL, placed, List.map_cons, List.flatMap_cons, pieceTree_content hc hbf]
    simp only [List.cons_append]
    refine List.Perm.cons _ ?_
    refine ((List.Perm.refl _).append (ih _)).trans ?_
    rw [← List.append_assoc, ← List.append_assoc]
    exact List.perm_append_comm.append_right _

theorem flatMap_perm {α β : Type} (f g : α → List β) (l : List α) (h : ∀ a ∈ l, (f a).Perm (g a)) : (l.flatMap f).Perm (l.flatMap g) := by
  induction l with
  | nil => exact List.Perm.refl _
  | cons a l ih =>
    rw [List.flatMap_cons, List.flatMap_cons]
    exact (h a (by simp)).append (ih fun b hb => h b (by simp [hb]))

theorem flatMap_append_perm {α β : Type} (f g : α → List β) (l : List α) :
    (l.flatMap (fun a => f a ++ g a)).Perm (l.flatMap f ++ l.flatMap g) := by
  induction l with
  | nil => exact List.Perm.refl _
  | cons a l ih =>
    simp only [List.flatMap_cons]
    refine ((List.Perm.refl _).append ih).trans ?_
    rw [List.append_assoc, List.append_assoc]
    refine (List.Perm.refl _).append ?_
    rw [← List.append_assoc, ← List.append_assoc]
    exact List.perm_append_comm.append_right _

theorem flatMap_swap {α β γ : Type} (f : α → β → List γ) (l : List α) (m : List β) :
    (l.flatMap (fun a => m.flatMap (f a))).Perm (m.flatMap (fun b => l.flatMap (fun a => f a b))) := by
  induction l with
  | nil => simp
  | cons a l ih =>
    rw [List.flatMap_cons]
    refine ((List.Perm.refl _).append ih).trans ?_
    refine (flatMap_append_perm (f a) (fun b => l.flatMap (fun a => f a b)) m).symm.trans ?_
    simp only [List.flatMap_cons]
    exact List.Perm.refl _

theorem span_mul (c bf k j : Nat) : span c bf (k + j) = span c bf k * bf ^ j := by
  unfold span
  rw [Nat.pow_add, Nat.mul_assoc]

/-- The pieces of the pieces are the pieces. -/
theorem chunks_flatMap {c bf : Nat} (hc : 0 < c) (hbf : 0 < bf) (k n : Nat) (hk : k ≤ n) (x : Bytes) :
    (chunks (span c bf n) x).flatMap (chunks (span c bf k)) = chunks (span c bf k) x := by
  obtain ⟨j, rfl⟩ := Nat.le.dest hk
  have hj : 0 < bf ^ j := Nat.pow_pos hbf
  have := chunks_chunks (span_pos hc hbf k) hj x
  rw [← span_mul] at this
  rw [List.flatMap_def, ← this, groups_flatten hj]

theorem kids_levels {c bf : Nat} (hc : 0 < c) (hbf : 0 < bf) (n : Nat) : ∀ (x : Bytes) (off : Nat),
    (kidsAt (pieceTree c bf n x) off).Perm ((List.range n).flatMap (fun k => levelAt c bf k x off)) := by
  induction n with
  | zero => intro x off; exact List.Perm.refl _
  | succ n ih =>
    intro x off
    rw [pieceTree, kidsAt, List.range_succ, List.flatMap_append, List.flatMap_cons, List.flatMap_nil, List.append_nil]
    refine (kidsL_placed hc hbf n _ off).trans (List.perm_append_comm.trans (List.Perm.append ?_ (List.Perm.refl _)))
    refine (flatMap_perm _ _ _ (fun p _ => ih p.1 p.2)).trans ?_
    refine (flatMap_swap (fun (p : Bytes × Nat) k => levelAt c bf k p.1 p.2) _ _).trans ?_
    refine flatMap_perm _ _ _ fun k hk => List.Perm.of_eq ?_
    rw [List.mem_range] at hk
    unfold levelAt
    rw [← List.map_flatMap, placed_flatMap (chunks (span c bf k)) (fun d => chunks_flatten (span_pos hc hbf k) d),
      chunks_flatMap hc hbf k n (by omega)]

theorem piece_length {s : Nat} (x : Bytes) (i : Nat) : (piece s x i).length = min s (x.length - i * s) := by
  simp [piece]

theorem placed_range {s : Nat} (hs : 0 < s) (x : Bytes) (m : Nat) (hm : ∀ i, i + 1 < m → (i + 1) * s ≤ x.length) :
    placed 0 ((List.range m).map (piece s x)) = (List.range m).map (fun i => (piece s x i, i * s)) := by
  induction m with
  | zero => rfl
  | succ m ih =>
    rw [List.range_succ, List.map_append, List.map_append, placed_append, ih (fun i hi => hm i (by omega))]
    congr 1
    simp only [List.map_cons, List.map_nil, placed, Nat.zero_add]
    congr 2
    clear ih
    have hall : ∀ i, i < m → (piece s x i).length = s := by
      intro i hi
      have := hm i (by omega)
      rw [Nat.succ_mul] at this
      rw [piece_length]
      omega
    clear hm
    induction m with
    | zero => simp
    | succ m ih2 =>
      rw [List.range_succ, List.map_append, List.flatten_append, List.length_append, ih2 (fun i hi => hall i (by omega))]
      simp only [List.map_cons, List.map_nil, List.flatten_cons, List.flatten_nil, List.append_nil]
      rw [hall m (by omega), Nat.succ_mul]

theorem levelAt_eq {c bf : Nat} (hc : 0 < c) (hbf : 0 < bf) (k : Nat) (x : Bytes) :
    levelAt c bf k x 0 = (List.range (chunks (span c bf k) x).length).map (fun i =>
      (pieceTree c bf k (pieceNo (span c bf k) x i), pieceSpan (span c bf k) x i)) := by
  have hs := span_pos hc hbf k
  generalize hS : span c bf k = s at hs
  have hcount : ∀ i, i < (chunks s x).length → i * s ≤ x.length := by
    intro i hi
    rw [chunks_count hs] at hi
    rcases Nat.lt_or_ge i ((x.length + s - 1) / s) with h | h
    · have := (Nat.le_div_iff_mul_le hs).1 (show i + 1 ≤ _ from h)
      rw [Nat.succ_mul] at this
      omega
    · have : i = 0 := by omega
      subst this; simp
  unfold levelAt
  rw [hS]
  conv => lhs; rw [chunks_range hs x]
  rw [placed_range hs x _ (fun i hi => hcount (i + 1) hi), List.map_map]
  refine List.map_congr_left fun i hi => ?_
  have := hcount i (List.mem_range.1 hi)
  simp only [Function.comp, pieceNo, piece, pieceSpan, Prod.mk.injEq, true_and, Rng.mk.injEq, List.length_take, List.length_drop]
  rw [Nat.succ_mul]
  omega

/-! ### C119 -/

theorem facts_balanced {sha : Bytes → Bytes} {c bf : Nat} (hc : 0 < c) (hbf : 0 < bf) {x : Bytes} {blocks : List (Cid × Bytes)}
    (h : Adds sha c bf x blocks) {T : FTree} {k : Nat} (f : AddFacts sha c bf x blocks (treesOf bf c x) T k) : BalancedTree c bf x T := by
  obtain ⟨-, h2, -⟩ := adds_trees hc hbf h
  have hlast := f.em.last
  rcases h2 with hb | hb
  · obtain ⟨U, h4, h5⟩ := treesOf_layered hc hb x
    rw [h5] at hlast; cases hlast
    exact h4
  · obtain ⟨d, hd⟩ := List.length_eq_one_iff.1 hb
    have h1 : BalancedTree c bf x (.leaf d) := by unfold BalancedTree; rw [hd]; exact .one _
    have : T = .leaf d := by
      unfold treesOf at hlast
      rw [hd] at hlast
      simpa [emission, runT, finishT, eq_comm] using hlast
    rw [this]; exact h1

/-- Everything about an added file: what is below the root, and the blocks. -/
theorem adds_below {sha : Bytes → Bytes} (hsha : ∀ b, (sha b).length = 32) {c bf : Nat} (hc : 0 < c) (hbf : 0 < bf) {x : Bytes}
    {blocks : List (Cid × Bytes)} (h : Adds sha c bf x blocks) (hsmall : BelowLimit blocks) {get : Cid → Option Bytes} (hget : Holds get blocks)
    {n : Nat} (hn : RootLevel c bf x n) :
    ∃ T : FTree, blocks.getLast? = some (T.entry sha) ∧ FileAt get T (T.block sha) ∧ T.content = x ∧ T = pieceTree c bf n x ∧
      (below get T (T.block sha) 0).Perm ((List.range n).flatMap (fun k =>
        (List.range (chunks (span c bf k) x).length).map (fun i => (pieceCid sha c bf x k i, pieceSpan (span c bf k) x i)))) := by
  obtain ⟨T, hT, f⟩ := adds_facts hc hbf h
  have hat := f.fileAt hsha hsmall hget
  have hlast : blocks.getLast? = some (T.entry sha) := by rw [f.blocks, List.getLast?_map, f.em.last]; rfl
  obtain ⟨m, h4, h5, -⟩ := balanced_levels hc hbf (facts_balanced hc hbf h f)
  have := rootLevel_unique h4 hn
  subst this
  refine ⟨T, hlast, hat, f.content, h5, ?_⟩
  rw [below_kids hsha get T 0 (fun s hs => f.parse hsha hsmall hs) (fun s hs => hget (s.entry sha) (by
    rw [f.blocks]; exact List.mem_map_of_mem (f.em.perm.mem_iff.2 hs)))]
  rw [h5]
  refine ((kids_levels hc hbf m x 0).map _).trans (List.Perm.of_eq ?_)
  rw [List.map_flatMap]
  congr 1
  funext k
  rw [levelAt_eq hc hbf, List.map_map]
  rfl

/-- C119. Reading a range of an added file (from any store with its blocks) returns the range, and asks, at every level below that of the root,
for the blocks of the pieces which the range touches (ends included), once for each such piece, and for no others. -/
theorem C119_asks (sha : Bytes → Bytes) (hsha : ∀ b, (sha b).length = 32) (c bf : Nat) (hc : 0 < c) (hbf : 0 < bf) (x : Bytes)
    (blocks : List (Cid × Bytes)) (h : Adds sha c bf x blocks) (hsmall : BelowLimit blocks) (get : Cid → Option Bytes) (hget : Holds get blocks)
    (n : Nat) (hn : RootLevel c bf x n) (r : Rng) :
    ∃ root asked, blocks.getLast? = some root ∧
      readFile get (IdleFileVisit.withTargetRange {} r) root.2 = some (.ok (slice x r, asked)) ∧
      asked.Perm ((List.range n).flatMap (fun k => (touched c bf x r k).map (pieceCid sha c bf x k))) := by
  obtain ⟨T, hlast, hat, hcont, -, hbelow⟩ := adds_below hsha hc hbf h hsmall hget hn
  refine ⟨T.entry sha, ((below get T (T.block sha) 0).filter (fun p => touches r p.2)).map (·.1), hlast, ?_, ?_⟩
  · have := readFile_eq get T _ hat (some r)
    rw [hcont] at this
    exact this
  · refine ((hbelow.filter _).map _).trans (List.Perm.of_eq ?_)
    rw [List.filter_flatMap, List.map_flatMap]
    congr 1
    funext k
    rw [List.filter_map, List.map_map]
    rfl

/-- C119. A read without a range returns the content and asks for every block but the root: once for each piece, so that a block which stands
for several pieces is asked for several times. -/
theorem C119_all (sha : Bytes → Bytes) (hsha : ∀ b, (sha b).length = 32) (c bf : Nat) (hc : 0 < c) (hbf : 0 < bf) (x : Bytes)
    (blocks : List (Cid × Bytes)) (h : Adds sha c bf x blocks) (hsmall : BelowLimit blocks) (get : Cid → Option Bytes) (hget : Holds get blocks) :
    ∃ root asked, blocks.getLast? = some root ∧ readFile get {} root.2 = some (.ok (x, asked)) ∧ (blocks.map (·.1)).Perm (root.1 :: asked) := by
  obtain ⟨n, hn, -, h2, h3⟩ := C117_blocks sha c bf hc hbf x blocks h
  obtain ⟨T, hlast, hat, hcont, hT, hbelow⟩ := adds_below hsha hc hbf h hsmall hget hn
  refine ⟨T.entry sha, (below get T (T.block sha) 0).map (·.1), hlast, ?_, ?_⟩
  · have := readFile_eq get T _ hat none
    rw [reqs, List.filter_eq_self.2 (by intros; rfl), hcont] at this
    exact this
  · refine (h2.map _).trans ?_
    rw [List.range_succ, List.flatMap_append, List.map_append]
    refine List.perm_append_comm.trans ?_
    refine List.Perm.append (l₂ := [(T.entry sha).1]) (List.Perm.of_eq ?_) ?_
    · have h1 : chunks (span c bf n) x = [x] := by
        have h4 := (chunks_one_iff (span_pos hc hbf n) x).2 hn.1
        obtain ⟨d, hd⟩ := List.length_eq_one_iff.1 h4
        have h5 := chunks_flatten (span_pos hc hbf n) x
        rw [hd] at h5 ⊢
        simpa using h5
      simp only [List.flatMap_cons, List.flatMap_nil, List.append_nil, levelBlocks, h1, List.map_cons, List.map_nil, hT]
    · refine List.Perm.trans (List.Perm.of_eq ?_) (hbelow.map _).symm
      rw [List.map_flatMap, List.map_flatMap]
      congr 1
      funext k
      rw [levelBlocks]
      conv => lhs; rw [chunks_range (span_pos hc hbf k) x]
      simp only [List.map_map]
      rfl

theorem touched_le {c bf : Nat} (hc : 0 < c) (hbf : 0 < bf) (x : Bytes) (r : Rng) (k : Nat) :
    (touched c bf x r k).length ≤ r.hi / span c bf k + 1 - ((r.lo + span c bf k - 1) / span c bf k - 1) := by
  have hs := span_pos hc hbf k
  unfold touched
  generalize span c bf k = s at hs
  refine Nat.le_trans (filter_range_le _ ((r.lo + s - 1) / s - 1) (r.hi / s + 1) _ ?_) (by omega)
  intro i hi ht
  have ht : touches r (pieceSpan s x i) = true := ht
  rw [touches, decide_eq_true_eq] at ht
  simp only [pieceSpan] at ht
  obtain ⟨-, h1, h2⟩ := ht
  refine ⟨?_, Nat.lt_succ_of_le ((Nat.le_div_iff_mul_le hs).2 h1)⟩
  have : (r.lo + s - 1) / s < i + 2 := by
    rw [Nat.div_lt_iff_lt_mul hs, Nat.succ_mul]
    omega
  omega

/-- C119. How many blocks are asked for: at every level below the root's no more than there are pieces between the one before the first byte (or at
it) and the one after the last. -/
theorem C119_count (sha : Bytes → Bytes) (hsha : ∀ b, (sha b).length = 32) (c bf : Nat) (hc : 0 < c) (hbf : 0 < bf) (x : Bytes)
    (blocks : List (Cid × Bytes)) (h : Adds sha c bf x blocks) (hsmall : BelowLimit blocks) (get : Cid → Option Bytes) (hget : Holds get blocks)
    (n : Nat) (hn : RootLevel c bf x n) (r : Rng) :
    ∃ root asked, blocks.getLast? = some root ∧
      readFile get (IdleFileVisit.withTargetRange {} r) root.2 = some (.ok (slice x r, asked)) ∧
      asked.length ≤ ((List.range n).map (fun k => r.hi / span c bf k + 1 - ((r.lo + span c bf k - 1) / span c bf k - 1))).sum := by
  obtain ⟨root, asked, h1, h2, h3⟩ := C119_asks sha hsha c bf hc hbf x blocks h hsmall get hget n hn r
  refine ⟨root, asked, h1, h2, ?_⟩
  rw [h3.length_eq, List.length_flatMap]
  refine sum_le _ _ _ fun k _ => ?_
  rw [List.length_map]
  exact touched_le hc hbf x r k

theorem sum_const_le (f : Nat → Nat) (m : Nat) : ∀ l : List Nat, (∀ k ∈ l, f k ≤ m) → (l.map f).sum ≤ m * l.length
  | [], _ => by simp
  | k :: l, h => by
    have h1 := h k (by simp)
    have h2 := sum_const_le f m l (fun k hk => h k (by simp [hk]))
    simp only [List.map_cons, List.sum_cons, List.length_cons, Nat.mul_succ]
    omega

theorem span_ge {c bf : Nat} (hbf : 0 < bf) (k : Nat) : c ≤ span c bf k := Nat.le_mul_of_pos_right _ (Nat.pow_pos hbf)

/-- C119. In particular: a range of no more bytes than a chunk has takes at most three blocks of each level, however large the file is. -/
theorem C119_small (sha : Bytes → Bytes) (hsha : ∀ b, (sha b).length = 32) (c bf : Nat) (hc : 0 < c) (hbf : 0 < bf) (x : Bytes)
    (blocks : List (Cid × Bytes)) (h : Adds sha c bf x blocks) (hsmall : BelowLimit blocks) (get : Cid → Option Bytes) (hget : Holds get blocks)
    (n : Nat) (hn : RootLevel c bf x n) (r : Rng) (hr : r.hi ≤ r.lo + c) :
    ∃ root asked, blocks.getLast? = some root ∧
      readFile get (IdleFileVisit.withTargetRange {} r) root.2 = some (.ok (slice x r, asked)) ∧ asked.length ≤ 3 * n := by
  obtain ⟨root, asked, h1, h2, h3⟩ := C119_count sha hsha c bf hc hbf x blocks h hsmall get hget n hn r
  refine ⟨root, asked, h1, h2, Nat.le_trans h3 ?_⟩
  have := sum_const_le (fun k => r.hi / span c bf k + 1 - ((r.lo + span c bf k - 1) / span c bf k - 1)) 3 (List.range n) ?_
  · rwa [List.length_range] at this
  intro k _
  have hs := span_pos hc hbf k
  have hge := span_ge (c := c) hbf k
  generalize span c bf k = s at hs hge
  have h5 : r.hi / s < (r.lo + s - 1) / s + 2 := by
    have h6 := Nat.div_add_mod (r.lo + s - 1) s
    have h7 := Nat.mod_lt (r.lo + s - 1) hs
    rw [Nat.div_lt_iff_lt_mul hs, Nat.add_mul, Nat.mul_comm]
    omega
  omega

/-- A case: five chunks of one byte, two links in a block, and the byte number 2. The root is at level 3; three leaves, two blocks over them and
one above these are asked for, six of the ten blocks below the root. -/
theorem C119_example : ∃ blocks get, Adds toySha 1 2 [1, 2, 3, 4, 5] blocks ∧ BelowLimit blocks ∧ Holds get blocks ∧ blocks.length = 11 ∧
    RootLevel 1 2 [1, 2, 3, 4, 5] 3 ∧ (List.range 3).map (touched 1 2 [1, 2, 3, 4, 5] ⟨2, 3⟩) = [[1, 2, 3], [0, 1], [0]] ∧
    ∃ root asked, blocks.getLast? = some root ∧
      readFile get (IdleFileVisit.withTargetRange {} ⟨2, 3⟩) root.2 = some (.ok ([3], asked)) ∧ asked.length = 6 := by
  obtain ⟨blocks, get, h1, h2, h3, h4⟩ : ∃ blocks get, Adds toySha 1 2 [1, 2, 3, 4, 5] blocks ∧ BelowLimit blocks ∧ Holds get blocks ∧
      blocks.length = 11 := by
    refine ⟨_, storeOf (treesOf 2 1 [1, 2, 3, 4, 5]), adds_exists toySha_length (by decide) (by decide) _ (by decide), ?_, ?_, ?_⟩
    · unfold BelowLimit
      decide +kernel
    · unfold Holds
      decide +kernel
    · decide +kernel
  have hn : RootLevel 1 2 [1, 2, 3, 4, 5] 3 := ⟨by decide, by decide⟩
  obtain ⟨root, asked, h5, h6, h7⟩ := C119_asks toySha toySha_length 1 2 (by decide) (by decide) _ blocks h1 h2 get h3 3 hn ⟨2, 3⟩
  refine ⟨blocks, get, h1, h2, h3, h4, hn, by decide +kernel, root, asked, h5, h6, ?_⟩
  rw [h7.length_eq, List.length_flatMap]
  simp only [List.length_map]
  decide +kernel

end Verif.Props
