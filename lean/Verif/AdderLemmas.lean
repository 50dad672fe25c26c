import Verif.Adder
import Verif.FileTreeLemmas
/-
Refinement of the adder to trees.
-/
namespace Verif
open Spec

/-- The pending link the adder keeps for a tree of height `h`. -/
def lk (sha : Bytes → Bytes) (h : Nat) (t : FTree) : Link := ⟨h, t.cid sha, t.total sha, t.content.length⟩

def sizes (ts : List FTree) : Nat := (ts.map (fun t => t.content.length)).sum
def totals (sha : Bytes → Bytes) (ts : List FTree) : Nat := (ts.map (FTree.total sha)).sum

@[simp] theorem sizes_nil : sizes [] = 0 := rfl
@[simp] theorem totals_nil (sha) : totals sha [] = 0 := rfl
@[simp] theorem sizes_cons (t ts) : sizes (t :: ts) = t.content.length + sizes ts := by simp [sizes]
@[simp] theorem totals_cons (sha t ts) : totals sha (t :: ts) = t.total sha + totals sha ts := by simp [totals]
theorem totals_append (sha a b) : totals sha (a ++ b) = totals sha a + totals sha b := by simp [totals]

/-- The link a parent stores for a child. -/
def plink (sha : Bytes → Bytes) (t : FTree) : PBLink :=
  { Hash := some (t.cid sha).toBytes, Name := some [], Tsize := some (t.total sha) }

theorem nodeMsg_eq (sha : Bytes → Bytes) (ts : List FTree) :
    FTree.nodeMsg sha (FTree.infos sha ts) =
      { links := ts.map (plink sha),
        data := { Ty := .File, filesize := some (sizes ts), blocksizes := ts.map (fun t => t.content.length) } } := by
  have e1 : ∀ l : List FTree, l.map (fun t => (FTree.info sha t).size) = l.map (fun t => t.content.length) := fun l =>
    List.map_congr_left fun t _ => FTree.size_eq sha t
  have e2 : ts.map (fun t => (PBLink.mk (some (cidOf sha (FTree.info sha t).block).toBytes) (some [])
      (some (FTree.info sha t).total))) = ts.map (plink sha) :=
    List.map_congr_left fun t _ => by simp [plink, FTree.cid, FTree.block, FTree.info_total]
  unfold FTree.nodeMsg
  simp only [FTree.infos_eq, List.map_map, Function.comp_def, sizes, e1, e2]

theorem partitionLinks_ok (sha : Bytes → Bytes) (h : Nat) (ts : List FTree) (n : Nested)
    (h1 : n.size + sizes ts < U64) (h2 : n.total + totals sha ts < U64) :
    partitionLinks h (ts.map (lk sha h)) n = .ok ⟨n.links ++ ts.map (plink sha),
      n.blocksizes ++ ts.map (fun t => t.content.length), n.size + sizes ts, n.total + totals sha ts⟩ := by
  induction ts generalizing n with
  | nil => simp [partitionLinks]
  | cons t ts ih =>
    simp only [sizes_cons, totals_cons] at h1 h2
    simp only [List.map_cons, partitionLinks]
    rw [if_neg (by simp [lk])]
    have e : partitionLink (lk sha h t) n = .ok ⟨n.links ++ [plink sha t], n.blocksizes ++ [t.content.length],
        n.size + t.content.length, n.total + t.total sha⟩ := by
      unfold partitionLink
      rw [if_neg (show ¬ U64 ≤ n.size + (lk sha h t).file_size by simp only [lk]; omega),
        if_neg (show ¬ U64 ≤ n.total + (lk sha h t).total_size by simp only [lk]; omega)]
      rfl
    rw [e]
    simp only [Res.bind_ok]
    rw [ih _ (by simp only; omega) (by simp only; omega)]
    simp [Nat.add_assoc]

theorem wOpt_length_le (d : Bytes) : d.length ≤ (FTree.leafMsg d).write.length := by
  unfold FTree.leafMsg
  simp only [FlatUnixFs.write, List.flatMap_nil, List.nil_append, wTag, wMessage, UnixFs.write, wOpt, wBytes,
    List.length_append]
  by_cases hd : d = []
  · subst hd; simp
  · simp only [if_neg hd, List.length_append]; omega

theorem size_le_total (sha : Bytes → Bytes) (t : FTree) : t.content.length ≤ t.total sha := by
  induction t using FTree.induct with
  | hl d =>
    rw [← FTree.info_total]
    exact wOpt_length_le d
  | hn ts ih =>
    rw [FTree.total_node]
    simp only [FTree.content, FTree.contents_eq]
    refine Nat.le_trans ?_ (Nat.le_add_right _ _)
    induction ts with
    | nil => simp
    | cons t ts ih2 =>
      have h1 := ih t (by simp)
      have h2 := ih2 (fun s hs => ih s (by simp [hs]))
      simp only [List.flatMap_cons, List.length_append, List.map_cons, List.sum_cons]; omega

theorem sizes_le_totals (sha : Bytes → Bytes) (ts : List FTree) : sizes ts ≤ totals sha ts := by
  induction ts with
  | nil => simp
  | cons t ts ih => have := size_le_total sha t; simp only [sizes_cons, totals_cons]; omega

theorem sizes_eq (ts : List FTree) : sizes ts = (ts.flatMap FTree.content).length := by
  induction ts with
  | nil => rfl
  | cons t ts ih => simp [ih]

theorem node_content_length (ts : List FTree) : (FTree.node ts).content.length = sizes ts := by
  rw [FTree.content, FTree.contents_eq, sizes_eq]

/-- One group is turned into a link block. -/
theorem group_ok (sha : Bytes → Bytes) (h : Nat) (g : List FTree) (hb : (FTree.node g).total sha < U64) :
    ∃ n : Nested, partitionLinks h (g.map (lk sha h)) {} = .ok n ∧ n.links.length = n.blocksizes.length ∧
      renderAndHash sha (linkMessage n) = (FTree.node g).entry sha ∧
      n.total + ((FTree.node g).block sha).length = (FTree.node g).total sha ∧
      n.size = (FTree.node g).content.length := by
  have hs := sizes_le_totals sha g
  have ht : (FTree.node g).total sha = totals sha g + ((FTree.node g).block sha).length := FTree.total_node sha g
  refine ⟨_, partitionLinks_ok sha h g {} (by simp only; omega) (by simp only; omega), by simp, ?_, ?_, ?_⟩
  · simp only [renderAndHash, linkMessage, FTree.entry, FTree.cid, FTree.block, FTree.info, FTree.nodeInfo, nodeMsg_eq]
    simp
  · simp only; omega
  · simp only [node_content_length]; omega

theorem take_set_succ {α : Type} (l : List α) (i : Nat) (x : α) (h : i < l.length) :
    (l.set i x).take (i + 1) = l.take i ++ [x] := by
  rw [List.set_eq_take_append_cons_drop, if_pos h, List.take_append]
  simp only [List.length_take, Nat.min_eq_left (Nat.le_of_lt h), Nat.add_sub_cancel_left, List.take_succ_cons, List.take_zero]
  rw [List.take_of_length_le (by simp; omega)]

theorem drop_add_append {α : Type} (a b : List α) (n k : Nat) (h : n = a.length) : (a ++ b).drop (n + k) = b.drop k := by
  subst h; rw [← List.drop_drop, List.drop_left]

theorem findIdx_none_then {α : Type} (p : α → Bool) (a b : List α) (x : α) (ha : ∀ y ∈ a, p y = false) (hx : p x = true) :
    (a ++ x :: b).findIdx? p = some a.length := by
  induction a with
  | nil => simp [List.findIdx?_cons, hx]
  | cons y a ih =>
    simp only [List.cons_append, List.findIdx?_cons, ha y (by simp)]
    rw [ih (fun z hz => ha z (by simp [hz]))]
    simp

/-- The state of `flushLevel` after `ts` (of height `h`) at index `start` have been compressed, new links going to the
positions following `ow`. -/
theorem flushLevel_finish (sha : Bytes → Bytes) (bf h : Nat) (hbf : 0 < bf) (ts : List FTree)
    (hover : ∀ g ∈ groups bf ts, (FTree.node g).total sha < U64)
    (start ow : Nat) (s : FlushState) (how : ow < start) (hlen : start ≤ s.pending.length)
    (hs : s.pending.drop start = ts.map (lk sha h)) :
    ∃ s', flushLevel sha bf h true start (some ow) s = some (.ok (.next s' (some (ow + (groups bf ts).length)))) ∧
      s'.pending.take (ow + (groups bf ts).length + 1) =
        s.pending.take (ow + 1) ++ (groups bf ts).map (fun g => lk sha (h + 1) (.node g)) ∧
      s'.ret = s.ret ++ (groups bf ts).map (fun g => (FTree.node g).entry sha) := by
  induction ts using groups_induct hbf generalizing start ow s with
  | h0 =>
    refine ⟨s, ?_, by simp, by simp⟩
    rw [flushLevel.eq_1, hs]
    simp
  | h1 ts hne ih =>
    have hplen : s.pending.length = start + ts.length := by
      have := congrArg List.length hs; simp at this; omega
    have hpos := List.length_pos_iff.2 hne
    have hf : (s.pending.drop start).findIdx? (fun l => l.depth == h) = some 0 := by
      rw [hs]
      obtain ⟨t, ts', rfl⟩ := List.exists_cons_of_ne_nil hne
      simp [List.findIdx?_cons, lk]
    rw [groups_cons hbf hne] at hover ⊢
    obtain ⟨n, e1, e2, e3, e4, e5⟩ := group_ok sha h (ts.take bf) (hover _ (by simp))
    have hlast : Nat.min (start + bf) s.pending.length = start + Nat.min bf ts.length := by
      rw [hplen]; show min _ _ = _ + min _ _; omega
    have hslice : (s.pending.take (start + Nat.min bf ts.length)).drop start = (ts.take bf).map (lk sha h) := by
      rw [List.drop_take, hs, List.map_take]
      have : start + Nat.min bf ts.length - start = min bf ts.length := by show _ = Nat.min _ _; omega
      rw [this, ← List.length_map (f := lk sha h) (as := ts)]
      rw [Nat.min_def]
      split
      · rfl
      · rw [List.take_of_length_le (Nat.le_refl _), List.take_of_length_le (by omega)]
    have hb := hover _ (List.mem_cons_self ..)
    let link : Link := lk sha (h + 1) (.node (ts.take bf))
    let s1 : FlushState := { pending := s.pending.set (ow + 1) link, ret := s.ret ++ [(FTree.node (ts.take bf)).entry sha],
                             reused_links := n.links, reused_blocksizes := n.blocksizes }
    have hmin : Nat.min bf ts.length = min bf ts.length := rfl
    have hstep : flushLevel sha bf h true start (some ow) s =
        flushLevel sha bf h true (start + Nat.min bf ts.length) (some (ow + 1)) s1 := by
      rw [flushLevel.eq_1]
      simp only [hf, Nat.zero_add, hlast, hslice, e1, e2, ne_eq, not_true_eq_false, if_false, e3, Bool.true_eq_false,
        false_and, FTree.entry, e4]
      rw [if_neg (by omega), if_neg (by omega)]
      simp only [s1, link, lk, e5, FTree.entry]
    obtain ⟨s', r1, r2, r3⟩ := ih (fun g hg => hover g (by simp [hg])) (start + Nat.min bf ts.length) (ow + 1) s1
      (by omega) (by simp only [s1, List.length_set]; omega)
      (by
        simp only [s1]
        rw [List.drop_set_of_lt (by omega), ← List.drop_drop, hs, ← List.map_drop]
        congr 1
        by_cases hle : bf ≤ ts.length
        · rw [hmin, Nat.min_eq_left hle]
        · rw [hmin, Nat.min_eq_right (by omega), List.drop_of_length_le (Nat.le_refl _), List.drop_of_length_le (by omega)])
    refine ⟨s', ?_, ?_, ?_⟩
    · rw [hstep, r1]; simp only [List.length_cons]; congr 4; omega
    · simp only [List.length_cons, List.map_cons]
      rw [show ow + ((groups bf (ts.drop bf)).length + 1) + 1 = ow + 1 + (groups bf (ts.drop bf)).length + 1 by omega, r2]
      simp only [s1]
      rw [take_set_succ _ _ _ (by omega)]
      simp [link]
    · rw [r3]; simp [s1]

/-- A whole level when finishing: `A` is already at the next level, `B` (non-empty) is compressed. -/
theorem flushLevels_finish_step (sha : Bytes → Bytes) (bf h : Nat) (hbf : 0 < bf) (A B : List FTree) (hB : B ≠ [])
    (hlen : A.length + B.length ≠ 1)
    (hover : ∀ g ∈ groups bf B, (FTree.node g).total sha < U64) (s : FlushState)
    (hs : s.pending = A.map (lk sha (h + 1)) ++ B.map (lk sha h)) :
    ∃ s', flushLevels sha bf true h s = flushLevels sha bf true (h + 1) s' ∧
      s'.pending = (A ++ (groups bf B).map FTree.node).map (lk sha (h + 1)) ∧
      s'.ret = s.ret ++ (groups bf B).map (fun g => (FTree.node g).entry sha) := by
  have hpos := List.length_pos_iff.2 hB
  have hplen : s.pending.length = A.length + B.length := by rw [hs]; simp
  -- first iteration
  have hf : (s.pending.drop 0).findIdx? (fun l => l.depth == h) = some A.length := by
    obtain ⟨t, ts', rfl⟩ := List.exists_cons_of_ne_nil hB
    rw [List.drop_zero, hs]
    have := findIdx_none_then (fun l : Link => l.depth == h) (A.map (lk sha (h + 1))) (ts'.map (lk sha h)) (lk sha h t)
      (by intro y hy; obtain ⟨a, -, rfl⟩ := List.mem_map.1 hy; simp [lk]) (by simp [lk])
    simpa using this
  obtain ⟨n, e1, e2, e3, e4, e5⟩ := group_ok sha h (B.take bf) (hover _ (by rw [groups_cons hbf hB]; simp))
  have hb := hover (B.take bf) (by rw [groups_cons hbf hB]; simp)
  have hmin : Nat.min bf B.length = min bf B.length := rfl
  have hlast : Nat.min (A.length + bf) s.pending.length = A.length + Nat.min bf B.length := by
    rw [hplen]; show min _ _ = _ + min _ _; omega
  have hslice : (s.pending.take (A.length + Nat.min bf B.length)).drop A.length = (B.take bf).map (lk sha h) := by
    rw [List.drop_take, hs, List.drop_append_of_le_length (by simp), List.drop_of_length_le (by simp), List.nil_append,
      ← List.map_take]
    congr 1
    rw [Nat.add_sub_cancel_left, hmin, Nat.min_def]
    split
    · rfl
    · rw [List.take_of_length_le (Nat.le_refl _), List.take_of_length_le (by omega)]
  let link : Link := lk sha (h + 1) (.node (B.take bf))
  let s1 : FlushState := { pending := s.pending.set A.length link, ret := s.ret ++ [(FTree.node (B.take bf)).entry sha],
                           reused_links := n.links, reused_blocksizes := n.blocksizes }
  have hstep : flushLevel sha bf h true 0 none s =
      flushLevel sha bf h true (A.length + Nat.min bf B.length) (some A.length) s1 := by
    rw [flushLevel.eq_1]
    simp only [hf, Nat.add_zero, hlast, hslice, e1, e2, ne_eq, not_true_eq_false, if_false, e3, Bool.true_eq_false,
      false_and, FTree.entry, e4]
    rw [if_neg (by omega), if_neg (by omega)]
    simp only [s1, link, lk, e5, FTree.entry]
  have hrest : s1.pending.drop (A.length + Nat.min bf B.length) = (B.drop bf).map (lk sha h) := by
    simp only [s1]
    rw [List.drop_set_of_lt (by omega), hs, drop_add_append _ _ _ _ (by simp), ← List.map_drop]
    congr 1
    by_cases hle : bf ≤ B.length
    · rw [hmin, Nat.min_eq_left hle]
    · rw [hmin, Nat.min_eq_right (by omega), List.drop_of_length_le (Nat.le_refl _), List.drop_of_length_le (by omega)]
  obtain ⟨s', r1, r2, r3⟩ := flushLevel_finish sha bf h hbf (B.drop bf)
    (fun g hg => hover g (by rw [groups_cons hbf hB]; simp [hg])) (A.length + Nat.min bf B.length) A.length s1
    (by omega) (by simp only [s1, List.length_set]; omega) hrest
  have hpend : s'.pending.take (A.length + (groups bf (B.drop bf)).length + 1) =
      (A ++ (groups bf B).map FTree.node).map (lk sha (h + 1)) := by
    rw [r2, groups_cons hbf hB]
    simp only [s1, hs]
    rw [take_set_succ _ _ _ (by simp; omega)]
    rw [List.take_append_of_le_length (by simp), List.take_of_length_le (by simp)]
    simp only [List.append_assoc, List.map_append, List.map_cons, List.map_map, link]
    rfl
  refine ⟨{ s' with pending := (A ++ (groups bf B).map FTree.node).map (lk sha (h + 1)) }, ?_, rfl, ?_⟩
  · rw [flushLevels.eq_1]
    rw [if_neg (by simp; omega)]
    rw [hstep, r1]
    simp only [hpend]
    rw [if_neg]
    simp only [List.any_eq_true, not_exists, not_and]
    intro l hl
    obtain ⟨t, -, rfl⟩ := List.mem_map.1 hl
    simp [lk]
  · simp only [r3, s1]
    rw [groups_cons hbf hB]; simp

end Verif
