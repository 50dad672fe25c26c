import Verif.Props.BlockSizes
import Verif.Props.Sharing
import Verif.Props.Built
import Verif.Props.AddExample
/-
C127: how much more than the content must be stored, and how large directories may become before they are refused.
-/
namespace Verif.Props
open Verif Verif.Spec

/-! ### The levels of link blocks -/

/-- Putting one level of link blocks over trees: their totals, and 64 bytes for each tree and 24 for each link block. -/
theorem over_total {sha : Bytes → Bytes} (hsha : ∀ b, (sha b).length = 32) (gs : List (List FTree)) :
    ((gs.map FTree.node).map (FTree.total sha)).sum ≤ (gs.flatten.map (FTree.total sha)).sum + 64 * gs.flatten.length + 24 * gs.length := by
  induction gs with
  | nil => simp
  | cons g gs ih =>
    have h1 := node_length hsha g
    have h2 := FTree.total_node sha g
    simp only [List.map_cons, List.sum_cons, List.flatten_cons, List.map_append, List.sum_append, List.length_append, List.length_cons]
    omega

/-- If a function `W` pays for one level and for what is above it, it pays for all levels. -/
theorem layered_total {sha : Bytes → Bytes} (hsha : ∀ b, (sha b).length = 32) {bf : Nat} (hbf : 0 < bf) (W : Nat → Nat)
    (hW : ∀ L g, 2 ≤ L → L ≤ bf * g → bf * (g - 1) < L → 64 * L + 24 * g + W g ≤ W L) {ts : List FTree} {T : FTree} (h : Layered bf ts T) :
    T.total sha ≤ (ts.map (FTree.total sha)).sum + W ts.length := by
  induction h with
  | one T => simp
  | @up ts T hl _ ih =>
    have h1 := over_total hsha (groups bf ts)
    rw [groups_flatten hbf] at h1
    obtain ⟨h2, h3⟩ := groups_length hbf ts
    have h4 := hW ts.length (groups bf ts).length hl h2 (h3 (by rintro rfl; simp at hl))
    rw [List.length_map] at ih
    omega

theorem leaves_total {sha : Bytes → Bytes} (k : Nat) : ∀ ds : List Bytes, (∀ d ∈ ds, ((FTree.leaf d).block sha).length ≤ d.length + k) →
    ((ds.map FTree.leaf).map (FTree.total sha)).sum ≤ ds.flatten.length + k * ds.length := by
  intro ds
  induction ds with
  | nil => simp
  | cons d ds ih =>
    intro h
    have h1 := h d (by simp)
    have h2 := ih (fun e he => h e (by simp [he]))
    have h3 : (FTree.leaf d).total sha = ((FTree.leaf d).block sha).length := by simp [FTree.total, FTree.nodes]
    simp only [List.map_cons, List.sum_cons, List.flatten_cons, List.length_append, List.length_cons, Nat.mul_succ, h3]
    omega

theorem perm_sum {l l' : List Nat} (h : l.Perm l') : l.sum = l'.sum := by
  induction h with
  | nil => rfl
  | cons x _ ih => simp [ih]
  | swap x y l => simp; omega
  | trans _ _ h1 h2 => rw [h1, h2]

theorem blocks_total {sha : Bytes → Bytes} {c bf : Nat} (hc : 0 < c) (hbf : 0 < bf) {x : Bytes} {blocks : List (Cid × Bytes)}
    (h : Adds sha c bf x blocks) :
    ∃ T, BalancedTree c bf x T ∧ T.content = x ∧ (blocks.map (fun e => e.2.length)).sum = T.total sha := by
  obtain ⟨T, h1, -, h2, -⟩ := C70_tree sha c bf hc hbf x blocks h
  refine ⟨T, h1, (C70_leaves c bf hc hbf x T h1).2, ?_⟩
  rw [perm_sum (h2.map _), List.map_map]
  rfl

/-! ### C127: files -/

/-- C127. What the adder returns for a content of `n` bytes is at least `n` and at most `n` plus 275 bytes for each chunk,
whatever the branching factor. -/
theorem C127_total (sha : Bytes → Bytes) (hsha : ∀ b, (sha b).length = 32) (c bf : Nat) (hc : 0 < c) (hbf : 2 ≤ bf) (x : Bytes)
    (blocks : List (Cid × Bytes)) (h : Adds sha c bf x blocks) :
    x.length ≤ (blocks.map (fun e => e.2.length)).sum ∧
      (blocks.map (fun e => e.2.length)).sum + 240 ≤ x.length + 275 * max 1 ((x.length + c - 1) / c) := by
  obtain ⟨T, h1, h2, h3⟩ := blocks_total hc (by omega) h
  rw [h3]
  have h4 := size_le_total sha T
  rw [h2] at h4
  refine ⟨h4, ?_⟩
  have h5 := layered_total hsha (by omega) (fun L => 240 * (L - 1)) (by
    intro L g hL h6 h7
    have h8 : 2 * (g - 1) ≤ bf * (g - 1) := Nat.mul_le_mul_right _ hbf
    have : 1 ≤ g := by
      rcases Nat.eq_zero_or_pos g with rfl | h
      · simp at h6; omega
      · exact h
    show 64 * L + 24 * g + 240 * (g - 1) ≤ 240 * (L - 1)
    omega) h1
  have h6 := leaves_total (sha := sha) 35 (chunks c x) (fun d _ => leaf_length d 10 (encVarint_le _) (encVarint_le _))
  rw [chunks_flatten hc] at h6
  simp only [List.length_map] at h5
  rw [← chunks_count hc]
  have h7 : 1 ≤ (chunks c x).length := by rw [chunks_count hc]; omega
  omega

/-- C127. In the default configuration it is at most 80 bytes for each chunk of 256 KiB, and 24. -/
theorem C127_default (sha : Bytes → Bytes) (hsha : ∀ b, (sha b).length = 32) (x : Bytes)
    (blocks : List (Cid × Bytes)) (h : Adds sha 262144 174 x blocks) :
    (blocks.map (fun e => e.2.length)).sum ≤ x.length + 80 * max 1 ((x.length + 262143) / 262144) + 24 := by
  obtain ⟨T, h1, h2, h3⟩ := blocks_total (by omega) (by omega) h
  rw [h3]
  have h5 := layered_total hsha (by omega) (fun L => if L ≤ 1 then 0 else 66 * L + 24) (by
    intro L g hL h6 h7
    show 64 * L + 24 * g + (if g ≤ 1 then 0 else 66 * g + 24) ≤ if L ≤ 1 then 0 else 66 * L + 24
    simp only [show ¬ L ≤ 1 by omega, if_false]
    split <;> omega) h1
  have h6 := leaves_total (sha := sha) 14 (chunks 262144 x) (fun d hd => leaf_length_default d (chunks_le (by omega) x d hd))
  rw [chunks_flatten (by omega)] at h6
  simp only [List.length_map] at h5
  have h7 := chunks_count (s := 262144) (by omega) x
  simp only [show x.length + 262144 - 1 = x.length + 262143 by omega] at h7
  rw [← h7]
  split at h5 <;> omega

/-- C127. Hence less than one byte in three thousand, and 128 bytes. -/
theorem C127_ratio (sha : Bytes → Bytes) (hsha : ∀ b, (sha b).length = 32) (x : Bytes)
    (blocks : List (Cid × Bytes)) (h : Adds sha 262144 174 x blocks) :
    (blocks.map (fun e => e.2.length)).sum ≤ x.length + x.length / 3000 + 128 := by
  have := C127_default sha hsha x blocks h
  omega

/-- The hypotheses are met, by a content of five chunks in three levels: 5 bytes become 542. -/
theorem C127_example : ∃ blocks, Adds toySha 1 2 [1, 2, 3, 4, 5] blocks ∧ (blocks.map (fun e => e.2.length)).sum = 542 := by
  have h := adds_exists toySha_length (c := 1) (bf := 2) (by decide) (by decide) [1, 2, 3, 4, 5] (by decide)
  obtain ⟨T, h1, -, h3⟩ := blocks_total (by decide) (by decide) h
  refine ⟨_, h, ?_⟩
  rw [h3, C70_unique 1 2 _ T fiveTree h1 fiveTree_balanced]
  decide +kernel

/-! ### C127: directories -/

theorem dirLink_length (i : Item) : (Item.toPB i).write.length ≤ i.name.length + i.cid.toBytes.length + 33 := by
  have h1 := encVarint_le i.total
  have h2 := encVarint_le i.name.length
  have h3 := encVarint_le i.cid.toBytes.length
  unfold Item.toPB PBLink.write
  simp only [wOpt, List.length_append, tag_len (show 18 < 128 by decide),
    tag_len (show 10 < 128 by decide), tag_len (show 24 < 128 by decide), wBytes]
  omega

/-- The length of a directory's block: 44 bytes for each entry, besides its name and its Cid, and four more. -/
theorem dirBlock_length (items : List Item) :
    (dirBlock items).length ≤ (items.map (fun i => i.name.length + i.cid.toBytes.length + 44)).sum + 4 := by
  have h1 : (wTag 10 (wMessage (UnixFs.getSize { Ty := .Directory }) (UnixFs.write { Ty := .Directory }))).length = 4 := by decide +kernel
  unfold dirBlock FlatUnixFs.write Spec.dirMsg
  simp only [List.length_append, h1]
  refine Nat.add_le_add_right ?_ 4
  induction items with
  | nil => simp
  | cons i is ih =>
    have h2 := dirLink_length i
    have h3 := encVarint_le (Item.toPB i).getSize
    simp only [List.map_cons, List.flatMap_cons, List.length_append, List.sum_cons, tag_len (show 18 < 128 by decide), wMessage] at ih ⊢
    unfold Item.toPB at h2 h3
    omega

/-- C127. Every block built for a directory takes no more than 44 bytes for each entry, besides its name and its Cid, and four more. -/
theorem C127_directory (sha : Bytes → Bytes) (hsha : ∀ b, (sha b).length = 32) (b : BufferingTreeBuilder) (hb : Obtainable b)
    (hfit : SizesFit sha b) (nodes : List TreeNode) (last : IterNext) (it : PostOrderIterator)
    (h : drainAll sha b.build = some (nodes, last, it)) (x : TreeNode) (hx : x ∈ nodes) :
    ∃ m, FlatUnixFs.tryParse x.block = .ok m ∧
      x.block.length ≤ (m.links.map (fun l => (l.Name.getD []).length + (l.Hash.getD []).length + 44)).sum + 4 := by
  obtain ⟨rest, h1, -⟩ := drained_prefix hsha hb hfit h
  obtain ⟨cs, -, es, he, rfl⟩ := (built_iff sha b hb x).1 (by rw [h1]; simp [hx])
  refine ⟨Spec.dirMsg (DTree.items sha es), C01_flat_roundtrip _ (dirMsg_fits (built_items_ok hsha hb hfit he)), ?_⟩
  have := dirBlock_length (DTree.items sha es)
  rw [dirMsg_links, List.map_map]
  exact this

theorem sum_bound {α : Type} (f : α → Nat) (k : Nat) (l : List α) (h : ∀ a ∈ l, f a ≤ k) : (l.map f).sum ≤ k * l.length := by
  induction l with
  | nil => simp
  | cons a l ih =>
    have h1 := h a (by simp)
    have h2 := ih (fun b hb => h b (by simp [hb]))
    simp only [List.map_cons, List.sum_cons, List.length_cons, Nat.mul_succ]
    omega

/-- C127. Directories which are not too large are never refused: if no directory has more than `entries` entries, no name is longer
than `name` bytes and no Cid put longer than `cid` bytes, then with any limit of at least `(name + cid + 44) * entries + 4` all blocks
are built. -/
theorem C127_accepted (sha : Bytes → Bytes) (hsha : ∀ b, (sha b).length = 32) (b : BufferingTreeBuilder) (hb : Obtainable b)
    (hfit : SizesFit sha b) (entries name cid : Nat) (hcid : 36 ≤ cid)
    (hlim : ∀ l, b.opts.block_size_limit = some l → (name + cid + 44) * entries + 4 ≤ l)
    (h1 : ∀ (cs ns : List Bytes), ns.Nodup → (∀ n ∈ ns, lookupPath (cs ++ [n]) (contents b) ≠ none) → ns.length ≤ entries)
    (h2 : ∀ cs n, lookupPath (cs ++ [n]) (contents b) ≠ none → n.length ≤ name)
    (h3 : ∀ cs c s, lookupPath cs (contents b) = some (.link c s) → c.toBytes.length ≤ cid) :
    ∃ nodes it, drainAll sha b.build = some (nodes, .finished, it) := by
  obtain ⟨all, it, h4, ⟨-, it', h5⟩ | ⟨before, x, rest, it', h11, -, h5, -⟩⟩ := C37_limit sha hsha b hb hfit
  · exact ⟨all, it', h5⟩
  · exfalso
    apply h5
    intro l hl
    refine Nat.le_trans ?_ (hlim l hl)
    obtain ⟨it2, h6, -⟩ := unlimited_drained hsha hb hfit
    have h7 : x ∈ allNodes sha b.opts.wrap_with_directory (contents b) := by
      rw [h4] at h6
      injection h6 with h6
      injection h6 with h6
      rw [← h6, h11]
      simp
    obtain ⟨cs, -, hx⟩ := (built_iff sha b hb x).1 h7
    obtain ⟨m, m1, -, m3, m4, -⟩ := nodeAt_block sha hsha b hb hfit cs x hx
    obtain ⟨es, he, rfl⟩ := hx
    have h8 : m = Spec.dirMsg (DTree.items sha es) := by
      have := C01_flat_roundtrip _ (dirMsg_fits (built_items_ok hsha hb hfit he))
      rw [show (nodeOf sha cs es).block = (Spec.dirMsg (DTree.items sha es)).write from rfl, this] at m1
      cases m1; rfl
    refine Nat.le_trans (dirBlock_length (DTree.items sha es)) (Nat.add_le_add_right ?_ 4)
    have h9 : m.links.length = (DTree.items sha es).length := by rw [h8, dirMsg_links, List.length_map]
    have h10 : m.links.length ≤ entries := by
      have := h1 cs (m.links.map (fun l => l.Name.getD [])) (by
        unfold List.Nodup
        rw [List.pairwise_map]
        exact m3.imp (fun h e => by rw [e] at h; exact List.lt_irrefl _ h)) (by
        intro n hn
        obtain ⟨l, hl, rfl⟩ := List.mem_map.1 hn
        obtain ⟨n, c, s, rfl, h | ⟨h, -⟩⟩ := m4 l hl <;> simp [h])
      simpa using this
    refine Nat.le_trans (sum_bound _ (name + cid + 44) _ ?_) (Nat.mul_le_mul_left _ (by omega))
    intro i hi
    obtain ⟨n, c, s, e, hl⟩ := m4 (Item.toPB i) (by rw [h8, dirMsg_links]; exact List.mem_map_of_mem hi)
    unfold Item.toPB at e
    injection e with e1 e2 e3
    injection e1 with e1
    injection e2 with e2
    have a1 : n.length ≤ name := h2 cs n (by rcases hl with h | ⟨h, -⟩ <;> simp [h])
    have a2 : c.toBytes.length ≤ cid := by
      rcases hl with h | ⟨-, y, ⟨es', -, rfl⟩, rfl, -⟩
      · exact h3 _ _ _ h
      · rw [show (nodeOf sha (cs ++ [n]) es').cid = cidOf sha (nodeOf sha (cs ++ [n]) es').block from rfl, cid_length hsha]
        exact hcid
    rw [e1, e2]
    omega

/-- C127. In particular: with the default limit, directories of up to 1300 entries with names of up to 255 bytes (and Cids of up to 100
bytes, those of SHA2-256 have 36) are never refused. -/
theorem C127_accepted_default (sha : Bytes → Bytes) (hsha : ∀ b, (sha b).length = 32) (b : BufferingTreeBuilder) (hb : Obtainable b)
    (hfit : SizesFit sha b) (hlim : b.opts.block_size_limit = some (512 * 1024))
    (h1 : ∀ (cs ns : List Bytes), ns.Nodup → (∀ n ∈ ns, lookupPath (cs ++ [n]) (contents b) ≠ none) → ns.length ≤ 1300)
    (h2 : ∀ cs n, lookupPath (cs ++ [n]) (contents b) ≠ none → n.length ≤ 255)
    (h3 : ∀ cs c s, lookupPath cs (contents b) = some (.link c s) → c.toBytes.length ≤ 100) :
    ∃ nodes it, drainAll sha b.build = some (nodes, .finished, it) :=
  C127_accepted sha hsha b hb hfit 1300 255 100 (by decide) (by intro l hl; rw [hlim] at hl; cases hl; decide) h1 h2 h3

theorem nodup_le {α : Type} [DecidableEq α] : ∀ (l l' : List α), l.Nodup → (∀ a ∈ l, a ∈ l') → l.length ≤ l'.length := by
  intro l
  induction l with
  | nil => simp
  | cons a l ih =>
    intro l' h1 h2
    rw [List.nodup_cons] at h1
    have h3 := ih (l'.erase a) h1.2 (fun b hb => by
      have : b ≠ a := by rintro rfl; exact h1.1 hb
      exact (List.mem_erase_of_ne this).2 (h2 b (by simp [hb])))
    have h4 := List.length_erase_of_mem (h2 a (by simp))
    have h5 := List.length_pos_of_mem (h2 a (by simp))
    simp only [List.length_cons]
    omega

theorem sample_contents : contents sampleBuilder = [.dir [97] [.link [98] (cidOf toySha [1]) 1, .dir [99] []]] := by rfl

/-- The paths of the sample: `a`, `a/b` and `a/c`. -/
theorem sample_paths (cs : List Bytes) (t : Thing) (h : lookupPath cs (contents sampleBuilder) = some t) :
    cs ∈ ([[], [[97]], [[97], [98]], [[97], [99]]] : List (List Bytes)) ∧ ∀ c s, t = .link c s → c = cidOf toySha [1] := by
  rw [sample_contents] at h
  rcases cs with _ | ⟨a, _ | ⟨b, cs⟩⟩
  · simp only [lookupPath, Option.some.injEq] at h
    subst h
    simp
  · by_cases ha : [97] = a
    · subst ha
      simp [lookupPath, kid, DTree.name] at h
      subst h
      simp
    · simp [lookupPath, kid, DTree.name, ha] at h
  · by_cases ha : [97] = a
    · subst ha
      by_cases hb : [98] = b
      · subst hb
        simp only [lookupPath, kid, DTree.name, if_true] at h
        by_cases hcs : cs = []
        · subst hcs
          simp at h
          subst h
          simp
        · simp [hcs] at h
      · by_cases hc : [99] = b
        · subst hc
          cases cs with
          | nil =>
            simp [lookupPath, kid, DTree.name] at h
            subst h
            simp
          | cons d cs => simp [lookupPath, kid, DTree.name] at h
        · simp [lookupPath, kid, DTree.name, hb, hc] at h
    · simp [lookupPath, kid, DTree.name, ha] at h

/-- The hypotheses are met. -/
theorem C127_accepted_example : ∃ nodes it, drainAll toySha sampleBuilder.build = some (nodes, .finished, it) := by
  have key : ∀ (cs : List Bytes) n, lookupPath (cs ++ [n]) (contents sampleBuilder) ≠ none → n ∈ ([[97], [98], [99]] : List Bytes) := by
    intro cs n h
    obtain ⟨t, ht⟩ := Option.ne_none_iff_exists'.1 h
    have h1 := (sample_paths _ t ht).1
    have h2 : (cs ++ [n]).getLast? = some n := List.getLast?_concat
    simp only [List.mem_cons, List.not_mem_nil, or_false] at h1
    rcases h1 with h1 | h1 | h1 | h1 <;> rw [h1] at h2 <;> simp at h2 <;> simp [← h2]
  refine C127_accepted_default toySha toySha_length sampleBuilder sampleBuilder_obtainable sampleBuilder_fits (by rfl) ?_ ?_ ?_
  · intro cs ns h1 h2
    have h3 := nodup_le ns [[97], [98], [99]] h1 (fun n hn => key cs n (h2 n hn))
    exact Nat.le_trans h3 (by decide)
  · intro cs n h
    have := key cs n h
    simp only [List.mem_cons, List.not_mem_nil, or_false] at this
    rcases this with rfl | rfl | rfl <;> decide
  · intro cs c s h
    rw [(sample_paths cs _ h).2 c s rfl, cid_length toySha_length]
    decide

end Verif.Props
