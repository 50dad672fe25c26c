import Verif.AdderExact
/-
Properties C07-C17, C21, C52: adding files.

`Reaches sha c bf x bs a`: a client built an adder with chunk size `c` and branching factor `bf`, made some pushes which
consumed `x` and returned `bs`, and now has the adder `a`. `Adds sha c bf x blocks`: the same followed by `finish`;
`blocks` are all returned blocks. `sha` is the hash function, of which only the digest length is used.
`maxContent` is 2^50 bytes: below it no `u64` size can overflow; theorems which assert success without saying how large the
tree is assume it, all others do not.
-/
namespace Verif.Props
open Verif Verif.Spec

/-! ### helpers: existence of histories (non-vacuity) -/

theorem reaches_small {sha : Bytes → Bytes} {c bf : Nat} (hc : 0 < c) {x : Bytes} {bs : List (Cid × Bytes)}
    {a : FileAdder} (h : Reaches sha c bf x bs a) : a.chunkMax = c ∧ a.block_buffer.length < c := by
  induction h with
  | start => exact ⟨rfl, hc⟩
  | @push x bs a input a' bs' n _ hp ih =>
    obtain ⟨h1, h2⟩ := ih
    have flush : ∀ d q, a.flushChunk sha d = some (.ok q) → q.1.chunkMax = c ∧ q.1.block_buffer = [] := by
      intro d q hq
      unfold FileAdder.flushChunk at hq
      split at hq
      · cases hq
      · split at hq <;> cases hq
        exact ⟨h1, rfl⟩
    unfold FileAdder.push at hp
    split at hp
    · cases hp
    · cases hp
    · rename_i acc ready hacc
      split at hp
      · split at hp <;> cases hp
        rename_i h; obtain ⟨e1, e2⟩ := flush _ _ h
        exact ⟨e1, by simp only at e2; rw [e2]; exact hc⟩
      · simp only at hp
        split at hp
        · rename_i hr
          cases hp
          refine ⟨h1, ?_⟩
          unfold chunkerAccept at hacc
          split at hacc
          · cases hacc
          · cases hacc
            simp only [decide_eq_false_iff_not] at hr
            simp only [List.length_append, List.length_take]
            have e : Nat.min input.length (a.chunkMax - a.block_buffer.length) =
              min input.length (a.chunkMax - a.block_buffer.length) := rfl
            rw [e] at hr
            rw [h1] at hr ⊢
            omega
        · split at hp <;> cases hp
          rename_i h; obtain ⟨e1, e2⟩ := flush _ _ h
          exact ⟨e1, by simp only at e2; rw [e2]; exact hc⟩

/-- Every content (below the size bound) can be pushed. -/
theorem reaches_exists {sha : Bytes → Bytes} (hsha : ∀ b, (sha b).length = 32) {c bf : Nat} (hc : 0 < c) (hbf : 0 < bf)
    (x : Bytes) (hx : x.length < maxContent) : ∃ bs a, Reaches sha c bf x bs a := by
  generalize hn : x.length = n
  induction n generalizing x with
  | zero =>
    have : x = [] := List.length_eq_zero_iff.1 hn
    subst this; exact ⟨_, _, .start⟩
  | succ n ih =>
    obtain ⟨y, b, rfl⟩ : ∃ y b, x = y ++ [b] := by
      have hne : x ≠ [] := by intro h; rw [h] at hn; simp at hn
      exact ⟨x.dropLast, x.getLast hne, (List.dropLast_concat_getLast hne).symm⟩
    simp only [List.length_append, List.length_singleton] at hx hn
    obtain ⟨bs, a, hr⟩ := ih y (by omega) (by omega)
    obtain ⟨ds, inv, h1, -⟩ := reaches_inv hc hbf hr
    have hs := inv.small
    obtain ⟨a', N, ds', e1, -⟩ := push_step hsha hbf inv [b] (by
      rw [← h1]; simp only [List.length_append, List.length_take, List.length_singleton]; omega)
    have := Reaches.push [b] hr e1
    rw [show min [b].length (c - a.block_buffer.length) = 1 by simp; omega] at this
    exact ⟨_, _, this⟩

theorem adds_exists {sha : Bytes → Bytes} (hsha : ∀ b, (sha b).length = 32) {c bf : Nat} (hc : 0 < c) (hbf : 2 ≤ bf)
    (x : Bytes) (hx : x.length < maxContent) : Adds sha c bf x ((treesOf bf c x).map (FTree.entry sha)) := by
  obtain ⟨bs, a, hr⟩ := reaches_exists hsha hc (show 0 < bf by omega) x hx
  obtain ⟨ds, inv, h1, h2, hfit⟩ := reaches_inv hc (by omega) hr
  obtain ⟨N, e1, e2⟩ := finish_step hsha hbf inv (by rw [← h1]; exact hx)
  refine ⟨bs, a, _, hr, e1, ?_⟩
  rw [h2, h1, ← e2, List.map_append]

/-- A stand-in for SHA-256 in examples: a polynomial hash, zero padded. -/
def toySha (b : Bytes) : Bytes :=
  let n := b.foldl (fun a x => (a * 1000003 + x.toNat + 1) % (2 ^ 61 - 1)) 7
  (List.range 8).map (fun i => UInt8.ofNat (n / 256 ^ i % 256)) ++ List.replicate 24 0

theorem toySha_length (b : Bytes) : (toySha b).length = 32 := by
  simp [toySha]

/-- Example used below: five one-byte chunks, branching factor two: 5 leaves, 3 + 2 + 1 link blocks. -/
theorem sample_adds : ∃ blocks, Adds toySha 1 2 [1, 2, 3, 4, 5] blocks ∧ blocks.length = 11 :=
  ⟨_, adds_exists toySha_length (by decide) (by decide) _ (by decide), by rw [List.length_map]; rfl⟩

/-! ## C07 push makes progress -/

/-- C07. In every reachable state a push consumes no more than it was given, no more than a chunk, and at least one byte
of a non-empty input. -/
theorem C07_push_progress (sha : Bytes → Bytes) (c bf : Nat) (hc : 0 < c) (x : Bytes) (bs : List (Cid × Bytes))
    (a : FileAdder) (h : Reaches sha c bf x bs a) (input : Bytes) (a' : FileAdder) (bs' : List (Cid × Bytes)) (n : Nat)
    (hp : a.push sha input = some (.ok (a', bs', n))) :
    n ≤ input.length ∧ n ≤ c ∧ (input ≠ [] → 1 ≤ n) := by
  obtain ⟨h1, h2⟩ := reaches_small hc h
  obtain ⟨h3, -⟩ := push_consumed hp
  rw [h1] at h3
  refine ⟨by omega, by omega, ?_⟩
  intro hne
  have := List.length_pos_iff.2 hne
  omega

/-- C07, the feeding loop: pushing any content in pieces of any sizes and then finishing terminates with blocks.
(Branching factor one is the subject of C10.) -/
theorem C07_feed_terminates (sha : Bytes → Bytes) (hsha : ∀ b, (sha b).length = 32) (c bf : Nat) (hc : 0 < c)
    (hbf : 2 ≤ bf) (sizes : Nat → Nat) (x : Bytes) (hx : x.length < maxContent) :
    ∃ blocks, (newAdder c bf).feed sha sizes 0 x = some (.ok blocks) := by
  obtain ⟨N, h, -⟩ := feed_ok hsha hbf sizes x.length 0 [] (newAdder c bf) x (Nat.le_refl _) (newAdder_inv sha hc)
    (by simpa [newAdder, FileAdder.build] using hx)
  exact ⟨_, h⟩

/-- C07, the feeding loop without a bound on the content: it always ends. It returns blocks if the size of the balanced tree
fits into 64 bits, and panics on the arithmetic overflow if not. -/
theorem C07_feed_exact (sha : Bytes → Bytes) (c bf : Nat) (hc : 0 < c) (hbf : 2 ≤ bf) (sizes : Nat → Nat) (x : Bytes) :
    ∃ T, BalancedTree c bf x T ∧
      ((Fits sha T ∧ ∃ blocks, (newAdder c bf).feed sha sizes 0 x = some (.ok blocks)) ∨
       (¬ Fits sha T ∧ (newAdder c bf).feed sha sizes 0 x = some (.panic .adderOverflow))) := by
  obtain ⟨T, h1, h2⟩ := treesOf_layered hc hbf x
  refine ⟨T, h1, ?_⟩
  rcases feed_cases (sha := sha) hbf sizes x.length 0 [] (newAdder c bf) x (Nat.le_refl _) (newAdder_inv sha hc)
    (by simp [runT]) with ⟨h3, N, q1, -⟩ | ⟨h3, q1⟩
  · simp only [newAdder, FileAdder.build, List.flatten_nil, List.nil_append] at h3
    exact .inl ⟨h3 T (List.mem_of_getLast? h2), _, q1⟩
  · simp only [newAdder, FileAdder.build, List.flatten_nil, List.nil_append] at h3
    exact .inr ⟨fun hf => h3 (all_fit hc hbf h2 hf), q1⟩

/-- A run of the feeding loop is an addition in the sense of `Adds`, so everything below applies to it. -/
theorem feed_adds (sha : Bytes → Bytes) (c bf : Nat) (hc : 0 < c) (sizes : Nat → Nat) (x : Bytes)
    (blocks : List (Cid × Bytes)) (h : (newAdder c bf).feed sha sizes 0 x = some (.ok blocks)) : Adds sha c bf x blocks :=
  feed_history sizes x.length 0 [] [] (newAdder c bf) x blocks (Nat.le_refl _) .start (fun h => by
    obtain ⟨h1, h2⟩ := reaches_small hc h
    rw [h1]; exact h2) h

example : ∃ bs a, Reaches toySha 2 2 [1, 2, 3] bs a := reaches_exists toySha_length (by decide) (by decide) _ (by decide)

/-! ## C08 at most two blocks per push -/

/-- C08. -/
theorem C08_push_two_blocks (sha : Bytes → Bytes) (c bf : Nat) (hc : 0 < c)
    (hbf : 0 < bf) (x : Bytes) (bs : List (Cid × Bytes)) (a : FileAdder) (h : Reaches sha c bf x bs a) (input : Bytes)
    (a' : FileAdder) (bs' : List (Cid × Bytes)) (n : Nat)
    (hp : a.push sha input = some (.ok (a', bs', n))) : bs'.length ≤ 2 := by
  obtain ⟨ds, inv, h1, -, h3⟩ := reaches_inv hc hbf h
  rcases push_cases sha hbf inv h3 input with ⟨a'', N, ds', e1, -, -, -, -, e5⟩ | ⟨e1, -⟩
  · rw [hp] at e1; cases e1
    simpa using e5
  · rw [hp] at e1; cases e1

/-- Two blocks do occur: with branching factor one the second chunk completes a group. -/
example : ∃ a bs, Reaches toySha 1 1 [1] bs a ∧
    ∃ a' bs' n, a.push toySha [2] = some (.ok (a', bs', n)) := by
  obtain ⟨bs, a, h⟩ := reaches_exists toySha_length (c := 1) (bf := 1) (by decide) (by decide) [1] (by decide)
  obtain ⟨ds, inv, h1, -⟩ := reaches_inv (by decide) (by decide) h
  have hs := inv.small
  obtain ⟨a', N, ds', e1, -⟩ := push_step toySha_length (by decide) inv [2] (by
    rw [← h1]; simp only [List.length_append, List.length_take, List.length_singleton, maxContent]; omega)
  exact ⟨a, bs, h, _, _, _, e1⟩

/-! ## C09 push never panics -/

/-- The full property. -/
def C09_full : Prop := ∀ (sha : Bytes → Bytes), (∀ b, (sha b).length = 32) → ∀ (c bf : Nat), 0 < bf →
  ∀ x bs a, Reaches sha c bf x bs a → ∀ input, (x ++ input.take c).length < maxContent →
    ∃ r, a.push sha input = some (.ok r)

/-- The full property fails: `Chunker::Size(0)` is accepted by the builder, and then the first push panics on the
assertion about a missing leaf. -/
theorem C09_size_zero_panics (sha : Bytes → Bytes) (bf : Nat) (input : Bytes) :
    (newAdder 0 bf).push sha input = some (.panic .adderNoLeaf) := by
  simp [newAdder, FileAdder.build, FileAdder.push, chunkerAccept, FileAdder.flushChunk, flushBufferedLeaf]

theorem C09_full_false : ¬ C09_full := by
  intro h
  obtain ⟨r, hr⟩ := h toySha toySha_length 0 1 (by decide) [] [] _ .start [1] (by decide)
  rw [C09_size_zero_panics] at hr
  cases hr

/-- C09 for positive chunk sizes: every push in every reachable state returns, whatever the length of the content, provided a
group of `bf` chunks fits into 64 bits (as it does by far for every configuration in which a chunk fits into memory). -/
theorem C09_push_no_panic_partial (sha : Bytes → Bytes) (hsha : ∀ b, (sha b).length = 32) (c bf : Nat) (hc : 0 < c)
    (hbf : 0 < bf) (hg : bf * (c + 256) + 256 < 2 ^ 64) (x : Bytes) (bs : List (Cid × Bytes)) (a : FileAdder)
    (h : Reaches sha c bf x bs a) (input : Bytes) : ∃ r, a.push sha input = some (.ok r) := by
  obtain ⟨ds, inv, h1, -, hfit⟩ := reaches_inv hc hbf h
  rcases push_cases sha hbf inv hfit input with ⟨a'', N, ds', e1, -⟩ | ⟨-, e2, e3⟩
  · exact ⟨_, e1⟩
  · refine (e3 (runT_fits hsha hg fun d hd => ?_)).elim
    rcases List.mem_append.1 hd with h | h
    · exact inv.full d h
    · have := inv.small
      rw [List.mem_singleton.1 h, List.length_append, List.length_take]; omega

/-- C09, all configurations: the only panic with a positive chunk size is the overflow of the size of a completed group. -/
theorem C09_push_only_overflow_partial (sha : Bytes → Bytes) (c bf : Nat) (hc : 0 < c)
    (hbf : 0 < bf) (x : Bytes) (bs : List (Cid × Bytes)) (a : FileAdder) (h : Reaches sha c bf x bs a) (input : Bytes) :
    (∃ r, a.push sha input = some (.ok r)) ∨
    (a.push sha input = some (.panic .adderOverflow) ∧ ∃ group : List Bytes, group.length = bf ∧
      (∀ d ∈ group, d.length = c ∧ ∃ u v, x ++ input = u ++ d ++ v) ∧ 2 ^ 64 ≤ (FTree.node (group.map .leaf)).total sha) := by
  obtain ⟨ds, inv, h1, -, hfit⟩ := reaches_inv hc hbf h
  rcases push_cases sha hbf inv hfit input with ⟨a'', N, ds', e1, -⟩ | ⟨e1, e2, e3⟩
  · exact .inl ⟨_, e1⟩
  · refine .inr ⟨e1, ?_⟩
    obtain ⟨ts, q1, q2⟩ := not_fits e3
    obtain ⟨q3, q4⟩ := runT_nodes _ ts q1
    have hmap : ∀ us : List FTree, (∀ t ∈ us, ∃ d ∈ ds ++ [a.block_buffer ++ input.take (c - a.block_buffer.length)], t = .leaf d) →
        ∃ group : List Bytes, us = group.map .leaf ∧
          ∀ d ∈ group, d ∈ ds ++ [a.block_buffer ++ input.take (c - a.block_buffer.length)] := by
      intro us
      induction us with
      | nil => intro _; exact ⟨[], rfl, by simp⟩
      | cons t us ih =>
        intro hu
        obtain ⟨d, hd, rfl⟩ := hu t (by simp)
        obtain ⟨g, rfl, hg⟩ := ih (fun s hs => hu s (by simp [hs]))
        refine ⟨d :: g, rfl, fun e he => ?_⟩
        rcases List.mem_cons.1 he with rfl | he
        · exact hd
        · exact hg e he
    obtain ⟨g, rfl, hg⟩ := hmap ts q4
    refine ⟨g, by simpa using q3, fun d hd => ?_, q2⟩
    have hall : x ++ input = (ds ++ [a.block_buffer ++ input.take (c - a.block_buffer.length)]).flatten ++
        input.drop (c - a.block_buffer.length) := by
      rw [h1]; simp
    have hd' := hg d hd
    refine ⟨?_, ?_⟩
    · rcases List.mem_append.1 hd' with h | h
      · exact inv.full d h
      · have := inv.small
        rw [List.mem_singleton.1 h, List.length_append, List.length_take]; omega
    · obtain ⟨p, q, hpq⟩ := List.append_of_mem hd'
      refine ⟨p.flatten, q.flatten ++ input.drop (c - a.block_buffer.length), ?_⟩
      rw [hall, hpq]; simp

/-! ## C10 finish terminates -/

/-- The full property. -/
def C10_full : Prop := ∀ (sha : Bytes → Bytes), (∀ b, (sha b).length = 32) → ∀ (c bf : Nat), 0 < c → 0 < bf →
  ∀ x bs a, Reaches sha c bf x bs a → x.length < maxContent → ∃ bs', a.finish sha = some (.ok bs')

/-- C10, exactly when `finish` returns: if the balanced tree over the chunks exists (it does unless the branching factor is
one and there is more than one chunk) and its size fits into 64 bits. -/
theorem C10_finish_exact_partial (sha : Bytes → Bytes) (c bf : Nat) (hc : 0 < c) (hbf : 0 < bf) (x : Bytes)
    (bs : List (Cid × Bytes)) (a : FileAdder) (h : Reaches sha c bf x bs a) :
    (∃ bs', a.finish sha = some (.ok bs')) ↔ ∃ T, BalancedTree c bf x T ∧ Fits sha T := by
  constructor
  · rintro ⟨bs', hf⟩
    exact (adds_iff hc hbf x).1 ⟨_, bs, a, bs', h, hf, rfl⟩
  · rintro ⟨T, h1, h2⟩
    obtain ⟨ds, inv, rfl, -, hfit⟩ := reaches_inv hc hbf h
    by_cases hb : 2 ≤ bf
    · obtain ⟨U, h4, h5⟩ := treesOf_layered hc hb (ds.flatten ++ a.block_buffer)
      obtain rfl := layered_unique h1 h4
      obtain ⟨N, e1, -⟩ := finish_ok sha hb inv (all_fit hc hb h5 h2)
      exact ⟨_, e1⟩
    · have : bf = 1 := by omega
      subst this
      have hone := layered_one h1
      rw [List.length_map] at hone
      obtain ⟨bs', e1, -⟩ := finish_one sha hbf inv hone
      exact ⟨_, e1⟩

/-- What happens otherwise, with a branching factor of at least two: the overflow panic. -/
theorem C10_finish_overflow_partial (sha : Bytes → Bytes) (c bf : Nat) (hc : 0 < c) (hbf : 2 ≤ bf) (x : Bytes)
    (bs : List (Cid × Bytes)) (a : FileAdder) (h : Reaches sha c bf x bs a) :
    a.finish sha = some (.panic .adderOverflow) ↔ ∃ T, BalancedTree c bf x T ∧ ¬ Fits sha T := by
  obtain ⟨T, h1, h2⟩ := treesOf_layered hc hbf x
  constructor
  · intro hp
    refine ⟨T, h1, fun hf => ?_⟩
    obtain ⟨bs', e⟩ := (C10_finish_exact_partial sha c bf hc (by omega) x bs a h).2 ⟨T, h1, hf⟩
    rw [hp] at e; cases e
  · rintro ⟨U, h3, h4⟩
    obtain rfl := layered_unique h1 h3
    obtain ⟨ds, inv, rfl, -, hfit⟩ := reaches_inv hc (by omega) h
    exact finish_over sha hbf inv hfit fun hall => h4 (hall _ (List.mem_of_getLast? h2))

/-- C10 below the size bound: `finish` returns unless the branching factor is one and there is more than one chunk. -/
theorem C10_finish_iff_partial (sha : Bytes → Bytes) (hsha : ∀ b, (sha b).length = 32) (c bf : Nat) (hc : 0 < c)
    (hbf : 0 < bf) (x : Bytes) (bs : List (Cid × Bytes)) (a : FileAdder) (h : Reaches sha c bf x bs a)
    (hx : x.length < maxContent) :
    (∃ bs', a.finish sha = some (.ok bs')) ↔ (2 ≤ bf ∨ (chunks c x).length = 1) := by
  constructor
  · rintro ⟨bs', hf⟩
    exact (adds_trees hc hbf ⟨bs, a, bs', h, hf, rfl⟩).2.1
  · obtain ⟨ds, inv, rfl, h2, hfit⟩ := reaches_inv hc hbf h
    rintro (hb | hb)
    · obtain ⟨N, e1, -⟩ := finish_step hsha hb inv hx
      exact ⟨_, e1⟩
    · obtain ⟨bs', e1, -⟩ := finish_one sha hbf inv hb
      exact ⟨_, e1⟩

/-- The full property fails: with branching factor one and two chunks `finish` never returns blocks (it wraps the
pending links in ever more link blocks). -/
theorem C10_full_false : ¬ C10_full := by
  intro hf
  obtain ⟨bs, a, h⟩ := reaches_exists toySha_length (c := 1) (bf := 1) (by decide) (by decide) [1, 2] (by decide)
  have h1 := hf toySha toySha_length 1 1 (by decide) (by decide) _ _ _ h (by decide)
  have h2 := (C10_finish_iff_partial toySha toySha_length 1 1 (by decide) (by decide) _ _ _ h (by decide)).1 h1
  revert h2
  decide

/-! ## C11 independence of segmentation -/

/-- C11. Two histories which push the same content, cut up in whatever way, return the same blocks in the same order. -/
theorem C11_segmentation (sha : Bytes → Bytes) (c bf : Nat) (hc : 0 < c)
    (hbf : 0 < bf) (x : Bytes) (blocks blocks' : List (Cid × Bytes))
    (h : Adds sha c bf x blocks) (h' : Adds sha c bf x blocks') : blocks = blocks' := by
  rw [(adds_trees hc hbf h).1, (adds_trees hc hbf h').1]

/-- C11 for the feeding loop: the sizes of the offered pieces do not matter, not even for whether it succeeds. -/
theorem C11_feed (sha : Bytes → Bytes) (c bf : Nat) (hc : 0 < c) (hbf : 2 ≤ bf)
    (x : Bytes) (sizes sizes' : Nat → Nat) :
    (newAdder c bf).feed sha sizes 0 x = (newAdder c bf).feed sha sizes' 0 x := by
  have inv := newAdder_inv sha (c := c) (bf := bf) hc
  rcases feed_cases (sha := sha) hbf sizes x.length 0 [] (newAdder c bf) x (Nat.le_refl _) inv (by simp [runT]) with
    ⟨h1, N, q1, q2⟩ | ⟨h1, q1⟩ <;>
  rcases feed_cases (sha := sha) hbf sizes' x.length 0 [] (newAdder c bf) x (Nat.le_refl _) inv (by simp [runT]) with
    ⟨g1, N', r1, r2⟩ | ⟨g1, r1⟩
  · rw [q1, r1, List.append_cancel_left (q2.trans r2.symm)]
  · exact (g1 h1).elim
  · exact (h1 g1).elim
  · rw [q1, r1]

/-! ## C12 the root is the last block -/

/-- Block `b` has a link to the block stored as `e`. -/
def LinksTo (b : Bytes) (e : Cid × Bytes) : Prop :=
  ∃ m l, FlatUnixFs.tryParse b = .ok m ∧ l ∈ m.links ∧ l.Hash = some e.1.toBytes

/-- Blocks of `blocks` reachable by following links. -/
inductive ReachableFrom (blocks : List (Cid × Bytes)) (root : Cid × Bytes) : Cid × Bytes → Prop
  | refl : ReachableFrom blocks root root
  | step {e e' : Cid × Bytes} : ReachableFrom blocks root e → e' ∈ blocks → LinksTo e.2 e' → ReachableFrom blocks root e'

theorem reachable_nodes {sha : Bytes → Bytes} (blocks : List (Cid × Bytes)) (root : Cid × Bytes) (t : FTree) :
    (∀ s ∈ t.nodes, FlatUnixFs.tryParse (s.block sha) = .ok (s.msg sha)) →
    (∀ s ∈ t.nodes, s.entry sha ∈ blocks) → ReachableFrom blocks root (t.entry sha) →
    ∀ s ∈ t.nodes, ReachableFrom blocks root (s.entry sha) := by
  induction t using FTree.induct with
  | hl d => intro _ _ hr s hs; simp only [FTree.nodes, List.mem_singleton] at hs; subst hs; exact hr
  | hn ts ih =>
    intro hp hb hr s hs
    simp only [FTree.nodes, FTree.nodesL_eq, List.mem_cons, List.mem_flatMap] at hs
    rcases hs with rfl | ⟨c, hc, hs⟩
    · exact hr
    · have hsub : ∀ s ∈ c.nodes, s ∈ (FTree.node ts).nodes := fun s hs => by
        simp only [FTree.nodes, FTree.nodesL_eq, List.mem_cons, List.mem_flatMap]
        exact .inr ⟨c, hc, hs⟩
      refine ih c hc (fun s hs => hp s (hsub s hs)) (fun s hs => hb s (hsub s hs)) ?_ s hs
      refine .step hr (hb c (hsub c (FTree.self_mem_nodes c))) ⟨_, plink sha c, hp _ (FTree.self_mem_nodes _), ?_, rfl⟩
      rw [msg_links]
      exact List.mem_map_of_mem hc

/-- C12. Something is emitted, and every emitted block can be reached from the last one by following links. -/
theorem C12_root_last (sha : Bytes → Bytes) (hsha : ∀ b, (sha b).length = 32) (c bf : Nat) (hc : 0 < c) (hbf : 0 < bf)
    (x : Bytes) (blocks : List (Cid × Bytes)) (h : Adds sha c bf x blocks) (hsmall : BelowLimit blocks) :
    ∃ root, blocks.getLast? = some root ∧ ∀ e ∈ blocks, ReachableFrom blocks root e := by
  obtain ⟨T, ht, f⟩ := adds_facts hc hbf h
  refine ⟨T.entry sha, ?_, ?_⟩
  · rw [f.blocks, List.getLast?_map, f.em.last]; rfl
  · intro e he
    rw [f.blocks] at he
    obtain ⟨s, hs, rfl⟩ := List.mem_map.1 he
    refine reachable_nodes blocks _ T (fun s hs => f.parse hsha hsmall hs) (fun s hs => ?_) .refl s (f.em.perm.mem_iff.1 hs)
    rw [f.blocks]; exact List.mem_map_of_mem (f.em.perm.mem_iff.2 hs)

/-- C12 without the configuration bounds, in terms of the tree: the emitted blocks are those of all nodes of a tree
with the added content, each node once, and the last one is the root. -/
theorem C12_tree (sha : Bytes → Bytes) (c bf : Nat) (hc : 0 < c) (hbf : 0 < bf)
    (x : Bytes) (blocks : List (Cid × Bytes)) (h : Adds sha c bf x blocks) :
    ∃ T : FTree, T.content = x ∧ blocks.getLast? = some (T.entry sha) ∧ blocks.Perm (T.nodes.map (FTree.entry sha)) := by
  obtain ⟨T, ht, f⟩ := adds_facts hc hbf h
  refine ⟨T, f.content, ?_, ?_⟩
  · rw [f.blocks, List.getLast?_map, f.em.last]; rfl
  · rw [f.blocks]; exact f.em.perm.map _

/-! ## C13 children first -/

/-- C13. Every link of every emitted block is the Cid of a block emitted earlier. -/
theorem C13_children_first (sha : Bytes → Bytes) (hsha : ∀ b, (sha b).length = 32) (c bf : Nat) (hc : 0 < c) (hbf : 0 < bf)
    (x : Bytes) (blocks : List (Cid × Bytes)) (h : Adds sha c bf x blocks) (hsmall : BelowLimit blocks)
    (before : List (Cid × Bytes)) (e : Cid × Bytes) (after : List (Cid × Bytes)) (hb : blocks = before ++ e :: after) :
    ∃ m, FlatUnixFs.tryParse e.2 = .ok m ∧ ∀ l ∈ m.links, ∃ e' ∈ before, l.Hash = some e'.1.toBytes := by
  obtain ⟨T, ht, f⟩ := adds_facts hc hbf h
  rw [f.blocks] at hb
  obtain ⟨p, q, h1, h2, h3⟩ := List.map_eq_append_iff.1 hb
  obtain ⟨t, s, rfl, rfl, h5⟩ := List.map_eq_cons_iff.1 h3
  have htm : t ∈ T.nodes := f.em.perm.mem_iff.1 (by rw [h1]; simp)
  refine ⟨t.msg sha, f.parse hsha hsmall htm, ?_⟩
  intro l hl
  rw [msg_links] at hl
  obtain ⟨k, hk, rfl⟩ := List.mem_map.1 hl
  have := f.em.childrenFirst p t s h1 k hk
  exact ⟨k.entry sha, by rw [← h2]; exact List.mem_map_of_mem this, rfl⟩

/-! ## C14 Cids -/

/-- C14 for the adder: every pair is a block with its CIDv1 (codec 0x70 dag-pb, multihash 0x12 sha2-256). -/
theorem C14_adder_cids (sha : Bytes → Bytes) (c bf : Nat) (hc : 0 < c) (hbf : 0 < bf)
    (x : Bytes) (blocks : List (Cid × Bytes)) (h : Adds sha c bf x blocks) :
    ∀ e ∈ blocks, e.1 = { version := .v1, codec := 0x70, code := 0x12, digest := sha e.2 } := by
  obtain ⟨T, ht, f⟩ := adds_facts hc hbf h
  intro e he
  rw [f.blocks] at he
  obtain ⟨t, -, rfl⟩ := List.mem_map.1 he
  rfl

/-! ## C15 leaves are the chunks -/

/-- The content of a block without links. -/
def leafContent (e : Cid × Bytes) : Option Bytes :=
  match FlatUnixFs.tryParse e.2 with
  | .ok m => if m.links = [] then some (m.data.Data.getD []) else none
  | .error _ => none

theorem filterMap_congr' {α β : Type} (f g : α → Option β) (l : List α) (h : ∀ a ∈ l, f a = g a) :
    l.filterMap f = l.filterMap g := by
  induction l with
  | nil => rfl
  | cons a l ih => rw [List.filterMap_cons, List.filterMap_cons, h a (by simp), ih (fun b hb => h b (by simp [hb]))]

/-- C15. The linkless blocks, in order of emission, carry the consecutive chunks of the content. -/
theorem C15_leaves (sha : Bytes → Bytes) (hsha : ∀ b, (sha b).length = 32) (c bf : Nat) (hc : 0 < c) (hbf : 0 < bf)
    (x : Bytes) (blocks : List (Cid × Bytes)) (h : Adds sha c bf x blocks) (hsmall : BelowLimit blocks) :
    blocks.filterMap leafContent = chunks c x := by
  obtain ⟨T, ht, f⟩ := adds_facts hc hbf h
  rw [f.blocks, List.filterMap_map, ← f.em.leafOrder]
  apply filterMap_congr'
  intro t ht
  have htm := f.em.perm.mem_iff.1 ht
  simp only [Function.comp, leafContent, FTree.entry, f.parse hsha hsmall htm, msg_links]
  cases t with
  | leaf d => simp only [FTree.children, List.map_nil, if_true, msg_data, leafData]
  | node ts =>
    have := (f.em.arity _ htm ts rfl).1
    rw [if_neg (by intro h; have := congrArg List.length h; simp [FTree.children] at this; simp [this] at *)]
    rfl

/-- C15, what `chunks` are: they concatenate to the content, all but the last have the chunk size, the last is not longer
and not empty (unless the content is), and there are `⌈n/c⌉` of them, or one for the empty content. -/
theorem C15_chunks (c : Nat) (hc : 0 < c) (x : Bytes) :
    (chunks c x).flatten = x ∧ (∀ d ∈ (chunks c x).dropLast, d.length = c) ∧
    (∀ d ∈ chunks c x, d.length ≤ c ∧ (x ≠ [] → 1 ≤ d.length)) ∧
    (chunks c x).length = max 1 ((x.length + c - 1) / c) := by
  refine ⟨chunks_flatten hc x, ?_, ?_, ?_⟩
  · unfold chunks
    split
    · simp
    · rename_i hne
      clear hne
      induction x using groups_induct hc with
      | h0 => simp
      | h1 l hl ih =>
        rw [groups_cons hc hl]
        by_cases hd : l.drop c = []
        · rw [hd]; simp
        · have hne := groups_ne_nil hc hd
          rw [List.dropLast_cons_of_ne_nil hne]
          intro d hd'
          rcases List.mem_cons.1 hd' with rfl | hd'
          · have := List.length_pos_iff.2 hd
            simp at this ⊢; omega
          · exact ih d hd'
  · unfold chunks
    split
    · rename_i h; intro d hd; simp only [List.mem_singleton] at hd; subst hd; simp [h]
    · intro d hd
      have := groups_mem hc x d hd
      exact ⟨this.2, fun _ => this.1⟩
  · unfold chunks
    split
    · rename_i h; subst h
      simp only [List.length_singleton, List.length_nil, Nat.zero_add]
      rw [Nat.div_eq_of_lt (by omega)]; rfl
    · rename_i h
      have h1 := (groups_length hc x).1
      have h2 := (groups_length hc x).2 h
      have h3 := List.length_pos_iff.2 (groups_ne_nil hc h)
      have hpos := List.length_pos_iff.2 h
      generalize (groups c x).length = q at *
      have : (x.length + c - 1) / c = q := by
        apply Nat.div_eq_of_lt_le
        · obtain ⟨q', rfl⟩ : ∃ q', q = q' + 1 := ⟨q - 1, by omega⟩
          rw [Nat.add_sub_cancel] at h2
          rw [Nat.mul_comm, Nat.mul_add]; omega
        · rw [Nat.mul_comm, Nat.mul_add]; omega
      omega

/-! ## C16 balanced and bounded -/

/-- C16. The last block is the root of a file tree in which every inner node has between one and `bf` children and all
leaves are at the same depth. -/
theorem C16_balanced (sha : Bytes → Bytes) (hsha : ∀ b, (sha b).length = 32) (c bf : Nat) (hc : 0 < c) (hbf : 0 < bf)
    (x : Bytes) (blocks : List (Cid × Bytes)) (h : Adds sha c bf x blocks) (hsmall : BelowLimit blocks)
    (get : Cid → Option Bytes) (hget : Holds get blocks) :
    ∃ T root d, blocks.getLast? = some root ∧ FileAt get T root.2 ∧ T.content = x ∧ T.Arity bf ∧ T.Uniform d := by
  obtain ⟨T, d, f⟩ := adds_facts hc hbf h
  refine ⟨T, T.entry sha, d, ?_, f.fileAt hsha hsmall hget, f.content, f.em.arity, f.em.uniform⟩
  rw [f.blocks, List.getLast?_map, f.em.last]; rfl

/-- C16, block level: no emitted block has more than `bf` links. -/
theorem C16_links (sha : Bytes → Bytes) (hsha : ∀ b, (sha b).length = 32) (c bf : Nat) (hc : 0 < c) (hbf : 0 < bf)
    (x : Bytes) (blocks : List (Cid × Bytes)) (h : Adds sha c bf x blocks) (hsmall : BelowLimit blocks) :
    ∀ e ∈ blocks, ∃ m, FlatUnixFs.tryParse e.2 = .ok m ∧ m.links.length ≤ bf := by
  obtain ⟨T, d, f⟩ := adds_facts hc hbf h
  intro e he
  rw [f.blocks] at he
  obtain ⟨t, ht, rfl⟩ := List.mem_map.1 he
  have htm := f.em.perm.mem_iff.1 ht
  refine ⟨_, f.parse hsha hsmall htm, ?_⟩
  rw [msg_links, List.length_map]
  cases t with
  | leaf d => simp [FTree.children]
  | node ts => exact (f.em.arity _ htm ts rfl).2

/-! ## C17 declared sizes -/

/-- C17. The emitted blocks are those of the nodes of a tree with the added content; the block of each node declares
as filesize the number of content bytes below it, as blocksizes those of its children, and links to its children in
order, each with the total length of all blocks below and including the child as Tsize. -/
theorem C17_sizes (sha : Bytes → Bytes) (hsha : ∀ b, (sha b).length = 32) (c bf : Nat) (hc : 0 < c) (hbf : 0 < bf)
    (x : Bytes) (blocks : List (Cid × Bytes)) (h : Adds sha c bf x blocks) (hsmall : BelowLimit blocks) :
    ∃ T : FTree, T.content = x ∧ blocks.getLast? = some (T.entry sha) ∧ blocks.Perm (T.nodes.map (FTree.entry sha)) ∧
      ∀ t ∈ T.nodes, ∃ m, FlatUnixFs.tryParse (t.block sha) = .ok m ∧
        m.data.filesize = some t.content.length ∧
        m.data.blocksizes = t.children.map (fun k => k.content.length) ∧
        m.links.map (·.Hash) = t.children.map (fun k => some (k.cid sha).toBytes) ∧
        m.links.map (·.Tsize) = t.children.map (fun k => some (k.nodes.map (fun s => (s.block sha).length)).sum) := by
  obtain ⟨T, d, f⟩ := adds_facts hc hbf h
  refine ⟨T, f.content, ?_, ?_, ?_⟩
  · rw [f.blocks, List.getLast?_map, f.em.last]; rfl
  · rw [f.blocks]; exact f.em.perm.map _
  · intro t ht
    refine ⟨_, f.parse hsha hsmall ht, msg_filesize sha t, msg_blocksizes sha t, ?_, ?_⟩
    · rw [msg_links, List.map_map]; rfl
    · rw [msg_links, List.map_map]; rfl

/-! ## C21 minimal height -/

/-- C21. The common depth of the leaves is the least `d` such that `bf ^ d` is at least the number of chunks. -/
theorem C21_minimal_height (sha : Bytes → Bytes) (hsha : ∀ b, (sha b).length = 32) (c bf : Nat) (hc : 0 < c)
    (hbf : 2 ≤ bf) (x : Bytes) (blocks : List (Cid × Bytes)) (h : Adds sha c bf x blocks) (hsmall : BelowLimit blocks)
    (get : Cid → Option Bytes) (hget : Holds get blocks) :
    ∃ T root d, blocks.getLast? = some root ∧ FileAt get T root.2 ∧ T.content = x ∧ T.Uniform d ∧
      (chunks c x).length ≤ bf ^ d ∧ ∀ d', (chunks c x).length ≤ bf ^ d' → d ≤ d' := by
  obtain ⟨T, d, f⟩ := adds_facts hc (by omega) h
  refine ⟨T, T.entry sha, d, ?_, f.fileAt hsha hsmall hget, f.content, f.em.uniform, f.em.high, fun d' => f.em.minimal hbf⟩
  rw [f.blocks, List.getLast?_map, f.em.last]; rfl

/-! ## C52 different content, different root -/

theorem content_of_block {sha : Bytes → Bytes} (hsha : ∀ b, (sha b).length = 32) (t : FTree) : ∀ u : FTree,
    (∀ s ∈ t.nodes, FlatUnixFs.tryParse (s.block sha) = .ok (s.msg sha)) →
    (∀ s ∈ u.nodes, FlatUnixFs.tryParse (s.block sha) = .ok (s.msg sha)) →
    (∀ s ∈ t.nodes, ∀ ts, s = .node ts → ts ≠ []) → (∀ s ∈ u.nodes, ∀ ts, s = .node ts → ts ≠ []) →
    (∀ s ∈ t.nodes, ∀ v ∈ u.nodes, sha (s.block sha) = sha (v.block sha) → s.block sha = v.block sha) →
    t.block sha = u.block sha → t.content = u.content := by
  induction t using FTree.induct with
  | hl d =>
    intro u hp hq hn hm hcol hb
    have h1 := hp _ (FTree.self_mem_nodes _)
    rw [hb, hq _ (FTree.self_mem_nodes _)] at h1
    have h2 : u.msg sha = (FTree.leaf d).msg sha := Except.ok.inj h1
    cases u with
    | leaf d' =>
      have h3 := msg_data sha (.leaf d')
      rw [h2, msg_data] at h3
      exact h3
    | node us =>
      have h3 := msg_links sha (.node us)
      rw [h2, msg_links] at h3
      have := hm _ (FTree.self_mem_nodes _) us rfl
      simp [FTree.children] at h3
      exact absurd h3 this
  | hn ts ih =>
    intro u hp hq hn hm hcol hb
    have h1 := hp _ (FTree.self_mem_nodes _)
    rw [hb, hq _ (FTree.self_mem_nodes _)] at h1
    have h2 : u.msg sha = (FTree.node ts).msg sha := Except.ok.inj h1
    have h3 := msg_links sha u
    rw [h2, msg_links] at h3
    simp only [FTree.children] at h3
    cases u with
    | leaf d' =>
      have := hn _ (FTree.self_mem_nodes _) ts rfl
      simp at h3
      exact absurd h3 this
    | node us =>
      simp only at h3
      simp only [FTree.content, FTree.contents_eq]
      have key : ∀ (as bs : List FTree), (∀ a ∈ as, a ∈ ts) → (∀ b ∈ bs, b ∈ us) →
          as.map (plink sha) = bs.map (plink sha) → as.flatMap FTree.content = bs.flatMap FTree.content := by
        intro as
        induction as with
        | nil =>
          intro bs _ _ h
          cases bs with
          | nil => rfl
          | cons b bs => simp at h
        | cons a as iha =>
          intro bs ha hb' h
          cases bs with
          | nil => simp at h
          | cons b bs =>
            simp only [List.map_cons, List.cons.injEq] at h
            have ha1 := ha a (by simp)
            have hb1 := hb' b (by simp)
            have suba : ∀ s ∈ a.nodes, s ∈ (FTree.node ts).nodes := fun s hs => by
              simp only [FTree.nodes, FTree.nodesL_eq, List.mem_cons, List.mem_flatMap]
              exact .inr ⟨a, ha1, hs⟩
            have subb : ∀ s ∈ b.nodes, s ∈ (FTree.node us).nodes := fun s hs => by
              simp only [FTree.nodes, FTree.nodesL_eq, List.mem_cons, List.mem_flatMap]
              exact .inr ⟨b, hb1, hs⟩
            have hcid : a.cid sha = b.cid sha := by
              have e : (a.cid sha).toBytes = (b.cid sha).toBytes := by
                have := congrArg PBLink.Hash h.1
                simpa [plink] using this
              have e1 := Cid.tryFrom_toBytes _ (cidOf_fits hsha (a.block sha)) []
              have e2 := Cid.tryFrom_toBytes _ (cidOf_fits hsha (b.block sha)) []
              unfold FTree.cid at e ⊢
              rw [e, e2] at e1
              exact (Except.ok.inj e1).symm
            have hblk : a.block sha = b.block sha := by
              apply hcol a (suba a (FTree.self_mem_nodes a)) b (subb b (FTree.self_mem_nodes b))
              exact congrArg Cid.digest hcid
            have hc := ih a ha1 b (fun s hs => hp s (suba s hs)) (fun s hs => hq s (subb s hs))
              (fun s hs => hn s (suba s hs)) (fun s hs => hm s (subb s hs))
              (fun s hs v hv => hcol s (suba s hs) v (subb v hv)) hblk
            simp only [List.flatMap_cons]
            rw [hc, iha bs (fun a h => ha a (by simp [h])) (fun b h => hb' b (by simp [h])) h.2]
      exact key ts us (fun _ h => h) (fun _ h => h) h3

/-- C52. Two additions with the same configuration and the same root Cid added the same content, provided the hash
function has no collision among the blocks emitted by the two. -/
theorem C52_root_injective (sha : Bytes → Bytes) (hsha : ∀ b, (sha b).length = 32) (c bf : Nat) (hc : 0 < c) (hbf : 0 < bf)
    (x y : Bytes) (bx by' : List (Cid × Bytes))
    (h1 : Adds sha c bf x bx) (h2 : Adds sha c bf y by') (hsx : BelowLimit bx) (hsy : BelowLimit by')
    (hcol : ∀ e ∈ bx, ∀ e' ∈ by', sha e.2 = sha e'.2 → e.2 = e'.2)
    (rx ry : Cid × Bytes) (hrx : bx.getLast? = some rx) (hry : by'.getLast? = some ry) (hroot : rx.1 = ry.1) : x = y := by
  obtain ⟨T, d, f⟩ := adds_facts hc hbf h1
  obtain ⟨U, d', g⟩ := adds_facts hc hbf h2
  have memx : ∀ s ∈ T.nodes, s.entry sha ∈ bx := fun s hs => by
    rw [f.blocks]; exact List.mem_map_of_mem (f.em.perm.mem_iff.2 hs)
  have memy : ∀ s ∈ U.nodes, s.entry sha ∈ by' := fun s hs => by
    rw [g.blocks]; exact List.mem_map_of_mem (g.em.perm.mem_iff.2 hs)
  have ex : rx = T.entry sha := by
    have : bx.getLast? = some (T.entry sha) := by rw [f.blocks, List.getLast?_map, f.em.last]; rfl
    rw [this] at hrx; cases hrx; rfl
  have ey : ry = U.entry sha := by
    have : by'.getLast? = some (U.entry sha) := by rw [g.blocks, List.getLast?_map, g.em.last]; rfl
    rw [this] at hry; cases hry; rfl
  have hblk : T.block sha = U.block sha := by
    apply hcol _ (memx T (FTree.self_mem_nodes T)) _ (memy U (FTree.self_mem_nodes U))
    rw [ex, ey] at hroot
    exact congrArg Cid.digest hroot
  rw [← f.content, ← g.content]
  refine content_of_block hsha T U (fun s hs => f.parse hsha hsx hs) (fun s hs => g.parse hsha hsy hs) ?_ ?_ ?_ hblk
  · intro s hs ts he hn; have := f.em.arity s hs ts he; rw [hn] at this; simp at this
  · intro s hs ts he hn; have := g.em.arity s hs ts he; rw [hn] at this; simp at this
  · intro s hs v hv e
    exact hcol _ (memx s hs) _ (memy v hv) e

/-! ### the hypotheses are met -/

/-- A store holding the blocks of an addition exists for an addition of five chunks. -/
example : ∃ blocks get, Adds toySha 1 2 [1, 2, 3, 4, 5] blocks ∧ BelowLimit blocks ∧ Holds get blocks ∧ blocks.length = 11 := by
  refine ⟨_, fun c => (((treesOf 2 1 [1, 2, 3, 4, 5]).map (FTree.entry toySha)).find? (fun e => e.1 == c)).map (·.2),
    adds_exists toySha_length (by decide) (by decide) _ (by decide), ?_, ?_, by rw [List.length_map]; rfl⟩
  · unfold BelowLimit
    decide +kernel
  · unfold Holds
    decide +kernel

/-- No collision among the blocks of two different additions. -/
example : ∀ e ∈ (treesOf 2 1 [1, 2, 3]).map (FTree.entry toySha), ∀ e' ∈ (treesOf 2 1 [1, 2, 4]).map (FTree.entry toySha),
    toySha e.2 = toySha e'.2 → e.2 = e'.2 := by decide +kernel

end Verif.Props
