import Verif.Spec.Reserving
import Verif.Props.AdderKeeps
import Verif.Props.Debugging
/-
Property C106: the buffers of a `FileAdder`.
-/
namespace Verif.Props
open Verif Verif.Spec

/-! ### the reused vectors -/

theorem partitionLinks_length {level : Nat} : ∀ {ls : List Link} {n r : Nested}, partitionLinks level ls n = .ok r →
    r.links.length = n.links.length + ls.length ∧ r.blocksizes.length = n.blocksizes.length + ls.length
  | [], n, r, h => by cases h; simp
  | l :: ls, n, r, h => by
    rw [partitionLinks] at h
    split at h
    · cases h
    · cases hp : partitionLink l n with
      | err e => rw [hp] at h; cases h
      | panic p => rw [hp] at h; cases h
      | ok n' =>
        rw [hp] at h
        have := partitionLinks_length (show partitionLinks level ls n' = .ok r from h)
        simp only [partitionLink] at hp
        split at hp
        · cases hp
        · split at hp
          · cases hp
          · cases hp
            simp only [List.length_append, List.length_cons, List.length_nil] at this ⊢
            omega

/-- The reused vectors have no more elements than a block has links. -/
def Reused (bf : Nat) (links : List PBLink) (blocksizes : List Nat) : Prop := links.length ≤ bf ∧ blocksizes.length ≤ bf

def Reused.of (bf : Nat) : LevelEnd → Prop
  | .next s _ => Reused bf s.reused_links s.reused_blocksizes
  | .breakOuter s => Reused bf s.reused_links s.reused_blocksizes

theorem flushLevel_reused (sha : Bytes → Bytes) (bf level : Nat) (finishing : Bool) (start : Nat) (last : Option Nat) (s : FlushState) (r)
    (h : flushLevel sha bf level finishing start last s = some r) : Reused bf s.reused_links s.reused_blocksizes →
    ∀ e, r = .ok e → Reused.of bf e := by
  refine flushLevel.partial_correctness sha bf level finishing
    (fun start last s r => Reused bf s.reused_links s.reused_blocksizes → ∀ e, r = .ok e → Reused.of bf e) ?_ start last s r h
  intro rec ih start last s r h hs e he
  subst he
  split at h
  · cases h; exact hs
  · simp only at h
    split at h
    · split at h
      · cases h; exact hs
      · split at h
        · cases h; exact hs
        · cases h
        · cases h
    · split at h
      · cases h
      · cases h
      · rename_i n hn
        have hlen := partitionLinks_length hn
        have h1 : ∀ (a b : Nat) (l : List Link), ((l.take (Nat.min (a + b) l.length)).drop a).length ≤ b := by
          intro a b l
          simp only [List.length_drop, List.length_take]
          have : Nat.min (a + b) l.length ≤ a + b := Nat.min_le_left ..
          omega
        have hR : Reused bf n.links n.blocksizes := by
          constructor
          · rw [hlen.1, List.length_nil, Nat.zero_add]; exact h1 _ _ _
          · rw [hlen.2, List.length_nil, Nat.zero_add]; exact h1 _ _ _
        (repeat' split at h) <;> first | (cases h; done) | exact ih _ _ _ _ h hR e rfl

theorem flushLevels_reused (sha : Bytes → Bytes) (bf : Nat) (finishing : Bool) (level : Nat) (s : FlushState) (r)
    (h : flushLevels sha bf finishing level s = some r) : Reused bf s.reused_links s.reused_blocksizes →
    ∀ e, r = .ok e → Reused bf e.reused_links e.reused_blocksizes := by
  refine flushLevels.partial_correctness sha bf finishing
    (fun level s r => Reused bf s.reused_links s.reused_blocksizes → ∀ e, r = .ok e → Reused bf e.reused_links e.reused_blocksizes) ?_ level s r h
  intro rec ih level s r h hs e he
  subst he
  split at h
  · cases h; exact hs
  · split at h
    · cases h
    · cases h
    · cases h
    · rename_i s' hl
      cases h
      exact flushLevel_reused _ _ _ _ _ _ _ _ hl hs _ rfl
    · rename_i s' last hl
      have := flushLevel_reused _ _ _ _ _ _ _ _ hl hs _ rfl
      simp only at h
      (repeat' split at h) <;> first | (cases h; done) | exact ih _ _ _ h this e rfl

theorem flushChunk_reused {sha : Bytes → Bytes} {a a' : FileAdder} {chunk : Bytes} {bs}
    (h : a.flushChunk sha chunk = some (.ok (a', bs))) (hr : Reused a.collector.branching_factor a.collector.reused_links a.collector.reused_blocksizes) :
    Reused a.collector.branching_factor a'.collector.reused_links a'.collector.reused_blocksizes := by
  unfold FileAdder.flushChunk at h
  split at h
  · cases h
  · split at h
    · cases h
    · cases h
    · cases h
    · rename_i hf
      cases h
      unfold flushLinks at hf
      split at hf
      · cases hf
      · cases hf
      · cases hf
      · rename_i hl
        cases hf
        exact flushLevels_reused _ _ _ _ _ _ hl hr _ rfl

theorem push_reused {sha : Bytes → Bytes} {a a' : FileAdder} {input : Bytes} {bs n}
    (h : a.push sha input = some (.ok (a', bs, n))) (hr : Reused a.collector.branching_factor a.collector.reused_links a.collector.reused_blocksizes) :
    Reused a.collector.branching_factor a'.collector.reused_links a'.collector.reused_blocksizes := by
  unfold FileAdder.push at h
  split at h
  · cases h
  · cases h
  · split at h
    · split at h
      · cases h
      · cases h
      · cases h
      · rename_i hf
        cases h
        exact flushChunk_reused hf hr
    · simp only at h
      split at h
      · cases h; exact hr
      · split at h
        · cases h
        · cases h
        · cases h
        · rename_i hf
          cases h
          exact flushChunk_reused hf hr

/-! ### capacities -/

theorem reserve_large {size : Nat} {bf : Nat} (hs : 8 ≤ size) (hbf : 0 < bf) (len : Nat) (hl : len = 0) :
    reserveUpTo size bf 0 len = if 2 ^ 63 ≤ max 4 bf * size then .error .mk else .ok (max 4 bf) := by
  subst hl
  unfold reserveUpTo vecReserve
  rw [if_pos (by omega), if_neg (by omega)]
  simp only [Nat.sub_zero, Nat.zero_mul, Nat.zero_add, Nat.zero_max]
  by_cases h : U64 ≤ bf
  · rw [if_pos h, if_pos]
    have : 2 ^ 63 ≤ max 4 bf := by
      have : (2 : Nat) ^ 63 ≤ U64 := by decide
      omega
    have h2 : max 4 bf * 1 ≤ max 4 bf * size := Nat.mul_le_mul_left _ (by omega)
    omega
  · rw [if_neg h]
    have e : (isizeMax < max 4 bf * size) = (2 ^ 63 ≤ max 4 bf * size) := by
      unfold isizeMax
      apply propext
      omega
    simp only [e]

theorem reserve_again {size bf len : Nat} (hbf : 0 < bf) : reserveUpTo size bf (max 4 bf) len = .ok (max 4 bf) := by
  unfold reserveUpTo vecReserve
  split
  · rw [if_pos (by omega)]
  · rfl

/-- How the capacities are related to the adder. -/
structure Fitted (size c bf : Nat) (a : FileAdder) (caps : Capacities) : Prop where
  chunk : a.chunkMax = c
  bfac : a.collector.branching_factor = bf
  small : a.block_buffer.length < c
  buffer : (caps.buffer = 0 ∧ a.block_buffer = []) ∨ (caps.buffer = max 8 c ∧ ¬ ChunkTooLarge c)
  links : (caps.links = 0 ∧ caps.blocksizes = 0 ∧ a.collector.reused_links = [] ∧ a.collector.reused_blocksizes = []) ∨
    (caps.links = max 4 bf ∧ caps.blocksizes = max 4 bf ∧ ¬ TooManyLinks size bf)
  reused : Reused bf a.collector.reused_links a.collector.reused_blocksizes

open Classical in
theorem reserveLinks_eq {size c bf : Nat} {a : FileAdder} {caps : Capacities} (hs : 8 ≤ size) (hbf : 0 < bf) (h : Fitted size c bf a caps) :
    a.reserveLinks size caps =
      if TooManyLinks size bf then .error .mk else .ok { caps with links := max 4 bf, blocksizes := max 4 bf } := by
  unfold FileAdder.reserveLinks
  rw [h.bfac]
  rcases h.links with ⟨h1, h2, h3, h4⟩ | ⟨h1, h2, h3⟩
  · rw [h1, h2, reserve_large hs hbf _ (by rw [h3]; rfl), reserve_large (Nat.le_refl 8) hbf _ (by rw [h4]; rfl)]
    by_cases ht : TooManyLinks size bf
    · rw [if_pos ht, if_pos (show 2 ^ 63 ≤ max 4 bf * size from ht)]
    · rw [if_neg ht, if_neg (show ¬ 2 ^ 63 ≤ max 4 bf * size from ht)]
      have : ¬ 2 ^ 63 ≤ max 4 bf * 8 := by
        intro h8
        exact ht (Nat.le_trans h8 (Nat.mul_le_mul_left _ hs))
      rw [if_neg this]
  · rw [h1, h2, reserve_again hbf, reserve_again hbf, if_neg h3]

open Classical in
theorem reserveBuffer_eq {size c bf : Nat} {a : FileAdder} {caps : Capacities} (h : Fitted size c bf a caps) :
    (if caps.buffer = 0 then vecReserve 1 8 0 a.block_buffer.length a.sizeHint else .ok caps.buffer) =
      if ChunkTooLarge c then .error .mk else .ok (max 8 c) := by
  have hsmall := h.small
  rcases h.buffer with ⟨h1, h2⟩ | ⟨h1, h2⟩
  · rw [if_pos h1, h2, FileAdder.sizeHint, h.chunk]
    unfold vecReserve
    rw [h2] at hsmall
    simp only [List.length_nil] at hsmall ⊢
    rw [if_neg (by omega)]
    simp only [Nat.zero_mul, Nat.zero_add, Nat.zero_max, Nat.mul_one]
    by_cases hc : ChunkTooLarge c
    · rw [if_pos hc]
      unfold ChunkTooLarge at hc
      split
      · rfl
      · rw [if_pos]
        unfold isizeMax
        omega
    · rw [if_neg hc]
      unfold ChunkTooLarge at hc
      rw [if_neg (by rw [show U64 = 2 ^ 64 from rfl]; omega), if_neg]
      unfold isizeMax
      omega
  · rw [if_neg (by omega), h1, if_neg h2]

theorem extend_fits {c len more : Nat} (h : len + more ≤ c) : vecReserve 1 8 (max 8 c) len more = .ok (max 8 c) := by
  unfold vecReserve
  rw [if_pos (by omega)]

theorem leaf_some {sha : Bytes → Bytes} {chunk : Bytes} (h : chunk ≠ []) (links : List Link) :
    ∃ r, flushBufferedLeaf sha chunk links false = (some r, links ++ [⟨0, r.1, r.2.length, chunk.length⟩]) := by
  unfold flushBufferedLeaf
  rw [if_neg (by intro h'; exact h h'.1)]
  exact ⟨_, rfl⟩

open Classical in
/-- What `push` reserves. -/
theorem pushReserving_eq {sha : Bytes → Bytes} {size c bf : Nat} {a : FileAdder} {caps : Capacities} (hs : 8 ≤ size) (hbf : 0 < bf)
    (h : Fitted size c bf a caps) {input : Bytes} (hi : input.length ≤ isizeMax) :
    a.pushReserving sha size caps input =
      if ChunkTooLarge c ∨ (TooManyLinks size bf ∧ c ≤ a.block_buffer.length + input.length) then some (.error .mk)
      else withCaps (if c ≤ a.block_buffer.length + input.length then
          ⟨if a.block_buffer = [] then caps.buffer else max 8 c, max 4 bf, max 4 bf⟩
        else { caps with buffer := max 8 c }) (a.push sha input) := by
  have hsmall := h.small
  have hacc : chunkerAccept a.chunkMax input a.block_buffer = .ok (input.take (Nat.min input.length (c - a.block_buffer.length)),
      decide (c ≤ a.block_buffer.length + Nat.min input.length (c - a.block_buffer.length))) := by
    unfold chunkerAccept
    rw [h.chunk, if_neg (by omega)]
  have hmin : Nat.min input.length (c - a.block_buffer.length) = min input.length (c - a.block_buffer.length) := rfl
  have hready : (c ≤ a.block_buffer.length + Nat.min input.length (c - a.block_buffer.length)) ↔ c ≤ a.block_buffer.length + input.length := by
    rw [hmin]; omega
  have hlen : (input.take (Nat.min input.length (c - a.block_buffer.length))).length = min input.length (c - a.block_buffer.length) := by
    rw [List.length_take, hmin]; omega
  unfold FileAdder.pushReserving
  rw [hacc]
  simp only
  by_cases hr : c ≤ a.block_buffer.length + input.length
  · have hd : decide (c ≤ a.block_buffer.length + Nat.min input.length (c - a.block_buffer.length)) = true := decide_eq_true (hready.2 hr)
    rw [hd, if_pos hr]
    by_cases hb : a.block_buffer = []
    · rw [if_pos ⟨hb, rfl⟩, if_pos hb]
      have hlen0 : a.block_buffer.length = 0 := by rw [hb]; rfl
      obtain ⟨r, hl⟩ := leaf_some (sha := sha) (chunk := input.take (Nat.min input.length (c - a.block_buffer.length))) (by
        intro h0
        rw [h0] at hlen
        simp only [List.length_nil] at hlen
        omega) a.unflushed_links
      rw [hl]
      simp only
      rw [reserveLinks_eq hs hbf h]
      have hct : ¬ ChunkTooLarge c := by
        unfold ChunkTooLarge
        unfold isizeMax at hi
        omega
      by_cases ht : TooManyLinks size bf
      · rw [if_pos ht, if_pos (.inr ⟨ht, hr⟩)]
      · rw [if_neg ht, if_neg (fun h' => h'.elim hct (fun h => ht h.1))]
    · rw [if_neg (by rintro ⟨h', -⟩; exact hb h'), reserveBuffer_eq h, if_neg hb]
      by_cases hct : ChunkTooLarge c
      · rw [if_pos hct, if_pos (.inl hct)]
      · rw [if_neg hct]
        simp only
        rw [hlen, extend_fits (by omega)]
        simp only
        rw [if_neg (by simp)]
        obtain ⟨r, hl⟩ := leaf_some (sha := sha) (chunk := a.block_buffer ++ input.take (Nat.min input.length (c - a.block_buffer.length)))
          (by simp [hb]) a.unflushed_links
        rw [hl]
        simp only
        have h' : Fitted size c bf a { caps with buffer := max 8 c } := ⟨h.chunk, h.bfac, h.small, .inr ⟨rfl, hct⟩, h.links, h.reused⟩
        rw [reserveLinks_eq hs hbf h']
        by_cases ht : TooManyLinks size bf
        · rw [if_pos ht, if_pos (.inr ⟨ht, hr⟩)]
        · rw [if_neg ht, if_neg (fun h' => h'.elim hct (fun h => ht h.1))]
  · have hd : decide (c ≤ a.block_buffer.length + Nat.min input.length (c - a.block_buffer.length)) = false := decide_eq_false (fun h' => hr (hready.1 h'))
    rw [hd, if_neg hr, if_neg (by simp), reserveBuffer_eq h]
    by_cases hct : ChunkTooLarge c
    · rw [if_pos hct, if_pos (.inl hct)]
    · rw [if_neg hct]
      simp only
      rw [hlen, extend_fits (by omega)]
      simp only
      rw [if_pos trivial, if_neg (fun h' => h'.elim hct (fun h => hr h.2))]

theorem withCaps_ok {α : Type} {caps caps' : Capacities} {r : Run (FileAdder × α)} {a : FileAdder} {x : α}
    (h : withCaps caps r = some (.ok (.ok ((a, caps'), x)))) : r = some (.ok (a, x)) ∧ caps' = caps := by
  unfold withCaps at h
  split at h
  · cases h
  · cases h
  · cases h
  · cases h; exact ⟨rfl, rfl⟩

/-- A push which does not complete a chunk leaves the collector alone. -/
theorem push_unready {sha : Bytes → Bytes} {a a' : FileAdder} {input : Bytes} {bs n} (hr : a.block_buffer.length + input.length < a.chunkMax)
    (h : a.push sha input = some (.ok (a', bs, n))) : a'.collector = a.collector := by
  unfold FileAdder.push chunkerAccept at h
  rw [if_neg (by omega)] at h
  simp only at h
  have : decide (a.chunkMax ≤ a.block_buffer.length + Nat.min input.length (a.chunkMax - a.block_buffer.length)) = false := by
    rw [show Nat.min input.length (a.chunkMax - a.block_buffer.length) = min input.length (a.chunkMax - a.block_buffer.length) from rfl]
    exact decide_eq_false (by omega)
  rw [this, if_neg (by simp), if_pos rfl] at h
  cases h
  rfl

/-- A push which completes a chunk leaves nothing in the buffer. -/
theorem push_ready {sha : Bytes → Bytes} {a a' : FileAdder} {input : Bytes} {bs n} (hs : a.block_buffer.length ≤ a.chunkMax)
    (hr : a.chunkMax ≤ a.block_buffer.length + input.length)
    (h : a.push sha input = some (.ok (a', bs, n))) : a'.block_buffer = [] := by
  have hf : ∀ {chunk : Bytes} {a' : FileAdder} {bs}, a.flushChunk sha chunk = some (.ok (a', bs)) → a'.block_buffer = [] := by
    intro chunk a' bs h
    unfold FileAdder.flushChunk at h
    split at h
    · cases h
    · split at h
      · cases h
      · cases h
      · cases h
      · cases h; rfl
  unfold FileAdder.push chunkerAccept at h
  rw [if_neg (by omega)] at h
  simp only at h
  have : decide (a.chunkMax ≤ a.block_buffer.length + Nat.min input.length (a.chunkMax - a.block_buffer.length)) = true := by
    rw [show Nat.min input.length (a.chunkMax - a.block_buffer.length) = min input.length (a.chunkMax - a.block_buffer.length) from rfl]
    exact decide_eq_true (by omega)
  rw [this] at h
  split at h
  · split at h
    · cases h
    · cases h
    · cases h
    · rename_i hc
      cases h
      exact hf hc
  · rw [if_neg (by simp)] at h
    split at h
    · cases h
    · cases h
    · cases h
    · rename_i hc
      cases h
      exact hf hc

theorem reachesWith_fitted {sha : Bytes → Bytes} {size c bf : Nat} (hs : 8 ≤ size) (hc : 0 < c) (hbf : 0 < bf) {x bs a caps}
    (h : ReachesWith sha size c bf x bs a caps) : Reaches sha c bf x bs a ∧ Fitted size c bf a caps := by
  induction h with
  | start => exact ⟨.start, rfl, rfl, hc, .inl ⟨rfl, rfl⟩, .inl ⟨rfl, rfl, rfl, rfl⟩, Nat.zero_le _, Nat.zero_le _⟩
  | push input h hi hp ih =>
    obtain ⟨ih1, ih2⟩ := ih
    rw [pushReserving_eq hs hbf ih2 hi] at hp
    split at hp
    · cases hp
    · rename_i hno
      obtain ⟨h1, h2⟩ := withCaps_ok hp
      have hr := Reaches.push input ih1 h1
      obtain ⟨ds, inv, -⟩ := reaches_inv hc hbf hr
      have hre := push_reused h1 (ih2.bfac ▸ ih2.reused)
      rw [ih2.bfac] at hre
      refine ⟨hr, inv.chunk, inv.bfac, inv.small, ?_, ?_, hre⟩
      · rw [h2]
        split
        · rename_i hready
          have he := push_ready (by have := ih2.small; rw [ih2.chunk]; omega) (by rw [ih2.chunk]; exact hready) h1
          split
          · rcases ih2.buffer with h' | h'
            · exact .inl ⟨h'.1, he⟩
            · exact .inr h'
          · exact .inr ⟨rfl, fun h' => hno (.inl h')⟩
        · exact .inr ⟨rfl, fun h' => hno (.inl h')⟩
      · rw [h2]
        split
        · rename_i hready
          exact .inr ⟨rfl, rfl, fun h' => hno (.inr ⟨h', hready⟩)⟩
        · rename_i hready
          rw [push_unready (by rw [ih2.chunk]; omega) h1]
          exact ih2.links

theorem fitted_rest {sha : Bytes → Bytes} {c bf : Nat} (hc : 0 < c) (hbf : 0 < bf) {x bs a} (h : Reaches sha c bf x bs a) :
    a.block_buffer.length = x.length % c := by
  obtain ⟨ds, inv, h1, -, -⟩ := reaches_inv hc hbf h
  have hs := inv.small
  rw [h1, List.length_append, flatten_full ds inv.full, Nat.mul_add_mod, Nat.mod_eq_of_lt hs]

/-! ### C106 -/

/-- C106. `Vec::reserve`: if it returns, there is room for so many elements more, and nothing is given up; and nothing changes if there was room. It
panics only if the elements would take more bytes than any allocation can have, counting twice the capacity and the least one. -/
theorem C106_reserve (size least cap len additional : Nat) (hlen : len ≤ cap) :
    (∀ cap', vecReserve size least cap len additional = .ok cap' → cap ≤ cap' ∧ len + additional ≤ cap' ∧ (len + additional ≤ cap → cap' = cap)) ∧
    (∀ e, vecReserve size least cap len additional = .error e → cap < len + additional ∧
      (2 ^ 64 ≤ len + additional ∨ 2 ^ 63 ≤ max least (max (cap * 2) (len + additional)) * size)) := by
  unfold vecReserve
  constructor
  · intro cap' h
    split at h
    · cases h
      omega
    · split at h
      · cases h
      · simp only at h
        split at h
        · cases h
        · cases h
          omega
  · intro e h
    split at h
    · cases h
    · refine ⟨by omega, ?_⟩
      split at h
      · rename_i hu
        exact .inl hu
      · simp only at h
        split at h
        · rename_i hi
          unfold isizeMax at hi
          exact .inr (by omega)
        · cases h

/-- C106. The reservations aside, the adder behaves as before. After any pushes, the buffer for a chunk was not allocated, and there is no part of a
chunk, or it has room for a chunk; the two buffers for links were not allocated, and no chunk was completed, or they have room for the links of a
block; and they never have more elements, so they are never reallocated. -/
theorem C106_capacities (sha : Bytes → Bytes) (size c bf : Nat) (hs : 8 ≤ size) (hc : 0 < c) (hbf : 0 < bf) (x : Bytes) (bs : List (Cid × Bytes))
    (a : FileAdder) (caps : Capacities) (h : ReachesWith sha size c bf x bs a caps) :
    Reaches sha c bf x bs a ∧
    (caps.buffer = max 8 c ∨ (caps.buffer = 0 ∧ x.length % c = 0)) ∧
    ((caps.links = max 4 bf ∧ caps.blocksizes = max 4 bf) ∨ (caps.links = 0 ∧ caps.blocksizes = 0 ∧ x.length < c)) ∧
    a.collector.reused_links.length ≤ bf ∧ a.collector.reused_blocksizes.length ≤ bf := by
  obtain ⟨hr, hf⟩ := reachesWith_fitted hs hc hbf h
  refine ⟨hr, ?_, ?_, hf.reused⟩
  · rcases hf.buffer with ⟨h1, h2⟩ | ⟨h1, -⟩
    · refine .inr ⟨h1, ?_⟩
      rw [← fitted_rest hc hbf hr, h2]
      rfl
    · exact .inl h1
  · suffices hx : caps.links = 0 → x.length < c by
      rcases hf.links with ⟨h1, h2, -, -⟩ | ⟨h1, h2, -⟩
      · exact .inr ⟨h1, h2, hx h1⟩
      · exact .inl ⟨h1, h2⟩
    clear hr hf
    induction h with
    | start => exact fun _ => hc
    | push input h hi hp ih =>
      intro h0
      obtain ⟨hr, hf⟩ := reachesWith_fitted hs hc hbf h
      have hrest := fitted_rest hc hbf hr
      rw [pushReserving_eq hs hbf hf hi] at hp
      split at hp
      · cases hp
      · obtain ⟨-, h2⟩ := withCaps_ok hp
        rw [h2] at h0
        split at h0
        · simp only at h0
          omega
        · rename_i hlt
          have := ih h0
          rw [Nat.mod_eq_of_lt this] at hrest
          rw [List.length_append, List.length_take]
          omega

/-- C106. When a push panics for lack of room: if a chunk is too large for any allocation, always; and if the links are, when it completes a chunk. -/
theorem C106_push (sha : Bytes → Bytes) (size c bf : Nat) (hs : 8 ≤ size) (hc : 0 < c) (hbf : 0 < bf) (x : Bytes) (bs : List (Cid × Bytes))
    (a : FileAdder) (caps : Capacities) (h : ReachesWith sha size c bf x bs a caps) (input : Bytes) (hi : input.length < 2 ^ 63) :
    ((∃ e, a.pushReserving sha size caps input = some (.error e)) ↔ ChunkTooLarge c ∨ (TooManyLinks size bf ∧ c ≤ x.length % c + input.length)) ∧
    ((∀ e, a.pushReserving sha size caps input ≠ some (.error e)) →
      (∀ a' bs' n, a.push sha input = some (.ok (a', bs', n)) → ∃ caps', a.pushReserving sha size caps input = some (.ok (.ok ((a', caps'), bs', n)))) ∧
      (∀ p, a.push sha input = some (.panic p) → a.pushReserving sha size caps input = some (.ok (.panic p)))) := by
  obtain ⟨hr, hf⟩ := reachesWith_fitted hs hc hbf h
  have hi' : input.length ≤ isizeMax := by unfold isizeMax; omega
  rw [pushReserving_eq hs hbf hf hi', fitted_rest hc hbf hr]
  split
  · rename_i hbad
    exact ⟨⟨fun _ => hbad, fun _ => ⟨_, rfl⟩⟩, fun hno => (hno _ rfl).elim⟩
  · rename_i hok
    generalize hcaps : (if c ≤ x.length % c + input.length then _ else _ : Capacities) = caps'
    refine ⟨⟨?_, fun hbad => (hok hbad).elim⟩, fun _ => ⟨?_, ?_⟩⟩
    · rintro ⟨e, he⟩
      unfold withCaps at he
      split at he <;> cases he
    · intro a' bs' n hp
      rw [hp]
      exact ⟨_, rfl⟩
    · intro p hp
      rw [hp]
      rfl

/-- C106. `finish` panics for lack of room exactly if the links of a block are too large for any allocation, be it or not that there are any. -/
theorem C106_finish (sha : Bytes → Bytes) (size c bf : Nat) (hs : 8 ≤ size) (hc : 0 < c) (hbf : 0 < bf) (x : Bytes) (bs : List (Cid × Bytes))
    (a : FileAdder) (caps : Capacities) (h : ReachesWith sha size c bf x bs a caps) :
    ((∃ e, a.finishReserving sha size caps = some (.error e)) ↔ TooManyLinks size bf) ∧
    (¬ TooManyLinks size bf → a.finishReserving sha size caps = (a.finish sha).map .ok) := by
  obtain ⟨hr, hf⟩ := reachesWith_fitted hs hc hbf h
  unfold FileAdder.finishReserving
  rw [reserveLinks_eq hs hbf hf]
  by_cases ht : TooManyLinks size bf
  · rw [if_pos ht]
    exact ⟨⟨fun _ => ht, fun _ => ⟨_, rfl⟩⟩, fun h' => (h' ht).elim⟩
  · rw [if_neg ht]
    refine ⟨⟨?_, fun h' => (ht h').elim⟩, fun _ => rfl⟩
    rintro ⟨e, he⟩
    simp only at he
    cases hfin : a.finish sha with
    | none => rw [hfin] at he; cases he
    | some r => rw [hfin] at he; cases he

/-- C106. With chunks too large no push ever returns, not even of nothing; with blocks of too many links no block is ever returned, by pushes or
by `finish`. -/
theorem C106_useless (sha : Bytes → Bytes) (size c bf : Nat) (hs : 8 ≤ size) (hc : 0 < c) (hbf : 0 < bf) (x : Bytes) (bs : List (Cid × Bytes))
    (a : FileAdder) (caps : Capacities) (h : ReachesWith sha size c bf x bs a caps) :
    (ChunkTooLarge c → a = newAdder c bf ∧ x = [] ∧ bs = [] ∧
      ∀ input : Bytes, input.length < 2 ^ 63 → ∃ e, a.pushReserving sha size caps input = some (.error e)) ∧
    (TooManyLinks size bf → x.length < c ∧ bs = [] ∧ ∃ e, a.finishReserving sha size caps = some (.error e)) := by
  constructor
  · intro ht
    refine (fun hp => ⟨?_, ?_, ?_, hp⟩) (fun input hi => ((C106_push sha size c bf hs hc hbf x bs a caps h input hi).1).2 (.inl ht))
    all_goals
      cases h with
      | start => rfl
      | push input h hi hp =>
        obtain ⟨e, he⟩ := ((C106_push sha size c bf hs hc hbf _ _ _ _ h input (by unfold isizeMax at hi; omega)).1).2 (.inl ht)
        rw [hp] at he
        cases he
  · intro ht
    have hx : x.length < c := by
      obtain ⟨hr, hf⟩ := reachesWith_fitted hs hc hbf h
      rcases (C106_capacities sha size c bf hs hc hbf x bs a caps h).2.2.1 with h' | h'
      · rcases hf.links with h'' | h''
        · rw [h''.1] at h'; omega
        · exact (h''.2.2 ht).elim
      · exact h'.2.2
    refine ⟨hx, ?_, (C106_finish sha size c bf hs hc hbf x bs a caps h).1.2 ht⟩
    obtain ⟨hr, -⟩ := reachesWith_fitted hs hc hbf h
    obtain ⟨ds, inv, h1, h2, -⟩ := reaches_inv hc hbf hr
    cases ds with
    | nil => exact h2
    | cons d ds =>
      have := inv.full d (by simp)
      rw [h1] at hx
      simp only [List.flatten_cons, List.length_append] at hx
      omega

/-- C106. Without such sizes, all pushes return (provided a group of chunks fits into 64 bits) and `finish` does what it does; whatever the length of the content, the
buffers of an adder take no more than this many bytes. -/
theorem C106_memory (sha : Bytes → Bytes) (hsha : ∀ b, (sha b).length = 32) (size c bf : Nat) (hs : 8 ≤ size) (hc : 0 < c) (hbf : 0 < bf)
    (hct : ¬ ChunkTooLarge c) (htl : ¬ TooManyLinks size bf) (hg : bf * (c + 256) + 256 < 2 ^ 64) (x : Bytes) (bs : List (Cid × Bytes))
    (a : FileAdder) (caps : Capacities) (h : ReachesWith sha size c bf x bs a caps) :
    (∀ input : Bytes, input.length < 2 ^ 63 → ∃ r, a.pushReserving sha size caps input = some (.ok (.ok r))) ∧
    (a.finishReserving sha size caps = (a.finish sha).map .ok) ∧
    caps.buffer + caps.links * size + caps.blocksizes * 8 ≤ max 8 c + max 4 bf * (size + 8) := by
  obtain ⟨hr, h1, h2, -, -⟩ := C106_capacities sha size c bf hs hc hbf x bs a caps h
  refine ⟨?_, (C106_finish sha size c bf hs hc hbf x bs a caps h).2 htl, ?_⟩
  · intro input hi
    have hp := C106_push sha size c bf hs hc hbf x bs a caps h input hi
    have hno : ∀ e, a.pushReserving sha size caps input ≠ some (.error e) := fun e he => (hp.1.1 ⟨e, he⟩).elim hct (fun h => htl h.1)
    obtain ⟨⟨a', bs', n⟩, hpush⟩ := C09_push_no_panic_partial sha hsha c bf hc hbf hg x bs a hr input
    obtain ⟨caps', e⟩ := (hp.2 hno).1 a' bs' n hpush
    exact ⟨_, e⟩
  · rw [Nat.mul_add]
    rcases h1 with h1 | h1 <;> rcases h2 with h2 | h2
    · rw [h1, h2.1, h2.2]; omega
    · rw [h1, h2.1, h2.2.1]; omega
    · rw [h1.1, h2.1, h2.2]; omega
    · rw [h1.1, h2.1, h2.2.1]; omega

/-- C106. What `Debug` shows of the buffer: the bytes since the last whole chunk, and how many there is room for. -/
theorem C106_debug (sha : Bytes → Bytes) (size c bf : Nat) (hs : 8 ≤ size) (hc : 0 < c) (hbf : 0 < bf) (x : Bytes) (bs : List (Cid × Bytes))
    (a : FileAdder) (caps : Capacities) (h : ReachesWith sha size c bf x bs a caps) (hx : x.length % c ≠ 0) :
    a.debug caps.buffer =
      if pendingGroups bf (x.length / c) < 2 ^ 31 ∧ pendingLeaves bf (x.length / c) < 2 ^ 31 then
        .ok (adderText c (x.length % c) (max 8 c) (pendingGroups bf (x.length / c)) (pendingLeaves bf (x.length / c)))
      else .panic .adderFormat := by
  obtain ⟨hr, h1, -⟩ := C106_capacities sha size c bf hs hc hbf x bs a caps h
  rw [C97_debug sha c bf hc hbf x bs a hr]
  rcases h1 with h1 | h1
  · rw [h1]
  · exact (hx h1.2).elim

/-- C106 is not vacuous: with chunks of two bytes and 174 links all is well, the buffers grow as told; with chunks of 2^63 bytes the first push
panics, of whatever; and with 2^60 links there is a panic when a chunk is complete. -/
theorem C106_example (sha : Bytes → Bytes) (hsha : ∀ b, (sha b).length = 32) :
    (∃ a caps, ReachesWith sha 80 2 174 [7] [] a caps ∧ caps = ⟨8, 0, 0⟩) ∧
    (∃ bs a caps, ReachesWith sha 80 2 174 [7, 8] bs a caps ∧ caps = ⟨8, 174, 174⟩) ∧
    (∃ bs a caps, ReachesWith sha 80 2 174 [7, 8, 9, 10] bs a caps ∧ caps = ⟨8, 174, 174⟩) ∧
    (∃ bs a caps, ReachesWith sha 80 1 174 [7] bs a caps ∧ caps = ⟨0, 174, 174⟩) ∧
    (newAdder (2 ^ 63) 174).pushReserving sha 80 {} [] = some (.error .mk) ∧
    (∃ a caps, ReachesWith sha 80 2 (2 ^ 60) [7] [] a caps ∧ a.pushReserving sha 80 caps [8] = some (.error .mk)) := by
  have one : ∀ bf, 0 < bf → ∃ a caps, ReachesWith sha 80 2 bf [7] [] a caps ∧ caps = ⟨8, 0, 0⟩ := by
    intro bf hbf
    have hf := (reachesWith_fitted (sha := sha) (size := 80) (c := 2) (bf := bf) (by decide) (by decide) hbf .start).2
    refine ⟨_, _, .push [7] .start (by decide) (a' := { newAdder 2 bf with block_buffer := [7] }) (caps' := ⟨8, 0, 0⟩) (bs' := []) (n := 1) ?_, rfl⟩
    rw [pushReserving_eq (by decide) hbf hf (by decide), if_neg]
    · rfl
    · rintro (h | h)
      · unfold ChunkTooLarge at h; omega
      · have h2 : 2 ≤ 0 + 1 := h.2
        omega
  have next : ∀ c x bs a caps, 0 < c → c ≤ 2 → ReachesWith sha 80 c 174 x bs a caps → ∀ input : Bytes, input.length ≤ 2 →
      x.length % c + input.length = c →
      ∃ bs' a' caps', ReachesWith sha 80 c 174 (x ++ input) bs' a' caps' ∧
        caps' = ⟨if x.length % c = 0 then caps.buffer else max 8 c, 174, 174⟩ := by
    intro c x bs a caps hc hc2 h input hi hx
    obtain ⟨hr, hf⟩ := reachesWith_fitted (by decide) hc (by decide) h
    have hi' : input.length ≤ isizeMax := by unfold isizeMax; omega
    obtain ⟨⟨a', bs', n⟩, hp⟩ := C09_push_no_panic_partial sha hsha c 174 hc (by decide) (by omega) x bs a hr input
    have hrest := fitted_rest hc (by decide) hr
    have hn : n = input.length := by
      have := (push_consumed hp).1
      rw [this, hf.chunk]
      show min input.length _ = _
      omega
    have e := pushReserving_eq (sha := sha) (size := 80) (by decide) (by decide) hf hi'
    rw [if_neg (fun hbad => hbad.elim (fun h => by unfold ChunkTooLarge at h; omega) (fun h => absurd h.1 (by unfold TooManyLinks; decide))),
      if_pos (by omega), hp] at e
    have hb : (a.block_buffer = []) = (x.length % c = 0) := by
      rw [← hrest]
      exact propext List.length_eq_zero_iff.symm
    have hw := ReachesWith.push input h hi' e
    rw [hn, List.take_length] at hw
    refine ⟨_, _, _, hw, ?_⟩
    simp only [hb]
    rfl
  refine ⟨one 174 (by decide), ?_, ?_, ?_, ?_, ?_⟩
  · obtain ⟨a, caps, h, hcaps⟩ := one 174 (by decide)
    obtain ⟨bs', a', caps', h', e⟩ := next 2 _ _ _ _ (by decide) (by decide) h [8] (by decide) rfl
    exact ⟨_, _, _, h', e⟩
  · obtain ⟨a, caps, h, hcaps⟩ := one 174 (by decide)
    obtain ⟨bs', a', caps', h', e⟩ := next 2 _ _ _ _ (by decide) (by decide) h [8] (by decide) rfl
    obtain ⟨bs'', a'', caps'', h'', e'⟩ := next 2 _ _ _ _ (by decide) (by decide) h' [9, 10] (by decide) rfl
    refine ⟨_, _, _, h'', ?_⟩
    rw [e', e]
    rfl
  · obtain ⟨bs', a', caps', h', e⟩ := next 1 _ _ _ _ (by decide) (by decide) .start [7] (by decide) rfl
    exact ⟨_, _, _, h', e⟩
  · have := (C106_push sha 80 (2 ^ 63) 174 (by decide) (by decide) (by decide) _ _ _ _ .start [] (by decide)).1.2 (.inl (Nat.le_refl _))
    obtain ⟨⟨⟩, h⟩ := this
    exact h
  · obtain ⟨a, caps, h, hcaps⟩ := one (2 ^ 60) (by decide)
    obtain ⟨⟨⟩, h'⟩ := (C106_push sha 80 2 (2 ^ 60) (by decide) (by decide) (by decide) _ _ _ _ h [8] (by decide)).1.2
      (.inr ⟨by unfold TooManyLinks; decide, by decide⟩)
    exact ⟨a, caps, h, h'⟩

end Verif.Props
