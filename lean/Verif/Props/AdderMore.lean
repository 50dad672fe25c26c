import Verif.Props.Adder
/-
More on adding files: C13 and C14 for histories which were interrupted before `finish`, C55 (what exactly a push
consumes and returns), C56 (the defaults and the size hint).
-/
namespace Verif.Props
open Verif Verif.Spec

theorem flatten_full {c : Nat} (ds : List Bytes) (h : ∀ d ∈ ds, d.length = c) : ds.flatten.length = c * ds.length := by
  induction ds with
  | nil => simp
  | cons d ds ih =>
    have := ih (fun x hx => h x (by simp [hx]))
    have h2 := h d (by simp)
    simp only [List.flatten_cons, List.length_append, List.length_cons, Nat.mul_add]; omega

/-! ## C13 and C14 at every moment -/

/-- C13 for interrupted additions. Whenever the client stops (a crash, say), every link of every block returned so far
is the Cid of a block returned earlier. -/
theorem C13_children_first_unfinished (sha : Bytes → Bytes) (hsha : ∀ b, (sha b).length = 32) (c bf : Nat)
    (hc : 0 < c) (hbf : 0 < bf) (x : Bytes) (bs : List (Cid × Bytes)) (a : FileAdder)
    (h : Reaches sha c bf x bs a) (hsmall : BelowLimit bs) (before : List (Cid × Bytes)) (e : Cid × Bytes) (after : List (Cid × Bytes))
    (hb : bs = before ++ e :: after) :
    ∃ m, FlatUnixFs.tryParse e.2 = .ok m ∧ ∀ l ∈ m.links, ∃ e' ∈ before, l.Hash = some e'.1.toBytes := by
  obtain ⟨ds, inv, h1, h2, hfit⟩ := reaches_inv hc hbf h
  have hsmall' := hsmall
  rw [h2] at hb hsmall'
  obtain ⟨p, q, h3, h4, h5⟩ := List.map_eq_append_iff.1 hb
  obtain ⟨t, s, rfl, rfl, h6⟩ := List.map_eq_cons_iff.1 h5
  refine ⟨t.msg sha, tree_parse hsha (hsmall' (t.entry sha) (List.mem_map_of_mem (by rw [h3]; simp))) (hfit t (by rw [h3]; simp)), ?_⟩
  intro l hl
  rw [msg_links] at hl
  obtain ⟨k, hk, rfl⟩ := List.mem_map.1 hl
  have := (runT_inv hbf ds).forest.cf p t s h3 k hk
  exact ⟨k.entry sha, by rw [← h4]; exact List.mem_map_of_mem this, rfl⟩

/-- C14 for interrupted additions. -/
theorem C14_adder_cids_unfinished (sha : Bytes → Bytes) (c bf : Nat) (hc : 0 < c)
    (hbf : 0 < bf) (x : Bytes) (bs : List (Cid × Bytes)) (a : FileAdder)
    (h : Reaches sha c bf x bs a) :
    ∀ e ∈ bs, e.1 = { version := .v1, codec := 0x70, code := 0x12, digest := sha e.2 } := by
  obtain ⟨ds, inv, h1, h2, hfit⟩ := reaches_inv hc hbf h
  intro e he
  rw [h2] at he
  obtain ⟨t, -, rfl⟩ := List.mem_map.1 he
  rfl

example : ∃ bs a, Reaches toySha 1 2 [1, 2, 3, 4] bs a := reaches_exists toySha_length (by decide) (by decide) _ (by decide)

/-! ## C55 what a push does -/

theorem chunks_unique {c : Nat} (hc : 0 < c) {ds ds' : List Bytes} (h : ∀ d ∈ ds, d.length = c)
    (h' : ∀ d ∈ ds', d.length = c) {r r' : Bytes} (hr : r.length < c) (hr' : r'.length < c)
    (e : ds.flatten ++ r = ds'.flatten ++ r') : ds = ds' ∧ r = r' := by
  have hl : ds.length = ds'.length := by
    have := congrArg List.length e
    rw [List.length_append, List.length_append, flatten_full ds h, flatten_full ds' h'] at this
    have h1 : (c * ds.length + r.length) / c = ds.length := by
      rw [Nat.mul_add_div hc, Nat.div_eq_of_lt hr]; omega
    have h2 : (c * ds'.length + r'.length) / c = ds'.length := by
      rw [Nat.mul_add_div hc, Nat.div_eq_of_lt hr']; omega
    rw [this, h2] at h1; exact h1.symm
  have hf := List.append_inj e (by rw [flatten_full ds h, flatten_full ds' h', hl])
  refine ⟨?_, hf.2⟩
  have g1 := groups_append_full hc ds h []
  have g2 := groups_append_full hc ds' h' []
  simp only [groups_nil, List.append_nil] at g1 g2
  rw [← g1, ← g2, hf.1]

/-- C55. A push on an adder which has consumed `x` consumes the input up to the next multiple of the chunk size `c`.
Unless it gets there it returns no block. When it does, the first returned block is a leaf carrying the last `c` bytes
consumed, and it is followed by a second block, with exactly `bf` links, precisely when this chunk is the first of a new
group of `bf` chunks (and not the very first). -/
theorem C55_push_exact (sha : Bytes → Bytes) (hsha : ∀ b, (sha b).length = 32) (c bf : Nat) (hc : 0 < c) (hbf : 0 < bf) (x : Bytes)
    (bs : List (Cid × Bytes)) (a : FileAdder) (h : Reaches sha c bf x bs a) (input : Bytes) (a' : FileAdder) (bs' : List (Cid × Bytes))
    (n : Nat) (hp : a.push sha input = some (.ok (a', bs', n))) : n = min input.length (c - x.length % c) ∧
      (x.length % c + input.length < c → bs' = []) ∧
      (c ≤ x.length % c + input.length → ∃ leaf links, bs' = leaf :: links ∧
        (leaf.2.length < 2 ^ 32 → leafContent leaf = some ((x ++ input.take n).drop (x.length + n - c))) ∧
        (¬ (1 < (x.length + n) / c ∧ ((x.length + n) / c) % bf = 1 % bf) → links = []) ∧
        (1 < (x.length + n) / c ∧ ((x.length + n) / c) % bf = 1 % bf → ∃ e, links = [e] ∧
          (e.2.length < 2 ^ 32 → ∃ m, FlatUnixFs.tryParse e.2 = .ok m ∧ m.links.length = bf))) := by
  obtain ⟨ds, inv, h1, -, hfit⟩ := reaches_inv hc hbf h
  have hs := inv.small
  have hmod : x.length % c = a.block_buffer.length := by
    rw [h1, List.length_append, flatten_full ds inv.full, Nat.mul_add_mod, Nat.mod_eq_of_lt hs]
  have hxl : x.length = c * ds.length + a.block_buffer.length := by
    rw [h1, List.length_append, flatten_full ds inv.full]
  rcases push_cases sha hbf inv hfit input with ⟨a', N, ds', e1, inv', hfit', e2, e3, -⟩ | ⟨e1, -⟩
  case inr => rw [e1] at hp; cases hp
  rw [e1] at hp
  cases hp
  rw [← h1] at e2
  refine ⟨by rw [hmod], ?_, ?_⟩
  · intro hlt
    rw [hmod] at hlt
    have ht : input.take (c - a.block_buffer.length) = input := List.take_of_length_le (by omega)
    rw [ht, h1, List.append_assoc] at e2
    obtain ⟨rfl, -⟩ := chunks_unique hc inv'.full inv.full inv'.small (r' := a.block_buffer ++ input)
      (by rw [List.length_append]; exact hlt) e2
    have : N = [] := by
      have := congrArg List.length e3; rw [List.length_append] at this
      exact List.length_eq_zero_iff.1 (by omega)
    rw [this]; rfl
  · intro hge
    rw [hmod] at hge
    have hn : min input.length (c - a.block_buffer.length) = c - a.block_buffer.length := by omega
    rw [hn]
    obtain ⟨d, hd⟩ : ∃ d, d = a.block_buffer ++ input.take (c - a.block_buffer.length) := ⟨_, rfl⟩
    have hdl : d.length = c := by rw [hd, List.length_append, List.length_take]; omega
    have e4 : ds'.flatten ++ a'.block_buffer = (ds ++ [d]).flatten ++ [] := by
      rw [e2, h1, hd]; simp
    have hfull' : ∀ d' ∈ ds ++ [d], d'.length = c := by
      intro d' hd'
      rcases List.mem_append.1 hd' with hm | hm
      · exact inv.full d' hm
      · rw [List.mem_singleton.1 hm]; exact hdl
    obtain ⟨hds, -⟩ := chunks_unique hc inv'.full hfull' inv'.small (r' := []) (by simpa using hc) e4
    subst hds
    have hp : ∀ t ∈ N, (t.entry sha).2.length < 2 ^ 32 → FlatUnixFs.tryParse (t.block sha) = .ok (t.msg sha) := fun t ht hs =>
      tree_parse hsha hs (hfit' t (by rw [e3]; exact List.mem_append.2 (.inr ht)))
    have hleaf : ∀ t : FTree, t = .leaf d → FlatUnixFs.tryParse (t.block sha) = .ok (t.msg sha) →
        leafContent (t.entry sha) = some d := by
      intro t ht hpt
      unfold leafContent FTree.entry
      simp only [hpt]
      subst ht
      rw [if_pos (show (FTree.msg sha (.leaf d)).links = [] from rfl)]
      have := msg_data sha (.leaf d)
      exact congrArg some this
    have hdrop : (x ++ input.take (c - a.block_buffer.length)).drop (x.length + (c - a.block_buffer.length) - c) = d := by
      have : x.length + (c - a.block_buffer.length) - c = ds.flatten.length := by
        rw [flatten_full ds inv.full]; omega
      rw [this, h1, List.append_assoc, List.drop_left, hd]
    have hk : (x.length + (c - a.block_buffer.length)) / c = ds.length + 1 := by
      have : x.length + (c - a.block_buffer.length) = c * (ds.length + 1) := by rw [Nat.mul_add]; omega
      rw [this, Nat.mul_div_cancel_left _ hc]
    rw [hdrop, hk]
    have rinv := runT_inv hbf ds
    rw [runT_snoc] at e3
    obtain ⟨⟨⟨A, B⟩, E⟩, hst⟩ : ∃ st, runT bf ds = st := ⟨_, rfl⟩
    rw [hst] at e3 rinv
    obtain ⟨f, hB, hne, hfl⟩ := rinv
    simp only at f hB hne hfl
    have hcond : (1 < ds.length + 1 ∧ (ds.length + 1) % bf = 1 % bf) ↔ B.length = bf := by
      constructor
      · intro ⟨q1, q2⟩
        have hb1 : 1 ≤ B.length := by
          have := List.length_pos_iff.2 (hne (by intro hh; rw [hh] at q1; simp at q1)); omega
        have q3 : (B.length + 1) % bf = 1 % bf := by
          rw [← q2, ← hfl, Nat.add_assoc, Nat.mul_add_mod]
        by_cases hh : B.length = bf
        · exact hh
        · exfalso
          by_cases h1' : bf = 1
          · omega
          · rw [Nat.mod_eq_of_lt (show 1 < bf by omega)] at q3
            by_cases h2' : B.length + 1 = bf
            · rw [h2', Nat.mod_self] at q3; cases q3
            · rw [Nat.mod_eq_of_lt (by omega)] at q3; omega
      · intro q
        refine ⟨by omega, ?_⟩
        rw [← hfl, q, Nat.add_assoc, Nat.mul_add_mod, Nat.add_comm, Nat.add_mod_right]
    rw [hcond]
    unfold addT at e3
    simp only [List.length_append, List.length_singleton] at e3
    by_cases hle : B.length + 1 ≤ bf
    · rw [if_pos hle] at e3
      have hN : N = [.leaf d] := (List.append_cancel_left e3).symm
      subst hN
      exact ⟨_, [], rfl, fun hs => hleaf _ rfl (hp _ (by simp) hs), fun _ => rfl, fun q => by omega⟩
    · rw [if_neg hle] at e3
      have hN : N = [.leaf d, .node ((B ++ [FTree.leaf d]).take bf)] := (List.append_cancel_left e3).symm
      subst hN
      refine ⟨_, _, rfl, fun hs => hleaf _ rfl (hp _ (by simp) hs), fun q => absurd (by omega : B.length = bf) q, fun _ => ?_⟩
      refine ⟨_, rfl, fun hs => ⟨_, hp _ (by simp) hs, ?_⟩⟩
      rw [msg_links, List.length_map]
      show ((B ++ [FTree.leaf d]).take bf).length = bf
      rw [List.length_take, List.length_append, List.length_singleton]; omega

/-- The hypotheses of C55 are met: after two one-byte chunks with branching factor two, the third completes a group. -/
example : ∃ bs a, Reaches toySha 1 2 [7, 8] bs a ∧ ∃ a' leaf e, a.push toySha [9, 10] = some (.ok (a', [leaf, e], 1)) := by
  obtain ⟨bs, a, h⟩ := reaches_exists toySha_length (c := 1) (bf := 2) (by decide) (by decide) [7, 8] (by decide)
  obtain ⟨⟨a', bs', n⟩, e1⟩ := C09_push_no_panic_partial toySha toySha_length 1 2 (by decide) (by decide) (by decide) _ _ _ h [9, 10]
  obtain ⟨e2, -, e3⟩ := C55_push_exact toySha toySha_length 1 2 (by decide) (by decide) _ _ _ h [9, 10] _ _ _ e1
  obtain ⟨leaf, links, e4, -, -, e5⟩ := e3 (by decide)
  have hn : n = 1 := e2
  subst hn
  obtain ⟨e, e6, -⟩ := e5 (by decide)
  exact ⟨bs, a, h, a', leaf, e, by rw [e1, e4, e6]⟩

/-! ## C56 defaults, size hint -/

/-- C56. The hint is the chunk size during the whole addition. -/
theorem C56_size_hint (sha : Bytes → Bytes) (c bf : Nat) (hc : 0 < c) (x : Bytes) (bs : List (Cid × Bytes)) (a : FileAdder)
    (h : Reaches sha c bf x bs a) : a.sizeHint = c := (reaches_small hc h).1

/-- C56. A client which pushes only pieces at least as long as the hint never has anything buffered: each push which
returns consumes exactly one chunk. -/
theorem C56_hint_unbuffered (sha : Bytes → Bytes) (hsha : ∀ b, (sha b).length = 32) (c bf : Nat) (hc : 0 < c) (hbf : 0 < bf) (x : Bytes)
    (bs : List (Cid × Bytes)) (a : FileAdder) (h : Reaches sha c bf x bs a) (hal : x.length % c = 0) (input : Bytes)
    (hi : a.sizeHint ≤ input.length) (a' : FileAdder) (bs' : List (Cid × Bytes)) (n : Nat)
    (hp : a.push sha input = some (.ok (a', bs', n))) :
    n = c ∧ a'.block_buffer = [] ∧ bs' ≠ [] ∧
      Reaches sha c bf (x ++ input.take c) (bs ++ bs') a' ∧ (x ++ input.take c).length % c = 0 := by
  rw [C56_size_hint sha c bf hc x bs a h] at hi
  obtain ⟨e2, -, e3⟩ := C55_push_exact sha hsha c bf hc hbf x bs a h input a' bs' n hp
  obtain ⟨leaf, links, e4, -⟩ := e3 (by omega)
  have hn : n = c := by rw [e2, hal]; omega
  subst hn
  have hr := Reaches.push input h hp
  have hm : (x ++ input.take n).length % n = 0 := by
    rw [List.length_append, List.length_take, Nat.min_eq_left hi, Nat.add_mod_right, hal]
  obtain ⟨ds, inv, h1, -⟩ := reaches_inv hc hbf hr
  refine ⟨rfl, ?_, by rw [e4]; simp, hr, hm⟩
  have : a'.block_buffer.length = 0 := by
    rw [h1, List.length_append, flatten_full ds inv.full, Nat.mul_add_mod, Nat.mod_eq_of_lt inv.small] at hm
    exact hm
  exact List.length_eq_zero_iff.1 this

/-- The hypotheses of `C56_hint_unbuffered` are met: a fresh adder given two chunks at once. -/
example : ∃ a' bs', (newAdder 3 2).push toySha [1, 2, 3, 4, 5, 6] = some (.ok (a', bs', 3)) ∧ a'.block_buffer = [] := by
  obtain ⟨⟨a', bs', n⟩, e1⟩ := C09_push_no_panic_partial toySha toySha_length 3 2 (by decide) (by decide) (by decide) _ _ _
    Reaches.start [1, 2, 3, 4, 5, 6]
  obtain ⟨e2, e3, -⟩ := C56_hint_unbuffered toySha toySha_length 3 2 (by decide) (by decide) _ _ _ Reaches.start rfl
    [1, 2, 3, 4, 5, 6] (by decide) _ _ _ e1
  subst e2
  exact ⟨a', bs', e1, e3⟩

/-- C56, the defaults: chunks of 256 KiB, 174 links per block. -/
theorem C56_defaults : FileAdder.default.sizeHint = 262144 ∧ FileAdder.default = newAdder 262144 174 := ⟨rfl, rfl⟩

/-- C56, other collectors: a branching factor of zero is refused with a panic, every other one is used. -/
theorem C56_branching (bf : Nat) : (bf = 0 → ∃ p, BalancedCollector.withBranchingFactor bf = .panic p) ∧
    (0 < bf → ∃ bc, BalancedCollector.withBranchingFactor bf = .ok bc ∧ ∀ c, FileAdder.build c bc = newAdder c bf) := by
  refine ⟨?_, fun h => ⟨{ branching_factor := bf }, ?_, fun c => rfl⟩⟩
  · rintro rfl; exact ⟨.adderBranching, rfl⟩
  · rw [BalancedCollector.withBranchingFactor, if_pos h]

end Verif.Props
