import Verif.Spec.Amounts
import Verif.Props.ReaderExact
/-
C92: a ranged read returns no more than was asked for.
-/
namespace Verif.Props
open Verif Verif.Spec

/-- The full statement: whatever the blocks are, a read with a range never returns more bytes than the range has. -/
def C92_full : Prop := ∀ (t : Rng) (root out : Bytes) (next : Option FileVisit),
  Returned (fun _ => True) (some t) root out next → out.length ≤ t.hi - t.lo

theorem slice_length {ε : Type} {content c : Bytes} {i t : Rng} (h : (targetSlice content i t : Res ε Bytes) = .ok c) :
    c.length ≤ min t.hi i.hi - max t.lo i.lo := by
  unfold targetSlice at h
  split at h
  · cases h; simp
  split at h
  · rw [Res.bind_ok_iff] at h
    obtain ⟨stop, h1, h2⟩ := h
    unfold sub64 at h1
    split at h1 <;> cases h1
    unfold sliceChecked at h2
    split at h2 <;> cases h2
    simp only [List.length_drop, List.length_take]
    omega
  split at h
  · rw [Res.bind_ok_iff] at h
    obtain ⟨start, h1, h⟩ := h
    rw [Res.bind_ok_iff] at h
    obtain ⟨stop, h2, h3⟩ := h
    unfold sub64 at h1 h2
    split at h1 <;> cases h1
    split at h2 <;> cases h2
    unfold sliceChecked at h3
    split at h3 <;> cases h3
    simp only [List.length_drop, List.length_take]
    omega
  · rw [Res.bind_ok_iff] at h
    obtain ⟨start, h1, h⟩ := h
    rw [Res.bind_ok_iff] at h
    obtain ⟨len, h2, h3⟩ := h
    unfold sub64 at h1 h2
    split at h1 <;> cases h1
    split at h2 <;> cases h2
    unfold sliceChecked at h3
    split at h3 <;> cases h3
    simp only [List.length_drop, List.length_take]
    omega

/-- One call never returns more than the range has, whatever the blocks are. -/
theorem C92_one_call (v : FileVisit) (t : Rng) (hr : v.range = some t) (block c : Bytes) (cache : Option VisitCache) (next : Option FileVisit)
    (h : (v.continueWalk block cache).1 = .ok (c, next)) : c.length ≤ t.hi - t.lo := by
  obtain ⟨P, cid, i, m, fs, -, -, -, -, -, h1, h2⟩ := continueWalk_ok h
  by_cases hl : m.links = []
  · have h1 := (h1 hl).1
    rw [hr] at h1
    have := slice_length h1
    omega
  · rw [(h2 hl).1]; simp

/-- What holds for a visit which met only honest leaves: `E` is the end of the last leaf. -/
theorem returned_inv {t : Rng} {root out : Bytes} {next : Option FileVisit} (h : Returned HonestLeaf (some t) root out next) :
    ∃ E, out.length ≤ min t.hi E - t.lo ∧ ∀ v, next = some v → v.range = some t ∧ (∀ p ∈ v.pending, p.2.lo ≤ p.2.hi) ∧
      (v.state.last_ending = .Chunk E ∨ ∃ e, v.state.last_ending = .TreeCoverage e ∧ E ≤ v.state.last_offset) := by
  induction h with
  | start hP hs =>
    obtain ⟨m, fs, hm, ha, h1, h2⟩ := start_ok hs
    by_cases hl : m.links = []
    · rw [h1 hl]
      refine ⟨(m.data.Data.getD []).length, ?_, nofun⟩
      simp only [sliceAt, List.length_drop, List.length_take]
      omega
    · obtain ⟨ps, hps, rfl⟩ := h2 hl
      refine ⟨0, by simp, ?_⟩
      intro v hv
      simp only at hv
      split at hv
      · cases hv
      · cases hv
        refine ⟨rfl, ?_, .inr ⟨_, rfl, Nat.le_refl _⟩⟩
        intro p hp
        exact (collectLinks_bounds _ _ _ _ hps p (by simpa using hp)).2.1
  | @more out c block v next cache _ hP hc ih =>
    obtain ⟨E, hout, ih⟩ := ih
    obtain ⟨hr, hpend, hend⟩ := ih v rfl
    obtain ⟨P, cid, i, m, fs, hp, hs, hm, -, ha, h1, h2⟩ := continueWalk_ok hc
    have hlo : E ≤ i.lo := by
      rcases suitable_next hs with ⟨e, h, h'⟩ | ⟨e, h, h'⟩
      · rcases hend with h4 | ⟨e', h4, h5⟩
        · rw [h] at h4; cases h4; omega
        · rw [h] at h4; cases h4
      · rcases hend with h4 | ⟨e', h4, h5⟩
        · rw [h] at h4; cases h4
        · omega
    have hi : i.lo ≤ i.hi := hpend (cid, i) (by rw [hp]; simp)
    by_cases hl : m.links = []
    · obtain ⟨hsl, hnext⟩ := h1 hl
      rw [hr] at hsl
      have hfs := hP m hm hl
      rw [ha.filesize] at hfs
      cases hfs
      refine ⟨i.lo + (m.data.Data.getD []).length, ?_, ?_⟩
      · have hlen := slice_length hsl
        have hnp : ¬ (touches t i = true ∧ i.lo + (m.data.Data.getD []).length < min t.hi i.hi) := by
          rw [← targetSlice_panics_iff (ε := FileReadFailed) hi]
          rintro ⟨p, hpn⟩
          rw [show targetSlice (ε := FileReadFailed) (m.data.Data.getD []) i t = .ok c from hsl] at hpn
          cases hpn
        have hnp' : max t.lo i.lo ≤ min t.hi i.hi → ¬ i.lo + (m.data.Data.getD []).length < min t.hi i.hi := by
          intro hh hlt
          refine hnp ⟨?_, hlt⟩
          simp only [touches, decide_eq_true_eq]
          omega
        rw [List.length_append]
        by_cases hh : max t.lo i.lo ≤ min t.hi i.hi
        · have := hnp' hh
          omega
        · omega
      · intro v' hv'
        rw [hnext] at hv'
        split at hv'
        · cases hv'
        · cases hv'
          refine ⟨hr, fun p hp' => hpend p (by rw [hp]; simp [hp']), .inl rfl⟩
    · obtain ⟨rfl, ps, hps, hnext⟩ := h2 hl
      refine ⟨E, by simpa using hout, ?_⟩
      intro v' hv'
      rw [hnext] at hv'
      cases hv'
      refine ⟨hr, ?_, .inr ⟨_, rfl, hlo⟩⟩
      intro p hp'
      rcases List.mem_append.1 hp' with hp' | hp'
      · exact hpend p (by rw [hp]; simp [hp'])
      · exact (collectLinks_bounds _ _ _ _ hps p (by simpa using hp')).2.1

/-- C92: if every leaf declares the size of its data, then a read with a range never returns more bytes than the range has; link blocks
may be anything. -/
theorem C92_honest_partial (t : Rng) (root out : Bytes) (next : Option FileVisit) (h : Returned HonestLeaf (some t) root out next) :
    out.length ≤ t.hi - t.lo := by
  obtain ⟨E, h1, -⟩ := returned_inv h
  omega

/-! ### Blocks which lie -/

/-- Giving a visit some blocks, one after the other. -/
def giveBlocks : Bytes → Option FileVisit → List Bytes → Option (Bytes × Option FileVisit)
  | out, next, [] => some (out, next)
  | _, none, _ :: _ => none
  | out, some v, b :: bs =>
    match (v.continueWalk b none).1 with
    | .ok (c, next) => giveBlocks (out ++ c) next bs
    | _ => none

theorem giveBlocks_sound {P : Bytes → Prop} {target : Option Rng} {root : Bytes} : ∀ (bs : List Bytes) (out : Bytes) (next : Option FileVisit),
    Returned P target root out next → (∀ b ∈ bs, P b) → ∀ out' next', giveBlocks out next bs = some (out', next') →
    Returned P target root out' next'
  | [], out, next, h, _, out', next', hg => by cases hg; exact h
  | b :: bs, out, none, h, _, out', next', hg => by cases hg
  | b :: bs, out, some v, h, hb, out', next', hg => by
    unfold giveBlocks at hg
    cases hc : (v.continueWalk b none).1 with
    | ok p =>
      obtain ⟨c, n⟩ := p
      rw [hc] at hg
      exact giveBlocks_sound bs _ _ (.more h (hb b (by simp)) hc) (fun x hx => hb x (by simp [hx])) _ _ hg
    | err e => rw [hc] at hg; cases hg
    | panic e => rw [hc] at hg; cases hg

/-- A file block with links (their Cids do not matter here) of the given sizes, and data. -/
def someFile (sizes : List Nat) (size : Nat) (data : Option Bytes) : Bytes :=
  (FlatUnixFs.mk (sizes.map (fun _ => ⟨some (cidOf toySha []).toBytes, some [], some 7⟩))
    { Ty := .File, Data := data, filesize := some size, blocksizes := sizes }).write

/-- A leaf of two bytes which declares one byte: what follows it overlaps with it. -/
theorem C92_full_false : ¬ C92_full := by
  intro h
  have h1 : ∃ r next, (IdleFileVisit.mk (some ⟨0, 3⟩)).start (someFile [2, 1] 3 none) = .ok r ∧
      giveBlocks r.content r.next [someFile [1, 2] 2 none, someFile [] 1 (some [1]), someFile [] 1 (some [2, 3]), someFile [] 1 (some [4])] =
        some ([1, 2, 3, 4], next) := by
    refine ⟨⟨[], 3, {}, some ⟨[(cidOf toySha [], ⟨2, 3⟩), (cidOf toySha [], ⟨0, 2⟩)], some ⟨0, 3⟩, ⟨.TreeCoverage 3, 0, 3, {}⟩⟩⟩, none, ?_, ?_⟩
    · decide +kernel
    · decide +kernel
  obtain ⟨r, next, h1, h2⟩ := h1
  have := h _ _ _ _ (giveBlocks_sound _ _ _ (.start trivial h1) (fun _ _ => trivial) _ _ h2)
  revert this
  decide

/-- The hypothesis of `C92_honest_partial` is met by a read of four blocks. -/
example : ∃ next, Returned HonestLeaf (some ⟨1, 3⟩) (someFile [2, 1] 3 none) [2, 3] next := by
  have h1 : ∃ r, (IdleFileVisit.mk (some ⟨1, 3⟩)).start (someFile [2, 1] 3 none) = .ok r ∧
      giveBlocks r.content r.next [someFile [] 2 (some [1, 2]), someFile [] 1 (some [3])] = some ([2, 3], none) :=
    ⟨⟨[], 3, {}, some ⟨[(cidOf toySha [], ⟨2, 3⟩), (cidOf toySha [], ⟨0, 2⟩)], some ⟨1, 3⟩, ⟨.TreeCoverage 3, 0, 3, {}⟩⟩⟩,
      by decide +kernel, by decide +kernel⟩
  obtain ⟨r, h1, h2⟩ := h1
  have honest : ∀ m : FlatUnixFs, ∀ b, FlatUnixFs.tryParse b = .ok m →
      (m.links ≠ [] ∨ m.data.filesize = some (m.data.Data.getD []).length) → HonestLeaf b := by
    intro m b hm h m' hm' hl
    rw [hm] at hm'
    cases hm'
    rcases h with h | h
    · exact absurd hl h
    · exact h
  have hroot : HonestLeaf (someFile [2, 1] 3 none) :=
    honest (FlatUnixFs.mk (([2, 1] : List Nat).map (fun _ => ⟨some (cidOf toySha []).toBytes, some [], some 7⟩))
      { Ty := .File, Data := none, filesize := some 3, blocksizes := [2, 1] }) _ (by decide +kernel) (.inl (by decide))
  refine ⟨_, giveBlocks_sound _ _ _ (.start hroot h1) ?_ _ _ h2⟩
  intro b hb
  simp only [List.mem_cons, List.not_mem_nil, or_false] at hb
  rcases hb with rfl | rfl
  · exact honest ⟨[], { Ty := .File, Data := some [1, 2], filesize := some 2 }⟩ _ (by decide +kernel) (.inr rfl)
  · exact honest ⟨[], { Ty := .File, Data := some [3], filesize := some 1 }⟩ _ (by decide +kernel) (.inr rfl)

/-! ### The reported size -/

/-- What one might expect of the size reported at the start: that a whole read, when it is finished, has returned so many bytes. -/
def C92_size_at_most : Prop := ∀ (root out : Bytes) (r : FileVisitResult), (IdleFileVisit.mk none).start root = .ok r →
  Returned HonestLeaf none root out none → out.length ≤ r.total_size
def C92_size_at_least : Prop := ∀ (root out : Bytes) (r : FileVisitResult), (IdleFileVisit.mk none).start root = .ok r →
  Returned HonestLeaf none root out none → r.total_size ≤ out.length

theorem honest_leaf (d : Bytes) (m : FlatUnixFs) (hm : FlatUnixFs.tryParse (someFile [] d.length (some d)) = .ok m)
    (hf : m.data.filesize = some (m.data.Data.getD []).length) : HonestLeaf (someFile [] d.length (some d)) := by
  intro m' hm' _
  rw [hm] at hm'
  cases hm'
  exact hf

/-- Neither can be relied on, even if all leaves are honest: the root can claim less than there is, and more. -/
theorem C92_size_not_reliable : ¬ C92_size_at_most ∧ ¬ C92_size_at_least := by
  have hl : HonestLeaf (someFile [] 1 (some [1])) :=
    honest_leaf [1] ⟨[], { Ty := .File, Data := some [1], filesize := some 1 }⟩ (by decide +kernel) rfl
  have hr : ∀ (sizes : List Nat) (n : Nat) (m : FlatUnixFs), FlatUnixFs.tryParse (someFile sizes n none) = .ok m → m.links ≠ [] →
      HonestLeaf (someFile sizes n none) := by
    intro sizes n m hm hne m' hm' hl'
    rw [hm] at hm'
    cases hm'
    exact absurd hl' hne
  constructor
  · intro h
    have h1 : ∃ r, (IdleFileVisit.mk none).start (someFile [1, 1] 1 none) = .ok r ∧ r.total_size = 1 ∧
        giveBlocks r.content r.next [someFile [] 1 (some [1]), someFile [] 1 (some [1])] = some ([1, 1], none) :=
      ⟨⟨[], 1, {}, some ⟨[(cidOf toySha [], ⟨1, 2⟩), (cidOf toySha [], ⟨0, 1⟩)], none, ⟨.TreeCoverage 1, 0, 1, {}⟩⟩⟩,
        by decide +kernel, rfl, by decide +kernel⟩
    obtain ⟨r, h1, h2, h3⟩ := h1
    have hroot := hr [1, 1] 1 (FlatUnixFs.mk (([1, 1] : List Nat).map (fun _ => ⟨some (cidOf toySha []).toBytes, some [], some 7⟩))
      { Ty := .File, Data := none, filesize := some 1, blocksizes := [1, 1] }) (by decide +kernel) (by decide)
    have := h _ _ r h1 (giveBlocks_sound _ _ _ (.start hroot h1) (by intro b hb; simp at hb; rcases hb with rfl | rfl <;> exact hl) _ _ h3)
    rw [h2] at this
    revert this
    decide
  · intro h
    have h1 : ∃ r, (IdleFileVisit.mk none).start (someFile [1] 100 none) = .ok r ∧ r.total_size = 100 ∧
        giveBlocks r.content r.next [someFile [] 1 (some [1])] = some ([1], none) :=
      ⟨⟨[], 100, {}, some ⟨[(cidOf toySha [], ⟨0, 1⟩)], none, ⟨.TreeCoverage 100, 0, 100, {}⟩⟩⟩,
        by decide +kernel, rfl, by decide +kernel⟩
    obtain ⟨r, h1, h2, h3⟩ := h1
    have hroot := hr [1] 100 (FlatUnixFs.mk (([1] : List Nat).map (fun _ => ⟨some (cidOf toySha []).toBytes, some [], some 7⟩))
      { Ty := .File, Data := none, filesize := some 100, blocksizes := [1] }) (by decide +kernel) (by decide)
    have := h _ _ r h1 (giveBlocks_sound _ _ _ (.start hroot h1) (by intro b hb; simp at hb; rcases hb with rfl; exact hl) _ _ h3)
    rw [h2] at this
    revert this
    decide

end Verif.Props
