import Verif.Spec.WalkPanics
import Verif.Props.ReaderExact
import Verif.Props.WalkMore
/-
The exact condition under which a walker panics.
-/
namespace Verif.Props
open Verif Verif.Spec

/-- The visit of a file which is going on. -/
def fileVisit (w : Walker) : Option FileVisit :=
  match w.current.map InnerEntry.kind with
  | some (.File (some v) _) => some v
  | _ => none

/-! ### links -/

section
variable {conv : Nat → PBLink → Res InvalidCidInLink WalkLink} {label : Option Bytes → Prop}

/-- The link is converted, refused because of its Cid, or its name makes the conversion panic. -/
def Converts (label : Option Bytes → Prop) (conv : Nat → PBLink → Res InvalidCidInLink WalkLink) : Prop := ∀ i l,
  (CidOk l → label l.Name → ∃ x, conv i l = .ok x) ∧ (CidOk l → ¬ label l.Name → ∃ p, conv i l = .panic p) ∧
  (¬ CidOk l → ∃ e, conv i l = .err e)

theorem pushLinks_panics (hconv : Converts label conv) : ∀ (xs : List (PBLink × Nat)) (q : List WalkLink),
    (∃ p q', pushLinks conv xs q = (.panic p, q')) ↔
      ∃ fine x rest, xs = fine ++ x :: rest ∧ CidOk x.1 ∧ ¬ label x.1.Name ∧ ∀ y ∈ fine, CidOk y.1 ∧ label y.1.Name := by
  intro xs
  induction xs with
  | nil =>
    intro q
    refine ⟨?_, ?_⟩
    · rintro ⟨p, q', h⟩; simp [pushLinks] at h
    · rintro ⟨fine, x, rest, h, _⟩; simp at h
  | cons x xs ih =>
    intro q
    obtain ⟨l, i⟩ := x
    obtain ⟨h1, h2, h3⟩ := hconv i l
    unfold pushLinks
    by_cases hc : CidOk l
    · by_cases hl : label l.Name
      · obtain ⟨y, hy⟩ := h1 hc hl
        rw [hy]
        simp only
        rw [ih]
        constructor
        · rintro ⟨fine, x, rest, rfl, g1, g2, g3⟩
          refine ⟨(l, i) :: fine, x, rest, rfl, g1, g2, ?_⟩
          intro y hy
          rcases List.mem_cons.1 hy with rfl | hy
          · exact ⟨hc, hl⟩
          · exact g3 y hy
        · rintro ⟨fine, x, rest, h, g1, g2, g3⟩
          cases fine with
          | nil =>
            simp only [List.nil_append, List.cons.injEq] at h
            obtain ⟨rfl, rfl⟩ := h
            exact absurd hl g2
          | cons y fine =>
            simp only [List.cons_append, List.cons.injEq] at h
            obtain ⟨rfl, rfl⟩ := h
            exact ⟨fine, x, rest, rfl, g1, g2, fun y hy => g3 y (by simp [hy])⟩
      · obtain ⟨p, hp⟩ := h2 hc hl
        rw [hp]
        simp only
        exact ⟨fun _ => ⟨[], (l, i), xs, rfl, hc, hl, by simp⟩, fun _ => ⟨p, q, rfl⟩⟩
    · obtain ⟨e, he⟩ := h3 hc
      rw [he]
      simp only
      refine ⟨?_, ?_⟩
      · rintro ⟨p, q', h⟩; cases h
      · rintro ⟨fine, x, rest, h, g1, g2, g3⟩
        exfalso
        cases fine with
        | nil =>
          simp only [List.nil_append, List.cons.injEq] at h
          obtain ⟨rfl, rfl⟩ := h
          exact hc g1
        | cons y fine =>
          simp only [List.cons_append, List.cons.injEq] at h
          obtain ⟨rfl, rfl⟩ := h
          exact hc (g3 (l, i) (by simp)).1

theorem pushLinks_fine (hconv : Converts label conv) : ∀ (xs : List (PBLink × Nat)) (q : List WalkLink),
    (∃ q', pushLinks conv xs q = (.ok (), q')) ↔ ∀ y ∈ xs, CidOk y.1 ∧ label y.1.Name := by
  intro xs
  induction xs with
  | nil => intro q; simp [pushLinks]
  | cons x xs ih =>
    intro q
    obtain ⟨l, i⟩ := x
    obtain ⟨h1, h2, h3⟩ := hconv i l
    unfold pushLinks
    by_cases hc : CidOk l
    · by_cases hl : label l.Name
      · obtain ⟨y, hy⟩ := h1 hc hl
        rw [hy]
        simp only
        rw [ih]
        simp [hc, hl]
      · obtain ⟨p, hp⟩ := h2 hc hl
        rw [hp]
        simp [hl]
    · obtain ⟨e, he⟩ := h3 hc
      rw [he]
      simp [hc]

theorem zipIdx_split {xs : List PBLink} {fine : List (PBLink × Nat)} {x : PBLink × Nat} {rest : List (PBLink × Nat)} (h : xs.zipIdx.reverse = fine ++ x :: rest) :
    xs = (rest.reverse.map (·.1)) ++ x.1 :: (fine.reverse.map (·.1)) := by
  have := congrArg (fun l => (List.reverse l).map (·.1)) h
  simpa using this

theorem zipIdx_unsplit {xs before after : List PBLink} {l : PBLink} (h : xs = before ++ l :: after) :
    ∃ fine x rest, xs.zipIdx.reverse = fine ++ x :: rest ∧ x.1 = l ∧ fine.map (·.1) = after.reverse := by
  subst h
  refine ⟨(after.zipIdx (before.length + 1)).reverse, (l, before.length), before.zipIdx.reverse, ?_, rfl, ?_⟩
  · simp [List.zipIdx_append]
  · rw [List.map_reverse]; simp

theorem nameTrouble_iff (hconv : Converts label conv) (links : List PBLink) (q : List WalkLink) :
    (∃ p q', pushLinks conv links.zipIdx.reverse q = (.panic p, q')) ↔ NameTrouble label links := by
  rw [pushLinks_panics hconv]
  constructor
  · rintro ⟨fine, x, rest, h, g1, g2, g3⟩
    refine ⟨_, _, _, zipIdx_split h, g1, g2, ?_⟩
    intro l hl
    obtain ⟨y, hy, rfl⟩ := List.mem_map.1 hl
    exact g3 y (by simpa using hy)
  · rintro ⟨before, l, after, h, g1, g2, g3⟩
    obtain ⟨fine, x, rest, h1, h2, h3⟩ := zipIdx_unsplit h
    refine ⟨fine, x, rest, h1, by rw [h2]; exact g1, by rw [h2]; exact g2, ?_⟩
    intro y hy
    exact g3 y.1 (by
      have : y.1 ∈ fine.map (·.1) := List.mem_map_of_mem hy
      rw [h3] at this
      simpa using this)

theorem allFine_iff (hconv : Converts label conv) (links : List PBLink) (q : List WalkLink) :
    (∃ q', pushLinks conv links.zipIdx.reverse q = (.ok (), q')) ↔ AllFine label links := by
  rw [pushLinks_fine hconv]
  constructor
  · intro h l hl
    obtain ⟨i, hi⟩ : ∃ i, (l, i) ∈ links.zipIdx := by
      obtain ⟨i, hi, rfl⟩ := List.mem_iff_getElem.1 hl
      exact ⟨i, List.mem_iff_getElem.2 ⟨i, by simpa using hi, by simp⟩⟩
    exact h (l, i) (by simpa using hi)
  · intro h y hy
    exact h y.1 (List.fst_mem_of_mem_zipIdx (List.mem_reverse.1 hy))
end

theorem converts_entry (d : Nat) : Converts EntryLabel (fun i l => convertLink d i l) := by
  intro i l
  refine ⟨?_, ?_, ?_⟩
  · rintro ⟨c, hc⟩ ⟨s, hs, h1, h2⟩
    simp only [convertLink]
    rw [hc, hs]
    simp only
    rw [if_neg h1, if_neg h2]
    exact ⟨_, rfl⟩
  · rintro ⟨c, hc⟩ hn
    simp only [convertLink]
    rw [hc]
    simp only
    cases hs : l.Name with
    | none => exact ⟨_, rfl⟩
    | some s =>
      simp only
      by_cases h1 : s = []
      · rw [if_pos h1]; exact ⟨_, rfl⟩
      · rw [if_neg h1]
        by_cases h2 : slash ∈ s
        · rw [if_pos h2]; exact ⟨_, rfl⟩
        · exact absurd ⟨s, hs, h1, h2⟩ hn
  · intro hc
    simp only [convertLink]
    cases h : Cid.tryFrom (l.Hash.getD []) with
    | ok c => exact absurd ⟨c, h⟩ hc
    | error e => exact ⟨_, rfl⟩

theorem converts_slot (d s : Nat) : Converts SlotLabel (fun i l => convertShardedLink d s i l) := by
  intro i l
  refine ⟨?_, ?_, ?_⟩
  · rintro ⟨c, hc⟩ ⟨n, hs, h1, h2⟩
    simp only [convertShardedLink]
    rw [hc, hs]
    simp only
    by_cases hl : 2 < n.length
    · rw [if_pos hl, if_neg (by simp [(h2 hl).1]), if_neg (h2 hl).2]; exact ⟨_, rfl⟩
    · rw [if_neg hl, if_pos (by omega)]; exact ⟨_, rfl⟩
  · rintro ⟨c, hc⟩ hn
    simp only [convertShardedLink]
    rw [hc]
    simp only
    cases hs : l.Name with
    | none => exact ⟨_, rfl⟩
    | some n =>
      simp only
      by_cases hl : 2 < n.length
      · rw [if_pos hl]
        by_cases hb : isCharBoundary n 2 = false
        · rw [if_pos hb]; exact ⟨_, rfl⟩
        · rw [if_neg hb]
          by_cases h2 : slash ∈ n.drop 2
          · rw [if_pos h2]; exact ⟨_, rfl⟩
          · exact absurd ⟨n, hs, by omega, fun _ => ⟨by simpa using hb, h2⟩⟩ hn
      · rw [if_neg hl]
        by_cases h2 : n.length = 2
        · exact absurd ⟨n, hs, by omega, fun h => by omega⟩ hn
        · rw [if_neg h2]; exact ⟨_, rfl⟩
  · intro hc
    simp only [convertShardedLink]
    cases h : Cid.tryFrom (l.Hash.getD []) with
    | ok c => exact absurd ⟨c, h⟩ hc
    | error e => exact ⟨_, rfl⟩

theorem nextDir_panics_iff {label : Option Bytes → Prop} {w : Walker} {links : List PBLink} {conv : Nat → Nat → PBLink → Res InvalidCidInLink WalkLink}
    {enter : WalkLink → Res WalkError (InnerEntry × ContinuedWalk)} {cache : Option VisitCache}
    {n : WalkLink} (hn : w.next = some n) (hconv : Converts label (conv n.depth)) :
    (∃ p, (w.nextDir links conv enter cache).1 = .panic p) ↔ NameTrouble label links ∨ (AllFine label links ∧ ∃ p, enter n = .panic p) := by
  rw [← nameTrouble_iff hconv links w.pending, ← allFine_iff hconv links w.pending]
  unfold Walker.nextDir
  rw [hn]
  simp only
  rcases hp : pushLinks (conv n.depth) links.zipIdx.reverse w.pending with ⟨r, q⟩
  cases r with
  | panic p => simp
  | err e => simp
  | ok u =>
    simp only
    cases he : enter n with
    | panic p => simp
    | err e => simp
    | ok x => simp

/-! ### entering -/

section
variable {cid : Cid} {name : Bytes} {before : List ContinuedWalk} {w : Walker} {a : Awaited} {aw : List Awaited} {n : WalkLink}

theorem asKind_panics_iff (hp : PInv cid name before w (a :: aw)) (hr : w.atRest) (hwf : a.what ≠ .fileBlock) (hn : w.next = some n)
    {ie : InnerEntry} (hc : w.current = some ie) (k : InnerKind) (md : Metadata) :
    (∃ p, (ie.asKind k n.cid n.name n.depth md : Res WalkError InnerEntry) = .panic p) ↔ (a.what = .bucket ∨ DotDeep a.path) := by
  cases hw : a.what with
  | fileBlock => exact absurd hw hwf
  | bucket => exact ⟨fun _ => .inl rfl, fun _ => hp.asKind_panic hw hn hc k md⟩
  | entry =>
    by_cases hd : DotDeep a.path
    · exact ⟨fun _ => .inr hd, fun _ => ⟨_, (hp.asKind_dot hr hw hd hn hc k md).2⟩⟩
    · obtain ⟨ie', h⟩ := hp.asKind_ok hr hw hd hn hc k md
      rw [h]
      exact ⟨(by rintro ⟨p, h⟩; cases h), (by rintro (h | h); cases h; exact absurd h hd)⟩

theorem not_at_root (hp : PInv cid name before w (a :: aw)) (hc : w.current = none) : ¬ (a.what = .bucket ∨ DotDeep a.path) := by
  rintro (h | h)
  · obtain ⟨ie, h⟩ := hp.current_of_bucket h
    rw [hc] at h; cases h
  · obtain ⟨ie, h⟩ := hp.current_of_dot h
    rw [hc] at h; cases h

theorem enterLeaf_panics_iff (hp : PInv cid name before w (a :: aw)) (hr : w.atRest) (hwf : a.what ≠ .fileBlock) (hn : w.next = some n)
    (k : InnerKind) (md : Metadata) : (∃ p, w.enterLeaf k md n = .panic p) ↔ (a.what = .bucket ∨ DotDeep a.path) := by
  unfold Walker.enterLeaf
  cases hc : w.current with
  | none => exact ⟨(by rintro ⟨p, h⟩; cases h), fun h => absurd h (not_at_root hp hc)⟩
  | some ie => exact asKind_panics_iff hp hr hwf hn hc k md

theorem enterDirectory_panics_iff (hp : PInv cid name before w (a :: aw)) (hr : w.atRest) (hwf : a.what ≠ .fileBlock) (hn : w.next = some n)
    (md : Metadata) : (∃ p, w.enterDirectory md n = .panic p) ↔ (a.what = .bucket ∨ DotDeep a.path) := by
  unfold Walker.enterDirectory
  cases hc : w.current with
  | none => exact ⟨(by rintro ⟨p, h⟩; cases h), fun h => absurd h (not_at_root hp hc)⟩
  | some ie =>
    simp only
    rw [← asKind_panics_iff hp hr hwf hn hc .Directory md]
    cases h : (ie.asKind .Directory n.cid n.name n.depth md : Res WalkError InnerEntry) with
    | ok x => exact ⟨(by rintro ⟨p, h⟩; cases h), (by rintro ⟨p, h⟩; cases h)⟩
    | err x => exact ⟨(by rintro ⟨p, h⟩; cases h), (by rintro ⟨p, h⟩; cases h)⟩
    | panic x => exact ⟨fun _ => ⟨_, rfl⟩, fun _ => ⟨_, rfl⟩⟩

theorem enterShard_panics_iff (hp : PInv cid name before w (a :: aw)) (hr : w.atRest) (hwf : a.what ≠ .fileBlock) (hn : w.next = some n)
    (md : Metadata) : (∃ p, w.enterShard md n = .panic p) ↔
      ((a.what = .bucket ∧ ∃ c p md, before.getLast? = some (.Directory c p md)) ∨ (a.what = .entry ∧ DotDeep a.path)) := by
  cases hw : a.what with
  | fileBlock => exact absurd hw hwf
  | bucket =>
    by_cases hl : LastIsDirectory before
    · rw [hp.enterShard_bad hn hw hl md]
      exact ⟨fun _ => .inl ⟨by simp, hl⟩, fun _ => ⟨_, rfl⟩⟩
    · obtain ⟨r, h⟩ := hp.enterShard_ok hr hn hwf (.inr hw) (fun _ => hl) md
      rw [h]
      exact ⟨(by rintro ⟨p, h⟩; cases h), (by rintro (⟨_, h⟩ | ⟨h, _⟩); exact absurd h hl; cases h)⟩
  | entry =>
    by_cases hd : DotDeep a.path
    · obtain ⟨ie, hc⟩ := hp.current_of_dot hd
      obtain ⟨h1, h2⟩ := hp.asKind_dot hr hw hd hn hc .RootBucket md
      unfold Walker.enterShard
      rw [hc]
      simp only
      rw [if_neg h1, h2]
      exact ⟨fun _ => .inr ⟨by simp, hd⟩, fun _ => ⟨_, rfl⟩⟩
    · obtain ⟨r, h⟩ := hp.enterShard_ok hr hn hwf (.inl hd) (by rw [hw]; simp) md
      rw [h]
      exact ⟨(by rintro ⟨p, h⟩; cases h), (by rintro (⟨h, _⟩ | ⟨_, h⟩); cases h; exact absurd h hd)⟩
end

/-! ### the theorem -/

theorem directorySupported_iff (m : FlatUnixFs) (h : m.data.Ty = .Directory) : (∃ m', checkDirectorySupported m = .ok m') ↔ DirNode m := by
  unfold checkDirectorySupported DirNode
  simp only
  split
  · rename_i hx
    refine ⟨(by rintro ⟨_, h⟩; cases h), ?_⟩
    rintro ⟨_, h1, h2, h3, h4, h5⟩
    simp [h1, h2, h3, h4, h5] at hx
  · rename_i hx
    refine ⟨fun _ => ?_, fun _ => ⟨_, rfl⟩⟩
    simp only [not_or, Option.isSome_iff_ne_none, ne_eq, Decidable.not_not] at hx
    exact ⟨h, hx⟩

theorem shardSupported_iff (m : FlatUnixFs) (h : m.data.Ty = .HAMTShard) :
    ((∃ m', checkHamtshardSupported m = .ok m') ↔ ShardNode m) ∧ ∀ p, checkHamtshardSupported m ≠ .panic p := by
  unfold checkHamtshardSupported checkShardSupported ShardNode
  rw [if_neg (by rw [h]; simp)]
  split
  · rename_i hx
    refine ⟨⟨(by rintro ⟨_, h⟩; cases h), ?_⟩, by intro p h; cases h⟩
    rintro ⟨_, h1, h2, h3, h4⟩
    simp [h1, h2] at hx
  · split
    · rename_i hx
      refine ⟨⟨(by rintro ⟨_, h⟩; cases h), ?_⟩, by intro p h; cases h⟩
      rintro ⟨_, h1, h2, h3, h4⟩
      simp [h3, h4] at hx
    · rename_i hx hy
      refine ⟨⟨fun _ => ?_, fun _ => ⟨_, rfl⟩⟩, by intro p h; cases h⟩
      simp only [not_or, Option.isSome_iff_ne_none, ne_eq, Decidable.not_not] at hx hy
      exact ⟨h, hx.1, hx.2, hy⟩

/-- Starting to read succeeds exactly when there is no reason to refuse the block and none to panic. -/
theorem start_ok_iff (target : Option Rng) (b : Bytes) :
    (∃ r, (IdleFileVisit.mk target).start b = .ok r) ↔ ¬ StartPanics target b ∧ ∀ e, ¬ Refused target b e := by
  obtain ⟨h1, h2, h3⟩ := C26_exact_partial target b
  constructor
  · rintro ⟨r, hr⟩
    have hn : ¬ StartPanics target b := by
      rw [← h1, hr]
      rintro ⟨p, h⟩
      cases h
    refine ⟨hn, fun e he => ?_⟩
    obtain ⟨e', he'⟩ := h3 hn ⟨e, he⟩
    rw [hr] at he'
    cases he'
  · rintro ⟨hn, he⟩
    cases hr : (IdleFileVisit.mk target).start b with
    | ok r => exact ⟨r, rfl⟩
    | err e => exact absurd (h2 e hr) (he e)
    | panic p => exact absurd (h1.1 ⟨p, hr⟩) hn

/-- At any point of any walk, a block makes the walker panic if and only if it satisfies `WalkPanics`. -/
theorem C27_walk_exact_partial (cid : Cid) (name : Bytes) (h : List (Bytes × ContinuedWalk)) (w : Walker) (hw : Walked cid name h w)
    (hname : slash ∉ name) (a : Awaited) (aw : List Awaited) (ha : awaited cid name (h.map (·.1)) = a :: aw) (block : Bytes)
    (cache : Option VisitCache) (hc : ∀ k, cache = some k → CacheObtainable k) :
    (∃ p, (w.step block cache).1 = .panic p) ↔ WalkPanics (h.map (·.2)).getLast? a (fileVisit w) block := by
  by_cases hwhat : a.what = .fileBlock
  · obtain ⟨ie, v, sz, root, ls, h3, h4, h5⟩ := inFile_of_awaited hw ha hwhat
    have hex := C27_visit_exact_partial none root ls v h5 block cache
    have hv : fileVisit w = some v := by simp [fileVisit, h3, h4]
    obtain ⟨-, i, hi⟩ := C27_pending_nonempty root ls v h5
    rw [step_inFile h3 h4]
    unfold WalkPanics
    rw [hwhat, hv]
    simp only [Option.some.injEq, exists_eq_left']
    rw [← hex]
    have hread : (∃ e, (v.continueWalk block cache).1 = .err (.Read e)) ↔
        ((∃ i, nextInterval v = some i ∧ Follows v.state.last_ending v.state.last_offset i) ∧ ∃ e, FlatUnixFs.tryParse block = .error e) := by
      constructor
      · rintro ⟨e, he⟩
        refine ⟨⟨i, hi, ?_⟩, ?_⟩
        · rw [follows_iff]
          unfold nextInterval at hi
          cases hP : v.pending.getLast? with
          | none => simp [hP] at hi
          | some p =>
            obtain ⟨pc, i'⟩ := p
            simp only [hP, Option.map_some, Option.some.injEq] at hi
            subst hi
            unfold FileVisit.continueWalk Traversal.continueWalk at he
            simp only [hP] at he
            cases hs : v.state.last_ending.checkIsSuitableNext v.state.last_offset i' with
            | ok u => rfl
            | error e' => rw [hs] at he; simp at he
        · cases hm : FlatUnixFs.tryParse block with
          | error e => exact ⟨e, rfl⟩
          | ok m => exact absurd he (continueWalk_ne_read hm e)
      · rintro ⟨⟨i, hi, hf⟩, e, he⟩
        rw [follows_iff] at hf
        unfold nextInterval at hi
        cases hP : v.pending.getLast? with
        | none => simp [hP] at hi
        | some p =>
          obtain ⟨pc, i'⟩ := p
          simp only [hP, Option.map_some, Option.some.injEq] at hi
          subst hi
          unfold FileVisit.continueWalk Traversal.continueWalk FileReader.fromContinued
          simp only [hP, hf, he]
          cases e <;> exact ⟨_, rfl⟩
    rw [← hread]
    unfold Walker.nextFile
    rcases hx : v.continueWalk block cache with ⟨r, k⟩
    cases r with
    | ok x => simp
    | panic q => simp
    | err e =>
      cases e <;> simp [WalkError.ofFileReadFailed]
  · obtain ⟨hr, hi⟩ := atRest_of_awaited hw ha hwhat
    obtain ⟨n, hn⟩ := next_some hi
    obtain ⟨fb, rest, g1, g2, g3⟩ := walked_both hw hname
    have hfb : fb = [] := g2.file.of_atRest hr
    subst hfb
    rw [ha] at g1
    simp only [List.nil_append] at g1
    subst g1
    have hwp : WalkPanics (h.map (·.2)).getLast? a (fileVisit w) block ↔
        ∃ m, FlatUnixFs.tryParse block = .ok m ∧ EntryPanics (h.map (·.2)).getLast? a block m := by
      unfold WalkPanics
      cases hx : a.what with
      | fileBlock => exact absurd hx hwhat
      | entry => exact Iff.rfl
      | bucket => exact Iff.rfl
    rw [hwp, step_atRest hr]
    unfold Walker.nextBlock
    cases hm : FlatUnixFs.tryParse block with
    | error e => exact ⟨(by rintro ⟨p, h⟩; cases h), (by rintro ⟨m, h, _⟩; cases h)⟩
    | ok m =>
      simp only [Except.ok.injEq, exists_eq_left']
      unfold EntryPanics
      have hfirst : (∃ p, (w.nextFirst m cache).1 = .panic p) ↔
          (StartPanics none block ∨ ((∀ e, ¬ Refused none block e) ∧ (a.what = .bucket ∨ DotDeep a.path))) := by
        unfold Walker.nextFirst
        have hst := start_parsed hm none hc
        have hok := start_ok_iff none block
        obtain ⟨hpan, herr, -⟩ := C26_exact_partial none block
        rcases hx : ({} : IdleFileVisit).startFromParsed m cache with ⟨r, k⟩
        rw [show (IdleFileVisit.mk none) = {} from rfl] at hst hok hpan herr
        rw [hx] at hst
        simp only at hst
        rw [← hst] at hok hpan herr
        cases r with
        | panic q => exact ⟨fun _ => .inl (hpan.1 ⟨q, rfl⟩), fun _ => ⟨_, rfl⟩⟩
        | err e =>
          have hne : ∀ x, e ≠ .Read x := by
            rintro x rfl
            have := herr _ rfl
            cases this with
            | dagPb h => rw [hm] at h; cases h
            | unixFs h => rw [hm] at h; cases h
            | noData h => rw [hm] at h; cases h
          refine ⟨?_, ?_⟩
          · rintro ⟨p, hp⟩
            cases e with
            | Read x => exact absurd rfl (hne x)
            | File e => cases hp
            | UnexpectedType t => cases hp
            | InvalidCid l => cases hp
          · rintro (h | h)
            · obtain ⟨p, hp⟩ := hpan.2 h
              cases hp
            · exact absurd (herr e rfl) (h.1 e)
        | ok r =>
          obtain ⟨h1, h2⟩ := hok.1 ⟨r, rfl⟩
          simp only [hn]
          have hl := enterLeaf_panics_iff g3 hr hwhat hn (.File r.next r.total_size) r.metadata
          cases he : w.enterLeaf (.File r.next r.total_size) r.metadata n with
          | panic p => exact ⟨fun _ => .inr ⟨h2, hl.1 ⟨p, he⟩⟩, fun _ => ⟨_, rfl⟩⟩
          | err e => exact absurd he (enterLeaf_ne_err e)
          | ok ie =>
            rw [he] at hl
            refine ⟨(by rintro ⟨p, h⟩; cases h), ?_⟩
            rintro (h | h)
            · exact absurd h h1
            · obtain ⟨p, hp⟩ := hl.2 h.2
              cases hp
      cases hty : m.data.Ty with
      | Metadata => exact ⟨(by rintro ⟨p, h⟩; cases h), False.elim⟩
      | Raw => exact hfirst
      | File => exact hfirst
      | Symlink =>
        simp only [Walker.nextSymlink]
        rw [hn]
        simp only
        rw [← enterLeaf_panics_iff g3 hr hwhat hn .Symlink (Metadata.ofUnixFs m.data)]
        cases he : w.enterLeaf .Symlink (Metadata.ofUnixFs m.data) n with
        | panic p => exact ⟨fun _ => ⟨_, rfl⟩, fun _ => ⟨_, rfl⟩⟩
        | err e => exact absurd he (enterLeaf_ne_err e)
        | ok ie => exact ⟨(by rintro ⟨p, h⟩; cases h), (by rintro ⟨p, h⟩; cases h)⟩
      | Directory =>
        simp only
        cases hck : checkDirectorySupported m with
        | error e =>
          refine ⟨(by rintro ⟨p, h⟩; cases h), ?_⟩
          rintro ⟨h, _⟩
          obtain ⟨m', h'⟩ := (directorySupported_iff m hty).2 h
          rw [hck] at h'
          cases h'
        | ok m' =>
          have hd := (directorySupported_iff m hty).1 ⟨m', hck⟩
          have := checkDirectorySupported_ok hck
          subst this
          simp only
          rw [nextDir_panics_iff (conv := fun depth nth l => convertLink (depth + 1) nth l) hn (converts_entry _), enterDirectory_panics_iff g3 hr hwhat hn]
          exact ⟨fun h => ⟨hd, h⟩, fun h => h.2⟩
      | HAMTShard =>
        simp only
        obtain ⟨hsup, hnp⟩ := shardSupported_iff m hty
        cases hck : checkHamtshardSupported m with
        | err e =>
          refine ⟨(by rintro ⟨p, h⟩; cases h), ?_⟩
          rintro ⟨h, _⟩
          obtain ⟨m', h'⟩ := hsup.2 h
          rw [hck] at h'
          cases h'
        | panic p => exact absurd hck (hnp p)
        | ok m' =>
          have hd := hsup.1 ⟨m', hck⟩
          have := checkHamtshardSupported_ok hck
          subst this
          simp only
          rw [nextDir_panics_iff (conv := fun depth nth l => convertShardedLink (depth + 1) depth nth l) hn (converts_slot _ _), enterShard_panics_iff g3 hr hwhat hn]
          exact ⟨fun h => ⟨hd, h⟩, fun h => h.2⟩

/-- An entry called `.` below the top of the walk makes the walker panic, whatever it is. -/
theorem C27_walk_dot_panics : ∃ h w, Walked (cidN 0) [] h w ∧ w.shouldContinue = true ∧
    (w.step (dirMsg []).write none).1 = .panic .walkPathDepth := by
  obtain ⟨h, hw⟩ := fed_walked (ms := []) (m := dirMsg [linkN 1 [97]]) .new (by decide +kernel)
  obtain ⟨h, hw⟩ := fed_walked (m := dirMsg [linkN 2 dot]) hw (by decide +kernel)
  exact ⟨h, _, hw, by decide +kernel, by decide +kernel⟩

/-- At the top of the walk it does not. -/
example : ((fed [dirMsg [linkN 1 dot]]).step (dirMsg []).write none).1 =
    .ok (.Directory (cidN 1) ⟨false, [dot]⟩ { mode := some 0o755 }) := by decide +kernel

/-- Both outcomes occur at the start of a walk: the first link from the end with something wrong decides. -/
example : WalkPanics none ⟨cidN 0, [], .entry⟩ none (dirMsg [⟨some [1], some [97], none⟩, linkN 1 [], linkN 2 [97]]).write := by
  refine (C27_walk_exact_partial (cidN 0) [] [] (Walker.new (cidN 0) []) .new (by simp) ⟨cidN 0, [], .entry⟩ [] rfl _ none (by intro k h; cases h)).1 ?_
  exact ⟨.walkEmptyName, by decide +kernel⟩
example : ¬ WalkPanics none ⟨cidN 0, [], .entry⟩ none (dirMsg [linkN 1 [], ⟨some [1], some [97], none⟩, linkN 2 [97]]).write := by
  refine fun h => absurd ((C27_walk_exact_partial (cidN 0) [] [] (Walker.new (cidN 0) []) .new (by simp) ⟨cidN 0, [], .entry⟩ [] rfl _ none
    (by intro k h; cases h)).2 h) ?_
  have : (match ((Walker.new (cidN 0) []).step (dirMsg [linkN 1 [], ⟨some [1], some [97], none⟩, linkN 2 [97]]).write none).1 with
    | .panic _ => false | _ => true) = true := by decide +kernel
  rintro ⟨p, hp⟩
  rw [hp] at this
  cases this

end Verif.Props
