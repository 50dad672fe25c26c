import Verif.VisitLemmas
import Verif.Spec.Visiting
/-
The reader and the visit on arbitrary blocks.
-/
namespace Verif
open Spec

theorem Res.bind_ok_iff {ε α β : Type} {x : Res ε α} {f : α → Res ε β} {b : β} :
    (x >>= f) = .ok b ↔ ∃ a, x = .ok a ∧ f a = .ok b := by
  cases x with
  | ok a => simp
  | err e => simp
  | panic p => simp

theorem Res.map_ok_iff {ε α β : Type} {x : Res ε α} {f : α → β} {b : β} : x.map f = .ok b ↔ ∃ a, x = .ok a ∧ f a = b := by
  cases x <;> simp [Res.map]

theorem add64_ok_iff {ε : Type} {p : Panic} {a b c : Nat} : (add64 p a b : Res ε Nat) = .ok c ↔ a + b < U64 ∧ c = a + b := by
  unfold add64
  split
  · next h => simp [h]; exact eq_comm
  · next h => simp [h]

/-- A block the reader accepts at offset `o`. -/
structure Accepted (m : FlatUnixFs) (o : Nat) (fs : Nat) : Prop where
  node : FileNode m
  sizes : m.links.length = m.data.blocksizes.length
  filesize : m.data.filesize = some fs
  fits : o + fs < U64
  empty : m.links = [] → m.data.Data.getD [] = [] → fs = 0

theorem fromParts_ok {m : FlatUnixFs} {o : Nat} {md : Metadata} {fr : FileReader} (h : FileReader.fromParts m o md = .ok fr) :
    ∃ fs, Accepted m o fs ∧
      fr = .mk o (if m.links = [] then .Chunk (o + fs) else .TreeCoverage (o + fs)) m.links (m.data.Data.getD [])
        m.data.blocksizes md fs := by
  unfold FileReader.fromParts at h
  simp only at h
  split at h
  · cases h
  next hty =>
  split at h
  · cases h
  next hlen =>
  split at h
  · cases h
  next hemp =>
  split at h
  · cases h
  next hprop =>
  rw [Res.bind_ok_iff] at h
  obtain ⟨e, he, h⟩ := h
  split at h
  · cases h
  next fs hfs =>
  cases h
  have hn : FileNode m := by
    refine ⟨?_, ?_, ?_⟩
    · rcases Classical.em (m.data.Ty = .File) with h | h
      · exact .inl h
      · exact .inr (Classical.byContradiction fun h' => hty ⟨h, h'⟩)
    · cases hh : m.data.hashType with
      | none => rfl
      | some _ => simp [hh] at hprop
    · cases hh : m.data.fanout with
      | none => rfl
      | some _ => simp [hh] at hprop
  have hlen' : m.links.length = m.data.blocksizes.length := Classical.byContradiction fun h => hlen h
  have hempt : m.links = [] → m.data.Data.getD [] = [] → fs = 0 := by
    intro h1 h2
    refine Classical.byContradiction fun h3 => hemp ⟨h2, ?_, h1⟩
    simpa [hfs] using h3
  unfold FileReader.endOf at he
  split at he
  · next hl =>
    rw [Res.map_ok_iff] at he
    obtain ⟨a, ha, rfl⟩ := he
    rw [hfs] at ha
    obtain ⟨ha1, rfl⟩ := add64_ok_iff.1 ha
    exact ⟨fs, ⟨hn, hlen', hfs, ha1, hempt⟩, by simp [hl]⟩
  · next hl =>
    rw [hfs] at he
    simp only at he
    rw [Res.map_ok_iff] at he
    obtain ⟨a, ha, rfl⟩ := he
    obtain ⟨ha1, rfl⟩ := add64_ok_iff.1 ha
    exact ⟨fs, ⟨hn, hlen', hfs, ha1, hempt⟩, by simp [hl]⟩

theorem fromBlock_ok {b : Bytes} {fr : FileReader} (h : FileReader.fromBlock b = .ok fr) :
    ∃ m fs, FlatUnixFs.tryParse b = .ok m ∧ Accepted m 0 fs ∧
      fr = .mk 0 (if m.links = [] then .Chunk fs else .TreeCoverage fs) m.links (m.data.Data.getD [])
        m.data.blocksizes (Metadata.ofUnixFs m.data) fs := by
  unfold FileReader.fromBlock at h
  split at h
  · cases h
  next m hm =>
  obtain ⟨fs, ha, rfl⟩ := fromParts_ok h
  exact ⟨m, fs, hm, ha, by simp⟩

theorem start_ok {target : Option Rng} {b : Bytes} {r : FileVisitResult} (h : (IdleFileVisit.mk target).start b = .ok r) :
    ∃ m fs, FlatUnixFs.tryParse b = .ok m ∧ Accepted m 0 fs ∧
      (m.links = [] → r = .mk (sliceAt target 0 (m.data.Data.getD [])) fs (Metadata.ofUnixFs m.data) none) ∧
      (m.links ≠ [] → ∃ ps, collectLinks target 0 0 (m.links.zip m.data.blocksizes) = .ok ps ∧
        r = .mk [] fs (Metadata.ofUnixFs m.data)
          (if ps = [] then none else some (.mk ps.reverse target (.mk (.TreeCoverage fs) 0 fs (Metadata.ofUnixFs m.data))))) := by
  unfold IdleFileVisit.start at h
  rw [Res.bind_ok_iff] at h
  obtain ⟨fr, hfr, h⟩ := h
  obtain ⟨m, fs, hm, ha, rfl⟩ := fromBlock_ok hfr
  refine ⟨m, fs, hm, ha, ?_, ?_⟩
  · intro hl
    have hs := maybeTargetSlice_eq (ε := FileReadFailed) (m.data.Data.getD []) 0 target
    simp only [Nat.zero_add] at hs
    simp only [IdleFileVisit.startFromReader, FileReader.content, hl, if_true, hs, Res.bind_ok] at h
    cases h
    rfl
  · intro hl
    simp only [IdleFileVisit.startFromReader, FileReader.content, hl, if_false, Option.getD_none, List.nil_append] at h
    split at h
    · cases h
    · cases h
    next ps hps =>
    refine ⟨ps, hps, ?_⟩
    by_cases hn : ps = []
    · subst hn
      simp only [List.reverse_nil, if_true] at h
      cases h
      rfl
    · simp only [List.reverse_eq_nil_iff, hn, if_false] at h
      cases h
      simp [hn]

/-- What a successful `continue_walk` tells about the block and about the next visit. -/
theorem continueWalk_ok {v : FileVisit} {b : Bytes} {cache : Option VisitCache} {c : Bytes} {next : Option FileVisit}
    (h : (v.continueWalk b cache).1 = .ok (c, next)) :
    ∃ P cid i m fs, v.pending = P ++ [(cid, i)] ∧ Suitable v.state i ∧ FlatUnixFs.tryParse b = .ok m ∧ NoMeta m ∧
      Accepted m i.lo fs ∧
      (m.links = [] → maybeTargetSlice (ε := FileReadFailed) (m.data.Data.getD []) i v.range = .ok c ∧
        next = if P = [] then none else some (.mk P v.range (.mk (.Chunk (i.lo + fs)) i.lo fs v.state.metadata))) ∧
      (m.links ≠ [] → c = [] ∧ ∃ ps, collectLinks v.range 0 i.lo (m.links.zip m.data.blocksizes) = .ok ps ∧
        next = some (.mk (P ++ ps.reverse) v.range (.mk (.TreeCoverage (i.lo + fs)) i.lo fs v.state.metadata))) := by
  obtain ⟨pend, target, st⟩ := v
  rcases List.eq_nil_or_concat pend with hp | ⟨P, ⟨cid, i⟩, hp⟩
  · subst hp
    simp [FileVisit.continueWalk] at h
  · rw [List.concat_eq_append] at hp
    subst hp
    have hs : Suitable st i := by
      unfold Suitable
      simp only [FileVisit.continueWalk, List.getLast?_append, List.getLast?_singleton, Option.some_or, Traversal.continueWalk] at h
      cases hc : st.last_ending.checkIsSuitableNext st.last_offset i with
      | ok u => rfl
      | error e => simp [hc] at h
    have hcw : ((FileVisit.mk (P ++ [(cid, i)]) target st).continueWalk b none).1 = .ok (c, next) := by
      rw [← h]
      unfold FileVisit.continueWalk
      simp only [List.getLast?_append, List.getLast?_singleton, Option.some_or, List.dropLast_concat]
      cases st.continueWalk b i with
      | err e => rfl
      | panic p => rfl
      | ok fr =>
        simp only
        rcases fr.content with ⟨c, tr⟩
        cases c with
        | Bytes c =>
          simp only
          cases maybeTargetSlice (ε := FileReadFailed) c i target with
          | ok c => simp only; split <;> rfl
          | err e => rfl
          | panic p => rfl
        | Links base z =>
          simp only
          cases collectLinks target 0 base z <;> rfl
    rw [continueWalk_last hs] at hcw
    cases hfc : FileReader.fromContinued st i.lo b with
    | err e => simp [hfc] at hcw
    | panic p => simp [hfc] at hcw
    | ok fr =>
      simp only [hfc] at hcw
      unfold FileReader.fromContinued at hfc
      split at hfc
      · cases hfc
      next m hm =>
      split at hfc
      · cases hfc
      next hnm =>
      obtain ⟨fs, ha, rfl⟩ := fromParts_ok hfc
      refine ⟨P, cid, i, m, fs, rfl, hs, hm, ?_, ha, ?_, ?_⟩
      · constructor
        · cases hh : m.data.mode with
          | none => rfl
          | some _ => simp [hh] at hnm
        · cases hh : m.data.mtime with
          | none => rfl
          | some _ => simp [hh] at hnm
      · intro hl
        simp only [FileReader.content, hl, if_true] at hcw
        split at hcw
        · cases hcw
        · cases hcw
        next c' hc' =>
        simp only [Res.ok.injEq, Prod.mk.injEq] at hcw
        obtain ⟨rfl, rfl⟩ := hcw
        refine ⟨hc', ?_⟩
        by_cases hP : P = [] <;> simp [hP]
      · intro hl
        simp only [FileReader.content, hl, if_false] at hcw
        split at hcw
        · cases hcw
        · cases hcw
        next ps hps =>
        simp only [Res.ok.injEq, Prod.mk.injEq] at hcw
        obtain ⟨rfl, rfl⟩ := hcw
        exact ⟨rfl, ps, hps, rfl⟩

theorem collectLinks_none_head {links : List (PBLink × Nat)} {nth base : Nat} {ps : List Pending}
    (h : collectLinks none nth base links = .ok ps) (hne : links ≠ []) : ∃ p ps', ps = p :: ps' ∧ p.2.lo = base := by
  cases links with
  | nil => simp at hne
  | cons x xs =>
    obtain ⟨l, n⟩ := x
    simp only [collectLinks] at h
    rw [Res.bind_ok_iff] at h
    obtain ⟨stop, hs, h⟩ := h
    simp only [blockIsInTargetRange, Bool.true_eq_false, if_false] at h
    rw [Res.bind_ok_iff] at h
    obtain ⟨p, hp, h⟩ := h
    rw [Res.bind_ok_iff] at h
    obtain ⟨ps', hps, h⟩ := h
    cases h
    refine ⟨p, ps', rfl, ?_⟩
    unfold toPending at hp
    split at hp <;> cases hp
    rfl

theorem suitable_next {st : Traversal} {i : Rng} (h : Suitable st i) :
    (∃ e, st.last_ending = .Chunk e ∧ i.lo = e) ∨ (∃ e, st.last_ending = .TreeCoverage e ∧ st.last_offset ≤ i.lo) := by
  unfold Suitable at h
  cases he : st.last_ending with
  | Chunk e =>
    left
    refine ⟨e, rfl, ?_⟩
    simp only [he, Ending.checkIsSuitableNext] at h
    split at h
    · cases h
    · next h' => exact Classical.byContradiction fun hh => h' hh
  | TreeCoverage e =>
    right
    refine ⟨e, rfl, ?_⟩
    simp only [he, Ending.checkIsSuitableNext] at h
    split at h
    · cases h
    split at h
    · cases h
    split at h
    · cases h
    · omega

/-- The interval of bytes assigned to the `k`-th link. -/
def linkInterval (base : Nat) (z : List (PBLink × Nat)) (k : Nat) : Rng :=
  ⟨base + ((z.take k).map (·.2)).sum, base + ((z.take (k + 1)).map (·.2)).sum⟩

theorem linkInterval_succ (base : Nat) (x : PBLink × Nat) (z : List (PBLink × Nat)) (k : Nat) :
    linkInterval base (x :: z) (k + 1) = linkInterval (base + x.2) z k := by
  simp [linkInterval, Nat.add_assoc]

theorem linkInterval_le (base : Nat) (z : List (PBLink × Nat)) (k : Nat) : (linkInterval base z k).lo ≤ (linkInterval base z k).hi := by
  induction z generalizing base k with
  | nil => simp [linkInterval]
  | cons x z ih =>
    cases k with
    | zero => simp [linkInterval]
    | succ k => rw [linkInterval_succ]; exact ih _ _

/-- Collecting links: either every link of interest is good, or the outcome is the error for a bad one. -/
theorem collectLinks_cases {target : Option Rng} (z : List (PBLink × Nat)) (nth base : Nat)
    (hsum : base + (z.map (·.2)).sum < U64) :
    (∃ ps, collectLinks target nth base z = .ok ps ∧
      ∀ k l n, z[k]? = some (l, n) → touchesO target (linkInterval base z k) = true →
        ∃ cid, Cid.tryFrom (l.Hash.getD []) = .ok cid) ∨
    (∃ k l n e, z[k]? = some (l, n) ∧ touchesO target (linkInterval base z k) = true ∧
      Cid.tryFrom (l.Hash.getD []) = .error e ∧
      collectLinks target nth base z = .err (.InvalidCid (.of (nth + k) l e))) := by
  induction z generalizing nth base with
  | nil => left; exact ⟨[], rfl, by simp⟩
  | cons x z ih =>
    obtain ⟨l, n⟩ := x
    simp only [List.map_cons, List.sum_cons] at hsum
    have h0 : linkInterval base ((l, n) :: z) 0 = ⟨base, base + n⟩ := by simp [linkInterval]
    have ih' := ih (nth + 1) (base + n) (by omega)
    simp only [collectLinks, add64]
    rw [if_pos (by omega)]
    simp only [Res.bind_ok]
    rw [inTarget_eq _ (by simp)]
    by_cases ht : touchesO target ⟨base, base + n⟩ = true
    · simp only [ht, Bool.true_eq_false, if_false, toPending]
      cases hc : Cid.tryFrom (l.Hash.getD []) with
      | error e =>
        right
        exact ⟨0, l, n, e, rfl, by rw [h0]; exact ht, hc, by simp⟩
      | ok cid =>
        simp only [Res.bind_ok]
        rcases ih' with ⟨ps, hps, hgood⟩ | ⟨k, l', n', e, h1, h2, h3, h4⟩
        · left
          refine ⟨_, by rw [hps]; rfl, ?_⟩
          intro k l' n' hk htk
          cases k with
          | zero => simp at hk; obtain ⟨rfl, rfl⟩ := hk; exact ⟨cid, hc⟩
          | succ k =>
            rw [linkInterval_succ] at htk
            exact hgood k l' n' (by simpa using hk) htk
        · right
          refine ⟨k + 1, l', n', e, by simpa using h1, by rw [linkInterval_succ]; exact h2, h3, ?_⟩
          rw [h4, Nat.add_right_comm, Nat.add_assoc]
          rfl
    · have ht' : touchesO target ⟨base, base + n⟩ = false := by simpa using ht
      simp only [ht', if_true]
      rcases ih' with ⟨ps, hps, hgood⟩ | ⟨k, l', n', e, h1, h2, h3, h4⟩
      · left
        refine ⟨_, hps, ?_⟩
        intro k l' n' hk htk
        cases k with
        | zero => rw [h0] at htk; exact absurd htk ht
        | succ k =>
          rw [linkInterval_succ] at htk
          exact hgood k l' n' (by simpa using hk) htk
      · right
        refine ⟨k + 1, l', n', e, by simpa using h1, by rw [linkInterval_succ]; exact h2, h3, ?_⟩
        rw [h4, Nat.add_right_comm, Nat.add_assoc]

theorem collectLinks_bounds {target : Option Rng} (z : List (PBLink × Nat)) (nth base : Nat) (ps : List Pending)
    (h : collectLinks target nth base z = .ok ps) : ∀ p ∈ ps, base ≤ p.2.lo ∧ p.2.lo ≤ p.2.hi ∧ p.2.hi < U64 := by
  induction z generalizing nth base ps with
  | nil => simp [collectLinks] at h; subst h; simp
  | cons x z ih =>
    obtain ⟨l, n⟩ := x
    simp only [collectLinks] at h
    rw [Res.bind_ok_iff] at h
    obtain ⟨stop, hs, h⟩ := h
    obtain ⟨h1, rfl⟩ := add64_ok_iff.1 hs
    split at h
    · intro p hp
      have := ih _ _ _ h p hp
      omega
    · rw [Res.bind_ok_iff] at h
      obtain ⟨p, hp, h⟩ := h
      rw [Res.bind_ok_iff] at h
      obtain ⟨ps', hps, h⟩ := h
      cases h
      intro q hq
      rcases List.mem_cons.1 hq with rfl | hq
      · unfold toPending at hp
        split at hp <;> cases hp
        simp only
        omega
      · have := ih _ _ _ hps q hq
        omega

theorem zip_ne_nil {α β : Type} {a : List α} {b : List β} (h : a ≠ []) (hl : a.length = b.length) : a.zip b ≠ [] := by
  cases a with
  | nil => simp at h
  | cons x xs =>
    cases b with
    | nil => simp at hl
    | cons y ys => simp

end Verif
