import Verif.Spec.Reading
import Verif.ParserSafe
import Verif.FileTreeLemmas
/-
Reading well-formed file trees.
-/
namespace Verif
open Spec

theorem inTarget_eq (i : Rng) (h : i.lo ≤ i.hi) (target : Option Rng) :
    blockIsInTargetRange i target = touchesO target i := by
  cases target with
  | none => rfl
  | some r =>
    simp only [blockIsInTargetRange, touchesO, touches]
    congr 1
    simp only [eq_iff_iff]
    omega

/-- The part of a piece of content starting at `o`. -/
def sliceAt (target : Option Rng) (o : Nat) (d : Bytes) : Bytes :=
  match target with
  | none => d
  | some r => (d.take (r.hi - o)).drop (r.lo - o)

theorem sliceAt_append (target : Option Rng) (o : Nat) (a b : Bytes) :
    sliceAt target o (a ++ b) = sliceAt target o a ++ sliceAt target (o + a.length) b := by
  cases target with
  | none => rfl
  | some r =>
    simp only [sliceAt, List.take_append, List.drop_append, List.length_take]
    congr 1
    rw [show r.hi - o - a.length = r.hi - (o + a.length) by omega]
    by_cases h : a.length ≤ r.hi - o
    · rw [show r.lo - o - min (r.hi - o) a.length = r.lo - (o + a.length) by omega]
    · have : r.hi - (o + a.length) = 0 := by omega
      simp [this]

theorem sliceAt_untouched (target : Option Rng) (o : Nat) (d : Bytes)
    (h : touchesO target ⟨o, o + d.length⟩ = false) : sliceAt target o d = [] := by
  cases target with
  | none => simp [touchesO] at h
  | some r =>
    simp only [touchesO, touches, decide_eq_false_iff_not] at h
    simp only [sliceAt]
    apply List.drop_eq_nil_of_le
    simp only [List.length_take]
    omega

/-- `target_slice` is the intersection with the target. -/
theorem targetSlice_eq {ε : Type} (content : Bytes) (o : Nat) (r : Rng) :
    (targetSlice content ⟨o, o + content.length⟩ r : Res ε Bytes) =
      .ok ((content.take (r.hi - o)).drop (r.lo - o)) := by
  unfold targetSlice
  rw [inTarget_eq _ (by simp) (some r)]
  split
  · next h =>
    have := sliceAt_untouched (some r) o content h
    simp only [sliceAt] at this
    rw [this]
  · next h =>
    simp only [touchesO, touches, decide_eq_false_iff_not, Decidable.not_not] at h
    simp only
    split
    · simp only [sub64]
      rw [if_pos (by omega)]
      simp only [Res.bind_ok, sliceChecked]
      rw [if_pos (by omega)]
      rw [show r.lo - o = 0 by omega]
      simp only [Res.ok.injEq, List.drop_zero]
      by_cases h2 : r.hi ≤ o + content.length
      · rw [Nat.min_eq_left h2]
      · rw [List.take_of_length_le (by omega), List.take_of_length_le (by omega)]
    · split
      · simp only [sub64]
        rw [if_pos (by omega), if_pos (by omega)]
        simp only [Res.bind_ok, sliceChecked]
        rw [if_pos (by omega)]
        rw [List.take_of_length_le (by omega), List.take_of_length_le (by omega)]
      · simp only [sub64]
        rw [if_pos (by omega), if_pos (by omega)]
        simp only [Res.bind_ok, sliceChecked]
        rw [if_pos (by omega)]
        rw [show r.lo - o + (r.hi - r.lo) = r.hi - o by omega]

theorem maybeTargetSlice_eq {ε : Type} (content : Bytes) (o : Nat) (target : Option Rng) :
    (maybeTargetSlice content ⟨o, o + content.length⟩ target : Res ε Bytes) = .ok (sliceAt target o content) := by
  cases target with
  | none => rfl
  | some r => exact targetSlice_eq content o r

/-! ### the reader on well-formed nodes -/

theorem fromParts_leaf {m : FlatUnixFs} {d : Bytes} (hn : FileNode m) (hl : m.links = []) (hb : m.data.blocksizes = [])
    (hd : m.data.Data.getD [] = d) (hf : m.data.filesize = some d.length) (o : Nat) (md : Metadata) (ho : o + d.length < U64) :
    FileReader.fromParts m o md = .ok (.mk o (.Chunk (o + d.length)) [] d [] md d.length) := by
  obtain ⟨hty, hh, hfo⟩ := hn
  unfold FileReader.fromParts
  have h1 : ¬ (m.data.Ty ≠ .File ∧ m.data.Ty ≠ .Raw) := by
    rcases hty with h | h <;> simp [h]
  simp only [h1, if_false, hl, hb, hd, hf, hh, hfo, FileReader.endOf, add64, List.length_nil, ne_eq, not_true_eq_false,
    Option.getD_some, List.length_eq_zero_iff, and_true, and_not_self_iff, Option.isSome_none, Bool.false_eq_true, or_self,
    if_true, ho, Res.map, Res.bind_ok]

theorem fromParts_node {m : FlatUnixFs} {fs : Nat} (hn : FileNode m) (hl : m.links ≠ [])
    (hb : m.links.length = m.data.blocksizes.length) (hf : m.data.filesize = some fs) (o : Nat) (md : Metadata)
    (ho : o + fs < U64) :
    FileReader.fromParts m o md =
      .ok (.mk o (.TreeCoverage (o + fs)) m.links (m.data.Data.getD []) m.data.blocksizes md fs) := by
  obtain ⟨hty, hh, hfo⟩ := hn
  unfold FileReader.fromParts
  have h1 : ¬ (m.data.Ty ≠ .File ∧ m.data.Ty ≠ .Raw) := by
    rcases hty with h | h <;> simp [h]
  simp only [h1, if_false, hl, hb, hf, hh, hfo, FileReader.endOf, add64, ne_eq, not_true_eq_false,
    and_false, Option.isSome_none, Bool.false_eq_true, or_self,
    ho, if_true, Res.map, Res.bind_ok]

theorem fromContinued_eq {st : Traversal} {o : Nat} {b : Bytes} {m : FlatUnixFs} (hp : FlatUnixFs.tryParse b = .ok m)
    (hm : NoMeta m) : FileReader.fromContinued st o b = FileReader.fromParts m o st.metadata := by
  obtain ⟨h1, h2⟩ := hm
  simp [FileReader.fromContinued, hp, h1, h2]

/-- The pending stack on which a read goes on; with nothing pending the read is over. -/
def rp (get : Cid → Option Bytes) (target : Option Rng) (P : List Pending) (st : Traversal) :
    Option (Res ReadError (Bytes × List Cid)) :=
  if P = [] then some (.ok ([], [])) else readFrom get ⟨P, target, st⟩

def cont (x : Bytes × List Cid) (r : Option (Res ReadError (Bytes × List Cid))) : Option (Res ReadError (Bytes × List Cid)) :=
  r.map (fun r => r.map (fun (c, q) => (x.1 ++ c, x.2 ++ q)))

theorem cont_cont (x y : Bytes × List Cid) (r) : cont x (cont y r) = cont (x.1 ++ y.1, x.2 ++ y.2) r := by
  cases r with
  | none => rfl
  | some r => cases r <;> simp [cont, Res.map]

theorem cont_nil (r) : cont ([], []) r = r := by
  cases r with
  | none => rfl
  | some r => cases r <;> simp [cont, Res.map]

/-- One step of the loop. -/
theorem rp_step {get : Cid → Option Bytes} {target : Option Rng} {P : List Pending} {cid : Cid} {i : Rng} {st : Traversal}
    {b : Bytes} (hget : get cid = some b)  :
    rp get target (P ++ [(cid, i)]) st =
      (match ((FileVisit.mk (P ++ [(cid, i)]) target st).continueWalk b none).1 with
      | .panic p => some (.panic p)
      | .err e => some (.err (.failed e))
      | .ok (content, none) => some (.ok (content, [cid]))
      | .ok (content, some v') => cont (content, [cid]) (readFrom get v')) := by
  rw [rp, if_neg (by simp), readFrom.eq_1]
  simp only [FileVisit.pendingLinks, List.reverse_append, List.reverse_cons, List.reverse_nil, List.nil_append,
    List.singleton_append, List.map_cons, hget]
  generalize ((FileVisit.mk (P ++ [(cid, i)]) target st).continueWalk b none).1 = x
  match x with
  | .panic p => rfl
  | .err e => rfl
  | .ok (content, none) => rfl
  | .ok (content, some v') =>
    simp only
    generalize readFrom get v' = r
    cases r <;> rfl

/-- The touching links of a forest. -/
def forestPending (target : Option Rng) : Nat → List FTree → List PBLink → List Pending
  | o, t :: ts, l :: ls =>
    match Cid.tryFrom (l.Hash.getD []) with
    | .ok cid =>
      if touchesO target ⟨o, o + t.content.length⟩ then
        (cid, ⟨o, o + t.content.length⟩) :: forestPending target (o + t.content.length) ts ls
      else forestPending target (o + t.content.length) ts ls
    | .error _ => []
  | _, _, _ => []

theorem collectLinks_eq {get : Cid → Option Bytes} {target : Option Rng} (ts : List FTree) (ls : List PBLink)
    (h : FilesAt get ts ls) (nth o : Nat) (ho : o + (FTree.contents ts).length < U64) :
    collectLinks target nth o (ls.zip (ts.map (fun t => t.content.length))) = .ok (forestPending target o ts ls) := by
  induction ts generalizing ls nth o with
  | nil => cases ls <;> simp [collectLinks, forestPending]
  | cons t ts ih =>
    cases ls with
    | nil => simp [FilesAt] at h
    | cons l ls =>
      simp only [FilesAt] at h
      obtain ⟨⟨cid, b, m, hc, hg, -⟩, hrest⟩ := h
      simp only [FTree.contents, List.length_append] at ho
      simp only [List.map_cons, List.zip_cons_cons, collectLinks, add64]
      rw [if_pos (by omega)]
      simp only [Res.bind_ok]
      rw [inTarget_eq _ (by simp)]
      rw [ih ls hrest (nth + 1) (o + t.content.length) (by omega)]
      simp only [forestPending, hc]
      cases touchesO target ⟨o, o + t.content.length⟩ <;> simp [toPending, hc]

theorem forestPending_mem {target : Option Rng} (ts : List FTree) (ls : List PBLink) (o : Nat) (p : Pending)
    (hp : p ∈ forestPending target o ts ls) :
    o ≤ p.2.lo ∧ p.2.lo ≤ p.2.hi ∧ p.2.hi ≤ o + (FTree.contents ts).length ∧ touchesO target p.2 = true := by
  induction ts generalizing ls o with
  | nil => simp [forestPending] at hp
  | cons t ts ih =>
    cases ls with
    | nil => simp [forestPending] at hp
    | cons l ls =>
      simp only [forestPending] at hp
      simp only [FTree.contents, List.length_append]
      split at hp
      · split at hp
        · next ht =>
          rcases List.mem_cons.1 hp with rfl | hp
          · exact ⟨by simp, by simp, by simp, ht⟩
          · have := ih ls _ hp; refine ⟨by omega, by omega, by omega, this.2.2.2⟩
        · have := ih ls _ hp; refine ⟨by omega, by omega, by omega, this.2.2.2⟩
      · simp at hp

/-- If a touching forest is not empty, one of its links touches. -/
theorem forestPending_ne_nil {get : Cid → Option Bytes} {target : Option Rng} (ts : List FTree) (ls : List PBLink)
    (h : FilesAt get ts ls) (hts : ts ≠ []) (o : Nat)
    (ht : touchesO target ⟨o, o + (FTree.contents ts).length⟩ = true) : forestPending target o ts ls ≠ [] := by
  induction ts generalizing ls o with
  | nil => simp at hts
  | cons t ts ih =>
    cases ls with
    | nil => simp [FilesAt] at h
    | cons l ls =>
      simp only [FilesAt] at h
      obtain ⟨⟨cid, b, m, hc, hg, -⟩, hrest⟩ := h
      simp only [forestPending, hc]
      split
      · simp
      · next hn =>
        simp only [FTree.contents, List.length_append] at ht
        by_cases hts' : ts = []
        · subst hts'
          simp only [FTree.contents, List.length_nil, Nat.add_zero] at ht
          exact absurd ht hn
        · apply ih ls hrest hts'
          cases target with
          | none => rfl
          | some r =>
            simp only [touchesO, touches, decide_eq_true_eq] at ht hn ⊢
            omega

theorem forestPending_head {get : Cid → Option Bytes} {target : Option Rng} (ts : List FTree) (ls : List PBLink)
    (h : FilesAt get ts ls) (hts : ts ≠ []) (o : Nat)
    (ht : ∀ r, target = some r → r.lo ≤ o ∧ o ≤ r.hi) :
    ∃ p ps, forestPending target o ts ls = p :: ps ∧ p.2.lo = o := by
  cases ts with
  | nil => simp at hts
  | cons t ts =>
    cases ls with
    | nil => simp [FilesAt] at h
    | cons l ls =>
      simp only [FilesAt] at h
      obtain ⟨⟨cid, b, m, hc, hg, -⟩, hrest⟩ := h
      simp only [forestPending, hc]
      rw [if_pos]
      · exact ⟨_, _, rfl, rfl⟩
      · cases target with
        | none => rfl
        | some r =>
          have := ht r rfl
          simp only [touchesO, touches, decide_eq_true_eq]
          omega

/-- The state accepts the given interval next. -/
def Suitable (st : Traversal) (i : Rng) : Prop := st.last_ending.checkIsSuitableNext st.last_offset i = .ok ()

theorem suitable_chunk {st : Traversal} {e : Nat} {i : Rng} (h : st.last_ending = .Chunk e) (hi : i.lo = e) : Suitable st i := by
  simp [Suitable, h, Ending.checkIsSuitableNext, hi]

theorem suitable_tree {st : Traversal} {o e : Nat} {i : Rng} (h : st.last_ending = .TreeCoverage e) (ho : st.last_offset = o)
    (h1 : o ≤ i.lo) (h2 : i.hi ≤ e) : Suitable st i := by
  simp only [Suitable, h, ho, Ending.checkIsSuitableNext]
  rw [if_neg (by omega), if_neg (by omega), if_neg (by omega)]

theorem below_bounds (get : Cid → Option Bytes) :
    (∀ t b o p, p ∈ below get t b o → o ≤ p.2.lo ∧ p.2.hi ≤ o + t.content.length) ∧
    (∀ ts ls o p, p ∈ belowL get ts ls o → o ≤ p.2.lo ∧ p.2.hi ≤ o + (FTree.contents ts).length) := by
  have key := FTree.rec (motive_1 := fun t => ∀ b o p, p ∈ below get t b o → o ≤ p.2.lo ∧ p.2.hi ≤ o + t.content.length)
    (motive_2 := fun ts => ∀ ls o p, p ∈ belowL get ts ls o → o ≤ p.2.lo ∧ p.2.hi ≤ o + (FTree.contents ts).length)
    (fun d b o p hp => by simp [below] at hp)
    (fun ts ih b o p hp => by
      simp only [below] at hp
      split at hp
      · simpa [FTree.content] using ih _ o p hp
      · simp at hp)
    (fun ls o p hp => by cases ls <;> simp [belowL] at hp)
    (fun t ts iht ihts ls o p hp => by
      cases ls with
      | nil => simp [belowL] at hp
      | cons l ls =>
        simp only [belowL] at hp
        simp only [FTree.contents, List.length_append]
        rcases List.mem_append.1 hp with hp | hp
        · split at hp
          · rcases List.mem_cons.1 hp with rfl | hp
            · simp
            · split at hp
              · have := iht _ o p hp; omega
              · simp at hp
          · simp at hp
        · have := ihts ls _ p hp; omega)
  refine ⟨key, ?_⟩
  intro ts ls o p hp
  induction ts generalizing ls o with
  | nil => cases ls <;> simp [belowL] at hp
  | cons t ts ih =>
    cases ls with
    | nil => simp [belowL] at hp
    | cons l ls =>
      simp only [belowL] at hp
      simp only [FTree.contents, List.length_append]
      rcases List.mem_append.1 hp with hp | hp
      · split at hp
        · rcases List.mem_cons.1 hp with rfl | hp
          · simp
          · split at hp
            · have := key _ _ o p hp; omega
            · simp at hp
        · simp at hp
      · have := ih ls _ hp; omega

/-- The Cids requested below a node. -/
def reqs (get : Cid → Option Bytes) (target : Option Rng) (t : FTree) (b : Bytes) (o : Nat) : List Cid :=
  ((below get t b o).filter (fun p => touchesO target p.2)).map (·.1)

def reqsL (get : Cid → Option Bytes) (target : Option Rng) (ts : List FTree) (ls : List PBLink) (o : Nat) : List Cid :=
  ((belowL get ts ls o).filter (fun p => touchesO target p.2)).map (·.1)

theorem touchesO_mono {target : Option Rng} {i j : Rng} (h1 : i.lo ≤ j.lo) (h2 : j.hi ≤ i.hi)
    (h : touchesO target j = true) : touchesO target i = true := by
  cases target with
  | none => rfl
  | some r => simp only [touchesO, touches, decide_eq_true_eq] at *; omega

theorem reqs_untouched {get : Cid → Option Bytes} {target : Option Rng} {t : FTree} {b : Bytes} {o : Nat}
    (h : touchesO target ⟨o, o + t.content.length⟩ = false) : reqs get target t b o = [] := by
  simp only [reqs, List.map_eq_nil_iff, List.filter_eq_nil_iff]
  intro p hp ht
  have := (below_bounds get).1 t b o p hp
  rw [touchesO_mono (i := ⟨o, o + t.content.length⟩) this.1 this.2 ht] at h
  simp at h

/-- What processing one pending tree does. -/
def TreeSpec (get : Cid → Option Bytes) (target : Option Rng) (t : FTree) : Prop :=
  ∀ (b : Bytes) (m : FlatUnixFs) (cid : Cid) (o : Nat) (P : List Pending) (st : Traversal),
    FileAt get t b → FlatUnixFs.tryParse b = .ok m → NoMeta m → get cid = some b → o + t.content.length < U64 →
    Suitable st ⟨o, o + t.content.length⟩ → touchesO target ⟨o, o + t.content.length⟩ = true →
    (P ≠ [] → ∀ r, target = some r → o + t.content.length ≤ r.hi) →
    ∃ st', (P ≠ [] → st'.last_ending = .Chunk (o + t.content.length)) ∧
      rp get target (P ++ [(cid, ⟨o, o + t.content.length⟩)]) st =
        cont (sliceAt target o t.content, cid :: reqs get target t b o) (rp get target P st')

theorem process_forest {get : Cid → Option Bytes} {target : Option Rng} (ts : List FTree) (ih : ∀ t ∈ ts, TreeSpec get target t)
    (ls : List PBLink) (o : Nat) (P : List Pending) (st : Traversal) (h : FilesAt get ts ls)
    (ho : o + (FTree.contents ts).length < U64)
    (hsuit : ∀ p ps, forestPending target o ts ls = p :: ps → Suitable st p.2)
    (hP : P ≠ [] → ∀ r, target = some r → o + (FTree.contents ts).length ≤ r.hi) :
    ∃ st', (P ≠ [] → forestPending target o ts ls ≠ [] → st'.last_ending = .Chunk (o + (FTree.contents ts).length)) ∧
      rp get target (P ++ (forestPending target o ts ls).reverse) st =
        cont (sliceAt target o (FTree.contents ts), reqsL get target ts ls o) (rp get target P st') := by
  induction ts generalizing ls o st with
  | nil =>
    cases ls with
    | cons l ls => simp [FilesAt] at h
    | nil =>
      refine ⟨st, by simp [forestPending], ?_⟩
      have : sliceAt target o [] = [] := by cases target <;> simp [sliceAt]
      simp [forestPending, FTree.contents, reqsL, belowL, this, cont_nil]
  | cons t ts ihts =>
    cases ls with
    | nil => simp [FilesAt] at h
    | cons l ls =>
      simp only [FilesAt] at h
      obtain ⟨⟨cid, b, m, hc, hg, hpm, hnm, hat⟩, hrest⟩ := h
      simp only [FTree.contents, List.length_append] at ho hP
      have hreq : reqsL get target (t :: ts) (l :: ls) o =
          (if touchesO target ⟨o, o + t.content.length⟩ then cid :: reqs get target t b o else []) ++
            reqsL get target ts ls (o + t.content.length) := by
        simp only [reqsL, belowL, hc, hg, List.filter_append, List.map_append, List.filter_cons]
        congr 1
        split
        · rfl
        · next hn =>
          exact reqs_untouched (Bool.eq_false_iff.2 (by simpa using hn))
      by_cases htch : touchesO target ⟨o, o + t.content.length⟩ = true
      · -- the first child is visited
        have hfp : forestPending target o (t :: ts) (l :: ls) =
            (cid, ⟨o, o + t.content.length⟩) :: forestPending target (o + t.content.length) ts ls := by
          simp [forestPending, hc, htch]
        have hnext : ∀ r, target = some r → P ++ (forestPending target (o + t.content.length) ts ls).reverse ≠ [] →
            o + t.content.length ≤ r.hi := by
          intro r hr hne
          by_cases hPn : P = []
          · subst hPn
            obtain ⟨p, hp⟩ := List.exists_mem_of_ne_nil (forestPending target (o + t.content.length) ts ls) (by simpa using hne)
            have h1 := forestPending_mem ts ls _ p hp
            rw [hr] at h1
            simp only [touchesO, touches, decide_eq_true_eq] at h1
            omega
          · have := hP hPn r hr; omega
        obtain ⟨st1, hst1, hrp1⟩ := ih t (by simp) b m cid o (P ++ (forestPending target (o + t.content.length) ts ls).reverse) st
          hat hpm hnm hg (by omega) (hsuit _ _ hfp) htch (fun hne r hr => hnext r hr hne)
        have hhead : forestPending target (o + t.content.length) ts ls ≠ [] →
            ∃ p ps, forestPending target (o + t.content.length) ts ls = p :: ps ∧ p.2.lo = o + t.content.length := by
          intro hne
          apply forestPending_head ts ls hrest
          · rintro rfl; simp [forestPending] at hne
          · intro r hr
            have h1 := hnext r hr (by simp [hne])
            rw [hr] at htch
            simp only [touchesO, touches, decide_eq_true_eq] at htch
            omega
        obtain ⟨st2, hst2, hrp2⟩ := ihts (fun t ht => ih t (by simp [ht])) ls (o + t.content.length) st1 hrest (by omega)
          (fun p ps hps => by
            obtain ⟨p', ps', h1, h2⟩ := hhead (by simp [hps])
            rw [hps] at h1
            cases h1
            exact suitable_chunk (hst1 (by simp [hps])) h2)
          (fun hne r hr => by have := hP hne r hr; omega)
        by_cases hemp : forestPending target (o + t.content.length) ts ls = []
        · refine ⟨st1, ?_, ?_⟩
          · intro hne _
            have htsn : ts = [] := by
              refine Classical.byContradiction fun htsn => ?_
              obtain ⟨p, ps, h1, -⟩ := forestPending_head (target := target) ts ls hrest htsn (o + t.content.length) (by
                intro r hr
                have h1 := hP hne r hr
                rw [hr] at htch
                simp only [touchesO, touches, decide_eq_true_eq] at htch
                omega)
              rw [hemp] at h1
              cases h1
            subst htsn
            simpa [FTree.contents, hemp] using hst1 (by simp [hne])
          · rw [hfp, hemp]
            rw [hemp] at hrp1
            simp only [List.reverse_nil, List.append_nil, List.reverse_cons, List.nil_append] at hrp1 ⊢
            rw [hrp1]
            have h3 : reqsL get target ts ls (o + t.content.length) = [] ∧
                sliceAt target (o + t.content.length) (FTree.contents ts) = [] := by
              by_cases htsn : ts = []
              · subst htsn
                refine ⟨by cases ls <;> simp [reqsL, belowL], by cases target <;> simp [sliceAt, FTree.contents]⟩
              · have hnt : touchesO target ⟨o + t.content.length, o + t.content.length + (FTree.contents ts).length⟩ = false := by
                  refine Bool.eq_false_iff.2 fun hh => ?_
                  exact forestPending_ne_nil ts ls hrest htsn _ hh hemp
                refine ⟨?_, sliceAt_untouched _ _ _ hnt⟩
                simp only [reqsL, List.map_eq_nil_iff, List.filter_eq_nil_iff]
                intro p hp ht
                have := (below_bounds get).2 ts ls _ p hp
                rw [touchesO_mono (i := ⟨_, _⟩) this.1 this.2 ht] at hnt
                simp at hnt
            simp only [hreq, htch, if_true, FTree.contents, sliceAt_append, h3.1, h3.2, List.append_nil]
        · refine ⟨st2, ?_, ?_⟩
          · intro hne _
            have := hst2 hne hemp
            simp only [FTree.contents, List.length_append]
            rw [this, Nat.add_assoc]
          · rw [hfp, List.reverse_cons, ← List.append_assoc, hrp1, hrp2, cont_cont]
            simp only [hreq, htch, if_true, FTree.contents, sliceAt_append]
      · have htch : touchesO target ⟨o, o + t.content.length⟩ = false := by simpa using htch
        have hfp : forestPending target o (t :: ts) (l :: ls) = forestPending target (o + t.content.length) ts ls := by
          simp [forestPending, hc, htch]
        obtain ⟨st2, hst2, hrp2⟩ := ihts (fun t ht => ih t (by simp [ht])) ls (o + t.content.length) st hrest (by omega)
          (fun p ps hps => hsuit p ps (by rw [hfp, hps]))
          (fun hne r hr => by have := hP hne r hr; omega)
        refine ⟨st2, ?_, ?_⟩
        · intro hne hfn
          rw [hfp] at hfn
          rw [hst2 hne hfn]
          simp [FTree.contents, Nat.add_assoc]
        · rw [hfp, hrp2, hreq]
          simp only [htch, FTree.contents, sliceAt_append, sliceAt_untouched _ _ _ htch, List.nil_append, Bool.false_eq_true,
            if_false]

theorem filesAt_length {get : Cid → Option Bytes} : ∀ {ts : List FTree} {ls : List PBLink}, FilesAt get ts ls → ls.length = ts.length
  | [], [], _ => rfl
  | _ :: _, [], h => by simp [FilesAt] at h
  | [], _ :: _, h => by simp [FilesAt] at h
  | _ :: ts, _ :: ls, h => by
    simp only [FilesAt] at h
    simp [filesAt_length h.2]

theorem continueWalk_last {P : List Pending} {cid : Cid} {i : Rng} {target : Option Rng} {st : Traversal} {b : Bytes}
    (hs : Suitable st i) :
    ((FileVisit.mk (P ++ [(cid, i)]) target st).continueWalk b none).1 =
      (match FileReader.fromContinued st i.lo b with
      | .err e => .err e
      | .panic p => .panic p
      | .ok fr =>
        match fr.content with
        | (.Bytes content, traversal) =>
          match maybeTargetSlice content i target with
          | .err e => .err e
          | .panic p => .panic p
          | .ok content => .ok (content, if P ≠ [] then some (.mk P target traversal) else none)
        | (.Links base zipped, traversal) =>
          match collectLinks target 0 base zipped with
          | .err e => .err e
          | .panic p => .panic p
          | .ok ps => .ok ([], some (.mk (P ++ ps.reverse) target traversal))) := by
  unfold Suitable at hs
  simp only [FileVisit.continueWalk, List.getLast?_append, List.getLast?_singleton, Option.some_or, List.dropLast_concat,
    Traversal.continueWalk, hs]
  cases FileReader.fromContinued st i.lo b with
  | err e => rfl
  | panic p => rfl
  | ok fr =>
    simp only
    rcases fr.content with ⟨c, tr⟩
    cases c with
    | Bytes c =>
      simp only
      cases maybeTargetSlice (ε := FileReadFailed) c i target with
      | ok c => simp only; split <;> rfl
      | err e => rfl
      | panic p => rfl
    | Links base z =>
      simp only
      cases collectLinks target 0 base z <;> rfl

theorem process_leaf {get : Cid → Option Bytes} {target : Option Rng} (d : Bytes) : TreeSpec get target (FTree.leaf d) := by
  intro b m cid o P st hat hpm hnm hg ho hs ht hP
  simp only [FileAt] at hat
  obtain ⟨m', hm', hfn, hl, hbs, hd, hf⟩ := hat
  rw [hpm] at hm'
  cases hm'
  simp only [FTree.content] at ho hs ht hP ⊢
  have hfr : FileReader.fromContinued st o b = .ok (.mk o (.Chunk (o + d.length)) [] d [] st.metadata d.length) := by
    rw [fromContinued_eq hpm hnm, fromParts_leaf hfn hl hbs hd hf o _ ho]
  refine ⟨.mk (.Chunk (o + d.length)) o d.length st.metadata, fun _ => rfl, ?_⟩
  rw [rp_step hg, continueWalk_last hs]
  simp only [hfr, FileReader.content, if_true, maybeTargetSlice_eq]
  by_cases hPn : P = []
  · subst hPn
    simp [rp, reqs, below, cont, Res.map]
  · simp [hPn, rp, reqs, below]

theorem process_node {get : Cid → Option Bytes} {target : Option Rng} (ts : List FTree) (ih : ∀ t ∈ ts, TreeSpec get target t) :
    TreeSpec get target (FTree.node ts) := by
  intro b m cid o P st hat hpm hnm hg ho hs ht hP
  simp only [FileAt] at hat
  obtain ⟨m', hm', hfn, htn, hd, hf, hbs, hfs⟩ := hat
  rw [hpm] at hm'
  cases hm'
  simp only [FTree.content] at ho hs ht hP ⊢
  have hlen := filesAt_length hfs
  have hl : m.links ≠ [] := by
    intro h
    rw [h] at hlen
    exact htn (List.length_eq_zero_iff.1 hlen.symm)
  have hfr := fromContinued_eq (st := st) (o := o) hpm hnm
  rw [fromParts_node hfn hl (by rw [hbs, hlen, List.length_map]) hf o _ ho] at hfr
  have hne := forestPending_ne_nil ts m.links hfs htn o ht
  obtain ⟨st', hst', hrp⟩ := process_forest ts ih m.links o P
    (.mk (.TreeCoverage (o + (FTree.contents ts).length)) o (FTree.contents ts).length st.metadata) hfs ho
    (fun p ps hps => by
      have := forestPending_mem ts m.links o p (by rw [hps]; simp)
      exact suitable_tree rfl rfl this.1 this.2.2.1) hP
  refine ⟨st', fun h => hst' h hne, ?_⟩
  rw [rp_step hg, continueWalk_last hs]
  simp only [hfr, FileReader.content, hl, if_false, hbs, collectLinks_eq ts m.links hfs 0 o ho]
  rw [rp, if_neg (by simp [hne])] at hrp
  rw [hrp, cont_cont]
  simp [reqs, below, hpm, reqsL]

theorem process_tree (get : Cid → Option Bytes) (target : Option Rng) (t : FTree) : TreeSpec get target t :=
  FTree.rec (motive_1 := fun t => TreeSpec get target t) (motive_2 := fun ts => ∀ t ∈ ts, TreeSpec get target t)
    (fun d => process_leaf d) (fun ts ih => process_node ts ih) (fun _ h => by simp at h)
    (fun t ts iht ihts s hs => by
      rcases List.mem_cons.1 hs with rfl | hs
      · exact iht
      · exact ihts s hs) t

theorem filesize_lt {b : Bytes} {m : FlatUnixFs} {n : Nat} (h : FlatUnixFs.tryParse b = .ok m) (hf : m.data.filesize = some n) :
    n < U64 := by
  have := (flat_tryParse_good b h).2
  unfold UnixFs.From at this
  exact this.2.1 n hf

/-- Reading a well-formed file, whole or in part. -/
theorem readFile_eq (get : Cid → Option Bytes) (t : FTree) (b : Bytes) (h : FileAt get t b) (target : Option Rng) :
    readFile get ⟨target⟩ b = some (.ok (sliceAt target 0 t.content, reqs get target t b 0)) := by
  cases t with
  | leaf d =>
    simp only [FileAt] at h
    obtain ⟨m, hm, hfn, hl, hbs, hd, hf⟩ := h
    have hlt := filesize_lt hm hf
    have hs := maybeTargetSlice_eq (ε := FileReadFailed) d 0 target
    simp only [Nat.zero_add] at hs
    simp only [readFile, IdleFileVisit.start, FileReader.fromBlock, hm,
      fromParts_leaf hfn hl hbs hd hf 0 _ (by omega), Res.bind_ok, IdleFileVisit.startFromReader, FileReader.content, if_true,
      hs, FTree.content, reqs, below, List.filter_nil, List.map_nil]
  | node ts =>
    simp only [FileAt] at h
    obtain ⟨m, hm, hfn, htn, hd, hf, hbs, hfs⟩ := h
    have hlt := filesize_lt hm hf
    have hlen := filesAt_length hfs
    have hl : m.links ≠ [] := by
      intro h
      rw [h] at hlen
      exact htn (List.length_eq_zero_iff.1 hlen.symm)
    obtain ⟨st', -, hrp⟩ := process_forest ts (fun t _ => process_tree get target t) m.links 0 []
      (.mk (.TreeCoverage (0 + (FTree.contents ts).length)) 0 (FTree.contents ts).length (Metadata.ofUnixFs m.data)) hfs (by omega)
      (fun p ps hps => by
        have := forestPending_mem ts m.links 0 p (by rw [hps]; simp)
        exact suitable_tree rfl rfl this.1 this.2.2.1) (by simp)
    have hr : reqs get target (FTree.node ts) b 0 = reqsL get target ts m.links 0 := by
      simp [reqs, below, hm, reqsL]
    simp only [readFile, IdleFileVisit.start, FileReader.fromBlock, hm,
      fromParts_node hfn hl (by rw [hbs, hlen, List.length_map]) hf 0 _ (by omega), Res.bind_ok,
      IdleFileVisit.startFromReader, FileReader.content, hl, if_false, hbs, collectLinks_eq ts m.links hfs 0 0 (by omega),
      Option.getD_none, List.nil_append]
    simp only [rp, List.nil_append, if_true, List.reverse_eq_nil_iff] at hrp
    simp only [cont, Option.map_some, Res.map, List.append_nil] at hrp
    rw [hr]
    simp only [FTree.content]
    by_cases hn : forestPending target 0 ts m.links = []
    · simp only [hn, if_true] at hrp
      simp only [hn, List.reverse_nil, if_true]
      exact hrp
    · rw [if_neg hn] at hrp
      simp only [List.reverse_eq_nil_iff, hn, if_false]
      rw [hrp]
      simp [Res.map]

end Verif
