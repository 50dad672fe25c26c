import Verif.Spec.Walking
import Verif.VisitArb
/-
Lemmas about single steps of a walker.
-/
namespace Verif
open Verif.Spec

theorem pushLinks_ok {conv : Nat → PBLink → Res InvalidCidInLink WalkLink} : ∀ {xs : List (PBLink × Nat)} {p p' : List WalkLink},
    pushLinks conv xs p = (.ok (), p') → ∃ ls : List WalkLink, p' = p ++ ls ∧ xs.map (fun x => conv x.2 x.1) = ls.map .ok := by
  intro xs
  induction xs with
  | nil =>
    intro p p' h
    rw [pushLinks] at h
    cases h
    exact ⟨[], by simp, rfl⟩
  | cons x xs ih =>
    intro p p' h
    obtain ⟨l, i⟩ := x
    rw [pushLinks] at h
    cases hc : conv i l with
    | ok a =>
      rw [hc] at h
      obtain ⟨ls, rfl, hls⟩ := ih h
      exact ⟨a :: ls, by simp, by simp [hc, hls]⟩
    | err e => rw [hc] at h; cases h
    | panic q => rw [hc] at h; cases h

theorem pushLinks_of_ok {conv : Nat → PBLink → Res InvalidCidInLink WalkLink} : ∀ {xs : List (PBLink × Nat)} {p ls : List WalkLink},
    xs.map (fun x => conv x.2 x.1) = ls.map .ok → pushLinks conv xs p = (.ok (), p ++ ls) := by
  intro xs
  induction xs with
  | nil =>
    intro p ls h
    cases ls with
    | nil => simp [pushLinks]
    | cons a ls => cases h
  | cons x xs ih =>
    intro p ls h
    cases ls with
    | nil => cases h
    | cons a ls =>
      simp only [List.map_cons, List.cons.injEq] at h
      rw [pushLinks, h.1]
      simp only
      rw [ih h.2]
      simp

/-- In link order. -/
theorem pushLinks_rev {conv : Nat → PBLink → Res InvalidCidInLink WalkLink} {links : List PBLink} {p p' : List WalkLink} :
    pushLinks conv links.zipIdx.reverse p = (.ok (), p') ↔
      ∃ ls : List WalkLink, p' = p ++ ls.reverse ∧ links.zipIdx.map (fun x => conv x.2 x.1) = ls.map .ok := by
  constructor
  · intro h
    obtain ⟨ls, h1, h2⟩ := pushLinks_ok h
    refine ⟨ls.reverse, by simpa using h1, ?_⟩
    have := congrArg List.reverse h2
    simpa using this
  · rintro ⟨ls, rfl, h⟩
    apply pushLinks_of_ok
    rw [List.map_reverse, h, List.map_reverse]

theorem popNext_links (c : Option InnerEntry) (p : List WalkLink) :
    (Walker.popNext c p).next.toList ++ (Walker.popNext c p).pending.reverse = p.reverse := by
  unfold Walker.popNext
  rcases List.eq_nil_or_concat p with rfl | ⟨q, a, rfl⟩
  · rfl
  · simp

theorem popNext_none (c : Option InnerEntry) (p : List WalkLink) :
    (Walker.popNext c p).next = none → (Walker.popNext c p).pending = [] := by
  unfold Walker.popNext
  rcases List.eq_nil_or_concat p with rfl | ⟨q, a, rfl⟩
  · intro _; rfl
  · simp

theorem popNext_current (c : Option InnerEntry) (p : List WalkLink) : (Walker.popNext c p).current = c := by
  unfold Walker.popNext
  split <;> rfl

theorem popNext_continue (c : Option InnerEntry) (p : List WalkLink) :
    (Walker.popNext c p).should_continue = (Walker.popNext c p).next.isSome := by
  unfold Walker.popNext
  split <;> rfl

/-- The links which remain to be visited, in order. -/
def Walker.links (w : Walker) : List WalkLink := w.next.toList ++ w.pending.reverse

/-- There is no ongoing file visit. -/
def Walker.atRest (w : Walker) : Prop := ∀ ie v sz, w.current = some ie → ie.kind ≠ .File (some v) sz

theorem step_atRest {w : Walker} (h : w.atRest) (b : Bytes) (cache : Option VisitCache) : w.step b cache = w.nextBlock b cache := by
  unfold Walker.step
  split
  · rename_i h'
    exact absurd rfl (h _ _ _ h')
  · rfl

theorem step_inFile {w : Walker} {ie : InnerEntry} {v : FileVisit} {sz : Nat} (h : w.current = some ie)
    (hk : ie.kind = .File (some v) sz) (b : Bytes) (cache : Option VisitCache) :
    w.step b cache = w.nextFile ie v sz b cache := by
  obtain ⟨c, k, p, m, d⟩ := ie
  simp only at hk
  subst hk
  simp [Walker.step, h]

/-- The possible ways of a successful step. -/
inductive WStep (w : Walker) (b : Bytes) (cache : Option VisitCache) (item : ContinuedWalk) (w' : Walker) : Prop
  | later (ie : InnerEntry) (v : FileVisit) (sz : Nat) (c : Bytes) (next : Option FileVisit) :
      w.current = some ie → ie.kind = .File (some v) sz → (v.continueWalk b cache).1 = .ok (c, next) →
      item = .File (.later c (!next.isSome)) ie.cid ie.path ie.metadata sz →
      w' = ⟨some { ie with kind := .File next sz }, w.next, w.pending, next.isSome || w.next.isSome⟩ →
      WStep w b cache item w'
  | directory (m : FlatUnixFs) (n : WalkLink) (ls : List WalkLink) (ie : InnerEntry) :
      w.atRest → FlatUnixFs.tryParse b = .ok m → m.data.Ty = .Directory → checkDirectorySupported m = .ok m →
      w.next = some n → m.links.zipIdx.map (fun x => convertLink (n.depth + 1) x.2 x.1) = ls.map .ok →
      w.enterDirectory (Metadata.ofUnixFs m.data) n = .ok (ie, item) →
      w' = Walker.popNext (some ie) (w.pending ++ ls.reverse) → WStep w b cache item w'
  | shard (m : FlatUnixFs) (n : WalkLink) (ls : List WalkLink) (ie : InnerEntry) :
      w.atRest → FlatUnixFs.tryParse b = .ok m → m.data.Ty = .HAMTShard → checkHamtshardSupported m = .ok m →
      w.next = some n → m.links.zipIdx.map (fun x => convertShardedLink (n.depth + 1) n.depth x.2 x.1) = ls.map .ok →
      w.enterShard (Metadata.ofUnixFs m.data) n = .ok (ie, item) →
      w' = Walker.popNext (some ie) (w.pending ++ ls.reverse) → WStep w b cache item w'
  | first (m : FlatUnixFs) (n : WalkLink) (r : FileVisitResult) (ie : InnerEntry) :
      w.atRest → FlatUnixFs.tryParse b = .ok m → m.data.Ty = .Raw ∨ m.data.Ty = .File →
      (IdleFileVisit.startFromParsed {} m cache).1 = .ok r →
      w.next = some n → w.enterLeaf (.File r.next r.total_size) r.metadata n = .ok ie →
      item = .File (.first r.content (!r.next.isSome)) ie.cid ie.path ie.metadata r.total_size →
      w' = { Walker.popNext (some ie) w.pending with
        should_continue := r.next.isSome || (Walker.popNext (some ie) w.pending).next.isSome } → WStep w b cache item w'
  | symlink (m : FlatUnixFs) (n : WalkLink) (ie : InnerEntry) :
      w.atRest → FlatUnixFs.tryParse b = .ok m → m.data.Ty = .Symlink → w.next = some n →
      w.enterLeaf .Symlink (Metadata.ofUnixFs m.data) n = .ok ie →
      item = .Symlink (m.data.Data.getD []) ie.cid ie.path ie.metadata →
      w' = Walker.popNext (some ie) w.pending → WStep w b cache item w'

theorem checkDirectorySupported_ok {m m' : FlatUnixFs} (h : checkDirectorySupported m = .ok m') : m' = m := by
  unfold checkDirectorySupported at h
  simp only at h
  split at h
  · cases h
  · cases h; rfl

theorem checkHamtshardSupported_ok {m m' : FlatUnixFs} (h : checkHamtshardSupported m = .ok m') : m' = m := by
  unfold checkHamtshardSupported at h
  rw [Res.bind_ok_iff] at h
  obtain ⟨_, _, h⟩ := h
  cases h; rfl

theorem ofFileReadFailed_ne_ok {α : Type} (e : FileReadFailed) (a : α) : WalkError.ofFileReadFailed e ≠ .ok a := by
  cases e <;> simp [WalkError.ofFileReadFailed]

theorem nextDir_ok {w w' : Walker} {links : List PBLink} {conv : Nat → Nat → PBLink → Res InvalidCidInLink WalkLink}
    {enter : WalkLink → Res WalkError (InnerEntry × ContinuedWalk)} {cache cache' : Option VisitCache} {item : ContinuedWalk}
    (h : w.nextDir links conv enter cache = (.ok item, w', cache')) :
    ∃ (n : WalkLink) (ls : List WalkLink) (ie : InnerEntry), w.next = some n ∧ links.zipIdx.map (fun x => conv n.depth x.2 x.1) = ls.map .ok ∧
      enter n = .ok (ie, item) ∧ w' = Walker.popNext (some ie) (w.pending ++ ls.reverse) := by
  unfold Walker.nextDir at h
  cases hn : w.next with
  | none => rw [hn] at h; cases h
  | some n =>
    rw [hn] at h
    simp only at h
    split at h
    · cases h
    · cases h
    next p hp =>
    obtain ⟨ls, rfl, hls⟩ := pushLinks_rev.1 hp
    split at h
    · cases h
    · cases h
    next ie it he =>
    cases h
    exact ⟨n, ls, ie, rfl, hls, he, rfl⟩

theorem first_ok {w w' : Walker} {b : Bytes} {cache cache' : Option VisitCache} {item : ContinuedWalk} {m : FlatUnixFs}
    (hr : w.atRest) (hm : FlatUnixFs.tryParse b = .ok m) (hty : m.data.Ty = .Raw ∨ m.data.Ty = .File)
    (h : w.nextFirst m cache = (.ok item, w', cache')) : WStep w b cache item w' := by
  unfold Walker.nextFirst at h
  split at h
  · cases h
  · rename_i e _ _
    have := congrArg Prod.fst h
    exact absurd this (ofFileReadFailed_ne_ok e _)
  next r _ hx =>
  split at h
  · cases h
  next n hn =>
  simp only at h
  split at h
  · cases h
  · cases h
  next ie hie =>
  cases h
  exact .first m n r ie hr hm hty (by rw [hx]) hn hie rfl rfl

theorem step_ok {w w' : Walker} {b : Bytes} {cache cache' : Option VisitCache} {item : ContinuedWalk}
    (h : w.step b cache = (.ok item, w', cache')) : WStep w b cache item w' := by
  by_cases hf : ∃ ie v sz, w.current = some ie ∧ ie.kind = .File (some v) sz
  · obtain ⟨ie, v, sz, hc, hk⟩ := hf
    rw [step_inFile hc hk] at h
    unfold Walker.nextFile at h
    split at h
    · cases h
    · rename_i e _ _
      have := congrArg Prod.fst h
      exact absurd this (ofFileReadFailed_ne_ok e _)
    next c next _ hx =>
    cases h
    exact .later ie v sz c next hc hk (by rw [hx]) rfl rfl
  · have hr : w.atRest := fun ie v sz h1 h2 => hf ⟨ie, v, sz, h1, h2⟩
    rw [step_atRest hr] at h
    unfold Walker.nextBlock at h
    simp only at h
    split at h
    · cases h
    next m hm =>
    split at h
    next hty =>
      split at h
      · cases h
      next m' hm' =>
      have := checkDirectorySupported_ok hm'
      subst this
      obtain ⟨n, ls, ie, h1, h2, h3, h4⟩ := nextDir_ok h
      exact .directory m' n ls ie hr hm hty hm' h1 h2 h3 h4
    next hty =>
      split at h
      · cases h
      · cases h
      next m' hm' =>
      have := checkHamtshardSupported_ok hm'
      subst this
      obtain ⟨n, ls, ie, h1, h2, h3, h4⟩ := nextDir_ok h
      exact .shard m' n ls ie hr hm hty hm' h1 h2 h3 h4
    next hty =>
      exact first_ok hr hm (.inl hty) h
    next hty =>
      exact first_ok hr hm (.inr hty) h
    · cases h
    next hty =>
      unfold Walker.nextSymlink at h
      simp only at h
      split at h
      · cases h
      next n hn =>
      split at h
      · cases h
      · cases h
      next ie hie =>
      cases h
      exact .symlink m n ie hr hm hty hn hie rfl rfl

end Verif
