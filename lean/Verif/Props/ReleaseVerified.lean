import Verif.Spec.ReleaseEnds
import Verif.Props.Verified
/-
C114 for release builds: with verified blocks, what a Cid stands for does not depend on the store, whatever the blocks are.
-/
namespace Verif.Props
open Verif Verif.Spec

theorem readFromRel_two {get get' : Cid → Option Bytes} (ha : Agree get get') (v : FileVisit) (x : Res ReadError (Bytes × List Cid))
    (h : readFromRel get v = some x) : SameOrMissing get get' ReadError.missing x (readFromRel get' v) := by
  refine readFromRel.partial_correctness get (fun v x => SameOrMissing get get' ReadError.missing x (readFromRel get' v)) ?_ v x h
  intro rec ih v r h
  rw [readFromRel.eq_1]
  cases hp : v.pendingLinks with
  | panic p => simp only [hp] at h ⊢; exact .inl h
  | err e => simp only [hp] at h ⊢; exact .inl h
  | ok fr =>
    obtain ⟨first, rest⟩ := fr
    simp only [hp] at h ⊢
    cases hg : get first with
    | none => rw [hg] at h; cases h; exact .inr (.inr ⟨first, rfl, hg⟩)
    | some block =>
      rw [hg] at h
      simp only at h
      cases hg' : get' first with
      | none => exact .inr (.inl ⟨first, rfl, hg'⟩)
      | some block' =>
        cases ha _ _ _ hg hg'
        simp only
        cases hc : v.continueWalkRel block none with
        | none => rw [hc] at h; cases h
        | some y =>
          obtain ⟨y, k⟩ := y
          simp only [hc, Option.bind_eq_bind, Option.bind_some] at h ⊢
          cases y with
          | panic p => exact .inl h
          | err e => exact .inl h
          | ok cv =>
            obtain ⟨content, v'⟩ := cv
            cases v' with
            | none => exact .inl h
            | some v' =>
              simp only at h ⊢
              cases hr : rec v' with
              | none => rw [hr] at h; cases h
              | some r' =>
                rw [hr] at h
                cases h
                rcases ih v' r' hr with h1 | ⟨c, h1, h2⟩ | ⟨c, rfl, h2⟩
                · rw [h1]; exact .inl rfl
                · rw [h1]; exact .inr (.inl ⟨c, rfl, h2⟩)
                · exact .inr (.inr ⟨c, rfl, h2⟩)

/-- C114 in release builds, files. -/
theorem C114_release_read (sha : Bytes → Bytes) (get get' : Cid → Option Bytes) (h : Verified sha get) (h' : Verified sha get') (hn : NoClash sha get get')
    (idle : IdleFileVisit) (root : Bytes) (x : Res ReadError (Bytes × List Cid)) (hx : readFileRel get idle root = some x) :
    SameOrMissing get get' ReadError.missing x (readFileRel get' idle root) := by
  have ha := agree_of h h' hn
  unfold readFileRel at hx ⊢
  cases hst : idle.startRel root with
  | none => rw [hst] at hx; cases hx
  | some st =>
    cases st with
    | panic p => simp only [hst] at hx ⊢; exact .inl hx
    | err e => simp only [hst] at hx ⊢; exact .inl hx
    | ok st =>
      obtain ⟨content, a, b, v⟩ := st
      simp only [hst] at hx ⊢
      cases v with
      | none => exact .inl hx
      | some v =>
        simp only at hx ⊢
        cases hr : readFromRel get v with
        | none => rw [hr] at hx; cases hx
        | some r =>
          rw [hr] at hx
          cases hx
          rcases readFromRel_two ha v r hr with h1 | ⟨c, h1, h2⟩ | ⟨c, rfl, h2⟩
          · rw [h1]; exact .inl rfl
          · rw [h1]; exact .inr (.inl ⟨c, rfl, h2⟩)
          · exact .inr (.inr ⟨c, rfl, h2⟩)

theorem walkFromRel_two {get get' : Cid → Option Bytes} (ha : Agree get get') (w : Walker) (cache : Option VisitCache) (x : Res WalkFail (List ContinuedWalk))
    (h : walkFromRel get w cache = some x) : SameOrMissing get get' WalkFail.missing x (walkFromRel get' w cache) := by
  refine walkFromRel.partial_correctness get (fun w cache x => SameOrMissing get get' WalkFail.missing x (walkFromRel get' w cache)) ?_ w cache x h
  intro rec ih w cache r h
  rw [walkFromRel.eq_1]
  by_cases hs : w.shouldContinue = false
  · rw [if_pos hs] at h ⊢; exact .inl h
  rw [if_neg hs] at h ⊢
  cases hp : w.pendingLinks with
  | panic p => simp only [hp] at h ⊢; exact .inl h
  | err e => simp only [hp] at h ⊢; exact .inl h
  | ok fr =>
    obtain ⟨first, rest⟩ := fr
    simp only [hp] at h ⊢
    cases hg : get first with
    | none => rw [hg] at h; cases h; exact .inr (.inr ⟨first, rfl, hg⟩)
    | some block =>
      rw [hg] at h
      simp only at h
      cases hg' : get' first with
      | none => exact .inr (.inl ⟨first, rfl, hg'⟩)
      | some block' =>
        cases ha _ _ _ hg hg'
        simp only
        cases hc : w.stepRel block cache with
        | none => rw [hc] at h; cases h
        | some y =>
          obtain ⟨a, w', cache'⟩ := y
          simp only [hc, Option.bind_eq_bind, Option.bind_some] at h ⊢
          cases a with
          | panic p => exact .inl h
          | err e => exact .inl h
          | ok item =>
            simp only at h ⊢
            cases hr : rec w' cache' with
            | none => rw [hr] at h; cases h
            | some r' =>
              rw [hr] at h
              cases h
              rcases ih w' cache' r' hr with h1 | ⟨c, h1, h2⟩ | ⟨c, rfl, h2⟩
              · rw [h1]; exact .inl rfl
              · rw [h1]; exact .inr (.inl ⟨c, rfl, h2⟩)
              · exact .inr (.inr ⟨c, rfl, h2⟩)

/-- C114 in release builds, walks. -/
theorem C114_release_walk (sha : Bytes → Bytes) (get get' : Cid → Option Bytes) (h : Verified sha get) (h' : Verified sha get') (hn : NoClash sha get get')
    (root : Cid) (name : Bytes) (cache : Option VisitCache) (x : Res WalkFail (List ContinuedWalk))
    (hx : walkFromRel get (Walker.new root name) cache = some x) :
    SameOrMissing get get' WalkFail.missing x (walkFromRel get' (Walker.new root name) cache) :=
  walkFromRel_two (agree_of h h' hn) _ _ _ hx

theorem lookupFromRel_two {get get' : Cid → Option Bytes} (ha : Agree get get') (l : ShardedLookup) (cache : Option LookupCache)
    (x : Res LookupFail (Option Cid × List Cid)) (h : lookupFromRel get l cache = some x) :
    SameOrMissing get get' LookupFail.missing x (lookupFromRel get' l cache) := by
  refine lookupFromRel.partial_correctness get (fun l cache x => SameOrMissing get get' LookupFail.missing x (lookupFromRel get' l cache)) ?_ l cache x h
  intro rec ih l cache r h
  rw [lookupFromRel.eq_1]
  cases hp : l.pendingLinks with
  | panic p => simp only [hp] at h ⊢; exact .inl h
  | err e => simp only [hp] at h ⊢; exact .inl h
  | ok fr =>
    obtain ⟨first, rest⟩ := fr
    simp only [hp] at h ⊢
    cases hg : get first with
    | none => rw [hg] at h; cases h; exact .inr (.inr ⟨first, rfl, hg⟩)
    | some block =>
      rw [hg] at h
      simp only at h
      cases hg' : get' first with
      | none => exact .inr (.inl ⟨first, rfl, hg'⟩)
      | some block' =>
        cases ha _ _ _ hg hg'
        simp only
        cases hc : l.continueWalkRel block cache with
        | none => rw [hc] at h; cases h
        | some y =>
          obtain ⟨a, cache'⟩ := y
          simp only [hc, Option.bind_eq_bind, Option.bind_some] at h ⊢
          cases a with
          | panic p => exact .inl h
          | err e => exact .inl h
          | ok m =>
            cases m with
            | Found c => exact .inl h
            | NotFound => exact .inl h
            | NeedToLoadMore l' =>
              simp only at h ⊢
              cases hr : rec l' cache' with
              | none => rw [hr] at h; cases h
              | some r' =>
                rw [hr] at h
                cases h
                rcases ih l' cache' r' hr with h1 | ⟨c, h1, h2⟩ | ⟨c, rfl, h2⟩
                · rw [h1]; exact .inl rfl
                · rw [h1]; exact .inr (.inl ⟨c, rfl, h2⟩)
                · exact .inr (.inr ⟨c, rfl, h2⟩)

/-- C114 in release builds, names in directories. -/
theorem C114_release_lookup (sha : Bytes → Bytes) (get get' : Cid → Option Bytes) (h : Verified sha get) (h' : Verified sha get') (hn : NoClash sha get get')
    (block needle : Bytes) (cache : Option LookupCache) (x : Res LookupFail (Option Cid × List Cid)) (hx : lookupNameRel get block needle cache = some x) :
    SameOrMissing get get' LookupFail.missing x (lookupNameRel get' block needle cache) := by
  have ha := agree_of h h' hn
  unfold lookupNameRel at hx ⊢
  cases hr : resolveRel block needle cache with
  | none => rw [hr] at hx; cases hx
  | some y =>
    obtain ⟨a, k⟩ := y
    simp only [hr] at hx ⊢
    cases a with
    | panic p => exact .inl hx
    | err e => exact .inl hx
    | ok m =>
      cases m with
      | Found c => exact .inl hx
      | NotFound => exact .inl hx
      | NeedToLoadMore l => exact lookupFromRel_two ha l k x hx

end Verif.Props
