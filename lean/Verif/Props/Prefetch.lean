import Verif.Props.Ends
/-
C88: fetching blocks ahead. What `pending_links` names is asked for later, in the same order, unless something goes wrong before.
-/
namespace Verif.Props
open Verif Verif.Spec

/-- C88, files: when reading on from any state of a visit finishes, the Cids which were named by `pending_links` were all asked for:
the first one at once, the others in the same order. -/
theorem C88_read (get : Cid → Option Bytes) (v : FileVisit) (first : Cid) (rest : List Cid) (hp : v.pendingLinks = .ok (first, rest))
    (log : List (Cid × Bytes)) (h : readLog get v = some (log, .finished)) :
    ∃ later, log.map (·.1) = first :: later ∧ rest.Sublist later := by
  refine readLog.partial_correctness get (fun v r => r.2 = .finished → ∀ first rest, v.pendingLinks = .ok (first, rest) →
    ∃ later, r.1.map (·.1) = first :: later ∧ rest.Sublist later) ?_ v _ h rfl first rest hp
  intro rec ih v r h hfin first rest hp
  simp only [hp] at h
  cases hg : get first with
  | none => simp only [hg] at h; cases h; cases hfin
  | some block =>
    simp only [hg] at h
    cases hc : (v.continueWalk block none).1 with
    | panic p => simp only [hc] at h; cases h; cases hfin
    | err e => simp only [hc] at h; cases h; cases hfin
    | ok cv =>
      obtain ⟨content, v'⟩ := cv
      simp only [hc] at h
      obtain ⟨m, i, hm, -, hnext⟩ := C46_visit_pending v first rest hp block none content v' hc
      cases v' with
      | none =>
        cases h
        have := hnext.symm
        simp only [askedFor, List.append_eq_nil_iff] at this
        exact ⟨[], rfl, by rw [this.2]; exact List.nil_sublist _⟩
      | some v' =>
        simp only at h
        cases hr : rec v' with
        | none => rw [hr] at h; cases h
        | some r' =>
          rw [hr] at h
          cases h
          refine ⟨r'.1.map (·.1), rfl, ?_⟩
          cases hp' : v'.pendingLinks with
          | panic p =>
            have : askedFor (some v') = [] := by simp [askedFor, hp']
            rw [this] at hnext
            have := hnext.symm
            simp only [List.append_eq_nil_iff] at this
            rw [this.2]
            exact List.nil_sublist _
          | err e =>
            have : askedFor (some v') = [] := by simp [askedFor, hp']
            rw [this] at hnext
            have := hnext.symm
            simp only [List.append_eq_nil_iff] at this
            rw [this.2]
            exact List.nil_sublist _
          | ok fr =>
            obtain ⟨first', rest'⟩ := fr
            obtain ⟨later, h1, h2⟩ := ih v' r' hr hfin first' rest' hp'
            have : askedFor (some v') = first' :: rest' := by simp [askedFor, hp']
            rw [this] at hnext
            rw [h1]
            have hs := List.sublist_append_right (wantedLinks v.range i.lo (m.links.zip m.data.blocksizes)) rest
            rw [← hnext] at hs
            exact hs.trans (h2.cons_cons first')

theorem walk_prefetch (get : Cid → Option Bytes) (w : Walker) (cache : Option VisitCache) (r) (h : walkLog get w cache = some r) :
    ∀ fb rest, WInv w fb rest → CacheOk cache → r.2 = .finished → ((fb ++ rest).map (·.cid)).Sublist (r.1.map (·.1)) ∧
      ∀ a aw, fb ++ rest = a :: aw → ∃ later, r.1.map (·.1) = a.cid :: later := by
  refine walkLog.partial_correctness get (fun w cache r => ∀ fb rest, WInv w fb rest → CacheOk cache → r.2 = .finished →
    ((fb ++ rest).map (·.cid)).Sublist (r.1.map (·.1)) ∧ ∀ a aw, fb ++ rest = a :: aw → ∃ later, r.1.map (·.1) = a.cid :: later) ?_ w cache r h
  intro rec ih w cache r h fb rest hw hc hfin
  by_cases hsc : w.shouldContinue = false
  · rw [if_pos hsc] at h
    cases h
    have := hw.cont
    rw [show w.should_continue = false from hsc] at this
    have hnil : fb ++ rest = [] := by simpa using this
    rw [hnil]
    exact ⟨by simp, nofun⟩
  · rw [if_neg hsc] at h
    cases hq : fb ++ rest with
    | nil =>
      have := hw.cont
      rw [hq] at this
      exact absurd this hsc
    | cons a aw =>
      rw [pendingLinks_eq hw hq] at h
      simp only at h
      cases hg : get a.cid with
      | none => simp only [hg] at h; cases h; cases hfin
      | some block =>
        simp only [hg] at h
        have h2 := step_cache (w := w) (b := block) hc
        rcases hst : w.step block cache with ⟨x, w', cache'⟩
        rw [hst] at h2 h
        cases x with
        | panic p => cases h; cases hfin
        | err e => cases h; cases hfin
        | ok item =>
          simp only at h
          cases hr : rec w' cache' with
          | none => rw [hr] at h; cases h
          | some r' =>
            rw [hr] at h
            cases h
            obtain ⟨m, a', aw', fb', rest', hm, haw, hk, hw'⟩ := hw.step hc (step_ok hst)
            rw [hq] at haw
            simp only [List.cons.injEq] at haw
            obtain ⟨rfl, rfl⟩ := haw
            obtain ⟨h3, -⟩ := ih w' cache' r' hr fb' rest' hw' h2 hfin
            refine ⟨?_, fun a0 aw0 h0 => ?_⟩
            · rw [← hk, List.map_append] at h3
              simp only [List.map_cons]
              exact ((List.sublist_append_right _ _).trans h3).cons_cons a.cid
            · simp only [List.cons.injEq] at h0
              obtain ⟨rfl, rfl⟩ := h0
              exact ⟨r'.1.map (·.1), rfl⟩

/-- C88, walks: in whatever state a walker is, when the walk finishes the Cids which were named by `pending_links` were all asked for:
the first one at once, the others in the same order. -/
theorem C88_walk (get : Cid → Option Bytes) (cid : Cid) (name : Bytes) (h : List (Bytes × ContinuedWalk)) (w : Walker)
    (hw : Walked cid name h w) (cache : Option VisitCache) (hc : ∀ k, cache = some k → CacheObtainable k) (first : Cid) (rest : List Cid)
    (hsc : w.shouldContinue = true) (hp : w.pendingLinks = .ok (first, rest)) (log : List (Cid × ContinuedWalk))
    (hl : walkLog get w cache = some (log, .finished)) :
    ∃ later, log.map (·.1) = first :: later ∧ rest.Sublist later := by
  obtain ⟨fb, rest', -, hwi⟩ := walked_inv hw
  obtain ⟨h1, h2⟩ := walk_prefetch get w cache _ hl fb rest' hwi hc rfl
  cases hq : fb ++ rest' with
  | nil =>
    have := hwi.cont
    rw [hq, show w.should_continue = true from hsc] at this
    simp at this
  | cons a aw =>
    rw [pendingLinks_eq hwi hq] at hp
    simp only [Res.ok.injEq, Prod.mk.injEq] at hp
    obtain ⟨rfl, rfl⟩ := hp
    obtain ⟨later, h3⟩ := h2 a aw hq
    refine ⟨later, h3, ?_⟩
    simp only at h3
    rw [hq, h3, List.map_cons] at h1
    exact List.cons_sublist_cons.1 h1

/-- The sample tree of `Props/Get.lean` after one step: three blocks are named, and the walk finishes. -/
example : ∃ h w log, Walked (cidN 0) [] h w ∧ w.shouldContinue = true ∧ w.pendingLinks = .ok (cidN 1, [cidN 4, cidN 7]) ∧
    walkLog (storeN sampleFsBlocks) w none = some (log, .finished) := by
  let root : Bytes := (storeN sampleFsBlocks (cidN 0)).getD []
  let w1 : Walker := ((Walker.new (cidN 0) []).step root none).2.1
  have hst : (Walker.new (cidN 0) []).step root none =
      (.ok (.RootDirectory (cidN 0) ⟨false, []⟩ { mode := some 0o755 }), w1, none) := by decide +kernel
  have hg : storeN sampleFsBlocks (cidN 0) = some root := by decide +kernel
  have hfull := (C45_tree_partial _ sampleRoot none sampleRoot_at trivial (by decide) nofun).1 (by
    rw [show sampleRoot.walkItems = _ :: _ from rfl, ← bad_iff]; decide +kernel)
  obtain ⟨r, hr, he⟩ := walkFrom_log _ _ _ _ hfull
  rw [walkLog.eq_1] at hr
  have h1 : (Walker.new (cidN 0) []).pendingLinks = .ok (cidN 0, []) := rfl
  have hne : ¬ (Walker.new sampleRoot.cid sampleRoot.name).shouldContinue = false := by decide
  rw [if_neg hne, show sampleRoot.cid = cidN 0 from rfl, show sampleRoot.name = [] from rfl, h1] at hr
  simp only [hg, hst] at hr
  refine ⟨[(root, .RootDirectory (cidN 0) ⟨false, []⟩ { mode := some 0o755 })], w1, ?_⟩
  cases hl : walkLog (storeN sampleFsBlocks) w1 none with
  | none => rw [hl] at hr; cases hr
  | some r' =>
    rw [hl] at hr
    cases hr
    obtain ⟨log, stop⟩ := r'
    refine ⟨log, .next (cache := none) (cache' := none) .new rfl (fun k hk => by cases hk) hst, by decide +kernel, by decide +kernel, ?_⟩
    cases stop with
    | finished => rfl
    | missing c => cases he
    | failed e => cases he
    | noLinks => cases he
    | panicked p => cases he

/-- C88, lookups: the shards which were named by `pending_links` are the next ones asked for, in this order; when nothing is found they
were all asked for. -/
theorem C88_lookup (get : Cid → Option Bytes) (needle : Bytes) (l : ShardedLookup) (hl : Looking needle l) (first : Cid) (rest : List Cid)
    (hp : l.pendingLinks = .ok (first, rest)) (cache : Option LookupCache) (log : List Cid) (stop : LookupStop)
    (h : lookupLog get l cache = some (log, stop)) :
    (log <+: first :: rest ∨ first :: rest <+: log) ∧ (stop = .notFound → first :: rest <+: log) := by
  refine lookupLog.partial_correctness get (fun l cache r => Looking needle l → ∀ first rest, l.pendingLinks = .ok (first, rest) →
    (r.1 <+: first :: rest ∨ first :: rest <+: r.1) ∧ (r.2 = .notFound → first :: rest <+: r.1)) ?_ l cache _ h hl first rest hp
  intro rec ih l cache r h hl first rest hp
  simp only [hp] at h
  cases hg : get first with
  | none => simp only [hg] at h; cases h; exact ⟨.inl (List.nil_prefix), nofun⟩
  | some block =>
    simp only [hg] at h
    rcases hk : l.continueWalk block cache with ⟨x, c1⟩
    simp only [hk] at h
    cases x with
    | panic p => cases h; exact ⟨.inl (List.nil_prefix), nofun⟩
    | err e => cases h; exact ⟨.inl (List.nil_prefix), nofun⟩
    | ok y =>
      cases y with
      | Found c => cases h; exact ⟨.inl ⟨rest, rfl⟩, nofun⟩
      | NotFound =>
        cases h
        obtain ⟨f', q', hp', hiff⟩ := C65_continue needle l hl block cache (.ok .NotFound)
        rw [hp] at hp'
        cases hp'
        have hb := hiff.1 (by rw [hk])
        cases hb with
        | shard hm ht hs =>
          cases hs with
          | links hsn hr =>
            cases hr with
            | notFound _ hq =>
              have := (List.append_eq_nil_iff.1 hq).1
              subst this
              exact ⟨.inl ⟨[], rfl⟩, fun _ => ⟨[], rfl⟩⟩
      | NeedToLoadMore l' =>
        simp only at h
        cases hr : rec l' c1 with
        | none => rw [hr] at h; cases h
        | some r' =>
          rw [hr] at h
          cases h
          obtain ⟨c0, q0, m, c', queue', h1, hm, h2, h3⟩ := C65_pending needle l l' hl block cache c1 hk
          rw [hp] at h1
          cases h1
          obtain ⟨g1, g2⟩ := ih l' c1 r' hr (.more hl hk) c' queue' h2
          rw [h3] at g1 g2
          constructor
          · rcases g1 with ⟨t, ht⟩ | ⟨t, ht⟩
            · have : r'.1 <+: rest ++ bucketCids m.links := ⟨t, ht⟩
              rcases List.prefix_or_prefix_of_prefix this ⟨bucketCids m.links, rfl⟩ with hx | hx
              · exact .inl (List.cons_prefix_cons.2 ⟨rfl, hx⟩)
              · exact .inr (List.cons_prefix_cons.2 ⟨rfl, hx⟩)
            · exact .inr (List.cons_prefix_cons.2 ⟨rfl, ⟨bucketCids m.links ++ t, by rw [← ht, List.append_assoc]⟩⟩)
          · intro hs
            obtain ⟨t, ht⟩ := g2 hs
            exact List.cons_prefix_cons.2 ⟨rfl, ⟨bucketCids m.links ++ t, by rw [← ht, List.append_assoc]⟩⟩

end Verif.Props
