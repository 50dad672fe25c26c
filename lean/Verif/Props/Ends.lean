import Verif.Spec.Chains
import Verif.Props.Missing
import Verif.Props.Resolve
import Verif.Props.Cat
import Verif.Props.Get
/-
C87: reading, walking and looking names up come to an end, whatever the blocks are, unless links go around in circles.
-/
namespace Verif.Props
open Verif Verif.Spec Verif.Examples

/-! ### Counting -/

theorem unfoldsL_append {get : Cid → Option Bytes} {a b : List Cid} {n : Nat} :
    UnfoldsL get (a ++ b) n ↔ ∃ i j, UnfoldsL get a i ∧ UnfoldsL get b j ∧ n = i + j := by
  induction a generalizing n with
  | nil =>
    constructor
    · intro h; exact ⟨0, n, .nil, h, by omega⟩
    · rintro ⟨i, j, h1, h2, rfl⟩
      cases h1
      simpa using h2
  | cons c a ih =>
    constructor
    · intro h
      cases h with
      | cons h1 h2 =>
        obtain ⟨i, j, h3, h4, rfl⟩ := ih.1 h2
        exact ⟨_, j, .cons h1 h3, h4, by omega⟩
    · rintro ⟨i, j, h1, h2, rfl⟩
      cases h1 with
      | cons h3 h4 =>
        have := UnfoldsL.cons h3 (ih.2 ⟨_, j, h4, h2, rfl⟩)
        rw [Nat.add_assoc]
        exact this

theorem unfoldsL_sublist {get : Cid → Option Bytes} {a b : List Cid} (hs : a.Sublist b) :
    ∀ {n : Nat}, UnfoldsL get b n → ∃ k, UnfoldsL get a k ∧ k ≤ n := by
  induction hs with
  | slnil => intro n h; exact ⟨n, h, Nat.le_refl n⟩
  | cons c _ ih =>
    intro n h
    cases h with
    | cons h1 h2 =>
      obtain ⟨k, hk, hle⟩ := ih h2
      exact ⟨k, hk, by omega⟩
  | cons_cons c _ ih =>
    intro n h
    cases h with
    | cons h1 h2 =>
      obtain ⟨k, hk, hle⟩ := ih h2
      exact ⟨_, .cons h1 hk, by omega⟩

theorem unfolds_pos {get : Cid → Option Bytes} {c : Cid} {n : Nat} (h : Unfolds get c n) : 0 < n := by
  cases h <;> omega

theorem linkCids_ok {b : Bytes} {m : FlatUnixFs} (h : FlatUnixFs.tryParse b = .ok m) :
    linkCids b = m.links.filterMap (fun l => (Cid.tryFrom (l.Hash.getD [])).toOption) := by
  simp [linkCids, h]

/-- Visiting the first block of a queue and putting some of the Cids it links to anywhere in the queue makes the count smaller. -/
theorem unfolds_step {get : Cid → Option Bytes} {c : Cid} {rest S : List Cid} {b : Bytes} {n : Nat}
    (h : UnfoldsL get (c :: rest) n) (hg : get c = some b) (hS : S.Sublist (linkCids b)) :
    ∃ i j, UnfoldsL get S i ∧ UnfoldsL get rest j ∧ i + j + 1 ≤ n := by
  cases h with
  | cons h1 h2 =>
    cases h1 with
    | missing h1 => rw [hg] at h1; cases h1
    | block h1 h3 =>
      rw [hg] at h1
      cases h1
      obtain ⟨k, hk, hle⟩ := unfoldsL_sublist hS h3
      exact ⟨k, _, hk, h2, by omega⟩

/-! ### Chains -/

theorem unfolds_of_acc {get : Cid → Option Bytes} {c : Cid} (h : Acc (fun a b => RefersTo get b a) c) : ∃ n, Unfolds get c n := by
  induction h with
  | intro c _ ih =>
    cases hg : get c with
    | none => exact ⟨1, .missing hg⟩
    | some b =>
      have : ∀ cs : List Cid, (∀ x ∈ cs, x ∈ linkCids b) → ∃ n, UnfoldsL get cs n := by
        intro cs
        induction cs with
        | nil => intro _; exact ⟨0, .nil⟩
        | cons x cs ihc =>
          intro hx
          obtain ⟨n, hn⟩ := ih x ⟨b, hg, hx x (by simp)⟩
          obtain ⟨k, hk⟩ := ihc (fun y hy => hx y (by simp [hy]))
          exact ⟨_, .cons hn hk⟩
      obtain ⟨n, hn⟩ := this _ (fun _ hx => hx)
      exact ⟨_, .block hg hn⟩

theorem acc_of_chainsEnd {get : Cid → Option Bytes} {c : Cid} (h : ChainsEnd get c) : Acc (fun a b => RefersTo get b a) c := by
  refine Classical.byContradiction fun hn => h ?_
  have hstep : ∀ x : {x : Cid // ¬ Acc (fun a b => RefersTo get b a) x}, ∃ y : {x : Cid // ¬ Acc (fun a b => RefersTo get b a) x},
      RefersTo get x.1 y.1 := by
    rintro ⟨x, hx⟩
    refine Classical.byContradiction fun hno => hx ⟨_, fun y hy => ?_⟩
    exact Classical.byContradiction fun hy' => hno ⟨⟨y, hy'⟩, hy⟩
  let f := fun x => Classical.choose (hstep x)
  let chain : Nat → {x : Cid // ¬ Acc (fun a b => RefersTo get b a) x} := fun n => Nat.rec ⟨c, hn⟩ (fun _ x => f x) n
  exact ⟨fun n => (chain n).1, rfl, fun n => Classical.choose_spec (hstep (chain n))⟩

theorem mem_unfoldsL {get : Cid → Option Bytes} {cs : List Cid} {n : Nat} (h : UnfoldsL get cs n) {c : Cid} (hc : c ∈ cs) :
    ∃ k, Unfolds get c k ∧ k ≤ n := by
  induction cs generalizing n with
  | nil => cases hc
  | cons x cs ih =>
    cases h with
    | cons h1 h2 =>
      rcases List.mem_cons.1 hc with rfl | hc
      · exact ⟨_, h1, by omega⟩
      · obtain ⟨k, hk, hle⟩ := ih h2 hc
        exact ⟨k, hk, by omega⟩

/-- The blocks below `c` can be counted exactly if no endless chain of links starts there. -/
theorem C87_unfolds (get : Cid → Option Bytes) (c : Cid) : (∃ n, Unfolds get c n) ↔ ChainsEnd get c := by
  refine ⟨?_, fun h => unfolds_of_acc (acc_of_chainsEnd h)⟩
  rintro ⟨n, hn⟩
  induction n using Nat.strongRecOn generalizing c with
  | ind n ih =>
    rintro ⟨chain, h0, hl⟩
    cases hn with
    | missing hg =>
      obtain ⟨b, hb, _⟩ := hl 0
      rw [h0, hg] at hb
      cases hb
    | block hg h =>
      obtain ⟨b, hb, hm⟩ := hl 0
      rw [h0, hg] at hb
      cases hb
      obtain ⟨k, hk, hle⟩ := mem_unfoldsL h hm
      exact ih k (by omega) _ hk ⟨fun n => chain (n + 1), rfl, fun n => hl (n + 1)⟩

/-- The count is unique. -/
theorem unfolds_unique {get : Cid → Option Bytes} (N : Nat) : ∀ {c : Cid} {n k : Nat}, n ≤ N → Unfolds get c n → Unfolds get c k → n = k := by
  induction N with
  | zero => intro c n k hN h _; have := unfolds_pos h; omega
  | succ N ih =>
    have hL : ∀ (cs : List Cid) {n k : Nat}, n ≤ N → UnfoldsL get cs n → UnfoldsL get cs k → n = k := by
      intro cs
      induction cs with
      | nil => intro n k _ h1 h2; cases h1; cases h2; rfl
      | cons x cs ihc =>
        intro n k hN h1 h2
        cases h1 with
        | cons a1 b1 =>
          cases h2 with
          | cons a2 b2 =>
            have := ih (by omega) a1 a2
            have := ihc (by omega) b1 b2
            omega
    intro c n k hN h1 h2
    cases h1 with
    | missing h1 =>
      cases h2 with
      | missing h2 => rfl
      | block h2 _ => rw [h1] at h2; cases h2
    | block h1 g1 =>
      cases h2 with
      | missing h2 => rw [h1] at h2; cases h2
      | block h2 g2 =>
        rw [h1] at h2
        cases h2
        rw [hL _ (by omega) g1 g2]

theorem C87_count_unique (get : Cid → Option Bytes) (c : Cid) (n k : Nat) (h1 : Unfolds get c n) (h2 : Unfolds get c k) : n = k :=
  unfolds_unique n (Nat.le_refl n) h1 h2

/-! ### Files -/

theorem wantedLinks_sublist (target : Option Rng) : ∀ (links : List PBLink) (sizes : List Nat) (base : Nat),
    (wantedLinks target base (links.zip sizes)).Sublist (links.filterMap (fun l => (Cid.tryFrom (l.Hash.getD [])).toOption)) := by
  intro links
  induction links with
  | nil => intro sizes base; simp [wantedLinks]
  | cons l links ih =>
    intro sizes base
    cases sizes with
    | nil => simp [wantedLinks]
    | cons n sizes =>
      simp only [List.zip_cons_cons, wantedLinks, List.filterMap_cons]
      have := ih sizes (base + n)
      cases hc : Cid.tryFrom (l.Hash.getD []) with
      | error e => simpa [Except.toOption] using this
      | ok c =>
        simp only [Except.toOption]
        split
        · exact this.cons_cons c
        · exact this.cons c

/-- C87, files: reading on from any state of a visit ends, and takes no more blocks than there are below the pending links. -/
theorem C87_read (get : Cid → Option Bytes) (v : FileVisit) (n : Nat) (h : UnfoldsL get (askedFor (some v)) n) :
    ∃ log stop, readLog get v = some (log, stop) ∧ log.length ≤ n := by
  induction n using Nat.strongRecOn generalizing v with
  | ind n ih =>
    rw [readLog.eq_1]
    cases hp : v.pendingLinks with
    | panic p => exact ⟨_, _, rfl, by simp⟩
    | err e => exact ⟨_, _, rfl, by simp⟩
    | ok fr =>
      obtain ⟨first, rest⟩ := fr
      simp only
      have ha : askedFor (some v) = first :: rest := by simp [askedFor, hp]
      rw [ha] at h
      cases hg : get first with
      | none => exact ⟨_, _, rfl, by simp⟩
      | some block =>
        simp only
        cases hc : (v.continueWalk block none).1 with
        | panic p => exact ⟨_, _, rfl, by simp⟩
        | err e => exact ⟨_, _, rfl, by simp⟩
        | ok cv =>
          obtain ⟨content, v'⟩ := cv
          obtain ⟨m, i, hm, -, hnext⟩ := C46_visit_pending v first rest hp block none content v' hc
          obtain ⟨k, j, h1, h2, hle⟩ := unfolds_step h hg (linkCids_ok hm ▸ wantedLinks_sublist v.range m.links m.data.blocksizes i.lo)
          cases v' with
          | none => exact ⟨_, _, rfl, by simp; omega⟩
          | some v' =>
            simp only
            obtain ⟨log, stop, hl, hlen⟩ := ih (k + j) (by omega) v' (by rw [hnext]; exact unfoldsL_append.2 ⟨k, j, h1, h2, rfl⟩)
            rw [hl]
            exact ⟨_, _, rfl, by simp; omega⟩

/-! ### Walks -/

theorem follow_sublist (a : Awaited) (m : FlatUnixFs) :
    ((m.links.filterMap (follow a m)).map (·.cid)).Sublist (m.links.filterMap (fun l => (Cid.tryFrom (l.Hash.getD [])).toOption)) := by
  induction m.links with
  | nil => simp
  | cons l ls ih =>
    simp only [List.filterMap_cons]
    have hl : ∀ path what, linkTo path what l = none ∨ ∃ c, Cid.tryFrom (l.Hash.getD []) = .ok c ∧ linkTo path what l = some ⟨c, path, what⟩ := by
      intro path what
      unfold linkTo
      cases hc : Cid.tryFrom (l.Hash.getD []) with
      | error e => exact .inl rfl
      | ok c => exact .inr ⟨c, rfl, rfl⟩
    have : follow a m l = none ∨ ∃ c x, Cid.tryFrom (l.Hash.getD []) = .ok c ∧ follow a m l = some x ∧ x.cid = c := by
      unfold follow
      simp only
      have hl' : ∀ path what, linkTo path what l = none ∨ ∃ c x, Cid.tryFrom (l.Hash.getD []) = .ok c ∧ linkTo path what l = some x ∧ x.cid = c := by
        intro path what
        rcases hl path what with h | ⟨c, hc, h⟩
        · exact .inl h
        · exact .inr ⟨c, _, hc, h, rfl⟩
      split
      · exact hl' _ _
      · split
        · exact hl' _ _
        · split <;> exact hl' _ _
        · exact hl' _ _
        · exact hl' _ _
        · exact .inl rfl
    rcases this with h | ⟨c, x, hc, h, hx⟩
    · rw [h]
      simp only
      cases Cid.tryFrom (l.Hash.getD []) with
      | error e => simpa [Except.toOption] using ih
      | ok c => simp only [Except.toOption]; exact ih.cons c
    · rw [h, hc]
      simp only [Except.toOption, List.map_cons, hx]
      exact ih.cons_cons c

theorem walk_ends (get : Cid → Option Bytes) (w : Walker) (cache : Option VisitCache) (fb rest : List Awaited) (n : Nat)
    (hw : WInv w fb rest) (hc : CacheOk cache) (h : UnfoldsL get ((fb ++ rest).map (·.cid)) n) :
    ∃ log stop, walkLog get w cache = some (log, stop) ∧ log.length ≤ n := by
  induction n using Nat.strongRecOn generalizing w cache fb rest with
  | ind n ih =>
    rw [walkLog.eq_1]
    by_cases hsc : w.shouldContinue = false
    · rw [if_pos hsc]; exact ⟨_, _, rfl, by simp⟩
    · rw [if_neg hsc]
      cases hq : fb ++ rest with
      | nil =>
        have := hw.cont
        rw [hq] at this
        exact absurd this hsc
      | cons a aw =>
        rw [pendingLinks_eq hw hq]
        simp only
        cases hg : get a.cid with
        | none => exact ⟨_, _, rfl, by simp⟩
        | some block =>
          simp only
          have h2 := step_cache (w := w) (b := block) hc
          rcases hst : w.step block cache with ⟨r, w', cache'⟩
          rw [hst] at h2
          cases r with
          | panic p => exact ⟨_, _, rfl, by simp⟩
          | err e => exact ⟨_, _, rfl, by simp⟩
          | ok item =>
            simp only
            obtain ⟨m, a', aw', fb', rest', hm, haw, hk, hw'⟩ := hw.step hc (step_ok hst)
            rw [hq] at haw
            simp only [List.cons.injEq] at haw
            obtain ⟨rfl, rfl⟩ := haw
            rw [hq] at h
            obtain ⟨k, j, h3, h4, hle⟩ := unfolds_step h hg (linkCids_ok hm ▸ follow_sublist a m)
            obtain ⟨log, stop, hl, hlen⟩ := ih (k + j) (by omega) w' cache' fb' rest' hw' h2 (by
              rw [← hk, List.map_append]; exact unfoldsL_append.2 ⟨k, j, h3, h4, rfl⟩)
            rw [hl]
            exact ⟨_, _, rfl, by simp; omega⟩

/-- C87, walks: a walk of whatever is at `c` ends, and takes no more blocks than there are below `c`. -/
theorem C87_walk (get : Cid → Option Bytes) (c : Cid) (name : Bytes) (cache : Option VisitCache)
    (hc : ∀ k, cache = some k → CacheObtainable k) (n : Nat) (h : Unfolds get c n) :
    ∃ log stop, walkLog get (Walker.new c name) cache = some (log, stop) ∧ log.length ≤ n :=
  walk_ends get _ cache [] _ n (WInv.new c name) hc (by simpa using UnfoldsL.cons h .nil)

/-! ### Lookups -/

theorem bucketCids_sublist (links : List PBLink) :
    (bucketCids links).Sublist (links.filterMap (fun l => (Cid.tryFrom (l.Hash.getD [])).toOption)) :=
  (List.filter_sublist).filterMap _

theorem lookup_ends (get : Cid → Option Bytes) (needle : Bytes) (l : ShardedLookup) (hl : Looking needle l) (cache : Option LookupCache) (n : Nat)
    (h : UnfoldsL get l.links n) : ∃ log stop, lookupLog get l cache = some (log, stop) ∧ log.length ≤ n := by
  induction n using Nat.strongRecOn generalizing l cache with
  | ind n ih =>
    rw [lookupLog.eq_1]
    cases hp : l.pendingLinks with
    | panic p => exact ⟨_, _, rfl, by simp⟩
    | err e => exact ⟨_, _, rfl, by simp⟩
    | ok fr =>
      obtain ⟨first, queue⟩ := fr
      simp only
      rw [pending_links hp] at h
      cases hg : get first with
      | none => exact ⟨_, _, rfl, by simp⟩
      | some block =>
        simp only
        rcases hk : l.continueWalk block cache with ⟨x, c1⟩
        cases x with
        | panic p => exact ⟨_, _, rfl, by simp⟩
        | err e => exact ⟨_, _, rfl, by simp⟩
        | ok y =>
          have hpos : 1 ≤ n := by
            cases h with
            | cons h1 _ => have := unfolds_pos h1; omega
          cases y with
          | Found c => exact ⟨_, _, rfl, by simpa using hpos⟩
          | NotFound => exact ⟨_, _, rfl, by simpa using hpos⟩
          | NeedToLoadMore l' =>
            obtain ⟨c0, q0, m, c', queue', h1, hm, h2, h3⟩ := C65_pending needle l l' hl block cache c1 hk
            rw [hp] at h1
            cases h1
            obtain ⟨k, j, h4, h5, hle⟩ := unfolds_step h hg (linkCids_ok hm ▸ bucketCids_sublist m.links)
            obtain ⟨log, stop, hlog, hlen⟩ := ih (j + k) (by omega) l' (.more hl hk) c1 (by
              rw [pending_links h2, h3]; exact unfoldsL_append.2 ⟨j, k, h5, h4, rfl⟩)
            simp only
            rw [hlog]
            exact ⟨_, _, rfl, by simp; omega⟩

/-! ### From the beginning -/

/-- C87, files: starting a visit at the block of `c`, for any range, and reading to the end ends. -/
theorem C87_file (get : Cid → Option Bytes) (c : Cid) (root : Bytes) (idle : IdleFileVisit) (n : Nat) (hg : get c = some root)
    (h : Unfolds get c n) :
    ∃ r, readFile get idle root = some r ∧ ∀ x q, r = .ok (x, q) → q.length + 1 ≤ n := by
  unfold readFile
  obtain ⟨target⟩ := idle
  cases hs : (IdleFileVisit.mk target).start root with
  | panic p => exact ⟨_, rfl, nofun⟩
  | err e => exact ⟨_, rfl, nofun⟩
  | ok r =>
    obtain ⟨content, total, md, next⟩ := r
    cases next with
    | none =>
      refine ⟨_, rfl, fun x q hx => ?_⟩
      cases hx
      have := unfolds_pos h
      simp only [List.length_nil]
      omega
    | some v =>
      simp only
      obtain ⟨m, fs, hm, ha, h1, h2⟩ := start_ok hs
      by_cases hl : m.links = []
      · have := h1 hl; cases this
      · obtain ⟨ps, hps, he⟩ := h2 hl
        have hv : askedFor (some v) = wantedLinks target 0 (m.links.zip m.data.blocksizes) := by
          have hnext := congrArg FileVisitResult.next he
          simp only at hnext
          split at hnext
          · cases hnext
          · cases hnext
            rw [askedFor_some, List.reverse_reverse, collectLinks_wanted _ _ _ _ hps]
        obtain ⟨i, j, h3, h4, hle⟩ := unfolds_step (.cons h .nil) hg
          (linkCids_ok hm ▸ wantedLinks_sublist target m.links m.data.blocksizes 0)
        obtain ⟨log, stop, hlog, hlen⟩ := C87_read get v i (by rw [hv]; exact h3)
        rw [readLog_sound get v _ hlog]
        refine ⟨_, rfl, fun x q hx => ?_⟩
        cases stop with
        | finished =>
          simp only [readResult, Res.map, Res.ok.injEq, Prod.mk.injEq] at hx
          obtain ⟨-, rfl⟩ := hx
          simp only [List.length_map]
          omega
        | missing c => cases hx
        | failed e => cases hx
        | noLinks => cases hx
        | panicked p => cases hx

/-- What the log of a lookup amounts to. -/
def lookupResult : List Cid × LookupStop → Res LookupFail (Option Cid × List Cid)
  | (log, .found c) => .ok (some c, log)
  | (log, .notFound) => .ok (none, log)
  | (_, .missing c) => .err (.missing c)
  | (_, .failed e) => .err (.resolving (.Lookup e))
  | (_, .noLinks) => .err .noLinks
  | (_, .panicked p) => .panic p

theorem lookupResult_cons (c : Cid) (r) : lookupResult (c :: r.1, r.2) = (lookupResult r).map (fun (x, q) => (x, c :: q)) := by
  obtain ⟨log, stop⟩ := r
  cases stop <;> rfl

theorem lookupLog_sound (get : Cid → Option Bytes) (l : ShardedLookup) (cache : Option LookupCache) (r) (h : lookupLog get l cache = some r) :
    lookupFrom get l cache = some (lookupResult r) := by
  refine lookupLog.partial_correctness get (fun l cache r => lookupFrom get l cache = some (lookupResult r)) ?_ l cache r h
  intro rec ih l cache r h
  rw [lookupFrom.eq_1]
  cases hp : l.pendingLinks with
  | panic p => simp only [hp] at h ⊢; cases h; rfl
  | err e => simp only [hp] at h ⊢; cases h; rfl
  | ok fr =>
    obtain ⟨first, rest⟩ := fr
    simp only [hp] at h ⊢
    cases hg : get first with
    | none => simp only [hg] at h ⊢; cases h; rfl
    | some block =>
      simp only [hg] at h ⊢
      rcases hk : l.continueWalk block cache with ⟨x, c1⟩
      simp only [hk] at h ⊢
      cases x with
      | panic p => cases h; rfl
      | err e => cases h; rfl
      | ok y =>
        cases y with
        | Found c => cases h; rfl
        | NotFound => cases h; rfl
        | NeedToLoadMore l' =>
          simp only at h ⊢
          cases hr : rec l' c1 with
          | none => rw [hr] at h; cases h
          | some r' =>
            rw [hr] at h
            cases h
            rw [ih l' c1 r' hr, lookupResult_cons]
            rfl

theorem resolveInLinks_not_more (links : List PBLink) (name : Bytes) (l : ShardedLookup) :
    resolveInLinks links name ≠ .ok (.NeedToLoadMore l) := by
  unfold resolveInLinks
  intro h
  repeat' split at h
  all_goals first
    | cases h
    | (revert h; split <;> nofun)

/-- C87, lookups: looking a name up in whatever block is at `d` ends. -/
theorem C87_lookup (get : Cid → Option Bytes) (d : Cid) (block name : Bytes) (cache : Option LookupCache)
    (hc : ∀ k, cache = some k → k.buffer = []) (n : Nat) (hg : get d = some block) (h : Unfolds get d n) :
    ∃ r, lookupName get block name cache = some r ∧ ∀ x q, r = .ok (x, q) → q.length + 1 ≤ n := by
  have hpos := unfolds_pos h
  unfold lookupName
  rcases hr : resolve block name cache with ⟨x, c1⟩
  cases x with
  | panic p => exact ⟨_, rfl, nofun⟩
  | err e => exact ⟨_, rfl, nofun⟩
  | ok y =>
    cases y with
    | Found c => exact ⟨_, rfl, fun x q hx => by cases hx; simp only [List.length_nil]; omega⟩
    | NotFound => exact ⟨_, rfl, fun x q hx => by cases hx; simp only [List.length_nil]; omega⟩
    | NeedToLoadMore l =>
      simp only
      obtain ⟨m, hm, hlinks⟩ : ∃ m, FlatUnixFs.tryParse block = .ok m ∧ l.links = bucketCids m.links := by
        rcases resolve_ok (block := block) (name := name) (cache := cache) (r := .NeedToLoadMore l) (by rw [hr]) with ⟨links, hp⟩ | ⟨m, hm, ht⟩
        · have := congrArg Prod.fst (resolve_plain hp name cache)
          rw [hr] at this
          exact absurd this.symm (resolveInLinks_not_more links name l)
        · have := (C65_resolve block name cache hc m hm ht (.ok (.NeedToLoadMore l))).1 (by rw [hr]; rfl)
          cases this with
          | links hn hs =>
            cases hs with
            | more hq hne => exact ⟨m, hm, rfl⟩
      obtain ⟨i, j, h3, h4, hle⟩ := unfolds_step (.cons h .nil) hg (linkCids_ok hm ▸ bucketCids_sublist m.links)
      obtain ⟨log, stop, hlog, hlen⟩ := lookup_ends get name l (.start hr) c1 i (by rw [hlinks]; exact h3)
      rw [lookupLog_sound get l c1 _ hlog]
      refine ⟨_, rfl, fun x q hx => ?_⟩
      cases stop <;> cases hx <;> omega

/-! ### The example programs -/

theorem catLoop_ends {get : Cid → Option Bytes} (v : FileVisit) (r) (h : readFrom get v = some r) : ∀ s : CatState, catLoop get s v ≠ none := by
  refine readFrom.partial_correctness get (fun v _ => ∀ s : CatState, catLoop get s v ≠ none) ?_ v r h
  intro rec ih v r h s
  rw [catLoop.eq_1]
  cases hp : v.pendingLinks with
  | panic p => simp
  | err e => simp
  | ok fr =>
    obtain ⟨first, rest⟩ := fr
    simp only [hp] at h ⊢
    cases hg : get first with
    | none => simp
    | some block =>
      simp only [hg] at h ⊢
      cases hc : (v.continueWalk block none).1 with
      | panic p => simp
      | err e => simp
      | ok cv =>
        obtain ⟨content, v'⟩ := cv
        simp only [hc] at h ⊢
        cases v' with
        | none => simp
        | some v' =>
          simp only at h ⊢
          cases hr : rec v' with
          | none => rw [hr] at h; cases h
          | some r' => exact ih v' r' hr _

theorem getLoop_ends {get : Cid → Option Bytes} (w : Walker) (cache) (r) (h : walkFrom get w cache = some r) : ∀ out, getLoop get out w cache ≠ none := by
  refine walkFrom.partial_correctness get (fun w cache _ => ∀ out, getLoop get out w cache ≠ none) ?_ w cache r h
  intro rec ih w cache r h out
  rw [getLoop.eq_1]
  by_cases hs : w.shouldContinue = false
  · rw [if_pos hs]; simp
  · rw [if_neg hs] at h ⊢
    cases hp : w.pendingLinks with
    | panic p => simp
    | err e => simp
    | ok fr =>
      obtain ⟨first, rest⟩ := fr
      simp only [hp] at h ⊢
      cases hg : get first with
      | none => simp
      | some block =>
        simp only [hg] at h ⊢
        rcases hst : w.step block cache with ⟨x, w', cache'⟩
        simp only [hst] at h ⊢
        cases x with
        | panic p => simp
        | err e => simp
        | ok item =>
          simp only at h ⊢
          cases hi : getItem item with
          | panic p => simp
          | err e => simp
          | ok lines =>
            simp only
            cases hr : rec w' cache' with
            | none => rw [hr] at h; cases h
            | some r' => exact ih w' cache' r' hr _

/-- C87, the example programs `cat` and `get` end. -/
theorem C87_cat_get (get : Cid → Option Bytes) (c : Cid) (h : ChainsEnd get c) : catWalk get c ≠ none ∧ getWalk get c ≠ none := by
  obtain ⟨n, hn⟩ := (C87_unfolds get c).2 h
  constructor
  · unfold catWalk
    cases hg : get c with
    | none => simp
    | some root =>
      simp only
      obtain ⟨r, hr, -⟩ := C87_file get c root {} n hg hn
      unfold readFile at hr
      cases hs : IdleFileVisit.start {} root with
      | panic p => simp
      | err e => simp
      | ok res =>
        obtain ⟨content, total, md, next⟩ := res
        rw [hs] at hr
        cases next with
        | none => simp
        | some v =>
          simp only at hr ⊢
          cases hv : readFrom get v with
          | none => rw [hv] at hr; cases hr
          | some x => exact catLoop_ends v x hv _
  · obtain ⟨log, stop, hl, -⟩ := C87_walk get c [] none nofun n hn
    exact getLoop_ends _ _ _ (walkLog_sound get _ _ _ hl) _

/-- C87, the example program `resolve` ends, if no chain of links in the store is endless. -/
theorem C87_resolve (get : Cid → Option Bytes) (path : IpfsPath) (h : ∀ c, ChainsEnd get c) : resolveWalk get path ≠ none := by
  obtain ⟨root, names⟩ := path
  unfold resolveWalk
  simp only
  have : ∀ (names : List Bytes) (d : Cid), resolveSegments get d none names ≠ none := by
    intro names
    induction names with
    | nil => intro d; simp [resolveSegments]
    | cons name names ih =>
      intro d
      rw [C73_segment get d none cleanCache_none]
      cases hg : get d with
      | none => simp
      | some block =>
        obtain ⟨n, hn⟩ := (C87_unfolds get d).2 (h d)
        obtain ⟨r, hr, -⟩ := C87_lookup get d block name none nofun n hg hn
        simp only
        rw [hr]
        simp only
        split
        · exact ih _
        · simp
  exact this names root

/-! ### A store without circles -/

mutual
/-- The count, with a bound on the length of the chains. -/
def countBelow (get : Cid → Option Bytes) : Nat → Cid → Option Nat
  | 0, _ => none
  | d + 1, c =>
    match get c with
    | none => some 1
    | some b => (countBelowL get d (linkCids b)).map (· + 1)
def countBelowL (get : Cid → Option Bytes) : Nat → List Cid → Option Nat
  | _, [] => some 0
  | 0, _ :: _ => none
  | d + 1, c :: cs =>
    match countBelow get d c, countBelowL get d cs with
    | some n, some k => some (n + k)
    | _, _ => none
end

mutual
theorem countBelow_sound (get : Cid → Option Bytes) : ∀ (d : Nat) (c : Cid) (n : Nat), countBelow get d c = some n → Unfolds get c n
  | 0, _, _, h => by cases h
  | d + 1, c, n, h => by
    unfold countBelow at h
    cases hg : get c with
    | none => rw [hg] at h; cases h; exact .missing hg
    | some b =>
      rw [hg] at h
      simp only [Option.map_eq_some_iff] at h
      obtain ⟨k, hk, rfl⟩ := h
      exact .block hg (countBelowL_sound get d _ k hk)
theorem countBelowL_sound (get : Cid → Option Bytes) : ∀ (d : Nat) (cs : List Cid) (n : Nat), countBelowL get d cs = some n → UnfoldsL get cs n
  | d, [], n, h => by cases d <;> cases h <;> exact .nil
  | 0, _ :: _, _, h => by cases h
  | d + 1, c :: cs, n, h => by
    unfold countBelowL at h
    split at h
    · rename_i a b ha hb
      cases h
      exact .cons (countBelow_sound get d c a ha) (countBelowL_sound get d cs b hb)
    · cases h
end

/-- The sample tree of `Props/Get.lean`. -/
example : ∃ n, 3 < n ∧ Unfolds (storeN sampleFsBlocks) sampleRoot.cid n ∧ ChainsEnd (storeN sampleFsBlocks) sampleRoot.cid := by
  obtain ⟨n, hn, h⟩ : ∃ n, 3 < n ∧ countBelow (storeN sampleFsBlocks) 50 sampleRoot.cid = some n :=
    ⟨(countBelow (storeN sampleFsBlocks) 50 sampleRoot.cid).getD 0, by decide +kernel, by decide +kernel⟩
  exact ⟨n, hn, countBelow_sound _ _ _ _ h, (C87_unfolds _ _).1 ⟨n, countBelow_sound _ _ _ _ h⟩⟩

/-! ### Circles -/

/-- A Cid, and a file block of which the only part is at this Cid. -/
def loopCid : Cid := cidOf toySha [1]
def loopFile : Bytes :=
  (FlatUnixFs.mk [⟨some loopCid.toBytes, some [], some 7⟩] { Ty := .File, filesize := some 1, blocksizes := [1] }).write
def loopShard : Bytes :=
  (FlatUnixFs.mk [⟨some loopCid.toBytes, some [0x30, 0x31], some 7⟩] { Ty := .HAMTShard, hashType := some 34, fanout := some 256 }).write
def loopGet (b : Bytes) : Cid → Option Bytes := fun c => if c = loopCid then some b else none

def loopVisit : FileVisit :=
  match IdleFileVisit.start {} loopFile with
  | .ok r => r.next.getD ⟨[], none, ⟨.Chunk 0, 0, 0, {}⟩⟩
  | _ => ⟨[], none, ⟨.Chunk 0, 0, 0, {}⟩⟩

theorem readFrom_fixed {get : Cid → Option Bytes} {v : FileVisit} {first : Cid} {rest : List Cid} {block : Bytes} {c : Bytes}
    (h1 : v.pendingLinks = .ok (first, rest)) (h2 : get first = some block) (h3 : (v.continueWalk block none).1 = .ok (c, some v)) :
    readFrom get v = none := by
  cases hr : readFrom get v with
  | none => rfl
  | some r =>
    refine False.elim (readFrom.partial_correctness get (fun w _ => w = v → False) ?_ v r hr rfl)
    intro rec ih w r h hw
    subst hw
    simp only [h1, h2, h3] at h
    cases hx : rec w with
    | none => rw [hx] at h; cases h
    | some r' => exact ih w r' hx rfl

theorem lookupFrom_fixed {get : Cid → Option Bytes} {l : ShardedLookup} {first : Cid} {rest : List Cid} {block : Bytes}
    (h1 : l.pendingLinks = .ok (first, rest)) (h2 : get first = some block)
    (h3 : ∀ cache, CleanCache cache → (l.continueWalk block cache).1 = .ok (.NeedToLoadMore l)) (cache : Option LookupCache)
    (hc : CleanCache cache) : lookupFrom get l cache = none := by
  cases hr : lookupFrom get l cache with
  | none => rfl
  | some r =>
    refine False.elim (lookupFrom.partial_correctness get (fun w c _ => w = l → CleanCache c → False) ?_ l cache r hr rfl hc)
    intro rec ih w c r h hw hc
    subst hw
    have e1 := h3 c hc
    have e2 := continue_clean (l := w) (block := block) hc
    rcases hk : w.continueWalk block c with ⟨x, c1⟩
    rw [hk] at e1 e2
    simp only at e1
    subst e1
    simp only [h1, h2, hk] at h
    cases hx : rec w c1 with
    | none => rw [hx] at h; cases h
    | some r' => exact ih w c1 r' hx rfl e2

theorem walkFrom_fixed {get : Cid → Option Bytes} {w : Walker} {first : Cid} {rest : List Cid} {block : Bytes} {item : ContinuedWalk}
    {cache : Option VisitCache} (h0 : w.shouldContinue = true)
    (h1 : w.pendingLinks = .ok (first, rest)) (h2 : get first = some block) (h3 : w.step block cache = (.ok item, w, cache)) :
    walkFrom get w cache = none := by
  cases hr : walkFrom get w cache with
  | none => rfl
  | some r =>
    refine False.elim (walkFrom.partial_correctness get (fun w' c _ => w' = w → c = cache → False) ?_ w cache r hr rfl rfl)
    intro rec ih w' c r h hw hc
    subst hw hc
    rw [if_neg (by rw [h0]; simp)] at h
    simp only [h1, h2, h3] at h
    cases hx : rec w' c with
    | none => rw [hx] at h; cases h
    | some r' => exact ih w' c r' hx rfl rfl

def loopWalker : Walker := ((Walker.new loopCid []).step loopFile none).2.1

/-- C87, the condition is needed: reading and walking a file block which is its own only part, and looking a name up in a shard
which is its own only bucket, do not end. -/
theorem C87_circle :
    (∃ get c root, get c = some root ∧ readFile get {} root = none ∧ walkFrom get (Walker.new c []) none = none) ∧
    (∃ get c root, get c = some root ∧ lookupName get root [97] none = none) := by
  refine ⟨⟨loopGet loopFile, loopCid, loopFile, if_pos rfl, ?_, ?_⟩, ⟨loopGet loopShard, loopCid, loopShard, if_pos rfl, ?_⟩⟩
  · have h : IdleFileVisit.start {} loopFile = .ok ⟨[], 1, {}, some loopVisit⟩ := by decide +kernel
    unfold readFile
    rw [h]
    simp only
    rw [readFrom_fixed (v := loopVisit) (first := loopCid) (rest := []) (block := loopFile) (c := []) (by decide +kernel) (if_pos rfl)
      (by decide +kernel)]
    rfl
  · have h : ∃ item, (Walker.new loopCid []).step loopFile none = (.ok item, loopWalker, none) :=
      ⟨.File ⟨[], true, false⟩ loopCid ⟨false, []⟩ {} 1, by decide +kernel⟩
    obtain ⟨item, h⟩ := h
    rw [walkFrom.eq_1]
    have h1 : (Walker.new loopCid []).pendingLinks = .ok (loopCid, []) := rfl
    have h2 : loopGet loopFile loopCid = some loopFile := if_pos rfl
    rw [if_neg (by decide), h1]
    simp only [h2, h]
    rw [walkFrom_fixed (w := loopWalker) (first := loopCid) (rest := []) (block := loopFile)
      (item := .File ⟨[], false, false⟩ loopCid ⟨false, []⟩ {} 1) (by decide +kernel) (by decide +kernel) (if_pos rfl) (by decide +kernel)]
    rfl
  · have h : resolve loopShard [97] none = (.ok (.NeedToLoadMore ⟨[loopCid], [97]⟩), none) := by decide +kernel
    unfold lookupName
    rw [h]
    simp only
    refine lookupFrom_fixed (first := loopCid) (rest := []) (block := loopShard) rfl (if_pos rfl) ?_ none cleanCache_none
    intro cache hc
    rw [continue_same hc cleanCache_none]
    decide +kernel

end Verif.Props
