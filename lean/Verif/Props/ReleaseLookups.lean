import Verif.Spec.ReleaseLookups
import Verif.Props.LevelOrder
import Verif.Props.ReleaseSafe
import Verif.Props.ReleaseEnds
/-
C132: what resolving and looking up names gives in a release build.
-/
namespace Verif.Props
open Verif Verif.Spec Verif.Examples

/-! ### one step -/

theorem resolveInLinks_plain {needle : Bytes} {links : List PBLink} {r : Res ResolveError MaybeResolved} (h : PlainRead needle links r) :
    resolveInLinks links needle = r := by
  cases h with
  | notFound h =>
    have := matching_skip (needle := needle) links [] 0 h
    simp only [List.append_nil] at this
    simp [resolveInLinks, matchingLinks, this]
  | @found a l b c he ha hl hb hc =>
    subst he
    have h2 := matching_skip (needle := needle) b [] (a.length + 1) hb
    simp only [List.append_nil, List.zipIdx_nil, List.map_nil, List.filter_nil] at h2
    have h3 := matching_hit a b l 0 ha hl
    rw [show 0 + a.length + 1 = a.length + 1 by omega, h2] at h3
    simp only [resolveInLinks, matchingLinks, h3, tryConvertCid, hc]
  | @invalid a l b e he ha hl hc =>
    subst he
    simp [resolveInLinks, matchingLinks, matching_hit a b l 0 ha hl, tryConvertCid, hc, InvalidCidInLink.of, hl]
  | @two a l b l' b' c c' he ha hl hc hb hl' hc' =>
    subst he
    simp [resolveInLinks, matchingLinks, matching_hit a _ l 0 ha hl, matching_hit b b' l' _ hb hl', tryConvertCid, hc, MultipleMatchingLinks.of, hc']
  | @oneValid a l b l' b' c e he ha hl hc hb hl' hc' =>
    subst he
    simp [resolveInLinks, matchingLinks, matching_hit a _ l 0 ha hl, matching_hit b b' l' _ hb hl', tryConvertCid, hc, MultipleMatchingLinks.of, hc',
      InvalidCidInLink.of, hl']

theorem plainRead_total (needle : Bytes) (links : List PBLink) : ∃ r, PlainRead needle links r := by
  rcases C41_cases links needle with h | ⟨a, l, b, rfl, ha, hl, h⟩
  · exact ⟨_, .notFound h⟩
  · cases hc : Cid.tryFrom (l.Hash.getD []) with
    | error e => exact ⟨_, .invalid rfl ha hl hc⟩
    | ok c =>
      rcases h with hb | ⟨b1, l', b2, rfl, hb, hl'⟩
      · exact ⟨_, .found rfl ha hl hb hc⟩
      · cases hc' : Cid.tryFrom (l'.Hash.getD []) with
        | ok c' => exact ⟨_, .two rfl ha hl hc hb hl' hc'⟩
        | error e => exact ⟨_, .oneValid rfl ha hl hc hb hl' hc'⟩

theorem resolveInLinks_iff (needle : Bytes) (links : List PBLink) (r : Res ResolveError MaybeResolved) :
    resolveInLinks links needle = r ↔ PlainRead needle links r := by
  constructor
  · rintro rfl
    obtain ⟨r, hr⟩ := plainRead_total needle links
    rw [resolveInLinks_plain hr]
    exact hr
  · exact resolveInLinks_plain

theorem directory_iff (m : FlatUnixFs) :
    ((m.data.filesize ≠ none ∨ m.data.blocksizes ≠ [] ∨ m.data.hashType ≠ none ∨ m.data.fanout ≠ none ∨ m.data.Data.getD [] ≠ []) ∧
      checkDirectorySupported m = .error ⟨m.data.filesize, m.data.blocksizes, m.data.hashType, m.data.fanout, m.data.Data⟩) ∨
    ((m.data.filesize = none ∧ m.data.blocksizes = [] ∧ m.data.hashType = none ∧ m.data.fanout = none ∧ m.data.Data.getD [] = []) ∧
      checkDirectorySupported m = .ok m) := by
  unfold checkDirectorySupported
  simp only [Option.isSome_iff_ne_none]
  by_cases h : m.data.filesize ≠ none ∨ m.data.blocksizes ≠ [] ∨ m.data.hashType ≠ none ∨ m.data.fanout ≠ none ∨ m.data.Data.getD [] ≠ []
  · left
    exact ⟨h, if_pos h⟩
  · right
    refine ⟨?_, if_neg h⟩
    refine ⟨?_, ?_, ?_, ?_, ?_⟩ <;> apply Classical.byContradiction <;> intro h' <;> exact h (by simp [h'])

theorem resolveP_iff (needle : Bytes) (cache : Option LookupCache) (hc : ∀ k, cache = some k → k.buffer = []) (x : Except ParsingFailed FlatUnixFs)
    (r : Res ResolveError MaybeResolved) : (resolveP needle cache x).1 = r ↔ ResolveRead needle x r := by
  have hq : (cache.getD {}).buffer = [] := by
    cases cache with
    | none => rfl
    | some k => exact hc k rfl
  unfold resolveP
  cases x with
  | error e =>
    cases e with
    | InvalidDagPb e =>
      constructor
      · rintro rfl; exact .dagPb
      · intro h; cases h; rfl
    | InvalidUnixFs e n =>
      simp only
      rw [resolveInLinks_iff]
      exact ⟨.unixFs, fun h => by cases h; assumption⟩
    | NoData n =>
      simp only
      rw [resolveInLinks_iff]
      exact ⟨.noData, fun h => by cases h; assumption⟩
  | ok m =>
    simp only
    by_cases hs : m.data.Ty = .HAMTShard
    · have h1 : ∀ r' : Res LookupError MaybeResolved, (ShardedLookup.lookupOrStart m needle cache).1 = r' ↔ ShardNodeRead needle [] m r' := by
        intro r'
        rw [← shardNodeRead_iff needle [] m hs none cache r']
        unfold ShardedLookup.lookupOrStart
        rw [hq]
        exact Iff.rfl
      rw [hs]
      simp only
      constructor
      · rintro rfl
        exact .shard hs ((h1 _).1 rfl)
      · intro h
        cases h with
        | directory h => rw [hs] at h; cases h
        | properties h => rw [hs] at h; cases h
        | shard _ h => rw [(h1 _).2 h]
        | other _ h => exact absurd hs h
    · by_cases hd : m.data.Ty = .Directory
      · rw [hd]
        simp only
        rcases directory_iff m with ⟨h1, h2⟩ | ⟨⟨h1, h2, h3, h4, h5⟩, h6⟩
        · rw [h2]
          constructor
          · rintro rfl; exact .properties hd h1
          · intro h
            cases h with
            | directory _ e1 e2 e3 e4 e5 _ => simp [e1, e2, e3, e4, e5] at h1
            | properties _ _ => rfl
            | shard h _ => exact absurd h hs
            | other h _ => exact absurd hd h
        · rw [h6]
          simp only
          rw [resolveInLinks_iff]
          constructor
          · intro h; exact .directory hd h1 h2 h3 h4 h5 h
          · intro h
            cases h with
            | directory _ _ _ _ _ _ h => exact h
            | properties _ h => simp [h1, h2, h3, h4, h5] at h
            | shard h _ => exact absurd h hs
            | other h _ => exact absurd hd h
      · have key : ∀ r, (Res.err (.UnexpectedType m.data.Ty) : Res ResolveError MaybeResolved) = r ↔ ResolveRead needle (.ok m) r := by
          intro r
          constructor
          · rintro rfl; exact .other hd hs
          · intro h
            cases h with
            | directory h => exact absurd h hd
            | properties h => exact absurd h hd
            | shard h _ => exact absurd h hs
            | other _ _ => rfl
        rw [← key]
        cases ht : m.data.Ty with
        | HAMTShard => exact absurd ht hs
        | Directory => exact absurd ht hd
        | _ => rfl

theorem continueP_iff (l : ShardedLookup) (queue : List Cid) (cache : Option LookupCache) (x : Except ParsingFailed FlatUnixFs)
    (r : Res LookupError MaybeResolved) : (l.continueP queue cache x).1 = r ↔ ContinueRead l.needle queue x r := by
  unfold ShardedLookup.continueP
  cases x with
  | error e =>
    cases e <;>
    · constructor
      · rintro rfl; constructor
      · intro h; cases h; rfl
  | ok m =>
    simp only
    by_cases ht : m.data.Ty = .HAMTShard
    · rw [if_neg (by simp [ht])]
      refine (shardNodeRead_iff l.needle queue m ht cache cache r).trans ?_
      constructor
      · intro h; exact .shard ht h
      · intro h
        cases h with
        | type h' => exact absurd ht h'
        | shard _ h' => exact h'
    · rw [if_pos ht]
      constructor
      · rintro rfl; exact .type ht
      · intro h
        cases h with
        | type h' => rfl
        | shard h' => exact absurd h' ht

/-- C132, resolving: a release build does not answer exactly if reading the block never ends; otherwise it answers `r` exactly if `ResolveRead` says so. -/
theorem C132_resolve (block needle : Bytes) (cache : Option LookupCache) (hc : ∀ k, cache = some k → k.buffer = []) :
    (resolveRel block needle cache = none ↔ Endless block) ∧
    ∀ r, (∃ cache', resolveRel block needle cache = some (r, cache')) ↔ ∃ x, FlatUnixFs.tryParseR block = some x ∧ ResolveRead needle x r := by
  unfold resolveRel Endless
  cases hx : FlatUnixFs.tryParseR block with
  | none => simp
  | some x =>
    refine ⟨by simp, fun r => ?_⟩
    simp only [Option.map_some, Option.some.injEq]
    constructor
    · rintro ⟨k, h⟩
      exact ⟨x, rfl, (resolveP_iff needle cache hc x r).1 (congrArg Prod.fst h)⟩
    · rintro ⟨_, rfl, h⟩
      exact ⟨_, Prod.ext ((resolveP_iff needle cache hc x r).2 h) rfl⟩

theorem shardRead_more {needle : Bytes} {queue : List Cid} {links : List PBLink} {l : ShardedLookup}
    (h : ShardRead needle queue links (.ok (.NeedToLoadMore l))) : l.links ≠ [] ∧ l.needle = needle := by
  cases h with
  | more _ h => exact ⟨h, rfl⟩

theorem shardNodeRead_more {needle : Bytes} {queue : List Cid} {m : FlatUnixFs} {l : ShardedLookup}
    (h : ShardNodeRead needle queue m (.ok (.NeedToLoadMore l))) : l.links ≠ [] ∧ l.needle = needle := by
  cases h with
  | links _ h => exact shardRead_more h

theorem plainRead_more {needle : Bytes} {links : List PBLink} {l : ShardedLookup} : ¬ PlainRead needle links (.ok (.NeedToLoadMore l)) := by
  intro h
  cases h

theorem lookupOrStart_more {m : FlatUnixFs} {needle : Bytes} {cache cache' : Option LookupCache} {l : ShardedLookup} (hs : m.data.Ty = .HAMTShard)
    (h : ShardedLookup.lookupOrStart m needle cache = (.ok (.NeedToLoadMore l), cache')) : l.links ≠ [] ∧ l.needle = needle := by
  unfold ShardedLookup.lookupOrStart at h
  have := (shardNodeRead_iff needle (cache.getD {}).buffer m hs none cache (.ok (.NeedToLoadMore l))).1 (congrArg Prod.fst h)
  exact shardNodeRead_more this

theorem resolveP_more {needle : Bytes} {cache cache' : Option LookupCache} {x : Except ParsingFailed FlatUnixFs} {l : ShardedLookup}
    (h : resolveP needle cache x = (.ok (.NeedToLoadMore l), cache')) : l.links ≠ [] ∧ l.needle = needle := by
  unfold resolveP at h
  have hno : ∀ ls c, (resolveInLinks ls needle, c) ≠ ((.ok (.NeedToLoadMore l), cache') : Res ResolveError MaybeResolved × Option LookupCache) := by
    intro ls c h
    exact plainRead_more ((resolveInLinks_iff needle ls _).1 (congrArg Prod.fst h))
  cases x with
  | error e =>
    cases e with
    | InvalidDagPb e => cases h
    | InvalidUnixFs e n => exact absurd h (hno _ _)
    | NoData n => exact absurd h (hno _ _)
  | ok m =>
    simp only at h
    cases ht : m.data.Ty with
    | HAMTShard =>
      simp only [ht] at h
      rcases hk : ShardedLookup.lookupOrStart m needle cache with ⟨y, c⟩
      rw [hk] at h
      simp only [Prod.mk.injEq] at h
      cases y with
      | panic p => simp [Res.mapErr] at h
      | err e => simp [Res.mapErr] at h
      | ok a =>
        have := h.1
        simp only [Res.mapErr, Res.ok.injEq] at this
        subst this
        exact lookupOrStart_more ht hk
    | Directory =>
      simp only [ht] at h
      rcases directory_iff m with ⟨-, h2⟩ | ⟨-, h2⟩
      · rw [h2] at h; cases h
      · rw [h2] at h; exact absurd h (hno _ _)
    | _ => simp only [ht] at h; cases h

theorem lookingRel_facts {needle : Bytes} {l : ShardedLookup} (h : LookingRel needle l) : l.links ≠ [] ∧ l.needle = needle := by
  induction h with
  | @start block cache cache' l h =>
    unfold resolveRel at h
    cases hx : FlatUnixFs.tryParseR block with
    | none => rw [hx] at h; cases h
    | some x =>
      rw [hx] at h
      simp only [Option.map_some, Option.some.injEq] at h
      exact resolveP_more h
  | @more l l' block cache cache' _ h ih =>
    unfold ShardedLookup.continueWalkRel at h
    cases hl : l.links with
    | nil => exact absurd hl ih.1
    | cons c queue =>
      rw [hl] at h
      cases hx : FlatUnixFs.tryParseR block with
      | none => rw [hx] at h; cases h
      | some x =>
        rw [hx] at h
        simp only [Option.map_some, Option.some.injEq] at h
        have := (continueP_iff l queue cache x _).1 (congrArg Prod.fst h)
        cases this with
        | shard _ h' => rw [← ih.2]; exact shardNodeRead_more h'
  | owned _ ih => exact ih

/-- C132, continuing: the same for the blocks after, in every state of a look-up. -/
theorem C132_continue (needle : Bytes) (l : ShardedLookup) (h : LookingRel needle l) (block : Bytes) (cache : Option LookupCache) :
    ∃ c queue, l.pendingLinks = .ok (c, queue) ∧ (l.continueWalkRel block cache = none ↔ Endless block) ∧
      ∀ r, (∃ cache', l.continueWalkRel block cache = some (r, cache')) ↔ ∃ x, FlatUnixFs.tryParseR block = some x ∧ ContinueRead needle queue x r := by
  obtain ⟨h1, h2⟩ := lookingRel_facts h
  cases hl : l.links with
  | nil => exact absurd hl h1
  | cons c queue =>
    refine ⟨c, queue, by simp [ShardedLookup.pendingLinks, hl], ?_⟩
    unfold ShardedLookup.continueWalkRel Endless
    simp only [hl]
    cases hx : FlatUnixFs.tryParseR block with
    | none => simp
    | some x =>
      refine ⟨by simp, fun r => ?_⟩
      simp only [Option.map_some, Option.some.injEq]
      constructor
      · rintro ⟨k, h⟩
        exact ⟨x, rfl, by rw [← h2]; exact (continueP_iff l queue cache x r).1 (congrArg Prod.fst h)⟩
      · rintro ⟨_, rfl, h⟩
        rw [← h2] at h
        exact ⟨_, Prod.ext ((continueP_iff l queue cache x r).2 h) rfl⟩

/-- C132, panics: with any block, resolving and continuing panic exactly at a link of a shard whose name cannot be cut, all before it being fine; what is
pending can always be asked for. -/
theorem C132_panics (needle : Bytes) (block : Bytes) (cache : Option LookupCache) :
    ((∀ k, cache = some k → k.buffer = []) → ((∃ p cache', resolveRel block needle cache = some (.panic p, cache')) ↔
      ∃ m before l after, Reads block m ∧ ShardNode m ∧ m.links = before ++ l :: after ∧ Tidy needle before ∧ Uncuttable l)) ∧
    ∀ l, LookingRel needle l → ((∃ p cache', l.continueWalkRel block cache = some (.panic p, cache')) ↔
      ∃ m before l after, Reads block m ∧ ShardNode m ∧ m.links = before ++ l :: after ∧ Tidy needle before ∧ Uncuttable l) := by
  constructor
  · intro hc
    constructor
    · rintro ⟨p, k, h⟩
      obtain ⟨x, hx, hr⟩ := ((C132_resolve block needle cache hc).2 _).1 ⟨k, h⟩
      generalize hrr : (Res.panic p : Res ResolveError MaybeResolved) = r at hr
      have hno : ∀ ls, ¬ PlainRead needle ls (.panic p) := by intro ls h; cases h
      cases hr with
      | dagPb => cases hrr
      | unixFs h => subst hrr; exact absurd h (hno _)
      | noData h => subst hrr; exact absurd h (hno _)
      | directory _ _ _ _ _ _ h => subst hrr; exact absurd h (hno _)
      | properties => cases hrr
      | @shard m r' hs h =>
        cases r' with
        | ok _ => cases hrr
        | err _ => cases hrr
        | panic q =>
          cases h with
          | links hn hr => cases hr with
            | panic h1 h2 h3 => exact ⟨m, _, _, _, hx, hn, h1, h2, h3⟩
      | other => cases hrr
    · rintro ⟨m, before, l, after, hm, hn, h1, h2, h3⟩
      obtain ⟨k, hk⟩ := ((C132_resolve block needle cache hc).2 (.panic .shardBoundary)).2
        ⟨_, hm, .shard (r := .panic .shardBoundary) hn.1 (.links hn (.panic h1 h2 h3))⟩
      exact ⟨_, k, hk⟩
  · intro l hl
    obtain ⟨c, queue, -, -, hiff⟩ := C132_continue needle l hl block cache
    constructor
    · rintro ⟨p, k, h⟩
      obtain ⟨x, hx, hr⟩ := (hiff _).1 ⟨k, h⟩
      cases hr with
      | @shard m _ hs h =>
        cases h with
        | links hn hr => cases hr with
          | panic h1 h2 h3 => exact ⟨m, _, _, _, hx, hn, h1, h2, h3⟩
    · rintro ⟨m, before, x, after, hm, hn, h1, h2, h3⟩
      obtain ⟨k, hk⟩ := (hiff (.panic .shardBoundary)).2 ⟨_, hm, .shard hn.1 (.links hn (.panic h1 h2 h3))⟩
      exact ⟨_, k, hk⟩

/-! ### whole look-ups -/

theorem levelOrderRel_succ (get : Cid → Option Bytes) (first : List Cid) (n : Nat) :
    levelOrderRel get first (n + 1) = levelOrderRel get first n ++ levelOfRel get first n := by
  simp [levelOrderRel, List.range_succ]

theorem levelOrderRel_prefix (get : Cid → Option Bytes) (first : List Cid) (n k : Nat) :
    levelOrderRel get first n <+: levelOrderRel get first (n + k) := by
  induction k with
  | zero => exact List.prefix_refl _
  | succ k ih => rw [← Nat.add_assoc, levelOrderRel_succ]; exact ih.trans (List.prefix_append _ _)

theorem levelOfRel_empty {get : Cid → Option Bytes} {first : List Cid} {n : Nat} (h : levelOfRel get first n = []) (k : Nat) :
    levelOfRel get first (n + k) = [] := by
  induction k with
  | zero => exact h
  | succ k ih => rw [← Nat.add_assoc, levelOfRel, ih]; rfl

theorem levelOrderRel_empty {get : Cid → Option Bytes} {first : List Cid} {n : Nat} (h : levelOfRel get first n = []) (k : Nat) :
    levelOrderRel get first (n + k) = levelOrderRel get first n := by
  induction k with
  | zero => rfl
  | succ k ih => rw [← Nat.add_assoc, levelOrderRel_succ, ih, levelOfRel_empty h]; simp

/-- `done` has been asked for, and `links` are pending. -/
def LevelRel (get : Cid → Option Bytes) (first done links : List Cid) : Prop :=
  ∃ n used rest, done = levelOrderRel get first n ++ used ∧ levelOfRel get first n = used ++ rest ∧ links = rest ++ used.flatMap (bucketsOfRel get)

theorem LevelRel.start (get : Cid → Option Bytes) (first : List Cid) : LevelRel get first [] first :=
  ⟨0, [], first, rfl, rfl, by simp⟩

theorem LevelRel.next {get : Cid → Option Bytes} {first q R : List Cid} {c : Cid} (h : LevelRel get first q (c :: R)) :
    LevelRel get first (q ++ [c]) (R ++ bucketsOfRel get c) := by
  obtain ⟨n, used, rest, h1, h2, h3⟩ := h
  cases rest with
  | cons d rest =>
    simp only [List.cons_append, List.cons.injEq] at h3
    obtain ⟨rfl, rfl⟩ := h3
    exact ⟨n, used ++ [c], rest, by rw [h1]; simp, by rw [h2]; simp, by simp⟩
  | nil =>
    simp only [List.append_nil, List.nil_append] at h2 h3
    refine ⟨n + 1, [c], R, ?_, ?_, by simp⟩
    · rw [h1, levelOrderRel_succ, h2]
    · rw [levelOfRel, h2, ← h3]; rfl

theorem LevelRel.prefix {get : Cid → Option Bytes} {first q links : List Cid} (h : LevelRel get first q links) :
    ∃ n, q ++ links <+: levelOrderRel get first n := by
  obtain ⟨n, used, rest, h1, h2, h3⟩ := h
  refine ⟨n + 2, ?_⟩
  rw [levelOrderRel_succ, levelOrderRel_succ, levelOfRel, h2, h1, h3]
  exact ⟨rest.flatMap (bucketsOfRel get), by simp⟩

theorem LevelRel.done {get : Cid → Option Bytes} {first q : List Cid} (h : LevelRel get first q []) :
    ∃ n, q = levelOrderRel get first n ∧ levelOfRel get first n = [] := by
  obtain ⟨n, used, rest, h1, h2, h3⟩ := h
  have h4 := List.append_eq_nil_iff.1 h3.symm
  obtain ⟨rfl, h4⟩ := h4
  simp only [List.append_nil] at h2
  refine ⟨n + 1, ?_, ?_⟩
  · rw [levelOrderRel_succ, h1, h2]
  · rw [levelOfRel, h2, h4]

theorem bucketsOfRel_eq {get : Cid → Option Bytes} {c : Cid} {b : Bytes} {m : FlatUnixFs} (hg : get c = some b) (hm : Reads b m) :
    bucketsOfRel get c = bucketCids m.links := by
  unfold bucketsOfRel
  rw [hg]
  unfold Reads at hm
  simp only [hm]

theorem quiet_noEntryRel {needle block : Bytes} {m : FlatUnixFs} (hm : Reads block m) (h : Quiet needle m.links) :
    NoEntryRel block needle := by
  intro m' l hm' hl
  unfold Reads at hm hm'
  rw [hm] at hm'
  cases hm'
  exact (h l hl).2.1

theorem askedRel_looking {get : Cid → Option Bytes} {block needle : Bytes} {q : List Cid} {l : ShardedLookup} (h : AskedRel get block needle q l) :
    LookingRel needle l := by
  induction h with
  | start _ h => exact .start h
  | more _ _ _ h ih => exact .more ih h
  | owned _ ih => exact .owned ih

theorem continueRel_cases {needle : Bytes} {l : ShardedLookup} (hl : LookingRel needle l) {c : Cid} {rest : List Cid}
    (hp : l.pendingLinks = .ok (c, rest)) {b : Bytes} {cache cache' : Option LookupCache} {r : MaybeResolved}
    (h : l.continueWalkRel b cache = some (.ok r, cache')) :
    ∃ m, Reads b m ∧ ShardNode m ∧ ShardRead needle rest m.links (.ok r) := by
  obtain ⟨f', q', hp', -, hiff⟩ := C132_continue needle l hl b cache
  rw [hp] at hp'
  cases hp'
  obtain ⟨x, hx, hb⟩ := (hiff _).1 ⟨_, h⟩
  cases hb with
  | @shard m _ ht hs =>
    cases hs with
    | @links _ hsn hr => exact ⟨m, hx, hsn, hr⟩

theorem resolveRel_more {block needle : Bytes} {cache cache' : Option LookupCache} (hc : CleanCache cache) {l : ShardedLookup}
    (h : resolveRel block needle cache = some (.ok (.NeedToLoadMore l), cache')) :
    ∃ m, Reads block m ∧ ShardNode m ∧ ShardRead needle [] m.links (.ok (.NeedToLoadMore l)) := by
  obtain ⟨x, hx, hr⟩ := ((C132_resolve block needle cache hc).2 _).1 ⟨_, h⟩
  generalize hrr : (Res.ok (.NeedToLoadMore l) : Res ResolveError MaybeResolved) = r at hr
  cases hr with
  | dagPb => cases hrr
  | unixFs h => subst hrr; exact absurd h plainRead_more
  | noData h => subst hrr; exact absurd h plainRead_more
  | directory _ _ _ _ _ _ h => subst hrr; exact absurd h plainRead_more
  | properties => cases hrr
  | @shard m r' hs h =>
    cases r' with
    | panic _ => cases hrr
    | err _ => cases hrr
    | ok a =>
      simp only [Res.mapErr, Res.ok.injEq] at hrr
      subst hrr
      cases h with
      | links hn hr => exact ⟨m, hx, hn, hr⟩
  | other => cases hrr

theorem askedRel_level {get : Cid → Option Bytes} {block needle : Bytes} {q : List Cid} {l : ShardedLookup} (h : AskedRel get block needle q l) :
    ∃ m, Reads block m ∧ ShardNode m ∧ LevelRel get (bucketCids m.links) q l.links ∧ NoEntryRel block needle ∧
      (∀ c ∈ q, ∃ b, get c = some b ∧ NoEntryRel b needle) := by
  induction h with
  | start hc h =>
    obtain ⟨m, hm, hsn, hr⟩ := resolveRel_more hc h
    cases hr with
    | more e1 e2 =>
      refine ⟨m, hm, hsn, ?_, quiet_noEntryRel hm e1, by simp⟩
      exact LevelRel.start _ _
  | owned _ ih => exact ih
  | more ha hp hg h ih =>
    obtain ⟨m, hm, hsn, hlev, hno, hall⟩ := ih
    obtain ⟨m', hm', -, hr⟩ := continueRel_cases (askedRel_looking ha) hp h
    rw [pending_links hp] at hlev
    cases hr with
    | more e1 e2 =>
      refine ⟨m, hm, hsn, ?_, hno, ?_⟩
      · have := hlev.next
        rw [bucketsOfRel_eq hg hm'] at this
        exact this
      · intro c hc
        rcases List.mem_append.1 hc with hc | hc
        · exact hall c hc
        · rw [List.mem_singleton.1 hc]
          exact ⟨_, hg, quiet_noEntryRel hm' e1⟩

/-- C132, the order: at every point of a look-up, what was asked for and what is going to be asked for next are the shards of the directory in
the order of the levels; and neither the root nor any block seen so far has an entry of the name. -/
theorem C132_order (get : Cid → Option Bytes) (block needle : Bytes) (q : List Cid) (l : ShardedLookup) (h : AskedRel get block needle q l) :
    ∃ m c rest n, Reads block m ∧ l.pendingLinks = .ok (c, rest) ∧
      q ++ c :: rest <+: levelOrderRel get (bucketCids m.links) n ∧
      NoEntryRel block needle ∧ ∀ d ∈ q, ∃ b, get d = some b ∧ NoEntryRel b needle := by
  obtain ⟨m, hm, hsn, hlev, hno, hall⟩ := askedRel_level h
  obtain ⟨n, hn⟩ := hlev.prefix
  obtain ⟨c, rest, hp, -⟩ := C132_continue needle l (askedRel_looking h) [] none
  rw [pending_links hp] at hn
  exact ⟨m, c, rest, n, hm, hp, hn, hno, hall⟩

theorem askedRel_found (get : Cid → Option Bytes) (block needle : Bytes) (q : List Cid) (l : ShardedLookup) (h : AskedRel get block needle q l)
    (c d : Cid) (rest : List Cid) (b : Bytes) (cache cache' : Option LookupCache) (hp : l.pendingLinks = .ok (c, rest))
    (hs : l.continueWalkRel b cache = some (.ok (.Found d), cache')) : HasEntryRel b needle d := by
  obtain ⟨m, hm, -, hr⟩ := continueRel_cases (askedRel_looking h) hp hs
  cases hr with
  | found e1 e2 e3 e4 e5 => exact ⟨m, _, hm, by rw [e1]; simp, e3, e4⟩

theorem askedRel_notFound (get : Cid → Option Bytes) (block needle : Bytes) (q : List Cid) (l : ShardedLookup) (h : AskedRel get block needle q l)
    (c : Cid) (rest : List Cid) (b : Bytes) (cache cache' : Option LookupCache) (hp : l.pendingLinks = .ok (c, rest)) (hg : get c = some b)
    (hs : l.continueWalkRel b cache = some (.ok .NotFound, cache')) :
    ∃ m n, Reads block m ∧ q ++ [c] = levelOrderRel get (bucketCids m.links) n ∧ levelOfRel get (bucketCids m.links) n = [] ∧
      NoEntryRel b needle := by
  obtain ⟨m, hm, hsn, hlev, hno, hall⟩ := askedRel_level h
  obtain ⟨m', hm', -, hr⟩ := continueRel_cases (askedRel_looking h) hp hs
  rw [pending_links hp] at hlev
  cases hr with
  | notFound e1 e2 =>
    have := hlev.next
    rw [bucketsOfRel_eq hg hm', e2] at this
    obtain ⟨n, h1, h2⟩ := this.done
    exact ⟨m, n, hm, h1, h2, quiet_noEntryRel hm' e1⟩

theorem askedRel_run {get : Cid → Option Bytes} {block needle : Bytes} {l : ShardedLookup} {cache : Option LookupCache} {r}
    (h : lookupFromRel get l cache = some r) : ∀ q, AskedRel get block needle q l → ∀ x q', r = .ok (x, q') →
      ∃ q1 l1 c rest b cache cache', q ++ q' = q1 ++ [c] ∧ AskedRel get block needle q1 l1 ∧ l1.pendingLinks = .ok (c, rest) ∧ get c = some b ∧
        l1.continueWalkRel b cache = some (.ok (match x with | some d => .Found d | none => .NotFound), cache') := by
  refine lookupFromRel.partial_correctness get
    (fun l _ r => ∀ q, AskedRel get block needle q l → ∀ x q', r = .ok (x, q') →
      ∃ q1 l1 c rest b cache cache', q ++ q' = q1 ++ [c] ∧ AskedRel get block needle q1 l1 ∧ l1.pendingLinks = .ok (c, rest) ∧ get c = some b ∧
        l1.continueWalkRel b cache = some (.ok (match x with | some d => .Found d | none => .NotFound), cache')) ?_ l cache r h
  intro rec ih l c r h q hl x q' hr
  subst hr
  cases hp : l.pendingLinks with
  | panic p => simp [hp] at h
  | err e => simp [hp] at h
  | ok fr =>
    obtain ⟨first, rest⟩ := fr
    simp only [hp] at h
    cases hg : get first with
    | none => simp [hg] at h
    | some b =>
      simp only [hg] at h
      cases hk : l.continueWalkRel b c with
      | none => rw [hk] at h; cases h
      | some yc =>
      obtain ⟨y, c1⟩ := yc
      rw [hk] at h
      simp only [Option.bind_eq_bind, Option.bind_some] at h
      cases y with
      | panic p => simp at h
      | err e => simp at h
      | ok mr =>
        cases mr with
        | NotFound =>
          cases h
          exact ⟨q, l, first, rest, b, c, c1, rfl, hl, hp, hg, hk⟩
        | Found d =>
          cases h
          exact ⟨q, l, first, rest, b, c, c1, rfl, hl, hp, hg, hk⟩
        | NeedToLoadMore l' =>
          simp only at h
          cases hrec : rec l' c1 with
          | none => rw [hrec] at h; cases h
          | some r' =>
            rw [hrec] at h
            cases r' with
            | panic p => cases h
            | err e => cases h
            | ok xq =>
              obtain ⟨x', q''⟩ := xq
              cases h
              obtain ⟨q1, l1, c2, rest2, b2, k, k', e, e2⟩ := ih _ _ _ hrec (q ++ [first]) (.more hl hp hg hk) x' q'' rfl
              exact ⟨q1, l1, c2, rest2, b2, k, k', by rw [← e]; simp, e2⟩

/-- C132, whole look-ups in a sharded directory. Found: the entry is in the root, and nothing was asked for; or it is in the block which was
asked for last, no block before it (in the order of the levels) has an entry of the name, and blocks after it were not asked for.
Not found: all shards were asked for, level by level, and none has an entry of the name. -/
theorem C132_lookup (get : Cid → Option Bytes) (block needle : Bytes) (cache : Option LookupCache) (hc : ∀ k, cache = some k → k.buffer = []) (m : FlatUnixFs)
    (hm : Reads block m) (ht : m.data.Ty = .HAMTShard) (q : List Cid) :
    (∀ d, lookupNameRel get block needle cache = some (.ok (some d, q)) →
      (q = [] ∧ HasEntryRel block needle d) ∨
      ∃ q' c b n, q = q' ++ [c] ∧ q <+: levelOrderRel get (bucketCids m.links) n ∧ get c = some b ∧ HasEntryRel b needle d ∧
        NoEntryRel block needle ∧ ∀ e ∈ q', ∃ b, get e = some b ∧ NoEntryRel b needle) ∧
    (lookupNameRel get block needle cache = some (.ok (none, q)) →
      ∃ n, q = levelOrderRel get (bucketCids m.links) n ∧ levelOfRel get (bucketCids m.links) n = [] ∧
        NoEntryRel block needle ∧ ∀ e ∈ q, ∃ b, get e = some b ∧ NoEntryRel b needle) := by
  unfold lookupNameRel
  cases hk : resolveRel block needle cache with
  | none => exact ⟨(fun d h => by cases h), (fun h => by cases h)⟩
  | some yc =>
  obtain ⟨y, c1⟩ := yc
  cases y with
  | panic p => exact ⟨(fun d h => by cases h), (fun h => by cases h)⟩
  | err e => exact ⟨(fun d h => by cases h), (fun h => by cases h)⟩
  | ok mr =>
    have hread : ShardNodeRead needle [] m (.ok mr) := by
      obtain ⟨x, hx, hr⟩ := ((C132_resolve block needle cache hc).2 _).1 ⟨_, hk⟩
      unfold Reads at hm
      rw [hm] at hx
      cases hx
      generalize hrr : (Res.ok mr : Res ResolveError MaybeResolved) = r at hr
      cases hr with
      | directory h => rw [ht] at h; cases h
      | properties h => cases hrr
      | @shard _ r' hs h =>
        cases r' with
        | panic _ => cases hrr
        | err _ => cases hrr
        | ok a =>
          simp only [Res.mapErr, Res.ok.injEq] at hrr
          rw [hrr]
          exact h
      | other => cases hrr
    cases hread with
    | @links _ hsn hr =>
    cases mr with
    | Found x =>
      refine ⟨fun d h => ?_, fun h => by cases h⟩
      cases h
      cases hr with
      | found e1 e2 e3 e4 e5 => exact .inl ⟨rfl, m, _, hm, by rw [e1]; simp, e3, e4⟩
    | NotFound =>
      refine ⟨(fun d h => by cases h), fun h => ?_⟩
      cases h
      cases hr with
      | notFound e1 e2 => exact ⟨0, rfl, e2, quiet_noEntryRel hm e1, by simp⟩
    | NeedToLoadMore l =>
      have hl : AskedRel get block needle [] l := .start hc hk
      have hsame : ∀ m', Reads block m' → m' = m := by
        intro m' h
        unfold Reads at h hm
        rw [hm] at h
        cases h
        rfl
      refine ⟨fun d h => ?_, fun h => ?_⟩
      · obtain ⟨q1, l1, c, rest, b, k, k', he, h1, h2, h3, h4⟩ := askedRel_run h [] hl (some d) q rfl
        rw [List.nil_append] at he
        subst he
        obtain ⟨m', c', rest', n, hm', hp', hpre, hno, hall⟩ := C132_order get block needle q1 l1 h1
        rw [hsame _ hm'] at hpre
        rw [h2] at hp'; cases hp'
        refine .inr ⟨q1, c, b, n, rfl, ?_, h3, askedRel_found get block needle q1 l1 h1 c d rest b k k' h2 h4, hno, hall⟩
        refine List.IsPrefix.trans ?_ hpre
        exact ⟨rest, by simp⟩
      · obtain ⟨q1, l1, c, rest, b, k, k', he, h1, h2, h3, h4⟩ := askedRel_run h [] hl none q rfl
        rw [List.nil_append] at he
        subst he
        obtain ⟨m', n, hm', e1, e2, e3⟩ := askedRel_notFound get block needle q1 l1 h1 c rest b k k' h2 h3 h4
        rw [hsame _ hm'] at e1 e2
        obtain ⟨m', c', rest', n', hm', hp', hpre, hno, hall⟩ := C132_order get block needle q1 l1 h1
        refine ⟨n, e1, e2, hno, ?_⟩
        intro e he
        rcases List.mem_append.1 he with he | he
        · exact hall e he
        · rw [List.mem_singleton.1 he]; exact ⟨b, h3, e3⟩

/-! ### examples -/

theorem tame_kept {b : Bytes} (h : tame b = true) : Kept b := by
  unfold tame at h
  rw [Bool.and_eq_true, decide_eq_true_eq] at h
  obtain ⟨h1, h2⟩ := h
  refine ⟨by omega, ?_⟩
  rintro (h | h)
  · rw [(C51_exact_partial _).2 h] at h2
    cases h2
  · obtain ⟨n, hn⟩ := (C51_exact_data_partial _).2 h
    rw [hn] at h2
    cases h2

/-- Of two entries `y` the one on the higher level is found, although the other is further to the left, and the shard with the other is not asked for;
a name which cannot be cut makes it panic; a node with a link which goes back to its beginning (C108) is a file, so nothing is looked up in it. -/
theorem C132_example :
    lookupNameRel levelGet topShard [121] none =
      some (.ok (some (cidOf toySha [3]), [cidOf toySha leftShard, cidOf toySha rightShard])) ∧
    (∃ m l, Reads rightShard m ∧ l ∈ m.links ∧ IsHit [121] l) ∧
    (∃ p k, resolveRel uncuttableShard [97] none = some (.panic p, k)) ∧
    (∃ k, resolveRel backToEnd [97] none = some (.err (.UnexpectedType .File), k)) := by
  have hget : ∀ c b, levelGet c = some b → Kept b := by
    intro c b h
    unfold levelGet at h
    split at h
    · cases h; exact tame_kept (by decide +kernel)
    · split at h
      · cases h; exact tame_kept (by decide +kernel)
      · split at h
        · cases h; exact tame_kept (by decide +kernel)
        · cases h
  have h1 : lookupNameRel levelGet topShard [121] none =
      some (.ok (some (cidOf toySha [3]), [cidOf toySha leftShard, cidOf toySha rightShard])) := by
    rw [C109_lookup levelGet hget topShard (tame_kept (by decide +kernel))]
    exact C125_example.2.1
  refine ⟨h1, ?_, ?_, ?_⟩
  · have hm : Reads rightShard (.mk [entryLink 0x33 [121] [3]] { Ty := .HAMTShard, hashType := some 34, fanout := some 256 }) := by
      unfold Reads
      rw [tame_agree (by decide +kernel)]
      decide +kernel
    exact ⟨_, _, hm, List.mem_singleton.2 rfl, by decide +kernel, by decide +kernel, by decide +kernel⟩
  · refine ⟨.shardBoundary, none, ?_⟩
    rw [resolveRel_eq (tame_agree (by decide +kernel))]
    decide +kernel
  · exact ((C132_resolve backToEnd [97] none (by simp)).2 _).2 ⟨_, C108_accepts.2, .other (by decide) (by decide)⟩

end Verif.Props
