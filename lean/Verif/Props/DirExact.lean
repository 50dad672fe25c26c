import Verif.Spec.ShardStep
import Verif.Props.Dir
/-
C65: the exact outcome of every step of a lookup in a sharded directory, for arbitrary blocks; C43: when exactly it panics.
-/
namespace Verif.Props
open Verif Verif.Spec

theorem bucketCids_cons (l : PBLink) (ls : List PBLink) :
    bucketCids (l :: ls) = bucketCids [l] ++ bucketCids ls := by
  unfold bucketCids
  by_cases h : (shardName l).length = 2
  · simp only [List.filter_cons, h, decide_true, if_true, List.filter_nil, List.filterMap_cons, List.filterMap_nil]
    split <;> simp
  · simp [List.filter_cons, h]

theorem partition_cons (needle : Bytes) (i : Nat) (found : Option (Nat × Cid)) (work : List Cid) (link : PBLink) (rest : List PBLink) :
    partitionShardLinks needle i found work (link :: rest) =
      (if 2 < (link.Name.getD []).length ∧ isCharBoundary (link.Name.getD []) 2 = false then .panic .shardBoundary
      else if 2 < (link.Name.getD []).length ∧ (link.Name.getD []).drop 2 = needle then
        match found with
        | some first => .err (.Multiple (.of first i link))
        | none =>
          match tryConvertCid i link with
          | .error e => .err (.InvalidCid e)
          | .ok c => partitionShardLinks needle (i + 1) (some (i, c)) work rest
      else if (link.Name.getD []).length = 2 then
        match tryConvertCid i link with
        | .error e => .err (.InvalidCid e)
        | .ok c => partitionShardLinks needle (i + 1) found (work ++ [c]) rest
      else partitionShardLinks needle (i + 1) found work rest) := by
  conv => lhs; unfold partitionShardLinks
  rfl

theorem partition_quiet1 {needle : Bytes} {l : PBLink} (h : ¬ Uncuttable l ∧ ¬ IsHit needle l ∧ (IsBucket l → CidOk l))
    (i : Nat) (found : Option (Nat × Cid)) (work : List Cid) (b : List PBLink) :
    partitionShardLinks needle i found work (l :: b) =
      partitionShardLinks needle (i + 1) found (work ++ bucketCids [l]) b := by
  obtain ⟨h1, h2, h3⟩ := h
  rw [partition_cons]
  have g1 : ¬ (2 < (l.Name.getD []).length ∧ isCharBoundary (l.Name.getD []) 2 = false) := h1
  have g2 : ¬ (2 < (l.Name.getD []).length ∧ (l.Name.getD []).drop 2 = needle) := by
    rintro ⟨a, b⟩
    apply h2
    refine ⟨a, ?_, b⟩
    cases hb : isCharBoundary (l.Name.getD []) 2 with
    | true => exact hb
    | false => exact absurd ⟨a, hb⟩ g1
  rw [if_neg g1, if_neg g2]
  by_cases hb : (l.Name.getD []).length = 2
  · obtain ⟨c, hc⟩ := h3 hb
    rw [if_pos hb]
    have : bucketCids [l] = [c] := by
      simp [bucketCids, shardName, hb, hc, Except.toOption]
    simp only [tryConvertCid, hc, this]
  · rw [if_neg hb]
    have : bucketCids [l] = [] := by simp [bucketCids, shardName, hb]
    rw [this, List.append_nil]

theorem partition_quiet {needle : Bytes} : ∀ (a : List PBLink), Quiet needle a → ∀ (i : Nat) (found : Option (Nat × Cid)) (work : List Cid) (b : List PBLink),
    partitionShardLinks needle i found work (a ++ b) =
      partitionShardLinks needle (i + a.length) found (work ++ bucketCids a) b := by
  intro a
  induction a with
  | nil => intro _ i found work b; simp [bucketCids]
  | cons l a ih =>
    intro h i found work b
    rw [List.cons_append, partition_quiet1 (h l (by simp)), ih (fun x hx => h x (by simp [hx])), bucketCids_cons l a,
      List.length_cons, List.append_assoc]
    congr 1
    omega

theorem partition_hit {needle : Bytes} {l : PBLink} (h : IsHit needle l) (i : Nat) (found : Option (Nat × Cid)) (work : List Cid) (b : List PBLink) :
    partitionShardLinks needle i found work (l :: b) =
      match found with
      | some first => .err (.Multiple (.of first i l))
      | none =>
        match tryConvertCid i l with
        | .error e => .err (.InvalidCid e)
        | .ok c => partitionShardLinks needle (i + 1) (some (i, c)) work b := by
  obtain ⟨h1, h2, h3⟩ := h
  have g1 : ¬ (2 < (l.Name.getD []).length ∧ isCharBoundary (l.Name.getD []) 2 = false) := by
    rintro ⟨-, h⟩
    rw [show isCharBoundary (l.Name.getD []) 2 = true from h2] at h
    cases h
  have g2 : (2 < (l.Name.getD []).length ∧ (l.Name.getD []).drop 2 = needle) := ⟨h1, h3⟩
  rw [partition_cons]
  rw [if_neg g1, if_pos g2]

theorem partition_cut {needle : Bytes} {l : PBLink} (h : Uncuttable l) (i : Nat) (found : Option (Nat × Cid)) (work : List Cid) (b : List PBLink) :
    partitionShardLinks needle i found work (l :: b) = .panic .shardBoundary := by
  rw [partition_cons]
  exact if_pos h

theorem partition_badBucket {needle : Bytes} {l : PBLink} (h : IsBucket l) {e : CidError} (he : Cid.tryFrom (l.Hash.getD []) = .error e)
    (i : Nat) (found : Option (Nat × Cid)) (work : List Cid) (b : List PBLink) :
    partitionShardLinks needle i found work (l :: b) = .err (.InvalidCid ⟨i, l.Hash.getD [], shardName l, e⟩) := by
  have h : (l.Name.getD []).length = 2 := h
  have hlt : ¬ 2 < (l.Name.getD []).length := by omega
  rw [partition_cons]
  rw [if_neg (fun x => hlt x.1), if_neg (fun x => hlt x.1), if_pos h]
  simp [tryConvertCid, he, InvalidCidInLink.of, shardName]

/-- The state after tidy links. -/
theorem partition_tidy {needle : Bytes} {a : List PBLink} (h : Tidy needle a) (work : List Cid) (b : List PBLink) :
    ∃ found work', partitionShardLinks needle 0 none work (a ++ b) = partitionShardLinks needle a.length found work' b := by
  rcases h with h | ⟨before, l, after, rfl, h1, h2, ⟨c, h3⟩, h4⟩
  · exact ⟨none, _, by rw [partition_quiet a h, Nat.zero_add]⟩
  · refine ⟨some (before.length, c), (work ++ bucketCids before) ++ bucketCids after, ?_⟩
    rw [List.append_assoc, List.cons_append, partition_quiet _ h1, partition_hit h2]
    simp only [tryConvertCid, h3]
    rw [partition_quiet _ h4]
    simp only [Nat.zero_add, List.length_append, List.length_cons]
    congr 1
    omega

theorem shardRead_result {needle : Bytes} {queue : List Cid} {links : List PBLink} {r : Res LookupError MaybeResolved} (cache : Option LookupCache)
    (h : ShardRead needle queue links r) : (ShardedLookup.finishStep needle links queue cache).1 = r := by
  unfold ShardedLookup.finishStep
  cases h with
  | found h1 h2 h3 h4 h5 =>
    rename_i before l after c
    subst h1
    have hq := partition_quiet after h5 (before.length + 1) (some (before.length, c)) (queue ++ bucketCids before) []
    rw [List.append_nil] at hq
    rw [partition_quiet _ h2, partition_hit h3]
    simp only [tryConvertCid, h4, Nat.zero_add, hq, partitionShardLinks, Option.map_some]
  | notFound h1 h2 =>
    have hq := partition_quiet links h1 0 none queue []
    rw [List.append_nil] at hq
    rw [hq, partitionShardLinks]
    simp [h2]
  | more h1 h2 =>
    have hq := partition_quiet links h1 0 none queue []
    rw [List.append_nil] at hq
    rw [hq, partitionShardLinks]
    simp only [Option.map_none, h2, if_false]
  | invalid h1 h2 h3 =>
    subst h1
    rcases h2 with ⟨h2, h4⟩ | ⟨h2, h4⟩
    · obtain ⟨f, w, hw⟩ := partition_tidy h4 queue (_ :: _)
      rw [hw, partition_badBucket h2 h3]
    · rw [partition_quiet _ h4, partition_hit h2]
      simp [tryConvertCid, h3, InvalidCidInLink.of, shardName]
  | two h1 h2 h3 h4 h5 h6 h7 =>
    subst h1
    rw [partition_quiet _ h2, partition_hit h3]
    simp only [tryConvertCid, h4, Nat.zero_add]
    rw [partition_quiet _ h5, partition_hit h6]
    simp [MultipleMatchingLinks.of, tryConvertCid, h7]
  | oneValid h1 h2 h3 h4 h5 h6 h7 =>
    subst h1
    rw [partition_quiet _ h2, partition_hit h3]
    simp only [tryConvertCid, h4, Nat.zero_add]
    rw [partition_quiet _ h5, partition_hit h6]
    simp [MultipleMatchingLinks.of, tryConvertCid, h7, InvalidCidInLink.of, shardName]
  | panic h1 h2 h3 =>
    subst h1
    obtain ⟨f, w, hw⟩ := partition_tidy h2 queue (_ :: _)
    rw [hw, partition_cut h3]

/-- Either all links are quiet, or there is a first which is not. -/
theorem quiet_split (needle : Bytes) : ∀ (ls : List PBLink), Quiet needle ls ∨
    ∃ before l after, ls = before ++ l :: after ∧ Quiet needle before ∧
      (Uncuttable l ∨ IsHit needle l ∨ (IsBucket l ∧ ∃ e, Cid.tryFrom (l.Hash.getD []) = .error e)) := by
  intro ls
  induction ls with
  | nil => left; intro l hl; cases hl
  | cons x xs ih =>
    by_cases h1 : Uncuttable x
    · exact .inr ⟨[], x, xs, rfl, by (intro l hl; cases hl), .inl h1⟩
    by_cases h2 : IsHit needle x
    · exact .inr ⟨[], x, xs, rfl, by (intro l hl; cases hl), .inr (.inl h2)⟩
    by_cases h3 : IsBucket x → CidOk x
    · rcases ih with ih | ⟨before, l, after, rfl, g1, g2⟩
      · left
        intro l hl
        rcases List.mem_cons.1 hl with rfl | hl
        · exact ⟨h1, h2, h3⟩
        · exact ih l hl
      · refine .inr ⟨x :: before, l, after, rfl, ?_, g2⟩
        intro l hl
        rcases List.mem_cons.1 hl with rfl | hl
        · exact ⟨h1, h2, h3⟩
        · exact g1 l hl
    · have h4 : IsBucket x := Classical.byContradiction (fun h => h3 (fun h' => absurd h' h))
      refine .inr ⟨[], x, xs, rfl, by (intro l hl; cases hl), .inr (.inr ⟨h4, ?_⟩)⟩
      cases hc : Cid.tryFrom (x.Hash.getD []) with
      | error e => exact ⟨e, rfl⟩
      | ok c => exact absurd (fun _ => ⟨c, hc⟩) h3

theorem shardRead_total (needle : Bytes) (queue : List Cid) (links : List PBLink) : ∃ r, ShardRead needle queue links r := by
  rcases quiet_split needle links with h | ⟨before, l, after, rfl, h1, h2⟩
  · by_cases hq : queue ++ bucketCids links = []
    · exact ⟨_, .notFound h hq⟩
    · exact ⟨_, .more h hq⟩
  · rcases h2 with h2 | h2 | ⟨h2, e, he⟩
    · exact ⟨_, .panic rfl (.inl h1) h2⟩
    · cases hc : Cid.tryFrom (l.Hash.getD []) with
      | error e => exact ⟨_, .invalid rfl (.inr ⟨h2, h1⟩) hc⟩
      | ok c =>
        rcases quiet_split needle after with h | ⟨between, l', after', rfl, h3, h4⟩
        · exact ⟨_, .found rfl h1 h2 hc h⟩
        · have ht : Tidy needle (before ++ l :: between) := .inr ⟨before, l, between, rfl, h1, h2, ⟨c, hc⟩, h3⟩
          have hsplit : before ++ l :: (between ++ l' :: after') = (before ++ l :: between) ++ l' :: after' := by simp
          rcases h4 with h4 | h4 | ⟨h4, e, he⟩
          · exact ⟨_, .panic hsplit ht h4⟩
          · cases hc' : Cid.tryFrom (l'.Hash.getD []) with
            | ok c' => exact ⟨_, .two rfl h1 h2 hc h3 h4 hc'⟩
            | error e => exact ⟨_, .oneValid rfl h1 h2 hc h3 h4 hc'⟩
          · exact ⟨_, .invalid hsplit (.inl ⟨h4, ht⟩) he⟩
    · exact ⟨_, .invalid rfl (.inl ⟨h2, .inl h1⟩) he⟩

theorem finishStep_iff (needle : Bytes) (queue : List Cid) (links : List PBLink) (cache : Option LookupCache) (r : Res LookupError MaybeResolved) :
    (ShardedLookup.finishStep needle links queue cache).1 = r ↔ ShardRead needle queue links r := by
  constructor
  · rintro rfl
    obtain ⟨r, hr⟩ := shardRead_total needle queue links
    rw [shardRead_result cache hr]
    exact hr
  · exact shardRead_result cache

theorem shardNode_cases (m : FlatUnixFs) (ht : m.data.Ty = .HAMTShard) :
    ((m.data.fanout ≠ some 256 ∨ m.data.hashType ≠ some 34) ∧
      checkShardSupported m = .err (.UnsupportedProperties m.data.hashType m.data.fanout)) ∨
    (m.data.fanout = some 256 ∧ m.data.hashType = some 34 ∧ (m.data.filesize ≠ none ∨ m.data.blocksizes ≠ []) ∧
      checkShardSupported m = .err (.UnexpectedProperties m.data.filesize m.data.blocksizes)) ∨
    (ShardNode m ∧ checkShardSupported m = .ok ()) := by
  unfold checkShardSupported
  rw [if_neg (by simp [ht])]
  by_cases h1 : m.data.fanout ≠ some 256 ∨ m.data.hashType ≠ some 34
  · exact .inl ⟨h1, if_pos h1⟩
  rw [if_neg h1]
  have h1' : m.data.fanout = some 256 ∧ m.data.hashType = some 34 := by simpa using h1
  by_cases h2 : m.data.filesize.isSome ∨ m.data.blocksizes ≠ []
  · refine .inr (.inl ⟨h1'.1, h1'.2, ?_, if_pos h2⟩)
    rcases h2 with h2 | h2
    · left; intro h; simp [h] at h2
    · exact .inr h2
  · refine .inr (.inr ⟨⟨ht, h1'.1, h1'.2, ?_, ?_⟩, if_neg h2⟩)
    · cases hf : m.data.filesize with
      | none => rfl
      | some n => simp [hf] at h2
    · exact Classical.byContradiction (fun h => h2 (.inr h))

/-- The common part of starting and continuing. -/
theorem shardNodeRead_iff (needle : Bytes) (queue : List Cid) (m : FlatUnixFs) (ht : m.data.Ty = .HAMTShard) (cache cache' : Option LookupCache)
    (r : Res LookupError MaybeResolved) :
    (match checkShardSupported m with
      | .panic p => ((.panic p, cache') : Res LookupError MaybeResolved × Option LookupCache)
      | .err e => (.err (.Shard e), cache')
      | .ok () => ShardedLookup.finishStep needle m.links queue cache).1 = r ↔ ShardNodeRead needle queue m r := by
  rcases shardNode_cases m ht with ⟨h1, h2⟩ | ⟨h1, h1', h1'', h2⟩ | ⟨h1, h2⟩
  · rw [h2]
    constructor
    · rintro rfl; exact .kind h1
    · intro h
      cases h with
      | kind _ => rfl
      | properties g1 g2 => rcases h1 with h1 | h1 <;> contradiction
      | links g _ => rcases h1 with h1 | h1; exact absurd g.2.1 h1; exact absurd g.2.2.1 h1
  · rw [h2]
    constructor
    · rintro rfl; exact .properties h1 h1' h1''
    · intro h
      cases h with
      | kind g => rcases g with g | g <;> contradiction
      | properties _ _ _ => rfl
      | links g _ => rcases h1'' with h | h; exact absurd g.2.2.2.1 h; exact absurd g.2.2.2.2 h
  · rw [h2]
    simp only
    rw [finishStep_iff]
    constructor
    · intro h; exact .links h1 h
    · intro h
      cases h with
      | kind g => rcases g with g | g; exact absurd h1.2.1 g; exact absurd h1.2.2.1 g
      | properties _ _ g => rcases g with g | g; exact absurd h1.2.2.2.1 g; exact absurd h1.2.2.2.2 g
      | links _ h => exact h

/-- Continuing a lookup, however it was obtained, with an arbitrary block: the answer is `r` if and only if `BucketRead` says so. -/
theorem C65_continue (needle : Bytes) (l : ShardedLookup) (h : Looking needle l) (block : Bytes) (cache : Option LookupCache)
    (r : Res LookupError MaybeResolved) :
    ∃ c queue, l.pendingLinks = .ok (c, queue) ∧ ((l.continueWalk block cache).1 = r ↔ BucketRead l.needle queue block r) := by
  have hne := looking_nonempty h
  cases hl : l.links with
  | nil => exact absurd hl hne
  | cons c queue =>
    refine ⟨c, queue, by simp [ShardedLookup.pendingLinks, hl], ?_⟩
    unfold ShardedLookup.continueWalk
    simp only [hl]
    cases hm : FlatUnixFs.tryParse block with
    | error e =>
      cases e with
      | InvalidDagPb e =>
        constructor
        · rintro rfl; exact .dagPb hm
        · intro h
          cases h with
          | dagPb h => rw [hm] at h; cases h; rfl
          | unixFs h => rw [hm] at h; cases h
          | noData h => rw [hm] at h; cases h
          | type h => rw [hm] at h; cases h
          | shard h => rw [hm] at h; cases h
      | InvalidUnixFs e n =>
        constructor
        · rintro rfl; exact .unixFs hm
        · intro h
          cases h with
          | dagPb h => rw [hm] at h; cases h
          | unixFs h => rw [hm] at h; cases h; rfl
          | noData h => rw [hm] at h; cases h
          | type h => rw [hm] at h; cases h
          | shard h => rw [hm] at h; cases h
      | NoData n =>
        constructor
        · rintro rfl; exact .noData hm
        · intro h
          cases h with
          | dagPb h => rw [hm] at h; cases h
          | unixFs h => rw [hm] at h; cases h
          | noData h => rfl
          | type h => rw [hm] at h; cases h
          | shard h => rw [hm] at h; cases h
    | ok m =>
      simp only
      by_cases ht : m.data.Ty = .HAMTShard
      · rw [if_neg (by simp [ht])]
        refine (shardNodeRead_iff l.needle queue m ht cache cache r).trans ?_
        constructor
        · intro h; exact .shard hm ht h
        · intro h
          cases h with
          | dagPb h => rw [hm] at h; cases h
          | unixFs h => rw [hm] at h; cases h
          | noData h => rw [hm] at h; cases h
          | type h h' => rw [hm] at h; cases h; exact absurd ht h'
          | shard h _ h' => rw [hm] at h; cases h; exact h'
      · rw [if_pos ht]
        constructor
        · rintro rfl; exact .type hm ht
        · intro h
          cases h with
          | dagPb h => rw [hm] at h; cases h
          | unixFs h => rw [hm] at h; cases h
          | noData h => rw [hm] at h; cases h
          | type h h' => rw [hm] at h; cases h; rfl
          | shard h h' => rw [hm] at h; cases h; exact absurd h' ht

/-- The needle of a lookup is that of the `resolve` it started with. -/
theorem looking_needle {needle : Bytes} {l : ShardedLookup} (h : Looking needle l) : l.needle = needle := by
  have key : ∀ {needle queue links cache l}, (ShardedLookup.finishStep needle links queue cache).1 = .ok (.NeedToLoadMore l) →
      l.needle = needle := by
    intro needle queue links cache l h
    have := (finishStep_iff _ _ _ _ _).1 h
    cases this
    rfl
  induction h with
  | owned _ ih => exact ih
  | @start block cache cache' l h =>
    unfold resolve at h
    cases hm : FlatUnixFs.tryParse block with
    | error e =>
      exfalso
      have hno : ∀ ls l, resolveInLinks ls needle ≠ .ok (.NeedToLoadMore l) := by
        intro ls l
        unfold resolveInLinks
        repeat' split
        all_goals simp
      cases e with
      | InvalidDagPb e => simp [hm] at h
      | InvalidUnixFs e n => simp only [hm, Prod.mk.injEq] at h; exact hno _ _ h.1
      | NoData n => simp only [hm, Prod.mk.injEq] at h; exact hno _ _ h.1
    | ok m =>
      simp only [hm] at h
      cases ht : m.data.Ty with
      | HAMTShard =>
        simp only [ht, ShardedLookup.lookupOrStart, Prod.mk.injEq] at h
        obtain ⟨h, -⟩ := h
        cases hc : checkShardSupported m with
        | panic p => simp [hc, Res.mapErr] at h
        | err e => simp [hc, Res.mapErr] at h
        | ok u =>
          simp only [hc] at h
          apply key
          cases hr : (ShardedLookup.finishStep needle m.links (cache.getD {}).buffer none).1 with
          | ok x => rw [hr] at h; simpa [Res.mapErr] using h
          | err e => rw [hr] at h; simp [Res.mapErr] at h
          | panic p => rw [hr] at h; simp [Res.mapErr] at h
      | Directory =>
        exfalso
        simp only [ht] at h
        cases hc : checkDirectorySupported m with
        | error e => simp [hc] at h
        | ok m' =>
          simp only [hc, Prod.mk.injEq] at h
          obtain ⟨h, -⟩ := h
          revert h
          unfold resolveInLinks
          repeat' split
          all_goals simp
      | _ => simp [ht] at h
  | @more l l' block cache cache' h' h ih =>
    rw [← ih]
    unfold ShardedLookup.continueWalk at h
    cases hl : l.links with
    | nil => simp [hl] at h
    | cons c queue =>
      simp only [hl] at h
      cases hm : FlatUnixFs.tryParse block with
      | error e => rw [hm] at h; cases e <;> simp at h
      | ok m =>
        simp only [hm] at h
        by_cases ht : m.data.Ty = .HAMTShard
        · rw [if_neg (by simp [ht])] at h
          cases hc : checkShardSupported m with
          | panic p => simp [hc] at h
          | err e => simp [hc] at h
          | ok u =>
            simp only [hc] at h
            exact key (by rw [h])
        · rw [if_pos ht] at h
          simp at h

/-- `resolve` on a shard, with any cache which can be obtained. -/
theorem C65_resolve (block needle : Bytes) (cache : Option LookupCache) (hc : ∀ k, cache = some k → k.buffer = []) (m : FlatUnixFs)
    (hm : FlatUnixFs.tryParse block = .ok m) (ht : m.data.Ty = .HAMTShard) (r : Res LookupError MaybeResolved) :
    (resolve block needle cache).1 = r.mapErr .Lookup ↔ ShardNodeRead needle [] m r := by
  have hq : (cache.getD {}).buffer = [] := by
    cases cache with
    | none => rfl
    | some k => exact hc k rfl
  have hres : (resolve block needle cache).1 = (ShardedLookup.lookupOrStart m needle cache).1.mapErr .Lookup := by
    unfold resolve
    simp [hm, ht]
  rw [hres]
  rw [← shardNodeRead_iff needle [] m ht none cache r]
  unfold ShardedLookup.lookupOrStart
  rw [hq]
  constructor
  · intro h
    have inj : ∀ x : Res LookupError MaybeResolved, x.mapErr ResolveError.Lookup = r.mapErr ResolveError.Lookup → x = r := by
      intro x hx
      cases x <;> cases r <;> simp_all [Res.mapErr]
    exact inj _ h
  · rintro rfl; rfl

/-- A lookup asks for the shards in the order of their links, first those which were already pending: when it needs more,
the pending links are the remaining ones and then the buckets of the block. -/
theorem C65_pending (needle : Bytes) (l l' : ShardedLookup) (h : Looking needle l) (block : Bytes) (cache cache' : Option LookupCache)
    (hs : l.continueWalk block cache = (.ok (.NeedToLoadMore l'), cache')) :
    ∃ c queue m c' queue', l.pendingLinks = .ok (c, queue) ∧ FlatUnixFs.tryParse block = .ok m ∧ l'.pendingLinks = .ok (c', queue') ∧
      c' :: queue' = queue ++ bucketCids m.links := by
  obtain ⟨c, queue, hp, hiff⟩ := C65_continue needle l h block cache (.ok (.NeedToLoadMore l'))
  have := hiff.1 (by rw [hs])
  cases this with
  | shard hm ht hr =>
    rename_i m
    cases hr with
    | links hnode hr =>
      cases hr with
      | more hquiet hne =>
        cases hq : queue ++ bucketCids m.links with
        | nil => exact absurd hq hne
        | cons c' queue' =>
          exact ⟨c, queue, m, c', queue', hp, hm, by simp [ShardedLookup.pendingLinks, hq], hq.symm⟩

/-! ### C43 -/

/-- `resolve` panics exactly for shards in which, with nothing wrong before it, a link has a name which cannot be cut. -/
theorem C43_exact_partial (block needle : Bytes) (cache : Option LookupCache) (hc : ∀ k, cache = some k → k.buffer = []) :
    (∃ p, (resolve block needle cache).1 = .panic p) ↔
      ∃ m before l after, FlatUnixFs.tryParse block = .ok m ∧ ShardNode m ∧ m.links = before ++ l :: after ∧ Tidy needle before ∧ Uncuttable l := by
  constructor
  · rintro ⟨p, hp⟩
    obtain ⟨m, hm, ht, -⟩ := C43_only_boundary block needle cache p hp
    have := (C65_resolve block needle cache hc m hm ht (.panic p)).1 hp
    cases this with
    | links hnode hr =>
      cases hr with
      | panic h1 h2 h3 => exact ⟨m, _, _, _, hm, hnode, h1, h2, h3⟩
  · rintro ⟨m, before, l, after, hm, hnode, h1, h2, h3⟩
    exact ⟨.shardBoundary, (C65_resolve block needle cache hc m hm hnode.1 (.panic .shardBoundary)).2 (.links hnode (.panic h1 h2 h3))⟩

/-- Continuing panics for the same reason, and for no other. -/
theorem C43_continue_exact_partial (needle : Bytes) (l : ShardedLookup) (h : Looking needle l) (block : Bytes) (cache : Option LookupCache) :
    (∃ p, (l.continueWalk block cache).1 = .panic p) ↔
      ∃ m before x after, FlatUnixFs.tryParse block = .ok m ∧ ShardNode m ∧ m.links = before ++ x :: after ∧ Tidy needle before ∧ Uncuttable x := by
  have hn := looking_needle h
  constructor
  · rintro ⟨p, hp⟩
    obtain ⟨c, queue, -, hiff⟩ := C65_continue needle l h block cache (.panic p)
    have := hiff.1 hp
    rw [hn] at this
    cases this with
    | shard hm ht hr =>
      cases hr with
      | links hnode hr =>
        cases hr with
        | panic h1 h2 h3 => exact ⟨_, _, _, _, hm, hnode, h1, h2, h3⟩
  · rintro ⟨m, before, x, after, hm, hnode, h1, h2, h3⟩
    obtain ⟨c, queue, -, hiff⟩ := C65_continue needle l h block cache (.panic .shardBoundary)
    refine ⟨_, hiff.2 ?_⟩
    rw [hn]
    exact .shard hm hnode.1 (.links hnode (.panic h1 h2 h3))

/-- C65. Making the needle of a lookup owned, at any time, changes nothing: the same links are pending and every block gets the same
answer, with the same cache. -/
theorem C65_owned (needle : Bytes) (l : ShardedLookup) (h : Looking needle l) : Looking needle l.withOwnedNeedle ∧
    l.withOwnedNeedle.needle = needle ∧ l.withOwnedNeedle.pendingLinks = l.pendingLinks ∧
    ∀ (block : Bytes) (cache : Option LookupCache), l.withOwnedNeedle.continueWalk block cache = l.continueWalk block cache :=
  ⟨.owned h, looking_needle (.owned h), rfl, fun _ _ => rfl⟩

/-- Concrete outcomes: in the sample shard, `a` is found, for `b` its bucket is needed; with the uncuttable name it panics. -/
example : ∃ m, FlatUnixFs.tryParse sampleShard = .ok m ∧ m.data.Ty = .HAMTShard ∧
    ShardNodeRead [97] [] m (.ok (.Found (cidOf toySha [97]))) ∧
    ShardNodeRead [98] [] m (.ok (.NeedToLoadMore ⟨[cidOf toySha sampleBucket], [98]⟩)) := by
  refine ⟨FlatUnixFs.mk [⟨some (cidOf toySha [97]).toBytes, some [0x30, 0x30, 97], some 7⟩,
      ⟨some (cidOf toySha sampleBucket).toBytes, some [0x30, 0x31], some 7⟩]
    { Ty := .HAMTShard, hashType := some 34, fanout := some 256 }, by decide +kernel, rfl, ?_, ?_⟩
  · exact (C65_resolve sampleShard [97] none (by simp) _ (by decide +kernel) rfl _).1 (by decide +kernel)
  · exact (C65_resolve sampleShard [98] none (by simp) _ (by decide +kernel) rfl _).1 (by decide +kernel)

example : ∃ m before l after, FlatUnixFs.tryParse uncuttableShard = .ok m ∧ ShardNode m ∧ m.links = before ++ l :: after ∧
    Tidy [97] before ∧ Uncuttable l :=
  (C43_exact_partial uncuttableShard [97] none (by simp)).1 ⟨.shardBoundary, by decide +kernel⟩

end Verif.Props
