import Verif.Spec.Hamt
import Verif.VisitArb
namespace Verif
open Spec

theorem head_not_cont (n : Bytes) (h : validUtf8 n = true) (x : UInt8) (t : Bytes) (he : n = x :: t) : isCont x = false := by
  subst he
  rw [← Bool.not_eq_true]
  intro hc
  have : U8.step .start x = .bad := by
    simp only [isCont, Bool.and_eq_true, decide_eq_true_eq, UInt8.le_iff_toNat_le] at hc
    simp only [U8.step, UInt8.le_iff_toNat_le, beq_iff_eq, Bool.and_eq_true, decide_eq_true_eq]
    have a : (0x80 : UInt8).toNat = 128 := rfl
    have b : (0xBF : UInt8).toNat = 191 := rfl
    rw [a, b] at hc
    have ne : ∀ y : UInt8, 191 < y.toNat → ¬ x = y := by intro y hy e; subst e; omega
    rw [if_neg (by have : (0x7F : UInt8).toNat = 127 := rfl; omega),
      if_neg (by have : (0xC2 : UInt8).toNat = 194 := rfl; omega),
      if_neg (ne _ (by decide)), if_neg (ne _ (by decide)),
      if_neg (by have : (0xE1 : UInt8).toNat = 225 := rfl; omega), if_neg (ne _ (by decide)), if_neg (ne _ (by decide)),
      if_neg (by have : (0xF1 : UInt8).toNat = 241 := rfl; omega)]
  simp [validUtf8, this, U8.foldl_bad] at h

theorem boundary_two (p q : UInt8) (n : Bytes) (hn : n ≠ []) (h : validUtf8 n = true) :
    isCharBoundary (p :: q :: n) 2 = true := by
  cases n with
  | nil => exact absurd rfl hn
  | cons x t => simp [isCharBoundary, head_not_cont _ h x t rfl]

/-- The Cids of direct entries of that name. -/
def directs (needle : Bytes) : List HTree → List Cid
  | [] => []
  | .entry n c :: ks => if n = needle then c :: directs needle ks else directs needle ks
  | .shard _ :: ks => directs needle ks

/-- The sub-shards. -/
def subs : List HTree → List (List HTree)
  | [] => []
  | .entry _ _ :: ks => subs ks
  | .shard k :: ks => k :: subs ks

/-- The queue's Cids lead to the given shards. -/
def QueueAt (get : Cid → Option Bytes) : List (List HTree) → List Cid → Prop
  | [], [] => True
  | k :: ks, c :: cs => (∃ b, get c = some b ∧ ShardAt get (.shard k) b) ∧ QueueAt get ks cs
  | _, _ => False

theorem QueueAt.append {get} : ∀ {ks cs ks' cs'}, QueueAt get ks cs → QueueAt get ks' cs' → QueueAt get (ks ++ ks') (cs ++ cs')
  | [], [], _, _, _, h => h
  | _ :: _, _ :: _, _, _, h, h' => ⟨h.1, QueueAt.append h.2 h'⟩
  | [], _ :: _, _, _, h, _ => h.elim
  | _ :: _, [], _, _, h, _ => h.elim

theorem tryConvertCid_ok {i l c} (h : Cid.tryFrom (l.Hash.getD []) = .ok c) : tryConvertCid i l = .ok c := by
  simp [tryConvertCid, h]

/-- What `partition` does on a well-formed shard. -/
def PartSpec (get : Cid → Option Bytes) (ks : List HTree) (work : List Cid) (r : Res LookupError (Option Cid × List Cid)) :
    List Cid → Prop
  | [] => ∃ ws, r = .ok (none, work ++ ws) ∧ QueueAt get (subs ks) ws
  | [c] => ∃ w, r = .ok (some c, w)
  | d :: _ :: _ => ∃ m, r = .err (.Multiple m) ∧ m.intoInner = d

theorem intoInner_of (f : Nat × Cid) (j : Nat) (l : PBLink) : (MultipleMatchingLinks.of f j l).intoInner = f.2 := by
  unfold MultipleMatchingLinks.of; split <;> rfl

theorem partition_spec {get needle} : ∀ (ks : List HTree) (ls : List PBLink) (i found work), KidsAt get ks ls →
    PartSpec get ks work (partitionShardLinks needle i found work ls)
      ((found.map (fun (x : Nat × Cid) => x.2)).toList ++ directs needle ks) := by
  intro ks
  induction ks with
  | nil =>
    intro ls i found work h
    cases ls with
    | cons => exact h.elim
    | nil =>
      cases found with
      | none => exact ⟨[], by simp [partitionShardLinks], trivial⟩
      | some f => exact ⟨work, by simp [partitionShardLinks]⟩
  | cons k ks ih =>
    intro ls i found work h
    cases ls with
    | nil => cases k <;> exact h.elim
    | cons l ls =>
      cases k with
      | entry n c =>
        obtain ⟨⟨hn, hu, ⟨p, q, hp, hq, hname⟩, hc⟩, hrest⟩ := h
        have hlen : 0 < n.length := List.length_pos_iff.2 hn
        unfold partitionShardLinks
        simp only [hname, Option.getD_some, boundary_two p q n hn hu, Bool.true_eq_false, and_false, if_false,
          List.length_cons, List.drop_succ_cons, List.drop_zero]
        by_cases he : n = needle
        · rw [if_pos ⟨by omega, he⟩]
          cases found with
          | none =>
            simp only [tryConvertCid_ok hc]
            have := ih ls (i + 1) (some (i, c)) work hrest
            simp only [directs, he, if_true]
            simp only [Option.map_some, Option.toList_some, Option.map_none, Option.toList_none, List.nil_append, List.singleton_append] at this ⊢
            revert this
            cases directs needle ks with
            | nil => exact id
            | cons d ds => exact id
          | some f =>
            simp only [directs, he, if_true, Option.map_some, Option.toList_some, List.singleton_append]
            exact ⟨_, rfl, intoInner_of _ _ _⟩
        · rw [if_neg (by simp [he]), if_neg (by omega)]
          have := ih ls (i + 1) found work hrest
          simp only [directs, he, if_false]
          exact this
      | shard ks' =>
        obtain ⟨⟨nm, cid, b, hname, hl, hc, hget, hsub⟩, hrest⟩ := h
        unfold partitionShardLinks
        simp only [hname, Option.getD_some, hl, tryConvertCid_ok hc, Nat.lt_irrefl, false_and, if_false, if_true]
        have := ih ls (i + 1) found (work ++ [cid]) hrest
        simp only [directs]
        revert this
        generalize Option.toList _ ++ directs needle ks = ds
        cases ds with
        | nil =>
          rintro ⟨ws, h1, h2⟩
          exact ⟨cid :: ws, by rw [h1]; simp, ⟨b, hget, hsub⟩, h2⟩
        | cons d ds => cases ds <;> exact id

theorem entriesL_flat (q : List (List HTree)) : HTree.entriesL (q.map .shard) = q.flatMap HTree.entriesL := by
  induction q with
  | nil => rfl
  | cons a q ih => simp [HTree.entriesL, HTree.entries, ih]

theorem mem_directs {needle c} : ∀ {ks : List HTree}, c ∈ directs needle ks → (needle, c) ∈ HTree.entriesL ks
  | .entry n d :: ks, h => by
    simp only [directs] at h
    simp only [HTree.entriesL, HTree.entries, List.mem_append, List.mem_singleton]
    split at h
    · rename_i he
      rcases List.mem_cons.1 h with h | h
      · left; rw [he, h]
      · right; exact mem_directs h
    · right; exact mem_directs h
  | .shard k :: ks, h => by
    simp only [directs] at h
    simp only [HTree.entriesL, List.mem_append]
    right; exact mem_directs h

/-- Counting an entry name: directly, or in a sub-shard. -/
theorem count_entries (needle : Bytes) : ∀ ks : List HTree,
    ((HTree.entriesL ks).map (·.1)).count needle
      = (directs needle ks).length + (((subs ks).flatMap HTree.entriesL).map (·.1)).count needle
  | [] => rfl
  | .entry n d :: ks => by
    have ih := count_entries needle ks
    simp only [HTree.entriesL, HTree.entries, directs, subs, List.singleton_append, List.map_cons, List.count_cons, ih]
    by_cases h : n = needle <;> simp [h] <;> omega
  | .shard k :: ks => by
    have ih := count_entries needle ks
    simp only [HTree.entriesL, HTree.entries, directs, subs, List.flatMap_cons, List.map_append, List.count_append, ih]
    omega

theorem mem_subs_entries {e} : ∀ {ks : List HTree}, e ∈ (subs ks).flatMap HTree.entriesL → e ∈ HTree.entriesL ks
  | .entry n d :: ks, h => by
    simp only [HTree.entriesL, List.mem_append]; right; exact mem_subs_entries h
  | .shard k :: ks, h => by
    simp only [subs, List.flatMap_cons, List.mem_append] at h
    simp only [HTree.entriesL, HTree.entries, List.mem_append]
    rcases h with h | h
    · exact .inl h
    · exact .inr (mem_subs_entries h)

theorem shards_subs : ∀ ks : List HTree, HTree.shardsL ks = ((subs ks).map (fun k => 1 + HTree.shardsL k)).sum
  | [] => rfl
  | .entry _ _ :: ks => by simp [HTree.shardsL, HTree.shards, subs, shards_subs ks]
  | .shard k :: ks => by simp [HTree.shardsL, HTree.shards, subs, shards_subs ks]

theorem checkShard_ok {m : FlatUnixFs} (h1 : m.data.Ty = .HAMTShard) (h2 : m.data.fanout = some 256)
    (h3 : m.data.hashType = some 34) (h4 : m.data.filesize = none) (h5 : m.data.blocksizes = []) :
    checkShardSupported m = .ok () := by
  simp [checkShardSupported, h1, h2, h3, h4, h5]

/-- The possible outcomes of looking up `needle` among `entries`, with at most `n` fetched blocks. -/
def LookupOutcome (needle : Bytes) (entries : List (Bytes × Cid)) (n : Nat) (r : Res LookupFail (Option Cid × List Cid)) : Prop :=
  (∃ c q, r = .ok (some c, q) ∧ (needle, c) ∈ entries ∧ q.length ≤ n) ∨
  (∃ q, r = .ok (none, q) ∧ needle ∉ entries.map (·.1) ∧ q.length = n) ∨
  (∃ m, r = .err (.resolving (.Lookup (.Multiple m))) ∧ (needle, m.intoInner) ∈ entries ∧ 1 < (entries.map (·.1)).count needle)

theorem finishStep_spec {get needle} (ks : List HTree) (ls : List PBLink) (queue : List Cid) (cache)
    (h : KidsAt get ks ls) :
    (∃ c cache', ShardedLookup.finishStep needle ls queue cache = (.ok (.Found c), cache') ∧
      c ∈ directs needle ks) ∨
    (ShardedLookup.finishStep needle ls queue cache = (.ok .NotFound, some ⟨[]⟩) ∧ directs needle ks = [] ∧ subs ks = [] ∧ queue = []) ∨
    (∃ m cache', ShardedLookup.finishStep needle ls queue cache = (.err (.Multiple m), cache') ∧ m.intoInner ∈ directs needle ks ∧ 1 < (directs needle ks).length) ∨
    (∃ ws, ShardedLookup.finishStep needle ls queue cache = (.ok (.NeedToLoadMore ⟨queue ++ ws, needle⟩), cache) ∧
      QueueAt get (subs ks) ws ∧ directs needle ks = [] ∧ queue ++ ws ≠ []) := by
  have hp := partition_spec (get := get) (needle := needle) ks ls 0 none queue h
  simp only [Option.map_none, Option.toList_none, List.nil_append] at hp
  match hd : directs needle ks, hp with
  | [], hp =>
    obtain ⟨ws, h1, h2⟩ := hp
    by_cases hne : queue ++ ws = []
    · right; left
      refine ⟨?_, rfl, ?_, (List.append_eq_nil_iff.1 hne).1⟩
      · simp [ShardedLookup.finishStep, h1, hne, LookupCache.ofQueue]
      · rw [(List.append_eq_nil_iff.1 hne).2] at h2
        cases hs : subs ks with
        | nil => rfl
        | cons a b => rw [hs] at h2; exact h2.elim
    · right; right; right
      exact ⟨ws, by simp only [ShardedLookup.finishStep, h1]; rw [if_neg hne], h2, rfl, hne⟩
  | [c], hp =>
    obtain ⟨w, h1⟩ := hp
    left
    exact ⟨c, some (.ofQueue w), by simp only [ShardedLookup.finishStep, h1], by simp⟩
  | a :: b :: d, hp =>
    obtain ⟨m, h1, h2⟩ := hp
    right; right; left
    exact ⟨m, cache, by simp only [ShardedLookup.finishStep, h1], by simp [h2], by simp⟩

theorem lookupFrom_spec {get needle} : ∀ (n : Nat) (qs : List (List HTree)) (cids : List Cid) (cache),
    (qs.map (fun k => 1 + HTree.shardsL k)).sum = n → QueueAt get qs cids → cids ≠ [] →
    ∃ r, lookupFrom get ⟨cids, needle⟩ cache = some r ∧
      LookupOutcome needle (qs.flatMap HTree.entriesL) n r := by
  intro n
  induction n using Nat.strongRecOn with
  | _ n ih =>
    intro qs cids cache hn hq hne
    cases cids with
    | nil => exact absurd rfl hne
    | cons c cs =>
      cases qs with
      | nil => exact hq.elim
      | cons k ks =>
        obtain ⟨⟨b, hget, m, hparse, h1, h2, h3, h4, h5, hkids⟩, hrest⟩ := hq
        simp only [List.map_cons, List.sum_cons] at hn
        rw [lookupFrom.eq_1]
        simp only [ShardedLookup.pendingLinks, hget, ShardedLookup.continueWalk, hparse, h1, ne_eq, not_true, if_false,
          checkShard_ok h1 h2 h3 h4 h5]
        have hf := finishStep_spec (needle := needle) k m.links cs cache hkids
        have hcnt := count_entries needle k
        rcases hf with ⟨d, c', he, hm⟩ | ⟨he, hd, hs, hc⟩ | ⟨mm, c', he, hin, hl⟩ | ⟨ws, he, hws, hd, hne'⟩
        · rw [he]
          refine ⟨_, rfl, .inl ⟨d, [c], rfl, ?_, by simp; omega⟩⟩
          simp only [List.flatMap_cons, List.mem_append]
          exact .inl (mem_directs hm)
        · rw [he]
          subst hc
          have hks : ks = [] := by cases ks with
            | nil => rfl
            | cons => exact hrest.elim
          subst hks
          have hsh := shards_subs k
          simp only [hs, List.map_nil, List.sum_nil, hd, List.length_nil, List.flatMap_nil, List.count_nil] at hsh hcnt hn
          refine ⟨_, rfl, .inr (.inl ⟨[c], rfl, ?_, by simp; omega⟩)⟩
          simp only [List.flatMap_cons, List.flatMap_nil, List.append_nil]
          exact List.count_eq_zero.1 (by simpa using hcnt)
        · rw [he]
          refine ⟨_, rfl, .inr (.inr ⟨mm, rfl, by simp only [List.flatMap_cons, List.mem_append]; exact .inl (mem_directs hin), ?_⟩)⟩
          simp only [List.flatMap_cons, List.map_append, List.count_append]
          omega
        · rw [he]
          have hsh := shards_subs k
          obtain ⟨r, hr, ho⟩ := ih ((ks.map (fun k => 1 + HTree.shardsL k)).sum + ((subs k).map (fun k => 1 + HTree.shardsL k)).sum)
            (by omega) (ks ++ subs k) (cs ++ ws) cache (by simp) (hrest.append hws) hne'
          simp only [hr]
          refine ⟨_, rfl, ?_⟩
          have hcount : ((ks ++ subs k).flatMap HTree.entriesL |>.map (·.1)).count needle
              = (((k :: ks).flatMap HTree.entriesL).map (·.1)).count needle := by
            simp only [List.flatMap_append, List.map_append, List.count_append, List.flatMap_cons, hcnt, hd, List.length_nil]
            omega
          rcases ho with ⟨d, q, rfl, hm, hl⟩ | ⟨q, rfl, hm, hl⟩ | ⟨mm, rfl, hin, hl⟩
          · refine .inl ⟨d, c :: q, rfl, ?_, by simp; omega⟩
            simp only [List.flatMap_append, List.mem_append] at hm
            simp only [List.flatMap_cons, List.mem_append]
            rcases hm with hm | hm
            · exact .inr hm
            · exact .inl (mem_subs_entries hm)
          · refine .inr (.inl ⟨c :: q, rfl, ?_, by simp; omega⟩)
            rw [← List.count_eq_zero] at hm ⊢
            rw [← hcount]; exact hm
          · refine .inr (.inr ⟨mm, rfl, ?_, by rw [← hcount]; exact hl⟩)
            simp only [List.flatMap_append, List.mem_append] at hin
            simp only [List.flatMap_cons, List.mem_append]
            rcases hin with hm | hm
            · exact .inr hm
            · exact .inl (mem_subs_entries hm)

end Verif
