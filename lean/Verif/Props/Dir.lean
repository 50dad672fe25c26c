import Verif.DirLemmas
import Verif.Props.Reader
/-
Properties of directory lookups: C41, C42, C43, C44 and the lookup part of C25.
-/
namespace Verif.Props
open Verif Verif.Spec

/-! ### C41: plain directories -/

/-- Link `l` is named `needle` (a missing name counts as the empty one). -/
def Named (needle : Bytes) (l : PBLink) : Prop := l.Name.getD [] = needle

theorem resolve_plain {block : Bytes} {links : List PBLink} (h : PlainDir block links) (needle : Bytes) (cache) :
    resolve block needle cache = (resolveInLinks links needle, cache) := by
  rcases h with ⟨m, hp, ht, h1, h2, h3, h4, h5, rfl⟩ | ⟨n, hn, rfl, hd⟩
  · simp [resolve, hp, ht, checkDirectorySupported, h1, h2, h3, h4, h5]
  · have : FlatUnixFs.tryParse block = .error (.NoData n) ∨ ∃ e, FlatUnixFs.tryParse block = .error (.InvalidUnixFs e n) := by
      unfold FlatUnixFs.tryParse
      rw [hn]
      rcases hd with hd | ⟨s, hd, hs | ⟨e, he⟩⟩
      · left; simp [hd]
      · left; simp [hd, hs]
      · simp only [hd, he]
        split
        · left; trivial
        · right; exact ⟨e, rfl⟩
    rcases this with h | ⟨e, h⟩ <;> simp [resolve, h]

theorem matching_skip {needle : Bytes} (a b : List PBLink) (k : Nat) (h : ∀ l ∈ a, ¬ Named needle l) :
    (((a ++ b).zipIdx k).map (fun (l, i) => (i, l))).filter (fun (_, l) => l.Name.getD [] = needle)
      = ((b.zipIdx (k + a.length)).map (fun (l, i) => (i, l))).filter (fun (_, l) => l.Name.getD [] = needle) := by
  induction a generalizing k with
  | nil => simp
  | cons x a ih =>
    have hx : ¬ x.Name.getD [] = needle := h x (by simp)
    simp only [List.cons_append, List.zipIdx_cons, List.map_cons, List.filter_cons, hx, decide_false]
    rw [if_neg (by simp), ih (k + 1) (fun l hl => h l (by simp [hl]))]
    simp only [List.length_cons]
    rw [show k + 1 + a.length = k + (a.length + 1) by omega]

theorem matching_hit {needle : Bytes} (a b : List PBLink) (l : PBLink) (k : Nat) (h : ∀ x ∈ a, ¬ Named needle x)
    (hl : Named needle l) :
    (((a ++ l :: b).zipIdx k).map (fun (l, i) => (i, l))).filter (fun (_, l) => l.Name.getD [] = needle)
      = (k + a.length, l) :: ((b.zipIdx (k + a.length + 1)).map (fun (l, i) => (i, l))).filter (fun (_, l) => l.Name.getD [] = needle) := by
  rw [matching_skip _ _ _ h]
  simp only [List.zipIdx_cons, List.map_cons, List.filter_cons]
  rw [if_pos (by simpa [Named] using hl)]

/-- No link of that name: `NotFound`. -/
theorem C41_absent (block needle : Bytes) (links : List PBLink) (cache : Option LookupCache) (h : PlainDir block links)
    (hno : ∀ l ∈ links, ¬ Named needle l) : resolve block needle cache = (.ok .NotFound, cache) := by
  rw [resolve_plain h]
  have := matching_skip (needle := needle) links [] 0 hno
  simp only [List.append_nil] at this
  simp [resolveInLinks, matchingLinks, this]

/-- Exactly one link of that name, with a valid Cid: that Cid. -/
theorem C41_unique (block needle : Bytes) (cache : Option LookupCache) (a b : List PBLink) (l : PBLink) (c : Cid)
    (h : PlainDir block (a ++ l :: b)) (ha : ∀ x ∈ a, ¬ Named needle x) (hb : ∀ x ∈ b, ¬ Named needle x)
    (hl : Named needle l) (hc : Cid.tryFrom (l.Hash.getD []) = .ok c) :
    resolve block needle cache = (.ok (.Found c), cache) := by
  rw [resolve_plain h]
  have h2 := matching_skip (needle := needle) b [] (a.length + 1) hb
  simp only [List.append_nil, List.zipIdx_nil, List.map_nil, List.filter_nil] at h2
  have h3 := matching_hit a b l 0 ha hl
  rw [show 0 + a.length + 1 = a.length + 1 by omega, h2] at h3
  simp only [resolveInLinks, matchingLinks, h3, tryConvertCid, hc]

/-- The first link of that name has an invalid Cid: an error which names the link. -/
theorem C41_invalid (block needle : Bytes) (cache : Option LookupCache) (a b : List PBLink) (l : PBLink) (e : CidError)
    (h : PlainDir block (a ++ l :: b)) (ha : ∀ x ∈ a, ¬ Named needle x)
    (hl : Named needle l) (hc : Cid.tryFrom (l.Hash.getD []) = .error e) :
    resolve block needle cache = (.err (.Lookup (.InvalidCid ⟨a.length, l.Hash.getD [], needle, e⟩)), cache) := by
  rw [resolve_plain h]
  have hn : l.Name.getD [] = needle := hl
  simp [resolveInLinks, matchingLinks, matching_hit a b l 0 ha hl, tryConvertCid, hc, InvalidCidInLink.of, hn]

/-- Two or more links of that name, the first one valid: an error which names the first two. -/
theorem C41_multiple (block needle : Bytes) (cache : Option LookupCache) (a b b' : List PBLink) (l l' : PBLink) (c : Cid)
    (h : PlainDir block (a ++ l :: (b ++ l' :: b'))) (ha : ∀ x ∈ a, ¬ Named needle x) (hb : ∀ x ∈ b, ¬ Named needle x)
    (hl : Named needle l) (hl' : Named needle l') (hc : Cid.tryFrom (l.Hash.getD []) = .ok c) :
    ∃ m, resolve block needle cache = (.err (.Lookup (.Multiple m)), cache) ∧ m.intoInner = c ∧
      (∀ c', Cid.tryFrom (l'.Hash.getD []) = .ok c' → m = .Two (a.length, c) (a.length + 1 + b.length, c')) ∧
      (∀ e, Cid.tryFrom (l'.Hash.getD []) = .error e →
        m = .OneValid (a.length, c) ⟨a.length + 1 + b.length, l'.Hash.getD [], needle, e⟩) := by
  rw [resolve_plain h]
  have hn : l'.Name.getD [] = needle := hl'
  refine ⟨.of (a.length, c) (a.length + 1 + b.length) l', ?_, ?_, ?_, ?_⟩
  · simp [resolveInLinks, matchingLinks, matching_hit a _ l 0 ha hl, matching_hit b b' l' _ hb hl', tryConvertCid, hc]
  · unfold MultipleMatchingLinks.of; split <;> rfl
  · intro c' h'; simp [MultipleMatchingLinks.of, tryConvertCid, h']
  · intro e h'; simp [MultipleMatchingLinks.of, tryConvertCid, h', InvalidCidInLink.of, hn]

/-- The four cases are all there are: a link list either has no link of that name, or a first one, which is the only
one or is followed by a second. -/
theorem C41_cases (links : List PBLink) (needle : Bytes) :
    (∀ l ∈ links, ¬ Named needle l) ∨
    (∃ a l b, links = a ++ l :: b ∧ (∀ x ∈ a, ¬ Named needle x) ∧ Named needle l ∧
      ((∀ x ∈ b, ¬ Named needle x) ∨ ∃ b₁ l' b₂, b = b₁ ++ l' :: b₂ ∧ (∀ x ∈ b₁, ¬ Named needle x) ∧ Named needle l')) := by
  have split : ∀ ls : List PBLink, (∀ l ∈ ls, ¬ Named needle l) ∨
      ∃ a l b, ls = a ++ l :: b ∧ (∀ x ∈ a, ¬ Named needle x) ∧ Named needle l := by
    intro ls
    induction ls with
    | nil => left; simp
    | cons x ls ih =>
      by_cases hx : Named needle x
      · right; exact ⟨[], x, ls, rfl, by simp, hx⟩
      · rcases ih with h | ⟨a, l, b, rfl, ha, hl⟩
        · left; intro l hl; rcases List.mem_cons.1 hl with rfl | hl
          · exact hx
          · exact h l hl
        · right
          refine ⟨x :: a, l, b, rfl, ?_, hl⟩
          intro y hy; rcases List.mem_cons.1 hy with rfl | hy
          · exact hx
          · exact ha y hy
  rcases split links with h | ⟨a, l, b, rfl, ha, hl⟩
  · exact .inl h
  · refine .inr ⟨a, l, b, rfl, ha, hl, ?_⟩
    rcases split b with h | ⟨b₁, l', b₂, rfl, hb, hl'⟩
    · exact .inl h
    · exact .inr ⟨b₁, l', b₂, rfl, hb, hl'⟩

/-- Conversely: whenever `resolve` finds a Cid in a plain directory, exactly one link has that name and carries it. -/
theorem C41_found_only (block needle : Bytes) (links : List PBLink) (cache cache' : Option LookupCache) (c : Cid)
    (h : PlainDir block links) (hr : resolve block needle cache = (.ok (.Found c), cache')) :
    ∃ a l b, links = a ++ l :: b ∧ (∀ x ∈ a ++ b, ¬ Named needle x) ∧ Named needle l ∧
      Cid.tryFrom (l.Hash.getD []) = .ok c := by
  rcases C41_cases links needle with hno | ⟨a, l, b, rfl, ha, hl, hb⟩
  · rw [C41_absent block needle links cache h hno] at hr; simp at hr
  · cases hc : Cid.tryFrom (l.Hash.getD []) with
    | error e => rw [C41_invalid block needle cache a b l e h ha hl hc] at hr; simp at hr
    | ok c1 =>
      rcases hb with hb | ⟨b₁, l', b₂, rfl, hb, hl'⟩
      · rw [C41_unique block needle cache a b l c1 h ha hb hl hc] at hr
        simp only [Prod.mk.injEq, Res.ok.injEq, MaybeResolved.Found.injEq] at hr
        refine ⟨a, l, b, rfl, ?_, hl, by rw [← hr.1]; exact hc⟩
        intro x hx; rcases List.mem_append.1 hx with hx | hx
        · exact ha x hx
        · exact hb x hx
      · obtain ⟨m, hm, -⟩ := C41_multiple block needle cache a b₁ b₂ l l' c1 h ha hb hl hl' hc
        rw [hm] at hr; simp at hr

/-- A directory with properties of files or shards is rejected, and a block which is not dag-pb is a read error. -/
theorem C41_rejected (block needle : Bytes) (cache : Option LookupCache) :
    (∀ m, FlatUnixFs.tryParse block = .ok m → m.data.Ty = .Directory →
      (m.data.filesize ≠ none ∨ m.data.blocksizes ≠ [] ∨ m.data.hashType ≠ none ∨ m.data.fanout ≠ none ∨
        m.data.Data.getD [] ≠ []) →
      resolve block needle cache = (.err (.UnexpectedDirProperties
        ⟨m.data.filesize, m.data.blocksizes, m.data.hashType, m.data.fanout, m.data.Data⟩), cache)) ∧
    (∀ e, PBNode.tryFrom block = .error e → resolve block needle cache = (.err (.Read e), cache)) := by
  constructor
  · intro m hm ht h
    have hs : ∀ o : Option Nat, o ≠ none ↔ o.isSome = true := by intro o; cases o <;> simp
    simp only [resolve, hm, ht, checkDirectorySupported]
    rw [if_pos (by simpa only [hs] using h)]
  · intro e he
    simp [resolve, FlatUnixFs.tryParse, he]

/-- A directory with the entries `a`, `b`, `a`. -/
def sampleDir (names : List Bytes) : Bytes :=
  (FlatUnixFs.mk (names.map (fun n => ⟨some (cidOf toySha n).toBytes, some n, some 7⟩)) { Ty := .Directory }).write

example : PlainDir (sampleDir [[97], [98], [97]])
    ([[97], [98], [97]].map (fun n => (⟨some (cidOf toySha n).toBytes, some n, some 7⟩ : PBLink))) :=
  .inl ⟨FlatUnixFs.mk _ { Ty := .Directory }, by decide +kernel, rfl, rfl, rfl, rfl, rfl, rfl, rfl⟩

example : (resolve (sampleDir [[97], [98], [97]]) [98] none).1 = .ok (.Found (cidOf toySha [98])) := by decide +kernel
example : (resolve (sampleDir [[97], [98], [97]]) [99] none).1 = .ok .NotFound := by decide +kernel
example : (resolve (sampleDir [[97], [98], [97]]) [97] none).1 =
    .err (.Lookup (.Multiple (.Two (0, cidOf toySha [97]) (2, cidOf toySha [97])))) := by decide +kernel

/-! ### C44 -/

/-- No name resolves through a file, raw leaf, metadata node or symlink. -/
theorem C44_unexpected (block needle : Bytes) (cache : Option LookupCache) (m : FlatUnixFs)
    (hm : FlatUnixFs.tryParse block = .ok m)
    (ht : m.data.Ty = .File ∨ m.data.Ty = .Raw ∨ m.data.Ty = .Metadata ∨ m.data.Ty = .Symlink) :
    resolve block needle cache = (.err (.UnexpectedType m.data.Ty), cache) := by
  rcases ht with h | h | h | h <;> simp [resolve, hm, h]

example : ∃ m, FlatUnixFs.tryParse ((FTree.leaf [1, 2]).block toySha) = .ok m ∧ m.data.Ty = .File :=
  ⟨FTree.leafMsg [1, 2], by decide +kernel, rfl⟩

/-- In a sharded lookup, a bucket of another type is an error, too. -/
theorem C44_bucket (l : ShardedLookup) (hl : l.links ≠ []) (block : Bytes) (cache : Option LookupCache) (m : FlatUnixFs)
    (hm : FlatUnixFs.tryParse block = .ok m) (ht : m.data.Ty ≠ .HAMTShard) :
    l.continueWalk block cache = (.err (.UnexpectedBucketType m.data.Ty), cache) := by
  cases h : l.links with
  | nil => exact absurd h hl
  | cons c cs => simp [ShardedLookup.continueWalk, h, hm, ht]

/-! ### C42 -/

theorem lookupName_spec {get needle t root} (cache : Option LookupCache) (hcache : ∀ k, cache = some k → k.buffer = [])
    (h : ShardAt get t root) :
    ∃ r, lookupName get root needle cache = some r ∧ LookupOutcome needle t.entries (t.shards - 1) r := by
  cases t with
  | entry n c => exact h.elim
  | shard ks =>
    obtain ⟨m, hparse, h1, h2, h3, h4, h5, hkids⟩ := h
    have hb : (cache.getD {}).buffer = [] := by
      cases cache with
      | none => rfl
      | some k => exact hcache k rfl
    have hf := finishStep_spec (needle := needle) ks m.links [] none hkids
    have hcnt := count_entries needle ks
    have hsh := shards_subs ks
    simp only [lookupName, resolve, hparse, h1, ShardedLookup.lookupOrStart, checkShard_ok h1 h2 h3 h4 h5, hb]
    simp only [HTree.shards, HTree.entries]
    rcases hf with ⟨d, c', he, hm⟩ | ⟨he, hd, hs, -⟩ | ⟨mm, c', he, hin, hl⟩ | ⟨ws, he, hws, hd, hne'⟩
    · rw [he]
      exact ⟨_, rfl, .inl ⟨d, [], rfl, mem_directs hm, by simp⟩⟩
    · rw [he]
      simp only [hs, List.map_nil, List.sum_nil, hd, List.length_nil, List.flatMap_nil, List.count_nil] at hsh hcnt
      exact ⟨_, rfl, .inr (.inl ⟨[], rfl, List.count_eq_zero.1 (by simpa using hcnt), by simp [hsh]⟩)⟩
    · rw [he]
      exact ⟨_, rfl, .inr (.inr ⟨mm, rfl, mem_directs hin, by omega⟩)⟩
    · rw [he]
      simp only [List.nil_append] at hne' ⊢
      obtain ⟨r, hr, ho⟩ := lookupFrom_spec (needle := needle) _ (subs ks) ws none rfl hws hne'
      refine ⟨r, hr, ?_⟩
      rw [← hsh] at ho
      rw [Nat.add_sub_cancel_left]
      rcases ho with ⟨d, q, rfl, hm, hl⟩ | ⟨q, rfl, hm, hl⟩ | ⟨mm, rfl, hin, hl⟩
      · exact .inl ⟨d, q, rfl, mem_subs_entries hm, hl⟩
      · refine .inr (.inl ⟨q, rfl, ?_, hl⟩)
        rw [← List.count_eq_zero] at hm ⊢
        rw [hcnt, hd, hm]; rfl
      · exact .inr (.inr ⟨mm, rfl, mem_subs_entries hin, by rw [hcnt]; omega⟩)

/-- Looking a name up in a well-formed sharded directory terminates without a panic; what is found is an entry of that
name; `NotFound` is only said when no entry has that name, and after every shard was read exactly once (none is read
more than once in any case); the only possible error is that several entries have that name. -/
theorem C42_lookup (get : Cid → Option Bytes) (t : HTree) (root needle : Bytes) (cache : Option LookupCache)
    (hcache : ∀ k, cache = some k → k.buffer = []) (h : ShardAt get t root) :
    ∃ r, lookupName get root needle cache = some r ∧
      ((∃ c q, r = .ok (some c, q) ∧ (needle, c) ∈ t.entries ∧ q.length ≤ t.shards - 1) ∨
       (∃ q, r = .ok (none, q) ∧ needle ∉ t.entries.map (·.1) ∧ q.length = t.shards - 1) ∨
       (∃ m, r = .err (.resolving (.Lookup (.Multiple m))) ∧ (needle, m.intoInner) ∈ t.entries ∧ 1 < (t.entries.map (·.1)).count needle)) :=
  lookupName_spec cache hcache h

/-- With distinct entry names: exactly the entry is found. -/
theorem C42_unique (get : Cid → Option Bytes) (t : HTree) (root needle : Bytes) (cache : Option LookupCache)
    (hcache : ∀ k, cache = some k → k.buffer = []) (h : ShardAt get t root) (hu : (t.entries.map (·.1)).Nodup) :
    ∃ q, (∀ c, (needle, c) ∈ t.entries → lookupName get root needle cache = some (.ok (some c, q))) ∧
      (needle ∉ t.entries.map (·.1) → lookupName get root needle cache = some (.ok (none, q))) := by
  obtain ⟨r, hr, ho⟩ := C42_lookup get t root needle cache hcache h
  have inj : ∀ {l : List (Bytes × Cid)} {a : Bytes} {x y : Cid}, (l.map (·.1)).Nodup → (a, x) ∈ l → (a, y) ∈ l → x = y := by
    intro l a x y
    induction l with
    | nil => intro _ h; cases h
    | cons p l ih =>
      intro hd hx hy
      simp only [List.map_cons, List.nodup_cons] at hd
      rcases List.mem_cons.1 hx with hx | hx <;> rcases List.mem_cons.1 hy with hy | hy
      · rw [← hx] at hy; cases hy; rfl
      · rw [← hx] at hd; exact absurd (List.mem_map_of_mem hy) hd.1
      · rw [← hy] at hd; exact absurd (List.mem_map_of_mem hx) hd.1
      · exact ih hd.2 hx hy
  rcases ho with ⟨c, q, rfl, hm, -⟩ | ⟨q, rfl, hm, -⟩ | ⟨m, rfl, hin, hl⟩
  · refine ⟨q, ?_, ?_⟩
    · intro c' h'; rw [hr, inj hu h' hm]
    · intro h'; exact absurd (List.mem_map_of_mem hm) h'
  · refine ⟨q, ?_, fun _ => hr⟩
    intro c' h'; exact absurd (List.mem_map_of_mem h') hm
  · have := List.nodup_iff_count.1 hu needle
    omega

/-! A sharded directory with one bucket: entries `a` (in the root) and `b` (in the bucket). -/

def sampleBucket : Bytes :=
  (FlatUnixFs.mk [⟨some (cidOf toySha [98]).toBytes, some [0x30, 0x31, 98], some 7⟩]
    { Ty := .HAMTShard, hashType := some 34, fanout := some 256 }).write
def sampleShard : Bytes :=
  (FlatUnixFs.mk [⟨some (cidOf toySha [97]).toBytes, some [0x30, 0x30, 97], some 7⟩,
      ⟨some (cidOf toySha sampleBucket).toBytes, some [0x30, 0x31], some 7⟩]
    { Ty := .HAMTShard, hashType := some 34, fanout := some 256 }).write
def sampleHTree : HTree := .shard [.entry [97] (cidOf toySha [97]), .shard [.entry [98] (cidOf toySha [98])]]
def sampleGet : Cid → Option Bytes := fun c => if c = cidOf toySha sampleBucket then some sampleBucket else none

theorem sample_shardAt : ShardAt sampleGet sampleHTree sampleShard := by
  refine ⟨FlatUnixFs.mk [⟨some (cidOf toySha [97]).toBytes, some [0x30, 0x30, 97], some 7⟩,
      ⟨some (cidOf toySha sampleBucket).toBytes, some [0x30, 0x31], some 7⟩]
    { Ty := .HAMTShard, hashType := some 34, fanout := some 256 }, by decide +kernel, rfl, rfl, rfl, rfl,
    rfl, ⟨by decide, rfl, ⟨0x30, 0x30, by decide, by decide, rfl⟩, by decide +kernel⟩, ⟨_, cidOf toySha sampleBucket,
      sampleBucket, rfl, rfl, by decide +kernel, by simp [sampleGet], ?_⟩, trivial⟩
  exact ⟨FlatUnixFs.mk [⟨some (cidOf toySha [98]).toBytes, some [0x30, 0x31, 98], some 7⟩]
    { Ty := .HAMTShard, hashType := some 34, fanout := some 256 }, by decide +kernel, rfl, rfl, rfl, rfl,
    rfl, ⟨by decide, rfl, ⟨0x30, 0x31, by decide, by decide, rfl⟩, by decide +kernel⟩, trivial⟩

example : ∃ q, lookupName sampleGet sampleShard [98] none = some (.ok (some (cidOf toySha [98]), q)) := by
  obtain ⟨q, h, -⟩ := C42_unique sampleGet sampleHTree sampleShard [98] none (by simp) sample_shardAt (by decide)
  exact ⟨q, h _ (by decide)⟩

/-! ### C43 -/

/-- The full statement: no panic in any lookup. -/
def C43_full : Prop :=
  (∀ block needle cache, validUtf8 needle = true → (resolve block needle cache).1.NoPanic) ∧
  (∀ needle l block cache, Looking needle l → (l.continueWalk block cache).1.NoPanic ∧ l.pendingLinks.NoPanic)

theorem partition_panic {needle : Bytes} : ∀ (ls : List PBLink) (i found work p),
    partitionShardLinks needle i found work ls = .panic p → p = .shardBoundary ∧ ¬ CutsAtTwo ls := by
  intro ls
  induction ls with
  | nil => intro i found work p h; simp [partitionShardLinks] at h
  | cons l ls ih =>
    intro i found work p h
    have lift : ¬ CutsAtTwo ls → ¬ CutsAtTwo (l :: ls) := fun hn hc => hn (fun x hx => hc x (by simp [hx]))
    unfold partitionShardLinks at h
    simp only at h
    split at h
    · rename_i hc
      simp only [Res.panic.injEq] at h
      refine ⟨h.symm, fun hh => ?_⟩
      have := hh l (by simp) hc.1
      rw [hc.2] at this; cases this
    · repeat' split at h
      all_goals first
        | (exact absurd h (by simp))
        | (obtain ⟨a, b⟩ := ih _ _ _ _ h; exact ⟨a, lift b⟩)

theorem finishStep_panic {needle links queue cache p} (h : (ShardedLookup.finishStep needle links queue cache).1 = .panic p) :
    p = .shardBoundary ∧ ¬ CutsAtTwo links := by
  unfold ShardedLookup.finishStep at h
  split at h
  · rename_i q hq
    simp only [Res.panic.injEq] at h; subst h
    exact partition_panic _ _ _ _ _ hq
  all_goals (try split at h) <;> simp at h

theorem finishStep_more {needle links queue cache l cache'}
    (h : ShardedLookup.finishStep needle links queue cache = (.ok (.NeedToLoadMore l), cache')) : l.links ≠ [] := by
  unfold ShardedLookup.finishStep at h
  split at h <;> try simp at h
  split at h <;> simp at h
  rename_i hne
  rw [← h.1]; exact hne

theorem looking_nonempty {needle l} (h : Looking needle l) : l.links ≠ [] := by
  induction h with
  | @start block cache cache' l h =>
    unfold resolve at h
    split at h
    · split at h
      · rename_i flat _ _ _
        revert h
        cases hs : ShardedLookup.lookupOrStart flat needle cache with
        | mk r c =>
          intro h
          simp only [Prod.mk.injEq] at h
          cases r with
          | err e => simp [Res.mapErr] at h
          | panic e => simp [Res.mapErr] at h
          | ok a =>
            simp only [Res.mapErr, Res.ok.injEq] at h
            rw [h.1] at hs
            unfold ShardedLookup.lookupOrStart at hs
            split at hs <;> try simp at hs
            exact finishStep_more hs
      · split at h
        · simp at h
        · exact absurd h (by
            unfold resolveInLinks
            repeat' split
            all_goals simp)
      · simp at h
    all_goals try simp at h
    all_goals exact absurd h (by
      unfold resolveInLinks
      repeat' split
      all_goals simp)
  | @more l l' block cache cache' hl h ih =>
    unfold ShardedLookup.continueWalk at h
    repeat' split at h
    all_goals try simp at h
    exact finishStep_more h
  | owned _ ih => exact ih

/-- No panic when every link name longer than two bytes can be cut after its second byte; in particular for every shard
with two character ASCII prefixes. Nothing is assumed otherwise. `pending_links` never panics. -/
theorem C43_partial :
    (∀ block needle cache, (∀ m, FlatUnixFs.tryParse block = .ok m → CutsAtTwo m.links) →
      (resolve block needle cache).1.NoPanic) ∧
    (∀ needle l block cache, Looking needle l → l.pendingLinks.NoPanic ∧
      ((∀ m, FlatUnixFs.tryParse block = .ok m → CutsAtTwo m.links) → (l.continueWalk block cache).1.NoPanic)) := by
  constructor
  · intro block needle cache hc p hp
    have hlinks : ∀ links, resolveInLinks links needle ≠ .panic p := by
      intro links; unfold resolveInLinks; repeat' split
      all_goals simp
    unfold resolve at hp
    split at hp
    · rename_i flat hflat
      split at hp
      · revert hp
        cases hs : ShardedLookup.lookupOrStart flat needle cache with
        | mk r c =>
          intro hp
          cases r with
          | err e => simp [Res.mapErr] at hp
          | ok e => simp [Res.mapErr] at hp
          | panic e =>
            unfold ShardedLookup.lookupOrStart at hs
            split at hs
            · rename_i ht _ _ hcs
              simp [checkShardSupported, ht] at hcs
              repeat' split at hcs
              all_goals simp at hcs
            · simp at hs
            · exact (finishStep_panic (by rw [hs])).2 (hc _ hflat)
      · split at hp
        · simp at hp
        · exact hlinks _ hp
      · simp at hp
    · exact hlinks _ hp
    · exact hlinks _ hp
    · simp at hp
  · intro needle l block cache hl
    have hne := looking_nonempty hl
    constructor
    · intro p hp
      unfold ShardedLookup.pendingLinks at hp
      split at hp
      · simp at hp
      · rename_i h; exact hne h
    · intro hc p hp
      unfold ShardedLookup.continueWalk at hp
      split at hp
      · rename_i h; exact hne h
      · split at hp <;> try simp at hp
        rename_i hamt hflat
        by_cases ht : hamt.data.Ty = .HAMTShard
        case neg => rw [if_neg ht] at hp; simp at hp
        case pos =>
          rw [if_pos ht] at hp
          split at hp
          · rename_i hcs
            simp only [checkShardSupported] at hcs
            rw [if_neg (by simp [ht])] at hcs
            repeat' split at hcs
            all_goals simp at hcs
          · simp at hp
          · exact (finishStep_panic hp).2 (hc _ hflat)

/-- A shard with a link named `aéb`: byte 2 is in the middle of `é`. -/
def uncuttableShard : Bytes :=
  (FlatUnixFs.mk [⟨some (cidOf toySha []).toBytes, some [0x61, 0xC3, 0xA9, 0x62], some 7⟩]
    { Ty := .HAMTShard, hashType := some 34, fanout := some 256 }).write

theorem C43_full_false : ¬ C43_full := by
  intro h
  have := h.1 uncuttableShard [97] none rfl .shardBoundary
  exact this (by decide +kernel)

/-- When it panics it is because of such a link. -/
theorem C43_only_boundary (block needle : Bytes) (cache : Option LookupCache) (p : Panic)
    (h : (resolve block needle cache).1 = .panic p) :
    ∃ m, FlatUnixFs.tryParse block = .ok m ∧ m.data.Ty = .HAMTShard ∧ ¬ CutsAtTwo m.links := by
  have hlinks : ∀ links, resolveInLinks links needle ≠ .panic p := by
    intro links; unfold resolveInLinks; repeat' split
    all_goals simp
  have hnot := fun hc => C43_partial.1 block needle cache hc p h
  cases hm : FlatUnixFs.tryParse block with
  | error e =>
    exact absurd (fun m hm' => by rw [hm] at hm'; cases hm') hnot
  | ok m =>
    refine ⟨m, rfl, ?_, fun hc => hnot (fun m' hm' => by rw [hm] at hm'; cases hm'; exact hc)⟩
    refine Decidable.byContradiction fun ht => ?_
    unfold resolve at h
    simp only [hm] at h
    split at h
    · rename_i h'; exact ht h'
    · split at h
      · simp at h
      · exact hlinks _ h
    · simp at h

example : CutsAtTwo (FlatUnixFs.mk [⟨some (cidOf toySha []).toBytes, some [0x30, 0x30, 97], some 7⟩,
    ⟨none, some [0x30], none⟩] {}).links := by unfold CutsAtTwo; decide +kernel

/-! ### C25, lookup part -/

theorem finishStep_cache (needle : Bytes) (links : List PBLink) (queue : List Cid) (c c' : Option LookupCache) :
    (ShardedLookup.finishStep needle links queue c).1 = (ShardedLookup.finishStep needle links queue c').1 ∧
    ∀ k, (ShardedLookup.finishStep needle links queue c).2 = some k → c = some k ∨ k.buffer = [] := by
  unfold ShardedLookup.finishStep
  cases partitionShardLinks needle 0 none queue links with
  | err e => exact ⟨rfl, fun k h => .inl h⟩
  | panic e => exact ⟨rfl, fun k h => .inl h⟩
  | ok r =>
    obtain ⟨f, w⟩ := r
    cases f with
    | some f =>
      refine ⟨rfl, fun k h => .inr ?_⟩
      simp only [Option.some.injEq] at h; rw [← h]; rfl
    | none =>
      simp only
      split
      · refine ⟨rfl, fun k h => .inr ?_⟩
        simp only [Option.some.injEq] at h; rw [← h]; rfl
      · exact ⟨rfl, fun k h => .inl h⟩

/-- The cache passed to `resolve` or `continue_walk` does not influence the outcome. Caches can only be obtained empty
(`Default`-like `None`, `From<VecDeque>` which clears, or from these functions, which only hand out empty ones). -/
theorem C25_lookup_cache (block needle : Bytes) (c c' : Option LookupCache)
    (hc : ∀ k, c = some k → k.buffer = []) (hc' : ∀ k, c' = some k → k.buffer = []) :
    (resolve block needle c).1 = (resolve block needle c').1 ∧
    (∀ k, (resolve block needle c).2 = some k → k.buffer = []) ∧
    ∀ l : ShardedLookup, (l.continueWalk block c).1 = (l.continueWalk block c').1 ∧
      ∀ k, (l.continueWalk block c).2 = some k → k.buffer = [] := by
  have hb : ∀ c : Option LookupCache, (∀ k, c = some k → k.buffer = []) → (c.getD {}).buffer = [] := by
    intro c hc; cases c with
    | none => rfl
    | some k => exact hc k rfl
  refine ⟨?_, ?_, ?_⟩
  · unfold resolve
    split
    · split
      · unfold ShardedLookup.lookupOrStart
        rw [hb c hc, hb c' hc']
        cases checkShardSupported _ <;> rfl
      · split <;> rfl
      · rfl
    all_goals rfl
  · intro k
    unfold resolve
    split
    · split
      · unfold ShardedLookup.lookupOrStart
        rw [hb c hc]
        cases checkShardSupported _ with
        | ok u =>
          intro h
          rcases (finishStep_cache needle _ [] none none).2 k h with h | h
          · cases h
          · exact h
        | err e => exact hc k
        | panic e => exact hc k
      · split <;> exact hc k
      · exact hc k
    all_goals exact hc k
  · intro l
    unfold ShardedLookup.continueWalk
    split
    · exact ⟨rfl, hc⟩
    · split
      · refine ⟨rfl, fun k h => ?_⟩
        simp only [Option.some.injEq] at h; rw [← h]; rfl
      · refine ⟨rfl, fun k h => ?_⟩
        simp only [Option.some.injEq] at h; rw [← h]; rfl
      · refine ⟨rfl, fun k h => ?_⟩
        simp only [Option.some.injEq] at h; rw [← h]; rfl
      · split
        · exact ⟨rfl, hc⟩
        · cases checkShardSupported _ with
          | err e => exact ⟨rfl, hc⟩
          | panic e => exact ⟨rfl, hc⟩
          | ok u =>
            have := finishStep_cache l.needle (by assumption : FlatUnixFs).links (by assumption) c c'
            refine ⟨this.1, fun k h => ?_⟩
            rcases this.2 k h with h | h
            · exact hc k h
            · exact h

end Verif.Props
