import Verif.Props.Resolve
import Verif.Spec.LevelOrder
/-
C125: the order in which a look-up asks for the shards of a directory, and which entry it finds.
-/
namespace Verif.Props
open Verif Verif.Spec Verif.Examples

theorem levelOrder_succ (get : Cid → Option Bytes) (first : List Cid) (n : Nat) :
    levelOrder get first (n + 1) = levelOrder get first n ++ levelOf get first n := by
  simp [levelOrder, List.range_succ]

theorem levelOrder_prefix (get : Cid → Option Bytes) (first : List Cid) (n k : Nat) :
    levelOrder get first n <+: levelOrder get first (n + k) := by
  induction k with
  | zero => exact List.prefix_refl _
  | succ k ih => rw [← Nat.add_assoc, levelOrder_succ]; exact ih.trans (List.prefix_append _ _)

theorem levelOf_empty {get : Cid → Option Bytes} {first : List Cid} {n : Nat} (h : levelOf get first n = []) (k : Nat) :
    levelOf get first (n + k) = [] := by
  induction k with
  | zero => exact h
  | succ k ih => rw [← Nat.add_assoc, levelOf, ih]; rfl

theorem levelOrder_empty {get : Cid → Option Bytes} {first : List Cid} {n : Nat} (h : levelOf get first n = []) (k : Nat) :
    levelOrder get first (n + k) = levelOrder get first n := by
  induction k with
  | zero => rfl
  | succ k ih => rw [← Nat.add_assoc, levelOrder_succ, ih, levelOf_empty h]; simp

/-- `done` has been asked for, and `links` are pending. -/
def Level (get : Cid → Option Bytes) (first done links : List Cid) : Prop :=
  ∃ n used rest, done = levelOrder get first n ++ used ∧ levelOf get first n = used ++ rest ∧ links = rest ++ used.flatMap (bucketsOf get)

theorem Level.start (get : Cid → Option Bytes) (first : List Cid) : Level get first [] first :=
  ⟨0, [], first, rfl, rfl, by simp⟩

theorem Level.next {get : Cid → Option Bytes} {first q R : List Cid} {c : Cid} (h : Level get first q (c :: R)) :
    Level get first (q ++ [c]) (R ++ bucketsOf get c) := by
  obtain ⟨n, used, rest, h1, h2, h3⟩ := h
  cases rest with
  | cons d rest =>
    simp only [List.cons_append, List.cons.injEq] at h3
    obtain ⟨rfl, rfl⟩ := h3
    exact ⟨n, used ++ [c], rest, by rw [h1]; simp, by rw [h2]; simp, by simp⟩
  | nil =>
    simp only [List.append_nil, List.nil_append] at h2 h3
    refine ⟨n + 1, [c], R, ?_, ?_, by simp⟩
    · rw [h1, levelOrder_succ, h2]
    · rw [levelOf, h2, ← h3]; rfl

theorem Level.prefix {get : Cid → Option Bytes} {first q links : List Cid} (h : Level get first q links) :
    ∃ n, q ++ links <+: levelOrder get first n := by
  obtain ⟨n, used, rest, h1, h2, h3⟩ := h
  refine ⟨n + 2, ?_⟩
  rw [levelOrder_succ, levelOrder_succ, levelOf, h2, h1, h3]
  exact ⟨rest.flatMap (bucketsOf get), by simp⟩

theorem Level.done {get : Cid → Option Bytes} {first q : List Cid} (h : Level get first q []) :
    ∃ n, q = levelOrder get first n ∧ levelOf get first n = [] := by
  obtain ⟨n, used, rest, h1, h2, h3⟩ := h
  have h4 := List.append_eq_nil_iff.1 h3.symm
  obtain ⟨rfl, h4⟩ := h4
  simp only [List.append_nil] at h2
  refine ⟨n + 1, ?_, ?_⟩
  · rw [levelOrder_succ, h1, h2]
  · rw [levelOf, h2, h4]

theorem bucketsOf_eq {get : Cid → Option Bytes} {c : Cid} {b : Bytes} {m : FlatUnixFs} (hg : get c = some b) (hm : FlatUnixFs.tryParse b = .ok m) :
    bucketsOf get c = bucketCids m.links := by
  unfold bucketsOf
  rw [hg]
  simp only [hm]

theorem quiet_noEntry {needle block : Bytes} {m : FlatUnixFs} (hm : FlatUnixFs.tryParse block = .ok m) (h : Quiet needle m.links) :
    NoEntry block needle := by
  intro m' l hm' hl
  rw [hm] at hm'
  cases hm'
  exact (h l hl).2.1

theorem asked_looking {get : Cid → Option Bytes} {block needle : Bytes} {q : List Cid} {l : ShardedLookup} (h : Asked get block needle q l) :
    Looking needle l := by
  induction h with
  | start _ h => exact .start h
  | more _ _ _ h ih => exact .more ih h
  | owned _ ih => exact .owned ih

/-- What continuing a look-up with a block gives. -/
theorem continue_cases {needle : Bytes} {l : ShardedLookup} (hl : Looking needle l) {c : Cid} {rest : List Cid}
    (hp : l.pendingLinks = .ok (c, rest)) {b : Bytes} {cache cache' : Option LookupCache} {r : MaybeResolved}
    (h : l.continueWalk b cache = (.ok r, cache')) :
    ∃ m, FlatUnixFs.tryParse b = .ok m ∧ ShardNode m ∧ ShardRead needle rest m.links (.ok r) := by
  obtain ⟨f', q', hp', hiff⟩ := C65_continue needle l hl b cache (.ok r)
  rw [hp] at hp'
  cases hp'
  rw [looking_needle hl] at hiff
  have hb := hiff.1 (by rw [h])
  cases hb with
  | @shard m _ hm ht hs =>
    cases hs with
    | @links _ hsn hr => exact ⟨m, hm, hsn, hr⟩

/-- What `resolve` gives when more blocks are needed. -/
theorem resolve_more {block needle : Bytes} {cache cache' : Option LookupCache} (hc : CleanCache cache) {l : ShardedLookup}
    (h : resolve block needle cache = (.ok (.NeedToLoadMore l), cache')) :
    ∃ m, FlatUnixFs.tryParse block = .ok m ∧ ShardNode m ∧ ShardRead needle [] m.links (.ok (.NeedToLoadMore l)) := by
  have h1 : (resolve block needle cache).1 = .ok (.NeedToLoadMore l) := by rw [h]
  have key : ∃ m, FlatUnixFs.tryParse block = .ok m ∧ m.data.Ty = .HAMTShard := by
    rcases resolve_ok h1 with ⟨links, hpl⟩ | h2
    · exfalso
      have := congrArg Prod.fst (resolve_plain hpl needle cache)
      rw [h1] at this
      revert this
      unfold resolveInLinks
      repeat' split
      all_goals simp
    · exact h2
  obtain ⟨m, hm, ht⟩ := key
  have := (C65_resolve block needle cache hc m hm ht (.ok (.NeedToLoadMore l))).1 h1
  cases this with
  | @links _ hsn hr => exact ⟨m, hm, hsn, hr⟩

theorem asked_level {get : Cid → Option Bytes} {block needle : Bytes} {q : List Cid} {l : ShardedLookup} (h : Asked get block needle q l) :
    ∃ m, FlatUnixFs.tryParse block = .ok m ∧ ShardNode m ∧ Level get (bucketCids m.links) q l.links ∧ NoEntry block needle ∧
      (∀ c ∈ q, ∃ b, get c = some b ∧ NoEntry b needle) := by
  induction h with
  | start hc h =>
    obtain ⟨m, hm, hsn, hr⟩ := resolve_more hc h
    cases hr with
    | more e1 e2 =>
      refine ⟨m, hm, hsn, ?_, quiet_noEntry hm e1, by simp⟩
      exact Level.start _ _
  | owned _ ih => exact ih
  | more ha hp hg h ih =>
    obtain ⟨m, hm, hsn, hlev, hno, hall⟩ := ih
    obtain ⟨m', hm', -, hr⟩ := continue_cases (asked_looking ha) hp h
    rw [pending_links hp] at hlev
    cases hr with
    | more e1 e2 =>
      refine ⟨m, hm, hsn, ?_, hno, ?_⟩
      · have := hlev.next
        rw [bucketsOf_eq hg hm'] at this
        exact this
      · intro c hc
        rcases List.mem_append.1 hc with hc | hc
        · exact hall c hc
        · rw [List.mem_singleton.1 hc]
          exact ⟨_, hg, quiet_noEntry hm' e1⟩

/-- C125. At every point of a look-up, what was asked for and what is going to be asked for next are the shards of the directory in
the order of the levels; and neither the root nor any block seen so far has an entry of the name. -/
theorem C125_order (get : Cid → Option Bytes) (block needle : Bytes) (q : List Cid) (l : ShardedLookup) (h : Asked get block needle q l) :
    ∃ m c rest n, FlatUnixFs.tryParse block = .ok m ∧ l.pendingLinks = .ok (c, rest) ∧
      q ++ c :: rest <+: levelOrder get (bucketCids m.links) n ∧
      NoEntry block needle ∧ ∀ d ∈ q, ∃ b, get d = some b ∧ NoEntry b needle := by
  obtain ⟨m, hm, hsn, hlev, hno, hall⟩ := asked_level h
  obtain ⟨n, hn⟩ := hlev.prefix
  obtain ⟨c, rest, hp, -⟩ := C65_continue needle l (asked_looking h) [] none (.ok .NotFound)
  rw [pending_links hp] at hn
  exact ⟨m, c, rest, n, hm, hp, hn, hno, hall⟩

/-- The last step of a look-up: what is found is an entry of the block which was given last. -/
theorem C125_found (get : Cid → Option Bytes) (block needle : Bytes) (q : List Cid) (l : ShardedLookup) (h : Asked get block needle q l)
    (c d : Cid) (rest : List Cid) (b : Bytes) (cache cache' : Option LookupCache) (hp : l.pendingLinks = .ok (c, rest)) (_hg : get c = some b)
    (hs : l.continueWalk b cache = (.ok (.Found d), cache')) : HasEntry b needle d := by
  obtain ⟨m, hm, -, hr⟩ := continue_cases (asked_looking h) hp hs
  cases hr with
  | found e1 e2 e3 e4 e5 => exact ⟨m, _, hm, by rw [e1]; simp, e3, e4⟩

/-- The answer that there is no such entry comes when all levels have been asked for. -/
theorem C125_notFound (get : Cid → Option Bytes) (block needle : Bytes) (q : List Cid) (l : ShardedLookup) (h : Asked get block needle q l)
    (c : Cid) (rest : List Cid) (b : Bytes) (cache cache' : Option LookupCache) (hp : l.pendingLinks = .ok (c, rest)) (hg : get c = some b)
    (hs : l.continueWalk b cache = (.ok .NotFound, cache')) :
    ∃ m n, FlatUnixFs.tryParse block = .ok m ∧ q ++ [c] = levelOrder get (bucketCids m.links) n ∧ levelOf get (bucketCids m.links) n = [] ∧
      NoEntry b needle := by
  obtain ⟨m, hm, hsn, hlev, hno, hall⟩ := asked_level h
  obtain ⟨m', hm', -, hr⟩ := continue_cases (asked_looking h) hp hs
  rw [pending_links hp] at hlev
  cases hr with
  | notFound e1 e2 =>
    have := hlev.next
    rw [bucketsOf_eq hg hm', e2] at this
    obtain ⟨n, h1, h2⟩ := this.done
    exact ⟨m, n, hm, h1, h2, quiet_noEntry hm' e1⟩

theorem asked_run {get : Cid → Option Bytes} {block needle : Bytes} {l : ShardedLookup} {cache : Option LookupCache} {r}
    (h : lookupFrom get l cache = some r) : ∀ q, Asked get block needle q l → ∀ x q', r = .ok (x, q') →
      ∃ q1 l1 c rest b cache cache', q ++ q' = q1 ++ [c] ∧ Asked get block needle q1 l1 ∧ l1.pendingLinks = .ok (c, rest) ∧ get c = some b ∧
        l1.continueWalk b cache = (.ok (match x with | some d => .Found d | none => .NotFound), cache') := by
  refine lookupFrom.partial_correctness get
    (fun l _ r => ∀ q, Asked get block needle q l → ∀ x q', r = .ok (x, q') →
      ∃ q1 l1 c rest b cache cache', q ++ q' = q1 ++ [c] ∧ Asked get block needle q1 l1 ∧ l1.pendingLinks = .ok (c, rest) ∧ get c = some b ∧
        l1.continueWalk b cache = (.ok (match x with | some d => .Found d | none => .NotFound), cache')) ?_ l cache r h
  intro rec ih l c r h q hl x q' hr
  subst hr
  cases hp : l.pendingLinks with
  | panic p => simp [hp] at h
  | err e => simp [hp] at h
  | ok fr =>
    obtain ⟨first, rest⟩ := fr
    simp only [hp] at h
    cases hg : get first with
    | none => simp [hg] at h
    | some b =>
      simp only [hg] at h
      rcases hk : l.continueWalk b c with ⟨y, c1⟩
      rw [hk] at h
      cases y with
      | panic p => simp at h
      | err e => simp at h
      | ok mr =>
        cases mr with
        | NotFound =>
          cases h
          exact ⟨q, l, first, rest, b, c, c1, rfl, hl, hp, hg, hk⟩
        | Found d =>
          cases h
          exact ⟨q, l, first, rest, b, c, c1, rfl, hl, hp, hg, hk⟩
        | NeedToLoadMore l' =>
          simp only at h
          cases hrec : rec l' c1 with
          | none => rw [hrec] at h; cases h
          | some r' =>
            rw [hrec] at h
            cases r' with
            | panic p => cases h
            | err e => cases h
            | ok xq =>
              obtain ⟨x', q''⟩ := xq
              cases h
              obtain ⟨q1, l1, c2, rest2, b2, k, k', e, e2⟩ := ih _ _ _ hrec (q ++ [first]) (.more hl hp hg hk) x' q'' rfl
              exact ⟨q1, l1, c2, rest2, b2, k, k', by rw [← e]; simp, e2⟩

/-- Whole look-ups in a sharded directory. Found: the entry is in the root, and nothing was asked for; or it is in the block which was
asked for last, no block before it (in the order of the levels) has an entry of the name, and blocks after it were not asked for.
Not found: all shards were asked for, level by level, and none has an entry of the name. -/
theorem C125_lookup (get : Cid → Option Bytes) (block needle : Bytes) (cache : Option LookupCache) (hc : CleanCache cache) (m : FlatUnixFs)
    (hm : FlatUnixFs.tryParse block = .ok m) (ht : m.data.Ty = .HAMTShard) (q : List Cid) :
    (∀ d, lookupName get block needle cache = some (.ok (some d, q)) →
      (q = [] ∧ HasEntry block needle d) ∨
      ∃ q' c b n, q = q' ++ [c] ∧ q <+: levelOrder get (bucketCids m.links) n ∧ get c = some b ∧ HasEntry b needle d ∧
        NoEntry block needle ∧ ∀ e ∈ q', ∃ b, get e = some b ∧ NoEntry b needle) ∧
    (lookupName get block needle cache = some (.ok (none, q)) →
      ∃ n, q = levelOrder get (bucketCids m.links) n ∧ levelOf get (bucketCids m.links) n = [] ∧
        NoEntry block needle ∧ ∀ e ∈ q, ∃ b, get e = some b ∧ NoEntry b needle) := by
  unfold lookupName
  rcases hk : resolve block needle cache with ⟨y, c1⟩
  cases y with
  | panic p => exact ⟨(fun d h => by cases h), (fun h => by cases h)⟩
  | err e => exact ⟨(fun d h => by cases h), (fun h => by cases h)⟩
  | ok mr =>
    have hread : ShardNodeRead needle [] m (.ok mr) :=
      (C65_resolve block needle cache hc m hm ht (.ok mr)).1 (by rw [hk]; rfl)
    cases hread with
    | @links _ hsn hr =>
    cases mr with
    | Found x =>
      refine ⟨fun d h => ?_, fun h => by cases h⟩
      cases h
      cases hr with
      | found e1 e2 e3 e4 e5 => exact .inl ⟨rfl, m, _, hm, by rw [e1]; simp, e3, e4⟩
    | NotFound =>
      refine ⟨(fun d h => by cases h), fun h => ?_⟩
      cases h
      cases hr with
      | notFound e1 e2 => exact ⟨0, rfl, e2, quiet_noEntry hm e1, by simp⟩
    | NeedToLoadMore l =>
      have hl : Asked get block needle [] l := .start hc hk
      refine ⟨fun d h => ?_, fun h => ?_⟩
      · obtain ⟨q1, l1, c, rest, b, k, k', he, h1, h2, h3, h4⟩ := asked_run h [] hl (some d) q rfl
        rw [List.nil_append] at he
        subst he
        obtain ⟨m', c', rest', n, hm', hp', hpre, hno, hall⟩ := C125_order get block needle q1 l1 h1
        rw [hm] at hm'; cases hm'
        rw [h2] at hp'; cases hp'
        refine .inr ⟨q1, c, b, n, rfl, ?_, h3, C125_found get block needle q1 l1 h1 c d rest b k k' h2 h3 h4, hno, hall⟩
        refine List.IsPrefix.trans ?_ hpre
        exact ⟨rest, by simp⟩
      · obtain ⟨q1, l1, c, rest, b, k, k', he, h1, h2, h3, h4⟩ := asked_run h [] hl none q rfl
        rw [List.nil_append] at he
        subst he
        obtain ⟨m', n, hm', e1, e2, e3⟩ := C125_notFound get block needle q1 l1 h1 c rest b k k' h2 h3 h4
        rw [hm] at hm'; cases hm'
        obtain ⟨m', c', rest', n', hm', hp', hpre, hno, hall⟩ := C125_order get block needle q1 l1 h1
        refine ⟨n, e1, e2, hno, ?_⟩
        intro e he
        rcases List.mem_append.1 he with he | he
        · exact hall e he
        · rw [List.mem_singleton.1 he]; exact ⟨b, h3, e3⟩

/-- Directories which are not sharded: nothing is ever asked for. -/
theorem C125_plain (get : Cid → Option Bytes) (block needle : Bytes) (cache : Option LookupCache)
    (hns : ∀ m, FlatUnixFs.tryParse block = .ok m → m.data.Ty ≠ .HAMTShard) :
    ∃ r, lookupName get block needle cache = some r ∧ (∀ x q, r = .ok (x, q) → q = []) ∧ ∀ c, r ≠ .err (.missing c) := by
  unfold lookupName
  rcases hk : resolve block needle cache with ⟨y, c1⟩
  cases y with
  | panic p => exact ⟨_, rfl, by simp, by simp⟩
  | err e => exact ⟨_, rfl, by simp, by simp⟩
  | ok mr =>
    cases mr with
    | Found x => exact ⟨_, rfl, by simp, by simp⟩
    | NotFound => exact ⟨_, rfl, by simp, by simp⟩
    | NeedToLoadMore l =>
      exfalso
      rcases resolve_ok (block := block) (name := needle) (cache := cache) (r := .NeedToLoadMore l) (by rw [hk]) with ⟨links, hpl⟩ | ⟨m, hm, ht⟩
      · have := congrArg Prod.fst (resolve_plain hpl needle cache)
        rw [hk] at this
        revert this
        unfold resolveInLinks
        repeat' split
        all_goals simp
      · exact hns m hm ht

/-- Look-ups of two names, neither of which is there, ask for the same shards in the same order. -/
theorem C125_same (get : Cid → Option Bytes) (block : Bytes) (needle needle' : Bytes) (cache cache' : Option LookupCache) (hc : CleanCache cache)
    (hc' : CleanCache cache') (q q' : List Cid) (h : lookupName get block needle cache = some (.ok (none, q)))
    (h' : lookupName get block needle' cache' = some (.ok (none, q'))) : q = q' := by
  by_cases hs : ∃ m, FlatUnixFs.tryParse block = .ok m ∧ m.data.Ty = .HAMTShard
  · obtain ⟨m, hm, ht⟩ := hs
    obtain ⟨n, h1, h2, -⟩ := (C125_lookup get block needle cache hc m hm ht q).2 h
    obtain ⟨n', h1', h2', -⟩ := (C125_lookup get block needle' cache' hc' m hm ht q').2 h'
    rcases Nat.le_total n n' with hle | hle
    · obtain ⟨k, rfl⟩ := Nat.exists_eq_add_of_le hle
      rw [h1, h1', levelOrder_empty h2]
    · obtain ⟨k, rfl⟩ := Nat.exists_eq_add_of_le hle
      rw [h1, h1', levelOrder_empty h2']
  · have hns : ∀ m, FlatUnixFs.tryParse block = .ok m → m.data.Ty ≠ .HAMTShard := fun m hm ht => hs ⟨m, hm, ht⟩
    obtain ⟨r, hr, hq, -⟩ := C125_plain get block needle cache hns
    obtain ⟨r', hr', hq', -⟩ := C125_plain get block needle' cache' hns
    rw [h] at hr; cases hr
    rw [h'] at hr'; cases hr'
    rw [hq _ _ rfl, hq' _ _ rfl]

/-! A directory with two shards in the root, the first of which has a further one. The name `y` is in two of them. -/

def shardBlock (links : List PBLink) : Bytes := (FlatUnixFs.mk links { Ty := .HAMTShard, hashType := some 34, fanout := some 256 }).write
def bucketLink (k : UInt8) (b : Bytes) : PBLink := ⟨some (cidOf toySha b).toBytes, some [0x30, k], some 7⟩
def entryLink (k : UInt8) (name b : Bytes) : PBLink := ⟨some (cidOf toySha b).toBytes, some (0x30 :: k :: name), some 7⟩

def deepShard : Bytes := shardBlock [entryLink 0x30 [120] [1], entryLink 0x31 [121] [2]]
def leftShard : Bytes := shardBlock [bucketLink 0x32 deepShard]
def rightShard : Bytes := shardBlock [entryLink 0x33 [121] [3]]
def topShard : Bytes := shardBlock [bucketLink 0x34 leftShard, bucketLink 0x35 rightShard]
def levelGet : Cid → Option Bytes := fun c =>
  if c = cidOf toySha deepShard then some deepShard
  else if c = cidOf toySha leftShard then some leftShard
  else if c = cidOf toySha rightShard then some rightShard else none

theorem lookupFrom_step {get : Cid → Option Bytes} {l l' : ShardedLookup} {cache cache' : Option LookupCache} {c : Cid} {rest : List Cid} {b : Bytes} {x q}
    (hp : l.pendingLinks = .ok (c, rest)) (hg : get c = some b) (hk : l.continueWalk b cache = (.ok (.NeedToLoadMore l'), cache'))
    (h : lookupFrom get l' cache' = some (.ok (x, q))) : lookupFrom get l cache = some (.ok (x, c :: q)) := by
  rw [lookupFrom.eq_1]
  simp only [hp, hg, hk, h]
  rfl

theorem lookupFrom_last {get : Cid → Option Bytes} {l : ShardedLookup} {cache cache' : Option LookupCache} {c : Cid} {rest : List Cid} {b : Bytes} {x}
    (hp : l.pendingLinks = .ok (c, rest)) (hg : get c = some b)
    (hk : l.continueWalk b cache = (.ok (match x with | some d => .Found d | none => .NotFound), cache')) :
    lookupFrom get l cache = some (.ok (x, [c])) := by
  rw [lookupFrom.eq_1]
  cases x <;> simp only [hp, hg, hk]

/-- `x` is found in the deep shard, after all others; of the two entries `y` the one on the higher level is found, although the other is
further to the left; for a name which is not there, all are asked for. -/
theorem C125_example :
    lookupName levelGet topShard [120] none =
      some (.ok (some (cidOf toySha [1]), [cidOf toySha leftShard, cidOf toySha rightShard, cidOf toySha deepShard])) ∧
    lookupName levelGet topShard [121] none =
      some (.ok (some (cidOf toySha [3]), [cidOf toySha leftShard, cidOf toySha rightShard])) ∧
    lookupName levelGet topShard [122] none =
      some (.ok (none, [cidOf toySha leftShard, cidOf toySha rightShard, cidOf toySha deepShard])) ∧
    ∃ m, FlatUnixFs.tryParse topShard = .ok m ∧ m.data.Ty = .HAMTShard ∧
      levelOrder levelGet (bucketCids m.links) 2 = [cidOf toySha leftShard, cidOf toySha rightShard, cidOf toySha deepShard] := by
  have hres : ∀ n ∈ [[120], [121], [122]], resolve topShard n none =
      (.ok (.NeedToLoadMore ⟨[cidOf toySha leftShard, cidOf toySha rightShard], n⟩), none) := by decide +kernel
  have hleft : ∀ n ∈ [[120], [121], [122]],
      ShardedLookup.continueWalk ⟨[cidOf toySha leftShard, cidOf toySha rightShard], n⟩ leftShard none =
      (.ok (.NeedToLoadMore ⟨[cidOf toySha rightShard, cidOf toySha deepShard], n⟩), none) := by decide +kernel
  have hright : ∀ n ∈ [[120], [122]], ShardedLookup.continueWalk ⟨[cidOf toySha rightShard, cidOf toySha deepShard], n⟩ rightShard none =
      (.ok (.NeedToLoadMore ⟨[cidOf toySha deepShard], n⟩), none) := by decide +kernel
  have gl : levelGet (cidOf toySha leftShard) = some leftShard := by decide +kernel
  have gr : levelGet (cidOf toySha rightShard) = some rightShard := by decide +kernel
  have gd : levelGet (cidOf toySha deepShard) = some deepShard := by decide +kernel
  refine ⟨?_, ?_, ?_, ?_⟩
  · unfold lookupName
    rw [hres _ (by simp)]
    exact lookupFrom_step rfl gl (hleft _ (by simp)) (lookupFrom_step rfl gr (hright _ (by simp))
      (lookupFrom_last (x := some (cidOf toySha [1])) (cache' := some {}) rfl gd (by decide +kernel)))
  · unfold lookupName
    rw [hres _ (by simp)]
    exact lookupFrom_step rfl gl (hleft _ (by simp))
      (lookupFrom_last (x := some (cidOf toySha [3])) (cache' := some {}) rfl gr (by decide +kernel))
  · unfold lookupName
    rw [hres _ (by simp)]
    exact lookupFrom_step rfl gl (hleft _ (by simp)) (lookupFrom_step rfl gr (hright _ (by simp))
      (lookupFrom_last (x := none) (cache' := some {}) rfl gd (by decide +kernel)))
  · exact ⟨FlatUnixFs.mk [bucketLink 0x34 leftShard, bucketLink 0x35 rightShard] { Ty := .HAMTShard, hashType := some 34, fanout := some 256 },
      by decide +kernel, rfl, by decide +kernel⟩

end Verif.Props
