import Verif.Examples
import Verif.Spec.Resolving
import Verif.Spec.Stores
import Verif.Props.DirExact
/-
Property C73: what `examples/resolve.rs` answers; C77: what a lookup of a name answers for arbitrary blocks.
-/
namespace Verif.Props
open Verif Verif.Spec Verif.Examples

/-- A cache which can be obtained: it is empty. -/
def CleanCache (c : Option LookupCache) : Prop := ∀ k, c = some k → k.buffer = []

theorem cleanCache_none : CleanCache none := by intro k h; cases h

theorem resolve_clean {block needle c} (h : CleanCache c) : CleanCache (resolve block needle c).2 :=
  (C25_lookup_cache block needle c c h h).2.1

theorem continue_clean {l : ShardedLookup} {block c} (h : CleanCache c) : CleanCache (l.continueWalk block c).2 :=
  ((C25_lookup_cache block [] c c h h).2.2 l).2

theorem continue_same {l : ShardedLookup} {block c c'} (h : CleanCache c) (h' : CleanCache c') :
    (l.continueWalk block c).1 = (l.continueWalk block c').1 := ((C25_lookup_cache block [] c c' h h').2.2 l).1

/-- The outcome of the lookup of one name, as the example reports it. -/
def reported : Res LookupFail (Option Cid × List Cid) → Res ResolveFail (Option Cid)
  | .ok (x, _) => .ok x
  | .err (.missing _) => .err .OpeningFailed
  | .err (.resolving e) => .err (.Traversal e)
  | .err .noLinks => .ok none
  | .panic p => .panic p

theorem reported_map (c : Cid) (r : Res LookupFail (Option Cid × List Cid)) :
    reported (r.map (fun (x, q) => (x, c :: q))) = reported r := by
  cases r with
  | ok r => rfl
  | err e => cases e <;> rfl
  | panic p => rfl

theorem resolveLoop_of {get : Cid → Option Bytes} {l : ShardedLookup} {c : Option LookupCache} {r}
    (h : lookupFrom get l c = some r) : CleanCache c → ∀ c0, CleanCache c0 →
      ∃ c', resolveLoop get l c0 = some (reported r, c') ∧ CleanCache c' := by
  refine lookupFrom.partial_correctness get
    (fun l c r => CleanCache c → ∀ c0, CleanCache c0 → ∃ c', resolveLoop get l c0 = some (reported r, c') ∧ CleanCache c') ?_ l c r h
  intro rec ih l c r h hc c0 hc0
  rw [resolveLoop.eq_1]
  cases hp : l.pendingLinks with
  | panic p => simp only [hp, Option.some.injEq] at h ⊢; subst h; exact ⟨_, rfl, hc0⟩
  | err e => simp only [hp, Option.some.injEq] at h ⊢; subst h; exact ⟨_, rfl, hc0⟩
  | ok fr =>
    obtain ⟨first, rest⟩ := fr
    simp only [hp] at h ⊢
    cases hg : get first with
    | none => simp only [hg, Option.some.injEq] at h ⊢; subst h; exact ⟨_, rfl, hc0⟩
    | some block =>
      simp only [hg] at h ⊢
      have e1 := continue_same (l := l) (block := block) hc0 hc
      have e2 := continue_clean (l := l) (block := block) hc0
      have e3 := continue_clean (l := l) (block := block) hc
      rcases hk : l.continueWalk block c with ⟨x, c1⟩
      rcases hk0 : l.continueWalk block c0 with ⟨x0, c2⟩
      rw [hk, hk0] at e1
      rw [hk0] at e2
      rw [hk] at e3 h
      obtain rfl : x0 = x := e1
      cases x0 with
      | panic p => simp only [Option.some.injEq] at h ⊢; subst h; exact ⟨_, rfl, e2⟩
      | err e => simp only [Option.some.injEq] at h ⊢; subst h; exact ⟨_, rfl, e2⟩
      | ok mr =>
        cases mr with
        | NotFound => simp only [Option.some.injEq] at h ⊢; subst h; exact ⟨_, rfl, e2⟩
        | Found d => simp only [Option.some.injEq] at h ⊢; subst h; exact ⟨_, rfl, e2⟩
        | NeedToLoadMore l' =>
          simp only at h ⊢
          cases hr : rec l' c1 with
          | none => rw [hr] at h; cases h
          | some r' =>
            rw [hr] at h
            obtain rfl := Option.some.inj h
            rw [reported_map]
            exact ih _ _ _ hr e3 _ e2

theorem lookupFrom_of {get : Cid → Option Bytes} {l : ShardedLookup} {c : Option LookupCache} {r}
    (h : resolveLoop get l c = some r) : ∀ c0, CleanCache c → CleanCache c0 → ∃ r', lookupFrom get l c0 = some r' := by
  refine resolveLoop.partial_correctness get
    (fun l c _ => ∀ c0, CleanCache c → CleanCache c0 → ∃ r', lookupFrom get l c0 = some r') ?_ l c r h
  intro rec ih l c r h c0 hc hc0
  rw [lookupFrom.eq_1]
  cases hp : l.pendingLinks with
  | panic p => exact ⟨_, rfl⟩
  | err e => exact ⟨_, rfl⟩
  | ok fr =>
    obtain ⟨first, rest⟩ := fr
    simp only [hp] at h ⊢
    cases hg : get first with
    | none => exact ⟨_, rfl⟩
    | some block =>
      simp only [hg] at h ⊢
      have e1 := continue_same (l := l) (block := block) hc0 hc
      have e2 := continue_clean (l := l) (block := block) hc0
      have e3 := continue_clean (l := l) (block := block) hc
      rcases hk : l.continueWalk block c with ⟨x, c1⟩
      rcases hk0 : l.continueWalk block c0 with ⟨x0, c2⟩
      rw [hk, hk0] at e1
      rw [hk0] at e2
      rw [hk] at e3 h
      obtain rfl : x0 = x := e1
      cases x0 with
      | panic p => exact ⟨_, rfl⟩
      | err e => exact ⟨_, rfl⟩
      | ok mr =>
        cases mr with
        | NotFound => exact ⟨_, rfl⟩
        | Found d => exact ⟨_, rfl⟩
        | NeedToLoadMore l' =>
          simp only at h ⊢
          obtain ⟨r', hr⟩ := ih _ _ _ h c2 e3 e2
          rw [hr]
          exact ⟨_, rfl⟩

/-- The example is an iteration of single lookups: every segment is looked up, with a fresh cache, in what was found before. -/
theorem C73_segment (get : Cid → Option Bytes) (d : Cid) (cache : Option LookupCache) (hc : CleanCache cache) (name : Bytes)
    (names : List Bytes) :
    resolveSegments get d cache (name :: names) =
      match get d with
      | none => some (.err .OpeningFailed)
      | some block =>
        match lookupName get block name none with
        | none => none
        | some r =>
          match reported r with
          | .ok (some c) => resolveSegments get c none names
          | x => some x := by
  have indep : ∀ (names : List Bytes) (d : Cid) (c c' : Option LookupCache), CleanCache c → CleanCache c' →
      resolveSegments get d c names = resolveSegments get d c' names := by
    intro names
    induction names with
    | nil => intro d c c' _ _; rfl
    | cons n names ih =>
      intro d c c' h h'
      unfold resolveSegments
      cases hg : get d with
      | none => rfl
      | some block =>
        simp only
        have e1 := (C25_lookup_cache block n c c' h h').1
        have e2 := resolve_clean (block := block) (needle := n) h
        have e3 := resolve_clean (block := block) (needle := n) h'
        rcases hk : resolve block n c with ⟨x, c1⟩
        rcases hk' : resolve block n c' with ⟨x', c2⟩
        rw [hk, hk'] at e1
        rw [hk] at e2
        rw [hk'] at e3
        obtain rfl : x = x' := e1
        cases x with
        | panic p => rfl
        | err e => rfl
        | ok mr =>
          cases mr with
          | NotFound => rfl
          | Found y => exact ih _ _ _ e2 e3
          | NeedToLoadMore l =>
            simp only
            cases hl : lookupFrom get l none with
            | none =>
              have no : ∀ c, CleanCache c → resolveLoop get l c = none := by
                intro c hc
                cases hr : resolveLoop get l c with
                | none => rfl
                | some r =>
                  obtain ⟨r', h'⟩ := lookupFrom_of hr none hc cleanCache_none
                  rw [hl] at h'; cases h'
              rw [no _ e2, no _ e3]
            | some r =>
              obtain ⟨k1, g1, g2⟩ := resolveLoop_of hl cleanCache_none _ e2
              obtain ⟨k2, g3, g4⟩ := resolveLoop_of hl cleanCache_none _ e3
              rw [g1, g3]
              cases reported r with
              | panic p => rfl
              | err e => rfl
              | ok o =>
                cases o with
                | none => rfl
                | some y => exact ih _ _ _ g2 g4
  rw [indep _ _ cache none hc cleanCache_none]
  rw [resolveSegments]
  cases hg : get d with
  | none => rfl
  | some block =>
    simp only
    unfold lookupName
    have e2 := resolve_clean (block := block) (needle := name) cleanCache_none
    rcases hk : resolve block name none with ⟨x, c1⟩
    rw [hk] at e2
    cases x with
    | panic p => rfl
    | err e => rfl
    | ok mr =>
      cases mr with
      | NotFound => rfl
      | Found y => exact indep _ _ _ _ e2 cleanCache_none
      | NeedToLoadMore l =>
        simp only
        cases hl : lookupFrom get l c1 with
        | none =>
          cases hr : resolveLoop get l c1 with
          | none => rfl
          | some r =>
            obtain ⟨r', h'⟩ := lookupFrom_of hr c1 e2 e2
            rw [hl] at h'; cases h'
        | some r =>
          obtain ⟨k1, g1, g2⟩ := resolveLoop_of hl e2 _ e2
          rw [g1]
          cases hr : reported r with
          | panic p => simp only [hr]
          | err e => simp only [hr]
          | ok o =>
            cases o with
            | none => simp only [hr]
            | some y => simp only [hr]; exact indep _ _ _ _ g2 cleanCache_none

/-! ### C77: one name, arbitrary blocks -/

theorem bucketCids_mem {links : List PBLink} {b : Cid} : b ∈ bucketCids links ↔
    ∃ l ∈ links, IsBucket l ∧ Cid.tryFrom (l.Hash.getD []) = .ok b := by
  unfold bucketCids IsBucket
  simp only [List.mem_filterMap, List.mem_filter, decide_eq_true_eq, and_assoc]
  constructor
  · rintro ⟨l, h1, h2, h3⟩
    refine ⟨l, h1, h2, ?_⟩
    cases h : Cid.tryFrom (l.Hash.getD []) with
    | ok c => rw [h] at h3; simp only [Except.toOption, Option.some.injEq] at h3; rw [h3]
    | error e => rw [h] at h3; cases h3
  · rintro ⟨l, h1, h2, h3⟩
    exact ⟨l, h1, h2, by rw [h3]; rfl⟩

theorem pending_links {l : ShardedLookup} {c queue} (h : l.pendingLinks = .ok (c, queue)) : l.links = c :: queue := by
  unfold ShardedLookup.pendingLinks at h
  split at h
  · cases h; assumption
  · cases h

/-- What is found in the shards which are still to be read is an entry of one of them. -/
theorem lookupFrom_found {get : Cid → Option Bytes} {needle : Bytes} {l : ShardedLookup} {c : Option LookupCache} {r}
    (h : lookupFrom get l c = some r) : Looking needle l → ∀ x q, r = .ok (some x, q) →
      ∃ b ∈ l.links, ∃ block m, get b = some block ∧ FlatUnixFs.tryParse block = .ok m ∧ ShardNode m ∧ InShard get needle m.links x := by
  refine lookupFrom.partial_correctness get
    (fun l _ r => Looking needle l → ∀ x q, r = .ok (some x, q) →
      ∃ b ∈ l.links, ∃ block m, get b = some block ∧ FlatUnixFs.tryParse block = .ok m ∧ ShardNode m ∧ InShard get needle m.links x)
    ?_ l c r h
  intro rec ih l c r h hl x q hr
  subst hr
  cases hp : l.pendingLinks with
  | panic p => simp [hp] at h
  | err e => simp [hp] at h
  | ok fr =>
    obtain ⟨first, rest⟩ := fr
    have hlinks := pending_links hp
    simp only [hp] at h
    cases hg : get first with
    | none => simp [hg] at h
    | some block =>
      simp only [hg] at h
      rcases hk : l.continueWalk block c with ⟨y, c1⟩
      rw [hk] at h
      obtain ⟨f', q', hp', hiff⟩ := C65_continue needle l hl block c y
      rw [hp] at hp'
      cases hp'
      rw [looking_needle hl] at hiff
      have hb := hiff.1 (by rw [hk])
      cases y with
      | panic p => simp at h
      | err e => simp at h
      | ok mr =>
        cases hb with
        | shard hm ht hs =>
          cases hs with
          | @links _ hsn hr =>
          cases mr with
          | NotFound => simp at h
          | Found d =>
            simp only [Option.some.injEq, Res.ok.injEq, Prod.mk.injEq] at h
            obtain ⟨rfl, -⟩ := h
            cases hr with
            | found e1 e2 e3 e4 e5 =>
              exact ⟨first, by rw [hlinks]; simp, block, _, hg, hm, hsn, .here (by rw [e1]; simp) e3 e4⟩
          | NeedToLoadMore l' =>
            simp only at h
            cases hrec : rec l' c1 with
            | none => rw [hrec] at h; cases h
            | some r' =>
              rw [hrec] at h
              cases r' with
              | panic p => cases h
              | err e => cases h
              | ok xq =>
                obtain ⟨x', q''⟩ := xq
                cases h
                obtain ⟨b, hb1, block', m', hb2, hb3, hb4, hb5⟩ := ih _ _ _ hrec (.more hl hk) x q'' rfl
                cases hr with
                | more e1 e2 =>
                  rcases List.mem_append.1 hb1 with hb1 | hb1
                  · exact ⟨b, by rw [hlinks]; simp [hb1], block', m', hb2, hb3, hb4, hb5⟩
                  · obtain ⟨lk, g1, g2, g3⟩ := bucketCids_mem.1 hb1
                    exact ⟨first, by rw [hlinks]; simp, block, _, hg, hm, hsn, .bucket g1 g2 g3 hb2 hb3 hb4 hb5⟩

theorem quiet_no_here {get : Cid → Option Bytes} {needle : Bytes} {links : List PBLink} {x : Cid} (hq : Quiet needle links)
    (h : InShard get needle links x) :
    ∃ b ∈ bucketCids links, ∃ block m, get b = some block ∧ FlatUnixFs.tryParse block = .ok m ∧ ShardNode m ∧
      InShard get needle m.links x := by
  cases h with
  | here h1 h2 h3 => exact absurd h2 (hq _ h1).2.1
  | bucket h1 h2 h3 h4 h5 h6 h7 => exact ⟨_, bucketCids_mem.2 ⟨_, h1, h2, h3⟩, _, _, h4, h5, h6, h7⟩

/-- When nothing is found in the shards which are still to be read there is no entry of the name in any of them. -/
theorem lookupFrom_notFound {get : Cid → Option Bytes} {needle : Bytes} {l : ShardedLookup} {c : Option LookupCache} {r}
    (h : lookupFrom get l c = some r) : Looking needle l → ∀ q, r = .ok (none, q) →
      ∀ b ∈ l.links, ∀ block m, get b = some block → FlatUnixFs.tryParse block = .ok m → ShardNode m →
        ∀ x, ¬ InShard get needle m.links x := by
  refine lookupFrom.partial_correctness get
    (fun l _ r => Looking needle l → ∀ q, r = .ok (none, q) →
      ∀ b ∈ l.links, ∀ block m, get b = some block → FlatUnixFs.tryParse block = .ok m → ShardNode m →
        ∀ x, ¬ InShard get needle m.links x)
    ?_ l c r h
  intro rec ih l c r h hl q hr b hb block m hg hm hsn x hx
  subst hr
  cases hp : l.pendingLinks with
  | panic p => simp [hp] at h
  | err e => simp [hp] at h
  | ok fr =>
    obtain ⟨first, rest⟩ := fr
    have hlinks := pending_links hp
    simp only [hp] at h
    cases hgf : get first with
    | none => simp [hgf] at h
    | some blockf =>
      simp only [hgf] at h
      rcases hk : l.continueWalk blockf c with ⟨y, c1⟩
      rw [hk] at h
      obtain ⟨f', q', hp', hiff⟩ := C65_continue needle l hl blockf c y
      rw [hp] at hp'
      cases hp'
      rw [looking_needle hl] at hiff
      have hbr := hiff.1 (by rw [hk])
      cases y with
      | panic p => simp at h
      | err e => simp at h
      | ok mr =>
        cases hbr with
        | @shard mf _ hmf ht hs =>
          cases hs with
          | @links _ hsnf hr =>
          have next : Quiet needle mf.links → ∃ b' ∈ rest ++ bucketCids mf.links, ∃ block m, get b' = some block ∧
              FlatUnixFs.tryParse block = .ok m ∧ ShardNode m ∧ InShard get needle m.links x := by
            intro hq
            rw [hlinks] at hb
            rcases List.mem_cons.1 hb with rfl | hb
            · rw [hgf] at hg; cases hg
              rw [hmf] at hm; cases hm
              obtain ⟨b', h1, h2⟩ := quiet_no_here hq hx
              exact ⟨b', List.mem_append.2 (.inr h1), h2⟩
            · exact ⟨b, List.mem_append.2 (.inl hb), block, m, hg, hm, hsn, hx⟩
          cases mr with
          | Found d => simp at h
          | NotFound =>
            cases hr with
            | notFound e1 e2 =>
              obtain ⟨b', h1, -⟩ := next e1
              rw [e2] at h1; cases h1
          | NeedToLoadMore l' =>
            simp only at h
            cases hrec : rec l' c1 with
            | none => rw [hrec] at h; cases h
            | some r' =>
              rw [hrec] at h
              cases r' with
              | panic p => cases h
              | err e => cases h
              | ok xq =>
                obtain ⟨x', q''⟩ := xq
                cases h
                cases hr with
                | more e1 e2 =>
                  obtain ⟨b', h1, block', m', h2, h3, h4, h5⟩ := next e1
                  exact ih _ _ _ hrec (.more hl hk) q'' rfl b' h1 block' m' h2 h3 h4 x h5

theorem plainDir_of_error {block : Bytes} {n : PBNode}
    (h : (∃ e, FlatUnixFs.tryParse block = .error (.InvalidUnixFs e n)) ∨ FlatUnixFs.tryParse block = .error (.NoData n)) :
    PlainDir block n.Links := by
  refine .inr ⟨n, ?_⟩
  unfold FlatUnixFs.tryParse at h
  cases hn : PBNode.tryFrom block with
  | error e => rw [hn] at h; simp at h
  | ok node =>
    rw [hn] at h
    cases hd : node.Data with
    | none =>
      simp only [hd] at h
      rcases h with ⟨e, h⟩ | h
      · cases h
      · cases h; exact ⟨rfl, rfl, .inl hd⟩
    | some s =>
      simp only [hd] at h
      by_cases hs : s.val = []
      · rw [if_pos hs] at h
        rcases h with ⟨e, h⟩ | h
        · cases h
        · cases h; exact ⟨rfl, rfl, .inr ⟨s, hd, .inl hs⟩⟩
      · rw [if_neg hs] at h
        cases hu : UnixFs.tryFrom (some s.val) with
        | ok d => rw [hu] at h; simp at h
        | error e' =>
          rw [hu] at h
          rcases h with ⟨e, h⟩ | h
          · cases h; exact ⟨rfl, rfl, .inr ⟨s, hd, .inr ⟨_, hu⟩⟩⟩
          · cases h

/-- A block in which names can be looked up is a plain directory or a shard. -/
theorem resolve_ok {block name : Bytes} {cache : Option LookupCache} {r : MaybeResolved} (h : (resolve block name cache).1 = .ok r) :
    (∃ links, PlainDir block links) ∨ ∃ m, FlatUnixFs.tryParse block = .ok m ∧ m.data.Ty = .HAMTShard := by
  unfold resolve at h
  cases hm : FlatUnixFs.tryParse block with
  | error e =>
    cases e with
    | InvalidDagPb e => rw [hm] at h; simp at h
    | InvalidUnixFs e n => exact .inl ⟨n.Links, plainDir_of_error (.inl ⟨e, hm⟩)⟩
    | NoData n => exact .inl ⟨n.Links, plainDir_of_error (.inr hm)⟩
  | ok m =>
    rw [hm] at h
    cases ht : m.data.Ty with
    | HAMTShard => exact .inr ⟨m, rfl, ht⟩
    | Directory =>
      simp only [ht] at h
      by_cases hn : m.data.filesize.isSome ∨ m.data.blocksizes ≠ [] ∨ m.data.hashType.isSome ∨ m.data.fanout.isSome
          ∨ m.data.Data.getD [] ≠ []
      · have : checkDirectorySupported m = .error _ := if_pos hn
        rw [this] at h
        simp at h
      · refine .inl ⟨m.links, .inl ⟨m, hm, ht, ?_⟩⟩
        simp only [not_or, Decidable.not_not, Option.not_isSome_iff_eq_none] at hn
        simp_all
    | _ => simp [ht] at h

theorem plain_not_shard {block : Bytes} {links : List PBLink} (h : PlainDir block links) {m : FlatUnixFs}
    (hm : FlatUnixFs.tryParse block = .ok m) : m.data.Ty ≠ .HAMTShard := by
  rcases h with ⟨m', hp, ht, -⟩ | ⟨n, hn, -, hd⟩
  · rw [hp] at hm; cases hm; rw [ht]; decide
  · exfalso
    unfold FlatUnixFs.tryParse at hm
    rw [hn] at hm
    rcases hd with hd | ⟨s, hd, hs | ⟨e, he⟩⟩
    · simp [hd] at hm
    · simp [hd, hs] at hm
    · simp only [hd, he] at hm
      split at hm <;> cases hm

/-- C77. Looking up a name in the directory `d`, whatever the blocks in the store are and however they hang together: a Cid which
is found belongs to an entry of that name in the directory; and if the answer is that nothing was found, the directory has no entry
of that name. -/
theorem C77_lookup (get : Cid → Option Bytes) (d : Cid) (block name : Bytes) (cache : Option LookupCache) (hc : CleanCache cache)
    (hd : get d = some block) :
    (∀ x q, lookupName get block name cache = some (.ok (some x, q)) → EntryOf get d name x) ∧
    (∀ q, lookupName get block name cache = some (.ok (none, q)) → ∀ x, ¬ EntryOf get d name x) := by
  unfold lookupName
  rcases hk : resolve block name cache with ⟨y, c1⟩
  cases y with
  | panic p => exact ⟨(fun x q h => by cases h), (fun q h => by cases h)⟩
  | err e => exact ⟨(fun x q h => by cases h), (fun q h => by cases h)⟩
  | ok mr =>
    rcases resolve_ok (block := block) (name := name) (cache := cache) (r := mr) (by rw [hk]) with ⟨links, hpl⟩ | ⟨m, hm, ht⟩
    · have hres := resolve_plain hpl name cache
      rw [hk] at hres
      have nomore : ∀ l, mr ≠ .NeedToLoadMore l := by
        rintro l rfl
        have := (Prod.mk.inj hres).1
        revert this
        unfold resolveInLinks
        repeat' split
        all_goals simp
      cases mr with
      | NeedToLoadMore l => exact absurd rfl (nomore l)
      | Found x =>
        refine ⟨fun x' q h => ?_, fun q h => by cases h⟩
        cases h
        obtain ⟨a, l, b, rfl, -, h2, h3⟩ := C41_found_only block name links cache c1 x hpl hk
        exact .plain hd hpl (by simp) h2 h3
      | NotFound =>
        refine ⟨(fun x' q h => by cases h), fun q h x hx => ?_⟩
        cases hx with
        | @plain block' links' l g1 g2 g3 g4 g5 =>
          rw [hd] at g1; cases g1
          rcases C41_cases links' name with h1 | ⟨a, l', b, rfl, h2, h3, h4⟩
          · exact h1 l g3 g4
          · cases hcid : Cid.tryFrom (l'.Hash.getD []) with
            | error e =>
              rw [C41_invalid block name cache a b l' e g2 h2 h3 hcid] at hk
              cases hk
            | ok x' =>
              rcases h4 with h4 | ⟨b1, l2, b2, rfl, h5, h6⟩
              · rw [C41_unique block name cache a b l' x' g2 h2 h4 h3 hcid] at hk
                cases hk
              · obtain ⟨mm, h7, -⟩ := C41_multiple block name cache a b1 b2 l' l2 x' g2 h2 h5 h3 h6 hcid
                rw [h7] at hk
                cases hk
        | sharded g1 g2 g3 g4 =>
          rw [hd] at g1; cases g1
          exact plain_not_shard hpl g2 g3.1
    · have hread : ShardNodeRead name [] m (.ok mr) :=
        (C65_resolve block name cache hc m hm ht (.ok mr)).1 (by rw [hk]; rfl)
      have noplain : ∀ links, ¬ PlainDir block links := fun links h => plain_not_shard h hm ht
      cases hread with
      | @links _ hsn hr =>
      cases mr with
      | Found x =>
        refine ⟨fun x' q h => ?_, fun q h => by cases h⟩
        cases h
        cases hr with
        | found e1 e2 e3 e4 e5 => exact .sharded hd hm hsn (.here (by rw [e1]; simp) e3 e4)
      | NotFound =>
        refine ⟨(fun x' q h => by cases h), fun q h x hx => ?_⟩
        cases hx with
        | plain g1 g2 => rw [hd] at g1; cases g1; exact noplain _ g2
        | sharded g1 g2 g3 g4 =>
          rw [hd] at g1; cases g1
          rw [hm] at g2; cases g2
          cases hr with
          | notFound e1 e2 =>
            obtain ⟨b, hb, -⟩ := quiet_no_here e1 g4
            rw [List.nil_append] at e2
            rw [e2] at hb; cases hb
      | NeedToLoadMore l =>
        simp only
        have hl : Looking name l := .start hk
        refine ⟨fun x q h => ?_, fun q h x hx => ?_⟩
        · obtain ⟨b, hb, block', m', h1, h2, h3, h4⟩ := lookupFrom_found h hl x q rfl
          cases hr with
          | more e1 e2 =>
            rw [List.nil_append] at hb
            obtain ⟨lk, g1, g2, g3⟩ := bucketCids_mem.1 hb
            exact .sharded hd hm hsn (.bucket g1 g2 g3 h1 h2 h3 h4)
        · cases hx with
          | plain g1 g2 => rw [hd] at g1; cases g1; exact noplain _ g2
          | sharded g1 g2 g3 g4 =>
            rw [hd] at g1; cases g1
            rw [hm] at g2; cases g2
            cases hr with
            | more e1 e2 =>
              obtain ⟨b, hb, block', m', h1, h2, h3, h4⟩ := quiet_no_here e1 g4
              exact lookupFrom_notFound h hl q rfl b (by rw [List.nil_append]; exact hb) block' m' h1 h2 h3 x h4

/-! ### C73: paths -/

theorem reported_some {r : Res LookupFail (Option Cid × List Cid)} {x : Cid} (h : reported r = .ok (some x)) : ∃ q, r = .ok (some x, q) := by
  cases r with
  | ok r => obtain ⟨y, q⟩ := r; cases h; exact ⟨q, rfl⟩
  | err e => cases e <;> cases h
  | panic p => cases h

/-- A lookup which was obtained has pending links. -/
theorem lookupFrom_not_noLinks {get : Cid → Option Bytes} {needle : Bytes} {l : ShardedLookup} {c : Option LookupCache} {r}
    (h : lookupFrom get l c = some r) : Looking needle l → r ≠ .err .noLinks := by
  refine lookupFrom.partial_correctness get (fun l _ r => Looking needle l → r ≠ .err .noLinks) ?_ l c r h
  intro rec ih l c r h hl
  obtain ⟨f, q, hp, -⟩ := C65_continue needle l hl [] c (.ok .NotFound)
  simp only [hp] at h
  cases hg : get f with
  | none => simp only [hg, Option.some.injEq] at h; subst h; simp
  | some block =>
    simp only [hg] at h
    rcases hk : l.continueWalk block c with ⟨y, c1⟩
    rw [hk] at h
    cases y with
    | panic p => simp only [Option.some.injEq] at h; subst h; simp
    | err e => simp only [Option.some.injEq] at h; subst h; simp
    | ok mr =>
      cases mr with
      | NotFound => simp only [Option.some.injEq] at h; subst h; simp
      | Found d => simp only [Option.some.injEq] at h; subst h; simp
      | NeedToLoadMore l' =>
        simp only at h
        cases hrec : rec l' c1 with
        | none => rw [hrec] at h; cases h
        | some r' =>
          rw [hrec] at h
          have := ih _ _ _ hrec (.more hl hk)
          cases r' with
          | ok x => cases h; intro h; cases h
          | panic p => cases h; intro h; cases h
          | err e => cases h; exact this

theorem lookupName_not_noLinks {get : Cid → Option Bytes} {block name : Bytes} {c : Option LookupCache} {r}
    (h : lookupName get block name c = some r) : r ≠ .err .noLinks := by
  unfold lookupName at h
  rcases hk : resolve block name c with ⟨y, c1⟩
  rw [hk] at h
  cases y with
  | panic p => cases h; simp
  | err e => cases h; simp
  | ok mr =>
    cases mr with
    | NotFound => cases h; simp
    | Found d => cases h; simp
    | NeedToLoadMore l => exact lookupFrom_not_noLinks h (.start hk)

/-- C73, arbitrary blocks: the Cid which is printed is where the path leads. -/
theorem C73_found (get : Cid → Option Bytes) (root : Cid) (names : List Bytes) (c : Cid)
    (h : resolveWalk get ⟨root, names⟩ = some (.ok (some c))) : Path get root names c := by
  unfold resolveWalk at h
  simp only at h
  revert root
  induction names with
  | nil => intro root h; cases h; exact .here _
  | cons name names ih =>
    intro root h
    rw [C73_segment get root none cleanCache_none] at h
    cases hg : get root with
    | none => rw [hg] at h; cases h
    | some block =>
      rw [hg] at h
      simp only at h
      cases hl : lookupName get block name none with
      | none => rw [hl] at h; cases h
      | some r =>
        rw [hl] at h
        simp only at h
        cases hr : reported r with
        | panic p => rw [hr] at h; cases h
        | err e => rw [hr] at h; cases h
        | ok o =>
          rw [hr] at h
          cases o with
          | none => cases h
          | some d =>
            obtain ⟨q, rfl⟩ := reported_some hr
            exact .step ((C77_lookup get root block name none cleanCache_none hg).1 d q hl) (ih _ h)

/-- C73, arbitrary blocks: when nothing is found, the names lead to a directory which has no entry of the next name. -/
theorem C73_notFound (get : Cid → Option Bytes) (root : Cid) (names : List Bytes)
    (h : resolveWalk get ⟨root, names⟩ = some (.ok none)) :
    ∃ before name after d, names = before ++ name :: after ∧ Path get root before d ∧ ∀ x, ¬ EntryOf get d name x := by
  unfold resolveWalk at h
  simp only at h
  revert root
  induction names with
  | nil => intro root h; cases h
  | cons name names ih =>
    intro root h
    rw [C73_segment get root none cleanCache_none] at h
    cases hg : get root with
    | none => rw [hg] at h; cases h
    | some block =>
      rw [hg] at h
      simp only at h
      cases hl : lookupName get block name none with
      | none => rw [hl] at h; cases h
      | some r =>
        rw [hl] at h
        simp only at h
        cases hr : reported r with
        | panic p => rw [hr] at h; cases h
        | err e => rw [hr] at h; cases h
        | ok o =>
          rw [hr] at h
          cases o with
          | none =>
            have : ∃ q, r = .ok (none, q) := by
              cases r with
              | ok r => obtain ⟨y, q⟩ := r; cases hr; exact ⟨q, rfl⟩
              | err e =>
                cases e with
                | noLinks => exact absurd rfl (lookupName_not_noLinks hl)
                | _ => cases hr
              | panic p => cases hr
            obtain ⟨q, rfl⟩ := this
            exact ⟨[], name, names, root, rfl, .here _, (C77_lookup get root block name none cleanCache_none hg).2 q hl⟩
          | some d =>
            obtain ⟨q, rfl⟩ := reported_some hr
            obtain ⟨before, nm, after, d', h1, h2, h3⟩ := ih _ h
            exact ⟨name :: before, nm, after, d', by rw [h1]; rfl,
              .step ((C77_lookup get root block name none cleanCache_none hg).1 d q hl) h2, h3⟩

theorem plain_of_list {links : List PBLink} {es : List (Bytes × Cid)}
    (h : links.map (fun l => (l.Name.getD [], Cid.tryFrom (l.Hash.getD []))) = es.map (fun e => (e.1, .ok e.2))) {name : Bytes} {d : Cid}
    (hu : (es.map (·.1)).Nodup) (hm : (name, d) ∈ es) :
    ∃ a l b, links = a ++ l :: b ∧ (∀ x ∈ a, ¬ Named name x) ∧ (∀ x ∈ b, ¬ Named name x) ∧ Named name l ∧
      Cid.tryFrom (l.Hash.getD []) = .ok d := by
  obtain ⟨ea, eb, rfl⟩ := List.append_of_mem hm
  rw [List.map_append, List.map_cons] at h
  obtain ⟨la, lb, rfl, h1, h2⟩ := List.map_eq_append_iff.1 h
  obtain ⟨l, lb', rfl, h3, h4⟩ := List.map_eq_cons_iff.1 h2
  simp only [Prod.mk.injEq] at h3
  simp only [List.map_append, List.map_cons, List.nodup_append, List.nodup_cons] at hu
  have other : ∀ (ls : List PBLink) (es : List (Bytes × Cid)),
      ls.map (fun l => (l.Name.getD [], Cid.tryFrom (l.Hash.getD []))) = es.map (fun e => (e.1, .ok e.2)) →
      name ∉ es.map (·.1) → ∀ x ∈ ls, ¬ Named name x := by
    intro ls es h hn x hx hnx
    have : (x.Name.getD [], Cid.tryFrom (x.Hash.getD [])) ∈ es.map (fun e => (e.1, (.ok e.2 : Except CidError Cid))) := by
      rw [← h]; exact List.mem_map.2 ⟨x, hx, rfl⟩
    obtain ⟨e, he, heq⟩ := List.mem_map.1 this
    have hx1 := congrArg Prod.fst heq
    simp only at hx1
    exact hn (List.mem_map.2 ⟨e, he, by rw [hx1]; exact hnx⟩)
  refine ⟨la, l, lb', rfl, other la ea h1 ?_, other lb' eb h4 ?_, h3.1, h3.2⟩
  · intro hn
    exact hu.2.2 name hn name (by simp) rfl
  · exact hu.2.1.1

/-- C73, well-formed directories: the answer is what the names lead to, and the loop terminates without an error or a panic. -/
theorem C73_resolve (get : Cid → Option Bytes) (root : Cid) (names : List Bytes) (r : Option Cid) (h : Leads get root names r) :
    resolveWalk get ⟨root, names⟩ = some (.ok r) := by
  unfold resolveWalk
  simp only
  induction h with
  | here d => rfl
  | @step d d' es name names r hl hm _ ih =>
    obtain ⟨hu, block, hg, hl⟩ := hl
    rw [C73_segment get d none cleanCache_none, hg]
    simp only
    have : ∃ q, lookupName get block name none = some (.ok (some d', q)) := by
      rcases hl with ⟨links, h1, h2⟩ | ⟨t, h1, rfl⟩
      · obtain ⟨a, l, b, rfl, e1, e2, e3, e4⟩ := plain_of_list h2 hu hm
        refine ⟨[], ?_⟩
        unfold lookupName
        rw [C41_unique block name none a b l d' h1 e1 e2 e3 e4]
      · obtain ⟨q, e1, -⟩ := C42_unique get t block name none cleanCache_none h1 hu
        exact ⟨q, e1 d' hm⟩
    obtain ⟨q, hq⟩ := this
    rw [hq]
    exact ih
  | @absent d es name names hl hm =>
    obtain ⟨hu, block, hg, hl⟩ := hl
    rw [C73_segment get d none cleanCache_none, hg]
    simp only
    have : ∃ q, lookupName get block name none = some (.ok (none, q)) := by
      rcases hl with ⟨links, h1, h2⟩ | ⟨t, h1, rfl⟩
      · refine ⟨[], ?_⟩
        unfold lookupName
        rw [C41_absent block name links none h1]
        intro x hx hnx
        have : (x.Name.getD [], Cid.tryFrom (x.Hash.getD [])) ∈ es.map (fun e => (e.1, (.ok e.2 : Except CidError Cid))) := by
          rw [← h2]; exact List.mem_map.2 ⟨x, hx, rfl⟩
        obtain ⟨e, he, heq⟩ := List.mem_map.1 this
        have hx1 := congrArg Prod.fst heq
        simp only at hx1
        exact hm (List.mem_map.2 ⟨e, he, by rw [hx1]; exact hnx⟩)
      · obtain ⟨q, -, e1⟩ := C42_unique get t block name none cleanCache_none h1 hu
        exact ⟨q, e1 hm⟩
    obtain ⟨q, hq⟩ := this
    rw [hq]
    rfl

/-! ### Missing blocks -/

theorem lookupFrom_part {part full : Cid → Option Bytes} (hpart : PartOf part full) {l : ShardedLookup} {c : Option LookupCache} {r}
    (h : lookupFrom full l c = some r) : lookupFrom part l c = some r ∨ ∃ x, lookupFrom part l c = some (.err (.missing x)) ∧ part x = none := by
  refine lookupFrom.partial_correctness full
    (fun l c r => lookupFrom part l c = some r ∨ ∃ x, lookupFrom part l c = some (.err (.missing x)) ∧ part x = none) ?_ l c r h
  intro rec ih l c r h
  rw [lookupFrom.eq_1]
  cases hp : l.pendingLinks with
  | panic p => simp only [hp] at h ⊢; exact .inl h
  | err e => simp only [hp] at h ⊢; exact .inl h
  | ok fr =>
    obtain ⟨first, rest⟩ := fr
    simp only [hp] at h ⊢
    cases hg : part first with
    | none => exact .inr ⟨first, rfl, hg⟩
    | some block =>
      rw [hpart _ _ hg] at h
      simp only at h ⊢
      rcases hk : l.continueWalk block c with ⟨x, c1⟩
      rw [hk] at h
      cases x with
      | panic p => exact .inl h
      | err e => exact .inl h
      | ok mr =>
        cases mr with
        | NotFound => exact .inl h
        | Found d => exact .inl h
        | NeedToLoadMore l' =>
          simp only at h ⊢
          cases hr : rec l' c1 with
          | none => rw [hr] at h; cases h
          | some r' =>
            rw [hr] at h
            rcases ih _ _ _ hr with h1 | ⟨x, h1, h2⟩
            · rw [h1]; exact .inl h
            · rw [h1]; exact .inr ⟨x, rfl, h2⟩

/-- C73, missing blocks: whatever the blocks are, with some of them missing the answer is the same, or that a block could not be
opened. -/
theorem C73_missing (part full : Cid → Option Bytes) (hpart : PartOf part full) (path : IpfsPath) (r)
    (h : resolveWalk full path = some r) : resolveWalk part path = some r ∨ resolveWalk part path = some (.err .OpeningFailed) := by
  obtain ⟨root, names⟩ := path
  unfold resolveWalk at h ⊢
  simp only at h ⊢
  revert root
  induction names with
  | nil => intro root h; exact .inl h
  | cons name names ih =>
    intro root h
    rw [C73_segment _ root none cleanCache_none] at h ⊢
    cases hg : part root with
    | none => exact .inr rfl
    | some block =>
      rw [hpart _ _ hg] at h
      simp only at h ⊢
      have key : ∀ r, lookupName full block name none = some r →
          lookupName part block name none = some r ∨ ∃ x, lookupName part block name none = some (.err (.missing x)) := by
        intro r h
        unfold lookupName at h ⊢
        rcases hk : resolve block name none with ⟨y, c1⟩
        rw [hk] at h
        cases y with
        | panic p => exact .inl h
        | err e => exact .inl h
        | ok mr =>
          cases mr with
          | NotFound => exact .inl h
          | Found d => exact .inl h
          | NeedToLoadMore l =>
            rcases lookupFrom_part hpart h with h | ⟨x, h, -⟩
            · exact .inl h
            · exact .inr ⟨x, h⟩
      cases hl : lookupName full block name none with
      | none => rw [hl] at h; cases h
      | some r' =>
        rw [hl] at h
        simp only at h
        rcases key _ hl with h1 | ⟨x, h1⟩
        · rw [h1]
          simp only
          cases hr : reported r' with
          | panic p => rw [hr] at h; exact .inl h
          | err e => rw [hr] at h; exact .inl h
          | ok o =>
            rw [hr] at h
            cases o with
            | none => exact .inl h
            | some d => exact ih _ h
        · rw [h1]; exact .inr rfl

/-- The sample shard, looked up by path: `b` is in the bucket, `c` is nowhere. -/
example : ∃ get root, get root = some sampleShard ∧ Leads get root [[98]] (some (cidOf toySha [98])) ∧ Leads get root [[99]] none := by
  refine ⟨fun c => if c = cidOf toySha sampleShard then some sampleShard else sampleGet c, cidOf toySha sampleShard, if_pos rfl, ?_⟩
  have hl : Lists (fun c => if c = cidOf toySha sampleShard then some sampleShard else sampleGet c) (cidOf toySha sampleShard)
      sampleHTree.entries := by
    refine ⟨by decide, sampleShard, if_pos rfl, .inr ⟨sampleHTree, ?_, rfl⟩⟩
    refine ⟨FlatUnixFs.mk [⟨some (cidOf toySha [97]).toBytes, some [0x30, 0x30, 97], some 7⟩,
        ⟨some (cidOf toySha sampleBucket).toBytes, some [0x30, 0x31], some 7⟩]
      { Ty := .HAMTShard, hashType := some 34, fanout := some 256 }, by decide +kernel, rfl, rfl, rfl, rfl,
      rfl, ⟨by decide, rfl, ⟨0x30, 0x30, by decide, by decide, rfl⟩, by decide +kernel⟩, ⟨_, cidOf toySha sampleBucket,
        sampleBucket, rfl, rfl, by decide +kernel, by decide +kernel, ?_⟩, trivial⟩
    exact ⟨FlatUnixFs.mk [⟨some (cidOf toySha [98]).toBytes, some [0x30, 0x31, 98], some 7⟩]
      { Ty := .HAMTShard, hashType := some 34, fanout := some 256 }, by decide +kernel, rfl, rfl, rfl, rfl,
      rfl, ⟨by decide, rfl, ⟨0x30, 0x31, by decide, by decide, rfl⟩, by decide +kernel⟩, trivial⟩
  exact ⟨.step hl (by decide) (.here _), .absent hl (by decide)⟩

end Verif.Props
