import Verif.Spec.Opening
import Verif.Props.Agreeing
/-
C122: what can be walked to the end can be resolved.
-/
namespace Verif.Props
open Verif Verif.Spec Verif.Examples

/-- The Cid and path of an awaited entry. -/
def entryKey (a : Awaited) : Option (Cid × PathBuf) := if a.what = .entry then some (a.cid, ⟨false, a.path⟩) else none

theorem opens_reported {cid : Cid} {before : List ContinuedWalk} {a : Awaited} {m : FlatUnixFs} {last : Bool} {item : ContinuedWalk}
    (h : reportedFor cid before a m last item) : opens item = entryKey a ∧ (a.what = .entry → m.data.Ty ≠ .Metadata) := by
  cases ha : a.what with
  | entry =>
    have := h.1 (by rw [ha]; simp)
    unfold itemFor at this
    rw [ha] at this
    unfold entryKey
    rw [ha, if_pos rfl]
    revert this
    cases m.data.Ty <;> simp only <;> try (intro h; cases h; done)
    all_goals try (intro h; cases h; exact ⟨rfl, fun _ => by simp⟩)
    intro h
    split at h <;> (cases h; exact ⟨rfl, fun _ => by simp⟩)
  | bucket =>
    refine ⟨?_, by simp⟩
    unfold entryKey
    rw [ha, if_neg (by simp)]
    by_cases hr : RootBuckets before
    · rw [(h.2 ha hr).2]; rfl
    · have := h.1 (fun h => hr h.2)
      unfold itemFor at this
      rw [ha] at this
      revert this
      cases m.data.Ty <;> simp only <;> try (intro h; cases h; done)
      intro h; cases h; rfl
  | fileBlock =>
    refine ⟨?_, by simp⟩
    unfold entryKey
    rw [ha, if_neg (by simp)]
    have := h.1 (by rw [ha]; simp)
    unfold itemFor at this
    rw [ha] at this
    simp only at this
    split at this
    next x _ _ _ _ _ hx => cases this; rfl
    · cases this

/-- What is known about everything below what is awaited, after a walk has finished. -/
def Lookable (get : Cid → Option Bytes) (open' : List (Cid × PathBuf)) (b : Awaited) : Prop :=
  (∀ k, entryKey b = some k → k ∈ open') ∧
  ∃ block m, get b.cid = some block ∧ FlatUnixFs.tryParse block = .ok m ∧ (b.what = .entry → m.data.Ty ≠ .Metadata) ∧
    LinksAre block ((m.links.filterMap (follow b m)).map (·.cid)) ∧ ((m.links.filterMap (follow b m)).filterMap entryKey).Sublist open'

theorem Lookable.mono {get : Cid → Option Bytes} {o o' : List (Cid × PathBuf)} {b : Awaited} (h : Lookable get o b) (hs : o.Sublist o') :
    Lookable get o' b := by
  obtain ⟨h1, block, m, h2, h3, h4, h5, h6⟩ := h
  exact ⟨fun k hk => hs.subset (h1 k hk), block, m, h2, h3, h4, h5, h6.trans hs⟩

theorem walk_opens (get : Cid → Option Bytes) (cid : Cid) (name : Bytes) (hname : slash ∉ name) (w : Walker) (cache : Option VisitCache) (r)
    (h : walkLog get w cache = some r) :
    ∀ fb rest before, St cid name before w fb rest → CacheOk cache → r.2 = .finished →
      ((fb ++ rest).filterMap entryKey).Sublist (opened r.1) ∧ ∀ a ∈ fb ++ rest, ∀ b, Beneath get a b → Lookable get (opened r.1) b := by
  refine walkLog.partial_correctness get (fun w cache r => ∀ fb rest before, St cid name before w fb rest → CacheOk cache → r.2 = .finished →
      ((fb ++ rest).filterMap entryKey).Sublist (opened r.1) ∧ ∀ a ∈ fb ++ rest, ∀ b, Beneath get a b → Lookable get (opened r.1) b) ?_ w cache r h
  intro rec ih w cache r h fb rest before hst0 hc hfin
  have hw := hst0.wi
  by_cases hsc : w.shouldContinue = false
  · rw [if_pos hsc] at h
    cases h
    have := hw.cont
    rw [show w.should_continue = false from hsc] at this
    have hnil : fb ++ rest = [] := by simpa using this
    rw [hnil]
    exact ⟨List.Sublist.refl _, nofun⟩
  · rw [if_neg hsc] at h
    cases hq : fb ++ rest with
    | nil =>
      have := hw.cont
      rw [hq] at this
      exact absurd this hsc
    | cons a aw =>
      rw [pendingLinks_eq hw hq] at h
      simp only at h
      cases hg : get a.cid with
      | none => simp only [hg] at h; cases h; cases hfin
      | some block =>
        simp only [hg] at h
        rcases hst : w.step block cache with ⟨x, w', cache'⟩
        rw [hst] at h
        cases x with
        | panic p => cases h; cases hfin
        | err e => cases h; cases hfin
        | ok item =>
          simp only at h
          cases hr : rec w' cache' with
          | none => rw [hr] at h; cases h
          | some r' =>
            rw [hr] at h
            cases h
            obtain ⟨m, a', aw', fb0, rest0, hm, haw, hk0, hw'0⟩ := hw.step hc (step_ok hst)
            obtain ⟨w1, c1, fb', rest', hstep, hc1, -, hk, hrep, hst1⟩ := hst0.step (get := get) hq hg hc hname hm (item := item) (by rw [hst])
            rw [hst] at hstep
            cases hstep
            have hlinks := step_links hw hc hq hm (step_ok hst)
            obtain ⟨h3, h4⟩ := ih w' cache' r' hr fb' rest' (before ++ [item]) hst1 hc1 hfin
            rw [← hk] at h3 h4
            rw [List.filterMap_append] at h3
            obtain ⟨e1, e2⟩ := opens_reported hrep
            have hop : opened ((a.cid, item) :: r'.1) = (entryKey a).toList ++ opened r'.1 := by
              unfold opened
              rw [List.filterMap_cons]
              simp only [e1]
              cases entryKey a <;> rfl
            have hle : (opened r'.1).Sublist (opened ((a.cid, item) :: r'.1)) := by rw [hop]; exact List.sublist_append_right _ _
            refine ⟨?_, ?_⟩
            · rw [hop, List.filterMap_cons]
              have h5 := (List.sublist_append_right _ _).trans h3
              cases entryKey a with
              | none => exact h5
              | some k => exact h5.cons_cons k
            · intro a1 ha1 b hb
              rcases List.mem_cons.1 ha1 with rfl | ha1
              · cases hb with
                | self =>
                  refine ⟨?_, block, m, hg, hm, e2, hlinks, ((List.sublist_append_left _ _).trans h3).trans hle⟩
                  intro k hk1
                  rw [hop, hk1]
                  simp
                | link hg' hm' ha' hb' =>
                  rw [hg] at hg'
                  cases hg'
                  rw [hm] at hm'
                  cases hm'
                  exact (h4 _ (List.mem_append_left _ ha') b hb').mono hle
              · exact (h4 _ (List.mem_append_right _ ha1) b hb).mono hle

section
variable {get : Cid → Option Bytes} {op : List (Cid × PathBuf)}

/-- Two things were begun at the path. -/
def Twice (op : List (Cid × PathBuf)) (path : List Bytes) : Prop :=
  ∃ d d', [(d, (⟨false, path⟩ : PathBuf)), (d', ⟨false, path⟩)].Sublist op

/-- Everything below `a` is known to be fine. -/
def AllFine (get : Cid → Option Bytes) (op : List (Cid × PathBuf)) (a : Awaited) : Prop :=
  (∃ order, DepthFirst get a.cid order) ∧ ∀ b, Beneath get a b → Lookable get op b ∧
    ∃ block m, get b.cid = some block ∧ FlatUnixFs.tryParse block = .ok m ∧ Sound b m

theorem AllFine.here {a : Awaited} (h : AllFine get op a) : ∃ block m, get a.cid = some block ∧ FlatUnixFs.tryParse block = .ok m ∧ Sound a m ∧
    (a.what = .entry → m.data.Ty ≠ .Metadata) ∧ LinksAre block ((m.links.filterMap (follow a m)).map (·.cid)) ∧
    ((m.links.filterMap (follow a m)).filterMap entryKey).Sublist op := by
  obtain ⟨⟨-, block, m, h2, h3, h4, h5, h6⟩, block', m', h7, h8, h9⟩ := h.2 a (.self a)
  rw [h2] at h7
  cases h7
  rw [h3] at h8
  cases h8
  exact ⟨block, m, h2, h3, h9, h4, h5, h6⟩

theorem AllFine.link {a a' : Awaited} {block : Bytes} {m : FlatUnixFs} (h : AllFine get op a) (hg : get a.cid = some block)
    (hm : FlatUnixFs.tryParse block = .ok m) (ha : a' ∈ m.links.filterMap (follow a m)) : AllFine get op a' := by
  refine ⟨?_, fun b hb => h.2 b (.link hg hm ha hb)⟩
  obtain ⟨block', m', h2, h3, -, -, h5, -⟩ := h.here
  rw [hg] at h2
  cases h2
  rw [hm] at h3
  cases h3
  obtain ⟨order, ho⟩ := h.1
  cases ho with
  | block hg' hl hk =>
    rw [hg] at hg'
    cases hg'
    rw [linksAre_unique hl h5] at hk
    obtain ⟨o, ho, -⟩ := depthFirstL_mem hk (List.mem_map_of_mem ha)
    exact ⟨o, ho⟩

theorem AllFine.beneath {a b : Awaited} (hb : Beneath get a b) : AllFine get op a → AllFine get op b := by
  induction hb with
  | self => exact id
  | link hg hm ha _ ih => intro h; exact ih (h.link hg hm ha)

theorem linksAre_valid {block : Bytes} {cids : List Cid} {m : FlatUnixFs} (h : LinksAre block cids) (hm : FlatUnixFs.tryParse block = .ok m)
    (ht : m.data.Ty ≠ .Symlink) : ∀ l ∈ m.links, ∃ c, Cid.tryFrom (l.Hash.getD []) = .ok c := by
  obtain ⟨m', hm', h⟩ := h
  rw [hm] at hm'
  cases hm'
  rw [if_neg ht] at h
  intro l hl
  have : Cid.tryFrom (l.Hash.getD []) ∈ m.links.map (fun l => Cid.tryFrom (l.Hash.getD [])) := List.mem_map_of_mem hl
  rw [h] at this
  obtain ⟨c, -, hc⟩ := List.mem_map.1 this
  exact ⟨c, hc.symm⟩

theorem two_sublist {α : Type} (before between after : List α) (x y : α) : [x, y].Sublist (before ++ x :: (between ++ y :: after)) := by
  refine List.Sublist.trans ?_ (List.sublist_append_right _ _)
  refine List.Sublist.cons_cons x ?_
  refine List.Sublist.trans ?_ (List.sublist_append_right _ _)
  exact List.Sublist.cons_cons y (List.nil_sublist _)

/-- Reading the links of a shard over which a walk went. -/
theorem shardRead_fine {a : Awaited} {needle : Bytes} {queue : List Cid} {block : Bytes} {m : FlatUnixFs} {r : Res LookupError MaybeResolved}
    (hm : FlatUnixFs.tryParse block = .ok m) (hs : Sound a m) (hla : LinksAre block ((m.links.filterMap (follow a m)).map (·.cid)))
    (hk : ((m.links.filterMap (follow a m)).filterMap entryKey).Sublist op) (ha : a.what ≠ .fileBlock) (ht : m.data.Ty = .HAMTShard)
    (h : ShardRead needle queue m.links r) :
    (∃ c, r = .ok (.Found c)) ∨ r = .ok .NotFound ∨ r = .ok (.NeedToLoadMore ⟨queue ++ bucketCids m.links, needle⟩) ∨
      ∃ mm, r = .err (.Multiple mm) ∧ Twice op (a.path ++ [needle]) := by
  have hval := linksAre_valid hla hm (by rw [ht]; simp)
  obtain ⟨hsn, hnames⟩ := hs.shard ha ht
  cases h with
  | found => exact .inl ⟨_, rfl⟩
  | notFound => exact .inr (.inl rfl)
  | more => exact .inr (.inr (.inl rfl))
  | @invalid before l after e hl _ he =>
    obtain ⟨c, hc⟩ := hval l (by rw [hl]; simp)
    rw [he] at hc; cases hc
  | @oneValid before l between l' after c e hl _ _ _ _ _ he =>
    obtain ⟨c, hc⟩ := hval l' (by rw [hl]; simp)
    rw [he] at hc; cases hc
  | @panic before l after hl _ hu =>
    obtain ⟨-, h2⟩ := hnames l (by rw [hl]; simp)
    have := h2 hu.1
    rw [hu.2] at this
    cases this
  | @two before l between l' after c c' hl _ h1 hc _ h1' hc' =>
    refine .inr (.inr (.inr ⟨_, rfl, c, c', ?_⟩))
    have hsub := two_sublist before between after l l'
    rw [← hl] at hsub
    have := ((hsub.filterMap (follow a m)).filterMap entryKey).trans hk
    have e : ∀ l c, IsHit needle l → Cid.tryFrom (l.Hash.getD []) = .ok c → follow a m l = some ⟨c, a.path ++ [needle], .entry⟩ := by
      intro l c ⟨h1, _, h3⟩ hc
      unfold shardName at h1 h3
      simp only [follow, ha, if_false, ht]
      rw [if_neg (by omega)]
      simp [linkTo, hc, h3]
    simpa [e l c h1 hc, e l' c' h1' hc', entryKey] using this

theorem depthFirstL_sublist {cs cs' : List Cid} (hs : cs'.Sublist cs) : ∀ order, DepthFirstL get cs order →
    ∃ order', DepthFirstL get cs' order' ∧ order'.length ≤ order.length := by
  induction hs with
  | slnil => intro order h; exact ⟨order, h, Nat.le_refl _⟩
  | cons a _ ih =>
    intro order h
    cases h with
    | cons h1 h2 =>
      obtain ⟨o, h3, h4⟩ := ih _ h2
      exact ⟨o, h3, by simp; omega⟩
  | cons_cons a _ ih =>
    intro order h
    cases h with
    | cons h1 h2 =>
      obtain ⟨o, h3, h4⟩ := ih _ h2
      exact ⟨_, .cons h1 h3, by simp; omega⟩

theorem depthFirstL_all {cs : List Cid} (h : ∀ c ∈ cs, ∃ o, DepthFirst get c o) : ∃ order, DepthFirstL get cs order := by
  induction cs with
  | nil => exact ⟨_, .nil⟩
  | cons c cs ih =>
    obtain ⟨o, ho⟩ := h c (by simp)
    obtain ⟨o', ho'⟩ := ih (fun x hx => h x (by simp [hx]))
    exact ⟨_, .cons ho ho'⟩

/-- The links to buckets are among all links. -/
theorem bucketCids_among {block : Bytes} {cids : List Cid} {m : FlatUnixFs} (h : LinksAre block cids) (hm : FlatUnixFs.tryParse block = .ok m)
    (ht : m.data.Ty ≠ .Symlink) : (bucketCids m.links).Sublist cids := by
  obtain ⟨m', hm', h⟩ := h
  rw [hm] at hm'
  cases hm'
  rw [if_neg ht] at h
  have e : cids = m.links.filterMap (fun l => (Cid.tryFrom (l.Hash.getD [])).toOption) := by
    have := congrArg (List.filterMap (fun x : Except CidError Cid => x.toOption)) h
    rw [List.filterMap_map, List.filterMap_map] at this
    rw [show (fun l : PBLink => (Cid.tryFrom (l.Hash.getD [])).toOption) = (fun x : Except CidError Cid => x.toOption) ∘ (fun l => Cid.tryFrom (l.Hash.getD [])) from rfl,
      this]
    rw [show (fun x : Except CidError Cid => x.toOption) ∘ Except.ok = some from rfl]
    simp
  rw [e]
  exact (List.filter_sublist).filterMap _

/-- What a lookup gives. -/
def LookedUp (op : List (Cid × PathBuf)) (path : List Bytes) (r : Res LookupFail (Option Cid × List Cid)) : Prop :=
  (∃ x q, r = .ok (x, q)) ∨ ∃ mm, r = .err (.resolving (.Lookup (.Multiple mm))) ∧ Twice op path

theorem look_fine (needle : Bytes) (path : List Bytes) : ∀ (n : Nat) (l : ShardedLookup), Looking needle l → ∀ order, DepthFirstL get l.links order →
    order.length ≤ n → (∀ c ∈ l.links, AllFine get op ⟨c, path, .bucket⟩) → ∀ cache, ∃ r, lookupFrom get l cache = some r ∧
      LookedUp op (path ++ [needle]) r := by
  intro n
  induction n with
  | zero =>
    intro l hl order ho hn hf cache
    exfalso
    have := looking_nonempty hl
    cases hlk : l.links with
    | nil => exact this hlk
    | cons c q =>
      rw [hlk] at ho
      cases ho with
      | cons h1 h2 => cases h1; simp at hn
  | succ n ih =>
    intro l hl order ho hn hf cache
    rcases hcw : l.continueWalk (((l.links.head?.bind get)).getD []) cache with ⟨r, cache'⟩
    obtain ⟨c, queue, hp, hiff⟩ := C65_continue needle l hl (((l.links.head?.bind get)).getD []) cache r
    have hlk := pending_links hp
    rw [looking_needle hl] at hiff
    have hfc := hf c (by rw [hlk]; simp)
    obtain ⟨block, m, hg, hm, hs, -, hla, hk⟩ := hfc.here
    simp only at hg
    rw [show (l.links.head?.bind get).getD [] = block from by rw [hlk]; simp [hg]] at hcw hiff
    have hread := hiff.1 (by rw [hcw])
    have hty := hs.bucket rfl
    have hsn := (hs.shard (by simp) hty).1
    rw [lookupFrom.eq_1, hp]
    simp only [hg, hcw]
    have hsr : ShardRead needle queue m.links r := by
      cases hread with
      | dagPb h => rw [hm] at h; cases h
      | unixFs h => rw [hm] at h; cases h
      | noData h => rw [hm] at h; cases h
      | type h h' => rw [hm] at h; cases h; exact absurd hty h'
      | shard h h' h'' =>
        rw [hm] at h
        cases h
        cases h'' with
        | kind g => rcases g with g | g; exact absurd hsn.2.1 g; exact absurd hsn.2.2.1 g
        | properties _ _ g => rcases g with g | g; exact absurd hsn.2.2.2.1 g; exact absurd hsn.2.2.2.2 g
        | links _ h => exact h
    rcases shardRead_fine hm hs hla hk (by simp) hty hsr with ⟨x, rfl⟩ | rfl | rfl | ⟨mm, rfl, htw⟩
    · exact ⟨_, rfl, .inl ⟨_, _, rfl⟩⟩
    · exact ⟨_, rfl, .inl ⟨_, _, rfl⟩⟩
    · simp only
      rw [hlk] at ho
      cases ho with
      | @cons _ _ o1 o2 h1 h2 =>
        cases h1 with
        | block hg' hl' hk' =>
          rw [hg] at hg'
          cases hg'
          obtain ⟨o3, h3, h4⟩ := depthFirstL_sublist (bucketCids_among hl' hm (by rw [hty]; simp)) _ hk'
          have h5 := depthFirstL_append.2 ⟨_, _, h2, h3, rfl⟩
          obtain ⟨r, hr, hgood⟩ := ih ⟨queue ++ bucketCids m.links, needle⟩ (.more hl hcw) _ h5 (by simp at hn ⊢; omega) (by
            intro c' hc'
            rcases List.mem_append.1 hc' with hc' | hc'
            · exact hf c' (by rw [hlk]; simp [hc'])
            · obtain ⟨k, hk1, hk2, hk3⟩ := bucketCids_mem.1 hc'
              refine hfc.link hg hm (List.mem_filterMap.2 ⟨k, hk1, ?_⟩)
              unfold IsBucket shardName at hk2
              simp [follow, hty, hk2, linkTo, hk3]) cache'
          rw [hr]
          refine ⟨_, rfl, ?_⟩
          rcases hgood with ⟨x, q, rfl⟩ | ⟨mm, rfl, htw⟩
          · exact .inl ⟨_, _, rfl⟩
          · exact .inr ⟨mm, rfl, htw⟩
    · exact ⟨_, rfl, .inr ⟨mm, rfl, htw⟩⟩

/-- One name in something over which a walk went. -/
theorem name_fine {d : Cid} {path : List Bytes} (h : AllFine get op ⟨d, path, .entry⟩) (name : Bytes) :
    ∃ block m, get d = some block ∧ FlatUnixFs.tryParse block = .ok m ∧
      (((m.data.Ty = .Directory ∨ m.data.Ty = .HAMTShard) ∧ ∃ r, lookupName get block name none = some r ∧ LookedUp op (path ++ [name]) r) ∨
       ((m.data.Ty = .File ∨ m.data.Ty = .Raw ∨ m.data.Ty = .Symlink) ∧
        lookupName get block name none = some (.err (.resolving (.UnexpectedType m.data.Ty))))) := by
  obtain ⟨block, m, hg, hm, hs, hmd, hla, hk⟩ := h.here
  refine ⟨block, m, hg, hm, ?_⟩
  cases hty : m.data.Ty with
  | Metadata => exact absurd hty (hmd rfl)
  | File => exact .inr ⟨by simp, by simp [lookupName, resolve, hm, hty]⟩
  | Raw => exact .inr ⟨by simp, by simp [lookupName, resolve, hm, hty]⟩
  | Symlink => exact .inr ⟨by simp, by simp [lookupName, resolve, hm, hty]⟩
  | Directory =>
    refine .inl ⟨by simp, ?_⟩
    have hn := hs.dir (by simp) hty
    have hpd : PlainDir block m.links := .inl ⟨m, hm, hn.1, hn.2.1, hn.2.2.1, hn.2.2.2.1, hn.2.2.2.2.1, hn.2.2.2.2.2, rfl⟩
    have hval := linksAre_valid hla hm (by rw [hty]; simp)
    rcases C41_cases m.links name with hno | ⟨a, l, b, he, ha, hl, hb⟩
    · refine ⟨_, ?_, .inl ⟨none, [], rfl⟩⟩
      simp [lookupName, C41_absent block name _ none hpd hno]
    · obtain ⟨c, hc⟩ := hval l (by rw [he]; simp)
      rcases hb with hb | ⟨b1, l', b2, he', hb, hl'⟩
      · rw [he] at hpd
        refine ⟨_, ?_, .inl ⟨some c, [], rfl⟩⟩
        simp [lookupName, C41_unique block name none a b l c hpd ha hb hl hc]
      · subst he'
        obtain ⟨c', hc'⟩ := hval l' (by rw [he]; simp)
        rw [he] at hpd
        obtain ⟨mm, hmm, -⟩ := C41_multiple block name none a b1 b2 l l' c hpd ha hb hl hl' hc
        refine ⟨.err (.resolving (.Lookup (.Multiple mm))), by simp [lookupName, hmm], .inr ⟨mm, rfl, c, c', ?_⟩⟩
        have hsub := two_sublist a b1 b2 l l'
        rw [← he] at hsub
        have := ((hsub.filterMap (follow ⟨d, path, .entry⟩ m)).filterMap entryKey).trans hk
        have e : ∀ l c, Named name l → Cid.tryFrom (l.Hash.getD []) = .ok c →
            follow ⟨d, path, .entry⟩ m l = some ⟨c, path ++ [name], .entry⟩ := by
          intro l c h1 hc
          unfold Named at h1
          simp [follow, hty, linkTo, hc, h1]
        simpa [e l c hl hc, e l' c' hl' hc', entryKey] using this
  | HAMTShard =>
    refine .inl ⟨by simp, ?_⟩
    have hsn := (hs.shard (by simp) hty).1
    rcases hres : resolve block name none with ⟨r0, cache'⟩
    obtain ⟨r, hr⟩ : ∃ r : Res LookupError MaybeResolved, r0 = r.mapErr .Lookup := by
      have := congrArg Prod.fst hres
      unfold resolve at this
      simp only [hm, hty] at this
      exact ⟨_, this.symm⟩
    subst hr
    have hnr := (C65_resolve block name none nofun m hm hty r).1 (by rw [hres])
    have hsr : ShardRead name [] m.links r := by
      cases hnr with
      | kind g => rcases g with g | g; exact absurd hsn.2.1 g; exact absurd hsn.2.2.1 g
      | properties _ _ g => rcases g with g | g; exact absurd hsn.2.2.2.1 g; exact absurd hsn.2.2.2.2 g
      | links _ h => exact h
    unfold lookupName
    rw [hres]
    rcases shardRead_fine hm hs hla hk (by simp) hty hsr with ⟨x, rfl⟩ | rfl | rfl | ⟨mm, rfl, htw⟩
    · exact ⟨_, rfl, .inl ⟨_, _, rfl⟩⟩
    · exact ⟨_, rfl, .inl ⟨_, _, rfl⟩⟩
    · simp only [Res.mapErr]
      have hfine : ∀ c ∈ bucketCids m.links, AllFine get op ⟨c, path, .bucket⟩ := by
        intro c hc
        obtain ⟨k, hk1, hk2, hk3⟩ := bucketCids_mem.1 hc
        refine h.link hg hm (List.mem_filterMap.2 ⟨k, hk1, ?_⟩)
        unfold IsBucket shardName at hk2
        simp [follow, hty, hk2, linkTo, hk3]
      obtain ⟨order, ho⟩ := depthFirstL_all (fun c hc => (hfine c hc).1)
      rw [List.nil_append] at hres ⊢
      exact look_fine name path order.length ⟨bucketCids m.links, name⟩ (.start hres) order ho (Nat.le_refl _) hfine cache'
    · exact ⟨_, rfl, .inr ⟨mm, rfl, htw⟩⟩

theorem segments_fine : ∀ (names : List Bytes) {d : Cid} {path : List Bytes} {cache : Option LookupCache}, AllFine get op ⟨d, path, .entry⟩ →
    CleanCache cache → ∃ r, resolveSegments get d cache names = some r ∧
      ((∃ x, r = .ok x) ∨
       (∃ mm before n after, r = .err (.Traversal (.Lookup (.Multiple mm))) ∧ names = before ++ n :: after ∧ Twice op (path ++ before ++ [n])) ∨
       (∃ before n after e block m, r = .err (.Traversal (.UnexpectedType m.data.Ty)) ∧ names = before ++ n :: after ∧ Path get d before e ∧
        get e = some block ∧ FlatUnixFs.tryParse block = .ok m ∧ (m.data.Ty = .File ∨ m.data.Ty = .Raw ∨ m.data.Ty = .Symlink))) := by
  intro names
  induction names with
  | nil => intro d path cache _ _; exact ⟨_, rfl, .inl ⟨_, rfl⟩⟩
  | cons n names ih =>
    intro d path cache hf hc
    rw [C73_segment get d cache hc n names]
    obtain ⟨block, m, hg, hm, ⟨-, r, hr, hgood⟩ | ⟨hty, hr⟩⟩ := name_fine hf n
    · simp only [hg, hr]
      rcases hgood with ⟨x, q, rfl⟩ | ⟨mm, rfl, htw⟩
      · cases x with
        | none => exact ⟨_, rfl, .inl ⟨_, rfl⟩⟩
        | some e =>
          have he := (C77_lookup get d block n none cleanCache_none hg).1 e q hr
          have hb := path_beneath (.step he (.here e)) path (fun x hx => (hf.2 x hx).2)
          obtain ⟨r, hr', h⟩ := ih (hf.beneath hb) cleanCache_none
          refine ⟨r, hr', ?_⟩
          rcases h with h | ⟨mm, before, n', after, h1, h2, h3⟩ | ⟨before, n', after, e', block', m', h1, h2, h3, h4⟩
          · exact .inl h
          · exact .inr (.inl ⟨mm, n :: before, n', after, h1, by rw [h2]; rfl, by simpa using h3⟩)
          · exact .inr (.inr ⟨n :: before, n', after, e', block', m', h1, by rw [h2]; rfl, .step he h3, h4⟩)
      · exact ⟨_, rfl, .inr (.inl ⟨mm, [], n, names, rfl, rfl, by simpa using htw⟩)⟩
    · simp only [hg, hr]
      exact ⟨_, rfl, .inr (.inr ⟨[], n, names, d, block, m, rfl, rfl, .here d, hg, hm, hty⟩)⟩

end

theorem walk_allFine (get : Cid → Option Bytes) (c : Cid) (name : Bytes) (hname : slash ∉ name) (cache : Option VisitCache)
    (hc : ∀ k, cache = some k → CacheObtainable k) (log : List (Cid × ContinuedWalk))
    (h : walkLog get (Walker.new c name) cache = some (log, .finished)) : AllFine get (opened log) ⟨c, rootPath name, .entry⟩ := by
  have hs : St c name [] (Walker.new c name) [] [⟨c, rootPath name, .entry⟩] := ⟨WInv.new _ _, .inl ⟨rfl, rfl, rfl⟩⟩
  obtain ⟨-, h2⟩ := walk_opens get c name hname _ cache _ h _ _ _ hs hc rfl
  refine ⟨⟨_, C120_walk get c name cache hc log h⟩, fun b hb => ⟨h2 _ (by simp) b hb, ?_⟩⟩
  exact ((whole_walk get c name hname cache hc log h).1 b hb).1

/-- C122: over whatever blocks a walk was done to its end, looking up names from the same root always comes to an end, without a panic and
without a missing or unreadable block. It finds something, or that there is nothing; or it fails, because a name is begun twice in one
directory, or because some name is to be looked up in a file or a symlink, to which the names before it lead. -/
theorem C122_answers (get : Cid → Option Bytes) (c : Cid) (name : Bytes) (hname : slash ∉ name) (cache : Option VisitCache)
    (hc : ∀ k, cache = some k → CacheObtainable k) (log : List (Cid × ContinuedWalk))
    (h : walkLog get (Walker.new c name) cache = some (log, .finished)) (names : List Bytes) :
    ∃ r, resolveWalk get ⟨c, names⟩ = some r ∧
      ((∃ x, r = .ok x) ∨
       (∃ mm before n after, r = .err (.Traversal (.Lookup (.Multiple mm))) ∧ names = before ++ n :: after ∧
         BegunTwice log ⟨false, rootPath name ++ before ++ [n]⟩) ∨
       (∃ before n after e block m, r = .err (.Traversal (.UnexpectedType m.data.Ty)) ∧ names = before ++ n :: after ∧ Path get c before e ∧
         get e = some block ∧ FlatUnixFs.tryParse block = .ok m ∧ (m.data.Ty = .File ∨ m.data.Ty = .Raw ∨ m.data.Ty = .Symlink))) :=
  segments_fine names (walk_allFine get c name hname cache hc log h) cleanCache_none

theorem entryOf_kind {get : Cid → Option Bytes} {d c : Cid} {n block : Bytes} {m : FlatUnixFs} (h : EntryOf get d n c) (hg : get d = some block)
    (hm : FlatUnixFs.tryParse block = .ok m) : m.data.Ty = .Directory ∨ m.data.Ty = .HAMTShard := by
  cases h with
  | plain hg' hpd _ _ _ =>
    rw [hg] at hg'
    cases hg'
    rcases hpd with ⟨m', hm', hty, -⟩ | ⟨n', hn', -, hd⟩
    · rw [hm] at hm'; cases hm'; exact .inl hty
    · exfalso
      unfold FlatUnixFs.tryParse at hm
      rw [hn'] at hm
      rcases hd with hd | ⟨s, hd, hs | ⟨e, he⟩⟩
      · simp [hd] at hm
      · simp [hd, hs] at hm
      · simp only [hd, he] at hm
        split at hm <;> cases hm
  | sharded hg' hm' hsn _ =>
    rw [hg] at hg'
    cases hg'
    rw [hm] at hm'
    cases hm'
    exact .inr hsn.1

theorem once_same {op : List (Cid × PathBuf)} (h : (op.map (·.2)).Nodup) {d d' : Cid} {p : PathBuf} (h1 : (d, p) ∈ op) (h2 : (d', p) ∈ op) : d = d' := by
  induction op with
  | nil => cases h1
  | cons x op ih =>
    rw [List.map_cons, List.nodup_cons] at h
    rcases List.mem_cons.1 h1 with e1 | h1 <;> rcases List.mem_cons.1 h2 with e2 | h2
    · rw [← e1] at e2; cases e2; rfl
    · exact absurd (List.mem_map.2 ⟨_, h2, by rw [← e1]⟩) h.1
    · exact absurd (List.mem_map.2 ⟨_, h1, by rw [← e2]⟩) h.1
    · exact ih h.2 h1 h2

/-- C122: if the walk began no path twice, looking up names finds a Cid exactly if it was reported at their path. -/
theorem C122_found (get : Cid → Option Bytes) (c : Cid) (name : Bytes) (hname : slash ∉ name) (cache : Option VisitCache)
    (hc : ∀ k, cache = some k → CacheObtainable k) (log : List (Cid × ContinuedWalk))
    (h : walkLog get (Walker.new c name) cache = some (log, .finished)) (honce : PathsOnce log) (names : List Bytes) (d : Cid) :
    resolveWalk get ⟨c, names⟩ = some (.ok (some d)) ↔ ∃ x ∈ log, whereIs x.2 = some (d, ⟨false, rootPath name ++ names⟩) := by
  refine ⟨(C121_resolve get c name hname cache hc log h names).1 d, ?_⟩
  intro hrep
  have hf := walk_allFine get c name hname cache hc log h
  have hop : ∀ {names d}, Path get c names d → (d, (⟨false, rootPath name ++ names⟩ : PathBuf)) ∈ opened log := by
    intro names d hp
    have hb := path_beneath hp (rootPath name) (fun x hx => (hf.2 x hx).2)
    exact (hf.2 _ hb).1.1 _ (by simp [entryKey])
  have hp := (C121_reported get c name hname cache hc log h names d).1 hrep
  obtain ⟨r, hr, ⟨x, rfl⟩ | ⟨mm, before, n, after, -, -, d1, d2, hsub⟩ | ⟨before, n, after, e, block, m, -, rfl, h2, h3, h4, h5⟩⟩ :=
    C122_answers get c name hname cache hc log h names
  · cases x with
    | some d' =>
      rw [hr]
      rw [once_same honce (hop (C73_found get c names d' hr)) (hop hp)]
    | none =>
      obtain ⟨before, n, after, d0, rfl, hp0, hno⟩ := C73_notFound get c names hr
      obtain ⟨d1, d2, h1, h2, -⟩ := path_split hp
      rw [once_same honce (hop h1) (hop hp0)] at h2
      exact absurd h2 (hno d2)
  · have := (hsub.map Prod.snd).nodup honce
    simp at this
  · obtain ⟨d1, d2, h6, h7, -⟩ := path_split hp
    rw [once_same honce (hop h6) (hop h2)] at h7
    rcases entryOf_kind h7 h3 h4 with h | h <;> rw [h] at h5 <;> simp at h5

/-- C122: and it says that there is nothing, or that the names go through something which is not a directory, exactly if nothing was reported
there. -/
theorem C122_absent (get : Cid → Option Bytes) (c : Cid) (name : Bytes) (hname : slash ∉ name) (cache : Option VisitCache)
    (hc : ∀ k, cache = some k → CacheObtainable k) (log : List (Cid × ContinuedWalk))
    (h : walkLog get (Walker.new c name) cache = some (log, .finished)) (honce : PathsOnce log) (names : List Bytes) :
    (resolveWalk get ⟨c, names⟩ = some (.ok none) ∨ ∃ t, resolveWalk get ⟨c, names⟩ = some (.err (.Traversal (.UnexpectedType t)))) ↔
      ∀ x ∈ log, ∀ d, whereIs x.2 ≠ some (d, ⟨false, rootPath name ++ names⟩) := by
  have hfound := C122_found get c name hname cache hc log h honce names
  constructor
  · intro hr x hx d hd
    have := (hfound d).2 ⟨x, hx, hd⟩
    rcases hr with hr | ⟨t, hr⟩ <;> rw [hr] at this <;> simp at this
  · intro hno
    obtain ⟨r, hr, ⟨x, rfl⟩ | ⟨mm, before, n, after, -, -, d1, d2, hsub⟩ | ⟨before, n, after, e, block, m, rfl, -⟩⟩ :=
      C122_answers get c name hname cache hc log h names
    · cases x with
      | none => exact .inl hr
      | some d =>
        obtain ⟨x, hx, hd⟩ := (hfound d).1 hr
        exact absurd hd (hno x hx d)
    · have := (hsub.map Prod.snd).nodup honce
      simp at this
    · exact .inr ⟨_, hr⟩

/-! ### examples -/

/-- The sample tree: no path is begun twice; what the names lead to is found, `b` is nowhere, and in the file `a` no name can be looked up. -/
theorem C122_example : ∃ log, walkLog (storeN sampleFsBlocks) (Walker.new (cidN 0) []) none = some (log, .finished) ∧ PathsOnce log ∧
    resolveWalk (storeN sampleFsBlocks) ⟨cidN 0, [[115], [108]]⟩ = some (.ok (some (cidN 6))) ∧
    resolveWalk (storeN sampleFsBlocks) ⟨cidN 0, [[98]]⟩ = some (.ok none) ∧
    resolveWalk (storeN sampleFsBlocks) ⟨cidN 0, [[97], [97]]⟩ = some (.err (.Traversal (.UnexpectedType .File))) := by
  obtain ⟨log, h1, h2, -⟩ := C120_tree (storeN sampleFsBlocks) sampleRoot none sampleRoot_at trivial (by decide) nofun (by
    rw [show sampleRoot.walkItems = _ :: _ from rfl, ← bad_iff]; decide +kernel)
  have h1' : walkLog (storeN sampleFsBlocks) (Walker.new (cidN 0) []) none = some (log, .finished) := h1
  have hop : opened log = (rootCids sampleRoot.cid sampleRoot.walkItems).filterMap opens := by
    rw [← h2, List.filterMap_map]
    rfl
  have honce : PathsOnce log := by
    unfold PathsOnce
    rw [hop]
    decide +kernel
  refine ⟨log, h1', honce, ?_, ?_, ?_⟩
  · rw [C122_found _ _ _ (by decide) none nofun _ h1' honce, C121_reported _ _ _ (by decide) none nofun _ h1']
    obtain ⟨-, -, h, -⟩ := C121_example
    exact h
  · simp only [resolveWalk, resolveSegments, show storeN sampleFsBlocks (cidN 0) = some (dirMsg [linkN 1 [97], linkN 4 [115], linkN 7 [100]]).write from by decide +kernel,
      show resolve (dirMsg [linkN 1 [97], linkN 4 [115], linkN 7 [100]]).write [98] none = (.ok .NotFound, none) from by decide +kernel]
  · simp only [resolveWalk, resolveSegments, show storeN sampleFsBlocks (cidN 0) = some (dirMsg [linkN 1 [97], linkN 4 [115], linkN 7 [100]]).write from by decide +kernel,
      show resolve (dirMsg [linkN 1 [97], linkN 4 [115], linkN 7 [100]]).write [97] none = (.ok (.Found (cidN 1)), none) from by decide +kernel,
      show storeN sampleFsBlocks (cidN 1) = some (FlatUnixFs.mk [linkN 2 [], linkN 3 []] { Ty := .File, filesize := some 3, blocksizes := [2, 1] }).write
        from by decide +kernel,
      show resolve (FlatUnixFs.mk [linkN 2 [], linkN 3 []] { Ty := .File, filesize := some 3, blocksizes := [2, 1] }).write [97] none =
        (.err (.UnexpectedType .File), none) from by decide +kernel]

/-- A directory with two entries of the same name. -/
def doubleBlocks : List (UInt8 × FlatUnixFs) := [(0, dirMsg [linkN 1 [97], linkN 1 [97]]), (1, dirMsg [])]

def doubleTree : FsTree :=
  .dir ⟨cidN 0, [], { mode := some 0o755 }⟩ [.dir ⟨cidN 1, [97], { mode := some 0o755 }⟩ [], .dir ⟨cidN 1, [97], { mode := some 0o755 }⟩ []]

/-- C122: that a path is begun twice can happen, and then the name cannot be looked up: the walk finishes, and the answer is an error. -/
theorem C122_twice : ∃ log mm, walkLog (storeN doubleBlocks) (Walker.new (cidN 0) []) none = some (log, .finished) ∧ ¬ PathsOnce log ∧
    resolveWalk (storeN doubleBlocks) ⟨cidN 0, [[97]]⟩ = some (.err (.Traversal (.Lookup (.Multiple mm)))) := by
  have hat : FsAt (storeN doubleBlocks) doubleTree := by
    have h0 : storeN doubleBlocks (cidN 0) = some (dirMsg [linkN 1 [97], linkN 1 [97]]).write := by decide +kernel
    have h1 : storeN doubleBlocks (cidN 1) = some (dirMsg []).write := by decide +kernel
    have p0 : FlatUnixFs.tryParse (dirMsg [linkN 1 [97], linkN 1 [97]]).write = .ok (dirMsg [linkN 1 [97], linkN 1 [97]]) := by decide +kernel
    have p1 : FlatUnixFs.tryParse (dirMsg []).write = .ok (dirMsg []) := by decide +kernel
    have kid : FsAt (storeN doubleBlocks) (.dir ⟨cidN 1, [97], { mode := some 0o755 }⟩ []) := by
      simp only [FsAt]
      exact ⟨_, _, h1, p1, rfl, ⟨rfl, rfl, rfl, rfl, rfl, rfl⟩, trivial⟩
    have hgood : GoodName [97] := by unfold GoodName; decide
    unfold doubleTree
    rw [FsAt]
    refine ⟨_, _, h0, p0, rfl, ⟨rfl, rfl, rfl, rfl, rfl, rfl⟩, ⟨trivial, hgood, rfl, by decide +kernel, kid⟩, ⟨trivial, hgood, rfl, by decide +kernel, kid⟩, trivial⟩
  obtain ⟨log, h1, h2, -⟩ := C120_tree (storeN doubleBlocks) doubleTree none hat trivial (by decide) nofun (by
    rw [show doubleTree.walkItems = _ :: _ from rfl, ← bad_iff]; decide +kernel)
  have hop : opened log = (rootCids doubleTree.cid doubleTree.walkItems).filterMap opens := by
    rw [← h2, List.filterMap_map]
    rfl
  refine ⟨log, .Two (0, cidN 1) (1, cidN 1), h1, ?_, ?_⟩
  · unfold PathsOnce
    rw [hop]
    decide +kernel
  · simp only [resolveWalk, resolveSegments, show storeN doubleBlocks (cidN 0) = some (dirMsg [linkN 1 [97], linkN 1 [97]]).write from by decide +kernel,
      show resolve (dirMsg [linkN 1 [97], linkN 1 [97]]).write [97] none = (.err (.Lookup (.Multiple (.Two (0, cidN 1) (1, cidN 1)))), none) from by decide +kernel]

end Verif.Props
