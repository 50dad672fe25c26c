import Verif.WalkLemmas
import Verif.BuilderRun
import Verif.Props.Reader
/-
The invariant of a walker: what it holds is what is still to be visited.
-/
namespace Verif
open Verif.Spec Verif.Props

theorem collectLinks_follow {path : List Bytes} : ∀ {links : List PBLink} {sizes : List Nat} {nth base : Nat} {ps : List Pending},
    links.length = sizes.length → collectLinks none nth base (links.zip sizes) = .ok ps →
    (links.filterMap (linkTo path .fileBlock)).map (·.cid) = ps.map (·.1) := by
  intro links
  induction links with
  | nil =>
    intro sizes nth base ps _ h
    simp only [List.zip_nil_left, collectLinks] at h
    cases h; rfl
  | cons l links ih =>
    intro sizes nth base ps hlen h
    cases sizes with
    | nil => cases hlen
    | cons n sizes =>
      simp only [List.zip_cons_cons, collectLinks, blockIsInTargetRange] at h
      rw [Res.bind_ok_iff] at h
      obtain ⟨stop, _, h⟩ := h
      simp only [Bool.true_eq_false, if_false] at h
      rw [Res.bind_ok_iff] at h
      obtain ⟨p, hp, h⟩ := h
      rw [Res.bind_ok_iff] at h
      obtain ⟨ps', hps, h⟩ := h
      cases h
      have := ih (by simpa using hlen) hps
      unfold toPending at hp
      split at hp
      · next cid hc =>
        cases hp
        rw [List.filterMap_cons_some (b := ⟨cid, path, .fileBlock⟩) (by simp [linkTo, hc])]
        simp [this]
      · cases hp

theorem filterMap_follow_fileBlock (a : Awaited) (m : FlatUnixFs) (h : a.what = .fileBlock) :
    m.links.filterMap (follow a m) = m.links.filterMap (linkTo a.path .fileBlock) := by
  congr 1
  funext l
  simp [follow, h]

theorem filterMap_follow_file (a : Awaited) (m : FlatUnixFs) (h : m.data.Ty = .Raw ∨ m.data.Ty = .File) :
    m.links.filterMap (follow a m) = m.links.filterMap (linkTo a.path .fileBlock) := by
  congr 1
  funext l
  rcases h with h | h <;> simp [follow, h]

theorem linkTo_what {path : List Bytes} {what : What} {l : PBLink} {a : Awaited} (h : linkTo path what l = some a) : a.what = what := by
  unfold linkTo at h
  split at h
  · cases h; rfl
  · cases h

/-- Converted links have the Cids of the links. -/
theorem convertLink_cid {d i : Nat} {l : PBLink} {w : WalkLink} (h : convertLink d i l = .ok w) :
    ∃ n, l.Name = some n ∧ Cid.tryFrom (l.Hash.getD []) = .ok w.cid ∧ n ≠ [] ∧ slash ∉ n ∧ w = ⟨w.cid, n, d⟩ := by
  unfold convertLink at h
  split at h
  · cases h
  next c hc =>
  split at h
  · cases h
  next n hn =>
  split at h
  · cases h
  split at h
  · cases h
  next h1 h2 =>
  cases h
  exact ⟨n, hn, hc, h1, h2, rfl⟩

theorem convertShardedLink_cid {d s i : Nat} {l : PBLink} {w : WalkLink} (h : convertShardedLink d s i l = .ok w) :
    ∃ n, l.Name = some n ∧ Cid.tryFrom (l.Hash.getD []) = .ok w.cid ∧
      ((2 < n.length ∧ slash ∉ n.drop 2 ∧ w = ⟨w.cid, n.drop 2, d⟩) ∨ (n.length = 2 ∧ w = ⟨w.cid, [], s⟩)) := by
  unfold convertShardedLink at h
  split at h
  · cases h
  next c hc =>
  split at h
  · cases h
  next n hn =>
  split at h
  next h1 =>
    split at h
    · cases h
    split at h
    · cases h
    next h2 =>
    cases h
    exact ⟨n, hn, hc, .inl ⟨h1, h2, rfl⟩⟩
  next h1 =>
    split at h
    next h2 => cases h; exact ⟨n, hn, hc, .inr ⟨h2, rfl⟩⟩
    · cases h

/-- Links which were converted one by one, and what they lead to. -/
theorem converted {conv : Nat → PBLink → Res InvalidCidInLink WalkLink} {f : PBLink → Option Awaited} {R : WalkLink → Awaited → Prop} :
    ∀ {links : List PBLink} {k : Nat} {ls : List WalkLink}, (links.zipIdx k).map (fun x => conv x.2 x.1) = ls.map .ok →
      (∀ l ∈ links, ∀ i w, conv i l = .ok w → ∃ a, f l = some a ∧ R w a) →
      (links.filterMap f).length = ls.length ∧ ∀ x ∈ ls.zip (links.filterMap f), R x.1 x.2 := by
  intro links
  induction links with
  | nil =>
    intro k ls h _
    cases ls with
    | nil => simp
    | cons _ _ => cases h
  | cons l links ih =>
    intro k ls h hf
    cases ls with
    | nil => simp at h
    | cons w ls =>
      simp only [List.zipIdx_cons, List.map_cons, List.cons.injEq] at h
      obtain ⟨a, ha, hr⟩ := hf l (by simp) _ _ h.1
      have := ih h.2 (fun l hl => hf l (by simp [hl]))
      rw [List.filterMap_cons_some ha]
      simp only [List.length_cons, this.1, List.zip_cons_cons, List.mem_cons, forall_eq_or_imp, true_and]
      exact ⟨hr, this.2⟩

theorem zip_map_eq {α β γ : Type} {f : α → γ} {g : β → γ} : ∀ {as : List α} {bs : List β}, bs.length = as.length →
    (∀ x ∈ as.zip bs, f x.1 = g x.2) → as.map f = bs.map g := by
  intro as
  induction as with
  | nil => intro bs h _; cases bs <;> simp_all
  | cons a as ih =>
    intro bs h hx
    cases bs with
    | nil => cases h
    | cons b bs =>
      simp only [List.zip_cons_cons, List.mem_cons, forall_eq_or_imp] at hx
      simp only [List.map_cons, hx.1]
      rw [ih (by simpa using h) hx.2]

theorem zip_mem_right {α β : Type} : ∀ {as : List α} {bs : List β}, bs.length = as.length → ∀ b ∈ bs, ∃ a ∈ as, (a, b) ∈ as.zip bs := by
  intro as
  induction as with
  | nil => intro bs h b hb; cases bs <;> simp_all
  | cons a as ih =>
    intro bs h b hb
    cases bs with
    | nil => cases h
    | cons b' bs =>
      rcases List.mem_cons.1 hb with rfl | hb
      · exact ⟨a, by simp, by simp⟩
      · obtain ⟨a', h1, h2⟩ := ih (by simpa using h) b hb
        exact ⟨a', by simp [h1], by simp [h2]⟩

/-- What the links of a directory lead to. -/
theorem directory_links {a : Awaited} {m : FlatUnixFs} {d : Nat} {ls : List WalkLink} (ha : a.what ≠ .fileBlock)
    (hty : m.data.Ty = .Directory) (h : m.links.zipIdx.map (fun x => convertLink d x.2 x.1) = ls.map .ok) :
    (m.links.filterMap (follow a m)).length = ls.length ∧ ∀ x ∈ ls.zip (m.links.filterMap (follow a m)),
      x.1 = ⟨x.2.cid, x.1.name, d⟩ ∧ x.1.name ≠ [] ∧ slash ∉ x.1.name ∧ x.2.what = .entry ∧ x.2.path = a.path ++ [x.1.name] ∧
        ∃ l ∈ m.links, l.Name = some x.1.name := by
  refine converted (R := fun w b => w = ⟨b.cid, w.name, d⟩ ∧ w.name ≠ [] ∧ slash ∉ w.name ∧ b.what = .entry ∧
    b.path = a.path ++ [w.name] ∧ ∃ l ∈ m.links, l.Name = some w.name) h ?_
  intro l hl i w hw
  obtain ⟨n, hn, hc, h1, h2, h3⟩ := convertLink_cid hw
  have hwn : w.name = n := by rw [h3]
  refine ⟨⟨w.cid, a.path ++ [n], .entry⟩, ?_, ?_⟩
  · simp [follow, ha, hty, linkTo, hc, hn]
  · rw [hwn]
    exact ⟨h3, h1, h2, rfl, rfl, l, hl, hn⟩

/-- What the links of a shard lead to. -/
theorem shard_links {a : Awaited} {m : FlatUnixFs} {d s : Nat} {ls : List WalkLink} (ha : a.what ≠ .fileBlock)
    (hty : m.data.Ty = .HAMTShard) (h : m.links.zipIdx.map (fun x => convertShardedLink d s x.2 x.1) = ls.map .ok) :
    (m.links.filterMap (follow a m)).length = ls.length ∧ ∀ x ∈ ls.zip (m.links.filterMap (follow a m)),
      (x.1 = ⟨x.2.cid, x.1.name, d⟩ ∧ x.1.name ≠ [] ∧ slash ∉ x.1.name ∧ x.2.what = .entry ∧ x.2.path = a.path ++ [x.1.name] ∧
        ∃ l ∈ m.links, ∃ n, l.Name = some n ∧ x.1.name = n.drop 2) ∨
      (x.1 = ⟨x.2.cid, [], s⟩ ∧ x.2.what = .bucket ∧ x.2.path = a.path) := by
  refine converted (R := fun w b => (w = ⟨b.cid, w.name, d⟩ ∧ w.name ≠ [] ∧ slash ∉ w.name ∧ b.what = .entry ∧
    b.path = a.path ++ [w.name] ∧ ∃ l ∈ m.links, ∃ n, l.Name = some n ∧ w.name = n.drop 2) ∨
    (w = ⟨b.cid, [], s⟩ ∧ b.what = .bucket ∧ b.path = a.path)) h ?_
  intro l hl i w hw
  obtain ⟨n, hn, hc, ⟨h1, h2, h3⟩ | ⟨h1, h3⟩⟩ := convertShardedLink_cid hw
  · have hwn : w.name = n.drop 2 := by rw [h3]
    refine ⟨⟨w.cid, a.path ++ [n.drop 2], .entry⟩, ?_, .inl ?_⟩
    · simp only [follow, ha, if_false, hty, linkTo, hc, hn, Option.getD_some]
      rw [if_neg (by omega)]
    · rw [hwn]
      refine ⟨h3, ?_, h2, rfl, rfl, l, hl, n, hn, rfl⟩
      intro h0
      have := congrArg List.length h0
      simp only [List.length_drop, List.length_nil] at this
      omega
  · refine ⟨⟨w.cid, a.path, .bucket⟩, ?_, .inr ⟨h3, rfl, rfl⟩⟩
    simp [follow, ha, hty, linkTo, hc, hn, h1]

theorem start_parsed {b : Bytes} {m : FlatUnixFs} (hm : FlatUnixFs.tryParse b = .ok m) (target : Option Rng) {cache : Option VisitCache}
    (hc : ∀ k, cache = some k → CacheObtainable k) :
    ((IdleFileVisit.mk target).startFromParsed m cache).1 = (IdleFileVisit.mk target).start b := by
  rw [(C25_start_cache ⟨target⟩ m cache none hc (by intro k h; cases h)).1]
  unfold IdleFileVisit.startFromParsed IdleFileVisit.start FileReader.fromParsed FileReader.fromBlock
  rw [hm]
  simp only
  cases FileReader.fromParts m 0 (Metadata.ofUnixFs m.data) <;> rfl

/-- The blocks of the ongoing file visit. -/
def FilePart (w : Walker) (fb : List Awaited) : Prop :=
  (w.atRest ∧ fb = []) ∨
  ∃ ie v sz, w.current = some ie ∧ ie.kind = .File (some v) sz ∧ fb ≠ [] ∧ (∀ a ∈ fb, a.what = .fileBlock) ∧
    fb.map (·.cid) = v.pending.reverse.map (·.1) ∧ ∃ root ls, Visiting none root ls v

structure WInv (w : Walker) (fb rest : List Awaited) : Prop where
  file : FilePart w fb
  cids : rest.map (·.cid) = w.links.map (·.cid)
  what : ∀ a ∈ rest, a.what ≠ .fileBlock
  pend : w.next = none → w.pending = []
  cont : w.should_continue = decide (fb ++ rest ≠ [])

theorem popNext_wlinks (c : Option InnerEntry) (p : List WalkLink) : (Walker.popNext c p).links = p.reverse := popNext_links c p

theorem popNext_some (c : Option InnerEntry) (p : List WalkLink) : (Walker.popNext c p).next.isSome = decide (p ≠ []) := by
  unfold Walker.popNext
  rcases List.eq_nil_or_concat p with rfl | ⟨q, a, rfl⟩
  · rfl
  · simp

theorem links_some {w : Walker} {n : WalkLink} (h : w.next = some n) : w.links = n :: w.pending.reverse := by
  simp [Walker.links, h]

theorem links_nil {w : Walker} (h : w.next = none → w.pending = []) : w.next.isSome = decide (w.links ≠ []) := by
  cases hn : w.next with
  | none => simp [Walker.links, hn, h hn]
  | some n => simp [Walker.links, hn]

theorem visit_ok {a : Awaited} {aw : List Awaited} {b : Bytes} {m : FlatUnixFs} (hm : FlatUnixFs.tryParse b = .ok m) :
    visit (a :: aw) b = m.links.filterMap (follow a m) ++ aw := by
  simp [visit, hm]

theorem atRest_of {c : InnerEntry} {w : Walker} (h : w.current = some c) (hk : ∀ v sz, c.kind ≠ .File (some v) sz) : w.atRest := by
  intro ie v sz h1 h2
  rw [h] at h1
  cases h1
  exact hk v sz h2

theorem setPath_kind {ε : Type} {ie ie' : InnerEntry} {n : Bytes} {d : Nat} (h : (ie.setPath n d : Res ε InnerEntry) = .ok ie') :
    ie'.kind = ie.kind ∧ ie'.cid = ie.cid ∧ ie'.metadata = ie.metadata := by
  unfold InnerEntry.setPath at h
  split at h
  · cases h
  rw [Res.bind_ok_iff] at h
  obtain ⟨p, _, h⟩ := h
  simp only at h
  split at h
  · cases h
  · cases h; exact ⟨rfl, rfl, rfl⟩

theorem asKind_kind {ε : Type} {ie ie' : InnerEntry} {k : InnerKind} {c : Cid} {n : Bytes} {d : Nat} {md : Metadata}
    (h : (ie.asKind k c n d md : Res ε InnerEntry) = .ok ie') : ie'.kind = k ∧ ie'.cid = c ∧ ie'.metadata = md := by
  unfold InnerEntry.asKind at h
  split at h
  · cases h
  · rw [Res.bind_ok_iff] at h
    obtain ⟨x, hx, h⟩ := h
    cases h
    have := setPath_kind hx
    exact ⟨this.1, this.2.1, rfl⟩

theorem asBucket_kind {ε : Type} {ie ie' : InnerEntry} {c : Cid} {d : Nat} (h : (ie.asBucket c d : Res ε InnerEntry) = .ok ie') :
    (ie'.kind = .BucketAtRoot ∧ ie' = ie) ∨ (ie'.kind = .Bucket ∧ ie'.cid = c ∧ ie.kind ≠ .BucketAtRoot) := by
  unfold InnerEntry.asBucket at h
  split at h
  · next hk =>
    split at h
    · cases h
    · cases h; exact .inl ⟨hk, rfl⟩
  all_goals first
    | cases h; done
    | (rename_i hk
       rw [Res.bind_ok_iff] at h
       obtain ⟨⟨d', p'⟩, _, h⟩ := h
       simp only at h
       split at h
       · cases h
       · cases h; exact .inr ⟨rfl, rfl, by rw [hk]; simp⟩)

theorem enterDirectory_kind {w : Walker} {md : Metadata} {n : WalkLink} {ie : InnerEntry} {item : ContinuedWalk}
    (h : w.enterDirectory md n = .ok (ie, item)) :
    (ie.kind = .RootDirectory ∨ ie.kind = .Directory) ∧ ie.cid = n.cid ∧ ie.metadata = md := by
  unfold Walker.enterDirectory at h
  split at h
  · cases h; exact ⟨.inl rfl, rfl, rfl⟩
  · rw [Res.bind_ok_iff] at h
    obtain ⟨x, hx, h⟩ := h
    cases h
    have := asKind_kind hx
    exact ⟨.inr this.1, this.2⟩

theorem enterShard_kind {w : Walker} {md : Metadata} {n : WalkLink} {ie : InnerEntry} {item : ContinuedWalk}
    (h : w.enterShard md n = .ok (ie, item)) : ie.kind = .BucketAtRoot ∨ ie.kind = .Bucket ∨ ie.kind = .RootBucket := by
  unfold Walker.enterShard at h
  split at h
  · cases h; exact .inl rfl
  · split at h
    · rw [Res.bind_ok_iff] at h
      obtain ⟨x, hx, h⟩ := h
      cases h
      rcases asBucket_kind hx with h | h
      · exact .inl h.1
      · exact .inr (.inl h.1)
    · rw [Res.bind_ok_iff] at h
      obtain ⟨x, hx, h⟩ := h
      cases h
      exact .inr (.inr (asKind_kind hx).1)

theorem enterLeaf_kind {w : Walker} {k : InnerKind} {md : Metadata} {n : WalkLink} {ie : InnerEntry}
    (h : w.enterLeaf k md n = .ok ie) : ie.kind = k ∧ ie.cid = n.cid ∧ ie.metadata = md := by
  unfold Walker.enterLeaf at h
  split at h
  · cases h; exact ⟨rfl, rfl, rfl⟩
  · exact asKind_kind h

theorem cont_eq {p ls : List WalkLink} {k r : List Awaited} (h1 : k.length = ls.length) (h2 : r.length = p.length) :
    decide (p ++ ls.reverse ≠ []) = decide ([] ++ (k ++ r) ≠ []) := by
  have h : (p ++ ls.reverse ≠ []) ↔ ([] ++ (k ++ r) ≠ []) := by
    simp only [List.nil_append, ne_eq, ← List.length_eq_zero_iff, List.length_append, List.length_reverse, h1, h2]
    omega
  simp only [h]

theorem WInv.new (cid : Cid) (name : Bytes) : WInv (Walker.new cid name) [] [⟨cid, rootPath name, .entry⟩] where
  file := .inl ⟨(by intro ie v sz h; cases h), rfl⟩
  cids := rfl
  what := by simp
  pend := by intro h; cases h
  cont := rfl

theorem WInv.rest_cons {w : Walker} {fb rest : List Awaited} (h : WInv w fb rest) {n : WalkLink} (hn : w.next = some n) :
    ∃ a rest', rest = a :: rest' ∧ a.cid = n.cid ∧ rest'.map (·.cid) = w.pending.reverse.map (·.cid) := by
  have := h.cids
  rw [links_some hn] at this
  cases rest with
  | nil => cases this
  | cons a rest' =>
    simp only [List.map_cons, List.cons.injEq] at this
    exact ⟨a, rest', rfl, this⟩

theorem FilePart.of_atRest {w : Walker} {fb : List Awaited} (h : FilePart w fb) (hr : w.atRest) : fb = [] := by
  rcases h with h | ⟨ie, v, sz, h1, h2, _⟩
  · exact h.2
  · exact absurd h2 (hr ie v sz h1)

theorem FilePart.of_inFile {w : Walker} {fb : List Awaited} (h : FilePart w fb) {ie : InnerEntry} {v : FileVisit} {sz : Nat}
    (h1 : w.current = some ie) (h2 : ie.kind = .File (some v) sz) :
    fb ≠ [] ∧ (∀ a ∈ fb, a.what = .fileBlock) ∧ fb.map (·.cid) = v.pending.reverse.map (·.1) ∧ ∃ root ls, Visiting none root ls v := by
  rcases h with h | ⟨ie', v', sz', h1', h2', h3⟩
  · exact absurd h2 (h.1 ie v sz h1)
  · rw [h1] at h1'
    cases h1'
    rw [h2] at h2'
    cases h2'
    exact h3

/-- The step on the awaited blocks. -/
theorem WInv.step {w w' : Walker} {fb rest : List Awaited} {b : Bytes} {cache : Option VisitCache}
    {item : ContinuedWalk} (h : WInv w fb rest) (hc : ∀ k, cache = some k → CacheObtainable k) (hs : WStep w b cache item w') :
    ∃ m a aw fb' rest', FlatUnixFs.tryParse b = .ok m ∧ fb ++ rest = a :: aw ∧
      m.links.filterMap (follow a m) ++ aw = fb' ++ rest' ∧ WInv w' fb' rest' := by
  cases hs with
  | later ie v sz c next h1 h2 h3 h4 h5 =>
    obtain ⟨hne, hwhat, hcids, root, ls, hv⟩ := h.file.of_inFile h1 h2
    obtain ⟨P, cid, i, m, fs, hp, -, hm, -, ha, hl, hn⟩ := continueWalk_ok h3
    cases fb with
    | nil => exact absurd rfl hne
    | cons a fb =>
      have hcids' : fb.map (·.cid) = P.reverse.map (·.1) := by
        rw [hp] at hcids
        simpa using (congrArg List.tail hcids)
      have haw : a.what = .fileBlock := hwhat a (by simp)
      have hrange := (visiting_inv hv).2.1
      have hcont := h.cont
      refine ⟨m, a, fb ++ rest, m.links.filterMap (follow a m) ++ fb, rest, hm, rfl, by simp, ?_⟩
      subst h5
      have hfile : FilePart ⟨some { ie with kind := .File next sz }, w.next, w.pending, next.isSome || w.next.isSome⟩
          (m.links.filterMap (follow a m) ++ fb) ∧ next.isSome = decide (m.links.filterMap (follow a m) ++ fb ≠ []) := by
        by_cases hlinks : m.links = []
        · obtain ⟨_, hnext⟩ := hl hlinks
          rw [hlinks]
          simp only [List.filterMap_nil, List.nil_append]
          by_cases hP : P = []
          · subst hP
            rw [if_pos rfl] at hnext
            subst hnext
            have hfb : fb = [] := by simpa using hcids'
            subst hfb
            refine ⟨.inl ⟨?_, rfl⟩, rfl⟩
            intro ie' v' sz' h1' h2'
            cases h1'
            cases h2'
          · rw [if_neg hP] at hnext
            have hfb : fb ≠ [] := by
              rintro rfl
              simp at hcids'
              exact hP hcids'
            subst hnext
            refine ⟨.inr ⟨_, _, sz, rfl, rfl, hfb, fun a ha => hwhat a (by simp [ha]), hcids', root, ls ++ [⟨i.lo, fs⟩], ?_⟩, by simp [hfb]⟩
            have hI : nextInterval v = some i := by simp [nextInterval, hp]
            exact .leaf hv h3 hm hlinks hI ha.filesize
        · obtain ⟨_, ps, hps, hnext⟩ := hn hlinks
          rw [hrange] at hps
          have hk := collectLinks_follow (path := a.path) ha.sizes hps
          rw [← filterMap_follow_fileBlock a m haw] at hk
          obtain ⟨p, ps', rfl, _⟩ := collectLinks_none_head hps (zip_ne_nil hlinks ha.sizes)
          have hkne : m.links.filterMap (follow a m) ≠ [] := by
            intro h0; rw [h0] at hk; cases hk
          subst hnext
          refine ⟨.inr ⟨_, _, sz, rfl, rfl, by simp [hkne], ?_, ?_, root, ls, ?_⟩, by simp [hkne]⟩
          · intro x hx
            rcases List.mem_append.1 hx with hx | hx
            · obtain ⟨l, _, hl'⟩ := List.mem_filterMap.1 hx
              simp only [follow, haw, if_true] at hl'
              exact linkTo_what hl'
            · exact hwhat x (by simp [hx])
          · simp [hk, hcids']
          · exact .link hv h3 hm hlinks
      refine ⟨hfile.1, h.cids, h.what, h.pend, ?_⟩
      show (next.isSome || w.next.isSome) = _
      have hr : (w.links ≠ []) = (rest ≠ []) := by
        have := h.cids
        cases rest <;> cases hw : w.links <;> simp [hw] at this ⊢
      rw [hfile.2, links_nil h.pend]
      simp only [hr]
      by_cases hrr : rest = [] <;> by_cases hff : m.links.filterMap (follow a m) ++ fb = [] <;> simp [hrr, hff] <;> simp_all
  | directory m n ls ie hr hm hty hsup hn hls he hw =>
    have hfb := h.file.of_atRest hr
    subst hfb
    obtain ⟨a, rest', rfl, ha, hrest'⟩ := h.rest_cons hn
    have hk := directory_links (a := a) (h.what a (by simp)) hty hls
    refine ⟨m, a, rest', [], m.links.filterMap (follow a m) ++ rest', hm, rfl, rfl, ?_⟩
    subst hw
    refine ⟨.inl ⟨?_, rfl⟩, ?_, ?_, popNext_none _ _, ?_⟩
    · refine atRest_of (popNext_current _ _) ?_
      rcases (enterDirectory_kind he).1 with h | h <;> intro v sz <;> rw [h] <;> simp
    · rw [popNext_wlinks]
      rw [List.reverse_append, List.reverse_reverse, List.map_append, List.map_append, hrest',
        ← zip_map_eq (f := (·.cid)) (g := (·.cid)) hk.1 (fun x hx => by rw [(hk.2 x hx).1])]
    · intro x hx
      rcases List.mem_append.1 hx with hx | hx
      · obtain ⟨y, _, hxy⟩ := zip_mem_right hk.1 x hx
        rw [(hk.2 _ hxy).2.2.2.1]; simp
      · exact h.what x (by simp [hx])
    · rw [popNext_continue, popNext_some]
      have h1 := hk.1
      have h2 := congrArg List.length hrest'
      simp only [List.length_map, List.length_reverse] at h2
      exact cont_eq h1 h2
  | shard m n ls ie hr hm hty hsup hn hls he hw =>
    have hfb := h.file.of_atRest hr
    subst hfb
    obtain ⟨a, rest', rfl, ha, hrest'⟩ := h.rest_cons hn
    have hk := shard_links (a := a) (h.what a (by simp)) hty hls
    refine ⟨m, a, rest', [], m.links.filterMap (follow a m) ++ rest', hm, rfl, rfl, ?_⟩
    subst hw
    refine ⟨.inl ⟨?_, rfl⟩, ?_, ?_, popNext_none _ _, ?_⟩
    · refine atRest_of (popNext_current _ _) ?_
      rcases enterShard_kind he with h | h | h <;> intro v sz <;> rw [h] <;> simp
    · rw [popNext_wlinks]
      rw [List.reverse_append, List.reverse_reverse, List.map_append, List.map_append, hrest',
        ← zip_map_eq (f := (·.cid)) (g := (·.cid)) hk.1 (fun x hx => by rcases hk.2 x hx with h | h <;> rw [h.1])]
    · intro x hx
      rcases List.mem_append.1 hx with hx | hx
      · obtain ⟨y, _, hxy⟩ := zip_mem_right hk.1 x hx
        rcases hk.2 _ hxy with h | h
        · have := h.2.2.2.1; simp only at this; rw [this]; simp
        · have := h.2.1; simp only at this; rw [this]; simp
      · exact h.what x (by simp [hx])
    · rw [popNext_continue, popNext_some]
      have h1 := hk.1
      have h2 := congrArg List.length hrest'
      simp only [List.length_map, List.length_reverse] at h2
      exact cont_eq h1 h2
  | first m n r ie hr hm hty hres hn he hitem hw =>
    have hfb := h.file.of_atRest hr
    subst hfb
    obtain ⟨a, rest', rfl, ha, hrest'⟩ := h.rest_cons hn
    have hst : (IdleFileVisit.mk none).start b = .ok r := by rw [← start_parsed hm none hc]; exact hres
    obtain ⟨m', fs, hm', hacc, hl, hl'⟩ := start_ok hst
    rw [hm] at hm'
    cases hm'
    have hkind := enterLeaf_kind he
    refine ⟨m, a, rest', m.links.filterMap (follow a m), rest', hm, rfl, rfl, ?_⟩
    subst hw
    have hfile : FilePart { Walker.popNext (some ie) w.pending with
        should_continue := r.next.isSome || (Walker.popNext (some ie) w.pending).next.isSome } (m.links.filterMap (follow a m)) ∧
        r.next.isSome = decide (m.links.filterMap (follow a m) ≠ []) := by
      by_cases hlinks : m.links = []
      · rw [hl hlinks] at hkind
        refine ⟨.inl ⟨atRest_of (popNext_current _ _) ?_, by rw [hlinks]; rfl⟩, by rw [hl hlinks, hlinks]; rfl⟩
        intro v sz h0
        rw [hkind.1] at h0
        simp at h0
      · obtain ⟨ps, hps, hr'⟩ := hl' hlinks
        have hk := collectLinks_follow (path := a.path) hacc.sizes hps
        rw [← filterMap_follow_file a m hty] at hk
        obtain ⟨p, ps', rfl, _⟩ := collectLinks_none_head hps (zip_ne_nil hlinks hacc.sizes)
        have hkne : m.links.filterMap (follow a m) ≠ [] := by
          intro h0; rw [h0] at hk; cases hk
        rw [if_neg (by simp)] at hr'
        refine ⟨.inr ⟨ie, _, fs, popNext_current _ _, by rw [hkind.1, hr'], hkne, ?_, by rw [hk]; simp, b, [], .start hst (by rw [hr'])⟩, by simp [hr', hkne]⟩
        intro x hx
        rw [filterMap_follow_file a m hty] at hx
        obtain ⟨l, _, hl'⟩ := List.mem_filterMap.1 hx
        exact linkTo_what hl'
    refine ⟨hfile.1, ?_, fun x hx => h.what x (by simp [hx]), popNext_none _ _, ?_⟩
    · show _ = (Walker.popNext (some ie) w.pending).links.map _
      rw [popNext_wlinks]
      exact hrest'
    · show (r.next.isSome || (Walker.popNext (some ie) w.pending).next.isSome) = _
      rw [hfile.2, popNext_some]
      have h2 := congrArg List.length hrest'
      simp only [List.length_map, List.length_reverse] at h2
      have : (w.pending ≠ []) = (rest' ≠ []) := by
        simp only [ne_eq, ← List.length_eq_zero_iff, h2]
      simp only [this]
      by_cases h1 : rest' = [] <;> by_cases h3 : m.links.filterMap (follow a m) = [] <;> simp [h1, h3]
  | symlink m n ie hr hm hty hn he hitem hw =>
    have hfb := h.file.of_atRest hr
    subst hfb
    obtain ⟨a, rest', rfl, ha, hrest'⟩ := h.rest_cons hn
    have hkind := enterLeaf_kind he
    have haw := h.what a (by simp)
    have hk : m.links.filterMap (follow a m) = [] := by
      rw [List.filterMap_eq_nil_iff]
      intro l _
      simp [follow, haw, hty]
    refine ⟨m, a, rest', [], rest', hm, rfl, by rw [hk], ?_⟩
    subst hw
    refine ⟨.inl ⟨atRest_of (popNext_current _ _) (by intro v sz; rw [hkind.1]; simp), rfl⟩, ?_, fun x hx => h.what x (by simp [hx]), popNext_none _ _, ?_⟩
    · rw [popNext_wlinks]; exact hrest'
    · rw [popNext_continue, popNext_some]
      have h2 := congrArg List.length hrest'
      simp only [List.length_map, List.length_reverse] at h2
      simp only [List.nil_append, ne_eq, ← List.length_eq_zero_iff, h2]

/-- The invariant holds throughout. -/
theorem walked_inv {cid : Cid} {name : Bytes} {h : List (Bytes × ContinuedWalk)} {w : Walker} (hw : Walked cid name h w) :
    ∃ fb rest, awaited cid name (h.map (·.1)) = fb ++ rest ∧ WInv w fb rest := by
  induction hw with
  | new => exact ⟨[], _, rfl, WInv.new cid name⟩
  | next hw hsc hc hs ih =>
    obtain ⟨fb, rest, h1, h2⟩ := ih
    obtain ⟨m, a, aw, fb', rest', hm, h3, h4, h5⟩ := h2.step hc (step_ok hs)
    refine ⟨fb', rest', ?_, h5⟩
    rw [List.map_append, awaited, List.foldl_append, ← awaited, h1, h3]
    simp only [List.map_cons, List.map_nil, List.foldl_cons, List.foldl_nil]
    rw [visit_ok hm, h4]

end Verif
