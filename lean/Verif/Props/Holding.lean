import Verif.Spec.Holding
import Verif.Examples
import Verif.Props.Cids
import Verif.Props.Ends
import Verif.Props.Parsing
import Verif.Props.DirExact
import Verif.Props.Overhead
import Verif.Props.LevelOrder
/-
C128: what is kept of blocks is no larger than the blocks.
-/
namespace Verif.Props
open Verif Verif.Spec

/-! ### Messages -/

theorem bytesField_length {tag : Nat} {x b : Bytes} (h : BytesField tag x b) : x.length + 2 ≤ b.length := by
  obtain ⟨tb, lb, rfl, h1, h2⟩ := h
  have := Num32_pos h1
  have := Num32_pos h2
  simp only [List.length_append]
  omega

theorem numField_length {tag n : Nat} {Num : Bytes → Nat → Prop} (hN : ∀ b n, Num b n → 0 < b.length) {b : Bytes} (h : NumField tag Num n b) :
    2 ≤ b.length := by
  obtain ⟨tb, nb, rfl, h1, h2⟩ := h
  have := Num32_pos h1
  have := hN _ _ h2
  simp only [List.length_append]
  omega

theorem linkFields_length : ∀ {fs : List LinkField} {b : Bytes}, Fields LinkField.Enc fs b → ∀ l : PBLink,
    ((fs.foldl LinkField.apply l).Hash.getD []).length + ((fs.foldl LinkField.apply l).Name.getD []).length ≤
      (l.Hash.getD []).length + (l.Name.getD []).length + b.length := by
  intro fs b h
  induction h with
  | nil => intro l; simp
  | @cons f fs b bs h1 h2 ih =>
    intro l
    have h3 := ih (LinkField.apply l f)
    rw [List.foldl_cons, List.length_append]
    cases f with
    | hash x =>
      have := bytesField_length h1
      simp only [LinkField.apply, Option.getD_some] at h3 ⊢
      omega
    | name x =>
      have := bytesField_length h1.1
      simp only [LinkField.apply, Option.getD_some] at h3 ⊢
      omega
    | tsize n => simp only [LinkField.apply] at h3 ⊢; omega
    | unk u => simp only [LinkField.apply] at h3 ⊢; omega

theorem dataFields_length : ∀ {fs : List DataField} {b : Bytes}, IsUnixFs b fs → ∀ m : UnixFs,
    ((fs.foldl DataField.apply m).Data.getD []).length + 2 * (fs.foldl DataField.apply m).blocksizes.length ≤
      (m.Data.getD []).length + 2 * m.blocksizes.length + b.length := by
  intro fs b h
  unfold IsUnixFs at h
  induction h with
  | nil => intro l; simp
  | @cons f fs b bs h1 h2 ih =>
    intro m
    have h3 := ih (DataField.apply m f)
    rw [List.foldl_cons, List.length_append]
    cases f with
    | data x =>
      have := bytesField_length h1
      simp only [DataField.apply, Option.getD_some] at h3 ⊢
      omega
    | blocksize n =>
      have : 2 ≤ b.length := numField_length (fun b n h => by obtain ⟨v, h, -⟩ := h; exact h.2.pos) h1
      simp only [DataField.apply, List.length_append, List.length_cons, List.length_nil] at h3 ⊢
      omega
    | type n => simp only [DataField.apply] at h3 ⊢; omega
    | filesize n => simp only [DataField.apply] at h3 ⊢; omega
    | hashType n => simp only [DataField.apply] at h3 ⊢; omega
    | fanout n => simp only [DataField.apply] at h3 ⊢; omega
    | mode n => simp only [DataField.apply] at h3 ⊢; omega
    | mtime n => simp only [DataField.apply] at h3 ⊢; omega
    | unk n => simp only [DataField.apply] at h3 ⊢; omega

/-- The links and any one of the data fields are in the block together. -/
theorem nodeFields_length : ∀ {ns : List NodeField} {b : Bytes}, IsNode b ns →
    ((nodeLinks ns).map (fun l => (l.Hash.getD []).length + (l.Name.getD []).length + 2)).sum ≤ b.length ∧
    ∀ d, (NodeField.data d) ∈ ns →
      ((nodeLinks ns).map (fun l => (l.Hash.getD []).length + (l.Name.getD []).length + 2)).sum + d.length + 2 ≤ b.length := by
  intro ns b h
  unfold IsNode at h
  induction h with
  | nil => simp [nodeLinks]
  | @cons f fs b bs h1 h2 ih =>
    rw [List.length_append]
    cases f with
    | link ls =>
      obtain ⟨x, hx, hf⟩ := h1
      have h3 := bytesField_length hx
      have h4 := linkFields_length hf {}
      have e : nodeLinks (.link ls :: fs) = linkOf ls :: nodeLinks fs := rfl
      rw [e, List.map_cons, List.sum_cons]
      unfold linkOf
      simp only [Option.getD_none, List.length_nil] at h4
      refine ⟨by omega, fun d hd => ?_⟩
      have := ih.2 d (by simpa using hd)
      omega
    | data x =>
      have h3 := bytesField_length h1
      have e : nodeLinks (.data x :: fs) = nodeLinks fs := rfl
      rw [e]
      refine ⟨by omega, fun d hd => ?_⟩
      rcases List.mem_cons.1 hd with hd | hd
      · cases hd; omega
      · have := ih.2 d hd; omega
    | unk u =>
      have e : nodeLinks (.unk u :: fs) = nodeLinks fs := rfl
      rw [e]
      refine ⟨by omega, fun d hd => ?_⟩
      have := ih.2 d (by simpa using hd)
      omega

/-- C128. What a block is read as is no larger than the block. -/
theorem C128_block (block : Bytes) (m : FlatUnixFs) (h : FlatUnixFs.tryParse block = .ok m) : messageSize m ≤ block.length := by
  obtain ⟨ns, d, ds, h1, h2, h3, -, rfl⟩ := (C81_accepted _ _).1 h
  have h4 : NodeField.data d ∈ ns := by
    have := List.mem_of_getLast? h2
    obtain ⟨f, hf, he⟩ := List.mem_filterMap.1 this
    cases f with
    | data x => simp only [Option.some.injEq] at he; subst he; exact hf
    | link _ => cases he
    | unk _ => cases he
  have h5 := (nodeFields_length h1).2 d h4
  have h6 := dataFields_length h3 {}
  unfold messageSize unixFsOf
  simp only [Option.getD_none, List.length_nil] at h6 ⊢
  omega

theorem tryFrom_size {b : Bytes} {c : Cid} (h : Cid.tryFrom b = .ok c) : c.digest.length + 2 ≤ b.length := by
  have up : ∀ {e n}, Uvarint e n → 0 < e.length := fun h => by obtain ⟨⟨v, h, -⟩, -⟩ := h; exact h.2.pos
  cases (C53_exact b c).1 h with
  | @short v k d t hv hk hd => have := up hv; have := up hk; simp only [List.length_append]; omega
  | @one v k h s d t codec code hv hk hh hs hd => have := up hv; have := up hk; simp only [List.length_append]; omega
  | @zero v k h s d t hv hk hh hs hd => have := up hv; have := up hk; simp only [List.length_append]; omega

/-- The Cids of links, each together with at most the name of the link. -/
theorem links_size {m : FlatUnixFs} {block : Bytes} (h : FlatUnixFs.tryParse block = .ok m) (name : PBLink → Bytes)
    (hn : ∀ l, (name l).length ≤ (l.Name.getD []).length) :
    ((m.links.filterMap (fun l => (Cid.tryFrom (l.Hash.getD [])).toOption.map (fun c => (c, name l)))).map (fun p => linkSize p.1 p.2)).sum ≤ block.length := by
  refine Nat.le_trans ?_ (C128_block block m h)
  unfold messageSize
  refine Nat.le_trans ?_ (Nat.le_trans (Nat.le_add_right _ _) (Nat.le_add_right _ _))
  induction m.links with
  | nil => simp
  | cons l ls ih =>
    have h1 := hn l
    simp only [List.filterMap_cons, List.map_cons, List.sum_cons]
    cases hc : Cid.tryFrom (l.Hash.getD []) with
    | error e =>
      have e1 : (Except.error e : Except CidError Cid).toOption = none := rfl
      rw [e1, Option.map_none]
      dsimp only
      omega
    | ok c =>
      have := tryFrom_size hc
      have e1 : (Except.ok c : Except CidError Cid).toOption = some c := rfl
      rw [e1, Option.map_some, List.map_cons, List.sum_cons]
      simp only [linkSize] at ih ⊢
      omega

theorem sublist_sum {l l' : List Nat} (h : l.Sublist l') : l.sum ≤ l'.sum := by
  induction h with
  | slnil => exact Nat.le_refl _
  | cons a _ ih => simp only [List.sum_cons]; omega
  | cons_cons a _ ih => simp only [List.sum_cons]; omega

theorem linkCids_size (block : Bytes) : cidsSize (linkCids block) ≤ block.length := by
  unfold linkCids
  cases h : FlatUnixFs.tryParse block with
  | error e => simp [cidsSize]
  | ok m =>
    have := links_size h (fun _ => []) (fun _ => Nat.zero_le _)
    simp only [cidsSize]
    rw [List.map_filterMap] at this ⊢
    simpa [Option.map_map, Function.comp_def] using this

theorem cidsSize_append (a b : List Cid) : cidsSize (a ++ b) = cidsSize a + cidsSize b := by simp [cidsSize]
theorem cidsSize_reverse (a : List Cid) : cidsSize a.reverse = cidsSize a := by
  unfold cidsSize; rw [List.map_reverse, List.sum_reverse]
theorem cidsSize_sublist {a b : List Cid} (h : a.Sublist b) : cidsSize a ≤ cidsSize b := sublist_sum (h.map _)

/-! ### Files -/

/-- Every step of a visit keeps no more than it kept before and the block given. -/
theorem continue_size {v v' : FileVisit} {block x : Bytes} {cache : Option VisitCache} (h : (v.continueWalk block cache).1 = .ok (x, some v')) :
    visitSize v' ≤ visitSize v + block.length := by
  have hne : v.pending.reverse.map (·.1) ≠ [] := by
    intro he
    have : v.pending = [] := by simpa using he
    unfold FileVisit.continueWalk at h
    rw [this] at h
    cases h
  obtain ⟨first, rest, hq⟩ : ∃ first rest, v.pending.reverse.map (·.1) = first :: rest := by
    cases hq : v.pending.reverse.map (·.1) with
    | nil => exact absurd hq hne
    | cons a b => exact ⟨a, b, rfl⟩
  have hp : v.pendingLinks = .ok (first, rest) := by unfold FileVisit.pendingLinks; rw [hq]
  obtain ⟨m, i, hm, -, hnext⟩ := C46_visit_pending v first rest hp block cache x (some v') h
  rw [askedFor_some] at hnext
  have h1 : cidsSize (wantedLinks v.range i.lo (m.links.zip m.data.blocksizes)) ≤ block.length :=
    Nat.le_trans (cidsSize_sublist (linkCids_ok hm ▸ wantedLinks_sublist v.range m.links m.data.blocksizes i.lo)) (linkCids_size block)
  have h2 := congrArg cidsSize hnext
  have h3 := congrArg cidsSize hq
  rw [List.map_reverse, cidsSize_reverse] at h2 h3
  rw [cidsSize_append] at h2
  rw [← List.singleton_append, cidsSize_append] at h3
  unfold visitSize
  omega

theorem startReader_size {target : Option Rng} {block : Bytes} {m : FlatUnixFs} (hm : FlatUnixFs.tryParse block = .ok m) {fr : FileReader} {o : Nat} {md : Metadata}
    (hfr : FileReader.fromParts m o md = .ok fr) {cache cache' : Option VisitCache} (hc : ∀ k, cache = some k → CacheObtainable k)
    {r : FileVisitResult} {v : FileVisit} (h : (IdleFileVisit.mk target).startFromReader fr cache = (.ok r, cache')) (hv : r.next = some v) :
    visitSize v ≤ block.length := by
  obtain ⟨fs, -, rfl⟩ := fromParts_ok hfr
  have hin : (cache.getD {}).inner = [] := by
    cases cache with
    | none => rfl
    | some k => rcases hc k rfl with rfl | ⟨vec, rfl⟩ <;> rfl
  unfold IdleFileVisit.startFromReader FileReader.content at h
  simp only at h
  by_cases hl : m.links = []
  · simp only [hl, if_true] at h
    injection h with h1 h2
    rw [Res.bind_ok_iff] at h1
    obtain ⟨_, _, h1⟩ := h1
    cases h1
    cases hv
  · simp only [hl, if_false, hin] at h
    cases hcl : collectLinks target 0 o (m.links.zip m.data.blocksizes) with
    | err e => rw [hcl] at h; cases h
    | panic p => rw [hcl] at h; cases h
    | ok ps =>
      rw [hcl] at h
      simp only [List.nil_append] at h
      split at h
      · cases h; cases hv
      · cases h
        cases hv
        have h1 : cidsSize (wantedLinks target o (m.links.zip m.data.blocksizes)) ≤ block.length :=
          Nat.le_trans (cidsSize_sublist (linkCids_ok hm ▸ wantedLinks_sublist target m.links m.data.blocksizes o)) (linkCids_size block)
        rw [← collectLinks_wanted _ _ _ _ hcl] at h1
        unfold visitSize
        rw [List.map_reverse, cidsSize_reverse]
        exact h1

/-- C128, files. -/
theorem C128_read (blocks : List Bytes) (v : FileVisit) (h : VisitFed blocks v) : visitSize v ≤ (blocks.map List.length).sum := by
  induction h with
  | @start idle root r v hs hn =>
    obtain ⟨target⟩ := idle
    unfold IdleFileVisit.start at hs
    rw [Res.bind_ok_iff] at hs
    obtain ⟨fr, hfr, hs⟩ := hs
    unfold FileReader.fromBlock at hfr
    cases hm : FlatUnixFs.tryParse root with
    | error e => rw [hm] at hfr; cases hfr
    | ok m =>
      rw [hm] at hfr
      have := startReader_size hm hfr (cache := none) (cache' := ((IdleFileVisit.mk target).startFromReader fr none).2) nofun (by rw [← hs]) hn
      simpa using this
  | next hv hc ih =>
    have := continue_size hc
    simp only [List.map_cons, List.sum_cons]
    omega

/-! ### Walks -/

theorem split_size : ∀ name : Bytes, ((splitSlash name).map List.length).sum ≤ name.length := by
  intro name
  induction name with
  | nil => simp [splitSlash]
  | cons b t ih =>
    by_cases hb : b = slash
    · subst hb
      rw [splitSlash_slash]
      simp only [List.map_cons, List.sum_cons, List.length_nil, List.length_cons]
      omega
    · obtain ⟨x, xs, h1, h2⟩ := splitSlash_cons (t := t) hb
      rw [h1] at ih
      rw [h2]
      simp only [List.map_cons, List.sum_cons, List.length_cons] at ih ⊢
      omega

theorem comps_size (fresh : Bool) (pieces : List Bytes) : ((pathComps fresh pieces).map List.length).sum ≤ (pieces.map List.length).sum := by
  cases pieces with
  | nil => simp [pathComps]
  | cons x xs =>
    have h1 := sublist_sum ((List.filter_sublist (p := fun x => decide (x ≠ [] ∧ x ≠ dot)) (l := xs)).map List.length)
    unfold pathComps
    rw [List.map_append, List.sum_append, List.map_cons, List.sum_cons]
    split
    · simp only [List.map_nil, List.sum_nil]; omega
    · simp only [List.map_cons, List.map_nil, List.sum_cons, List.sum_nil]; omega

theorem push_size (p : PathBuf) (name : Bytes) : pathSize (p.push name) ≤ pathSize p + name.length := by
  have h1 := split_size name
  have h2 := fun f => comps_size f (splitSlash name)
  unfold PathBuf.push pathSize
  split
  · have := h2 false; simp only; omega
  · have := h2 (decide (p.absolute = false ∧ p.comps = [])); simp only [List.map_append, List.sum_append]; omega

theorem pop_size {p p' : PathBuf} (h : p.pop = some p') : pathSize p' ≤ pathSize p := by
  unfold PathBuf.pop at h
  split at h
  · cases h
  · cases h
    exact sublist_sum ((List.dropLast_sublist _).map _)

theorem popWhileGe_size {ε : Type} (depth : Nat) : ∀ (d : Nat) (p p' : PathBuf), popWhileGe (ε := ε) depth d p = .ok p' → pathSize p' ≤ pathSize p := by
  intro d
  induction d with
  | zero => intro p p' h; cases h; exact Nat.le_refl _
  | succ d ih =>
    intro p p' h
    unfold popWhileGe at h
    split at h
    · split at h
      · cases h
      · next q hq => exact Nat.le_trans (ih _ _ h) (pop_size hq)
    · cases h; exact Nat.le_refl _

theorem popWhileGt_size {ε : Type} (depth : Nat) : ∀ (d : Nat) (p : PathBuf) (q : Nat × PathBuf), popWhileGt (ε := ε) depth d p = .ok q →
    pathSize q.2 ≤ pathSize p := by
  intro d
  induction d with
  | zero => intro p p' h; cases h; exact Nat.le_refl _
  | succ d ih =>
    intro p p' h
    unfold popWhileGt at h
    split at h
    · split at h
      · cases h
      · next q hq => exact Nat.le_trans (ih _ _ h) (pop_size hq)
    · cases h; exact Nat.le_refl _

/-- What is kept because of the kind of an entry. -/
def kindSize : InnerKind → Nat
  | .File (some v) _ => visitSize v
  | _ => 0

theorem entrySize_eq (e : InnerEntry) : entrySize e = linkSize e.cid [] + pathSize e.path + kindSize e.kind := by
  unfold entrySize kindSize
  rfl

theorem setPath_size {ε : Type} {e e' : InnerEntry} {name : Bytes} {depth : Nat} (h : e.setPath (ε := ε) name depth = .ok e') :
    e'.cid = e.cid ∧ e'.kind = e.kind ∧ pathSize e'.path ≤ pathSize e.path + name.length := by
  unfold InnerEntry.setPath at h
  split at h
  · cases h
  · rw [Res.bind_ok_iff] at h
    obtain ⟨p, hp, h⟩ := h
    simp only at h
    split at h
    · cases h
    · cases h
      have := popWhileGe_size _ _ _ _ hp
      have := push_size p name
      exact ⟨rfl, rfl, by simp only; omega⟩

theorem asKind_size {ε : Type} {e e' : InnerEntry} {kind : InnerKind} {cid : Cid} {name : Bytes} {depth : Nat} {md : Metadata}
    (h : e.asKind (ε := ε) kind cid name depth md = .ok e') : entrySize e' + linkSize e.cid [] ≤ entrySize e + linkSize cid name + kindSize kind := by
  unfold InnerEntry.asKind at h
  split at h
  · cases h
  · rw [Res.bind_ok_iff] at h
    obtain ⟨x, hx, h⟩ := h
    cases h
    obtain ⟨h1, h2, h3⟩ := setPath_size hx
    rw [entrySize_eq, entrySize_eq]
    simp only [h1, h2]
    simp only [linkSize, List.length_nil] at h3 ⊢
    omega

theorem asBucket_size {ε : Type} {e e' : InnerEntry} {cid : Cid} {depth : Nat}
    (h : e.asBucket (ε := ε) cid depth = .ok e') : entrySize e' ≤ entrySize e + linkSize cid [] := by
  have key : ∀ q, popWhileGt (ε := ε) depth e.depth e.path = .ok q → (if q.1 ≠ depth then (.panic .walkBucketDepth : Res ε InnerEntry)
      else .ok { e with cid := cid, kind := .Bucket, path := q.2, depth := q.1 }) = .ok e' → entrySize e' ≤ entrySize e + linkSize cid [] := by
    intro q hq h
    split at h
    · cases h
    · cases h
      have := popWhileGt_size _ _ _ _ hq
      rw [entrySize_eq, entrySize_eq]
      simp only [kindSize]
      omega
  unfold InnerEntry.asBucket at h
  split at h
  · split at h
    · cases h
    · cases h; omega
  all_goals first
    | cases h; done
    | (rw [Res.bind_ok_iff] at h
       obtain ⟨q, hq, h⟩ := h
       exact key q hq h)

theorem newRoot_size (kind : InnerKind) (cid : Cid) (md : Metadata) (name : Bytes) (depth : Nat) :
    entrySize (InnerEntry.newRoot kind cid md name depth) ≤ linkSize cid name + kindSize kind := by
  have := push_size {} name
  rw [entrySize_eq]
  unfold InnerEntry.newRoot
  have e : pathSize {} = 0 := rfl
  simp only [linkSize, List.length_nil]
  omega

/-- What the links in the list are counted for. -/
def waitingSize (ls : List WalkLink) : Nat := (ls.map (fun l => linkSize l.cid l.name)).sum

/-- What the links of a message are counted for. -/
def pbSize (ls : List PBLink) : Nat := (ls.map (fun l => (l.Hash.getD []).length + (l.Name.getD []).length + 2)).sum

theorem convertLink_size {d nth : Nat} {link : PBLink} {l : WalkLink} (h : convertLink d nth link = .ok l) :
    linkSize l.cid l.name ≤ (link.Hash.getD []).length + (link.Name.getD []).length + 2 := by
  unfold convertLink at h
  split at h
  · cases h
  · next cid hcid =>
    have := tryFrom_size hcid
    split at h
    · cases h
    · next s hs =>
      split at h
      · cases h
      · split at h
        · cases h
        · cases h
          rw [hs]
          simp only [linkSize, Option.getD_some]
          omega

theorem convertShardedLink_size {d d' nth : Nat} {link : PBLink} {l : WalkLink} (h : convertShardedLink d d' nth link = .ok l) :
    linkSize l.cid l.name ≤ (link.Hash.getD []).length + (link.Name.getD []).length + 2 := by
  unfold convertShardedLink at h
  split at h
  · cases h
  · next cid hcid =>
    have := tryFrom_size hcid
    split at h
    · cases h
    · next s hs =>
      rw [hs]
      split at h
      · split at h
        · cases h
        · split at h
          · cases h
          · cases h
            simp only [linkSize, Option.getD_some, List.length_drop]
            omega
      · split at h
        · cases h
          simp only [linkSize, Option.getD_some, List.length_nil]
          omega
        · cases h

theorem pushLinks_size {convert : Nat → PBLink → Res InvalidCidInLink WalkLink}
    (hc : ∀ nth link l, convert nth link = .ok l → linkSize l.cid l.name ≤ (link.Hash.getD []).length + (link.Name.getD []).length + 2) :
    ∀ (xs : List (PBLink × Nat)) (pending : List WalkLink),
      waitingSize (pushLinks convert xs pending).2 ≤ waitingSize pending + pbSize (xs.map Prod.fst) := by
  intro xs
  induction xs with
  | nil => intro pending; simp [pushLinks]
  | cons x xs ih =>
    intro pending
    obtain ⟨link, nth⟩ := x
    unfold pushLinks
    split
    · next l hl =>
      have h1 := ih (pending ++ [l])
      have h2 := hc _ _ _ hl
      simp only [waitingSize, pbSize, List.map_append, List.sum_append, List.map_cons, List.map_nil, List.sum_cons, List.sum_nil] at h1 ⊢
      omega
    · simp only [waitingSize]; omega
    · simp only [waitingSize]; omega

theorem zipIdx_size (ls : List PBLink) : pbSize (ls.zipIdx.reverse.map Prod.fst) = pbSize ls := by
  have e : ls.zipIdx.map Prod.fst = ls := by simp
  rw [List.map_reverse, e]
  unfold pbSize
  rw [List.map_reverse, List.sum_reverse]

/-- What is kept of the current entry. -/
def currentSize (w : Walker) : Nat := (w.current.map entrySize).getD 0

theorem walkSize_eq (w : Walker) : walkSize w = currentSize w + waitingSize w.next.toList + waitingSize w.pending := by
  unfold walkSize currentSize waitingSize
  rw [List.map_append, List.sum_append]
  omega

theorem popNext_size (current : Option InnerEntry) (pending : List WalkLink) :
    walkSize (Walker.popNext current pending) = (current.map entrySize).getD 0 + waitingSize pending := by
  unfold Walker.popNext
  split
  · next l hl =>
    obtain ⟨ys, rfl⟩ := List.getLast?_eq_some_iff.1 hl
    rw [walkSize_eq, List.dropLast_concat]
    simp only [currentSize, waitingSize, Option.toList, List.map_append, List.sum_append]
    omega
  · next hl =>
    rw [List.getLast?_eq_none_iff] at hl
    subst hl
    rw [walkSize_eq]
    simp [currentSize, waitingSize]

theorem enterLeaf_size {w : Walker} {kind : InnerKind} {md : Metadata} {n : WalkLink} {ie : InnerEntry} (h : w.enterLeaf kind md n = .ok ie) :
    entrySize ie ≤ currentSize w + linkSize n.cid n.name + kindSize kind := by
  unfold Walker.enterLeaf at h
  split at h
  · cases h
    have := newRoot_size kind n.cid md n.name n.depth
    omega
  · next e he =>
    have := asKind_size h
    simp only [currentSize, he, Option.map_some, Option.getD_some]
    omega

theorem enterDirectory_size {w : Walker} {md : Metadata} {n : WalkLink} {ie : InnerEntry} {item : ContinuedWalk}
    (h : w.enterDirectory md n = .ok (ie, item)) : entrySize ie ≤ currentSize w + linkSize n.cid n.name := by
  unfold Walker.enterDirectory at h
  split at h
  · cases h
    have := newRoot_size .RootDirectory n.cid md n.name n.depth
    simp only [kindSize] at this
    omega
  · next e he =>
    rw [Res.bind_ok_iff] at h
    obtain ⟨x, hx, h⟩ := h
    cases h
    have := asKind_size hx
    simp only [currentSize, he, Option.map_some, Option.getD_some]
    simp only [kindSize] at this
    omega

theorem enterShard_size {w : Walker} {md : Metadata} {n : WalkLink} {ie : InnerEntry} {item : ContinuedWalk}
    (h : w.enterShard md n = .ok (ie, item)) : entrySize ie ≤ currentSize w + linkSize n.cid n.name := by
  unfold Walker.enterShard at h
  split at h
  · cases h
    have := newRoot_size .BucketAtRoot n.cid md n.name n.depth
    simp only [kindSize] at this
    omega
  · next e he =>
    simp only [currentSize, he, Option.map_some, Option.getD_some]
    split at h
    · rw [Res.bind_ok_iff] at h
      obtain ⟨x, hx, h⟩ := h
      cases h
      have := asBucket_size hx
      simp only [linkSize, List.length_nil] at this ⊢
      omega
    · rw [Res.bind_ok_iff] at h
      obtain ⟨x, hx, h⟩ := h
      cases h
      have := asKind_size hx
      simp only [kindSize] at this
      omega

theorem nextDir_size {w w' : Walker} {links : List PBLink} {convert : Nat → Nat → PBLink → Res InvalidCidInLink WalkLink}
    {enter : WalkLink → Res WalkError (InnerEntry × ContinuedWalk)} {cache cache' : Option VisitCache} {r : Res WalkError ContinuedWalk}
    (hc : ∀ d nth link l, convert d nth link = .ok l → linkSize l.cid l.name ≤ (link.Hash.getD []).length + (link.Name.getD []).length + 2)
    (he : ∀ n ie item, enter n = .ok (ie, item) → entrySize ie ≤ currentSize w + linkSize n.cid n.name)
    (h : w.nextDir links convert enter cache = (r, w', cache')) : walkSize w' ≤ walkSize w + pbSize links := by
  unfold Walker.nextDir at h
  split at h
  · cases h; omega
  · next n hn =>
    have h1 := pushLinks_size (hc n.depth) links.zipIdx.reverse w.pending
    rw [zipIdx_size] at h1
    rw [walkSize_eq w, hn]
    generalize pushLinks (convert n.depth) links.zipIdx.reverse w.pending = s at h h1
    obtain ⟨x, pending⟩ := s
    have e : waitingSize (some n).toList = linkSize n.cid n.name := by simp [waitingSize]
    cases x with
    | panic p => cases h; rw [walkSize_eq w, hn]; omega
    | err e => cases h; rw [walkSize_eq]; simp only [currentSize, waitingSize, Option.toList, List.map_nil, List.sum_nil] at h1 ⊢; omega
    | ok u =>
      simp only at h h1
      split at h
      · cases h; rw [walkSize_eq w, hn]; omega
      · cases h; rw [walkSize_eq w, hn]; omega
      · next ie item hie =>
        cases h
        have := he _ _ _ hie
        rw [popNext_size]
        simp only [Option.map_some, Option.getD_some]
        omega

theorem message_parts {block : Bytes} {m : FlatUnixFs} (h : FlatUnixFs.tryParse block = .ok m) : pbSize m.links ≤ block.length := by
  have := C128_block block m h
  unfold messageSize at this
  unfold pbSize
  omega

theorem stopped_size (w : Walker) (b : Bool) : walkSize { w with should_continue := b } = walkSize w := rfl

theorem nextFirst_size {w w' : Walker} {block : Bytes} {m : FlatUnixFs} (hm : FlatUnixFs.tryParse block = .ok m) {cache cache' : Option VisitCache}
    {r : Res WalkError ContinuedWalk} (hk : ∀ k, cache = some k → CacheObtainable k) (h : w.nextFirst m cache = (r, w', cache')) :
    walkSize w' ≤ walkSize w + block.length := by
  unfold Walker.nextFirst at h
  have key : ∀ x c', IdleFileVisit.startFromParsed {} m cache = (.ok x, c') → kindSize (.File x.next x.total_size) ≤ block.length := by
    intro x c' hx
    cases hv : x.next with
    | none => simp [kindSize]
    | some v =>
      unfold IdleFileVisit.startFromParsed at hx
      split at hx
      · next fr hfr => exact startReader_size hm hfr hk hx hv
      · cases hx
      · cases hx
  split at h
  · cases h; omega
  · cases h; rw [stopped_size]; omega
  · next x c' hx =>
    have hx := key x c' hx
    split at h
    · cases h; omega
    · next n hn =>
      simp only at h
      split at h
      · cases h; omega
      · cases h; omega
      · next ie hie =>
        cases h
        have := enterLeaf_size hie
        rw [stopped_size, popNext_size, walkSize_eq, hn]
        simp only [Option.map_some, Option.getD_some] at this ⊢
        have e : waitingSize (some n).toList = linkSize n.cid n.name := by simp [waitingSize]
        omega

theorem nextBlock_size {w w' : Walker} {block : Bytes} {cache cache' : Option VisitCache} {r : Res WalkError ContinuedWalk}
    (hk : ∀ k, cache = some k → CacheObtainable k) (h : w.nextBlock block cache = (r, w', cache')) : walkSize w' ≤ walkSize w + block.length := by
  unfold Walker.nextBlock at h
  simp only at h
  split at h
  · cases h; rw [stopped_size]; omega
  · next m hm =>
    have hl := message_parts hm
    split at h
    · split at h
      · cases h; rw [stopped_size]; omega
      · next m' hm' =>
        have := checkDirectorySupported_ok hm'
        subst this
        have := nextDir_size (fun d nth link l => convertLink_size) (fun n ie item => enterDirectory_size) h
        omega
    · split at h
      · cases h; omega
      · cases h; rw [stopped_size]; omega
      · next m' hm' =>
        have := checkHamtshardSupported_ok hm'
        subst this
        have := nextDir_size (fun d nth link l => convertShardedLink_size) (fun n ie item => enterShard_size) h
        omega
    · exact nextFirst_size hm hk h
    · exact nextFirst_size hm hk h
    · cases h; rw [stopped_size]; omega
    · unfold Walker.nextSymlink at h
      simp only at h
      split at h
      · cases h; omega
      · next n hn =>
        split at h
        · cases h; omega
        · cases h; omega
        · next ie hie =>
          cases h
          have := enterLeaf_size hie
          rw [popNext_size, walkSize_eq, hn]
          simp only [kindSize, Option.map_some, Option.getD_some] at this ⊢
          have e : waitingSize (some n).toList = linkSize n.cid n.name := by simp [waitingSize]
          omega

theorem nextFile_size {w w' : Walker} {ie : InnerEntry} {v : FileVisit} {sz : Nat} (hcur : w.current = some ie) (hkind : ie.kind = .File (some v) sz)
    {block : Bytes} {cache cache' : Option VisitCache} {r : Res WalkError ContinuedWalk}
    (h : w.nextFile ie v sz block cache = (r, w', cache')) : walkSize w' ≤ walkSize w + block.length := by
  have e0 : walkSize w = linkSize ie.cid [] + pathSize ie.path + visitSize v + waitingSize w.next.toList + waitingSize w.pending := by
    rw [walkSize_eq]
    simp only [currentSize, hcur, Option.map_some, Option.getD_some, entrySize_eq, hkind, kindSize]
  have e1 : ∀ (s : Option FileVisit) (b : Bool), walkSize { w with current := some { ie with kind := .File s sz }, should_continue := b } =
      linkSize ie.cid [] + pathSize ie.path + kindSize (.File s sz) + waitingSize w.next.toList + waitingSize w.pending := by
    intro s b
    rw [walkSize_eq]
    simp only [currentSize, Option.map_some, Option.getD_some, entrySize_eq]
  unfold Walker.nextFile at h
  split at h
  · cases h; omega
  · cases h; rw [e1, e0]; simp only [kindSize]; omega
  · next content s c' hs =>
    simp only at h
    cases h
    rw [e1, e0]
    cases s with
    | none => simp only [kindSize]; omega
    | some v' =>
      have := continue_size (x := content) (v' := v') (block := block) (cache := cache) (v := v) (by rw [hs])
      simp only [kindSize]
      omega

/-- C128, one step of a walk: afterwards no more is kept than before and the block given. -/
theorem C128_step (w w' : Walker) (block : Bytes) (cache cache' : Option VisitCache) (hk : ∀ k, cache = some k → CacheObtainable k)
    (r : Res WalkError ContinuedWalk) (h : w.step block cache = (r, w', cache')) : walkSize w' ≤ walkSize w + block.length := by
  unfold Walker.step at h
  split at h
  · next hcur => exact nextFile_size hcur rfl h
  · exact nextBlock_size hk h

/-- C128, walks. -/
theorem C128_walk (c : Cid) (name : Bytes) (blocks : List Bytes) (w : Walker) (h : WalkFed c name blocks w) :
    walkSize w ≤ linkSize c name + (blocks.map List.length).sum := by
  induction h with
  | new =>
    rw [walkSize_eq]
    simp [currentSize, waitingSize, Walker.new]
  | next _ hk hs _ ih =>
    have := C128_step _ _ _ _ _ hk _ hs
    simp only [List.map_cons, List.sum_cons]
    omega

/-- C128, the Cids a walk names: together they are no larger than the blocks given and the first Cid and name. -/
theorem C128_pending (c : Cid) (name : Bytes) (blocks : List Bytes) (w : Walker) (h : WalkFed c name blocks w) (first : Cid) (rest : List Cid)
    (hp : w.pendingLinks = .ok (first, rest)) : cidsSize (first :: rest) ≤ linkSize c name + (blocks.map List.length).sum := by
  have hw := C128_walk c name blocks w h
  have drop : ∀ ls : List WalkLink, cidsSize (ls.map (·.cid)) ≤ waitingSize ls := by
    intro ls
    induction ls with
    | nil => simp [cidsSize, waitingSize]
    | cons l ls ih =>
      simp only [cidsSize, waitingSize, List.map_cons, List.sum_cons, linkSize, List.length_nil] at ih ⊢
      omega
  refine Nat.le_trans ?_ hw
  rw [walkSize_eq]
  unfold Walker.pendingLinks at hp
  simp only at hp
  split at hp
  · next v sz hv =>
    rw [Res.bind_ok_iff] at hp
    obtain ⟨⟨f, rs⟩, hx, hp⟩ := hp
    simp only at hp
    cases hp
    obtain ⟨ie, hie, hkind⟩ := Option.map_eq_some_iff.1 hv
    have e : cidsSize (first :: rs) = visitSize v := by
      unfold FileVisit.pendingLinks at hx
      split at hx
      · next hr =>
        cases hx
        unfold visitSize
        rw [← hr, List.map_reverse, cidsSize_reverse]
      · cases hx
    have h1 := drop w.next.toList
    have h2 := drop w.pending
    have e2 : (w.next.map (·.cid)).toList = w.next.toList.map (·.cid) := by cases w.next <;> rfl
    rw [← List.cons_append, cidsSize_append, e, cidsSize_append, cidsSize_reverse, e2]
    simp only [currentSize, hie, Option.map_some, Option.getD_some, entrySize_eq, hkind, kindSize]
    omega
  · split at hp
    · cases hp
    · next n hn =>
      cases hp
      have h2 := drop w.pending
      have h1 := drop w.next.toList
      have : cidsSize (n.cid :: (w.pending.map (·.cid)).reverse) = cidsSize [n.cid] + cidsSize (w.pending.map (·.cid)) := by
        rw [← List.singleton_append, cidsSize_append, cidsSize_reverse]
      rw [this]
      rw [hn] at h1 ⊢
      simp only [Option.toList, List.map_cons, List.map_nil] at h1
      simp only [Option.toList]
      omega

/-! ### Look-ups -/

theorem lookupFed_looking {needle : Bytes} {blocks : List Bytes} {l : ShardedLookup} (h : LookupFed needle blocks l) : Looking needle l := by
  induction h with
  | start _ h => exact .start h
  | next _ h ih => exact .more ih h
  | owned _ ih => exact .owned ih

theorem bucketCids_size {block : Bytes} {m : FlatUnixFs} (hm : FlatUnixFs.tryParse block = .ok m) : cidsSize (bucketCids m.links) ≤ block.length := by
  refine Nat.le_trans (cidsSize_sublist ?_) (linkCids_size block)
  rw [linkCids_ok hm]
  exact bucketCids_sublist m.links

/-- C128, look-ups. -/
theorem C128_lookup (needle : Bytes) (blocks : List Bytes) (l : ShardedLookup) (h : LookupFed needle blocks l) (first : Cid) (rest : List Cid)
    (hp : l.pendingLinks = .ok (first, rest)) : cidsSize (first :: rest) ≤ (blocks.map List.length).sum := by
  have key : cidsSize l.links ≤ (blocks.map List.length).sum := by
    clear hp
    induction h with
    | start hc h =>
      obtain ⟨m, hm, _, hr⟩ := resolve_more hc h
      have := bucketCids_size hm
      cases hr with
      | more _ _ => simpa using this
    | @next blocks l l' block cache cache' hf h ih =>
      obtain ⟨c, queue, m, c', queue', h1, hm, h2, h3⟩ := C65_pending needle l l' (lookupFed_looking hf) block _ _ h
      have := bucketCids_size hm
      rw [pending_links h2, h3, cidsSize_append]
      rw [pending_links h1] at ih
      have e : cidsSize queue ≤ cidsSize (c :: queue) := cidsSize_sublist (List.sublist_cons_self _ _)
      simp only [List.map_cons, List.sum_cons]
      omega
    | owned _ ih => exact ih
  rwa [pending_links hp] at key

/-! ### Cases -/

/-- The blocks of the sample tree. -/
def heldBlock (n : Nat) : Bytes := ((sampleFsBlocks[n]?).map (fun e => e.2.write)).getD []

/-- The walk of the sample tree after its first block, and after the next one. -/
def held1 : Walker := ((Walker.new (cidN 0) []).step (heldBlock 0) none).2.1
def held2 : Walker := (held1.step (heldBlock 1) none).2.1

/-- Whether an answer is a panic. -/
def isPanic {ε α : Type} : Res ε α → Bool
  | .panic _ => true
  | _ => false

theorem not_panic {ε α : Type} {r : Res ε α} (h : isPanic r = false) : ∀ p, r ≠ .panic p := by
  intro p e
  subst e
  cases h

theorem fed_step {c : Cid} {name : Bytes} {blocks : List Bytes} {w : Walker} (b : Bytes) (hw : WalkFed c name blocks w)
    (h : isPanic (w.step b none).1 = false) : WalkFed c name (b :: blocks) (w.step b none).2.1 :=
  .next (r := (w.step b none).1) (cache := none) (cache' := (w.step b none).2.2) hw (fun k hk => nomatch hk) rfl (not_panic h)

theorem held_fed : WalkFed (cidN 0) [] [heldBlock 1, heldBlock 0] held2 :=
  fed_step (heldBlock 1) (fed_step (heldBlock 0) .new (by decide +kernel)) (by decide +kernel)

/-- A file of the sample tree, read up to its first block. -/
def heldVisit : Option FileVisit := match (IdleFileVisit.mk none).start (heldBlock 1) with
  | .ok r => r.next
  | _ => none

/-- The sample tree after two blocks of its walk, a file which needs two more, and a look-up after two blocks of a sharded directory. -/
theorem C128_example :
    (WalkFed (cidN 0) [] [heldBlock 1, heldBlock 0] held2 ∧ 60 < walkSize held2 ∧
      ∃ first rest, held2.pendingLinks = .ok (first, rest) ∧ rest.length = 3) ∧
    (∃ v, VisitFed [heldBlock 1] v ∧ visitSize v = 72) ∧
    ∃ l, LookupFed [120] [leftShard, topShard] l ∧ l.pendingLinks = .ok (cidOf toySha rightShard, [cidOf toySha deepShard]) ∧
      cidsSize [cidOf toySha rightShard, cidOf toySha deepShard] = 72 := by
  refine ⟨⟨held_fed, by decide +kernel, cidN 2, [cidN 3, cidN 4, cidN 7], by decide +kernel, rfl⟩, ?_, ?_⟩
  · have h : heldVisit.map visitSize = some 72 := by decide +kernel
    obtain ⟨v, hv, h⟩ := Option.map_eq_some_iff.1 h
    unfold heldVisit at hv
    split at hv
    · next r hr => exact ⟨v, .start hr hv, h⟩
    · cases hv
  · exact ⟨⟨[cidOf toySha rightShard, cidOf toySha deepShard], [120]⟩, .next (cache := none) (cache' := none) (.start (cache := none) (cache' := none)
      (fun k hk => nomatch hk)
      (show resolve topShard [120] none = (.ok (.NeedToLoadMore ⟨[cidOf toySha leftShard, cidOf toySha rightShard], [120]⟩), none) by decide +kernel))
      (by decide +kernel), rfl, by decide +kernel⟩

end Verif.Props
