import Verif.Spec.AddingUp
import Verif.Props.DepthFirst
import Verif.Props.Amounts
/-
C123: what can be read to the end can be read in parts, if the sizes add up.
-/
namespace Verif.Props
open Verif Verif.Spec

/-- Every block which a read asks for is a file block without metadata. -/
theorem read_accepted (get : Cid → Option Bytes) (v : FileVisit) (r) (h : readFrom get v = some r) :
    ∀ x q, r = .ok (x, q) → ∀ d ∈ q, ∃ block m o fs, get d = some block ∧ FlatUnixFs.tryParse block = .ok m ∧ NoMeta m ∧ Accepted m o fs := by
  refine readFrom.partial_correctness get (fun _ r => ∀ x q, r = .ok (x, q) → ∀ d ∈ q, ∃ block m o fs, get d = some block ∧
    FlatUnixFs.tryParse block = .ok m ∧ NoMeta m ∧ Accepted m o fs) ?_ v r h
  intro rec ih v r hr x q hx d hd
  subst hx
  cases hp : v.pendingLinks with
  | panic p => rw [hp] at hr; cases hr
  | err e => rw [hp] at hr; cases hr
  | ok y =>
    obtain ⟨first, rest⟩ := y
    rw [hp] at hr
    simp only at hr
    cases hg : get first with
    | none => rw [hg] at hr; cases hr
    | some block =>
      rw [hg] at hr
      simp only at hr
      cases hc : (v.continueWalk block none).1 with
      | panic p => rw [hc] at hr; cases hr
      | err e => rw [hc] at hr; cases hr
      | ok y =>
        obtain ⟨content, next⟩ := y
        rw [hc] at hr
        obtain ⟨P, cid, i, m, fs, hpend, hs, hm, hnm, ha, -, -⟩ := continueWalk_ok hc
        cases next with
        | none =>
          cases hr
          rw [List.mem_singleton.1 hd]
          exact ⟨block, m, _, _, hg, hm, hnm, ha⟩
        | some v' =>
          simp only at hr
          cases hrec : rec v' with
          | none => rw [hrec] at hr; cases hr
          | some r' =>
            rw [hrec] at hr
            cases r' with
            | panic p => cases hr
            | err e => cases hr
            | ok y =>
              obtain ⟨x', q'⟩ := y
              cases hr
              rcases List.mem_cons.1 hd with rfl | hd
              · exact ⟨block, m, _, _, hg, hm, hnm, ha⟩
              · exact ih _ _ hrec x' q' rfl d hd

/-- Building the tree of a file out of its blocks. -/
theorem tree_of_blocks {get : Cid → Option Bytes} {c : Cid} {order : List Cid} (h : DepthFirst get c order) :
    SizesAddUp get c → (∀ d ∈ order, ∃ block m o fs, get d = some block ∧ FlatUnixFs.tryParse block = .ok m ∧ Accepted m o fs) →
    (∀ d ∈ order.tail, ∃ block m, get d = some block ∧ FlatUnixFs.tryParse block = .ok m ∧ NoMeta m) →
    ∃ t block m, get c = some block ∧ FlatUnixFs.tryParse block = .ok m ∧ FileAt get t block ∧ m.data.filesize = some t.content.length := by
  refine DepthFirst.rec (get := get)
    (motive_1 := fun c order _ => SizesAddUp get c →
      (∀ d ∈ order, ∃ block m o fs, get d = some block ∧ FlatUnixFs.tryParse block = .ok m ∧ Accepted m o fs) →
      (∀ d ∈ order.tail, ∃ block m, get d = some block ∧ FlatUnixFs.tryParse block = .ok m ∧ NoMeta m) →
      ∃ t block m, get c = some block ∧ FlatUnixFs.tryParse block = .ok m ∧ FileAt get t block ∧ m.data.filesize = some t.content.length)
    (motive_2 := fun cs order _ => (∀ c ∈ cs, SizesAddUp get c) →
      (∀ d ∈ order, ∃ block m o fs, get d = some block ∧ FlatUnixFs.tryParse block = .ok m ∧ Accepted m o fs) →
      (∀ d ∈ order, ∃ block m, get d = some block ∧ FlatUnixFs.tryParse block = .ok m ∧ NoMeta m) →
      ∀ (ls : List PBLink) (ns : List Nat), ls.map (fun l => Cid.tryFrom (l.Hash.getD [])) = cs.map .ok → ls.length = ns.length →
        (∀ l n, (l, n) ∈ ls.zip ns → ∀ k block' m', Cid.tryFrom (l.Hash.getD []) = .ok k → get k = some block' →
          FlatUnixFs.tryParse block' = .ok m' → m'.data.filesize = some n) →
        ∃ ts, FilesAt get ts ls ∧ ns = ts.map (fun t => t.content.length))
    ?_ ?_ ?_ h
  · intro c b links order hg hla hkids ih hsum hacc hmeta
    obtain ⟨block, m, o, fs, hg', hm, ha⟩ := hacc c (by simp)
    rw [hg] at hg'
    cases hg'
    obtain ⟨m', hm', hl⟩ := id hla
    rw [hm] at hm'
    cases hm'
    rw [if_neg (by rcases ha.node.1 with h | h <;> rw [h] <;> simp)] at hl
    by_cases hlinks : m.links = []
    · have hf := hsum.leaf c b m (.here c) hg hm hlinks
      refine ⟨.leaf (m.data.Data.getD []), b, m, hg, hm, ?_, by rw [hf]; rfl⟩
      simp only [FileAt]
      refine ⟨m, hm, ha.node, hlinks, ?_, rfl, hf⟩
      have := ha.sizes
      rw [hlinks] at this
      exact List.eq_nil_of_length_eq_zero this.symm
    · obtain ⟨hd, hf⟩ := hsum.inner c b m (.here c) hg hm hlinks
      obtain ⟨ts, hts, hns⟩ := ih (fun k hk => ⟨fun d block m h => hsum.leaf d block m (.link hg hla hk h),
          fun d block m h => hsum.inner d block m (.link hg hla hk h), fun d block m h => hsum.link d block m (.link hg hla hk h)⟩)
        (fun d hd => hacc d (by simp [hd])) (fun d hd => hmeta d (by simpa using hd)) m.links m.data.blocksizes hl ha.sizes
        (hsum.link c b m (.here c) hg hm)
      have hlen : ∀ ts : List FTree, (FTree.contents ts).length = (ts.map (fun t => t.content.length)).sum := by
        intro ts
        induction ts with
        | nil => rfl
        | cons t ts ih => simp [FTree.contents, ih]
      refine ⟨.node ts, b, m, hg, hm, ?_, by rw [hf, hns, FTree.content, hlen]⟩
      rw [FileAt]
      refine ⟨m, hm, ha.node, ?_, hd, by rw [hf, hns, hlen], hns, hts⟩
      rintro rfl
      cases hml : m.links with
      | nil => exact hlinks hml
      | cons l ls => rw [hml] at hts; simp [FilesAt] at hts
  · intro _ _ _ ls ns hls hlen _
    cases ls with
    | nil =>
      cases ns with
      | nil => exact ⟨[], by simp [FilesAt], rfl⟩
      | cons n ns => simp at hlen
    | cons l ls => simp at hls
  · intro c cs o1 o2 h1 _ ih1 ih2 hsum hacc hmeta ls ns hls hlen hlink
    cases ls with
    | nil => simp at hls
    | cons l ls =>
      cases ns with
      | nil => simp at hlen
      | cons n ns =>
        simp only [List.map_cons, List.cons.injEq] at hls
        obtain ⟨t, block, m, hg, hm, hat, hf⟩ := ih1 (hsum c (by simp)) (fun d hd => hacc d (by simp [hd]))
          (fun d hd => hmeta d (List.mem_append_left _ (List.mem_of_mem_tail hd)))
        obtain ⟨ts, hts, hns⟩ := ih2 (fun k hk => hsum k (by simp [hk])) (fun d hd => hacc d (by simp [hd])) (fun d hd => hmeta d (by simp [hd]))
          ls ns hls.2 (by simpa using hlen) (fun l' n' hl' => hlink l' n' (by simp [hl']))
        have hn := hlink l n (by simp) c block m hls.1 hg hm
        rw [hf] at hn
        cases hn
        refine ⟨t :: ts, ?_, by rw [hns]; rfl⟩
        rw [FilesAt]
        obtain ⟨block', m', hg', hm', hnm⟩ := hmeta c (by cases h1; simp)
        rw [hg] at hg'
        cases hg'
        rw [hm] at hm'
        cases hm'
        exact ⟨⟨c, block, m, hls.1, hg, hm, hnm, hat⟩, hts⟩

/-- What leads from the root of a file to a block is the root of a file again. -/
theorem fileAt_linked {get : Cid → Option Bytes} {c d : Cid} (h : LinkedTo get c d) :
    ∀ t block, get c = some block → FileAt get t block → ∃ t' block', get d = some block' ∧ FileAt get t' block' := by
  induction h with
  | here c => exact fun t block hg h => ⟨t, block, hg, h⟩
  | @link c k d b links hg hla hk _ ih =>
    intro t block hg' hat
    rw [hg] at hg'
    cases hg'
    obtain ⟨m, hm, hl⟩ := hla
    cases t with
    | leaf x =>
      simp only [FileAt] at hat
      obtain ⟨m', hm', hn, hlinks, -⟩ := hat
      rw [hm] at hm'
      cases hm'
      rw [if_neg (by rcases hn.1 with h | h <;> rw [h] <;> simp), hlinks] at hl
      cases links with
      | nil => cases hk
      | cons => simp at hl
    | node ts =>
      rw [FileAt] at hat
      obtain ⟨m', hm', hn, -, -, -, -, hat⟩ := hat
      rw [hm] at hm'
      cases hm'
      rw [if_neg (by rcases hn.1 with h | h <;> rw [h] <;> simp)] at hl
      have key : ∀ (ts : List FTree) (ls : List PBLink) (links : List Cid), FilesAt get ts ls →
          ls.map (fun l => Cid.tryFrom (l.Hash.getD [])) = links.map .ok → k ∈ links → ∃ t b, get k = some b ∧ FileAt get t b := by
        intro ts
        induction ts with
        | nil =>
          intro ls links h hl hk
          cases ls with
          | nil =>
            cases links with
            | nil => cases hk
            | cons => simp at hl
          | cons => simp [FilesAt] at h
        | cons t ts ih =>
          intro ls links h hl hk
          cases ls with
          | nil => simp [FilesAt] at h
          | cons l ls =>
            cases links with
            | nil => cases hk
            | cons j links =>
              rw [FilesAt] at h
              simp only [List.map_cons, List.cons.injEq] at hl
              rcases List.mem_cons.1 hk with rfl | hk
              · obtain ⟨cid, b, m, hc, hg, -, -, hat⟩ := h.1
                rw [hc] at hl
                cases hl.1
                exact ⟨t, b, hg, hat⟩
              · exact ih ls links h.2 hl.2 hk
      obtain ⟨t', b', hg', hat'⟩ := key ts m.links links hat hl hk
      exact ih t' b' hg' hat'

/-- The sizes in the blocks of a well-formed file add up. -/
theorem fileAt_adds {get : Cid → Option Bytes} {c : Cid} {t : FTree} {root : Bytes} (hg : get c = some root) (h : FileAt get t root) :
    SizesAddUp get c := by
  have size : ∀ t block m, FileAt get t block → FlatUnixFs.tryParse block = .ok m → m.data.filesize = some t.content.length := by
    intro t block m hat hm
    cases t with
    | leaf x =>
      simp only [FileAt] at hat
      obtain ⟨m', hm', -, -, -, -, hf⟩ := hat
      rw [hm] at hm'
      cases hm'
      exact hf
    | node ts =>
      rw [FileAt] at hat
      obtain ⟨m', hm', -, -, -, hf, -⟩ := hat
      rw [hm] at hm'
      cases hm'
      exact hf
  have hlen : ∀ ts : List FTree, (FTree.contents ts).length = (ts.map (fun t => t.content.length)).sum := by
    intro ts
    induction ts with
    | nil => rfl
    | cons t ts ih => simp [FTree.contents, ih]
  have fields : ∀ d block m, LinkedTo get c d → get d = some block → FlatUnixFs.tryParse block = .ok m → ∃ t, FileAt get t block := by
    intro d block m hd hg' _
    obtain ⟨t', b', hb', hat'⟩ := fileAt_linked hd t root hg h
    rw [hg'] at hb'
    cases hb'
    exact ⟨t', hat'⟩
  constructor
  · intro d block m hd hg' hm hl
    obtain ⟨t, hat⟩ := fields d block m hd hg' hm
    cases t with
    | leaf x =>
      simp only [FileAt] at hat
      obtain ⟨m', hm', -, -, -, hdat, hf⟩ := hat
      rw [hm] at hm'
      cases hm'
      rw [hf, hdat]
    | node ts =>
      rw [FileAt] at hat
      obtain ⟨m', hm', -, hne, -, -, -, hat⟩ := hat
      rw [hm] at hm'
      cases hm'
      rw [hl] at hat
      cases ts with
      | nil => exact absurd rfl hne
      | cons => simp [FilesAt] at hat
  · intro d block m hd hg' hm hl
    obtain ⟨t, hat⟩ := fields d block m hd hg' hm
    cases t with
    | leaf x =>
      simp only [FileAt] at hat
      obtain ⟨m', hm', -, hl', -⟩ := hat
      rw [hm] at hm'
      cases hm'
      exact absurd hl' hl
    | node ts =>
      rw [FileAt] at hat
      obtain ⟨m', hm', -, -, hdat, hf, hbs, -⟩ := hat
      rw [hm] at hm'
      cases hm'
      exact ⟨hdat, by rw [hf, hbs, hlen]⟩
  · intro d block m hd hg' hm
    obtain ⟨t, hat⟩ := fields d block m hd hg' hm
    cases t with
    | leaf x =>
      simp only [FileAt] at hat
      obtain ⟨m', hm', -, hl', -⟩ := hat
      rw [hm] at hm'
      cases hm'
      intro l n hln
      rw [hl'] at hln
      cases hln
    | node ts =>
      rw [FileAt] at hat
      obtain ⟨m', hm', -, -, -, -, hbs, hat⟩ := hat
      rw [hm] at hm'
      cases hm'
      rw [hbs]
      have key : ∀ (ts : List FTree) (ls : List PBLink), FilesAt get ts ls → ∀ l n, (l, n) ∈ ls.zip (ts.map (fun t => t.content.length)) →
          ∀ k block' m', Cid.tryFrom (l.Hash.getD []) = .ok k → get k = some block' →
          FlatUnixFs.tryParse block' = .ok m' → m'.data.filesize = some n := by
        intro ts
        induction ts with
        | nil => intro ls _ l n hln; simp at hln
        | cons t ts ih =>
          intro ls h l n hln k block' m' hk hgk hmk
          cases ls with
          | nil => cases hln
          | cons l' ls =>
            rw [FilesAt] at h
            rcases List.mem_cons.1 hln with heq | hln
            · cases heq
              obtain ⟨cid, b, m2, hc, hg2, -, -, hat2⟩ := h.1
              rw [hc] at hk
              cases hk
              rw [hg2] at hgk
              cases hgk
              exact size t _ m' hat2 hmk
            · exact ih ls h.2 l n hln k block' m' hk hgk hmk
      exact key ts m.links hat

/-- C123: a block is the root of a well-formed file exactly if it can be read to the end and the sizes in the blocks below it add up. -/
theorem C123_wellformed (get : Cid → Option Bytes) (c : Cid) (root : Bytes) (hg : get c = some root) :
    (∃ t, FileAt get t root) ↔ (∃ x asked, readFile get {} root = some (.ok (x, asked))) ∧ SizesAddUp get c := by
  constructor
  · rintro ⟨t, h⟩
    obtain ⟨asked, ha⟩ := C18_read_wellformed get t root h
    exact ⟨⟨_, asked, ha⟩, fileAt_adds hg h⟩
  · rintro ⟨⟨x, asked, h⟩, hadd⟩
    have horder := C120_read get c root hg x asked h
    have hroot : ∃ m o fs, FlatUnixFs.tryParse root = .ok m ∧ Accepted m o fs := by
      unfold readFile at h
      cases hs : IdleFileVisit.start {} root with
      | panic p => rw [hs] at h; cases h
      | err e => rw [hs] at h; cases h
      | ok r =>
        obtain ⟨m, fs, hm, ha, -⟩ := start_ok hs
        exact ⟨m, _, fs, hm, ha⟩
    have hrest : ∀ d ∈ asked, ∃ block m o fs, get d = some block ∧ FlatUnixFs.tryParse block = .ok m ∧ NoMeta m ∧ Accepted m o fs := by
      unfold readFile at h
      cases hs : IdleFileVisit.start {} root with
      | panic p => rw [hs] at h; cases h
      | err e => rw [hs] at h; cases h
      | ok r =>
        rw [hs] at h
        obtain ⟨co, ts, me, next⟩ := r
        cases next with
        | none => cases h; nofun
        | some v =>
          simp only at h
          cases hrec : readFrom get v with
          | none => rw [hrec] at h; cases h
          | some r' =>
            rw [hrec] at h
            cases r' with
            | panic p => cases h
            | err e => cases h
            | ok y =>
              obtain ⟨x', q'⟩ := y
              cases h
              exact read_accepted get v _ hrec x' _ rfl
    obtain ⟨t, block, m, hg', -, hat, -⟩ := tree_of_blocks horder hadd
      (by
        intro d hd
        rcases List.mem_cons.1 hd with rfl | hd
        · obtain ⟨m, o, fs, hm, ha⟩ := hroot
          exact ⟨root, m, o, fs, hg, hm, ha⟩
        · obtain ⟨b, m, o, fs, h1, h2, -, h3⟩ := hrest d hd
          exact ⟨b, m, o, fs, h1, h2, h3⟩)
      (by
        intro d hd
        obtain ⟨b, m, o, fs, h1, h2, h3, -⟩ := hrest d hd
        exact ⟨b, m, h1, h2, h3⟩)
    rw [hg] at hg'
    cases hg'
    exact ⟨t, hat⟩

/-- C123: if a file can be read to the end, and the sizes in its blocks add up, then every range of it can be read: this gives the bytes in
the range, and asks for some of the blocks only, in the same order. The size reported at the start is that of what was read. -/
theorem C123_parts (get : Cid → Option Bytes) (c : Cid) (root : Bytes) (hg : get c = some root) (x : Bytes) (asked : List Cid)
    (h : readFile get {} root = some (.ok (x, asked))) (hadd : SizesAddUp get c) :
    (∀ r : Rng, ∃ q, readFile get (IdleFileVisit.withTargetRange {} r) root = some (.ok (slice x r, q)) ∧ q.Sublist asked) ∧
    ∀ target, ∃ r, (IdleFileVisit.mk target).start root = .ok r ∧ r.total_size = x.length := by
  obtain ⟨t, hat⟩ := (C123_wellformed get c root hg).2 ⟨⟨x, asked, h⟩, hadd⟩
  have hx : x = t.content := by
    obtain ⟨q, hq⟩ := C18_read_wellformed get t root hat
    rw [h] at hq
    cases hq
    rfl
  have ha : asked = (below get t root 0).map (·.1) := by
    obtain ⟨q, hq⟩ := C22_requests_all get t root hat
    rw [h] at hq
    cases hq
    rfl
  subst hx ha
  refine ⟨fun r => ?_, fun target => C20_start_wellformed get t root hat target⟩
  obtain ⟨q, hq⟩ := C19_ranged_read get t root hat r
  obtain ⟨b, hb⟩ := C22_requests get t root hat r
  rw [hq] at hb
  cases hb
  exact ⟨_, hq, List.filter_sublist.map _⟩

/-- C123: the sample file is one to which this applies. -/
theorem C123_example : ∃ get c root x asked, get c = some root ∧ readFile get {} root = some (.ok (x, asked)) ∧ x = [1, 2, 3, 4, 5] ∧
    asked.length = 4 ∧ SizesAddUp get c := by
  have hg : storeOf sampleTree.nodes (sampleTree.cid toySha) = some (sampleTree.block toySha) := by decide +kernel
  obtain ⟨asked, ha⟩ := C18_read_wellformed _ _ _ sample_fileAt
  obtain ⟨b, hb⟩ := C22_requests_all _ _ _ sample_fileAt
  refine ⟨storeOf sampleTree.nodes, sampleTree.cid toySha, sampleTree.block toySha, _, asked, hg, ha, by decide +kernel, ?_, fileAt_adds hg sample_fileAt⟩
  rw [ha] at hb
  cases hb
  decide +kernel

/-! ### sizes which do not add up -/

/-- A block with links to the blocks named by one byte, of the given sizes. -/
def linkFile (links : List (UInt8 × Nat)) (size : Nat) : Bytes :=
  (FlatUnixFs.mk (links.map (fun l => ⟨some (cidOf toySha [l.1]).toBytes, some [], some 7⟩))
    { Ty := .File, Data := none, filesize := some size, blocksizes := links.map (·.2) }).write

/-- Two leaves, under a root which declares less than their sizes. -/
def shortRoot : Cid → Option Bytes := fun c =>
  if c = cidOf toySha [0] then some (linkFile [(1, 5), (2, 7)] 10)
  else if c = cidOf toySha [1] then some (someFile [] 5 (some [1, 2, 3, 4, 5]))
  else if c = cidOf toySha [2] then some (someFile [] 7 (some [6, 7, 8, 9, 10, 11, 12]))
  else none

theorem readFrom_last {get : Cid → Option Bytes} {v : FileVisit} {first rest block content}
    (hp : v.pendingLinks = .ok (first, rest)) (hg : get first = some block) (hc : (v.continueWalk block none).1 = .ok (content, none)) :
    readFrom get v = some (.ok (content, [first])) := by
  rw [readFrom.eq_1, hp]
  simp only
  rw [hg]
  simp only
  rw [hc]

theorem readFrom_next {get : Cid → Option Bytes} {v v' : FileVisit} {first rest block content x q}
    (hp : v.pendingLinks = .ok (first, rest)) (hg : get first = some block) (hc : (v.continueWalk block none).1 = .ok (content, some v'))
    (h : readFrom get v' = some (.ok (x, q))) :
    readFrom get v = some (.ok (content ++ x, first :: q)) := by
  rw [readFrom.eq_1, hp]
  simp only
  rw [hg]
  simp only
  rw [hc]
  simp only
  rw [h]
  rfl

/-- C123: the sizes must add up. A root which declares 10 bytes, with two honest leaves of 5 and 7 bytes, can be read to the end, which gives
12 bytes, but the range from 6 to 8 cannot be read. -/
theorem C123_needed : ∃ get c root x asked, get c = some root ∧ readFile get {} root = some (.ok (x, asked)) ∧ x.length = 12 ∧
    readFile get (IdleFileVisit.withTargetRange {} ⟨6, 8⟩) root = some (.err (.failed (.File .TreeOverlapsBetweenLinks))) ∧
    ¬ SizesAddUp get c := by
  have hg : shortRoot (cidOf toySha [0]) = some (linkFile [(1, 5), (2, 7)] 10) := by decide +kernel
  have h1 : shortRoot (cidOf toySha [1]) = some (someFile [] 5 (some [1, 2, 3, 4, 5])) := by decide +kernel
  have h2 : shortRoot (cidOf toySha [2]) = some (someFile [] 7 (some [6, 7, 8, 9, 10, 11, 12])) := by decide +kernel
  have hwhole : readFile shortRoot {} (linkFile [(1, 5), (2, 7)] 10) =
      some (.ok ([1, 2, 3, 4, 5] ++ [6, 7, 8, 9, 10, 11, 12], [cidOf toySha [1], cidOf toySha [2]])) := by
    have hs : IdleFileVisit.start {} (linkFile [(1, 5), (2, 7)] 10) = .ok ⟨[], 10, {},
        some ⟨[(cidOf toySha [2], ⟨5, 12⟩), (cidOf toySha [1], ⟨0, 5⟩)], none, ⟨.TreeCoverage 10, 0, 10, {}⟩⟩⟩ := by decide +kernel
    unfold readFile
    rw [hs]
    simp only
    rw [readFrom_next (first := cidOf toySha [1]) (rest := [cidOf toySha [2]]) (content := [1, 2, 3, 4, 5])
      (v' := ⟨[(cidOf toySha [2], ⟨5, 12⟩)], none, ⟨.Chunk 5, 0, 5, {}⟩⟩) (by decide +kernel) h1 (by decide +kernel)
      (readFrom_last (first := cidOf toySha [2]) (rest := []) (content := [6, 7, 8, 9, 10, 11, 12]) (by decide +kernel) h2 (by decide +kernel))]
    rfl
  have hpart : readFile shortRoot (IdleFileVisit.withTargetRange {} ⟨6, 8⟩) (linkFile [(1, 5), (2, 7)] 10) =
      some (.err (.failed (.File .TreeOverlapsBetweenLinks))) := by
    have hs : (IdleFileVisit.withTargetRange {} ⟨6, 8⟩).start (linkFile [(1, 5), (2, 7)] 10) = .ok ⟨[], 10, {},
        some ⟨[(cidOf toySha [2], ⟨5, 12⟩)], some ⟨6, 8⟩, ⟨.TreeCoverage 10, 0, 10, {}⟩⟩⟩ := by decide +kernel
    have hp : FileVisit.pendingLinks ⟨[(cidOf toySha [2], ⟨5, 12⟩)], some ⟨6, 8⟩, ⟨.TreeCoverage 10, 0, 10, {}⟩⟩ =
      .ok (cidOf toySha [2], []) := by decide +kernel
    have hc : (FileVisit.continueWalk ⟨[(cidOf toySha [2], ⟨5, 12⟩)], some ⟨6, 8⟩, ⟨.TreeCoverage 10, 0, 10, {}⟩⟩
      (someFile [] 7 (some [6, 7, 8, 9, 10, 11, 12])) none).1 = .err (.File .TreeOverlapsBetweenLinks) := by decide +kernel
    unfold readFile
    rw [hs]
    simp only
    rw [readFrom.eq_1, hp]
    simp only
    rw [h2]
    simp only
    rw [hc]
    rfl
  refine ⟨shortRoot, cidOf toySha [0], _, _, _, hg, hwhole, rfl, hpart, fun hadd => ?_⟩
  obtain ⟨hall, -⟩ := C123_parts _ _ _ hg _ _ hwhole hadd
  obtain ⟨q, hq, -⟩ := hall ⟨6, 8⟩
  rw [hpart] at hq
  cases hq

/-- A leaf of five bytes to which the block above it gives a size of three. -/
def shortLink : Cid → Option Bytes := fun c =>
  if c = cidOf toySha [0] then some (linkFile [(1, 5), (2, 3)] 8)
  else if c = cidOf toySha [1] then some (linkFile [(3, 3)] 5)
  else if c = cidOf toySha [3] then some (someFile [] 5 (some [1, 2, 3, 4, 5]))
  else if c = cidOf toySha [2] then some (someFile [] 3 (some [6, 7, 8]))
  else none

/-- C123: if the sizes do not add up, a range can also be read without an error, but with bytes missing. Here the whole file is eight bytes,
all blocks without links are honest, and the range from 3 to 5 comes out empty. -/
theorem C123_silent : ∃ get c root x asked q, get c = some root ∧ readFile get {} root = some (.ok (x, asked)) ∧ x.length = 8 ∧
    readFile get (IdleFileVisit.withTargetRange {} ⟨3, 5⟩) root = some (.ok ([], q)) ∧ slice x ⟨3, 5⟩ = [4, 5] := by
  have hg : shortLink (cidOf toySha [0]) = some (linkFile [(1, 5), (2, 3)] 8) := by decide +kernel
  have h1 : shortLink (cidOf toySha [1]) = some (linkFile [(3, 3)] 5) := by decide +kernel
  have h2 : shortLink (cidOf toySha [2]) = some (someFile [] 3 (some [6, 7, 8])) := by decide +kernel
  have h3 : shortLink (cidOf toySha [3]) = some (someFile [] 5 (some [1, 2, 3, 4, 5])) := by decide +kernel
  have hwhole : readFile shortLink {} (linkFile [(1, 5), (2, 3)] 8) =
      some (.ok ([] ++ ([1, 2, 3, 4, 5] ++ [6, 7, 8]), [cidOf toySha [1], cidOf toySha [3], cidOf toySha [2]])) := by
    have hs : IdleFileVisit.start {} (linkFile [(1, 5), (2, 3)] 8) = .ok ⟨[], 8, {},
        some ⟨[(cidOf toySha [2], ⟨5, 8⟩), (cidOf toySha [1], ⟨0, 5⟩)], none, ⟨.TreeCoverage 8, 0, 8, {}⟩⟩⟩ := by decide +kernel
    unfold readFile
    rw [hs]
    simp only
    rw [readFrom_next (first := cidOf toySha [1]) (rest := [cidOf toySha [2]]) (content := [])
      (v' := ⟨[(cidOf toySha [2], ⟨5, 8⟩), (cidOf toySha [3], ⟨0, 3⟩)], none, ⟨.TreeCoverage 5, 0, 5, {}⟩⟩)
      (by decide +kernel) h1 (by decide +kernel)
      (readFrom_next (first := cidOf toySha [3]) (rest := [cidOf toySha [2]]) (content := [1, 2, 3, 4, 5])
        (v' := ⟨[(cidOf toySha [2], ⟨5, 8⟩)], none, ⟨.Chunk 5, 0, 5, {}⟩⟩) (by decide +kernel) h3 (by decide +kernel)
        (readFrom_last (first := cidOf toySha [2]) (rest := []) (content := [6, 7, 8]) (by decide +kernel) h2 (by decide +kernel)))]
    rfl
  have hpart : readFile shortLink (IdleFileVisit.withTargetRange {} ⟨3, 5⟩) (linkFile [(1, 5), (2, 3)] 8) =
      some (.ok ([] ++ ([] ++ []), [cidOf toySha [1], cidOf toySha [3], cidOf toySha [2]])) := by
    have hs : (IdleFileVisit.withTargetRange {} ⟨3, 5⟩).start (linkFile [(1, 5), (2, 3)] 8) = .ok ⟨[], 8, {},
        some ⟨[(cidOf toySha [2], ⟨5, 8⟩), (cidOf toySha [1], ⟨0, 5⟩)], some ⟨3, 5⟩, ⟨.TreeCoverage 8, 0, 8, {}⟩⟩⟩ := by decide +kernel
    unfold readFile
    rw [hs]
    simp only
    rw [readFrom_next (first := cidOf toySha [1]) (rest := [cidOf toySha [2]]) (content := [])
      (v' := ⟨[(cidOf toySha [2], ⟨5, 8⟩), (cidOf toySha [3], ⟨0, 3⟩)], some ⟨3, 5⟩, ⟨.TreeCoverage 5, 0, 5, {}⟩⟩)
      (by decide +kernel) h1 (by decide +kernel)
      (readFrom_next (first := cidOf toySha [3]) (rest := [cidOf toySha [2]]) (content := [])
        (v' := ⟨[(cidOf toySha [2], ⟨5, 8⟩)], some ⟨3, 5⟩, ⟨.Chunk 5, 0, 5, {}⟩⟩) (by decide +kernel) h3 (by decide +kernel)
        (readFrom_last (first := cidOf toySha [2]) (rest := []) (content := []) (by decide +kernel) h2 (by decide +kernel)))]
    rfl
  exact ⟨shortLink, cidOf toySha [0], _, _, _, _, hg, hwhole, rfl, hpart, rfl⟩

end Verif.Props
