import Verif.Props.Ends
import Verif.Props.Adder
/-
C89: how many links are pending at a time.
-/
namespace Verif.Props
open Verif Verif.Spec

/-- For every Cid of the queue: those after it are few, compared to what is above it. -/
def Stacked (get : Cid → Option Bytes) (B H : Nat) : List Cid → Prop
  | [] => True
  | c :: rest => (∃ h, Bounded get B h c ∧ rest.length + h * (B - 1) ≤ H * (B - 1)) ∧ Stacked get B H rest

theorem stacked_append {get : Cid → Option Bytes} {B H h : Nat} {rest : List Cid} : ∀ S : List Cid, (∀ c ∈ S, Bounded get B h c) →
    S.length - 1 + rest.length + h * (B - 1) ≤ H * (B - 1) → Stacked get B H rest → Stacked get B H (S ++ rest) := by
  intro S
  induction S with
  | nil => intro _ _ h; exact h
  | cons c S ih =>
    intro hc hle hr
    refine ⟨⟨h, hc c (by simp), ?_⟩, ih (fun x hx => hc x (by simp [hx])) ?_ hr⟩
    · show (S ++ rest).length + h * (B - 1) ≤ H * (B - 1)
      rw [List.length_append]
      simp only [List.length_cons] at hle
      omega
    · simp only [List.length_cons] at hle
      omega

theorem stacked_step {get : Cid → Option Bytes} {B H : Nat} {c : Cid} {rest S : List Cid} {b : Bytes} (h : Stacked get B H (c :: rest))
    (hg : get c = some b) (hS : S.Sublist (linkCids b)) : Stacked get B H (S ++ rest) := by
  obtain ⟨⟨k, hw, hle⟩, hr⟩ := h
  cases k with
  | zero =>
    have := hw b hg
    rw [this] at hS
    rw [List.eq_nil_of_sublist_nil hS]
    exact hr
  | succ k =>
    obtain ⟨h1, h2⟩ := hw b hg
    refine stacked_append S (fun x hx => h2 x (hS.subset hx)) ?_ hr
    have := hS.length_le
    rw [Nat.add_mul, Nat.one_mul] at hle
    omega

theorem stacked_length {get : Cid → Option Bytes} {B H : Nat} {q : List Cid} (h : Stacked get B H q) : q.length ≤ H * (B - 1) + 1 := by
  cases q with
  | nil => simp
  | cons c rest =>
    obtain ⟨⟨k, -, hle⟩, -⟩ := h
    have := Nat.zero_le (k * (B - 1))
    simp only [List.length_cons]
    omega

/-- C89, files: while reading, whatever the range, `pending_links` never names more than `H * (B - 1) + 1` Cids, if the file is at most
`H` links deep and its blocks have at most `B` links each. -/
theorem C89_read (get : Cid → Option Bytes) (B H : Nat) (idle : IdleFileVisit) (c : Cid) (hw : Bounded get B H c) (v : FileVisit)
    (hv : ReadsAt get idle c v) (first : Cid) (rest : List Cid) (hp : v.pendingLinks = .ok (first, rest)) :
    (first :: rest).length ≤ H * (B - 1) + 1 := by
  have key : Stacked get B H (askedFor (some v)) := by
    clear hp
    induction hv with
    | @start root r v hg hs hn =>
      obtain ⟨target⟩ := idle
      obtain ⟨m, fs, hm, ha, h1, h2⟩ := start_ok hs
      by_cases hl : m.links = []
      · rw [h1 hl] at hn; cases hn
      · obtain ⟨ps, hps, he⟩ := h2 hl
        have hv : askedFor (some v) = wantedLinks target 0 (m.links.zip m.data.blocksizes) := by
          rw [he] at hn
          simp only at hn
          split at hn
          · cases hn
          · cases hn
            rw [askedFor_some, List.reverse_reverse, collectLinks_wanted _ _ _ _ hps]
        have := stacked_step (B := B) (H := H) (rest := []) ⟨⟨H, hw, by simp⟩, trivial⟩ hg
          (linkCids_ok hm ▸ wantedLinks_sublist target m.links m.data.blocksizes 0)
        rw [hv]
        simpa using this
    | @next v v' first rest block x cache hv hp hg hc ih =>
      obtain ⟨m, i, hm, -, hnext⟩ := C46_visit_pending v first rest hp block cache x (some v') hc
      rw [hnext]
      have ha : askedFor (some v) = first :: rest := by simp [askedFor, hp]
      rw [ha] at ih
      exact stacked_step ih hg (linkCids_ok hm ▸ wantedLinks_sublist v.range m.links m.data.blocksizes i.lo)
  have ha : askedFor (some v) = first :: rest := by simp [askedFor, hp]
  rw [ha] at key
  exact stacked_length key

/-- C89, walks: the same for everything below the root of the walk. -/
theorem C89_walk (get : Cid → Option Bytes) (B H : Nat) (c : Cid) (name : Bytes) (hw : Bounded get B H c) (w : Walker)
    (hv : WalksAt get c name w) (hsc : w.shouldContinue = true) (first : Cid) (rest : List Cid) (hp : w.pendingLinks = .ok (first, rest)) :
    (first :: rest).length ≤ H * (B - 1) + 1 := by
  have key : ∃ fb rs, WInv w fb rs ∧ Stacked get B H ((fb ++ rs).map (·.cid)) := by
    clear hp hsc
    induction hv with
    | start => exact ⟨[], _, WInv.new c name, ⟨H, hw, by simp⟩, trivial⟩
    | @next w w' first rest block item cache cache' hv hsc hp hg hc hst ih =>
      obtain ⟨fb, rs, hwi, hs⟩ := ih
      cases hq : fb ++ rs with
      | nil =>
        have := hwi.cont
        rw [hq, show w.should_continue = true from hsc] at this
        simp at this
      | cons a aw =>
        have hp' := pendingLinks_eq hwi hq
        rw [hp] at hp'
        simp only [Res.ok.injEq, Prod.mk.injEq] at hp'
        obtain ⟨rfl, rfl⟩ := hp'
        obtain ⟨m, a', aw', fb', rest', hm, haw, hk, hw'⟩ := hwi.step hc (step_ok hst)
        rw [hq] at haw
        simp only [List.cons.injEq] at haw
        obtain ⟨rfl, rfl⟩ := haw
        rw [hq] at hs
        refine ⟨fb', rest', hw', ?_⟩
        rw [← hk, List.map_append]
        exact stacked_step hs hg (linkCids_ok hm ▸ follow_sublist a m)
  obtain ⟨fb, rs, hwi, hs⟩ := key
  cases hq : fb ++ rs with
  | nil =>
    have := hwi.cont
    rw [hq, show w.should_continue = true from hsc] at this
    simp at this
  | cons a aw =>
    have hp' := pendingLinks_eq hwi hq
    rw [hp] at hp'
    simp only [Res.ok.injEq, Prod.mk.injEq] at hp'
    obtain ⟨rfl, rfl⟩ := hp'
    rw [hq] at hs
    simpa using stacked_length hs

/-- The bound is reached: a file of two leaves, after its root was read. -/
example : ∃ get c v rest first, Bounded get 2 1 c ∧ ReadsAt get {} c v ∧ v.pendingLinks = .ok (first, rest) ∧ (first :: rest).length = 1 * (2 - 1) + 1 := by
  let get := storeN sampleFsBlocks
  let root : Bytes := (get (cidN 1)).getD []
  have hg : get (cidN 1) = some root := by decide +kernel
  have hl : ∀ c b, get c = some b → c = cidN 2 ∨ c = cidN 3 → linkCids b = [] := by
    rintro c b hb (rfl | rfl)
    · have : get (cidN 2) = some ((get (cidN 2)).getD []) := by decide +kernel
      rw [Option.some.inj (hb.symm.trans this)]
      decide +kernel
    · have : get (cidN 3) = some ((get (cidN 3)).getD []) := by decide +kernel
      rw [Option.some.inj (hb.symm.trans this)]
      decide +kernel
  obtain ⟨r, v, h1, h2, h3⟩ : ∃ r v, IdleFileVisit.start {} root = .ok r ∧ r.next = some v ∧ v.pendingLinks = .ok (cidN 2, [cidN 3]) := by
    refine ⟨⟨[], 3, {}, some ⟨[(cidN 3, ⟨2, 3⟩), (cidN 2, ⟨0, 2⟩)], none, ⟨.TreeCoverage 3, 0, 3, {}⟩⟩⟩, _, by decide +kernel, rfl, rfl⟩
  refine ⟨get, cidN 1, v, [cidN 3], cidN 2, ?_, .start hg h1 h2, h3, rfl⟩
  intro b hb
  rw [hg] at hb
  cases hb
  have e : linkCids root = [cidN 2, cidN 3] := by decide +kernel
  rw [e]
  refine ⟨by decide, fun c' hc' b' hb' => hl c' b' hb' (by simpa using hc')⟩

/-! ### Added files -/

mutual
theorem fileAt_within {get : Cid → Option Bytes} {bf : Nat} : ∀ (t : FTree) (b : Bytes) (h : Nat), FileAt get t b → t.Uniform h → t.Arity bf →
    (h = 0 → linkCids b = []) ∧ ∀ k, h = k + 1 → (linkCids b).length ≤ bf ∧ ∀ c' ∈ linkCids b, Bounded get bf k c'
  | .leaf d, b, h, hat, hu, _ => by
    obtain ⟨m, hm, -, hl, -⟩ := hat
    cases h with
    | zero => exact ⟨fun _ => by rw [linkCids_ok hm, hl]; rfl, nofun⟩
    | succ h => exact absurd hu (by simp [FTree.Uniform])
  | .node ts, b, h, hat, hu, ha => by
    obtain ⟨m, hm, -, hne, -, -, -, hfs⟩ := hat
    cases h with
    | zero => exact absurd hu (by simp [FTree.Uniform])
    | succ h =>
      refine ⟨nofun, fun k hk => ?_⟩
      cases hk
      have har := ha (.node ts) (by simp [FTree.nodes]) ts rfl
      obtain ⟨h1, h2⟩ := filesAt_within ts m.links h hfs (fun t ht => hu t ht) (fun t ht s hs => ha s (by
        simp only [FTree.nodes, FTree.nodesL_eq, List.mem_cons, List.mem_flatMap]; exact .inr ⟨t, ht, hs⟩))
      rw [linkCids_ok hm]
      exact ⟨by rw [h1]; exact har.2, h2⟩
theorem filesAt_within {get : Cid → Option Bytes} {bf : Nat} : ∀ (ts : List FTree) (ls : List PBLink) (h : Nat), FilesAt get ts ls →
    (∀ t ∈ ts, t.Uniform h) → (∀ t ∈ ts, t.Arity bf) →
    (ls.filterMap (fun l => (Cid.tryFrom (l.Hash.getD [])).toOption)).length = ts.length ∧
      ∀ c' ∈ ls.filterMap (fun l => (Cid.tryFrom (l.Hash.getD [])).toOption), Bounded get bf h c'
  | [], [], _, _, _, _ => ⟨rfl, by simp⟩
  | t :: ts, l :: ls, h, hat, hu, ha => by
    obtain ⟨⟨cid, b, m, hc, hg, -, -, hat1⟩, hat2⟩ := hat
    obtain ⟨h1, h2⟩ := filesAt_within ts ls h hat2 (fun x hx => hu x (by simp [hx])) (fun x hx => ha x (by simp [hx]))
    obtain ⟨h3, h4⟩ := fileAt_within t b h hat1 (hu t (by simp)) (ha t (by simp))
    have e : (l :: ls).filterMap (fun l => (Cid.tryFrom (l.Hash.getD [])).toOption) =
        cid :: ls.filterMap (fun l => (Cid.tryFrom (l.Hash.getD [])).toOption) := by
      rw [List.filterMap_cons, hc]; rfl
    rw [e]
    refine ⟨by rw [List.length_cons, h1]; rfl, fun c' hc' => ?_⟩
    rcases List.mem_cons.1 hc' with rfl | hc'
    case inr => exact h2 c' hc'
    cases h with
    | zero => intro b' hb'; rw [hg] at hb'; cases hb'; exact h3 rfl
    | succ h => intro b' hb'; rw [hg] at hb'; cases hb'; exact h4 h rfl
  | [], _ :: _, _, hat, _, _ => by simp [FilesAt] at hat
  | _ :: _, [], _, hat, _, _ => by simp [FilesAt] at hat
end

/-- C89, added files: reading an added file names at most `d * (bf - 1) + 1` Cids at a time, `d` being the smallest number for which
`bf ^ d` chunks are enough for the content. -/
theorem C89_added (sha : Bytes → Bytes) (hsha : ∀ b, (sha b).length = 32) (c bf : Nat) (hc : 0 < c) (hbf : 0 < bf) (x : Bytes)
    (blocks : List (Cid × Bytes)) (h : Adds sha c bf x blocks) (hsmall : BelowLimit blocks) (get : Cid → Option Bytes) (hget : Holds get blocks) (d : Nat)
    (hd : (chunks c x).length ≤ bf ^ d) :
    ∃ root, blocks.getLast? = some root ∧ ∀ idle v first rest, ReadsAt get idle root.1 v → v.pendingLinks = .ok (first, rest) →
      (first :: rest).length ≤ d * (bf - 1) + 1 := by
  obtain ⟨T, k, f⟩ := adds_facts hc hbf h
  have hat := f.fileAt hsha hsmall hget
  have hlast : blocks.getLast? = some (T.entry sha) := by rw [f.blocks, List.getLast?_map, f.em.last]; rfl
  refine ⟨T.entry sha, hlast, fun idle v first rest hv hp => ?_⟩
  have hg : get (T.entry sha).1 = some (T.entry sha).2 := hget _ (List.mem_of_getLast? hlast)
  obtain ⟨h1, h2⟩ := fileAt_within (bf := bf) T _ k hat f.em.uniform f.em.arity
  have hw : Bounded get bf k (T.entry sha).1 := by
    cases k with
    | zero => intro b' hb'; rw [hg] at hb'; cases hb'; exact h1 rfl
    | succ k => intro b' hb'; rw [hg] at hb'; cases hb'; exact h2 k rfl
  have := C89_read get bf k idle _ hw v hv first rest hp
  by_cases hbf : 2 ≤ bf
  · have hk : k ≤ d := f.em.minimal hbf hd
    have := Nat.mul_le_mul_right (bf - 1) hk
    omega
  · have h0 : bf - 1 = 0 := by omega
    rw [h0, Nat.mul_zero] at this ⊢
    exact this

end Verif.Props
