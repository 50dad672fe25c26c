import Verif.Examples
import Verif.Spec.Stores
import Verif.Props.Reader
import Verif.Props.AdderMore
/-
C71: the example program `cat`.
-/
namespace Verif.Props
open Verif Verif.Spec Verif.Examples

theorem catLoop_read {get : Cid → Option Bytes} (v : FileVisit) (r) (h : readFrom get v = some r) :
    ∀ x q, r = .ok (x, q) → ∀ s : CatState, catLoop get s v = some (⟨s.stdout ++ x, s.read_bytes + (q.map (sizeOf get)).sum,
      s.content_bytes + x.length⟩, .ok ()) := by
  refine readFrom.partial_correctness get (fun v r => ∀ x q, r = .ok (x, q) → ∀ s : CatState, catLoop get s v =
    some (⟨s.stdout ++ x, s.read_bytes + (q.map (sizeOf get)).sum, s.content_bytes + x.length⟩, .ok ())) ?_ v r h
  intro rec ih v r hr x q hrq s
  subst hrq
  rw [catLoop.eq_1]
  cases hp : v.pendingLinks with
  | panic p => rw [hp] at hr; cases hr
  | err e => rw [hp] at hr; cases hr
  | ok fl =>
    obtain ⟨first, rest⟩ := fl
    rw [hp] at hr
    simp only at hr ⊢
    cases hg : get first with
    | none => rw [hg] at hr; cases hr
    | some block =>
      rw [hg] at hr
      simp only at hr ⊢
      cases hc : (v.continueWalk block none).1 with
      | panic p => rw [hc] at hr; cases hr
      | err e => rw [hc] at hr; cases hr
      | ok cs =>
        obtain ⟨content, step⟩ := cs
        rw [hc] at hr
        cases step with
        | none =>
          simp only [Option.some.injEq, Res.ok.injEq, Prod.mk.injEq] at hr
          obtain ⟨rfl, rfl⟩ := hr
          simp [CatState.write, CatState.read, Spec.sizeOf, hg]
        | some v' =>
          simp only at hr ⊢
          cases hrec : rec v' with
          | none => rw [hrec] at hr; cases hr
          | some r' =>
            rw [hrec] at hr
            simp only [bind, Option.bind, Option.some.injEq] at hr
            cases r' with
            | panic p => cases hr
            | err e => cases hr
            | ok xq =>
              obtain ⟨x', q'⟩ := xq
              simp only [Res.map, Res.ok.injEq, Prod.mk.injEq] at hr
              obtain ⟨rfl, rfl⟩ := hr
              rw [ih v' _ hrec x' q' rfl]
              simp [CatState.write, CatState.read, Spec.sizeOf, hg, Nat.add_assoc]

theorem catWalk_read {get : Cid → Option Bytes} {start : Cid} {root : Bytes} (hg : get start = some root) {x : Bytes} {q : List Cid}
    (h : readFile get {} root = some (.ok (x, q))) :
    catWalk get start = some (⟨x, root.length + (q.map (sizeOf get)).sum, x.length⟩, .ok ()) := by
  unfold readFile at h
  unfold catWalk
  rw [hg]
  simp only
  cases hs : IdleFileVisit.start {} root with
  | panic p => rw [hs] at h; cases h
  | err e => rw [hs] at h; cases h
  | ok r =>
    rw [hs] at h
    obtain ⟨content, sz, md, step⟩ := r
    cases step with
    | none =>
      simp only [Option.some.injEq, Res.ok.injEq, Prod.mk.injEq] at h
      obtain ⟨rfl, rfl⟩ := h
      simp [CatState.write, CatState.read]
    | some v =>
      simp only at h ⊢
      cases hr : readFrom get v with
      | none => rw [hr] at h; cases h
      | some r' =>
        rw [hr] at h
        simp only [bind, Option.bind, Option.some.injEq] at h
        cases r' with
        | panic p => cases h
        | err e => cases h
        | ok xq =>
          obtain ⟨x', q'⟩ := xq
          simp only [Res.map, Res.ok.injEq, Prod.mk.injEq] at h
          obtain ⟨rfl, rfl⟩ := h
          rw [catLoop_read v _ hr x' q' rfl]
          simp [CatState.write, CatState.read]

/-- `cat` of a well-formed file writes its content and nothing else, and counts the bytes of the content and of all blocks of the
file. -/
theorem C71_cat (get : Cid → Option Bytes) (t : FTree) (start : Cid) (root : Bytes) (hg : get start = some root)
    (h : FileAt get t root) :
    catWalk get start = some (⟨t.content, (((start :: (below get t root 0).map (·.1))).map (sizeOf get)).sum, t.content.length⟩, .ok ()) := by
  obtain ⟨bytes, hr⟩ := C22_requests_all get t root h
  obtain ⟨cids, hr'⟩ := C18_read_wellformed get t root h
  rw [hr, Option.some.injEq, Res.ok.injEq, Prod.mk.injEq] at hr'
  obtain ⟨rfl, rfl⟩ := hr'
  rw [catWalk_read hg hr]
  simp [Spec.sizeOf, hg]

/-- With a store which lacks some blocks, the loop writes a beginning of what it would have written, and reports that a block
could not be opened; or it does the same. -/
theorem catLoop_part {part full : Cid → Option Bytes} (hpart : PartOf part full) (s : CatState) (v : FileVisit) (r)
    (h : catLoop full s v = some r) :
    s.stdout <+: r.1.stdout ∧ (catLoop part s v = some r ∨
      ∃ s', catLoop part s v = some (s', .err .OpeningFailed) ∧ s'.stdout <+: r.1.stdout ∧ s.stdout <+: s'.stdout) := by
  refine catLoop.partial_correctness full (fun s v r => s.stdout <+: r.1.stdout ∧ (catLoop part s v = some r ∨
      ∃ s', catLoop part s v = some (s', .err .OpeningFailed) ∧ s'.stdout <+: r.1.stdout ∧ s.stdout <+: s'.stdout)) ?_ s v r h
  intro rec ih s v r hr
  rw [catLoop.eq_1 part]
  cases hp : v.pendingLinks with
  | panic p =>
    rw [hp] at hr; simp only [Option.some.injEq] at hr; subst hr; exact ⟨List.prefix_refl _, .inl rfl⟩
  | err e =>
    rw [hp] at hr; simp only [Option.some.injEq] at hr; subst hr; exact ⟨List.prefix_refl _, .inl rfl⟩
  | ok fl =>
    obtain ⟨first, rest⟩ := fl
    rw [hp] at hr
    simp only at hr ⊢
    cases hf : full first with
    | none =>
      rw [hf] at hr
      simp only [Option.some.injEq] at hr
      subst hr
      have hn : part first = none := by
        cases hq : part first with
        | none => rfl
        | some b => rw [hpart _ _ hq] at hf; cases hf
      rw [hn]
      exact ⟨List.prefix_refl _, .inl rfl⟩
    | some block =>
      rw [hf] at hr
      simp only at hr
      have key : s.stdout <+: r.1.stdout ∧ ((match (v.continueWalk block none).1 with
          | .panic p => some (s.read block, .panic p)
          | .err e => some (s.read block, .err (.Traversal e))
          | .ok (content, step) =>
            match step with
            | none => some ((s.read block).write content, .ok ())
            | some visit => catLoop part ((s.read block).write content) visit) = some r ∨
          ∃ s', (match (v.continueWalk block none).1 with
          | .panic p => some (s.read block, .panic p)
          | .err e => some (s.read block, .err (.Traversal e))
          | .ok (content, step) =>
            match step with
            | none => some ((s.read block).write content, .ok ())
            | some visit => catLoop part ((s.read block).write content) visit) = some (s', .err .OpeningFailed) ∧ s'.stdout <+: r.1.stdout ∧ s.stdout <+: s'.stdout) := by
        cases hc : (v.continueWalk block none).1 with
        | panic p => rw [hc] at hr; simp only [Option.some.injEq] at hr; subst hr; exact ⟨List.prefix_refl _, .inl rfl⟩
        | err e => rw [hc] at hr; simp only [Option.some.injEq] at hr; subst hr; exact ⟨List.prefix_refl _, .inl rfl⟩
        | ok cs =>
          obtain ⟨content, step⟩ := cs
          rw [hc] at hr
          cases step with
          | none =>
            simp only [Option.some.injEq] at hr; subst hr
            exact ⟨List.prefix_append _ _, .inl rfl⟩
          | some v' =>
            simp only at hr ⊢
            have h1 := ih _ _ _ hr
            have hpre : s.stdout <+: ((s.read block).write content).stdout := List.prefix_append _ _
            refine ⟨hpre.trans h1.1, ?_⟩
            rcases h1.2 with h2 | ⟨s', h2, h3, h4⟩
            · exact .inl h2
            · exact .inr ⟨s', h2, h3, hpre.trans h4⟩
      refine ⟨key.1, ?_⟩
      cases hq : part first with
      | none => exact .inr ⟨s, rfl, key.1, List.prefix_refl _⟩
      | some b =>
        rw [hpart _ _ hq] at hf
        cases hf
        exact key.2

/-- Whatever the blocks are: if some of them are missing, `cat` does the same as with all of them, or it writes a beginning of that
and reports that a block could not be opened. -/
theorem C71_missing (part full : Cid → Option Bytes) (hpart : PartOf part full) (start : Cid) (r)
    (h : catWalk full start = some r) :
    catWalk part start = some r ∨ ∃ s, catWalk part start = some (s, .err .OpeningFailed) ∧ s.stdout <+: r.1.stdout := by
  unfold catWalk at h ⊢
  cases hq : part start with
  | none => exact .inr ⟨{}, rfl, List.nil_prefix⟩
  | some b =>
    rw [hpart _ _ hq] at h
    simp only at h ⊢
    cases hs : IdleFileVisit.start {} b with
    | panic p => rw [hs] at h; exact .inl h
    | err e => rw [hs] at h; exact .inl h
    | ok rr =>
      rw [hs] at h
      obtain ⟨content, sz, md, step⟩ := rr
      cases step with
      | none => exact .inl h
      | some v =>
        rcases (catLoop_part hpart _ v r h).2 with h1 | ⟨s, h1, h2, _⟩
        · exact .inl h1
        · exact .inr ⟨s, h1, h2⟩

/-- In particular, of a well-formed file a `cat` with missing blocks never writes anything but a beginning of the content. -/
theorem C71_missing_wellformed (part full : Cid → Option Bytes) (hpart : PartOf part full) (t : FTree) (start : Cid) (root : Bytes)
    (hg : full start = some root) (h : FileAt full t root) :
    ∃ s e, catWalk part start = some (s, e) ∧ s.stdout <+: t.content ∧ (e = .ok () → s.stdout = t.content) ∧
      (e = .ok () ∨ e = .err .OpeningFailed) := by
  have h0 := C71_cat full t start root hg h
  rcases C71_missing part full hpart start _ h0 with h1 | ⟨s, h1, h2⟩
  · exact ⟨_, _, h1, List.prefix_refl _, fun _ => rfl, .inl rfl⟩
  · exact ⟨_, _, h1, h2, (by intro h; cases h), .inr rfl⟩

/-! ### `cat` of what was added -/

mutual
theorem below_nodes {sha : Bytes → Bytes} (hsha : ∀ b, (sha b).length = 32) {get : Cid → Option Bytes} :
    ∀ (t : FTree) (off : Nat), (∀ s ∈ t.nodes, FlatUnixFs.tryParse (s.block sha) = .ok (s.msg sha)) →
      (∀ s ∈ t.nodes, get (s.cid sha) = some (s.block sha)) →
      t.cid sha :: (below get t (t.block sha) off).map (·.1) = t.nodes.map (FTree.cid sha)
  | .leaf d, off, _, _ => by simp [below, FTree.nodes]
  | .node ts, off, hp, hg => by
    have h0 := hp _ (FTree.self_mem_nodes _)
    rw [below, h0]
    simp only
    rw [FTree.nodes, List.map_cons]
    congr 1
    refine belowL_nodes hsha ts off (fun s hs => hp s ?_) (fun s hs => hg s ?_) <;>
    · rw [FTree.nodes]; exact List.mem_cons_of_mem _ hs
theorem belowL_nodes {sha : Bytes → Bytes} (hsha : ∀ b, (sha b).length = 32) {get : Cid → Option Bytes} :
    ∀ (ts : List FTree) (off : Nat), (∀ s ∈ FTree.nodesL ts, FlatUnixFs.tryParse (s.block sha) = .ok (s.msg sha)) →
      (∀ s ∈ FTree.nodesL ts, get (s.cid sha) = some (s.block sha)) →
      (belowL get ts (FTree.nodeMsg sha (FTree.infos sha ts)).links off).map (·.1) = (FTree.nodesL ts).map (FTree.cid sha)
  | [], off, _, _ => by simp [belowL, FTree.nodesL]
  | t :: ts, off, hp, hg => by
    have h1 : ∀ s ∈ t.nodes, s ∈ FTree.nodesL (t :: ts) := fun s hs => by rw [FTree.nodesL]; exact List.mem_append_left _ hs
    have h2 : ∀ s ∈ FTree.nodesL ts, s ∈ FTree.nodesL (t :: ts) := fun s hs => by
      rw [FTree.nodesL]; exact List.mem_append_right _ hs
    have e1 := below_nodes hsha t off (fun s hs => hp s (h1 s hs)) (fun s hs => hg s (h1 s hs))
    have e2 := belowL_nodes hsha ts (off + t.content.length) (fun s hs => hp s (h2 s hs)) (fun s hs => hg s (h2 s hs))
    have hc : Cid.tryFrom (t.cid sha).toBytes = .ok (t.cid sha) := by
      have := Cid.tryFrom_toBytes (t.cid sha) (cidOf_fits hsha _) []
      rwa [List.append_nil] at this
    have hl : (FTree.nodeMsg sha (FTree.infos sha (t :: ts))).links =
        { Hash := some (t.cid sha).toBytes, Name := some [], Tsize := some (FTree.info sha t).total } ::
          (FTree.nodeMsg sha (FTree.infos sha ts)).links := rfl
    rw [hl, belowL]
    simp only [Option.getD_some, hc, hg t (h1 t (FTree.self_mem_nodes _))]
    rw [FTree.nodesL, List.map_append, List.map_append, ← e1, ← e2, List.map_cons]
end

/-- Adding a content and running `cat` on its root writes the content; the blocks read are those which were added, each as often as
it was returned by the adder, so that the number of bytes read is the total length of the added blocks. -/
theorem C71_add_then_cat (sha : Bytes → Bytes) (hsha : ∀ b, (sha b).length = 32) (c bf : Nat) (hc : 0 < c) (hbf : 0 < bf)
    (x : Bytes) (blocks : List (Cid × Bytes)) (h : Adds sha c bf x blocks) (hsmall : BelowLimit blocks) (get : Cid → Option Bytes) (hget : Holds get blocks) :
    ∃ root, blocks.getLast? = some root ∧
      catWalk get root.1 = some (⟨x, (blocks.map (·.2.length)).sum, x.length⟩, .ok ()) ∧
      ∃ cids, readFile get {} root.2 = some (.ok (x, cids)) ∧ (root.1 :: cids).Perm (blocks.map (·.1)) := by
  obtain ⟨T, hh, f⟩ := adds_facts hc hbf h
  have hat := f.fileAt hsha hsmall hget
  have hg : ∀ s ∈ T.nodes, get (s.cid sha) = some (s.block sha) := by
    intro s hs
    have := hget (s.entry sha) (by rw [f.blocks]; exact List.mem_map_of_mem (f.em.perm.mem_iff.2 hs))
    exact this
  have hroot := hg T (FTree.self_mem_nodes _)
  have hcids := below_nodes hsha T 0 (fun s hs => f.parse hsha hsmall hs) hg
  have hcat := C71_cat get T (T.cid sha) (T.block sha) hroot hat
  refine ⟨T.entry sha, ?_, ?_, (below get T (T.block sha) 0).map (·.1), ?_, ?_⟩
  · rw [f.blocks, List.getLast?_map, f.em.last]; rfl
  · show catWalk get (T.cid sha) = _
    rw [hcat, hcids, f.content, f.blocks]
    congr 2
    rw [List.map_map, List.map_map]
    have : (T.nodes.map (Spec.sizeOf get ∘ FTree.cid sha)) = T.nodes.map (fun s => (s.block sha).length) := by
      refine List.map_congr_left fun s hs => ?_
      show Spec.sizeOf get (s.cid sha) = _
      rw [Spec.sizeOf, hg s hs]
      rfl
    rw [this]
    congr 1
    exact ((f.em.perm.map _).sum_nat).symm
  · obtain ⟨bytes, hr⟩ := C22_requests_all get T _ hat
    obtain ⟨cids, hr'⟩ := C18_read_wellformed get T _ hat
    rw [hr, Option.some.injEq, Res.ok.injEq, Prod.mk.injEq] at hr'
    obtain ⟨rfl, rfl⟩ := hr'
    rw [← f.content]
    exact hr
  · show (T.cid sha :: _).Perm _
    rw [hcids, f.blocks, List.map_map]
    exact ((f.em.perm.map (FTree.cid sha)).symm)

/-- `cat` of the sample writes its five bytes, and the first two if the block with the others is missing. -/
example : (catWalk (storeOf sampleTree.nodes) (sampleTree.cid toySha)).map (·.1.stdout) = some [1, 2, 3, 4, 5] := by
  rw [C71_cat _ sampleTree _ (sampleTree.block toySha) (by decide +kernel) sample_fileAt]
  rfl

end Verif.Props
