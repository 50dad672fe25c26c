import Verif.AdderOne
import Verif.Spec.FileAt
/-
The emitted blocks parse to the messages of their trees.
-/
namespace Verif
open Spec

namespace Spec.FTree
/-- The message of a node. -/
def msg (sha : Bytes → Bytes) : FTree → FlatUnixFs
  | leaf d => leafMsg d
  | node ts => nodeMsg sha (infos sha ts)

theorem block_eq (sha : Bytes → Bytes) (t : FTree) : t.block sha = (t.msg sha).write := by
  cases t <;> rfl
end Spec.FTree

theorem sizeofVarint_le (n : Nat) : sizeofVarint n ≤ 10 := by
  unfold sizeofVarint; repeat' split <;> try omega

theorem optAll_some {α : Type} {p : α → Prop} {a : α} (h : p a) : optAll (some a) p := by
  intro b hb; cases hb; exact h
theorem optAll_none {α : Type} {p : α → Prop} : optAll none p := by intro b hb; cases hb

theorem data_write_le (m : FlatUnixFs) : m.data.write.length ≤ m.write.length := by
  simp only [FlatUnixFs.write, wTag, wMessage, List.length_append]; omega

theorem leafMsg_fits (d : Bytes) (h : (FTree.leafMsg d).write.length < 2 ^ 32) : (FTree.leafMsg d).Fits := by
  have hU : U32 = 2 ^ 32 := rfl
  have hV : U64 = 2 ^ 64 := rfl
  have hw := data_write_le (FTree.leafMsg d)
  have hd : d.length < 2 ^ 32 := by
    by_cases hd : d = []
    · subst hd; simp
    · have : d.length ≤ (FTree.leafMsg d).data.write.length := by
        simp only [FTree.leafMsg, if_neg hd, UnixFs.write, wOpt, wTag, wBytes, List.length_append]; omega
      omega
  have hf : (FTree.leafMsg d).data.Fits := by
    refine ⟨?_, optAll_some (by omega), by simp [FTree.leafMsg], optAll_none, optAll_none, optAll_none, optAll_none⟩
    simp only [FTree.leafMsg]
    split
    · exact optAll_none
    · exact optAll_some (by omega)
  refine ⟨by simp [FTree.leafMsg], hf, ?_⟩
  rw [← hf.len]
  omega

theorem plink_fits {sha : Bytes → Bytes} (hsha : ∀ b, (sha b).length = 32) (t : FTree) (h : t.total sha < U64) :
    (plink sha t).Fits := by
  have h1 := Cid.toBytes_length_le _ (cidOf_fits hsha (t.block sha))
  have hU : U32 = 2 ^ 32 := rfl
  refine ⟨optAll_some ?_, optAll_some ⟨by simp [hU], rfl⟩, optAll_some h, ?_⟩
  · simp only [FTree.cid]; omega
  · have h2 := sizeofVarint_le (t.cid sha).toBytes.length
    have h3 := sizeofVarint_le (t.total sha)
    have h4 := sizeofVarint_le 0
    simp only [plink, PBLink.getSize, optSize, sizeofLen, List.length_nil, FTree.cid] at h2 h3 h4 ⊢
    rw [hU]; omega

theorem sum_map_le {α : Type} (l : List α) (f : α → Nat) (k : Nat) (h : ∀ a ∈ l, f a ≤ k) : (l.map f).sum ≤ k * l.length := by
  induction l with
  | nil => simp
  | cons a l ih =>
    have h1 := h a (by simp)
    have h2 := ih (fun b hb => h b (by simp [hb]))
    simp only [List.map_cons, List.sum_cons, List.length_cons, Nat.mul_add]; omega

theorem nodeMsg_fits {sha : Bytes → Bytes} (hsha : ∀ b, (sha b).length = 32) (ts : List FTree)
    (hl : ((FTree.node ts).block sha).length < 2 ^ 32)
    (h : (FTree.node ts).total sha < U64) : (FTree.nodeMsg sha (FTree.infos sha ts)).Fits := by
  have hU : U32 = 2 ^ 32 := rfl
  have ht := FTree.total_node sha ts
  have hs : sizes ts ≤ totals sha ts := sizes_le_totals sha ts
  have hto : totals sha ts = (ts.map (FTree.total sha)).sum := rfl
  rw [FTree.block_eq] at hl
  have hw := data_write_le ((FTree.node ts).msg sha)
  simp only [FTree.msg] at hl hw
  rw [nodeMsg_eq] at hl hw ⊢
  have hf : UnixFs.Fits { Ty := .File, filesize := some (sizes ts), blocksizes := ts.map (fun t => t.content.length) } := by
    refine ⟨optAll_none, optAll_some (by omega), ?_, optAll_none, optAll_none, optAll_none, optAll_none⟩
    intro n hn
    simp only at hn
    have := sum_ge_mem hn
    have e : (ts.map (fun t => t.content.length)).sum = sizes ts := rfl
    omega
  refine ⟨?_, hf, ?_⟩
  · intro l hl'
    simp only at hl'
    obtain ⟨t, htm, rfl⟩ := List.mem_map.1 hl'
    refine plink_fits hsha t ?_
    have := sum_ge_mem (List.mem_map_of_mem (f := FTree.total sha) htm)
    omega
  · rw [← hf.len]
    simp only at hw
    omega

theorem tree_parse {sha : Bytes → Bytes} (hsha : ∀ b, (sha b).length = 32) {t : FTree} (hsmall : (t.block sha).length < 2 ^ 32)
    (htot : Fits sha t) : FlatUnixFs.tryParse (t.block sha) = .ok (t.msg sha) := by
  cases t with
  | leaf d =>
    rw [FTree.block_eq] at hsmall ⊢
    exact FlatUnixFs.tryParse_write _ (leafMsg_fits d hsmall)
  | node ts =>
    have hf := nodeMsg_fits hsha ts hsmall (htot _ rfl)
    rw [FTree.block_eq]
    exact FlatUnixFs.tryParse_write _ hf

theorem arity_sub {bf : Nat} {s t : FTree} (h : s ∈ t.nodes) (ha : t.Arity bf) : s.Arity bf :=
  fun u hu ts e => ha u (FTree.mem_nodes_trans hu t h) ts e

theorem leaves_sub {s t : FTree} (h : s ∈ t.nodes) : ∀ d ∈ s.leaves, d ∈ t.leaves := by
  induction t using FTree.induct with
  | hl d => simp only [FTree.nodes, List.mem_singleton] at h; subst h; exact fun _ h => h
  | hn ts ih =>
    simp only [FTree.nodes, FTree.nodesL_eq, List.mem_cons, List.mem_flatMap] at h
    rcases h with rfl | ⟨c, hc, h⟩
    · exact fun _ h => h
    · intro d hd
      simp only [FTree.leaves, FTree.leavesL_eq, List.mem_flatMap]
      exact ⟨c, hc, ih c hc h d hd⟩

theorem chunks_le {c : Nat} (hc : 0 < c) (x : Bytes) : ∀ d ∈ chunks c x, d.length ≤ c := by
  unfold chunks
  split
  · intro d hd; simp only [List.mem_singleton] at hd; subst hd; simp
  · intro d hd; exact (groups_mem hc x d hd).2

/-- Everything about a completed addition, in terms of its tree. -/
structure AddFacts (sha : Bytes → Bytes) (c bf : Nat) (x : Bytes) (blocks : List (Cid × Bytes)) (E : List FTree) (T : FTree)
    (h : Nat) : Prop where
  blocks : blocks = E.map (FTree.entry sha)
  em : Emitted bf (chunks c x) E T h
  total : ∀ t ∈ T.nodes, Fits sha t
  content : T.content = x

theorem adds_facts {sha : Bytes → Bytes} {c bf : Nat} (hc : 0 < c) (hbf : 0 < bf)
    {x : Bytes} {blocks : List (Cid × Bytes)} (h : Adds sha c bf x blocks) :
    ∃ T h, AddFacts sha c bf x blocks (treesOf bf c x) T h := by
  obtain ⟨h1, h2, h3⟩ := adds_trees hc hbf h
  obtain ⟨T, h, e⟩ := treesOf_spec hc x h2 hbf
  have hcont : T.content = x := by rw [← FTree.leaves_flatten, e.leaves, chunks_flatten hc x]
  exact ⟨T, h, h1, e, fun t ht => h3 t (e.perm.mem_iff.2 ht), hcont⟩

theorem AddFacts.parse {sha : Bytes → Bytes} (hsha : ∀ b, (sha b).length = 32) {c bf : Nat}
    {x : Bytes} {blocks : List (Cid × Bytes)} (hsmall : BelowLimit blocks) {E : List FTree} {T : FTree} {h : Nat}
    (f : AddFacts sha c bf x blocks E T h) {t : FTree} (ht : t ∈ T.nodes) :
    FlatUnixFs.tryParse (t.block sha) = .ok (t.msg sha) := by
  refine tree_parse hsha (hsmall (t.entry sha) ?_) (f.total t ht)
  rw [f.blocks]
  exact List.mem_map_of_mem (f.em.perm.mem_iff.2 ht)

theorem msg_links (sha : Bytes → Bytes) (t : FTree) : (t.msg sha).links = t.children.map (plink sha) := by
  cases t with
  | leaf d => rfl
  | node ts => simp only [FTree.msg, nodeMsg_eq, FTree.children]

theorem msg_blocksizes (sha : Bytes → Bytes) (t : FTree) :
    (t.msg sha).data.blocksizes = t.children.map (fun t => t.content.length) := by
  cases t with
  | leaf d => rfl
  | node ts => simp only [FTree.msg, nodeMsg_eq, FTree.children]

theorem msg_filesize (sha : Bytes → Bytes) (t : FTree) : (t.msg sha).data.filesize = some t.content.length := by
  cases t with
  | leaf d => rfl
  | node ts => rw [node_content_length]; simp only [FTree.msg, nodeMsg_eq]

theorem msg_data (sha : Bytes → Bytes) (t : FTree) :
    (t.msg sha).data.Data.getD [] = match t with | .leaf d => d | .node _ => [] := by
  cases t with
  | leaf d => simp only [FTree.msg, FTree.leafMsg]; by_cases h : d = [] <;> simp [h]
  | node ts => simp only [FTree.msg, nodeMsg_eq]; rfl

theorem msg_fileNode (sha : Bytes → Bytes) (t : FTree) : FileNode (t.msg sha) ∧ NoMeta (t.msg sha) := by
  cases t with
  | leaf d => exact ⟨⟨.inl rfl, rfl, rfl⟩, rfl, rfl⟩
  | node ts => simp only [FTree.msg, nodeMsg_eq]; exact ⟨⟨.inl rfl, rfl, rfl⟩, rfl, rfl⟩

/-- A tree whose blocks parse to their messages and are in the store is a well-formed file. -/
theorem fileAt_tree {sha : Bytes → Bytes} (hsha : ∀ b, (sha b).length = 32) (get : Cid → Option Bytes) (t : FTree)
    (hp : ∀ s ∈ t.nodes, FlatUnixFs.tryParse (s.block sha) = .ok (s.msg sha))
    (hg : ∀ s ∈ t.nodes, get (s.cid sha) = some (s.block sha))
    (hne : ∀ s ∈ t.nodes, ∀ ts, s = .node ts → ts ≠ []) : FileAt get t (t.block sha) := by
  induction t using FTree.induct with
  | hl d =>
    refine ⟨_, hp _ (FTree.self_mem_nodes _), (msg_fileNode sha _).1, ?_, ?_, ?_, ?_⟩
    · rw [msg_links]; rfl
    · rw [msg_blocksizes]; rfl
    · rw [msg_data]
    · rw [msg_filesize]; rfl
  | hn ts ih =>
    refine ⟨_, hp _ (FTree.self_mem_nodes _), (msg_fileNode sha _).1, hne _ (FTree.self_mem_nodes _) ts rfl, ?_, ?_, ?_, ?_⟩
    · rw [msg_data]
    · rw [msg_filesize]; rfl
    · rw [msg_blocksizes]; rfl
    · rw [msg_links]
      show FilesAt get ts (ts.map (plink sha))
      have key : ∀ us : List FTree, (∀ u ∈ us, u ∈ ts) → FilesAt get us (us.map (plink sha)) := by
        intro us
        induction us with
        | nil => intro _; trivial
        | cons u us ih2 =>
          intro hus
          have hu := hus u (by simp)
          have hsub : ∀ s ∈ u.nodes, s ∈ (FTree.node ts).nodes := fun s hs => by
            simp only [FTree.nodes, FTree.nodesL_eq, List.mem_cons, List.mem_flatMap]
            exact .inr ⟨u, hu, hs⟩
          refine ⟨⟨u.cid sha, u.block sha, u.msg sha, ?_, ?_, ?_, (msg_fileNode sha u).2, ?_⟩,
            ih2 (fun v hv => hus v (by simp [hv]))⟩
          · have := Cid.tryFrom_toBytes _ (cidOf_fits hsha (u.block sha)) []
            simpa [plink, FTree.cid] using this
          · exact hg u (hsub u (FTree.self_mem_nodes u))
          · exact hp u (hsub u (FTree.self_mem_nodes u))
          · exact ih u hu (fun s hs => hp s (hsub s hs)) (fun s hs => hg s (hsub s hs)) (fun s hs => hne s (hsub s hs))
      exact key ts fun _ h => h

theorem AddFacts.fileAt {sha : Bytes → Bytes} (hsha : ∀ b, (sha b).length = 32) {c bf : Nat}
    {x : Bytes} {blocks : List (Cid × Bytes)} (hsmall : BelowLimit blocks) {E : List FTree} {T : FTree} {h : Nat}
    (f : AddFacts sha c bf x blocks E T h) {get : Cid → Option Bytes} (hget : Holds get blocks) :
    FileAt get T (T.block sha) := by
  refine fileAt_tree hsha get T (fun s hs => f.parse hsha hsmall hs) (fun s hs => ?_) (fun s hs ts he hn => ?_)
  · refine hget (s.entry sha) ?_
    rw [f.blocks]; exact List.mem_map_of_mem (f.em.perm.mem_iff.2 hs)
  · have := f.em.arity s hs ts he
    rw [hn] at this; simp at this

end Verif
