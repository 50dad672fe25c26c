import Verif.Spec.Strict
import Verif.Props.Asking
import Verif.Props.AdderExact
import Verif.Props.Built
/-
C124: written blocks are in the form which dag-pb prescribes, byte by byte.
-/
namespace Verif.Props
open Verif Verif.Spec

/-! ### numbers and fields -/

theorem leb_enc (k n : Nat) (h : n < 128 ^ (k + 1)) : Leb128 n (encVarintF k n) := by
  induction k generalizing n with
  | zero =>
    have : n < 128 := by simpa using h
    simp only [encVarintF]
    rw [Nat.mod_eq_of_lt this]
    exact .last this
  | succ k ih =>
    simp only [encVarintF]
    by_cases hn : n < 128
    · rw [if_pos hn]; exact .last hn
    · rw [if_neg hn]
      have h1 : n / 128 < 128 ^ (k + 1) := by
        rw [Nat.div_lt_iff_lt_mul (by decide)]
        rwa [Nat.pow_succ] at h
      have h2 : n = n % 128 + 128 * (n / 128) := by omega
      conv => arg 1; rw [h2]
      exact .more (by omega) (by omega) (ih _ h1)

theorem leb_varint {n : Nat} (h : n < U64) : Leb128 n (encVarint n) :=
  leb_enc 9 n (Nat.lt_trans h (by decide))

theorem keyNum_write {key n : Nat} (hk : key < 128) (h : n < U64) : KeyNum (UInt8.ofNat key) n (wTag key (encVarint n)) :=
  ⟨_, leb_varint h, by rw [wTag, encVarint_small hk]; rfl⟩

theorem keyBytes_write {key : Nat} {x : Bytes} (hk : key < 128) (h : x.length < U64) : KeyBytes (UInt8.ofNat key) x (wTag key (wBytes x)) :=
  ⟨_, leb_varint h, by rw [wTag, encVarint_small hk]; rfl⟩

theorem keyNums_write {key : Nat} (hk : key < 128) (ns : List Nat) (h : ∀ n ∈ ns, n < U64) :
    KeyNums (UInt8.ofNat key) ns (ns.flatMap (fun n => wTag key (encVarint n))) := by
  induction ns with
  | nil => exact .nil
  | cons n ns ih =>
    rw [List.flatMap_cons]
    exact .cons (keyNum_write hk (h n (by simp))) (ih (fun m hm => h m (by simp [hm])))

theorem strictLink_write {hash name : Bytes} {total : Nat} (h : (PBLink.mk (some hash) (some name) (some total)).Fits) :
    StrictLink hash name total (wTag 18 (wMessage (PBLink.mk (some hash) (some name) (some total)).getSize
      (PBLink.mk (some hash) (some name) (some total)).write)) := by
  have hl := h.len
  have hsize := h.2.2.2
  refine ⟨_, _, _, keyBytes_write (key := 10) (by decide) (u32_lt_u64 (h.1 _ rfl)), keyBytes_write (key := 18) (by decide)
    (u32_lt_u64 (h.2.1 _ rfl).1), keyNum_write (key := 24) (by decide) (h.2.2.1 _ rfl), ?_⟩
  have hw : (PBLink.mk (some hash) (some name) (some total)).write =
      wTag 10 (wBytes hash) ++ (wTag 18 (wBytes name) ++ wTag 24 (encVarint total)) := by
    simp only [PBLink.write, wOpt, List.append_assoc]
  rw [← hl] at hsize ⊢
  rw [hw] at hsize ⊢
  exact keyBytes_write (key := 18) (by decide) (u32_lt_u64 hsize)

/-- What the writer gives for a node whose links have all their fields. -/
theorem strictNode_write (links : List (Bytes × Bytes × Nat)) (data : UnixFs)
    (h : (FlatUnixFs.mk (links.map (fun l => ⟨some l.1, some l.2.1, some l.2.2⟩)) data).Fits) :
    StrictNode links data.write (FlatUnixFs.mk (links.map (fun l => ⟨some l.1, some l.2.1, some l.2.2⟩)) data).write := by
  induction links with
  | nil =>
    refine .data ?_
    obtain ⟨-, h2, h3⟩ := h
    simp only [FlatUnixFs.write, List.map_nil, List.flatMap_nil, List.nil_append]
    simp only at h2 h3
    rw [← h2.len] at h3 ⊢
    exact keyBytes_write (key := 10) (by decide) (u32_lt_u64 h3)
  | cons l ls ih =>
    have hrest := ih ⟨fun l' hl' => h.1 l' (by simp only [List.map_cons, List.mem_cons]; exact .inr hl'), h.2⟩
    have hl := strictLink_write (h.1 ⟨some l.1, some l.2.1, some l.2.2⟩ (by simp))
    have := StrictNode.link hl hrest
    simpa only [FlatUnixFs.write, List.map_cons, List.flatMap_cons, List.append_assoc] using this

/-! ### files -/

theorem cidBytes_eq {sha : Bytes → Bytes} (hsha : ∀ b, (sha b).length = 32) (b : Bytes) : (cidOf sha b).toBytes = cidBytes sha b := by
  unfold cidOf Cid.toBytes Cid.hashBytes cidBytes
  simp only
  rw [hsha b]
  rfl

theorem leaf_bytes (sha : Bytes → Bytes) (d : Bytes) (h : (FTree.leafMsg d).Fits) :
    ∃ data, FileData d d.length [] data ∧ StrictNode [] data (FTree.leafMsg d).write := by
  refine ⟨_, ?_, strictNode_write [] _ h⟩
  have hf := h.2.1
  refine ⟨wOpt (FTree.leafMsg d).data.Data (fun b => wTag 18 (wBytes b)), _, _, ?_,
    keyNum_write (key := 24) (by decide) (hf.2.1 _ rfl), .nil, ?_⟩
  · by_cases hd : d = []
    · rw [if_pos hd]; simp [FTree.leafMsg, hd, wOpt]
    · rw [if_neg hd]
      have := keyBytes_write (key := 18) (x := d) (by decide) (u32_lt_u64 (hf.1 d (by simp [FTree.leafMsg, hd])))
      simpa [FTree.leafMsg, hd, wOpt] using this
  · simp [FTree.leafMsg, UnixFs.write, wOpt, DataType.toNat, wTag, encVarint_small]

theorem node_data (sizes : List Nat) (size : Nat) (h : UnixFs.Fits { Ty := .File, filesize := some size, blocksizes := sizes }) :
    FileData [] size sizes (UnixFs.write { Ty := .File, filesize := some size, blocksizes := sizes }) := by
  refine ⟨[], _, _, by simp, keyNum_write (key := 24) (by decide) (h.2.1 _ rfl), keyNums_write (key := 32) (by decide) sizes h.2.2.1, ?_⟩
  simp [UnixFs.write, wOpt, DataType.toNat, wTag, encVarint_small]

theorem tree_bytes {sha : Bytes → Bytes} (hsha : ∀ b, (sha b).length = 32) (t : FTree)
    (hsmall : ∀ s ∈ t.nodes, (s.block sha).length < 2 ^ 32) (hfit : ∀ s ∈ t.nodes, Fits sha s) :
    FileBytes sha t (t.block sha) (t.total sha) := by
  induction t using FTree.induct with
  | hl d =>
    have h := leafMsg_fits d (by have := hsmall (.leaf d) (by simp [FTree.nodes]); rwa [FTree.block_eq] at this)
    obtain ⟨data, h1, h2⟩ := leaf_bytes sha d h
    have : (FTree.leaf d).total sha = ((FTree.leaf d).block sha).length := by simp [FTree.total, FTree.nodes]
    rw [this, FTree.block_eq]
    exact .leaf h1 h2
  | hn ts ih =>
    have hf := nodeMsg_fits hsha ts (hsmall _ (FTree.self_mem_nodes _)) (hfit _ (FTree.self_mem_nodes _) _ rfl)
    rw [nodeMsg_eq] at hf
    have hlinks : ∀ us : List FTree, (∀ u ∈ us, u ∈ ts) →
        FileLinks sha us (us.map (fun t => (cidBytes sha (t.block sha), [], t.total sha))) := by
      intro us
      induction us with
      | nil => intro _; exact .nil
      | cons u us ihu =>
        intro hu
        rw [List.map_cons]
        have hsub : ∀ s ∈ u.nodes, s ∈ (FTree.node ts).nodes := by
          intro s hs
          simp only [FTree.nodes, FTree.nodesL_eq, List.mem_cons, List.mem_flatMap]
          exact .inr ⟨u, hu u (by simp), hs⟩
        exact .cons (ih u (hu u (by simp)) (fun s hs => hsmall s (hsub s hs)) (fun s hs => hfit s (hsub s hs)))
          (ihu (fun v hv => hu v (by simp [hv])))
    have e : ts.map (plink sha) =
        (ts.map (fun t => (cidBytes sha (t.block sha), ([] : Bytes), t.total sha))).map (fun l => ⟨some l.1, some l.2.1, some l.2.2⟩) := by
      rw [List.map_map]
      exact List.map_congr_left fun t _ => by simp [plink, FTree.cid, cidBytes_eq hsha]
    have hsz : sizes ts = (FTree.contents ts).length := by
      rw [FTree.contents_eq]; simp [sizes, List.length_flatMap]
    have hnode := strictNode_write (ts.map (fun t => (cidBytes sha (t.block sha), ([] : Bytes), t.total sha)))
      { Ty := .File, filesize := some (sizes ts), blocksizes := ts.map (fun t => t.content.length) } (by rw [← e]; exact hf)
    have hdata := node_data _ _ hf.2.1
    have hb : (FTree.node ts).block sha = _ := FTree.block_eq sha (.node ts)
    simp only [FTree.msg] at hb
    rw [nodeMsg_eq, e] at hb
    rw [hsz] at hb hnode hdata
    have := FileBytes.node (hlinks ts (fun _ h => h)) hdata hnode
    rw [← hb] at this
    rw [FTree.total_node, Nat.add_comm]
    rw [List.map_map] at this
    exact this

/-- C124, files: what an adder returns are the blocks of the balanced tree, byte by byte: each block is that of a node of the tree, each
node has one, and the last is the root. -/
theorem C124_file (sha : Bytes → Bytes) (hsha : ∀ b, (sha b).length = 32) (c bf : Nat) (hc : 0 < c) (hbf : 0 < bf) (x : Bytes)
    (blocks : List (Cid × Bytes)) (h : Adds sha c bf x blocks) (hsmall : BelowLimit blocks) :
    ∃ T, BalancedTree c bf x T ∧ (∀ e ∈ blocks, e.1.toBytes = cidBytes sha e.2 ∧ ∃ t ∈ T.nodes, ∃ total, FileBytes sha t e.2 total) ∧
      (∀ t ∈ T.nodes, ∃ e ∈ blocks, ∃ total, FileBytes sha t e.2 total) ∧ ∃ root total, blocks.getLast? = some root ∧ FileBytes sha T root.2 total := by
  obtain ⟨T, k, f⟩ := adds_facts hc hbf h
  have hTU : blocks.getLast? = some (T.entry sha) := by rw [f.blocks, List.getLast?_map, f.em.last]; rfl
  have hbal := facts_balanced hc hbf h f
  have hmem : ∀ t ∈ T.nodes, t.entry sha ∈ blocks := fun t ht => by
    rw [f.blocks]; exact List.mem_map_of_mem (f.em.perm.mem_iff.2 ht)
  have hbytes : ∀ t ∈ T.nodes, FileBytes sha t (t.block sha) (t.total sha) := fun t ht =>
    tree_bytes hsha t (fun s hs => hsmall _ (hmem s (FTree.mem_nodes_trans hs T ht))) (fun s hs => f.total s (FTree.mem_nodes_trans hs T ht))
  refine ⟨T, hbal, ?_, fun t ht => ⟨t.entry sha, hmem t ht, _, hbytes t ht⟩, T.entry sha, _, hTU, hbytes T (FTree.self_mem_nodes T)⟩
  intro e he
  rw [f.blocks] at he
  obtain ⟨t, ht, rfl⟩ := List.mem_map.1 he
  exact ⟨cidBytes_eq hsha _, t, f.em.perm.mem_iff.1 ht, _, hbytes t (f.em.perm.mem_iff.1 ht)⟩

/-! ### directories and symlinks -/

theorem dirMsg_entries (es : List Item) : dirMsg es =
    FlatUnixFs.mk ((es.map (fun i => (i.cid.toBytes, i.name, i.total))).map (fun l => ⟨some l.1, some l.2.1, some l.2.2⟩)) { Ty := .Directory } := by
  unfold dirMsg
  rw [List.map_map]
  rfl

/-- C124, directories: a block which building yields has one link for each entry of the directory, in the order of their names, and what is
in the link is what was put, or comes from the node yielded for the subdirectory; and nothing else but the two bytes saying that it is a
directory. -/
theorem C124_directory (sha : Bytes → Bytes) (hsha : ∀ b, (sha b).length = 32) (b : BufferingTreeBuilder) (hb : Obtainable b)
    (hfit : SizesFit sha b) (nodes : List TreeNode) (last : IterNext) (it : PostOrderIterator)
    (h : drainAll sha b.build = some (nodes, last, it)) :
    ∃ built, built.map (·.2) = nodes ∧ Listing b built ∧ ∀ p ∈ built, p.2.cid.toBytes = cidBytes sha p.2.block ∧
      ∃ es : List (Bytes × Cid × Nat), es.Pairwise (fun e e' => e.1 < e'.1) ∧
        (∀ n c s, (n, c, s) ∈ es ↔ lookupPath (p.1 ++ [n]) (contents b) = some (.link c s) ∨
          (lookupPath (p.1 ++ [n]) (contents b) = some .dir ∧ ∃ y, (p.1 ++ [n], y) ∈ built ∧ c = y.cid ∧ s = y.total_size)) ∧
        StrictNode (es.map (fun e => (e.2.1.toBytes, e.1, e.2.2))) directoryBytes p.2.block := by
  obtain ⟨rest, h1, -⟩ := drained_prefix hsha hb hfit h
  obtain ⟨built, e1, e2, e3, -⟩ := listing hb h1
  refine ⟨built, e1, e2, fun p hp => ?_⟩
  obtain ⟨ks, hk, hx⟩ := e3 p hp
  have hok := built_items_ok hsha hb hfit hk
  have hs := entriesAt_sorted hk (contents_sorted hb)
  have hfits := dirMsg_fits hok
  have same : ∀ cs y y', (cs, y) ∈ built → NodeAt sha (contents b) cs y' → y = y' := by
    intro cs y y' hy hy'
    obtain ⟨es, he, h1⟩ := e3 _ hy
    obtain ⟨es', he', h2⟩ := hy'
    simp only at he h1
    rw [he] at he'
    cases he'
    rw [h1, h2]
  refine ⟨?_, ks.map (fun k => (k.name, (DTree.item sha k).cid, (DTree.item sha k).total)), ?_, ?_, ?_⟩
  · rw [hx]
    exact cidBytes_eq hsha _
  · rw [List.pairwise_map]
    clear hk hok hfits hx
    induction ks with
    | nil => simp
    | cons k ks ih =>
      rw [List.pairwise_cons]
      exact ⟨fun k' hk' => hs.1 k' hk', ih hs.2.2⟩
  · intro n c s
    rw [List.mem_map]
    constructor
    · rintro ⟨k, hkm, hke⟩
      have hkid := kid_of_mem hs hkm
      cases k with
      | link n' c' s' =>
        cases hke
        have hkid : kid n' ks = some (.link n' c' s') := hkid
        exact .inl (by rw [entriesAt_dir hk]; exact (lookupPath_cons_link hkid).trans (if_pos rfl))
      | dir n' ks' =>
        cases hke
        have hkid : kid n' ks = some (.dir n' ks') := hkid
        have hdir : lookupPath (p.1 ++ [n']) (contents b) = some .dir := by
          rw [entriesAt_dir hk, lookupPath_cons_dir hkid, lookupPath_nil]
        have hnode : NodeAt sha (contents b) (p.1 ++ [n']) (nodeOf sha (p.1 ++ [n']) ks') := by
          refine ⟨ks', ?_, rfl⟩
          rw [entriesAt_append hk, entriesAt, hkid]; rfl
        refine .inr ⟨hdir, ?_⟩
        obtain ⟨q, hq, hq1⟩ := List.mem_map.1 (e2.below p hp (p.1 ++ [n']) ⟨hdir, by simp⟩ (List.prefix_append _ _))
        obtain ⟨qp, qy⟩ := q
        simp only at hq1
        subst hq1
        have := same _ _ _ hq hnode
        subst this
        exact ⟨_, hq, rfl, rfl⟩
    · intro hor
      rcases hor with hl | ⟨hd, y, hy, rfl, rfl⟩
      · rw [entriesAt_dir hk] at hl
        cases hkid : kid n ks with
        | none => rw [lookupPath_cons_none hkid] at hl; cases hl
        | some k =>
          have hn := kid_name hkid
          cases k with
          | link n' c' s' =>
            rw [lookupPath_cons_link hkid, if_pos rfl] at hl
            cases hl
            exact ⟨_, kid_mem hkid, by rw [hn]; rfl⟩
          | dir n' ks' => rw [lookupPath_cons_dir hkid, lookupPath_nil] at hl; cases hl
      · rw [entriesAt_dir hk] at hd
        cases hkid : kid n ks with
        | none => rw [lookupPath_cons_none hkid] at hd; cases hd
        | some k =>
          have hn := kid_name hkid
          cases k with
          | link n' c' s' =>
            rw [lookupPath_cons_link hkid, if_pos rfl] at hd
            cases hd
          | dir n' ks' =>
            have hnode : NodeAt sha (contents b) (p.1 ++ [n]) (nodeOf sha (p.1 ++ [n]) ks') := by
              refine ⟨ks', ?_, rfl⟩
              rw [entriesAt_append hk, entriesAt, hkid]; rfl
            have := same _ _ _ hy hnode
            subst this
            exact ⟨_, kid_mem hkid, by rw [hn]; rfl⟩
  · have hblock : p.2.block = (dirMsg (DTree.items sha ks)).write := by rw [hx]; rfl
    rw [hblock, dirMsg_entries]
    rw [dirMsg_entries] at hfits
    have := strictNode_write _ _ hfits
    have hmap : (ks.map (fun k => (k.name, (DTree.item sha k).cid, (DTree.item sha k).total))).map (fun e => (e.2.1.toBytes, e.1, e.2.2)) =
        (DTree.items sha ks).map (fun i => (i.cid.toBytes, i.name, i.total)) := by
      rw [items_map, List.map_map, List.map_map]
      exact List.map_congr_left fun k _ => by simp [item_name]
    rw [hmap]
    exact this

/-- C124, symlinks: what is appended to the buffer is a node without links and with the type and the target as data. -/
theorem C124_symlink (target buffer : Bytes) (h : target.length + 32 ≤ U32) :
    ∃ block data, serializeSymlinkBlock target buffer = buffer ++ block ∧ SymlinkData target data ∧ StrictNode [] data block := by
  have hU : U32 < U64 := by decide
  have hf : UnixFs.Fits { Ty := .Symlink, Data := some target } :=
    ⟨optAll_some (by omega), optAll_none, by simp, optAll_none, optAll_none, optAll_none, optAll_none⟩
  refine ⟨_, _, rfl, ?_, strictNode_write [] { Ty := .Symlink, Data := some target } ⟨by simp, hf, ?_⟩⟩
  · refine ⟨_, keyBytes_write (key := 18) (by decide) (by omega), ?_⟩
    simp [UnixFs.write, wOpt, DataType.toNat, wTag, encVarint_small]
  · have : sizeofVarint target.length ≤ 10 := sizeofVarint_le _
    simp [UnixFs.getSize, optSize, DataType.toNat, sizeofLen, sizeofVarint] at *
    omega

/-! ### the form is unambiguous -/

theorem leb_prefix {n : Nat} {v : Bytes} (h : Leb128 n v) : ∀ {n' v' r r'}, Leb128 n' v' → v ++ r = v' ++ r' → n = n' ∧ v = v' ∧ r = r' := by
  have big : ∀ k, k < 128 → (UInt8.ofNat (k + 128)).toNat = k + 128 := fun k hk => by
    rw [UInt8.toNat_ofNat']; omega
  have small : ∀ k, k < 128 → (UInt8.ofNat k).toNat = k := fun k hk => by
    rw [UInt8.toNat_ofNat']; omega
  induction h with
  | @last n hn =>
    intro n' v' r r' h' heq
    cases h' with
    | last hn' =>
      simp only [List.cons_append, List.nil_append, List.cons.injEq] at heq
      have := congrArg UInt8.toNat heq.1
      rw [small _ hn, small _ hn'] at this
      subst this
      exact ⟨rfl, rfl, heq.2⟩
    | more hk' _ _ =>
      simp only [List.cons_append, List.nil_append, List.cons.injEq] at heq
      have := congrArg UInt8.toNat heq.1
      rw [small _ hn, big _ hk'] at this
      omega
  | @more k n bs hk hn hrest ih =>
    intro n' v' r r' h' heq
    cases h' with
    | last hn' =>
      simp only [List.cons_append, List.nil_append, List.cons.injEq] at heq
      have := congrArg UInt8.toNat heq.1
      rw [big _ hk, small _ hn'] at this
      omega
    | more hk' _ hrest' =>
      simp only [List.cons_append, List.cons.injEq] at heq
      have := congrArg UInt8.toNat heq.1
      rw [big _ hk, big _ hk'] at this
      obtain ⟨h1, h2, h3⟩ := ih hrest' heq.2
      have hkk : k = _ := Nat.add_right_cancel this
      subst h1 h2 h3 hkk
      exact ⟨rfl, rfl, rfl⟩

theorem leb_same {n : Nat} {v : Bytes} (h : Leb128 n v) : ∀ {v'}, Leb128 n v' → v = v' := by
  induction h with
  | @last n hn =>
    intro v' h'
    generalize hm : n = m at h'
    cases h' with
    | last => rfl
    | more => omega
  | @more k n bs hk hn hrest ih =>
    intro v' h'
    generalize hm : k + 128 * n = m at h'
    cases h' with
    | last => omega
    | @more k' n' bs' hk' hn' hrest' =>
      have h1 : k = k' := by omega
      have h2 : n = n' := by omega
      subst h1 h2
      rw [ih hrest']

theorem keyBytes_prefix {key key' : UInt8} {x x' a a' r r' : Bytes} (h : KeyBytes key x a) (h' : KeyBytes key' x' a') (heq : a ++ r = a' ++ r') :
    key = key' ∧ x = x' ∧ r = r' := by
  obtain ⟨v, hv, rfl⟩ := h
  obtain ⟨v', hv', rfl⟩ := h'
  simp only [List.cons_append, List.cons.injEq, List.append_assoc] at heq
  obtain ⟨h1, h2, h3⟩ := leb_prefix hv hv' heq.2
  have := List.append_inj h3 h1
  exact ⟨heq.1, this.1, this.2⟩

theorem keyNum_prefix {key key' : UInt8} {n n' : Nat} {a a' r r' : Bytes} (h : KeyNum key n a) (h' : KeyNum key' n' a') (heq : a ++ r = a' ++ r') :
    key = key' ∧ n = n' ∧ r = r' := by
  obtain ⟨v, hv, rfl⟩ := h
  obtain ⟨v', hv', rfl⟩ := h'
  simp only [List.cons_append, List.cons.injEq] at heq
  obtain ⟨h1, h2, h3⟩ := leb_prefix hv hv' heq.2
  exact ⟨heq.1, h1, h3⟩

theorem keyBytes_same {key : UInt8} {x a a' : Bytes} (h : KeyBytes key x a) (h' : KeyBytes key x a') : a = a' := by
  obtain ⟨v, hv, rfl⟩ := h
  obtain ⟨v', hv', rfl⟩ := h'
  rw [leb_same hv hv']

theorem keyNum_same {key : UInt8} {n : Nat} {a a' : Bytes} (h : KeyNum key n a) (h' : KeyNum key n a') : a = a' := by
  obtain ⟨v, hv, rfl⟩ := h
  obtain ⟨v', hv', rfl⟩ := h'
  rw [leb_same hv hv']

theorem keyNums_same {key : UInt8} {ns : List Nat} {a : Bytes} (h : KeyNums key ns a) : ∀ {a'}, KeyNums key ns a' → a = a' := by
  induction h with
  | nil => intro a' h'; cases h'; rfl
  | cons h1 _ ih =>
    intro a' h'
    cases h' with
    | cons h1' h2' => rw [keyNum_same h1 h1', ih h2']

theorem strictLink_prefix {hash name hash' name' : Bytes} {total total' : Nat} {a a' r r' : Bytes} (h : StrictLink hash name total a)
    (h' : StrictLink hash' name' total' a') (heq : a ++ r = a' ++ r') : (hash, name, total) = (hash', name', total') ∧ r = r' := by
  obtain ⟨x, y, z, hx, hy, hz, ha⟩ := h
  obtain ⟨x', y', z', hx', hy', hz', ha'⟩ := h'
  obtain ⟨-, h1, h2⟩ := keyBytes_prefix ha ha' heq
  obtain ⟨-, rfl, h3⟩ := keyBytes_prefix hx hx' h1
  obtain ⟨-, rfl, h4⟩ := keyBytes_prefix hy hy' h3
  obtain ⟨-, rfl, -⟩ := keyNum_prefix (r := []) (r' := []) hz hz' (by simpa using h4)
  exact ⟨rfl, h2⟩

theorem strictLink_same {hash name : Bytes} {total : Nat} {a a' : Bytes} (h : StrictLink hash name total a)
    (h' : StrictLink hash name total a') : a = a' := by
  obtain ⟨x, y, z, hx, hy, hz, ha⟩ := h
  obtain ⟨x', y', z', hx', hy', hz', ha'⟩ := h'
  rw [keyBytes_same hx hx', keyBytes_same hy hy', keyNum_same hz hz'] at ha
  exact keyBytes_same ha ha'

/-- C124: a block in this form can be read in one way only, and what is in it determines the block. -/
theorem C124_unambiguous {ls ls' : List (Bytes × Bytes × Nat)} {d d' out out' : Bytes} (h : StrictNode ls d out) (h' : StrictNode ls' d' out') :
    out = out' ↔ ls = ls' ∧ d = d' := by
  constructor
  · revert ls' d' out'
    induction h with
    | data hd =>
      intro ls' d' out' h' heq
      subst heq
      cases h' with
      | data hd' =>
        obtain ⟨-, h1, -⟩ := keyBytes_prefix (r := []) (r' := []) hd hd' rfl
        exact ⟨rfl, h1⟩
      | @link hash name total ls d a out hl _ =>
        obtain ⟨_, _, _, _, _, _, ha⟩ := hl
        obtain ⟨h1, -, -⟩ := keyBytes_prefix (r := []) (r' := out) hd ha (by simp)
        exact absurd h1 (by decide)
    | @link hash name total ls d a out hl _ ih =>
      intro ls' d' out' h' heq
      cases h' with
      | data hd' =>
        obtain ⟨_, _, _, _, _, _, ha⟩ := hl
        obtain ⟨h1, -, -⟩ := keyBytes_prefix (r := out) (r' := []) ha hd' (by simpa using heq)
        exact absurd h1 (by decide)
      | link hl' h2 =>
        obtain ⟨h1, h3⟩ := strictLink_prefix hl hl' heq
        obtain ⟨rfl, rfl⟩ := ih h2 h3
        exact ⟨by rw [h1], rfl⟩
  · rintro ⟨rfl, rfl⟩
    revert out'
    induction h with
    | data hd =>
      intro out' h'
      cases h' with
      | data hd' => exact keyBytes_same hd hd'
    | link hl _ ih =>
      intro out' h'
      cases h' with
      | link hl' h2 => rw [strictLink_same hl hl', ih h2]

theorem fileData_same {d : Bytes} {size : Nat} {sizes : List Nat} {a a' : Bytes} (h : FileData d size sizes a) (h' : FileData d size sizes a') :
    a = a' := by
  obtain ⟨x, y, z, hx, hy, hz, rfl⟩ := h
  obtain ⟨x', y', z', hx', hy', hz', rfl⟩ := h'
  have : x = x' := by
    by_cases hd : d = []
    · rw [if_pos hd] at hx hx'; rw [hx, hx']
    · rw [if_neg hd] at hx hx'; exact keyBytes_same hx hx'
  rw [this, keyNum_same hy hy', keyNums_same hz hz']

/-- C124: the tree determines the bytes of its block, and the total size. -/
theorem C124_determined (sha : Bytes → Bytes) (t : FTree) (b b' : Bytes) (n n' : Nat) (h : FileBytes sha t b n) (h' : FileBytes sha t b' n') :
    b = b' ∧ n = n' := by
  refine FileBytes.rec (motive_1 := fun t b n _ => ∀ b' n', FileBytes sha t b' n' → b = b' ∧ n = n')
    (motive_2 := fun ts ls _ => ∀ ls', FileLinks sha ts ls' → ls = ls') ?_ ?_ ?_ ?_ h b' n' h'
  · intro d data out hd hs b' n' h'
    cases h' with
    | leaf hd' hs' =>
      have := fileData_same hd hd'
      subst this
      have := (C124_unambiguous hs hs').2 ⟨rfl, rfl⟩
      subst this
      exact ⟨rfl, rfl⟩
  · intro ts links data out _ hd hs ih b' n' h'
    cases h' with
    | node hl' hd' hs' =>
      have := ih _ hl'
      subst this
      have := fileData_same hd hd'
      subst this
      have := (C124_unambiguous hs hs').2 ⟨rfl, rfl⟩
      subst this
      exact ⟨rfl, rfl⟩
  · intro ls' h'
    cases h'
    rfl
  · intro t ts block total links _ _ ih1 ih2 ls' h'
    cases h' with
    | cons h1 h2 =>
      obtain ⟨rfl, rfl⟩ := ih1 _ _ h1
      rw [ih2 _ h2]

/-- C124: the three blocks of a file of three bytes in chunks of two. -/
theorem C124_example : ∃ blocks, Adds toySha 2 2 [1, 2, 3] blocks ∧ BelowLimit blocks ∧ ∃ root, blocks.map Prod.snd =
    [[0x0A, 8, 0x08, 2, 0x12, 2, 1, 2, 0x18, 2], [0x0A, 7, 0x08, 2, 0x12, 1, 3, 0x18, 1], root] ∧
    root = [0x12, 42, 0x0A, 36] ++ cidBytes toySha [0x0A, 8, 0x08, 2, 0x12, 2, 1, 2, 0x18, 2] ++ [0x12, 0, 0x18, 10] ++
      ([0x12, 42, 0x0A, 36] ++ cidBytes toySha [0x0A, 7, 0x08, 2, 0x12, 1, 3, 0x18, 1] ++ [0x12, 0, 0x18, 9]) ++
      [0x0A, 8, 0x08, 2, 0x18, 3, 0x20, 2, 0x20, 1] := by
  refine ⟨_, adds_exists toySha_length (by decide) (by decide) _ (by decide), ?_, _, ?_, rfl⟩
  · unfold BelowLimit
    decide +kernel
  · decide +kernel

/-- A number of two groups. -/
example : Leb128 300 [0xAC, 0x02] := .more (k := 44) (n := 2) (by decide) (by decide) (.last (by decide))

end Verif.Props
