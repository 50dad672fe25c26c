import Verif.Spec.NarrowRun
import Verif.Props.Narrow
import Verif.Props.Reader
import Verif.ReleaseLemmas
/-
C111: visits, walkers and look-ups on platforms with 32 bits.
-/
namespace Verif.Props
open Verif Verif.Spec

/-! ### the bytes of a target range -/

/-- C111. The bytes of a block (of less than 4 GiB) which a target range asks for are the same with 32 bits, unless the range asks for bytes
of the block which it does not have: with 64 bits that panics. -/
theorem C111_slice {ε : Type} (content : Bytes) (hc : content.length < U32) (block target : Rng) :
    (targetSlice content block target : Res ε Bytes) = .panic .visitSlice ∨
      (targetSlice32 content block target : Res ε Bytes) = targetSlice content block target := by
  unfold targetSlice targetSlice32
  by_cases hin : blockIsInTargetRange block (some target) = false
  · rw [if_pos hin, if_pos hin]; exact .inr rfl
  rw [if_neg hin, if_neg hin]
  have hin' : max block.lo target.lo ≤ min block.hi target.hi := by
    simpa [blockIsInTargetRange] using hin
  have hU : 0 < U32 := by decide
  by_cases h1 : target.lo < block.lo
  · rw [if_pos h1, if_pos h1]
    unfold sub64
    rw [if_pos (by omega), Res.bind_ok, Res.bind_ok]
    by_cases h3 : min target.hi block.hi - block.lo < U32
    · rw [Nat.mod_eq_of_lt h3]; exact .inr rfl
    · left; unfold sliceChecked; exact if_neg (by omega)
  rw [if_neg h1, if_neg h1]
  by_cases h2 : target.hi > block.hi
  · rw [if_pos h2, if_pos h2]
    unfold sub64
    rw [if_pos (by omega), if_pos (by omega)]
    simp only [Res.bind_ok]
    by_cases h3 : min target.hi block.hi - block.lo < U32
    · rw [Nat.mod_eq_of_lt h3, Nat.mod_eq_of_lt (by omega)]; exact .inr rfl
    · left; unfold sliceChecked; exact if_neg (by omega)
  · rw [if_neg h2, if_neg h2]
    unfold sub64
    rw [if_pos (by omega), if_pos (by omega)]
    simp only [Res.bind_ok]
    by_cases h3 : target.lo - block.lo + (target.hi - target.lo) < U32
    · rw [Nat.mod_eq_of_lt (show target.lo - block.lo < U32 by omega), Nat.mod_eq_of_lt (show target.hi - target.lo < U32 by omega),
        if_neg (by omega)]
      exact .inr rfl
    · left; unfold sliceChecked; exact if_neg (by omega)

/-! ### one block -/

theorem data_le {b : Bytes} {m : FlatUnixFs} (h : FlatUnixFs.tryParse b = .ok m) : (m.data.Data.getD []).length ≤ b.length := by
  obtain ⟨ns, d, ds, h1, h2, h3, h4, rfl⟩ := (C81_accepted b m).1 h
  have hd : d.length ≤ b.length := by
    have hmem : NodeField.data d ∈ ns := by
      unfold nodeData at h2
      have := List.mem_of_getLast? h2
      rw [List.mem_filterMap] at this
      obtain ⟨f, hf, e⟩ := this
      cases f <;> simp at e
      subst e; exact hf
    clear h2 h
    unfold IsNode at h1
    induction h1 with
    | nil => cases hmem
    | @cons f fs b bs hE _ ih =>
      rw [List.length_append]
      cases hmem with
      | head => have := bytesField_len (show BytesField 10 d b from hE); omega
      | tail _ hm => have := ih hm; omega
  have key : ∀ {ds : List DataField} {d : Bytes}, Fields DataField.Enc ds d → ∀ m0 : UnixFs,
      ((ds.foldl DataField.apply m0).Data.getD []).length ≤ max (m0.Data.getD []).length d.length := by
    intro ds d h
    induction h with
    | nil => intro m0; simp only [List.foldl_nil]; omega
    | @cons f fs b bs hE _ ih =>
      intro m0
      rw [List.foldl_cons, List.length_append]
      have := ih (DataField.apply m0 f)
      have h2 : ((DataField.apply m0 f).Data.getD []).length ≤ max (m0.Data.getD []).length b.length := by
        cases f with
        | data x => have := bytesField_len (show BytesField 18 x b from hE); simp only [DataField.apply, Option.getD_some]; omega
        | _ => simp only [DataField.apply]; omega
      omega
  have := key h3 {}
  simp only [Option.getD_none, List.length_nil] at this
  show ((unixFsOf ds).Data.getD []).length ≤ b.length
  unfold unixFsOf
  omega

theorem parse_cases {b : Bytes} (hb : b.length < U32) : (∃ e, FlatUnixFs.tryParse b = .error e) ∨
    ∃ m, FlatUnixFs.tryParse b = .ok m ∧ FlatUnixFs.tryParse32 b = .ok m ∧ (m.data.Data.getD []).length < U32 := by
  cases h : FlatUnixFs.tryParse b with
  | error e => exact .inl ⟨e, rfl⟩
  | ok m => exact .inr ⟨m, rfl, C110_same b hb m h, by have := data_le h; omega⟩

theorem ofParsing_read (e : ParsingFailed) : ∃ x, FileReadFailed.ofParsing e = .Read x := by
  cases e <;> exact ⟨_, rfl⟩

theorem content_data {m : FlatUnixFs} {o : Nat} {md : Metadata} {fr : FileReader} (h : FileReader.fromParts m o md = .ok fr) {c : Bytes} {t : Traversal}
    (hc : fr.content = (.Bytes c, t)) : c = m.data.Data.getD [] := by
  have hd : fr.data = m.data.Data.getD [] := by
    unfold FileReader.fromParts at h
    dsimp only at h
    split at h; · cases h
    split at h; · cases h
    split at h; · cases h
    split at h; · cases h
    cases he : FileReader.endOf m o (m.data.Data.getD []) with
    | err e => rw [he] at h; cases h
    | panic p => rw [he] at h; cases h
    | ok e =>
      rw [he, Res.bind_ok] at h
      split at h
      · cases h
      · cases h; rfl
  rw [← hd]
  unfold FileReader.content at hc
  dsimp only at hc
  split at hc
  · cases hc; rfl
  · cases hc

theorem maybeSlice32 {ε : Type} (content : Bytes) (hc : content.length < U32) (block : Rng) (r : Option Rng) :
    (r ≠ none ∧ (maybeTargetSlice content block r : Res ε Bytes) = .panic .visitSlice) ∨
      (maybeTargetSlice32 content block r : Res ε Bytes) = maybeTargetSlice content block r := by
  cases r with
  | none => exact .inr rfl
  | some r => exact (C111_slice content hc block r).imp (fun h => ⟨nofun, h⟩) id

/-- Starting to read a file. -/
theorem start32_eq (idle : IdleFileVisit) {b : Bytes} (hb : b.length < U32) :
    ((∃ e, FlatUnixFs.tryParse b = .error e) ∧ ∃ e, idle.start b = .err (.Read e)) ∨ idle.start32 b = idle.start b := by
  unfold IdleFileVisit.start IdleFileVisit.start32 FileReader.fromBlock FileReader.fromBlock32
  rcases parse_cases hb with ⟨e, h1⟩ | ⟨m, h1, h2, h3⟩
  · obtain ⟨x, hx⟩ := ofParsing_read e
    rw [h1]
    exact .inl ⟨⟨e, rfl⟩, x, by simp only [hx]; rfl⟩
  rw [h1, h2]
  dsimp only
  cases hf : FileReader.fromParts m 0 (Metadata.ofUnixFs m.data) with
  | err e => exact .inr rfl
  | panic p => exact .inr rfl
  | ok fr =>
    simp only [Res.bind_ok]
    unfold IdleFileVisit.startFromReader IdleFileVisit.startFromReader32
    dsimp only
    have hcd := fun c t => content_data hf (c := c) (t := t)
    generalize fr.content = fc at hcd ⊢
    obtain ⟨fc, t⟩ := fc
    cases fc with
    | Links base z => exact .inr rfl
    | Bytes c =>
      dsimp only
      have hc : c.length < U32 := by rw [hcd c t rfl]; exact h3
      rcases maybeSlice32 (ε := FileReadFailed) c hc (.mk 0 c.length) idle.range with ⟨hr, h⟩ | h
      · cases hx : idle.range with
        | none => exact absurd hx hr
        | some r =>
          rw [hx] at h
          exact absurd h (targetSlice_noPanic (i := .mk 0 c.length) (Nat.zero_le _) (by simp) _)
      · rw [h]; exact .inr rfl

/-- Continuing to read a file. -/
theorem continue32_eq (v : FileVisit) {b : Bytes} (hb : b.length < U32) (cache : Option VisitCache) :
    ((∃ e, FlatUnixFs.tryParse b = .error e) ∧ ∃ e, (v.continueWalk b cache).1 = .err (.Read e)) ∨
    (v.range ≠ none ∧ (v.continueWalk b cache).1 = .panic .visitSlice) ∨
      v.continueWalk32 b cache = v.continueWalk b cache := by
  unfold FileVisit.continueWalk FileVisit.continueWalk32
  cases v.pending.getLast? with
  | none => exact .inr (.inr rfl)
  | some q =>
    obtain ⟨c, i⟩ := q
    dsimp only
    unfold Traversal.continueWalk Traversal.continueWalk32
    cases v.state.last_ending.checkIsSuitableNext v.state.last_offset i with
    | error e => exact .inr (.inr rfl)
    | ok u =>
      dsimp only
      unfold FileReader.fromContinued FileReader.fromContinued32
      rcases parse_cases hb with ⟨e, h1⟩ | ⟨m, h1, h2, h3⟩
      · obtain ⟨x, hx⟩ := ofParsing_read e
        rw [h1]
        exact .inl ⟨⟨e, rfl⟩, x, by simp only [hx]⟩
      rw [h1, h2]
      dsimp only
      by_cases hmeta : m.data.mode.isSome ∨ m.data.mtime.isSome
      · rw [if_pos hmeta]; exact .inr (.inr rfl)
      · rw [if_neg hmeta]
        cases hf : FileReader.fromParts m i.lo v.state.metadata with
        | err e => exact .inr (.inr rfl)
        | panic p => exact .inr (.inr rfl)
        | ok fr =>
          dsimp only
          have hcd := fun c t => content_data hf (c := c) (t := t)
          generalize fr.content = fc at hcd ⊢
          obtain ⟨fc, t⟩ := fc
          cases fc with
          | Links base z => exact .inr (.inr rfl)
          | Bytes c =>
            dsimp only
            have hc : c.length < U32 := by rw [hcd c t rfl]; exact h3
            rcases maybeSlice32 (ε := FileReadFailed) c hc i v.range with ⟨hr, h⟩ | h
            · rw [h]; exact .inr (.inl ⟨hr, rfl⟩)
            · rw [h]; exact .inr (.inr rfl)

/-- A step of a walker. -/
theorem step32_eq (w : Walker) (hw : w.Unranged) {b : Bytes} (hb : b.length < U32) (cache : Option VisitCache) :
    ((∃ e, FlatUnixFs.tryParse b = .error e) ∧
      ((∃ e, (w.step b cache).1 = .err (WalkError.ofParsing e)) ∨ (w.step b cache).1 = .panic .walkRead)) ∨ w.step32 b cache = w.step b cache := by
  have hblock : ((∃ e, FlatUnixFs.tryParse b = .error e) ∧ ∃ e, (w.nextBlock b cache).1 = .err (WalkError.ofParsing e)) ∨
      w.nextBlock32 b cache = w.nextBlock b cache := by
    unfold Walker.nextBlock Walker.nextBlock32
    rcases parse_cases hb with ⟨e, h1⟩ | ⟨m, h1, h2, h3⟩
    · rw [h1]; exact .inl ⟨⟨e, rfl⟩, e, rfl⟩
    · rw [h1, h2]; exact .inr rfl
  have hblock' : ((∃ e, FlatUnixFs.tryParse b = .error e) ∧
      ((∃ e, (w.nextBlock b cache).1 = .err (WalkError.ofParsing e)) ∨ (w.nextBlock b cache).1 = .panic .walkRead)) ∨ w.nextBlock32 b cache = w.nextBlock b cache :=
    hblock.imp (fun h => ⟨h.1, .inl h.2⟩) id
  have hu := hw
  unfold Walker.Unranged at hu
  unfold Walker.step Walker.step32
  cases hcur : w.current with
  | none => exact hblock'
  | some ie =>
    obtain ⟨cid, kind, path, metadata, depth⟩ := ie
    cases kind with
    | File o sz =>
      cases o with
      | none => exact hblock'
      | some visit =>
        dsimp only
        have hr : visit.range = none := hu _ visit sz hcur rfl
        unfold Walker.nextFile Walker.nextFile32
        rcases continue32_eq visit hb cache with ⟨h0, e, h⟩ | ⟨h, -⟩ | h
        · generalize visit.continueWalk b cache = x at h ⊢
          obtain ⟨x, c⟩ := x
          dsimp only at h
          subst h
          exact .inl ⟨h0, .inr rfl⟩
        · exact absurd hr h
        · rw [h]; exact .inr rfl
    | _ => exact hblock'

/-- C111. On a block of less than 4 GiB which is accepted with 64 bits, everything is the same with 32: starting to read it, looking a name up
in it, walking on to it. Reading on is, too, unless the block has fewer bytes than the range asks for, which panics with 64 bits. -/
theorem C111_block (b : Bytes) (hb : b.length < U32) (ha : Taken b) :
    (∀ idle : IdleFileVisit, idle.start32 b = idle.start b) ∧
    (∀ (v : FileVisit) cache, (v.range ≠ none ∧ (v.continueWalk b cache).1 = .panic .visitSlice) ∨ v.continueWalk32 b cache = v.continueWalk b cache) ∧
    (∀ (w : Walker) cache, w.Unranged → w.step32 b cache = w.step b cache) ∧
    (∀ (l : ShardedLookup) cache, l.continueWalk32 b cache = l.continueWalk b cache) ∧
    ∀ needle cache, resolve32 b needle cache = resolve b needle cache := by
  obtain ⟨m, hm⟩ := ha
  have hm' := C110_same b hb m hm
  have hne : ¬ ∃ e, FlatUnixFs.tryParse b = .error e := by rintro ⟨e, h⟩; rw [hm] at h; cases h
  refine ⟨fun idle => ?_, fun v cache => ?_, fun w cache hw => ?_, fun l cache => ?_, fun needle cache => ?_⟩
  · rcases start32_eq idle hb with ⟨h, -⟩ | h
    · exact absurd h hne
    · exact h
  · rcases continue32_eq v hb cache with ⟨h, -⟩ | h
    · exact absurd h hne
    · exact h
  · rcases step32_eq w hw hb cache with ⟨h, -⟩ | h
    · exact absurd h hne
    · exact h
  · unfold ShardedLookup.continueWalk32 ShardedLookup.continueWalk
    rw [hm, hm']
    cases l.links <;> rfl
  · unfold resolve32 resolve
    rw [hm, hm']
    rfl

/-- C111. And on any block, also one which is refused, everything without a target range is the same with 32 bits as with 64 on a block (`b'`)
which is read there as this one is here. -/
theorem C111_parsed (b b' : Bytes) (h : FlatUnixFs.tryParse32 b = FlatUnixFs.tryParse b') :
    IdleFileVisit.start32 {} b = IdleFileVisit.start {} b' ∧
    (∀ (v : FileVisit) cache, v.range = none → v.continueWalk32 b cache = v.continueWalk b' cache) ∧
    (∀ (w : Walker) cache, w.Unranged → w.step32 b cache = w.step b' cache) ∧
    (∀ (l : ShardedLookup) cache, l.continueWalk32 b cache = l.continueWalk b' cache) ∧
    ∀ needle cache, resolve32 b needle cache = resolve b' needle cache := by
  have hcont : ∀ (v : FileVisit) cache, v.range = none → v.continueWalk32 b cache = v.continueWalk b' cache := by
    intro v cache hr
    unfold FileVisit.continueWalk32 FileVisit.continueWalk Traversal.continueWalk32 Traversal.continueWalk FileReader.fromContinued32 FileReader.fromContinued
    rw [h, hr]
    rfl
  refine ⟨?_, hcont, fun w cache hw => ?_, fun l cache => ?_, fun needle cache => ?_⟩
  · unfold IdleFileVisit.start32 IdleFileVisit.start FileReader.fromBlock32 FileReader.fromBlock
    rw [h]
    rfl
  · have hblock : w.nextBlock32 b cache = w.nextBlock b' cache := by
      unfold Walker.nextBlock32 Walker.nextBlock
      rw [h]
      rfl
    unfold Walker.Unranged at hw
    unfold Walker.step Walker.step32
    cases hcur : w.current with
    | none => exact hblock
    | some ie =>
      obtain ⟨cid, kind, path, metadata, depth⟩ := ie
      cases kind with
      | File o sz =>
        cases o with
        | none => exact hblock
        | some visit =>
          dsimp only
          unfold Walker.nextFile Walker.nextFile32
          rw [hcont visit cache (hw _ visit sz hcur rfl)]
          rfl
      | _ => exact hblock
  · unfold ShardedLookup.continueWalk32 ShardedLookup.continueWalk
    rw [h]
    rfl
  · unfold resolve32 resolve
    rw [h]
    rfl

/-- As for the block of C110 which is accepted with 32 bits only: it is read as the one without the field which is cut. -/
example : FlatUnixFs.tryParse32 cutBlock = FlatUnixFs.tryParse (cutBlock.drop 7) := by decide +kernel

/-! ### to the end -/

theorem left_bind32 {ε α : Type} {B : Res ε α → Prop} (hB : ∀ x (f : α → α), B x → B (x.map f)) (f : α → α) (d r : Option (Res ε α))
    (h : ∀ x, d = some x → B x ∨ r = some x) :
    ∀ x, (d.bind fun x => some (x.map f)) = some x → B x ∨ (r.bind fun x => some (x.map f)) = some x := by
  intro x hx
  cases hd : d with
  | none => rw [hd] at hx; cases hx
  | some y =>
    rw [hd] at hx
    cases hx
    rcases h y hd with h1 | h1
    · exact .inl (hB _ _ h1)
    · rw [h1]; exact .inr rfl

theorem right_bind32 {ε α : Type} {B : Res ε α → Prop} (hB : ∀ x (f : α → α), B x → B (x.map f)) (f : α → α) (d r : Option (Res ε α))
    (h : ∀ x, r = some x → (∃ y, d = some y ∧ B y) ∨ d = some x) :
    ∀ x, (r.bind fun x => some (x.map f)) = some x → (∃ y, (d.bind fun x => some (x.map f)) = some y ∧ B y) ∨
      (d.bind fun x => some (x.map f)) = some x := by
  intro x hx
  cases hr : r with
  | none => rw [hr] at hx; cases hx
  | some y =>
    rw [hr] at hx
    cases hx
    rcases h y hr with ⟨z, h1, h2⟩ | h1
    · rw [h1]; exact .inl ⟨_, rfl, hB _ _ h2⟩
    · rw [h1]; exact .inr rfl

theorem readStops_map (x : Res ReadError (Bytes × List Cid)) (f : Bytes × List Cid → Bytes × List Cid) (h : ReadStops x) : ReadStops (x.map f) := by
  rcases h with ⟨e, rfl⟩ | rfl
  · exact .inl ⟨e, rfl⟩
  · exact .inr rfl

theorem walkStops_map (x : Res WalkFail (List ContinuedWalk)) (f : List ContinuedWalk → List ContinuedWalk) (h : WalkStops x) : WalkStops (x.map f) := by
  rcases h with ⟨e, rfl⟩ | ⟨e, rfl⟩ | rfl | rfl
  · exact .inl ⟨e, rfl⟩
  · exact .inr (.inl ⟨e, rfl⟩)
  · exact .inr (.inr (.inl rfl))
  · exact .inr (.inr (.inr rfl))

theorem readFrom_body32 {P : Option (Res ReadError (Bytes × List Cid)) → Option (Res ReadError (Bytes × List Cid)) → Prop}
    (hP : Comparison ReadStops P) (hb : ∀ (f : Bytes × List Cid → Bytes × List Cid) d r, P d r →
      P (d.bind fun x => some (x.map f)) (r.bind fun x => some (x.map f)))
    {get : Cid → Option Bytes} (hget : Short get) {rec recR : FileVisit → Option (Res ReadError (Bytes × List Cid))}
    (h : ∀ v, P (rec v) (recR v)) (v : FileVisit) :
    P (match v.pendingLinks with
      | .panic p => some (.panic p)
      | .err () => some (.err .noLinks)
      | .ok (first, _) =>
        match get first with
        | none => some (.err (.missing first))
        | some block =>
          match (v.continueWalk block none).1 with
          | .panic p => some (.panic p)
          | .err e => some (.err (.failed e))
          | .ok (content, none) => some (.ok (content, [first]))
          | .ok (content, some v') => do
            let r ← rec v'
            some (r.map (fun (c, q) => (content ++ c, first :: q))))
      (match v.pendingLinks with
      | .panic p => some (.panic p)
      | .err () => some (.err .noLinks)
      | .ok (first, _) =>
        match get first with
        | none => some (.err (.missing first))
        | some block =>
          match (v.continueWalk32 block none).1 with
          | .panic p => some (.panic p)
          | .err e => some (.err (.failed e))
          | .ok (content, none) => some (.ok (content, [first]))
          | .ok (content, some v') => do
            let r ← recR v'
            some (r.map (fun (c, q) => (content ++ c, first :: q)))) := by
  cases v.pendingLinks with
  | panic p => exact hP.refl _
  | err e => exact hP.refl _
  | ok q =>
    obtain ⟨first, rest⟩ := q
    dsimp only
    cases hg : get first with
    | none => exact hP.refl _
    | some block =>
      dsimp only
      rcases continue32_eq v (hget _ _ hg) none with ⟨-, e, h1⟩ | ⟨-, h1⟩ | h1
      · rw [h1]; exact hP.bad _ _ (.inl ⟨e, rfl⟩)
      · rw [h1]; exact hP.bad _ _ (.inr rfl)
      · rw [h1]
        generalize v.continueWalk block none = s
        obtain ⟨s1, s2⟩ := s
        cases s1 with
        | panic p => exact hP.refl _
        | err e => exact hP.refl _
        | ok q =>
          obtain ⟨content, v'⟩ := q
          cases v' with
          | none => exact hP.refl _
          | some v' => exact hb _ _ _ (h v')

theorem readFrom32_eq {get : Cid → Option Bytes} (hget : Short get) (v : FileVisit) :
    (∃ x, readFrom get v = some x ∧ ReadStops x) ∨ readFrom32 get v = readFrom get v := by
  refine compare_both (fun x hx => ?_) fun x hx => ?_
  · refine readFrom.partial_correctness get (fun v x => ReadStops x ∨ readFrom32 get v = some x) ?_ v x hx
    intro rec ih v x h
    rw [readFrom32]
    exact readFrom_body32 (compare_left ReadStops) (left_bind32 readStops_map) hget (rec := rec) (recR := readFrom32 get) (fun v x h => ih v x h) v x h
  · refine readFrom32.partial_correctness get (fun v x => (∃ y, readFrom get v = some y ∧ ReadStops y) ∨ readFrom get v = some x) ?_ v x hx
    intro rec ih v x h
    rw [readFrom]
    exact readFrom_body32 (compare_right ReadStops) (right_bind32 readStops_map) hget (rec := readFrom get) (recR := rec) (fun v x h => ih v x h) v x h

/-- C111. Reading a file, or a range of it, gives the same with 32 bits as with 64 (the same bytes, the same error, or no end), whatever its
size and whatever the blocks, as long as each of them is shorter than 4 GiB; unless with 64 bits it ends with a block which is refused, or with
one which has fewer bytes than the range asks for. -/
theorem C111_read (get : Cid → Option Bytes) (hget : Short get) (idle : IdleFileVisit) (root : Bytes) (hroot : root.length < U32) :
    (∃ x, readFile get idle root = some x ∧ ReadStops x) ∨ readFile32 get idle root = readFile get idle root := by
  unfold readFile readFile32
  rcases start32_eq idle hroot with ⟨-, e, h⟩ | h
  · rw [h]; exact .inl ⟨_, rfl, .inl ⟨e, rfl⟩⟩
  · rw [h]
    generalize idle.start root = s
    cases s with
    | panic p => exact .inr rfl
    | err e => exact .inr rfl
    | ok r =>
      obtain ⟨content, sz, md, v⟩ := r
      cases v with
      | none => exact .inr rfl
      | some v =>
        dsimp only
        rcases readFrom32_eq hget v with ⟨x, h1, h2⟩ | h1
        · rw [h1]; exact .inl ⟨_, rfl, readStops_map _ _ h2⟩
        · rw [h1]; exact .inr rfl

/-- C111. So any file of a well-formed tree, and any range of it, reads back with 32 bits: also if it is larger than 4 GiB, and also beyond. -/
theorem C111_wellformed (get : Cid → Option Bytes) (hget : Short get) (t : FTree) (root : Bytes) (hroot : root.length < U32) (h : FileAt get t root) :
    (∃ cids, readFile32 get {} root = some (.ok (t.content, cids))) ∧
    ∀ r, ∃ cids, readFile32 get (IdleFileVisit.withTargetRange {} r) root = some (.ok (slice t.content r, cids)) := by
  have key : ∀ idle x, readFile get idle root = some (.ok x) → readFile32 get idle root = some (.ok x) := by
    intro idle x hx
    rcases C111_read get hget idle root hroot with ⟨y, h1, h2⟩ | h1
    · rw [hx] at h1; cases h1
      rcases h2 with ⟨e, h2⟩ | h2 <;> cases h2
    · rw [h1, hx]
  refine ⟨?_, fun r => ?_⟩
  · obtain ⟨cids, hc⟩ := C18_read_wellformed get t root h
    exact ⟨cids, key _ _ hc⟩
  · obtain ⟨cids, hc⟩ := C19_ranged_read get t root h r
    exact ⟨cids, key _ _ hc⟩

theorem walkFrom_body32 {P : Option (Res WalkFail (List ContinuedWalk)) → Option (Res WalkFail (List ContinuedWalk)) → Prop}
    (hP : Comparison WalkStops P) (hb : ∀ (f : List ContinuedWalk → List ContinuedWalk) d r, P d r →
      P (d.bind fun x => some (x.map f)) (r.bind fun x => some (x.map f)))
    {get : Cid → Option Bytes} (hget : Short get) {rec recR : Walker → Option VisitCache → Option (Res WalkFail (List ContinuedWalk))}
    (h : ∀ w cache, w.Unranged → P (rec w cache) (recR w cache)) (w : Walker) (cache : Option VisitCache) (hw : w.Unranged) :
    P (if w.shouldContinue = false then some (.ok [])
      else match w.pendingLinks with
      | .panic p => some (.panic p)
      | .err () => some (.err .noLinks)
      | .ok (first, _) =>
        match get first with
        | none => some (.err (.missing first))
        | some block =>
          match w.step block cache with
          | (.panic p, _, _) => some (.panic p)
          | (.err e, _, _) => some (.err (.failed e))
          | (.ok item, w', cache') => do
            let r ← rec w' cache'
            some (r.map (fun items => item :: items)))
      (if w.shouldContinue = false then some (.ok [])
      else match w.pendingLinks with
      | .panic p => some (.panic p)
      | .err () => some (.err .noLinks)
      | .ok (first, _) =>
        match get first with
        | none => some (.err (.missing first))
        | some block =>
          match w.step32 block cache with
          | (.panic p, _, _) => some (.panic p)
          | (.err e, _, _) => some (.err (.failed e))
          | (.ok item, w', cache') => do
            let r ← recR w' cache'
            some (r.map (fun items => item :: items))) := by
  by_cases hc : w.shouldContinue = false
  · rw [if_pos hc, if_pos hc]; exact hP.refl _
  rw [if_neg hc, if_neg hc]
  cases w.pendingLinks with
  | panic p => exact hP.refl _
  | err e => exact hP.refl _
  | ok q =>
    obtain ⟨first, rest⟩ := q
    dsimp only
    cases hg : get first with
    | none => exact hP.refl _
    | some block =>
      dsimp only
      have hs := step32_eq w hw (hget _ _ hg) cache
      have hr : ∀ item w' cache', w.step block cache = (.ok item, w', cache') → w'.Unranged := fun _ _ _ h => step_unranged hw h
      generalize w.step block cache = s at hs hr
      generalize w.step32 block cache = sR at hs
      rcases hs with ⟨-, hs⟩ | rfl
      · obtain ⟨s1, s2, s3⟩ := s
        dsimp only at hs
        rcases hs with ⟨e, rfl⟩ | rfl
        · refine hP.bad _ _ ?_
          cases e with
          | InvalidDagPb e => exact .inl ⟨e, rfl⟩
          | InvalidUnixFs e n => exact .inr (.inl ⟨e, rfl⟩)
          | NoData n => exact .inr (.inr (.inl rfl))
        · exact hP.bad _ _ (.inr (.inr (.inr rfl)))
      · obtain ⟨s1, s2, s3⟩ := sR
        cases s1 with
        | panic p => exact hP.refl _
        | err e => exact hP.refl _
        | ok item => exact hb _ _ _ (h s2 s3 (hr _ _ _ rfl))

theorem walkFrom32_eq {get : Cid → Option Bytes} (hget : Short get) (w : Walker) (cache : Option VisitCache) (hw : w.Unranged) :
    (∃ x, walkFrom get w cache = some x ∧ WalkStops x) ∨ walkFrom32 get w cache = walkFrom get w cache := by
  refine compare_both (fun x hx => ?_) fun x hx => ?_
  · refine walkFrom.partial_correctness get (fun w cache x => w.Unranged → WalkStops x ∨ walkFrom32 get w cache = some x) ?_ w cache x hx hw
    intro rec ih w cache x h hw
    rw [walkFrom32]
    exact walkFrom_body32 (compare_left WalkStops) (left_bind32 walkStops_map) hget (rec := rec) (recR := walkFrom32 get)
      (fun w c hw x h => ih w c x h hw) w cache hw x h
  · refine walkFrom32.partial_correctness get (fun w cache x => w.Unranged → (∃ y, walkFrom get w cache = some y ∧ WalkStops y) ∨ walkFrom get w cache = some x) ?_ w cache x hx hw
    intro rec ih w cache x h hw
    rw [walkFrom]
    exact walkFrom_body32 (compare_right WalkStops) (right_bind32 walkStops_map) hget (rec := walkFrom get) (recR := rec)
      (fun w c hw x h => ih w c x h hw) w cache hw x h

/-- C111. Walking a tree gives the same items with 32 bits as with 64, the same error, panic or no end, unless with 64 bits it ends with a block
which is refused. -/
theorem C111_walk (get : Cid → Option Bytes) (hget : Short get) (root : Cid) (name : Bytes) (cache : Option VisitCache) :
    (∃ x, walkFrom get (Walker.new root name) cache = some x ∧ WalkStops x) ∨
      walkFrom32 get (Walker.new root name) cache = walkFrom get (Walker.new root name) cache :=
  walkFrom32_eq hget _ cache (unranged_new root name)

/-! ### examples -/

/-- The root of a file which claims 2^32 + 1 bytes, all of them in one leaf. -/
def wideRoot : Bytes := [0x12, 0x06, 0x0a, 0x04, 0x01, 0x55, 0x00, 0x00, 0x0a, 0x0e, 0x08, 0x02, 0x18, 0x81, 0x80, 0x80, 0x80, 0x10,
  0x20, 0x81, 0x80, 0x80, 0x80, 0x10]
/-- The leaf: it has the single byte `a`. -/
def wideLeaf : Bytes := [0x0a, 0x07, 0x08, 0x02, 0x12, 0x01, 0x61, 0x18, 0x01]

/-- What reading a file of two blocks does. -/
def twoBlocks (start : Res FileReadFailed FileVisitResult) (next : FileVisit → Res FileReadFailed (Bytes × Option FileVisit)) :
    Option (Res FileReadFailed (Bytes × Option FileVisit)) :=
  match start with
  | .ok ⟨_, _, _, some v⟩ => some (next v)
  | _ => none

/-- C111. The last byte of that file: with 64 bits asking for it panics, with 32 it is taken to be `a`, which is the first one. -/
theorem C111_wrong_example :
    twoBlocks (IdleFileVisit.start ⟨some ⟨2 ^ 32, 2 ^ 32 + 1⟩⟩ wideRoot) (fun v => (v.continueWalk wideLeaf none).1) = some (.panic .visitSlice) ∧
    twoBlocks (IdleFileVisit.start32 ⟨some ⟨2 ^ 32, 2 ^ 32 + 1⟩⟩ wideRoot) (fun v => (v.continueWalk32 wideLeaf none).1) = some (.ok ([0x61], none)) := by
  constructor <;> decide +kernel

/-- The file of C18 and C19 meets what `C111_read` and `C111_wellformed` ask for. -/
theorem sample_short : Short (storeOf sampleTree.nodes) := by
  have all : ∀ e ∈ sampleTree.nodes.map (FTree.entry toySha), e.2.length < U32 := by decide +kernel
  intro c b h
  unfold storeOf at h
  cases hf : (sampleTree.nodes.map (FTree.entry toySha)).find? (fun e => e.1 == c) with
  | none => rw [hf] at h; cases h
  | some e =>
    rw [hf] at h
    cases h
    exact all e (List.mem_of_find?_eq_some hf)
example : ∃ cids, readFile32 (storeOf sampleTree.nodes) (IdleFileVisit.withTargetRange {} ⟨1, 4⟩) (sampleTree.block toySha) =
    some (.ok ([2, 3, 4], cids)) :=
  (C111_wellformed _ sample_short sampleTree _ (by decide +kernel) sample_fileAt).2 ⟨1, 4⟩
/-- The blocks of `C111_wrong_example` are accepted, so `C111_block` says all the rest about them. -/
example : Taken wideLeaf ∧ Taken wideRoot ∧ wideLeaf.length < U32 := by
  have h (b : Bytes) (h : (match FlatUnixFs.tryParse b with | .ok _ => true | .error _ => false) = true) : Taken b := by
    split at h
    · next m e => exact ⟨m, e⟩
    · cases h
  exact ⟨h _ (by decide +kernel), h _ (by decide +kernel), by decide +kernel⟩

end Verif.Props
