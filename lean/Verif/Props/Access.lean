import Verif.Access
import Verif.Props.Walk
import Verif.Props.Dir
import Verif.Props.Refusals
import Verif.Props.Codec
import Verif.Props.Builder
/-
C61: the type reported in an error is the one the refused block declares, and the accessors of the reported type, of metadata and
of wrapped node data answer accordingly.
-/
namespace Verif.Props
open Verif Verif.Spec

/-! ### The reported type -/

/-- The accessors of a reported type, for a type the crate put into an error. -/
theorem C61_accessors (t : DataType) :
    ((UnexpectedNodeType.of t).isDirectory = true ↔ t = .Directory ∨ t = .HAMTShard) ∧
    ((UnexpectedNodeType.of t).isFile = true ↔ t = .File) ∧
    (UnexpectedNodeType.of t).debug = toString t.toNat ++ " or " ++ t.debug := by
  cases t <;> decide +kernel

/-- For any number at all (the type is opaque, but this is what the accessors compute): a number which is no type is neither. -/
theorem C61_unknown (n : Nat) (h : 5 < n) :
    (UnexpectedNodeType.mk n).isDirectory = false ∧ (UnexpectedNodeType.mk n).isFile = false ∧
    (UnexpectedNodeType.mk n).debug = toString n ++ " or <unknown>" := by
  have : DataType.ofI32 n = .Raw := by
    unfold DataType.ofI32
    split <;> first | rfl | omega
  refine ⟨by simp [UnexpectedNodeType.isDirectory, this], by simp [UnexpectedNodeType.isFile, this], ?_⟩
  simp only [UnexpectedNodeType.debug, this, true_and]
  rw [if_pos (by omega)]

/-- Names and numbers of types are read back as the same type. -/
theorem C61_roundtrip (t : DataType) : DataType.ofI32 t.toNat = t ∧ DataType.ofStr t.debug = t := by
  cases t <;> decide

/-- A visit refuses its first block with a type exactly when the block parses and declares that type, and it is neither a file
nor raw. -/
theorem C61_visit (target : Option Rng) (block : Bytes) (t : DataType) :
    (IdleFileVisit.mk target).start block = .err (.UnexpectedType t) ↔
      ∃ m, FlatUnixFs.tryParse block = .ok m ∧ m.data.Ty = t ∧ t ≠ .File ∧ t ≠ .Raw := by
  constructor
  · intro h
    have := start_err h
    cases this with
    | type h1 h2 h3 => exact ⟨_, h1, rfl, h2, h3⟩
  · rintro ⟨m, h1, rfl, h2, h3⟩
    unfold IdleFileVisit.start FileReader.fromBlock
    rw [h1]
    simp only [FileReader.fromParts, h2, h3, ne_eq, not_false_eq_true, and_self, if_true]
    rfl

/-- So for a refused first block `is_directory` says whether it is a directory, and it is never a file. -/
theorem C61_visit_accessors (target : Option Rng) (block : Bytes) (t : DataType)
    (h : (IdleFileVisit.mk target).start block = .err (.UnexpectedType t)) :
    (UnexpectedNodeType.of t).isFile = false ∧
    ∃ m, FlatUnixFs.tryParse block = .ok m ∧
      ((UnexpectedNodeType.of t).isDirectory = true ↔ m.data.Ty = .Directory ∨ m.data.Ty = .HAMTShard) := by
  obtain ⟨m, h1, rfl, h2, -⟩ := (C61_visit target block t).1 h
  refine ⟨?_, m, h1, (C61_accessors _).1⟩
  have := (C61_accessors m.data.Ty).2.1
  cases hf : (UnexpectedNodeType.of m.data.Ty).isFile with
  | false => rfl
  | true => exact absurd (this.1 hf) h2

/-- A later block is refused with a type only if it parses and declares that type. -/
theorem C61_continue (v : FileVisit) (block : Bytes) (cache : Option VisitCache) (t : DataType)
    (h : (v.continueWalk block cache).1 = .err (.UnexpectedType t)) :
    ∃ m, FlatUnixFs.tryParse block = .ok m ∧ m.data.Ty = t ∧ t ≠ .File ∧ t ≠ .Raw := by
  cases hi : nextInterval v with
  | none =>
    have hP : v.pending.getLast? = none := by
      unfold nextInterval at hi
      simpa using hi
    simp [FileVisit.continueWalk, hP] at h
  | some i =>
    have := continue_err hi h
    cases this with
    | type h1 h2 h3 => exact ⟨_, h1, rfl, h2, h3⟩

/-- `resolve` refuses a block with a type exactly when it parses and declares that type, and it is no directory of either
kind: `is_directory` is always `false`. -/
theorem C61_resolve (block needle : Bytes) (cache : Option LookupCache) (t : DataType) :
    (resolve block needle cache).1 = .err (.UnexpectedType t) ↔
      ∃ m, FlatUnixFs.tryParse block = .ok m ∧ m.data.Ty = t ∧ (UnexpectedNodeType.of t).isDirectory = false := by
  constructor
  · intro h
    unfold resolve at h
    cases hm : FlatUnixFs.tryParse block with
    | error e =>
      exfalso
      have key : ∀ ls, resolveInLinks ls needle ≠ .err (.UnexpectedType t) := by
        intro ls
        unfold resolveInLinks
        repeat' split
        all_goals simp
      cases e with
      | InvalidDagPb e => simp [hm] at h
      | InvalidUnixFs e n => simp only [hm] at h; exact key _ h
      | NoData n => simp only [hm] at h; exact key _ h
    | ok m =>
      simp only [hm] at h
      refine ⟨m, rfl, ?_⟩
      cases ht : m.data.Ty with
      | HAMTShard =>
        simp only [ht] at h
        cases hr : (ShardedLookup.lookupOrStart m needle cache).1 <;> simp [hr, Res.mapErr] at h
      | Directory =>
        simp only [ht] at h
        cases hc : checkDirectorySupported m with
        | error e => simp [hc] at h
        | ok m' =>
          simp only [hc] at h
          exfalso
          revert h
          unfold resolveInLinks
          repeat' split
          all_goals simp
      | _ =>
        simp only [ht] at h
        simp only [Res.err.injEq, ResolveError.UnexpectedType.injEq] at h
        subst h
        exact ⟨rfl, by decide⟩
  · rintro ⟨m, hm, rfl, hd⟩
    have := C44_unexpected block needle cache m hm (by revert hd; cases m.data.Ty <;> simp <;> decide)
    rw [this]

/-- A bucket is refused with a type exactly when it parses and declares that type, which is not that of a shard. -/
theorem C61_bucket (l : ShardedLookup) (hl : l.links ≠ []) (block : Bytes) (cache : Option LookupCache) (t : DataType) :
    (l.continueWalk block cache).1 = .err (.UnexpectedBucketType t) ↔
      ∃ m, FlatUnixFs.tryParse block = .ok m ∧ m.data.Ty = t ∧ t ≠ .HAMTShard := by
  constructor
  · intro h
    unfold ShardedLookup.continueWalk at h
    cases hq : l.links with
    | nil => exact absurd hq hl
    | cons c q =>
      simp only [hq] at h
      cases hm : FlatUnixFs.tryParse block with
      | error e => rw [hm] at h; cases e <;> simp at h
      | ok m =>
        simp only [hm] at h
        refine ⟨m, rfl, ?_⟩
        by_cases ht : m.data.Ty = .HAMTShard
        · exfalso
          simp only [ht, ne_eq, not_true_eq_false, if_false] at h
          cases hc : checkShardSupported m with
          | panic p => simp [hc] at h
          | err e => simp [hc] at h
          | ok u =>
            simp only [hc] at h
            have key : ∀ (ls : List PBLink) i f w, partitionShardLinks l.needle i f w ls ≠ .err (.UnexpectedBucketType t) := by
              intro ls
              induction ls with
              | nil => intro i f w; simp [partitionShardLinks]
              | cons x xs ih =>
                intro i f w
                unfold partitionShardLinks
                dsimp only
                repeat' split
                all_goals first | exact ih _ _ _ | simp
            revert h
            unfold ShardedLookup.finishStep
            cases hp : partitionShardLinks l.needle 0 none q m.links with
            | panic p => simp
            | err e => simp only [Res.err.injEq]; rintro rfl; exact key _ _ _ _ hp
            | ok x =>
              obtain ⟨f, w⟩ := x
              cases f
              · simp only; split <;> simp
              · simp
        · simp only [ht, ne_eq, not_false_eq_true, if_true] at h
          simp only [Res.err.injEq, LookupError.UnexpectedBucketType.injEq] at h
          subst h
          exact ⟨rfl, ht⟩
  · rintro ⟨m, hm, rfl, ht⟩
    rw [C44_bucket l hl block cache m hm ht]

/-- The only type a walker calls unsupported is that of metadata nodes, whatever the block and the walker. -/
theorem C61_walk (w : Walker) (block : Bytes) (cache : Option VisitCache) (t : DataType)
    (h : (w.step block cache).1 = .err (.UnsupportedType t)) :
    t = .Metadata ∧ ∃ m, FlatUnixFs.tryParse block = .ok m ∧ m.data.Ty = .Metadata := by
  by_cases hr : w.atRest
  · rw [step_atRest hr] at h
    unfold Walker.nextBlock at h
    cases hm : FlatUnixFs.tryParse block with
    | error e => rw [hm] at h; cases e <;> simp [WalkError.ofParsing] at h
    | ok m =>
      simp only [hm] at h
      have hfirst : (w.nextFirst m cache).1 ≠ .err (.UnsupportedType t) := by
        unfold Walker.nextFirst
        rcases ({} : IdleFileVisit).startFromParsed m cache with ⟨r, k⟩
        cases r with
        | panic q => simp
        | err e => cases e <;> simp [WalkError.ofFileReadFailed]
        | ok r =>
          simp only
          cases w.next with
          | none => simp
          | some n =>
            simp only
            cases hen : w.enterLeaf (.File r.next r.total_size) r.metadata n with
            | panic q => simp
            | err e => exact absurd hen (enterLeaf_ne_err _)
            | ok ie => simp
      cases hty : m.data.Ty with
      | File => simp only [hty] at h; exact absurd h hfirst
      | Raw => simp only [hty] at h; exact absurd h hfirst
      | Metadata =>
        simp only [hty, Res.err.injEq, WalkError.UnsupportedType.injEq] at h
        exact ⟨h.symm, m, rfl, hty⟩
      | Symlink =>
        simp only [hty, Walker.nextSymlink] at h
        cases hn : w.next with
        | none => simp [hn] at h
        | some n =>
          simp only [hn] at h
          cases hen : w.enterLeaf .Symlink (Metadata.ofUnixFs m.data) n with
          | panic q => simp [hen] at h
          | err e => exact absurd hen (enterLeaf_ne_err _)
          | ok ie => simp [hen] at h
      | Directory =>
        simp only [hty] at h
        cases hck : checkDirectorySupported m with
        | error e => simp [hck] at h
        | ok m' =>
          simp only [hck] at h
          obtain ⟨_, _, _, _, he⟩ := nextDir_refused (fun d => converts_entry (d + 1)) (fun d => names_entry (d + 1))
            (fun _ e => enterDirectory_ne_err e) h
          cases he
      | HAMTShard =>
        simp only [hty] at h
        cases hck : checkHamtshardSupported m with
        | panic p => simp [hck] at h
        | err e => simp [hck] at h
        | ok m' =>
          simp only [hck] at h
          obtain ⟨_, _, _, _, he⟩ := nextDir_refused (fun d => converts_slot (d + 1) d) (fun d => names_slot (d + 1) d)
            (fun _ e => enterShard_ne_err e) h
          cases he
  · have : ∃ ie v sz, w.current = some ie ∧ ie.kind = .File (some v) sz := by
      apply Classical.byContradiction
      intro hx
      apply hr
      intro ie v sz h1 h2
      exact hx ⟨ie, v, sz, h1, h2⟩
    obtain ⟨ie, v, sz, h1, h2⟩ := this
    rw [step_inFile h1 h2] at h
    unfold Walker.nextFile at h
    rcases hx : v.continueWalk block cache with ⟨r, k⟩
    rw [hx] at h
    cases r with
    | panic q => simp at h
    | ok x => simp at h
    | err e => cases e <;> simp [WalkError.ofFileReadFailed] at h

/-- A directory is no file: reading it as one is refused, and the error knows that it is a directory. -/
example : (IdleFileVisit.mk none).start (sampleDir [[97]]) = .err (.UnexpectedType .Directory) ∧
    (UnexpectedNodeType.of .Directory).isDirectory = true := by decide +kernel
example : (resolve ((FTree.leaf [1, 2]).block toySha) [97] none).1 = .err (.UnexpectedType .File) ∧
    (UnexpectedNodeType.of .File).isFile = true := by decide +kernel

/-! ### Metadata -/

/-- The metadata reported for a file is that of its first block: the mode as it is there, the modification time with the
nanoseconds, which are 0 when not given. -/
theorem C61_metadata (target : Option Rng) (block : Bytes) (r : FileVisitResult) (h : (IdleFileVisit.mk target).start block = .ok r) :
    ∃ m, FlatUnixFs.tryParse block = .ok m ∧ r.metadata.getMode = m.data.mode ∧
      (∀ s n, r.metadata.getMtime = some (s, n) ↔ ∃ t, m.data.mtime = some t ∧ t.Seconds = s ∧
        (t.FractionalNanoseconds = some n ∨ (t.FractionalNanoseconds = none ∧ n = 0))) ∧
      (r.metadata.getMtime = none ↔ m.data.mtime = none) := by
  obtain ⟨m, fs, hm, ha, h1, h2⟩ := start_ok h
  have hmd : r.metadata = Metadata.ofUnixFs m.data := by
    by_cases hl : m.links = []
    · rw [h1 hl]
    · obtain ⟨ps, -, rfl⟩ := h2 hl; rfl
  refine ⟨m, hm, ?_, ?_, ?_⟩
  · rw [hmd]; rfl
  · intro s n
    rw [hmd]
    simp only [Metadata.getMtime, Metadata.ofUnixFs, Option.map_eq_some_iff, Prod.mk.injEq]
    constructor
    · rintro ⟨t, h1, h2, h3⟩
      refine ⟨t, h1, h2, ?_⟩
      cases hf : t.FractionalNanoseconds with
      | none => rw [hf] at h3; exact .inr ⟨rfl, h3.symm⟩
      | some k => rw [hf] at h3; left; simpa using h3
    · rintro ⟨t, h1, h2, h3⟩
      refine ⟨t, h1, h2, ?_⟩
      rcases h3 with h3 | ⟨h3, rfl⟩ <;> simp [h3]
  · rw [hmd]
    simp [Metadata.getMtime, Metadata.ofUnixFs]

/-! ### Wrapped node data -/

/-- Wrapping a block whose data is not present-but-empty gives the block back, and compares equal to exactly the data. -/
theorem C61_wrapped (block other : Bytes) (n : NodeData) (h : wrapNodeData block = .ok n) :
    n.intoInner = block ∧ ∃ d, dagNodeData block = .ok d ∧ n.eq other = .ok (d.getD [] == other) := by
  rcases C05_wrap_partial block with ⟨e, h1, -⟩ | ⟨n', d, h1, h2, h3, h4⟩ | ⟨h1, -⟩
  · rw [h] at h1; cases h1
  · rw [h] at h1
    cases h1
    refine ⟨h3, d, h2, ?_⟩
    simp [NodeData.eq, h4]
  · rw [h] at h1; cases h1

example : ∃ n, wrapNodeData [0x12, 0x00, 0x0a, 0x02, 7, 8, 0x12, 0x00] = .ok n ∧ n.eq [7, 8] = .ok true ∧ n.eq [7] = .ok false :=
  ⟨_, rfl, by decide, by decide⟩

/-! ### Sources of errors -/

/-- A parsing error is the source of the error by which an operation reports it, and a link error that of a failed visit. -/
theorem C61_sources (block needle : Bytes) (target : Option Rng) (e : PbError) :
    (PBNode.tryFrom block = .error e → ∃ x y, (IdleFileVisit.mk target).start block = .err x ∧ x.source = some (.protobuf e) ∧
      (resolve block needle none).1 = .err y ∧ y.source = some (.protobuf e)) ∧
    (∀ l : LookupError, l.intoResolveError = .Lookup l ∧ l.intoResolveError.source = l.source) := by
  constructor
  · intro h
    have hm : FlatUnixFs.tryParse block = .error (.InvalidDagPb e) := by
      simp [FlatUnixFs.tryParse, h]
    refine ⟨.Read (some e), .Read e, ?_, rfl, ?_, rfl⟩
    · simp [IdleFileVisit.start, FileReader.fromBlock, hm, FileReadFailed.ofParsing]
    · simp [resolve, hm]
  · intro l
    refine ⟨rfl, ?_⟩
    cases l with
    | Read e => cases e <;> rfl
    | _ => rfl

/-! ### Options -/

/-- The options used in the examples of the builder are those a caller can make with the setters. -/
example : ({} : TreeOptions).setWrapWithDirectory = wrapping := rfl
example : (({} : TreeOptions).setBlockSizeLimit none).block_size_limit = none := rfl

end Verif.Props
