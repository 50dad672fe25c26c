import Verif.Props.ReleasePanics
import Verif.Props.Build
/-
C69: paths and sizes reported by release builds.
-/
namespace Verif.Props
open Verif Verif.Spec

/-! ### Running the clients for a number of steps -/

/-- `walkFromR` for at most `n` blocks. -/
def walkFuelR (get : Cid → Option Bytes) : Nat → Walker → Option VisitCache → Option (Res WalkFail (List ContinuedWalk))
  | 0, _, _ => none
  | n + 1, w, cache =>
    if w.shouldContinue = false then some (.ok [])
    else match w.pendingLinks with
    | .panic p => some (.panic p)
    | .err () => some (.err .noLinks)
    | .ok (first, _) =>
      match get first with
      | none => some (.err (.missing first))
      | some block =>
        match w.stepR block cache with
        | (.panic p, _, _) => some (.panic p)
        | (.err e, _, _) => some (.err (.failed e))
        | (.ok item, w', cache') => (walkFuelR get n w' cache').map (·.map (fun items => item :: items))

theorem walkFromR_of_fuel (get : Cid → Option Bytes) : ∀ (n : Nat) (w : Walker) (cache : Option VisitCache)
    (r : Res WalkFail (List ContinuedWalk)), walkFuelR get n w cache = some r → walkFromR get w cache = some r
  | 0, _, _, _, h => by cases h
  | n + 1, w, cache, r, h => by
    rw [walkFuelR] at h
    rw [walkFromR]
    cases hs : w.shouldContinue with
    | false => rw [hs] at h; exact h
    | true =>
      rw [hs] at h
      simp only [Bool.true_eq_false, if_false] at h ⊢
      cases hp : w.pendingLinks with
      | panic p => rw [hp] at h; exact h
      | err e => rw [hp] at h; exact h
      | ok q =>
        obtain ⟨first, _⟩ := q
        rw [hp] at h
        dsimp only at h ⊢
        cases hg : get first with
        | none => rw [hg] at h; exact h
        | some block =>
          rw [hg] at h
          dsimp only at h ⊢
          generalize w.stepR block cache = s at h ⊢
          obtain ⟨x, w', cache'⟩ := s
          cases x with
          | panic p => exact h
          | err e => exact h
          | ok item =>
            dsimp only at h ⊢
            cases hw : walkFuelR get n w' cache' with
            | none => rw [hw] at h; cases h
            | some y =>
              rw [hw] at h
              rw [walkFromR_of_fuel get n w' cache' y hw]
              exact h

/-- `nextR` in at most `n` rounds. -/
def nextFuelR (sha : Bytes → Bytes) : Nat → PostOrderIterator → Option (IterNext × PostOrderIterator)
  | 0, _ => none
  | n + 1, it => match it.stepR sha with
    | .continue it => nextFuelR sha n it
    | .item it node => some (.item node, it)
    | .failed it e => some (.failed e, it)
    | .done it => some (.finished, it)
    | .panic p => some (.panic p, it)

theorem nextR_of_fuel (sha : Bytes → Bytes) : ∀ (n : Nat) (it : PostOrderIterator) (r : IterNext × PostOrderIterator),
    nextFuelR sha n it = some r → it.nextR sha = some r
  | 0, _, _, h => by cases h
  | n + 1, it, r, h => by
    rw [nextFuelR] at h
    rw [nextR_eq]
    cases hs : it.stepR sha with
    | «continue» it' => rw [hs] at h; exact nextR_of_fuel sha n it' r h
    | item a b => rw [hs] at h; exact h
    | failed a b => rw [hs] at h; exact h
    | done a => rw [hs] at h; exact h
    | panic p => rw [hs] at h; exact h

/-! ### Paths -/

/-- A directory of symlinks with these links and names in the store. -/
def SymlinksAt (get : Cid → Option Bytes) (cid : Cid) (names : List Bytes) : Prop :=
  ∃ b m, get cid = some b ∧ FlatUnixFs.tryParse b = .ok m ∧ DirNode m ∧ m.links.map (·.Name) = names.map some ∧
    ∀ l ∈ m.links, ∃ c b' m', Cid.tryFrom (l.Hash.getD []) = .ok c ∧ get c = some b' ∧ FlatUnixFs.tryParse b' = .ok m' ∧
      m'.data.Ty = .Symlink

/-- The full claim: in a release build, every entry of a directory is reported with the path of the directory joined with its name. -/
def C69_paths_full : Prop :=
  ∀ (get : Cid → Option Bytes) (cid : Cid) (name : Bytes) (names : List Bytes), GoodName name →
    (∀ n ∈ names, n ≠ [] ∧ slash ∉ n ∧ validUtf8 n = true) → SymlinksAt get cid names →
    ∃ items, walkFromR get (Walker.new cid name) none = some (.ok items) ∧
      items.map pathOf = PathBuf.push {} name :: names.map (PathBuf.push (PathBuf.push {} name))

/-- A directory with a symlink called `.` and one called `x`. -/
def dotBlocks : List (UInt8 × FlatUnixFs) :=
  [(0, dirMsg [linkN 1 dot, linkN 2 [120]]), (1, ⟨[], { Ty := .Symlink, Data := some [46] }⟩), (2, ⟨[], { Ty := .Symlink, Data := some [46] }⟩)]

theorem dotBlocks_stored : ∀ e ∈ dotBlocks, storeN dotBlocks (cidN e.1) = some e.2.write ∧
    (FlatUnixFs.tryParse e.2.write).toOption = some e.2 := by decide +kernel

/-- Walking it as `r` reports the paths `r`, `r/.`, and for `r/x` the path `x`. -/
theorem C69_dot : ∃ items, walkFromR (storeN dotBlocks) (Walker.new (cidN 0) [114]) none = some (.ok items) ∧
    items.map pathOf = [⟨false, [[114]]⟩, ⟨false, [[114]]⟩, ⟨false, [[120]]⟩] := by
  have h : ((walkFuelR (storeN dotBlocks) 4 (Walker.new (cidN 0) [114]) none).map (fun r => match r with
      | .ok items => some (items.map pathOf)
      | _ => none)) = some (some [⟨false, [[114]]⟩, ⟨false, [[114]]⟩, ⟨false, [[120]]⟩]) := by decide +kernel
  cases hw : walkFuelR (storeN dotBlocks) 4 (Walker.new (cidN 0) [114]) none with
  | none => rw [hw] at h; cases h
  | some r =>
    rw [hw] at h
    cases r with
    | ok items => exact ⟨items, walkFromR_of_fuel _ _ _ _ _ hw, by simpa using h⟩
    | err e => simp at h
    | panic p => simp at h

theorem C69_paths_full_false : ¬ C69_paths_full := by
  intro h
  have g := fun i : Fin 3 => stored dotBlocks_stored i
  obtain ⟨items, h1, h2⟩ := h (storeN dotBlocks) (cidN 0) [114] [dot, [120]] (goodName_single (by decide)) (by decide)
    ⟨_, _, (g 0).1, (g 0).2, dirNode_msg _, rfl, by
      intro l hl
      have hl' : l = linkN 1 dot ∨ l = linkN 2 [120] := by
        have : l ∈ [linkN 1 dot, linkN 2 [120]] := hl
        simpa using this
      rcases hl' with rfl | rfl
      · exact ⟨cidN 1, _, _, by decide +kernel, (g 1).1, (g 1).2, rfl⟩
      · exact ⟨cidN 2, _, _, by decide +kernel, (g 2).1, (g 2).2, rfl⟩⟩
  obtain ⟨items', h3, h4⟩ := C69_dot
  rw [h3] at h1
  cases h1
  rw [h4] at h2
  revert h2
  decide

/-- In any tree whose entries all have names other than `.`, the paths are right: a release build reports exactly the items of the
tree, with the exceptions of `C45_tree_partial`. -/
theorem C69_paths_partial (get : Cid → Option Bytes) (t : FsTree) (cache : Option VisitCache) (hat : FsAt get t) (ht : t.Named)
    (hname : slash ∉ t.name) (hc : ∀ k, cache = some k → CacheObtainable k) :
    (¬ DirThenBucket t.walkItems → walkFromR get (Walker.new t.cid t.name) cache = some (.ok (rootCids t.cid t.walkItems))) ∧
    (DirThenBucket t.walkItems → walkFromR get (Walker.new t.cid t.name) cache = some (.panic .walkBucketKind)) := by
  rw [C67_walk_wellformed get t cache hat ht hname hc]
  exact C45_tree_partial get t cache hat ht hname hc

/-! ### Sizes -/

/-- The full claim: the total size of a directory built by a release build is the size of its block and the total sizes of its entries. -/
def C69_sizes_full : Prop :=
  ∀ (sha : Bytes → Bytes) (_ : ∀ b, (sha b).length = 32) (ops : List Op) (_ : ∀ op ∈ ops, op.Ok) (x : TreeNode) (it : PostOrderIterator)
    (m : FlatUnixFs), PostOrderIterator.nextR sha (runOps (.new wrapping) ops).2.build = some (.item x, it) →
    FlatUnixFs.tryParse x.block = .ok m → x.total_size = x.block.length + (m.links.map (fun l => l.Tsize.getD 0)).sum

/-- Two links of total size 2^63 each. -/
def heavyOps : List Op := [.putLink [97] (cidN 0) (2 ^ 63), .putLink [98] (cidN 1) (2 ^ 63)]

theorem C69_heavy : ∃ x it m, PostOrderIterator.nextR toySha (runOps (.new wrapping) heavyOps).2.build = some (.item x, it) ∧
    FlatUnixFs.tryParse x.block = .ok m ∧ x.total_size = x.block.length ∧
    (m.links.map (fun l => l.Tsize.getD 0)).sum = U64 := by
  have h : ((nextFuelR toySha 3 (runOps (.new wrapping) heavyOps).2.build).map (fun r => match r.1 with
      | .item x => (decide (x.total_size = x.block.length), (FlatUnixFs.tryParse x.block).toOption.map
          (fun m => (m.links.map (fun l => l.Tsize.getD 0)).sum))
      | _ => (false, none))) = some (true, some U64) := by decide +kernel
  cases hw : nextFuelR toySha 3 (runOps (.new wrapping) heavyOps).2.build with
  | none => rw [hw] at h; cases h
  | some r =>
    obtain ⟨r, it⟩ := r
    rw [hw] at h
    cases r with
    | item x =>
      simp only [Option.map_some, Option.some.injEq, Prod.mk.injEq, decide_eq_true_eq] at h
      cases hm : FlatUnixFs.tryParse x.block with
      | error e => rw [hm] at h; simp [Except.toOption] at h
      | ok m =>
        rw [hm] at h
        exact ⟨x, it, m, nextR_of_fuel _ _ _ _ hw, hm, h.1, by simpa [Except.toOption] using h.2⟩
    | failed e => simp at h
    | finished => simp at h
    | panic p => simp at h

theorem C69_sizes_full_false : ¬ C69_sizes_full := by
  intro h
  obtain ⟨x, it, m, h1, h2, h3, h4⟩ := C69_heavy
  have := h toySha toySha_length heavyOps (by
    intro op hop
    simp only [heavyOps, List.mem_cons, List.not_mem_nil, or_false] at hop
    rcases hop with rfl | rfl
    · exact ⟨by unfold NameOk; decide, by decide, by decide⟩
    · exact ⟨by unfold NameOk; decide, by decide, by decide⟩) x it m h1 h2
  rw [h3, h4] at this
  simp [U64] at this

end Verif.Props
