import Verif.Spec.Listing
import Verif.Spec.Stores
import Verif.Props.WalkTrees
/-
C72: the example program `get`.
-/
namespace Verif.Props
open Verif Verif.Spec Verif.Examples

/-- What `get` does with the items of a walk: lines for each, and the end at a symlink whose target is not UTF-8. -/
def render : List ContinuedWalk → List Line × Res GetError Unit
  | [] => ([], .ok ())
  | item :: items =>
    match getItem item with
    | .ok lines => (lines ++ (render items).1, (render items).2)
    | .err e => ([], .err e)
    | .panic p => ([], .panic p)

theorem getLoop_walk {get : Cid → Option Bytes} (w : Walker) (cache) (r) (h : walkFrom get w cache = some r) :
    ∀ items, r = .ok items → ∀ out, getLoop get out w cache = some (out ++ (render items).1, (render items).2) := by
  refine walkFrom.partial_correctness get (fun w cache r => ∀ items, r = .ok items → ∀ out,
    getLoop get out w cache = some (out ++ (render items).1, (render items).2)) ?_ w cache r h
  intro rec ih w cache r hr items hi out
  subst hi
  rw [getLoop.eq_1]
  by_cases hs : w.shouldContinue = false
  · rw [if_pos hs] at hr
    rw [if_pos hs]
    simp only [Option.some.injEq, Res.ok.injEq] at hr
    subst hr
    simp [render]
  · rw [if_neg hs] at hr
    rw [if_neg hs]
    cases hp : w.pendingLinks with
    | panic p => rw [hp] at hr; cases hr
    | err e => rw [hp] at hr; cases hr
    | ok fl =>
      obtain ⟨first, rest⟩ := fl
      rw [hp] at hr
      simp only at hr ⊢
      cases hg : get first with
      | none => rw [hg] at hr; cases hr
      | some block =>
        rw [hg] at hr
        simp only at hr ⊢
        rcases hst : w.step block cache with ⟨a, w', cache'⟩
        rw [hst] at hr
        cases a with
        | panic p => cases hr
        | err e => cases hr
        | ok item =>
          simp only at hr ⊢
          cases hrec : rec w' cache' with
          | none => rw [hrec] at hr; cases hr
          | some r' =>
            rw [hrec] at hr
            simp only [bind, Option.bind, Option.some.injEq] at hr
            cases r' with
            | panic p => cases hr
            | err e => cases hr
            | ok items' =>
              simp only [Res.map, Res.ok.injEq] at hr
              subst hr
              have h1 := ih w' cache' _ hrec items' rfl
              unfold render
              cases hi : getItem item with
              | panic p => simp
              | err e => simp
              | ok lines => simp only []; rw [h1]; simp

/-- The lines for an item, whatever the target of a symlink is. -/
def linesOf : ContinuedWalk → List Line
  | .Bucket _ _ => []
  | .File segment _ path metadata size =>
    if segment.isLast then [.f (permissions 0o644 metadata) (seconds metadata) size path] else []
  | .Directory _ path metadata | .RootDirectory _ path metadata => [.d (permissions 0o755 metadata) (seconds metadata) path]
  | .Symlink bytes _ path metadata => [.s (permissions 0o755 metadata) (seconds metadata) path bytes]

/-- The symlink target in an item. -/
def targetOf : ContinuedWalk → List Bytes
  | .Symlink bytes _ _ _ => [bytes]
  | _ => []

theorem modeOr_eq (d : Nat) (m : Metadata) : modeOr d m = permissions d m := by
  unfold modeOr permissions
  exact Nat.and_two_pow_sub_one_eq_mod _ 12

theorem secondsOf_eq (m : Metadata) : secondsOf m = seconds m := by
  unfold secondsOf seconds
  cases m.mtime with
  | none => rfl
  | some p => rfl

theorem getItem_eq (item : ContinuedWalk) :
    ((∀ t ∈ targetOf item, validUtf8 t = true) → getItem item = .ok (linesOf item)) ∧
    ((∃ t ∈ targetOf item, validUtf8 t = false) → getItem item = .panic .exampleUtf8) := by
  cases item with
  | Bucket c p => exact ⟨fun _ => rfl, fun ⟨t, h, _⟩ => by cases h⟩
  | File s c p m z =>
    refine ⟨fun _ => ?_, fun ⟨t, h, _⟩ => by cases h⟩
    simp only [getItem, linesOf, modeOr_eq, secondsOf_eq]
    split <;> rfl
  | Directory c p m => exact ⟨fun _ => by simp only [getItem, linesOf, modeOr_eq, secondsOf_eq], fun ⟨t, h, _⟩ => by cases h⟩
  | RootDirectory c p m => exact ⟨fun _ => by simp only [getItem, linesOf, modeOr_eq, secondsOf_eq], fun ⟨t, h, _⟩ => by cases h⟩
  | Symlink b c p m =>
    constructor
    · intro h
      have := h b (by simp [targetOf])
      simp [getItem, linesOf, modeOr_eq, secondsOf_eq, this]
    · rintro ⟨t, h, hv⟩
      simp only [targetOf, List.mem_singleton] at h
      subst h
      simp [getItem, hv]

theorem renderLines_ok (items : List ContinuedWalk) (h : ∀ t ∈ items.flatMap targetOf, validUtf8 t = true) :
    render items = (items.flatMap linesOf, .ok ()) := by
  induction items with
  | nil => rfl
  | cons item items ih =>
    have h1 := (getItem_eq item).1 (fun t ht => h t (by simp [ht]))
    have h2 := ih (fun t ht => h t (by rw [List.flatMap_cons]; exact List.mem_append_right _ ht))
    rw [render, h1, h2]
    simp

theorem render_panic (items : List ContinuedWalk) (h : ∃ t ∈ items.flatMap targetOf, validUtf8 t = false) :
    ∃ before item after, items = before ++ item :: after ∧ (∀ t ∈ before.flatMap targetOf, validUtf8 t = true) ∧
      (∃ t ∈ targetOf item, validUtf8 t = false) ∧ render items = (before.flatMap linesOf, .panic .exampleUtf8) := by
  induction items with
  | nil => obtain ⟨t, h, _⟩ := h; cases h
  | cons item items ih =>
    by_cases hb : ∃ t ∈ targetOf item, validUtf8 t = false
    · refine ⟨[], item, items, rfl, by simp, hb, ?_⟩
      rw [render, (getItem_eq item).2 hb]
      rfl
    · have hall : ∀ t ∈ targetOf item, validUtf8 t = true := by
        intro t ht
        cases hv : validUtf8 t with
        | true => rfl
        | false => exact absurd ⟨t, ht, hv⟩ hb
      have h' : ∃ t ∈ items.flatMap targetOf, validUtf8 t = false := by
        obtain ⟨t, ht, hv⟩ := h
        rw [List.flatMap_cons, List.mem_append] at ht
        rcases ht with ht | ht
        · exact absurd ⟨t, ht, hv⟩ hb
        · exact ⟨t, ht, hv⟩
      obtain ⟨before, it, after, e, h1, h2, h3⟩ := ih h'
      refine ⟨item :: before, it, after, by rw [e]; rfl, ?_, h2, ?_⟩
      · intro t ht
        rw [List.flatMap_cons, List.mem_append] at ht
        rcases ht with ht | ht
        · exact hall t ht
        · exact h1 t ht
      · rw [render, (getItem_eq item).1 hall, h3]
        simp

/-! ### the items of a tree -/

theorem segments_lines (c : Cid) (path : PathBuf) (md : Metadata) (n : Nat) : ∀ (ps : List Bytes) (first : Bool), ps ≠ [] →
    ((segments first ps).map (fun s => ContinuedWalk.File s c path md n)).flatMap linesOf =
      [.f (permissions 0o644 md) (seconds md) n path]
  | [], _, h => absurd rfl h
  | [p], first, _ => by simp [segments, linesOf, FileSegment.isLast]
  | p :: q :: ps, first, _ => by
    have := segments_lines c path md n (q :: ps) false (by simp)
    rw [segments, List.map_cons, List.flatMap_cons, this]
    simp [linesOf, FileSegment.isLast]

theorem segments_targets (c : Cid) (path : PathBuf) (md : Metadata) (n : Nat) (l : List FileSegment) :
    (l.map (fun s => ContinuedWalk.File s c path md n)).flatMap targetOf = [] := by
  induction l with
  | nil => rfl
  | cons a l ih => rw [List.map_cons, List.flatMap_cons, ih]; rfl

theorem pieces_ne' : ∀ t : FTree, t.pieces ≠ []
  | .leaf _ => by simp [FTree.pieces]
  | .node _ => by simp [FTree.pieces]

mutual
theorem items_lines (parent : List Bytes) : ∀ t : FsTree, (t.items parent).flatMap linesOf = t.listing parent
  | .file e t => by
    rw [FsTree.items, FsTree.listing]
    exact segments_lines _ _ _ _ _ _ (pieces_ne' t)
  | .symlink e target => by simp [FsTree.items, FsTree.listing, linesOf]
  | .dir e kids => by
    rw [FsTree.items, FsTree.listing, List.flatMap_cons, itemsL_lines _ kids]; rfl
  | .sharded e kids => by
    rw [FsTree.items, FsTree.listing, List.flatMap_cons, itemsL_lines _ kids]; rfl
  | .bucket c kids => by
    rw [FsTree.items, FsTree.listing, List.flatMap_cons, itemsL_lines _ kids]; rfl
theorem itemsL_lines (parent : List Bytes) : ∀ ts : List FsTree, (FsTree.itemsL parent ts).flatMap linesOf = FsTree.listingL parent ts
  | [] => rfl
  | t :: ts => by
    rw [FsTree.itemsL, FsTree.listingL, List.flatMap_append, items_lines parent t, itemsL_lines parent ts]
end

mutual
theorem items_targets (parent : List Bytes) : ∀ t : FsTree, (t.items parent).flatMap targetOf = t.targets
  | .file e t => by
    rw [FsTree.items, FsTree.targets]
    exact segments_targets _ _ _ _ _
  | .symlink e target => by simp [FsTree.items, FsTree.targets, targetOf]
  | .dir e kids => by
    rw [FsTree.items, FsTree.targets, List.flatMap_cons, itemsL_targets _ kids]; rfl
  | .sharded e kids => by
    rw [FsTree.items, FsTree.targets, List.flatMap_cons, itemsL_targets _ kids]; rfl
  | .bucket c kids => by
    rw [FsTree.items, FsTree.targets, List.flatMap_cons, itemsL_targets _ kids]; rfl
theorem itemsL_targets (parent : List Bytes) : ∀ ts : List FsTree, (FsTree.itemsL parent ts).flatMap targetOf = FsTree.targetsL ts
  | [] => rfl
  | t :: ts => by
    rw [FsTree.itemsL, FsTree.targetsL, List.flatMap_append, items_targets parent t, itemsL_targets parent ts]
end

theorem walkItems_flatMap {β : Type} (f : ContinuedWalk → List β) (hf : ∀ c p m, f (.Directory c p m) = f (.RootDirectory c p m)) (t : FsTree) :
    t.walkItems.flatMap f = (t.items []).flatMap f := by
  unfold FsTree.walkItems
  cases h : t.items [] with
  | nil => rfl
  | cons i is =>
    cases i <;> simp [hf]

theorem flatMap_map_bucket {β : Type} (f : ContinuedWalk → List β) (hf : ∀ c c' p, f (.Bucket c p) = f (.Bucket c' p)) (cid : Cid)
    (l : List ContinuedWalk) : (l.map (withBucketCid cid)).flatMap f = l.flatMap f := by
  induction l with
  | nil => rfl
  | cons a l ih =>
    rw [List.map_cons, List.flatMap_cons, List.flatMap_cons, ih]
    cases a with
    | Bucket c p => simp only [withBucketCid]; rw [hf cid c]
    | _ => rfl

theorem rootCids_flatMap {β : Type} (f : ContinuedWalk → List β) (hf : ∀ c c' p, f (.Bucket c p) = f (.Bucket c' p)) (cid : Cid)
    (items : List ContinuedWalk) : (rootCids cid items).flatMap f = items.flatMap f := by
  cases items with
  | nil => rfl
  | cons i is =>
    rw [rootCids]
    simp only [List.cons_append, List.flatMap_cons, List.flatMap_append]
    rw [flatMap_map_bucket f hf, ← List.flatMap_append, List.takeWhile_append_dropWhile]

/-! ### C72 -/

/-- `get` of a well-formed tree writes one line for every directory, file and symlink, depth first in the order of links, with its
path, permissions, modification time, size and target. (The condition on buckets is that of C47: else the walker panics.) -/
theorem C72_get (get : Cid → Option Bytes) (t : FsTree) (hat : FsAt get t) (ht : t.Named) (hname : t.name = [])
    (hb : ¬ DirThenBucket t.walkItems) (hutf : ∀ x ∈ t.targets, validUtf8 x = true) :
    getWalk get t.cid = some (t.listing [], .ok ()) := by
  have h := (C45_tree_partial get t none hat ht (by rw [hname]; simp) (by intro k h; cases h)).1 hb
  rw [hname] at h
  have h1 := getLoop_walk _ _ _ h _ rfl []
  unfold getWalk
  rw [h1, renderLines_ok, List.nil_append]
  · rw [rootCids_flatMap linesOf (fun _ _ _ => rfl), walkItems_flatMap linesOf (fun _ _ _ => rfl), items_lines]
  · rw [rootCids_flatMap targetOf (fun _ _ _ => rfl), walkItems_flatMap targetOf (fun _ _ _ => rfl), items_targets]
    exact hutf

/-- If however a symlink's target is not UTF-8, `get` panics, having written the lines for everything before the first such
symlink. -/
theorem C72_not_utf8 (get : Cid → Option Bytes) (t : FsTree) (hat : FsAt get t) (ht : t.Named) (hname : t.name = [])
    (hb : ¬ DirThenBucket t.walkItems) (hutf : ∃ x ∈ t.targets, validUtf8 x = false) :
    ∃ lines, getWalk get t.cid = some (lines, .panic .exampleUtf8) ∧
      ∃ mode sec path target after, t.listing [] = lines ++ .s mode sec path target :: after ∧ validUtf8 target = false ∧
        ∀ mode sec path target, .s mode sec path target ∈ lines → validUtf8 target = true := by
  have h := (C45_tree_partial get t none hat ht (by rw [hname]; simp) (by intro k h; cases h)).1 hb
  rw [hname] at h
  have h1 := getLoop_walk _ _ _ h _ rfl []
  have hl : (rootCids t.cid t.walkItems).flatMap linesOf = t.listing [] := by
    rw [rootCids_flatMap linesOf (fun _ _ _ => rfl), walkItems_flatMap linesOf (fun _ _ _ => rfl), items_lines]
  have hts : (rootCids t.cid t.walkItems).flatMap targetOf = t.targets := by
    rw [rootCids_flatMap targetOf (fun _ _ _ => rfl), walkItems_flatMap targetOf (fun _ _ _ => rfl), items_targets]
  obtain ⟨before, item, after, e, h2, ⟨x, hx, hv⟩, h3⟩ := render_panic (rootCids t.cid t.walkItems) (by rw [hts]; exact hutf)
  unfold getWalk
  rw [h1, h3]
  refine ⟨before.flatMap linesOf, rfl, ?_⟩
  rw [← hl, e, List.flatMap_append, List.flatMap_cons]
  cases item with
  | Symlink b c p m =>
    simp only [targetOf, List.mem_singleton] at hx
    subst hx
    refine ⟨_, _, _, _, _, rfl, hv, ?_⟩
    intro mode sec path target hm
    obtain ⟨i, hi, him⟩ := List.mem_flatMap.1 hm
    have : target ∈ targetOf i := by
      cases i with
      | Symlink b' c' p' m' =>
        simp only [linesOf, List.mem_singleton, Line.s.injEq] at him
        simp [targetOf, him]
      | File s' c' p' m' z' => simp only [linesOf] at him; split at him <;> simp at him
      | _ => simp [linesOf] at him
    exact h2 target (List.mem_flatMap.2 ⟨i, hi, this⟩)
  | Bucket c p => cases hx
  | File s c p m z => cases hx
  | Directory c p m => cases hx
  | RootDirectory c p m => cases hx

theorem getLoop_part {part full : Cid → Option Bytes} (hpart : PartOf part full) (out : List Line) (w : Walker) (cache) (r)
    (h : getLoop full out w cache = some r) :
    out <+: r.1 ∧ (getLoop part out w cache = some r ∨
      ∃ out', getLoop part out w cache = some (out', .err .OpeningFailed) ∧ out' <+: r.1 ∧ out <+: out') := by
  refine getLoop.partial_correctness full (fun out w cache r => out <+: r.1 ∧ (getLoop part out w cache = some r ∨
      ∃ out', getLoop part out w cache = some (out', .err .OpeningFailed) ∧ out' <+: r.1 ∧ out <+: out')) ?_ out w cache r h
  intro rec ih out w cache r hr
  rw [getLoop.eq_1 part]
  by_cases hs : w.shouldContinue = false
  · rw [if_pos hs] at hr
    rw [if_pos hs]
    simp only [Option.some.injEq] at hr
    subst hr
    exact ⟨List.prefix_refl _, .inl rfl⟩
  · rw [if_neg hs] at hr
    rw [if_neg hs]
    cases hp : w.pendingLinks with
    | panic p => rw [hp] at hr; simp only [Option.some.injEq] at hr; subst hr; exact ⟨List.prefix_refl _, .inl rfl⟩
    | err e => rw [hp] at hr; simp only [Option.some.injEq] at hr; subst hr; exact ⟨List.prefix_refl _, .inl rfl⟩
    | ok fl =>
      obtain ⟨first, rest⟩ := fl
      rw [hp] at hr
      simp only at hr ⊢
      cases hf : full first with
      | none =>
        rw [hf] at hr
        simp only [Option.some.injEq] at hr
        subst hr
        have hn : part first = none := by
          cases hq : part first with
          | none => rfl
          | some b => rw [hpart _ _ hq] at hf; cases hf
        rw [hn]
        exact ⟨List.prefix_refl _, .inl rfl⟩
      | some block =>
        rw [hf] at hr
        simp only at hr
        rcases hst : w.step block cache with ⟨a, w', cache'⟩
        rw [hst] at hr
        have key : out <+: r.1 ∧ (∀ b, part first = some b → (match w.step b cache with
            | (.panic p, _, _) => some (out, .panic p)
            | (.err e, _, _) => some (out, .err (.Walk e))
            | (.ok item, walker, cache) =>
              match getItem item with
              | .panic p => some (out, .panic p)
              | .err e => some (out, .err e)
              | .ok lines => getLoop part (out ++ lines) walker cache) = some r ∨
            ∃ out', (match w.step b cache with
            | (.panic p, _, _) => some (out, .panic p)
            | (.err e, _, _) => some (out, .err (.Walk e))
            | (.ok item, walker, cache) =>
              match getItem item with
              | .panic p => some (out, .panic p)
              | .err e => some (out, .err e)
              | .ok lines => getLoop part (out ++ lines) walker cache) = some (out', .err .OpeningFailed) ∧ out' <+: r.1 ∧ out <+: out') := by
          cases a with
          | panic p =>
            simp only [Option.some.injEq] at hr
            subst hr
            refine ⟨List.prefix_refl _, fun b hb => ?_⟩
            rw [hpart _ _ hb] at hf; cases hf
            rw [hst]; exact .inl rfl
          | err e =>
            simp only [Option.some.injEq] at hr
            subst hr
            refine ⟨List.prefix_refl _, fun b hb => ?_⟩
            rw [hpart _ _ hb] at hf; cases hf
            rw [hst]; exact .inl rfl
          | ok item =>
            simp only at hr
            cases hi : getItem item with
            | panic p =>
              rw [hi] at hr
              simp only [Option.some.injEq] at hr
              subst hr
              refine ⟨List.prefix_refl _, fun b hb => ?_⟩
              rw [hpart _ _ hb] at hf; cases hf
              rw [hst]; simp only [hi]; exact .inl trivial
            | err e =>
              rw [hi] at hr
              simp only [Option.some.injEq] at hr
              subst hr
              refine ⟨List.prefix_refl _, fun b hb => ?_⟩
              rw [hpart _ _ hb] at hf; cases hf
              rw [hst]; simp only [hi]; exact .inl trivial
            | ok lines =>
              rw [hi] at hr
              simp only at hr
              have h1 := ih _ _ _ _ hr
              have hpre : out <+: out ++ lines := List.prefix_append _ _
              refine ⟨hpre.trans h1.1, fun b hb => ?_⟩
              rw [hpart _ _ hb] at hf; cases hf
              rw [hst]
              simp only [hi]
              rcases h1.2 with h2 | ⟨s', h2, h3, h4⟩
              · exact .inl h2
              · exact .inr ⟨s', h2, h3, hpre.trans h4⟩
        refine ⟨key.1, ?_⟩
        cases hq : part first with
        | none => exact .inr ⟨out, rfl, key.1, List.prefix_refl _⟩
        | some b => exact key.2 b hq

/-- Whatever the blocks are: if some of them are missing, `get` does the same as with all of them, or it writes some of the first
lines of that and reports that a block could not be opened. -/
theorem C72_missing (part full : Cid → Option Bytes) (hpart : PartOf part full) (start : Cid) (r)
    (h : getWalk full start = some r) :
    getWalk part start = some r ∨ ∃ lines, getWalk part start = some (lines, .err .OpeningFailed) ∧ lines <+: r.1 := by
  rcases (getLoop_part hpart [] (Walker.new start []) none r h).2 with h1 | ⟨s, h1, h2, _⟩
  · exact .inl h1
  · exact .inr ⟨s, h1, h2⟩

/-- The sample tree as an unnamed root: a file, a sharded directory with a symlink in a bucket, an empty directory. -/
def sampleRoot : FsTree :=
  .dir ⟨cidN 0, [], { mode := some 0o755 }⟩ [
    .file ⟨cidN 1, [97], {}⟩ (.node [.leaf [1, 2], .leaf [3]]),
    .sharded ⟨cidN 4, [115], {}⟩ [.bucket (cidN 5) [.symlink ⟨cidN 6, [108], {}⟩ [46, 46]]],
    .dir ⟨cidN 7, [100], { mode := some 0o755 }⟩ []]

theorem sampleRoot_at : FsAt (storeN sampleFsBlocks) sampleRoot := by
  have h := sampleFs_at
  unfold sampleFs at h
  unfold sampleRoot
  simp only [FsAt] at h ⊢
  exact h

example : getWalk (storeN sampleFsBlocks) (cidN 0) = some ([
    .d 0o755 0 ⟨false, []⟩, .f 0o644 0 3 ⟨false, [[97]]⟩, .d 0o755 0 ⟨false, [[115]]⟩,
    .s 0o755 0 ⟨false, [[115], [108]]⟩ [46, 46], .d 0o755 0 ⟨false, [[100]]⟩], .ok ()) := by
  refine C72_get _ sampleRoot sampleRoot_at trivial rfl ?_ (by decide +kernel)
  rw [show sampleRoot.walkItems = _ :: _ from rfl, ← bad_iff]
  decide +kernel

/-- A symlink to a byte which is not UTF-8: the program panics. -/
example : getWalk (storeN [(0, ⟨[], { Ty := .Symlink, Data := some [0xFF] }⟩)]) (cidN 0) = some ([], .panic .exampleUtf8) := by
  have hs : storeN [(0, ⟨[], { Ty := .Symlink, Data := some [0xFF] }⟩)] (cidN 0) =
      some (FlatUnixFs.mk [] { Ty := .Symlink, Data := some [0xFF] }).write := by decide +kernel
  have hp : FlatUnixFs.tryParse (FlatUnixFs.mk [] { Ty := .Symlink, Data := some [0xFF] }).write =
      .ok ⟨[], { Ty := .Symlink, Data := some [0xFF] }⟩ := by decide +kernel
  have hat : FsAt (storeN [(0, ⟨[], { Ty := .Symlink, Data := some [0xFF] }⟩)]) (.symlink ⟨cidN 0, [], {}⟩ [0xFF]) := by
    simp only [FsAt]
    exact ⟨_, _, hs, hp, rfl, rfl, rfl⟩
  obtain ⟨lines, h, mode, sec, path, target, after, h1, _⟩ := C72_not_utf8 _ (.symlink ⟨cidN 0, [], {}⟩ [0xFF]) hat trivial rfl
    (by rintro ⟨before, d, b, after, h, _⟩; rcases before with _ | ⟨_, _ | _⟩ <;> simp [FsTree.walkItems, FsTree.items] at h)
    ⟨[0xFF], by simp [FsTree.targets], by decide⟩
  have : lines = [] := by
    cases lines with
    | nil => rfl
    | cons a l => simp [FsTree.listing] at h1
  rw [this] at h
  exact h

end Verif.Props
