import Verif.Spec.Verified
import Verif.Props.Missing
import Verif.Props.EndToEnd
import Verif.Props.BuildExamples
/-
C114: with verified blocks, what a Cid stands for does not depend on the store.
-/
namespace Verif.Props
open Verif Verif.Spec Verif.Examples

/-- Wherever both stores have a block it is the same. -/
def Agree (get get' : Cid → Option Bytes) : Prop := ∀ c b b', get c = some b → get' c = some b' → b = b'

theorem agree_of {sha : Bytes → Bytes} {get get' : Cid → Option Bytes} (h : Verified sha get) (h' : Verified sha get') (hn : NoClash sha get get') :
    Agree get get' := by
  intro c b b' hb hb'
  exact hn c c b b' hb hb' (by rw [← (h c b hb).2, ← (h' c b' hb').2])

/-! ### one loop over two stores -/

theorem readFrom_two {get get' : Cid → Option Bytes} (ha : Agree get get') (v : FileVisit) (x : Res ReadError (Bytes × List Cid)) (h : readFrom get v = some x) :
    SameOrMissing get get' ReadError.missing x (readFrom get' v) := by
  refine readFrom.partial_correctness get (fun v x => SameOrMissing get get' ReadError.missing x (readFrom get' v)) ?_ v x h
  intro rec ih v r h
  rw [readFrom.eq_1]
  cases hp : v.pendingLinks with
  | panic p => simp only [hp] at h ⊢; exact .inl h
  | err e => simp only [hp] at h ⊢; exact .inl h
  | ok fr =>
    obtain ⟨first, rest⟩ := fr
    simp only [hp] at h ⊢
    cases hg : get first with
    | none => rw [hg] at h; cases h; exact .inr (.inr ⟨first, rfl, hg⟩)
    | some block =>
      rw [hg] at h
      simp only at h
      cases hg' : get' first with
      | none => exact .inr (.inl ⟨first, rfl, hg'⟩)
      | some block' =>
        cases ha _ _ _ hg hg'
        simp only
        cases hc : (v.continueWalk block none).1 with
        | panic p => simp only [hc] at h ⊢; exact .inl h
        | err e => simp only [hc] at h ⊢; exact .inl h
        | ok cv =>
          obtain ⟨content, v'⟩ := cv
          simp only [hc] at h ⊢
          cases v' with
          | none => exact .inl h
          | some v' =>
            simp only at h ⊢
            cases hr : rec v' with
            | none => rw [hr] at h; cases h
            | some r' =>
              rw [hr] at h
              cases h
              rcases ih v' r' hr with h1 | ⟨c, h1, h2⟩ | ⟨c, rfl, h2⟩
              · rw [h1]; exact .inl rfl
              · rw [h1]; exact .inr (.inl ⟨c, rfl, h2⟩)
              · exact .inr (.inr ⟨c, rfl, h2⟩)

theorem readFile_two {get get' : Cid → Option Bytes} (ha : Agree get get') (idle : IdleFileVisit) (root : Bytes) (x : Res ReadError (Bytes × List Cid))
    (h : readFile get idle root = some x) : SameOrMissing get get' ReadError.missing x (readFile get' idle root) := by
  unfold readFile at h ⊢
  cases hst : idle.start root with
  | panic p => simp only [hst] at h ⊢; exact .inl h
  | err e => simp only [hst] at h ⊢; exact .inl h
  | ok st =>
    obtain ⟨content, a, b, v⟩ := st
    simp only [hst] at h ⊢
    cases v with
    | none => exact .inl h
    | some v =>
      simp only at h ⊢
      cases hr : readFrom get v with
      | none => rw [hr] at h; cases h
      | some r =>
        rw [hr] at h
        cases h
        rcases readFrom_two ha v r hr with h1 | ⟨c, h1, h2⟩ | ⟨c, rfl, h2⟩
        · rw [h1]; exact .inl rfl
        · rw [h1]; exact .inr (.inl ⟨c, rfl, h2⟩)
        · exact .inr (.inr ⟨c, rfl, h2⟩)

theorem walkLog_two {get get' : Cid → Option Bytes} (ha : Agree get get') (w : Walker) (cache : Option VisitCache) (log : List (Cid × ContinuedWalk))
    (stop : Stop WalkError) (h : walkLog get w cache = some (log, stop)) :
    walkLog get' w cache = some (log, stop) ∨
    (∃ log' c, walkLog get' w cache = some (log', .missing c) ∧ get' c = none ∧ log' <+: log) ∨
    ∃ c, stop = .missing c ∧ get c = none ∧ ∀ log' stop', walkLog get' w cache = some (log', stop') → log <+: log' := by
  refine walkLog.partial_correctness get (fun w cache r => walkLog get' w cache = some r ∨
    (∃ log' c, walkLog get' w cache = some (log', .missing c) ∧ get' c = none ∧ log' <+: r.1) ∨
    ∃ c, r.2 = .missing c ∧ get c = none ∧ ∀ log' stop', walkLog get' w cache = some (log', stop') → r.1 <+: log') ?_
    w cache (log, stop) h
  intro rec ih w cache r h
  rw [walkLog.eq_1]
  by_cases hs : w.shouldContinue = false
  · rw [if_pos hs] at h ⊢; exact .inl h
  rw [if_neg hs] at h ⊢
  cases hp : w.pendingLinks with
  | panic p => simp only [hp] at h ⊢; exact .inl h
  | err e => simp only [hp] at h ⊢; exact .inl h
  | ok fr =>
    obtain ⟨first, rest⟩ := fr
    simp only [hp] at h ⊢
    cases hg : get first with
    | none => rw [hg] at h; cases h; exact .inr (.inr ⟨first, rfl, hg, fun _ _ _ => List.nil_prefix⟩)
    | some block =>
      rw [hg] at h
      simp only at h
      cases hg' : get' first with
      | none => exact .inr (.inl ⟨[], first, rfl, hg', List.nil_prefix⟩)
      | some block' =>
        cases ha _ _ _ hg hg'
        simp only
        cases hc : w.step block cache with
        | mk a wc =>
          obtain ⟨w', cache'⟩ := wc
          simp only [hc] at h ⊢
          cases a with
          | panic p => exact .inl h
          | err e => exact .inl h
          | ok item =>
            simp only at h ⊢
            cases hr : rec w' cache' with
            | none => rw [hr] at h; cases h
            | some r' =>
              rw [hr] at h
              cases h
              rcases ih w' cache' r' hr with h1 | ⟨log', c, h1, h2, h3⟩ | ⟨c, h1, h2, h3⟩
              · rw [h1]; exact .inl rfl
              · rw [h1]; exact .inr (.inl ⟨(first, item) :: log', c, rfl, h2, List.cons_prefix_cons.2 ⟨rfl, h3⟩⟩)
              · refine .inr (.inr ⟨c, h1, h2, ?_⟩)
                intro log' stop' h
                cases hw : walkLog get' w' cache' with
                | none => rw [hw] at h; cases h
                | some r'' =>
                  rw [hw] at h
                  cases h
                  exact List.cons_prefix_cons.2 ⟨rfl, h3 r''.1 r''.2 hw⟩

theorem lookupFrom_two {get get' : Cid → Option Bytes} (ha : Agree get get') (l : ShardedLookup) (cache : Option LookupCache)
    (x : Res LookupFail (Option Cid × List Cid)) (h : lookupFrom get l cache = some x) :
    SameOrMissing get get' LookupFail.missing x (lookupFrom get' l cache) := by
  refine lookupFrom.partial_correctness get (fun l cache x => SameOrMissing get get' LookupFail.missing x (lookupFrom get' l cache)) ?_ l cache x h
  intro rec ih l cache r h
  rw [lookupFrom.eq_1]
  cases hp : l.pendingLinks with
  | panic p => simp only [hp] at h ⊢; exact .inl h
  | err e => simp only [hp] at h ⊢; exact .inl h
  | ok fr =>
    obtain ⟨first, rest⟩ := fr
    simp only [hp] at h ⊢
    cases hg : get first with
    | none => rw [hg] at h; cases h; exact .inr (.inr ⟨first, rfl, hg⟩)
    | some block =>
      rw [hg] at h
      simp only at h
      cases hg' : get' first with
      | none => exact .inr (.inl ⟨first, rfl, hg'⟩)
      | some block' =>
        cases ha _ _ _ hg hg'
        simp only
        cases hc : l.continueWalk block cache with
        | mk a cache' =>
          simp only [hc] at h ⊢
          cases a with
          | panic p => exact .inl h
          | err e => exact .inl h
          | ok m =>
            cases m with
            | Found c => exact .inl h
            | NotFound => exact .inl h
            | NeedToLoadMore l' =>
              simp only at h ⊢
              cases hr : rec l' cache' with
              | none => rw [hr] at h; cases h
              | some r' =>
                rw [hr] at h
                cases h
                rcases ih l' cache' r' hr with h1 | ⟨c, h1, h2⟩ | ⟨c, rfl, h2⟩
                · rw [h1]; exact .inl rfl
                · rw [h1]; exact .inr (.inl ⟨c, rfl, h2⟩)
                · exact .inr (.inr ⟨c, rfl, h2⟩)

theorem lookupName_two {get get' : Cid → Option Bytes} (ha : Agree get get') (block needle : Bytes) (cache : Option LookupCache)
    (x : Res LookupFail (Option Cid × List Cid)) (h : lookupName get block needle cache = some x) :
    SameOrMissing get get' LookupFail.missing x (lookupName get' block needle cache) := by
  unfold lookupName at h ⊢
  cases hc : resolve block needle cache with
  | mk a cache' =>
    simp only [hc] at h ⊢
    cases a with
    | panic p => exact .inl h
    | err e => exact .inl h
    | ok m =>
      cases m with
      | Found c => exact .inl h
      | NotFound => exact .inl h
      | NeedToLoadMore l' => exact lookupFrom_two ha l' cache' x h

/-! ### verified stores -/

/-- Two verified stores give the same for a file, or one of them lacks a block: the root block is the same, -/
theorem C114_block (sha : Bytes → Bytes) (get get' : Cid → Option Bytes) (h : Verified sha get) (h' : Verified sha get') (hn : NoClash sha get get')
    (c c' : Cid) (hc : c.digest = c'.digest) (b b' : Bytes) (hb : get c = some b) (hb' : get' c' = some b') : b = b' :=
  hn c c' b b' hb hb' (by rw [← (h c b hb).2, ← (h' c' b' hb').2, hc])

/-- and so is what is read from it, any part of it, -/
theorem C114_read (sha : Bytes → Bytes) (get get' : Cid → Option Bytes) (h : Verified sha get) (h' : Verified sha get') (hn : NoClash sha get get')
    (idle : IdleFileVisit) (root : Bytes) (x : Res ReadError (Bytes × List Cid)) (hx : readFile get idle root = some x) :
    SameOrMissing get get' ReadError.missing x (readFile get' idle root) :=
  readFile_two (agree_of h h' hn) idle root x hx

/-- what is reported by walking, up to the first missing block, -/
theorem C114_walk (sha : Bytes → Bytes) (get get' : Cid → Option Bytes) (h : Verified sha get) (h' : Verified sha get') (hn : NoClash sha get get')
    (root : Cid) (name : Bytes) (cache : Option VisitCache) (log : List (Cid × ContinuedWalk)) (stop : Stop WalkError)
    (hx : walkLog get (Walker.new root name) cache = some (log, stop)) :
    walkLog get' (Walker.new root name) cache = some (log, stop) ∨
    (∃ log' c, walkLog get' (Walker.new root name) cache = some (log', .missing c) ∧ get' c = none ∧ log' <+: log) ∨
    ∃ c, stop = .missing c ∧ get c = none ∧ ∀ log' stop', walkLog get' (Walker.new root name) cache = some (log', stop') → log <+: log' :=
  walkLog_two (agree_of h h' hn) _ cache log stop hx

/-- and what a name in a directory leads to. -/
theorem C114_lookup (sha : Bytes → Bytes) (get get' : Cid → Option Bytes) (h : Verified sha get) (h' : Verified sha get') (hn : NoClash sha get get')
    (block needle : Bytes) (cache : Option LookupCache) (x : Res LookupFail (Option Cid × List Cid)) (hx : lookupName get block needle cache = some x) :
    SameOrMissing get get' LookupFail.missing x (lookupName get' block needle cache) :=
  lookupName_two (agree_of h h' hn) block needle cache x hx

theorem resolveLoop_two {get get' : Cid → Option Bytes} (ha : Agree get get') (l : ShardedLookup) (cache : Option LookupCache)
    (x : Res ResolveFail (Option Cid) × Option LookupCache) (h : resolveLoop get l cache = some x) :
    resolveLoop get' l cache = some x ∨ (∃ k, resolveLoop get' l cache = some (.err .OpeningFailed, k)) ∨ x.1 = .err .OpeningFailed := by
  refine resolveLoop.partial_correctness get (fun l cache x => resolveLoop get' l cache = some x ∨
    (∃ k, resolveLoop get' l cache = some (.err .OpeningFailed, k)) ∨ x.1 = .err .OpeningFailed) ?_ l cache x h
  intro rec ih l cache r h
  rw [resolveLoop.eq_1]
  cases hp : l.pendingLinks with
  | panic p => simp only [hp] at h ⊢; exact .inl h
  | err e => simp only [hp] at h ⊢; exact .inl h
  | ok fr =>
    obtain ⟨first, rest⟩ := fr
    simp only [hp] at h ⊢
    cases hg : get first with
    | none => rw [hg] at h; cases h; exact .inr (.inr rfl)
    | some block =>
      rw [hg] at h
      simp only at h
      cases hg' : get' first with
      | none => exact .inr (.inl ⟨_, rfl⟩)
      | some block' =>
        cases ha _ _ _ hg hg'
        simp only
        cases hc : l.continueWalk block cache with
        | mk a cache' =>
          simp only [hc] at h ⊢
          cases a with
          | panic p => exact .inl h
          | err e => exact .inl h
          | ok m =>
            cases m with
            | Found c => exact .inl h
            | NotFound => exact .inl h
            | NeedToLoadMore l' => exact ih l' cache' r h

theorem resolveSegments_two {get get' : Cid → Option Bytes} (ha : Agree get get') : ∀ (names : List Bytes) (root : Cid) (cache : Option LookupCache)
    (x : Res ResolveFail (Option Cid)), resolveSegments get root cache names = some x →
    resolveSegments get' root cache names = some x ∨ resolveSegments get' root cache names = some (.err .OpeningFailed) ∨ x = .err .OpeningFailed
  | [], _, _, _, h => .inl h
  | n :: rest, root, cache, x, h => by
    rw [resolveSegments] at h ⊢
    cases hg : get root with
    | none => rw [hg] at h; cases h; exact .inr (.inr rfl)
    | some block =>
      rw [hg] at h
      simp only at h
      cases hg' : get' root with
      | none => exact .inr (.inl rfl)
      | some block' =>
        cases ha _ _ _ hg hg'
        simp only
        cases hc : resolve block n cache with
        | mk a cache' =>
          simp only [hc] at h ⊢
          cases a with
          | panic p => exact .inl h
          | err e => exact .inl h
          | ok m =>
            cases m with
            | Found c => exact resolveSegments_two ha rest c cache' x h
            | NotFound => exact .inl h
            | NeedToLoadMore l' =>
              simp only at h ⊢
              cases hl : resolveLoop get l' cache' with
              | none => rw [hl] at h; cases h
              | some y =>
                rw [hl] at h
                rcases resolveLoop_two ha l' cache' y hl with h1 | ⟨k, h1⟩ | h1
                · rw [h1]
                  obtain ⟨y, k⟩ := y
                  cases y with
                  | panic p => exact .inl h
                  | err e => exact .inl h
                  | ok o =>
                    cases o with
                    | none => exact .inl h
                    | some c => exact resolveSegments_two ha rest c k x h
                · rw [h1]; exact .inr (.inl rfl)
                · obtain ⟨y, k⟩ := y
                  simp only at h1
                  subst h1
                  cases h
                  exact .inr (.inr rfl)

/-- The same for `resolve` and its paths through several directories. -/
theorem C114_resolve (sha : Bytes → Bytes) (get get' : Cid → Option Bytes) (h : Verified sha get) (h' : Verified sha get') (hn : NoClash sha get get')
    (path : IpfsPath) (x : Res ResolveFail (Option Cid)) (hx : resolveWalk get path = some x) :
    resolveWalk get' path = some x ∨ resolveWalk get' path = some (.err .OpeningFailed) ∨ x = .err .OpeningFailed :=
  resolveSegments_two (agree_of h h' hn) path.path path.root none x hx

/-! ### what was published -/

/-- Whoever has the root Cid of what was added, and verifies blocks, reads the content or misses a block, wherever the blocks come from; any part of it
as well. -/
theorem C114_file (sha : Bytes → Bytes) (hsha : ∀ b, (sha b).length = 32) (c bf : Nat) (hc : 0 < c) (hbf : 0 < bf)
    (x : Bytes) (blocks : List (Cid × Bytes)) (h : Adds sha c bf x blocks) (hsmall : BelowLimit blocks)
    (get get' : Cid → Option Bytes) (hget : Holds get blocks) (hv : Verified sha get) (hv' : Verified sha get') (hn : NoClash sha get get')
    (root : Cid × Bytes) (hroot : blocks.getLast? = some root) (b : Bytes) (hb : get' root.1 = some b) :
    ((∃ cids, readFile get' {} b = some (.ok (x, cids))) ∨ ∃ m, readFile get' {} b = some (.err (.missing m)) ∧ get' m = none) ∧
    ∀ r, (∃ cids, readFile get' (IdleFileVisit.withTargetRange {} r) b = some (.ok (slice x r, cids))) ∨
      ∃ m, readFile get' (IdleFileVisit.withTargetRange {} r) b = some (.err (.missing m)) ∧ get' m = none := by
  obtain ⟨T, hh, f⟩ := adds_facts hc hbf h
  have hat := f.fileAt hsha hsmall hget
  have hlast : blocks.getLast? = some (T.entry sha) := by rw [f.blocks, List.getLast?_map, f.em.last]; rfl
  rw [hroot] at hlast
  cases hlast
  have hmem : T.entry sha ∈ blocks := List.mem_of_getLast? hroot
  cases agree_of hv hv' hn _ _ _ (hget _ hmem) hb
  have key : ∀ idle y, (∃ cids, readFile get idle (T.entry sha).2 = some (.ok (y, cids))) →
      (∃ cids, readFile get' idle (T.entry sha).2 = some (.ok (y, cids))) ∨ ∃ m, readFile get' idle (T.entry sha).2 = some (.err (.missing m)) ∧ get' m = none := by
    rintro idle y ⟨cids, h1⟩
    rcases C114_read sha get get' hv hv' hn idle _ _ h1 with h2 | h2 | ⟨_, h2, _⟩
    · exact .inl ⟨cids, h2⟩
    · exact .inr h2
    · cases h2
  constructor
  · apply key
    have := C18_read_wellformed get T _ hat
    rwa [f.content] at this
  · intro r
    apply key
    have := C19_ranged_read get T _ hat r
    rwa [f.content] at this

/-- Of a walk which ends well over a verified store, one over another such store reports the same, or misses a block after a beginning of it. -/
theorem C114_items (sha : Bytes → Bytes) (get get' : Cid → Option Bytes) (h : Verified sha get) (h' : Verified sha get') (hn : NoClash sha get get')
    (root : Cid) (name : Bytes) (cache : Option VisitCache) (items : List ContinuedWalk) (hx : walkFrom get (Walker.new root name) cache = some (.ok items)) :
    ∃ log stop, walkLog get' (Walker.new root name) cache = some (log, stop) ∧
      ((stop = .finished ∧ log.map (·.2) = items) ∨ ∃ c, stop = .missing c ∧ get' c = none ∧ log.map (·.2) <+: items) := by
  obtain ⟨⟨log, stop⟩, h1, h2⟩ := walkFrom_log get _ cache _ hx
  cases stop with
  | finished =>
    injection h2 with h2
    rcases C114_walk sha get get' h h' hn root name cache log _ h1 with h3 | ⟨log', c, h3, h4, h5⟩ | ⟨c, h3, _⟩
    · exact ⟨log, _, h3, .inl ⟨rfl, h2.symm⟩⟩
    · refine ⟨log', _, h3, .inr ⟨c, rfl, h4, ?_⟩⟩
      rw [h2]; exact h5.map _
    · cases h3
  | missing c => cases h2
  | failed e => cases h2
  | noLinks => cases h2
  | panicked p => cases h2

/-- Whoever has the root Cid of what was added, put at paths and built, and verifies blocks, finds by walking exactly the files with their contents at their
paths, and the directories; or a block is missing, after a beginning of that. -/
theorem C114_tree (sha : Bytes → Bytes) (hsha : ∀ b, (sha b).length = 32) (opts : TreeOptions)
    (hw : opts.wrap_with_directory = true) (ops : List Op) (hops : ∀ op ∈ ops, op.Ok)
    (hpaths : ∀ op ∈ successes (.new opts) ops, Walkable op)
    (hfit : SizesFit sha (runOps (.new opts) ops).2) (nodes : List TreeNode) (it : PostOrderIterator)
    (hbuild : drainAll sha (runOps (.new opts) ops).2.build = some (nodes, .finished, it))
    (get get' : Cid → Option Bytes) (hget : ∀ x ∈ nodes, get x.cid = some x.block)
    (content : Cid → Bytes) (hadd : ∀ p c s, Op.putLink p c s ∈ successes (.new opts) ops → AddedAs sha get c (content c))
    (hv : Verified sha get) (hv' : Verified sha get') (hn : NoClash sha get get')
    (root : TreeNode) (hroot : nodes.getLast? = some root) (cache : Option VisitCache)
    (hc : ∀ k, cache = some k → CacheObtainable k) :
    ∃ log stop items, walkLog get' (Walker.new root.cid []) cache = some (log, stop) ∧
      ((stop = .finished ∧ log.map (·.2) = items) ∨ ∃ c, stop = .missing c ∧ get' c = none ∧ log.map (·.2) <+: items) ∧
      (∀ p c s cs, Op.putLink p c s ∈ successes (.new opts) ops → PathOf p cs →
        FileReported cs items ∧ bytesAt cs items = content c) ∧
      (∀ cs, FileReported cs items → ∃ p c s, Op.putLink p c s ∈ successes (.new opts) ops ∧ PathOf p cs) ∧
      (∀ cs, DirReported cs items ↔ cs = [] ∨
        ∃ op ∈ successes (.new opts) ops, ∃ ds, PathOf op.path ds ∧ cs <+: ds ∧ (cs ≠ ds ∨ op.thing = .dir)) := by
  obtain ⟨-, items, h1, h2⟩ := C59_end_to_end sha hsha opts hw ops hops hpaths hfit nodes it hbuild get hget content hadd root hroot cache hc
  obtain ⟨log, stop, h3, h4⟩ := C114_items sha get get' hv hv' hn _ _ _ _ h1
  exact ⟨log, stop, items, h3, h4, h2⟩

/-- And by their paths exactly what was put there. -/
theorem C114_path (sha : Bytes → Bytes) (hsha : ∀ b, (sha b).length = 32) (opts : TreeOptions)
    (hw : opts.wrap_with_directory = true) (ops : List Op) (hops : ∀ op ∈ ops, op.Ok)
    (hfit : SizesFit sha (runOps (.new opts) ops).2) (nodes : List TreeNode) (it : PostOrderIterator)
    (hbuild : drainAll sha (runOps (.new opts) ops).2.build = some (nodes, .finished, it))
    (get get' : Cid → Option Bytes) (hget : ∀ x ∈ nodes, get x.cid = some x.block)
    (hv : Verified sha get) (hv' : Verified sha get') (hn : NoClash sha get get')
    (root : TreeNode) (hroot : nodes.getLast? = some root)
    (p : Bytes) (c : Cid) (s : Nat) (hput : Op.putLink p c s ∈ successes (.new opts) ops) (cs : List Bytes) (hp : PathOf p cs) :
    resolveWalk get' ⟨root.cid, cs⟩ = some (.ok (some c)) ∨ resolveWalk get' ⟨root.cid, cs⟩ = some (.err .OpeningFailed) := by
  have hb : Obtainable (runOps (.new opts) ops).2 := ⟨opts, ops, hops, rfl⟩
  have hopts := opts_run (opts := opts) hops
  have hnodes := drained_nodes hsha hb hfit hbuild
  have hr : root = nodeOf sha [] (contents (runOps (.new opts) ops).2) := by
    rw [hopts, hw] at hnodes
    exact root_node (hnodes ▸ hroot)
  obtain ⟨i1, -, -⟩ := segments_built hsha hb hfit (by rw [← hnodes]; exact hget) cs [] _
    ⟨lookupPath_nil _, fun _ => by rw [hopts, hw]⟩ rfl
  have hcid : root.cid = cidOf sha (dirBlock (DTree.items sha (contents (runOps (.new opts) ops).2))) := by rw [hr]; rfl
  have hfull : resolveWalk get ⟨root.cid, cs⟩ = some (.ok (some c)) := by
    show resolveSegments get root.cid none cs = _
    rw [hcid, i1 cs [] c s (by simp) (((C31_history opts ops hops cs).1 c s).2 ⟨p, hput, hp⟩)]
    rfl
  rcases C114_resolve sha get get' hv hv' hn _ _ hfull with h | h | h
  · exact .inl h
  · exact .inr h
  · cases h

/-! ### cases -/

/-- A reader's store from which the second leaf of the file is missing. -/
def readerStore : Cid → Option Bytes := fun c => if some c = (fileBlocks[1]?).map (·.1) then none else fileStore c

def allBlocks : List (Cid × Bytes) := fileBlocks ++ (allNodes toySha true (contents fileBuilder)).map (fun n => (n.cid, n.block))

theorem fileStore_mem {c : Cid} {b : Bytes} (h : fileStore c = some b) : (c, b) ∈ allBlocks := by
  unfold fileStore at h
  obtain ⟨e, he, rfl⟩ := Option.map_eq_some_iff.1 h
  have hmem := List.mem_of_find?_eq_some he
  have hc := List.find?_some he
  simp only [beq_iff_eq] at hc
  subst hc
  exact hmem

theorem readerStore_mem {c : Cid} {b : Bytes} (h : readerStore c = some b) : (c, b) ∈ allBlocks := by
  unfold readerStore at h
  split at h
  · cases h
  · exact fileStore_mem h

/-- The stores of the case meet the hypotheses, with those of C59; over the reader's store the root of the file is there, but not all of its leaves: so
what is read is `[1, 2, 3]` or a block is missed. -/
theorem C114_example : Verified toySha fileStore ∧ Verified toySha readerStore ∧ NoClash toySha fileStore readerStore ∧
    (∃ it root, FileCase it root) ∧ (∃ c b, fileStore c = some b ∧ readerStore c = none) ∧
    ∃ b, readerStore fileCid = some b ∧ ((∃ cids, readFile readerStore {} b = some (.ok ([1, 2, 3], cids))) ∨
      ∃ m, readFile readerStore {} b = some (.err (.missing m)) ∧ readerStore m = none) := by
  have h1 : ∀ e ∈ allBlocks, e.1.code = 0x12 ∧ e.1.digest = toySha e.2 := by decide +kernel
  have h2 : ∀ e ∈ allBlocks, ∀ e' ∈ allBlocks, toySha e.2 = toySha e'.2 → e.2 = e'.2 := by decide +kernel
  have hv : Verified toySha fileStore := fun c b h => h1 _ (fileStore_mem h)
  have hv' : Verified toySha readerStore := fun c b h => h1 _ (readerStore_mem h)
  have hn : NoClash toySha fileStore readerStore := fun c c' b b' h h' => h2 _ (fileStore_mem h) _ (readerStore_mem h')
  refine ⟨hv, hv', hn, fileCase, ?_, ?_⟩
  · have : ((fileBlocks[1]?).bind (fun e => fileStore e.1)).isSome = true := by decide +kernel
    obtain ⟨b, hb⟩ := Option.isSome_iff_exists.1 this
    obtain ⟨e, he, hb⟩ := Option.bind_eq_some_iff.1 hb
    exact ⟨e.1, b, hb, by unfold readerStore; rw [he]; simp⟩
  · have hsome : (readerStore fileCid).isSome = true := by decide +kernel
    obtain ⟨b, hb⟩ := Option.isSome_iff_exists.1 hsome
    refine ⟨b, hb, ?_⟩
    have hh : Holds fileStore fileBlocks := by
      have : ∀ e ∈ fileBlocks, fileStore e.1 = some e.2 := by decide +kernel
      exact this
    exact (C114_file toySha toySha_length 2 2 (by decide) (by decide) [1, 2, 3] fileBlocks (adds_exists toySha_length (by decide) (by decide) _ (by decide))
      (by unfold BelowLimit; decide +kernel) fileStore readerStore hh hv hv' hn (fileBlocks.getLast (by decide +kernel)) (by rfl) b
      (by rw [← hb]; exact congrArg readerStore (by decide +kernel))).1

end Verif.Props
