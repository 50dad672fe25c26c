import Verif.Examples
import Verif.ReleaseRun
/-
The example programs `cat`, `get` and `resolve` built with `--release`: as in `Examples.lean`, with the calls of the crate as in `ReleaseRun.lean`;
the programs themselves have no checks which are left out. `none`: the run never ends. (The counters are unbounded here, as in `Examples.lean`.)
-/
namespace Verif.Examples
open Verif

/-- The loop `while let Some(visit) = step`, `examples/cat.rs:81-99`. -/
def catLoopRel (get : Cid → Option Bytes) (s : CatState) (visit : FileVisit) : Option (CatState × Res CatError Unit) :=
  match visit.pendingLinks with
  | .panic p => some (s, .panic p)
  | .err () => some (s, .ok ())
  | .ok (first, _) =>
    match get first with
    | none => some (s, .err .OpeningFailed)
    | some buf =>
      match visit.continueWalkRel buf none with
      | none => none
      | some (.panic p, _) => some (s.read buf, .panic p)
      | some (.err e, _) => some (s.read buf, .err (.Traversal e))
      | some (.ok (content, none), _) => some ((s.read buf).write content, .ok ())
      | some (.ok (content, some visit), _) => catLoopRel get ((s.read buf).write content) visit
partial_fixpoint

/-- `walk`, `examples/cat.rs:58-104`. -/
def catWalkRel (get : Cid → Option Bytes) (start : Cid) : Option (CatState × Res CatError Unit) :=
  match get start with
  | none => some ({}, .err .OpeningFailed)
  | some buf =>
    match IdleFileVisit.startRel {} buf with
    | none => none
    | some (.panic p) => some (CatState.read {} buf, .panic p)
    | some (.err e) => some (CatState.read {} buf, .err (.Traversal e))
    | some (.ok ⟨content, _, _, none⟩) => some ((CatState.read {} buf).write content, .ok ())
    | some (.ok ⟨content, _, _, some visit⟩) => catLoopRel get ((CatState.read {} buf).write content) visit

/-- The loop of `walk`, `examples/get.rs:61-101`. -/
def getLoopRel (get : Cid → Option Bytes) (out : List Line) (walker : Walker) (cache : Option VisitCache) :
    Option (List Line × Res GetError Unit) :=
  if walker.shouldContinue = false then some (out, .ok ())
  else match walker.pendingLinks with
  | .panic p => some (out, .panic p)
  | .err () => some (out, .ok ())
  | .ok (next, _) =>
    match get next with
    | none => some (out, .err .OpeningFailed)
    | some buf =>
      match walker.stepRel buf cache with
      | none => none
      | some (.panic p, _, _) => some (out, .panic p)
      | some (.err e, _, _) => some (out, .err (.Walk e))
      | some (.ok item, walker, cache) =>
        match getItem item with
        | .panic p => some (out, .panic p)
        | .err e => some (out, .err e)
        | .ok lines => getLoopRel get (out ++ lines) walker cache
partial_fixpoint

/-- `walk`, `examples/get.rs:54-104`. -/
def getWalkRel (get : Cid → Option Bytes) (start : Cid) : Option (List Line × Res GetError Unit) :=
  getLoopRel get [] (Walker.new start []) none

/-- The inner `loop`, `examples/resolve.rs:196-217`: the Cid found or none, and the cache. -/
def resolveLoopRel (get : Cid → Option Bytes) (walker : ShardedLookup) (cache : Option LookupCache) :
    Option (Res ResolveFail (Option Cid) × Option LookupCache) :=
  match walker.pendingLinks with
  | .panic p => some (.panic p, cache)
  | .err () => some (.ok none, cache)
  | .ok (first, _) =>
    match get first with
    | none => some (.err .OpeningFailed, cache)
    | some buf =>
      match walker.continueWalkRel buf cache with
      | none => none
      | some (.panic p, cache) => some (.panic p, cache)
      | some (.err e, cache) => some (.err (.Traversal (.Lookup e)), cache)
      | some (.ok .NotFound, cache) => some (.ok none, cache)
      | some (.ok (.Found cid), cache) => some (.ok (some cid), cache)
      | some (.ok (.NeedToLoadMore next), cache) => resolveLoopRel get next cache
partial_fixpoint

/-- `walk`, `examples/resolve.rs:154-222`, from `for segment in path.path` on. -/
def resolveSegmentsRel (get : Cid → Option Bytes) (root : Cid) (cache : Option LookupCache) :
    List Bytes → Option (Res ResolveFail (Option Cid))
  | [] => some (.ok (some root))
  | segment :: rest =>
    match get root with
    | none => some (.err .OpeningFailed)
    | some buf =>
      match resolveRel buf segment cache with
      | none => none
      | some (.panic p, _) => some (.panic p)
      | some (.err e, _) => some (.err (.Traversal e))
      | some (.ok (.Found cid), cache) => resolveSegmentsRel get cid cache rest
      | some (.ok .NotFound, _) => some (.ok none)
      | some (.ok (.NeedToLoadMore walker), cache) =>
        match resolveLoopRel get walker cache with
        | none => none
        | some (.panic p, _) => some (.panic p)
        | some (.err e, _) => some (.err e)
        | some (.ok none, _) => some (.ok none)
        | some (.ok (some cid), cache) => resolveSegmentsRel get cid cache rest

/-- `walk`, `examples/resolve.rs:154-222`. -/
def resolveWalkRel (get : Cid → Option Bytes) (path : IpfsPath) : Option (Res ResolveFail (Option Cid)) :=
  resolveSegmentsRel get path.root none path.path

end Verif.Examples
