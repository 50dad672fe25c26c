import Verif.IoFail
/-
The example program `resolve` when any opening or reading of a file, and any writing to standard output or standard error, may fail: one run for
every combination of failures, as in `IoFail.lean`. `resolve` tells on both what it is doing (`Programs.lean`), so it may stop anywhere.
-/
namespace Verif.Examples
open Verif

/-- What has been written to standard output and standard error, which has no buffer.
(`println!` and `eprintln!`, `examples/resolve.rs:43-62`, `:162-221`.) -/
structure Streams where
  out : Sink := {}
  err : Bytes := []

/-- A line to be written, with its newline. (`println!` and `eprintln!`, `examples/resolve.rs:43-62`, `:162-221`.) -/
inductive Say where
  | out (t : Text)
  | err (t : Text)

/-- Writing lines, up to the first which cannot be written. (`println!` and `eprintln!`, `examples/resolve.rs:43-62`, `:162-221`.) -/
inductive Says : List Say → Streams → Bool → Streams → Prop
  | none (s : Streams) : Says [] s true s
  | outFail {t ls} {s : Streams} {o} : s.out.Writes (utf8 t) false o → Says (.out t :: ls) s false ⟨o, s.err⟩
  | out {t ls} {s : Streams} {o b s'} : s.out.Writes (utf8 t) true o → Says ls ⟨o, s.err⟩ b s' → Says (.out t :: ls) s b s'
  | errFail {t ls} {s : Streams} {part} : part <+: utf8 t → Says (.err t :: ls) s false ⟨s.out, s.err ++ part⟩
  | err {t ls} {s : Streams} {b s'} : Says ls ⟨s.out, s.err ++ utf8 t⟩ b s' → Says (.err t :: ls) s b s'

/-- What has been said so far, with lines which were said. (as in `resolveSegmentsLog`, `examples/resolve.rs:154-222`.) -/
def Log.say (log : Log) : Say → Log
  | .out t => { log with out := log.out ++ t }
  | .err t => { log with err := log.err ++ t }

/-- Several lines. (as in `resolveSegmentsLog`, `examples/resolve.rs:154-222`.) -/
def Log.says (log : Log) (ls : List Say) : Log := ls.foldl Log.say log

/-- How `resolve` ends: `Ok` of `walk` and one of the errors, `examples/resolve.rs:43-62`, `:225-230`, with the text of the error of the operating
system; a panic; or the panic of `println!` or `eprintln!`, `print`, when it cannot write. -/
inductive ResolveEnd where
  | done
  | notFound
  | opening (t : Text)
  | other (t : Text)
  | traversal (e : ResolveError)
  | panic (p : Panic)
  | print

/-- The exit code, `examples/resolve.rs:43-62`. -/
def ResolveEnd.code : ResolveEnd → Nat
  | .done | .notFound => 0
  | .opening _ | .other _ | .traversal _ => 1
  | .panic _ | .print => 101

/-- What `main` says at the end, `examples/resolve.rs:47-61`, with `Display` of `Error`, `:250-259`. (The lines after an error of opening are one
here. The Cid is said before, see `At.lines`.) -/
def ResolveEnd.says (m : Machine) : ResolveEnd → List Say
  | .done => []
  | .notFound => [.err (lit "not found\n")]
  | .opening t => [.err (openHelp t)]
  | .other t => [.err (lit "Failed to walk the merkle tree: Other file related io error: " ++ t ++ lit "\n")]
  | .traversal e => [.err (lit "Failed to walk the merkle tree: Walking failed, please report this as a bug: " ++ e.debugText m.env ++ lit "\n")]
  | .panic p => [.err (m.panicText p)]
  | .print => []

/-- Where `walk` is: at a name, or after the last, `examples/resolve.rs:162-221`; or in the inner `loop`, `:196-218`, with the names after this one. -/
inductive At where
  | names (root : Cid) (cache : Option LookupCache) (names : List Bytes)
  | bucket (segment : Bytes) (root : Cid) (other_blocks : Nat) (walker : ShardedLookup) (cache : Option LookupCache) (rest : List Bytes)

/-- `println!("cache {:?}", cache)`, `examples/resolve.rs:163,175,204,221`. -/
def sayCache (m : Machine) (log : Log) (cache : Option LookupCache) : Say :=
  .out (lit "cache " ++ someText (fun _ => lit "Cache { buffer: " ++ numText (m.capacity log.out) ++ lit " }") cache ++ lit "\n")

/-- The block wanted next, `examples/resolve.rs:166` and `:197-200`; after the last name none, and none if that panics. -/
def At.wants : At → Option Cid
  | .names _ _ [] => none
  | .names root _ (_ :: _) => some root
  | .bucket _ _ _ walker _ _ =>
    match walker.pendingLinks with
    | .ok (first, _) => some first
    | _ => none

/-- The lines before reading, `examples/resolve.rs:163-165` and `:199`; after the last name, the lines at the end of `walk`, `:221`, and the Cid,
`:45`. -/
def At.lines (m : Machine) (log : Log) : At → List Say
  | .names root cache [] => [sayCache m log cache, .out (shown root ++ lit "\n")]
  | .names root cache (segment :: _) =>
    [sayCache m log cache, .err (lit "reading " ++ shown root ++ lit " to resolve " ++ m.env.str segment ++ lit "\n")]
  | .bucket segment _ _ walker _ _ =>
    match walker.pendingLinks with
    | .ok (first, _) => [.err (lit "  -> reading " ++ shown first ++ lit " while searching for " ++ m.env.str segment ++ lit "\n")]
    | _ => []

/-- What to do next. (`examples/resolve.rs:168-217`.) -/
inductive Turn where
  | stop (e : ResolveEnd)
  | go (next : At)

/-- What is done with the block, and the lines about that, `examples/resolve.rs:168-194` and `:202-217`. -/
def At.turn (m : Machine) (log : Log) : At → Bytes → List Say × Turn
  | .names _ _ [], _ => ([], .stop .done)
  | .names root cache (segment :: rest), buf =>
    match resolve buf segment cache with
    | (.panic p, _) => ([], .stop (.panic p))
    | (.err e, _) => ([], .stop (.traversal e))
    | (.ok (.Found cid), cache) =>
      ([.out (lit "got lucky: found " ++ shown cid ++ lit " for " ++ m.env.str segment ++ lit "\n"),
        sayCache m (log.say (.out (lit "got lucky: found " ++ shown cid ++ lit " for " ++ m.env.str segment ++ lit "\n"))) cache],
        .go (.names cid cache rest))
    | (.ok .NotFound, _) => ([], .stop .notFound)
    | (.ok (.NeedToLoadMore walker), cache) =>
      ([.err (lit "walking " ++ shown root ++ lit " on " ++ m.env.str segment ++ lit "\n")], .go (.bucket segment root 1 walker cache rest))
  | .bucket segment root other_blocks walker cache rest, buf =>
    match walker.continueWalk buf cache with
    | (.panic p, _) => ([], .stop (.panic p))
    | (.err e, _) => ([], .stop (.traversal (.Lookup e)))
    | (.ok .NotFound, cache) => ([sayCache m log cache], .stop .notFound)
    | (.ok (.Found cid), cache) =>
      ([.err (lit "     resolved " ++ decodeText segment ++ lit " from " ++ shown root ++ lit " after " ++ numText other_blocks ++
        lit " blocks to " ++ shown cid ++ lit "\n")], .go (.names cid cache rest))
    | (.ok (.NeedToLoadMore next), cache) => ([], .go (.bucket segment root (other_blocks + 1) next cache rest))

/-- The end of `main`: its last lines, which may fail as well. After a panic its text may fail to be written, which changes nothing.
(`examples/resolve.rs:43-62`.) -/
inductive Stops (m : Machine) (e : ResolveEnd) (s s' : Streams) : ResolveEnd → Prop
  | said : Says (e.says m) s true s' → Stops m e s s' e
  | silent : Says (e.says m) s false s' → (∃ p, e = .panic p) → Stops m e s s' e
  | fail : Says (e.says m) s false s' → (∀ p, e ≠ .panic p) → Stops m e s s' .print

/-- `walk`, `examples/resolve.rs:162-222`, and the end of `main`. `log` is what was said until now. At any time opening may fail, reading may fail
after any part of the file, and so may writing. -/
inductive ResolveRun (m : Machine) (get : Cid → Option Bytes) : At → Log → Streams → Streams → ResolveEnd → Prop
  | before {pos log s s'} : Says (pos.lines m log) s false s' → ResolveRun m get pos log s s' .print
  | done {root cache log s s'} : Says ((At.names root cache []).lines m log) s true s' → ResolveRun m get (.names root cache []) log s s' .done
  | pending {segment root n walker cache rest log s s' p e} : walker.pendingLinks = .panic p → Stops m (.panic p) s s' e →
      ResolveRun m get (.bucket segment root n walker cache rest) log s s' e
  | opening {pos : At} {log s c s1 t s' e} : pos.wants = some c → Says (pos.lines m log) s true s1 → Stops m (.opening t) s1 s' e →
      ResolveRun m get pos log s s' e
  | reading {pos : At} {log s c s1 t s' e} : pos.wants = some c → Says (pos.lines m log) s true s1 → Stops m (.other t) s1 s' e →
      ResolveRun m get pos log s s' e
  | after {pos : At} {log s c block s1 ls turn s'} : pos.wants = some c → Says (pos.lines m log) s true s1 → get c = some block →
      pos.turn m (log.says (pos.lines m log)) block = (ls, turn) → Says ls s1 false s' → ResolveRun m get pos log s s' .print
  | stop {pos : At} {log s c block s1 ls x s2 s' e} : pos.wants = some c → Says (pos.lines m log) s true s1 → get c = some block →
      pos.turn m (log.says (pos.lines m log)) block = (ls, .stop x) → Says ls s1 true s2 → Stops m x s2 s' e → ResolveRun m get pos log s s' e
  | next {pos : At} {log s c block s1 ls next s2 s' e} : pos.wants = some c → Says (pos.lines m log) s true s1 → get c = some block →
      pos.turn m (log.says (pos.lines m log)) block = (ls, .go next) → Says ls s1 true s2 →
      ResolveRun m get next ((log.says (pos.lines m log)).says ls) s2 s' e → ResolveRun m get pos log s s' e

/-- A whole run of `resolve`: what arrives at standard output and at standard error, and how it ends. (`examples/resolve.rs:8-63`, from `:43` on.) -/
def ResolveRuns (m : Machine) (get : Cid → Option Bytes) (path : IpfsPath) (arrived err : Bytes) (e : ResolveEnd) : Prop :=
  ∃ s, ResolveRun m get (.names path.root none path.path) {} {} s e ∧ s.out.Exits arrived ∧ err = s.err

end Verif.Examples
