import Verif.Programs
/-
The example programs `cat` and `get` when any opening or reading of a file, and any writing to standard output, may fail. What
may happen is given by relations: there is one run for every combination of failures.
-/
namespace Verif.Examples
open Verif

/-- Standard output: what has arrived, and what is still in the buffer (`std::io::LineWriter` in `std::io::Stdout`).
(`std::io::stdout()`, `examples/cat.rs:59-60`, `println!`, `examples/get.rs:81-100`.) -/
structure Sink where
  arrived : Bytes := []
  buffered : Bytes := []
  deriving DecidableEq, Repr

/-- `write_all`, which may succeed (`true`), keeping at most the beginning of a line in the buffer; or fail after any part.
(`stdout.write_all(content)?`, `examples/cat.rs:77`, `:94`; `println!`, `examples/get.rs:81-100`.) -/
inductive Sink.Writes (s : Sink) (content : Bytes) : Bool → Sink → Prop
  | ok (s' : Sink) : s'.arrived ++ s'.buffered = s.arrived ++ s.buffered ++ content → s.arrived <+: s'.arrived →
      10 ∉ s'.buffered → Sink.Writes s content true s'
  | fail (s' : Sink) : s'.arrived ++ s'.buffered <+: s.arrived ++ s.buffered ++ content → s.arrived <+: s'.arrived →
      Sink.Writes s content false s'

/-- `flush`. (`stdout.flush()?`, `examples/cat.rs:101`.) -/
inductive Sink.Flushes (s : Sink) : Bool → Sink → Prop
  | ok : Sink.Flushes s true ⟨s.arrived ++ s.buffered, []⟩
  | fail (s' : Sink) : s'.arrived ++ s'.buffered <+: s.arrived ++ s.buffered → s.arrived <+: s'.arrived → Sink.Flushes s false s'

/-- What has arrived after the end of the process, which tries to write what is in the buffer and ignores errors.
(`std::process::exit`, `examples/cat.rs:49`, `:53`, and the end of `main`, as far as it matters here.) -/
def Sink.Exits (s : Sink) (arrived : Bytes) : Prop := s.arrived <+: arrived ∧ arrived <+: s.arrived ++ s.buffered

/-! ### `examples/cat.rs` -/

/-- How `walk` ends: `Ok` with both counters, one of the errors, `examples/cat.rs:103-110`, or a panic. -/
inductive CatEnd where
  | done (read_bytes content_bytes : Nat)
  | opening
  | other
  | traversal (e : FileReadFailed)
  | panic (p : Panic)
  deriving DecidableEq, Repr

/-- The exit code, `examples/cat.rs:37-55`. -/
def CatEnd.code : CatEnd → Nat
  | .done _ _ => 0
  | .panic _ => 101
  | _ => 1

/-- The first step or a later one, `examples/cat.rs:76` and `:93`. -/
def catTurn : Option FileVisit → Bytes → Res FileReadFailed (Bytes × Option FileVisit)
  | none, block => (IdleFileVisit.start {} block).map (fun r => (r.content, r.next))
  | some visit, block => (visit.continueWalk block none).1

/-- `walk` from where the block `c` is wanted, `examples/cat.rs:73-103` (and `:85-99` in the loop): `n` and `k` are the counters
`read_bytes` and `content_bytes`. At any time opening may fail, reading may fail after any part of the file, and so may
writing. -/
inductive CatRun (get : Cid → Option Bytes) : Option FileVisit → Cid → Nat → Nat → Sink → Sink → CatEnd → Prop
  | opening (step c n k s) : CatRun get step c n k s s .opening
  | reading (step c n k s) : CatRun get step c n k s s .other
  | traversal {step c n k s block e} : get c = some block → catTurn step block = .err e → CatRun get step c n k s s (.traversal e)
  | panic {step c n k s block p} : get c = some block → catTurn step block = .panic p → CatRun get step c n k s s (.panic p)
  | writing {step c n k s block content next s'} : get c = some block → catTurn step block = .ok (content, next) →
      s.Writes content false s' → CatRun get step c n k s s' .other
  | flushing {step c n k s block content s' s''} : get c = some block → catTurn step block = .ok (content, none) →
      s.Writes content true s' → s'.Flushes false s'' → CatRun get step c n k s s'' .other
  | last {step c n k s block content s' s''} : get c = some block → catTurn step block = .ok (content, none) →
      s.Writes content true s' → s'.Flushes true s'' →
      CatRun get step c n k s s'' (.done (n + block.length) (k + content.length))
  | pending {step c n k s block content visit s' p} : get c = some block → catTurn step block = .ok (content, some visit) →
      s.Writes content true s' → visit.pendingLinks = .panic p → CatRun get step c n k s s' (.panic p)
  | next {step c n k s block content visit s' c' rest s'' e} : get c = some block →
      catTurn step block = .ok (content, some visit) → s.Writes content true s' → visit.pendingLinks = .ok (c', rest) →
      CatRun get (some visit) c' (n + block.length) (k + content.length) s' s'' e → CatRun get step c n k s s'' e

/-- A whole run of `cat`: what arrives at standard output, and how it ends. (`examples/cat.rs:37-104`.) -/
def CatRuns (get : Cid → Option Bytes) (start : Cid) (arrived : Bytes) (e : CatEnd) : Prop :=
  ∃ s, CatRun get none start 0 0 {} s e ∧ s.Exits arrived

/-! ### `examples/get.rs` -/

/-- How `walk` ends, `examples/get.rs:103-109`. `print` is the panic of `println!` when it cannot write. -/
inductive GetEnd where
  | done
  | opening
  | other
  | walk (e : WalkError)
  | panic (p : Panic)
  | print
  deriving DecidableEq, Repr

/-- The exit code, `examples/get.rs:35-52`. -/
def GetEnd.code : GetEnd → Nat
  | .done => 0
  | .panic _ | .print => 101
  | _ => 1

/-- `println!` of the lines for one item (at most one). (`examples/get.rs:81`, `:88`, `:94-100`.) -/
inductive Prints (env : FmtEnv) : List Line → Sink → Bool → Sink → Prop
  | none (s) : Prints env [] s true s
  | fail {l ls s s'} : s.Writes (utf8 (output env [l])) false s' → Prints env (l :: ls) s false s'
  | line {l ls s s' b s''} : s.Writes (utf8 (output env [l])) true s' → Prints env ls s' b s'' → Prints env (l :: ls) s b s''

/-- The loop of `walk`, `examples/get.rs:61-101`. -/
inductive GetRun (env : FmtEnv) (get : Cid → Option Bytes) : Walker → Option VisitCache → Sink → Sink → GetEnd → Prop
  | done {w cache s} : w.shouldContinue = false → GetRun env get w cache s s .done
  | pending {w cache s p} : w.shouldContinue = true → w.pendingLinks = .panic p → GetRun env get w cache s s (.panic p)
  | opening {w cache s c} : w.shouldContinue = true → w.pendingLinks = .ok c → GetRun env get w cache s s .opening
  | reading {w cache s c} : w.shouldContinue = true → w.pendingLinks = .ok c → GetRun env get w cache s s .other
  | walk {w cache s c block e w' cache'} : w.shouldContinue = true → w.pendingLinks = .ok c → get c.1 = some block →
      w.step block cache = (.err e, w', cache') → GetRun env get w cache s s (.walk e)
  | panic {w cache s c block p w' cache'} : w.shouldContinue = true → w.pendingLinks = .ok c → get c.1 = some block →
      w.step block cache = (.panic p, w', cache') → GetRun env get w cache s s (.panic p)
  | target {w cache s c block item w' cache' p} : w.shouldContinue = true → w.pendingLinks = .ok c → get c.1 = some block →
      w.step block cache = (.ok item, w', cache') → getItem item = .panic p → GetRun env get w cache s s (.panic p)
  | print {w cache s c block item w' cache' ls s'} : w.shouldContinue = true → w.pendingLinks = .ok c → get c.1 = some block →
      w.step block cache = (.ok item, w', cache') → getItem item = .ok ls → Prints env ls s false s' →
      GetRun env get w cache s s' .print
  | next {w cache s c block item w' cache' ls s' s'' e} : w.shouldContinue = true → w.pendingLinks = .ok c → get c.1 = some block →
      w.step block cache = (.ok item, w', cache') → getItem item = .ok ls → Prints env ls s true s' →
      GetRun env get w' cache' s' s'' e → GetRun env get w cache s s'' e

/-- A whole run of `get`. (`examples/get.rs:35-104`.) -/
def GetRuns (env : FmtEnv) (get : Cid → Option Bytes) (start : Cid) (arrived : Bytes) (e : GetEnd) : Prop :=
  ∃ s, GetRun env get (Walker.new start []) none {} s e ∧ s.Exits arrived

end Verif.Examples
