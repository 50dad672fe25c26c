import Verif.IoFailResolve
import Verif.Display
/-
The example program `add` as a whole process: reading standard input may fail (`unwrap`), and so may writing to standard error; and what it says
about the adder may panic. (Standard output is not used.)
-/
namespace Verif.Examples
open Verif

/-- The loop of `main` up to the end of the input, `examples/add.rs:23-47`; the arguments are the successive results of `fill_buf`, `none` for an
error, which makes `unwrap` panic (`:24`; there is no retrying, also not of interrupted reads). The result is `none` in this case. -/
def addReads (sha : Bytes → Bytes) (s : AddState) : List (Option Bytes) → Run (Option AddState)
  | [] | some [] :: _ => some (.ok (some s))
  | none :: _ => some (.ok none)
  | some x@(_ :: _) :: rest =>
    match addBuffer sha s x with
    | none => none
    | some (.err e) => some (.err e)
    | some (.panic p) => some (.panic p)
    | some (.ok s) => addReads sha s rest

/-- How `main` ends; `read` is the panic after an error of reading, `print` that of `eprintln!`. (`examples/add.rs:7-73`.) -/
inductive AddEnd where
  | done
  | read
  | panic (p : Panic)
  | print
  deriving DecidableEq, Repr

/-- The exit code. (`examples/add.rs:7-73`: `main` returns nothing.) -/
def AddEnd.code : AddEnd → Nat
  | .done => 0
  | _ => 101

/-- `impl Display for Stats`, `examples/add.rs:130-143`, and the newline of `:51`. -/
def statsText (printed : Nat × Nat × Cid × Cid) : Text :=
  numText printed.1 ++ lit " blocks, " ++ numText printed.2.1 ++ lit " block bytes, " ++ shown printed.2.2.1 ++ lit " or " ++ shown printed.2.2.2 ++ lit "\n"

/-- `main`, `examples/add.rs:7-73`: what arrives at standard error, without the message of a panic, and how it ends. `capacity` is that of the
buffer of the adder, which the allocator decides, and `tail` what is said of time and memory (`:53-72`). If what is said of the adder panics, a part
of it may have been written. -/
inductive AddRun (sha : Bytes → Bytes) (capacity : Nat) (tail : Text) (reads : List (Option Bytes)) : Bytes → AddEnd → Prop
  | read : addReads sha ⟨FileAdder.default, {}, 0⟩ reads = some (.ok none) → AddRun sha capacity tail reads [] .read
  | pushing {p} : addReads sha ⟨FileAdder.default, {}, 0⟩ reads = some (.panic p) → AddRun sha capacity tail reads [] (.panic p)
  | finishing {s : AddState} {s1} : addReads sha ⟨FileAdder.default, {}, 0⟩ reads = some (.ok (some s)) →
      Says [.err (lit "finishing\n")] {} false s1 → AddRun sha capacity tail reads s1.err .print
  | debug {s : AddState} {s1 p} (part : Bytes) : addReads sha ⟨FileAdder.default, {}, 0⟩ reads = some (.ok (some s)) →
      Says [.err (lit "finishing\n")] {} true s1 → s.adder.debug capacity = .panic p → AddRun sha capacity tail reads (s1.err ++ part) (.panic p)
  | debugging {s : AddState} {d s1} : addReads sha ⟨FileAdder.default, {}, 0⟩ reads = some (.ok (some s)) → s.adder.debug capacity = .ok d →
      Says [.err (lit "finishing\n"), .err (lit d ++ lit "\n")] {} false s1 → AddRun sha capacity tail reads s1.err .print
  | finish {s : AddState} {d s1 p} : addReads sha ⟨FileAdder.default, {}, 0⟩ reads = some (.ok (some s)) → s.adder.debug capacity = .ok d →
      Says [.err (lit "finishing\n"), .err (lit d ++ lit "\n")] {} true s1 → s.adder.finish sha = some (.panic p) →
      AddRun sha capacity tail reads s1.err (.panic p)
  | last {s : AddState} {d s1 blocks p} : addReads sha ⟨FileAdder.default, {}, 0⟩ reads = some (.ok (some s)) → s.adder.debug capacity = .ok d →
      Says [.err (lit "finishing\n"), .err (lit d ++ lit "\n")] {} true s1 → s.adder.finish sha = some (.ok blocks) →
      (s.stats.process blocks).printed = .panic p → AddRun sha capacity tail reads s1.err (.panic p)
  | stats {s : AddState} {d s1 blocks printed b} : addReads sha ⟨FileAdder.default, {}, 0⟩ reads = some (.ok (some s)) → s.adder.debug capacity = .ok d →
      s.adder.finish sha = some (.ok blocks) → (s.stats.process blocks).printed = .ok printed →
      Says [.err (lit "finishing\n"), .err (lit d ++ lit "\n"), .err (statsText printed), .err tail] {} b s1 →
      AddRun sha capacity tail reads s1.err (if b then .done else .print)

end Verif.Examples
