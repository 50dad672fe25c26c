import Verif.Adder
/-
What `{:?}` prints for a `FileAdder`, and the loop of `benches/adder.rs`.
-/
namespace Verif

/-- The `for` loop of `impl Display for LinkFormatter`, `src/file/adder.rs:57-81`; `out` is what has been written so far. `count` has no
type annotation and is an `i32`, so that counting to 2^31 overflows. Writing never fails (the formatter writes to a `String`). -/
def formatLoop (current count : Nat) : List Link → String → Res Unit String
  | [], out => .ok (out ++ toString current ++ ": " ++ toString count ++ "]")
  | l :: ls, out =>
    if current = l.depth then
      if 2 ^ 31 ≤ count + 1 then .panic .adderFormat else formatLoop current (count + 1) ls out
    else
      let steps_between := if l.depth < current then current - l.depth else l.depth - current
      if steps_between < 1 then .panic .adderFormat
      else
        formatLoop l.depth 1 ls
          (out ++ toString current ++ ": " ++ toString count ++ "/" ++ String.join (List.replicate (steps_between - 1) "0/"))

/-- `impl Display for LinkFormatter`, `src/file/adder.rs:44-84`. -/
def linkFormatter : List Link → Res Unit String
  | [] => .ok ("[" ++ "]")
  | l :: ls => formatLoop l.depth 0 (l :: ls) "["

/-- `impl Debug for FileAdder`, `src/file/adder.rs:29-40`, with the derived `Debug` of `Chunker` (`:321-326`). The capacity of the buffer is
up to the allocator, and an argument. -/
def FileAdder.debug (self : FileAdder) (capacity : Nat) : Res Unit String := do
  let links ← linkFormatter self.unflushed_links
  .ok ("FileAdder { chunker: Size(" ++ toString self.chunkMax ++ "), block_buffer: " ++ toString self.block_buffer.length ++ "/" ++
    toString capacity ++ ", unflushed_links: " ++ links ++ " }")

/-- The loop `while total < size`, `benches/adder.rs:72-77`; the blocks, which are only counted, are collected. -/
def runAdderLoop (sha : Bytes → Bytes) (size : Nat) (adder : FileAdder) (total : Nat) (blocks : List (Cid × Bytes)) :
    Run (FileAdder × Nat × List (Cid × Bytes)) :=
  if total < size then
    match adder.push sha [0] with
    | none => none
    | some (.err e) => some (.err e)
    | some (.panic p) => some (.panic p)
    | some (.ok (adder, bs, consumed)) => runAdderLoop sha size adder (total + consumed) (blocks ++ bs)
  else some (.ok (adder, total, blocks))
partial_fixpoint

/-- `run_adder`, `benches/adder.rs:65-80`: all blocks, in order. -/
def runAdder (sha : Bytes → Bytes) (size : Nat) : Run (List (Cid × Bytes)) :=
  match runAdderLoop sha size (FileAdder.build 1 { branching_factor := 174 }) 0 [] with
  | none => none
  | some (.err e) => some (.err e)
  | some (.panic p) => some (.panic p)
  | some (.ok (adder, total, blocks)) =>
    if total ≠ size then some (.panic .benchTotal)
    else match adder.finish sha with
      | none => none
      | some (.err e) => some (.err e)
      | some (.panic p) => some (.panic p)
      | some (.ok bs) => some (.ok (blocks ++ bs))

end Verif
