import Verif.Adder
/-
The buffers which a `FileAdder` reserves: `/repo/src/file/adder.rs:180-186,488-500`, and `Vec::reserve` of the standard library. In the other modules
capacities are left out. Here it is assumed that the allocator gives whatever is asked for, up to `isize::MAX` bytes.
-/
namespace Verif

/-- `isize::MAX`, with 64 bits: the largest number of bytes of an allocation and of a slice.
(std, for the reservations in `src/file/adder.rs:183`, `:491-500`.) -/
def isizeMax : Nat := 2 ^ 63 - 1

/-- The panic with the message `capacity overflow`. (std, for the reservations in `src/file/adder.rs:183`, `:491-500`.) -/
inductive CapacityOverflow where
  | mk
  deriving DecidableEq, Repr

/-- Like `Run`, and it may panic when reserving. (std, for the reservations in `src/file/adder.rs:183`, `:491-500`.) -/
abbrev RunR (α : Type) := Option (Except CapacityOverflow (Res Unit α))

/-- `Vec::reserve(additional)`, of `alloc::raw_vec` (`grow_amortized`): the new capacity. `size` is the size of an element, `least` the smallest
capacity which is not zero (8 for bytes, 4 for elements of up to 1024 bytes). (std, for the reservations in `src/file/adder.rs:183`, `:491-500`.) -/
def vecReserve (size least cap len additional : Nat) : Except CapacityOverflow Nat :=
  if additional ≤ cap - len then .ok cap
  else if U64 ≤ len + additional then .error .mk
  else
    let new := max least (max (cap * 2) (len + additional))
    if isizeMax < new * size then .error .mk else .ok new

/-- The capacities of `block_buffer`, `reused_links` and `reused_blocksizes`, `src/file/adder.rs:21,388-392`; nothing is allocated by
`Vec::new`. -/
structure Capacities where
  buffer : Nat := 0
  links : Nat := 0
  blocksizes : Nat := 0
  deriving DecidableEq, Repr

/-- `if let Some(need) = self.branching_factor.checked_sub(v.capacity()) { v.reserve(need) }`, `src/file/adder.rs:491-500`. -/
def reserveUpTo (size bf cap len : Nat) : Except CapacityOverflow Nat :=
  if cap ≤ bf then vecReserve size 4 cap len (bf - cap) else .ok cap

/-- The beginning of `flush_links`, `src/file/adder.rs:488-500`. `size` is the size of a `PBLink`. (That no more than `branching_factor` elements are
pushed to the vectors later, so that they do not grow, is proved: `C106_capacities`.) -/
def FileAdder.reserveLinks (size : Nat) (a : FileAdder) (caps : Capacities) : Except CapacityOverflow Capacities :=
  match reserveUpTo size a.collector.branching_factor caps.links a.collector.reused_links.length with
  | .error e => .error e
  | .ok links =>
    match reserveUpTo 8 a.collector.branching_factor caps.blocksizes a.collector.reused_blocksizes.length with
    | .error e => .error e
    | .ok blocksizes => .ok { caps with links := links, blocksizes := blocksizes }

/-- What follows a reservation. (std, for the reservations in `src/file/adder.rs:183`, `:491-500`.) -/
def withCaps {α : Type} (caps : Capacities) : Run (FileAdder × α) → RunR ((FileAdder × Capacities) × α)
  | none => none
  | some (.err e) => some (.ok (.err e))
  | some (.panic p) => some (.ok (.panic p))
  | some (.ok (a, r)) => some (.ok (.ok ((a, caps), r)))

/-- `FileAdder::push`, `src/file/adder.rs:161-207`, with its reservations: those of `block_buffer` before a chunk is buffered, by `reserve` and by
`extend_from_slice`, and those of `flush_links` when there is a leaf (without one there is a panic before). -/
def FileAdder.pushReserving (sha : Bytes → Bytes) (size : Nat) (a : FileAdder) (caps : Capacities) (input : Bytes) :
    RunR ((FileAdder × Capacities) × List (Cid × Bytes) × Nat) :=
  match chunkerAccept a.chunkMax input a.block_buffer with
  | .err _ | .panic _ => withCaps caps (a.push sha input)
  | .ok (accepted, ready) =>
    if a.block_buffer = [] ∧ ready = true then
      match flushBufferedLeaf sha accepted a.unflushed_links false with
      | (none, _) => withCaps caps (a.push sha input)
      | (some _, _) =>
        match a.reserveLinks size caps with
        | .error e => some (.error e)
        | .ok caps => withCaps caps (a.push sha input)
    else
      match (if caps.buffer = 0 then vecReserve 1 8 0 a.block_buffer.length a.sizeHint else .ok caps.buffer) with
      | .error e => some (.error e)
      | .ok buffer =>
        match vecReserve 1 8 buffer a.block_buffer.length accepted.length with
        | .error e => some (.error e)
        | .ok buffer =>
          let caps := { caps with buffer := buffer }
          if ready = false then withCaps caps (a.push sha input)
          else
            match flushBufferedLeaf sha (a.block_buffer ++ accepted) a.unflushed_links false with
            | (none, _) => withCaps caps (a.push sha input)
            | (some _, _) =>
              match a.reserveLinks size caps with
              | .error e => some (.error e)
              | .ok caps => withCaps caps (a.push sha input)

/-- `FileAdder::finish`, `src/file/adder.rs:215-224`, with its reservations. -/
def FileAdder.finishReserving (sha : Bytes → Bytes) (size : Nat) (a : FileAdder) (caps : Capacities) : RunR (List (Cid × Bytes)) :=
  match a.reserveLinks size caps with
  | .error e => some (.error e)
  | .ok _ => (a.finish sha).map .ok

end Verif
