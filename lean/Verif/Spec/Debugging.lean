import Verif.Basic
/-
What a `FileAdder` shows of itself.
-/
namespace Verif.Spec
open Verif

/-- How many link blocks are pending after `n` whole chunks with `bf` links in a block ... -/
def pendingGroups (bf n : Nat) : Nat := (n - 1) / bf
/-- ... and how many leaves: those of no such link block. -/
def pendingLeaves (bf n : Nat) : Nat := n - bf * pendingGroups bf n

/-- The number of link blocks, if any, and of leaves, if any. -/
def pendingText (groups leaves : Nat) : String :=
  if leaves = 0 then "[]"
  else if groups = 0 then "[0: " ++ toString leaves ++ "]"
  else "[1: " ++ toString groups ++ "/0: " ++ toString leaves ++ "]"

/-- The text of an adder with chunks of `c` bytes, of which `buffered` are in the buffer. -/
def adderText (c buffered capacity groups leaves : Nat) : String :=
  "FileAdder { chunker: Size(" ++ toString c ++ "), block_buffer: " ++ toString buffered ++ "/" ++ toString capacity ++
    ", unflushed_links: " ++ pendingText groups leaves ++ " }"

end Verif.Spec
