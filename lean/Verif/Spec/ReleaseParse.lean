import Verif.Spec.Overrun
/-
Blocks on which the readers of a release build go back.
-/
namespace Verif.Spec
open Verif

/-- 2^64 - 16 as a varint. -/
def minusSixteen : Bytes := [0xf0, 0xff, 0xff, 0xff, 0xff, 0xff, 0xff, 0xff, 0xff, 0x01]
/-- 2^64 - 14 as a varint. -/
def minusFourteen : Bytes := [0xf2, 0xff, 0xff, 0xff, 0xff, 0xff, 0xff, 0xff, 0xff, 0x01]
/-- 2^64 - 13 as a varint. -/
def minusThirteen : Bytes := [0xf3, 0xff, 0xff, 0xff, 0xff, 0xff, 0xff, 0xff, 0xff, 0x01]

/-- A link of claimed length two, whose hash is three bytes long, followed by a field number 4 with a length of 2^64 - 16: as far back as
the hash. -/
def endlessLink : Bytes := [0x12, 0x02, 0x0a, 0x03, 1, 2, 3, 0x22] ++ minusSixteen

/-- A modification time of claimed length one, whose seconds take two bytes, followed by a field number 2 with a length of 2^64 - 13: as
far back as the seconds. -/
def endlessTime : Bytes := [0x42, 0x01, 0x08, 0x05, 0x12] ++ minusThirteen

/-- A link of claimed length two, whose hash is three bytes long, followed by a field number 4 with a length of 2^64 - 14: as far back as
the end of the link; read again from there, the hash is an unknown field which covers the rest; then a file of no bytes as Data. -/
def backToEnd : Bytes := [0x12, 0x02, 0x0a, 0x03, 0x1a, 0x0c, 0x00, 0x22] ++ minusFourteen ++ [0x0a, 0x04, 0x08, 0x02, 0x18, 0x00]

/-- While a block is read, fields of a link go on behind its end, or fields of a modification time in its Data. -/
def Overrun (b : Bytes) : Prop :=
  NodeOverrun b ∨ ∃ ns d, IsNode b ns ∧ nodeData ns = some d ∧ d ≠ [] ∧ DataOverrun d

end Verif.Spec
