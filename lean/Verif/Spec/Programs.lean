import Verif.Programs
import Verif.Spec.CidTexts
import Verif.Spec.Text
/-
Files of a block store, and what the example programs write.
-/
namespace Verif.Spec
open Verif Verif.Examples

/-- `FlatfsPath c p`: the file for the block with the Cid `c` below the directory of a repository: in `blocks`, the bytes of the Cid with base 32
in capital letters and the suffix `.data`, in a directory which is named by the two letters before the last one. -/
def FlatfsPath (c : Cid) (p : List Bytes) : Prop :=
  ∃ front dir last, dir.length = 2 ∧ last.length = 1 ∧ InBase32 "ABCDEFGHIJKLMNOPQRSTUVWXYZ234567" c.toBytes (front ++ dir ++ last) ∧
    p = [asciiOf "blocks", dir, front ++ dir ++ last ++ asciiOf ".data"]

/-- The blocks are in the files of the repository `root`. -/
def OnDisk (m : Machine) (root : Bytes) (blocks : List (Cid × Bytes)) : Prop :=
  ∀ e ∈ blocks, ∀ p, FlatfsPath e.1 p → m.file root p = some e.2

/-- A line on what `resolve` is doing. -/
def Chatter (line : Text) : Prop := '\n' ∉ line ∧ ("cache ".toList <+: line ∨ "got lucky: found ".toList <+: line)

/-- Lines, a newline after each. -/
def asLines (lines : List Text) : Bytes := lines.flatMap (fun l => encodeText l ++ asciiOf "\n")

/-- The last line which was written, without the newline at its end: what `tail -n 1` would give to the next program. -/
def LastLine (out line : Bytes) : Prop :=
  10 ∉ line ∧ ∃ before, (before = [] ∨ [10] <:+ before) ∧ out = before ++ line ++ [10]

end Verif.Spec
