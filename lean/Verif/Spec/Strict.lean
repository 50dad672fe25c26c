import Verif.Spec.FileTree
/-
What the blocks of UnixFS files, directories and symlinks look like, byte by byte, in the form which dag-pb prescribes: links first, data
last, every link with its three fields in order, numbers as short as possible. Nothing here refers to the readers and writers of the model.
-/
namespace Verif.Spec
open Verif

/-- The shortest form of a number in groups of seven bits, the low ones first; all but the last one have the top bit set. -/
inductive Leb128 : Nat → Bytes → Prop
  | last {n : Nat} : n < 128 → Leb128 n [UInt8.ofNat n]
  | more {k n : Nat} {bs : Bytes} : k < 128 → 0 < n → Leb128 n bs → Leb128 (k + 128 * n) (UInt8.ofNat (k + 128) :: bs)

/-- A field with a number. -/
def KeyNum (key : UInt8) (n : Nat) (out : Bytes) : Prop := ∃ v, Leb128 n v ∧ out = key :: v

/-- A field with bytes: their number, and they themselves. -/
def KeyBytes (key : UInt8) (x : Bytes) (out : Bytes) : Prop := ∃ v, Leb128 x.length v ∧ out = key :: (v ++ x)

/-- Several fields with a number each. -/
inductive KeyNums (key : UInt8) : List Nat → Bytes → Prop
  | nil : KeyNums key [] []
  | cons {n : Nat} {ns : List Nat} {a b : Bytes} : KeyNum key n a → KeyNums key ns b → KeyNums key (n :: ns) (a ++ b)

/-- A link of a node: the bytes of a Cid, a name, and the total size below it. -/
def StrictLink (hash name : Bytes) (total : Nat) (out : Bytes) : Prop :=
  ∃ a b c, KeyBytes 0x0A hash a ∧ KeyBytes 0x12 name b ∧ KeyNum 0x18 total c ∧ KeyBytes 0x12 (a ++ (b ++ c)) out

/-- A node: its links, then its data. -/
inductive StrictNode : List (Bytes × Bytes × Nat) → Bytes → Bytes → Prop
  | data {d out : Bytes} : KeyBytes 0x0A d out → StrictNode [] d out
  | link {hash name : Bytes} {total : Nat} {ls : List (Bytes × Bytes × Nat)} {d a out : Bytes} : StrictLink hash name total a →
      StrictNode ls d out → StrictNode ((hash, name, total) :: ls) d (a ++ out)

/-- The data of a file node: type 2, the bytes if there are any, the size of the file below, and those below each link. -/
def FileData (d : Bytes) (size : Nat) (sizes : List Nat) (out : Bytes) : Prop :=
  ∃ a b c, (if d = [] then a = [] else KeyBytes 0x12 d a) ∧ KeyNum 0x18 size b ∧ KeyNums 0x20 sizes c ∧ out = 0x08 :: 0x02 :: (a ++ (b ++ c))

/-- The data of a directory: type 1. -/
def directoryBytes : Bytes := [0x08, 0x01]

/-- The data of a symlink: type 4, and the target. -/
def SymlinkData (target : Bytes) (out : Bytes) : Prop := ∃ a, KeyBytes 0x12 target a ∧ out = 0x08 :: 0x04 :: a

/-- The bytes of the Cid of a block: version 1, dag-pb, a hash of 32 bytes by sha2-256. -/
def cidBytes (sha : Bytes → Bytes) (block : Bytes) : Bytes := [0x01, 0x70, 0x12, 0x20] ++ sha block

mutual
/-- `FileBytes sha t block total`: the block of a tree, and the number of bytes of all blocks in it. -/
inductive FileBytes (sha : Bytes → Bytes) : FTree → Bytes → Nat → Prop
  | leaf {d data out : Bytes} : FileData d d.length [] data → StrictNode [] data out → FileBytes sha (.leaf d) out out.length
  | node {ts : List FTree} {links : List (Bytes × Bytes × Nat)} {data out : Bytes} : FileLinks sha ts links →
      FileData [] (FTree.contents ts).length (ts.map (fun t => t.content.length)) data → StrictNode links data out →
      FileBytes sha (.node ts) out (out.length + (links.map (fun l => l.2.2)).sum)
/-- The links to several trees; they have no names. -/
inductive FileLinks (sha : Bytes → Bytes) : List FTree → List (Bytes × Bytes × Nat) → Prop
  | nil : FileLinks sha [] []
  | cons {t : FTree} {ts : List FTree} {block : Bytes} {total : Nat} {links : List (Bytes × Bytes × Nat)} : FileBytes sha t block total →
      FileLinks sha ts links → FileLinks sha (t :: ts) ((cidBytes sha block, [], total) :: links)
end

end Verif.Spec
