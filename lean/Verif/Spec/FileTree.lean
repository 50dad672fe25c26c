import Verif.Messages
import Verif.Cid
/-
Specification of UnixFS file trees, independent of the adder and of the reader.
-/
namespace Verif.Spec
open Verif

/-- A file tree: leaves carry content, inner nodes an ordered list of children. -/
inductive FTree where
  | leaf (data : Bytes)
  | node (children : List FTree)

namespace FTree

mutual
/-- The file content below a node: the leaves' data in order. -/
def content : FTree → Bytes
  | leaf d => d
  | node ts => contents ts
def contents : List FTree → Bytes
  | [] => []
  | t :: ts => content t ++ contents ts
end

mutual
/-- The data of the leaves, in order. -/
def leaves : FTree → List Bytes
  | leaf d => [d]
  | node ts => leavesL ts
def leavesL : List FTree → List Bytes
  | [] => []
  | t :: ts => leaves t ++ leavesL ts
end

mutual
/-- All nodes of the tree (a node stands for the subtree below it), parents before children. -/
def nodes : FTree → List FTree
  | leaf d => [leaf d]
  | node ts => node ts :: nodesL ts
def nodesL : List FTree → List FTree
  | [] => []
  | t :: ts => nodes t ++ nodesL ts
end

/-- The direct children. -/
def children : FTree → List FTree
  | leaf _ => []
  | node ts => ts

/-- All leaves are at depth exactly `h` below the root. -/
def Uniform : Nat → FTree → Prop
  | 0, leaf _ => True
  | h + 1, node ts => ∀ t ∈ ts, Uniform h t
  | _, _ => False

/-- Every inner node has between one and `bf` children. -/
def Arity (bf : Nat) (t : FTree) : Prop := ∀ s ∈ t.nodes, ∀ ts, s = node ts → 1 ≤ ts.length ∧ ts.length ≤ bf

/-- What a parent needs to know about a child: the encoded block, the total length of all blocks below and including
it, and the number of content bytes below it. -/
structure Info where
  block : Bytes
  total : Nat
  size : Nat

/-- A leaf is a linkless UnixFS `File` node with its size; the data field is absent for the empty file. -/
def leafMsg (d : Bytes) : FlatUnixFs :=
  { links := [], data := { Ty := .File, Data := if d = [] then none else some d, filesize := some d.length } }

/-- An inner node is a UnixFS `File` node with one unnamed link and one blocksize per child. -/
def nodeMsg (sha : Bytes → Bytes) (cs : List Info) : FlatUnixFs :=
  { links := cs.map (fun c =>
      { Hash := some (cidOf sha c.block).toBytes, Name := some [], Tsize := some c.total })
    data := { Ty := .File, filesize := some (cs.map (·.size)).sum, blocksizes := cs.map (·.size) } }

def leafInfo (d : Bytes) : Info := ⟨(leafMsg d).write, (leafMsg d).write.length, d.length⟩

def nodeInfo (sha : Bytes → Bytes) (cs : List Info) : Info :=
  ⟨(nodeMsg sha cs).write, (cs.map (·.total)).sum + (nodeMsg sha cs).write.length, (cs.map (·.size)).sum⟩

mutual
def info (sha : Bytes → Bytes) : FTree → Info
  | leaf d => leafInfo d
  | node ts => nodeInfo sha (infos sha ts)
def infos (sha : Bytes → Bytes) : List FTree → List Info
  | [] => []
  | t :: ts => info sha t :: infos sha ts
end

/-- The block of a node in the balanced layout. -/
def block (sha : Bytes → Bytes) (t : FTree) : Bytes := (info sha t).block

/-- The Cid of a node. -/
def cid (sha : Bytes → Bytes) (t : FTree) : Cid := cidOf sha (t.block sha)

/-- The total length of the blocks of all nodes below and including this one, each occurrence counted. -/
def total (sha : Bytes → Bytes) (t : FTree) : Nat := (t.nodes.map (fun s => (s.block sha).length)).sum

/-- The `(cid, block)` pair of a node. -/
def entry (sha : Bytes → Bytes) (t : FTree) : Cid × Bytes := (t.cid sha, t.block sha)

end FTree

/-- The first argument bounds the number of groups. -/
def groupsF {α : Type} (n : Nat) : Nat → List α → List (List α)
  | 0, _ => []
  | k + 1, l => if l.isEmpty then [] else l.take n :: groupsF n k (l.drop n)

/-- The consecutive `n`-element pieces of a list, the last one possibly shorter. -/
def groups {α : Type} (n : Nat) (l : List α) : List (List α) := groupsF n l.length l

end Verif.Spec
