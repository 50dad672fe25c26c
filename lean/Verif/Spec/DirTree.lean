import Verif.BuilderIter
/-
Specification of directory trees and of their encoding, independent of the builder and of the iterator.
-/
namespace Verif.Spec
open Verif

/-- A directory tree: named links to opaque targets, and named directories. The contents of a directory are listed in
increasing order of the names. -/
inductive DTree where
  | link (name : Bytes) (cid : Cid) (total : Nat)
  | dir (name : Bytes) (kids : List DTree)

/-- What a directory block says about an entry. -/
structure Item where
  name : Bytes
  cid : Cid
  total : Nat
  deriving DecidableEq, Repr

/-- A UnixFS directory with the given entries. -/
def dirMsg (items : List Item) : FlatUnixFs :=
  { links := items.map (fun i => { Hash := some i.cid.toBytes, Name := some i.name, Tsize := some i.total })
    data := { Ty := .Directory } }

/-- The block of a directory with the given entries. -/
def dirBlock (items : List Item) : Bytes := (dirMsg items).write

/-- The total size of a directory with the given entries: its own block and everything below. -/
def dirTotal (items : List Item) : Nat := (dirBlock items).length + (items.map (·.total)).sum

namespace DTree

def name : DTree → Bytes
  | link n _ _ => n
  | dir n _ => n

mutual
/-- How an entry appears in its directory. -/
def item (sha : Bytes → Bytes) : DTree → Item
  | link n c s => ⟨n, c, s⟩
  | dir n ks => ⟨n, cidOf sha (dirBlock (items sha ks)), dirTotal (items sha ks)⟩
def items (sha : Bytes → Bytes) : List DTree → List Item
  | [] => []
  | k :: ks => item sha k :: items sha ks
end

end DTree

/-- Components joined with slashes. -/
def joinSlash : List Bytes → Bytes
  | [] => []
  | [x] => x
  | x :: y :: xs => x ++ slash :: joinSlash (y :: xs)

/-- The node for the directory at the given path with the given contents. -/
def nodeOf (sha : Bytes → Bytes) (path : List Bytes) (ks : List DTree) : TreeNode :=
  ⟨joinSlash path, cidOf sha (dirBlock (DTree.items sha ks)), dirTotal (DTree.items sha ks), dirBlock (DTree.items sha ks)⟩

namespace DTree

mutual
/-- The directories in a tree below `path`: children before parents, later names before earlier ones. -/
def postOrder (sha : Bytes → Bytes) (path : List Bytes) : DTree → List TreeNode
  | link _ _ _ => []
  | dir n ks => postOrderL sha (path ++ [n]) ks ++ [nodeOf sha (path ++ [n]) ks]
def postOrderL (sha : Bytes → Bytes) (path : List Bytes) : List DTree → List TreeNode
  | [] => []
  | k :: ks => postOrderL sha path ks ++ postOrder sha path k
end

mutual
/-- The paths of the directories in a tree. -/
def dirPaths (path : List Bytes) : DTree → List (List Bytes)
  | link _ _ _ => []
  | dir n ks => (path ++ [n]) :: dirPathsL (path ++ [n]) ks
def dirPathsL (path : List Bytes) : List DTree → List (List Bytes)
  | [] => []
  | k :: ks => dirPaths path k ++ dirPathsL path ks
end

end DTree

/-- What is at a path of a directory tree. -/
inductive Thing where
  | link (cid : Cid) (total : Nat)
  | dir
  deriving DecidableEq, Repr

/-- The entry of that name. -/
def kid (name : Bytes) : List DTree → Option DTree
  | [] => none
  | k :: ks => if k.name = name then some k else kid name ks

/-- Following a path. The empty path is the directory itself. -/
def lookupPath : List Bytes → List DTree → Option Thing
  | [], _ => some .dir
  | n :: p, ks =>
    match kid n ks with
    | none => none
    | some (.link _ c s) => if p = [] then some (.link c s) else none
    | some (.dir _ ks') => lookupPath p ks'

mutual
/-- In every directory the names are strictly increasing in byte order. -/
def Sorted : DTree → Prop
  | .link _ _ _ => True
  | .dir _ ks => SortedL ks
def SortedL : List DTree → Prop
  | [] => True
  | k :: ks => (∀ k' ∈ ks, k.name < k'.name) ∧ Sorted k ∧ SortedL ks
end

/-- Everything built from a tree: the directories in it and, when wrapping, the wrapping directory. -/
def allNodes (sha : Bytes → Bytes) (wrap : Bool) (ks : List DTree) : List TreeNode :=
  DTree.postOrderL sha [] ks ++ if wrap then [nodeOf sha [] ks] else []

/-- Within the block size limit. -/
def Within (limit : Option Nat) (n : TreeNode) : Prop := ∀ l, limit = some l → n.block.length ≤ l

/-- Calling `next` until it returns something else than a node: the nodes and the last answer. `none`: this goes on
forever. -/
def drainAll (sha : Bytes → Bytes) (it : PostOrderIterator) : Option (List TreeNode × IterNext × PostOrderIterator) :=
  match PostOrderIterator.next sha it with
  | none => none
  | some (.item n, it) => do
    let (ns, last, it) ← drainAll sha it
    some (n :: ns, last, it)
  | some (other, it) => some ([], other, it)
partial_fixpoint

end Verif.Spec
