import Verif.Spec.Release
import Verif.Spec.Answers
/-
Everything the iterator over a directory tree answers in a release build, as a function of the tree: there total sizes are
counted modulo 2^64.
-/
namespace Verif.Spec
open Verif

/-- The size of the block of a directory together with the total sizes of its entries, modulo 2^64. -/
def dirTotalW (items : List Item) : Nat := dirTotal items % U64

mutual
/-- How an entry appears in the block of its directory. -/
def _root_.Verif.Spec.DTree.itemW (sha : Bytes → Bytes) : DTree → Item
  | .link n c s => ⟨n, c, s⟩
  | .dir n ks => ⟨n, cidOf sha (dirBlock (DTree.itemsW sha ks)), dirTotalW (DTree.itemsW sha ks)⟩
/-- How all entries of a directory appear in its block. -/
def _root_.Verif.Spec.DTree.itemsW (sha : Bytes → Bytes) : List DTree → List Item
  | [] => []
  | k :: ks => k.itemW sha :: DTree.itemsW sha ks
end

/-- The node for the directory `path` with entries `ks`. -/
def nodeOfW (sha : Bytes → Bytes) (path : List Bytes) (ks : List DTree) : TreeNode :=
  ⟨joinSlash path, cidOf sha (dirBlock (DTree.itemsW sha ks)), dirTotalW (DTree.itemsW sha ks), dirBlock (DTree.itemsW sha ks)⟩

/-- The fate of a directory with entries `ks`, given what became of these: the only panic is for a missing entry. -/
def dirFateW (sha : Bytes → Bytes) (limit : Option Nat) (ks : List DTree) : Fate → Fate
  | .panicked => .panicked
  | .missing => .panicked
  | .filled => if tooLarge limit (dirBlock (DTree.itemsW sha ks)).length then .missing else .filled

/-- The answer for a directory with entries `ks`, given what became of these. -/
def dirAnswerW (sha : Bytes → Bytes) (limit : Option Nat) (path : List Bytes) (ks : List DTree) : Fate → List IterNext
  | .panicked => []
  | .missing => [.panic .customPbMissing]
  | .filled =>
    if tooLarge limit (dirBlock (DTree.itemsW sha ks)).length then [.failed (.TooLargeBlock (dirBlock (DTree.itemsW sha ks)).length)]
    else [.item (nodeOfW sha path ks)]

mutual
/-- What becomes of an entry. -/
def fateW (sha : Bytes → Bytes) (limit : Option Nat) : DTree → Fate
  | .link _ _ _ => .filled
  | .dir _ ks => dirFateW sha limit ks (fateLW sha limit ks)
/-- The worst which becomes of the entries. -/
def fateLW (sha : Bytes → Bytes) (limit : Option Nat) : List DTree → Fate
  | [] => .filled
  | k :: ks => (fateLW sha limit ks).worse (fateW sha limit k)
end

mutual
/-- The answers for an entry of the directory `path`. -/
def answersW (sha : Bytes → Bytes) (limit : Option Nat) (path : List Bytes) : DTree → List IterNext
  | .link _ _ _ => []
  | .dir n ks => answersLW sha limit (path ++ [n]) ks ++ dirAnswerW sha limit (path ++ [n]) ks (fateLW sha limit ks)
/-- The answers for the entries of the directory `path`: later names before earlier ones, up to the first panic. -/
def answersLW (sha : Bytes → Bytes) (limit : Option Nat) (path : List Bytes) : List DTree → List IterNext
  | [] => []
  | k :: ks => answersLW sha limit path ks ++ if fateLW sha limit ks = .panicked then [] else answersW sha limit path k
end

/-- All answers, up to the end or the first panic: at the end, the root if wrapping. -/
def allAnswersW (sha : Bytes → Bytes) (opts : TreeOptions) (ks : List DTree) : List IterNext :=
  answersLW sha opts.block_size_limit [] ks ++
    if opts.wrap_with_directory then dirAnswerW sha opts.block_size_limit [] ks (fateLW sha opts.block_size_limit ks) else []

mutual
/-- The directories in a tree below `path`: children before parents, later names before earlier ones. -/
def postOrderW (sha : Bytes → Bytes) (path : List Bytes) : DTree → List TreeNode
  | .link _ _ _ => []
  | .dir n ks => postOrderLW sha (path ++ [n]) ks ++ [nodeOfW sha (path ++ [n]) ks]
def postOrderLW (sha : Bytes → Bytes) (path : List Bytes) : List DTree → List TreeNode
  | [] => []
  | k :: ks => postOrderLW sha path ks ++ postOrderW sha path k
end

/-- Everything built from a tree: the directories in it and, when wrapping, the wrapping directory. -/
def allNodesW (sha : Bytes → Bytes) (wrap : Bool) (ks : List DTree) : List TreeNode :=
  postOrderLW sha [] ks ++ if wrap then [nodeOfW sha [] ks] else []

/-- The node which is built for the directory at the path with components `cs`. -/
def NodeAtW (sha : Bytes → Bytes) (ks : List DTree) (cs : List Bytes) (x : TreeNode) : Prop :=
  ∃ es, entriesAt cs ks = some es ∧ x = nodeOfW sha cs es

mutual
/-- The total sizes of all the links below. -/
def linkTotals : DTree → Nat
  | .link _ _ s => s
  | .dir _ ks => linkTotalsL ks
def linkTotalsL : List DTree → Nat
  | [] => 0
  | k :: ks => linkTotals k + linkTotalsL ks
end

/-- The lengths of the blocks of nodes, together. -/
def blockBytes (xs : List TreeNode) : Nat := (xs.map (fun x => x.block.length)).sum

/-- No call panics in a release build, and each returns. -/
def NeverPanicsR (sha : Bytes → Bytes) (it : PostOrderIterator) : Prop := ∀ n, (nextsR sha n it).isSome

end Verif.Spec
