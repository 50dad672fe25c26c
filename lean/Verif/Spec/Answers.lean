import Verif.Spec.Building
/-
Everything the iterator over a directory tree answers, including after errors, as a function of the tree.
-/
namespace Verif.Spec
open Verif

/-- Above the limit. -/
def tooLarge (limit : Option Nat) (size : Nat) : Bool :=
  match limit with
  | some l => decide (l < size)
  | none => false

/-- What became of a directory: its block was yielded and is known to the parent; it was too large, so the parent misses it;
or there was a panic. -/
inductive Fate where
  | filled
  | missing
  | panicked
  deriving DecidableEq, Repr

/-- The fate of a directory with entries `ks`, given what became of these. -/
def dirFate (sha : Bytes → Bytes) (limit : Option Nat) (ks : List DTree) : Fate → Fate
  | .panicked => .panicked
  | .missing => .panicked
  | .filled =>
    if tooLarge limit (dirBlock (DTree.items sha ks)).length then .missing
    else if dirTotal (DTree.items sha ks) < U64 then .filled else .panicked

/-- The answer for a directory with entries `ks`, given what became of these. -/
def dirAnswer (sha : Bytes → Bytes) (limit : Option Nat) (path : List Bytes) (ks : List DTree) : Fate → List IterNext
  | .panicked => []
  | .missing => [.panic .customPbMissing]
  | .filled =>
    if tooLarge limit (dirBlock (DTree.items sha ks)).length then [.failed (.TooLargeBlock (dirBlock (DTree.items sha ks)).length)]
    else if dirTotal (DTree.items sha ks) < U64 then [.item (nodeOf sha path ks)] else [.panic .iterOverflow]

/-- Of two: a panic counts most, then a missing block. -/
def Fate.worse : Fate → Fate → Fate
  | .panicked, _ => .panicked
  | _, .panicked => .panicked
  | .missing, _ => .missing
  | _, .missing => .missing
  | .filled, .filled => .filled

mutual
/-- What becomes of an entry. -/
def fate (sha : Bytes → Bytes) (limit : Option Nat) : DTree → Fate
  | .link _ _ _ => .filled
  | .dir _ ks => dirFate sha limit ks (fateL sha limit ks)
/-- The worst which becomes of the entries. -/
def fateL (sha : Bytes → Bytes) (limit : Option Nat) : List DTree → Fate
  | [] => .filled
  | k :: ks => (fateL sha limit ks).worse (fate sha limit k)
end

mutual
/-- The answers for an entry of the directory `path`. -/
def answers (sha : Bytes → Bytes) (limit : Option Nat) (path : List Bytes) : DTree → List IterNext
  | .link _ _ _ => []
  | .dir n ks => answersL sha limit (path ++ [n]) ks ++ dirAnswer sha limit (path ++ [n]) ks (fateL sha limit ks)
/-- The answers for the entries of the directory `path`: later names before earlier ones, up to the first panic. -/
def answersL (sha : Bytes → Bytes) (limit : Option Nat) (path : List Bytes) : List DTree → List IterNext
  | [] => []
  | k :: ks => answersL sha limit path ks ++ if fateL sha limit ks = .panicked then [] else answers sha limit path k
end

/-- All answers, up to the end or the first panic: at the end, the root if wrapping. -/
def allAnswers (sha : Bytes → Bytes) (opts : TreeOptions) (ks : List DTree) : List IterNext :=
  answersL sha opts.block_size_limit [] ks ++
    if opts.wrap_with_directory then dirAnswer sha opts.block_size_limit [] ks (fateL sha opts.block_size_limit ks) else []

/-- The first `n` of some answers, followed by `None` forever; there are none if there is a panic among them. -/
def firstAnswers : Nat → List IterNext → Option (List IterNext)
  | 0, _ => some []
  | n + 1, [] => (firstAnswers n []).map (.finished :: ·)
  | _ + 1, .panic _ :: _ => none
  | n + 1, a :: rest => (firstAnswers n rest).map (a :: ·)

end Verif.Spec
