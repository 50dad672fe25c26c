import Verif.Spec.Sharing
import Verif.Spec.Reading
/-
Which blocks a ranged read of an added file needs.
-/
namespace Verif.Spec
open Verif

/-- The piece number `i` of the content, in pieces of `s` bytes. -/
def pieceNo (s : Nat) (x : Bytes) (i : Nat) : Bytes := (x.drop (i * s)).take s

/-- The interval of the content's bytes which it covers. -/
def pieceSpan (s : Nat) (x : Bytes) (i : Nat) : Rng := ⟨i * s, min ((i + 1) * s) x.length⟩

/-- The numbers of the pieces of the level `k` which the range touches. -/
def touched (c bf : Nat) (x : Bytes) (r : Rng) (k : Nat) : List Nat :=
  (List.range (chunks (span c bf k) x).length).filter (fun i => touches r (pieceSpan (span c bf k) x i))

/-- The Cid of the block of a piece of the level `k`. -/
def pieceCid (sha : Bytes → Bytes) (c bf : Nat) (x : Bytes) (k i : Nat) : Cid :=
  ((pieceTree c bf k (pieceNo (span c bf k) x i)).entry sha).1

end Verif.Spec
