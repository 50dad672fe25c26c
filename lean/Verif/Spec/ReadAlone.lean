import Verif.Spec.Walking
import Verif.Spec.FsTree
import Verif.Spec.Reading
/-
Reading a file by itself and reading it during a walk.
-/
namespace Verif.Spec
open Verif

/-- The blocks of `run`, given one after the other to a file visit of its own (`IdleFileVisit::start`, then
`FileVisit::continue_walk`), are answered with the bytes which the items of `run` carry, with the size `size` and the metadata `md`;
the visit is then `next` (at its end: none). The items are segments of the file `c` at `path`; the first one only is flagged first,
the one at which the visit ends only is flagged last. -/
inductive ReadAlone (c : Cid) (path : PathBuf) (md : Metadata) (size : Nat) : List (Bytes × ContinuedWalk) → Option FileVisit → Prop
  | first {block bytes next} : IdleFileVisit.start {} block = .ok ⟨bytes, size, md, next⟩ →
      ReadAlone c path md size [(block, .File ⟨bytes, true, next.isNone⟩ c path md size)] next
  | later {run v block bytes next} : ReadAlone c path md size run (some v) → (v.continueWalk block none).1 = .ok (bytes, next) →
      ReadAlone c path md size (run ++ [(block, .File ⟨bytes, false, next.isNone⟩ c path md size)]) next

/-- A segment of a file of which more is to come. -/
def MoreToCome (item : ContinuedWalk) : Prop := ∃ seg c path md size, item = .File seg c path md size ∧ seg.last_block = false

/-- What the failure of a visit is to a walk: the same error; but the failure to parse a block of a file is a panic. -/
def walkAnswer {α β : Type} (f : α → β) : Res FileReadFailed α → Res WalkError β
  | .ok a => .ok (f a)
  | .err (.File e) => .err (.File e)
  | .err (.UnexpectedType t) => .err (.UnexpectedType t)
  | .err (.InvalidCid l) => .err (.InvalidCid l)
  | .err (.Read _) => .panic .walkRead
  | .panic p => .panic p

/-- The same for a whole read. -/
def walkOutcome : Res ReadError (Bytes × List Cid) → Res WalkFail Bytes
  | .ok (x, _) => .ok x
  | .err (.missing c) => .err (.missing c)
  | .err .noLinks => .err .noLinks
  | .err (.failed (.File e)) => .err (.failed (.File e))
  | .err (.failed (.UnexpectedType t)) => .err (.failed (.UnexpectedType t))
  | .err (.failed (.InvalidCid l)) => .err (.failed (.InvalidCid l))
  | .err (.failed (.Read _)) => .panic .walkRead
  | .panic p => .panic p

/-- The bytes of all file segments. -/
def fileBytes (items : List ContinuedWalk) : Bytes :=
  items.flatMap (fun | .File seg _ _ _ _ => seg.bytes | _ => [])

end Verif.Spec
