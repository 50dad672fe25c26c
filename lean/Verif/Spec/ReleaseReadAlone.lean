import Verif.Spec.ReadAlone
import Verif.Spec.ReleaseRun
/-
Reading a file by itself in a release build.
-/
namespace Verif.Spec
open Verif

/-- As `ReadAlone`, in a release build: the blocks of `run`, given one after the other to a file visit of its own, are answered with the
bytes which the items of `run` carry, with the size `size` and the metadata `md`; the visit is then `next` (at its end: none). The items
are segments of the file `c` at `path`; the first one only is flagged first, the one at which the visit ends only is flagged last. -/
inductive ReadAloneRel (c : Cid) (path : PathBuf) (md : Metadata) (size : Nat) : List (Bytes × ContinuedWalk) → Option FileVisit → Prop
  | first {block bytes next} : IdleFileVisit.startRel {} block = some (.ok ⟨bytes, size, md, next⟩) →
      ReadAloneRel c path md size [(block, .File ⟨bytes, true, next.isNone⟩ c path md size)] next
  | later {run v block bytes next} : ReadAloneRel c path md size run (some v) →
      (v.continueWalkRel block none).map (·.1) = some (.ok (bytes, next)) →
      ReadAloneRel c path md size (run ++ [(block, .File ⟨bytes, false, next.isNone⟩ c path md size)]) next

end Verif.Spec
