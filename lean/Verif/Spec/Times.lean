import Verif.FileTimes
/-
Points in time.
-/
namespace Verif.Spec
open Verif

/-- The block declares a time of modification of so many seconds and nanoseconds since 1970-01-01; nanoseconds which are not
given are 0. -/
def ModifiedAt (block : Bytes) (seconds : Int) (nanos : Nat) : Prop :=
  ∃ m t, FlatUnixFs.tryParse block = .ok m ∧ m.data.mtime = some t ∧ t.Seconds = seconds ∧
    (t.FractionalNanoseconds = some nanos ∨ (t.FractionalNanoseconds = none ∧ nanos = 0))

/-- The nanoseconds since 1970-01-01. -/
def instant (seconds : Int) (nanos : Nat) : Int := seconds * 1000000000 + nanos

end Verif.Spec
