import Verif.Access
/-
Model of `Metadata::mtime_as_filetime`, `/repo/src/lib.rs:161-166`, with the part of the crate `filetime` (0.2.15, see
`/repo/Cargo.lock`) which it uses: `FileTime`, its constructor, its accessors and its derived order. The model of that crate is
from its documented behaviour, as its source is not in `/repo`.
-/
namespace Verif

/-- `filetime::FileTime`: the seconds are counted from an epoch which depends on the platform. (crate filetime 0.2.15, used at `src/lib.rs:161-166`.) -/
structure FileTime where
  seconds : Int
  nanos : Nat
  deriving DecidableEq, Repr

/-- The seconds between the platform's epoch and 1970-01-01: the one of Windows is 1601-01-01. (crate filetime 0.2.15, used at `src/lib.rs:161-166`.) -/
def FileTime.offset (windows : Bool) : Int := if windows then 11644473600 else 0

/-- The checked sum of two `i64`; `none` is a panic (overflow checks are on, as in `Basic.lean`). (crate filetime 0.2.15, used at `src/lib.rs:161-166`.) -/
def addI64 (a b : Int) : Option Int := if -(2 ^ 63 : Int) ≤ a + b ∧ a + b < (2 ^ 63 : Int) then some (a + b) else none

/-- `FileTime::from_unix_time`; `none` is a panic. (crate filetime 0.2.15, used at `src/lib.rs:161-166`.) -/
def FileTime.fromUnixTime (windows : Bool) (seconds : Int) (nanos : Nat) : Option FileTime :=
  (addI64 seconds (FileTime.offset windows)).map (fun s => ⟨s, nanos⟩)

/-- `FileTime::unix_seconds`; `none` is a panic. (crate filetime 0.2.15, used at `src/lib.rs:161-166`.) -/
def FileTime.unixSeconds (windows : Bool) (self : FileTime) : Option Int := addI64 self.seconds (-FileTime.offset windows)

/-- `FileTime::nanoseconds`. (crate filetime 0.2.15, used at `src/lib.rs:161-166`.) -/
def FileTime.nanoseconds (self : FileTime) : Nat := self.nanos

/-- The derived `Ord` of `FileTime`: first the seconds, then the nanoseconds. (crate filetime 0.2.15, used at `src/lib.rs:161-166`.) -/
def FileTime.cmp (a b : FileTime) : Ordering := (compare a.seconds b.seconds).then (compare a.nanos b.nanos)

/-- `Metadata::mtime_as_filetime`, `src/lib.rs:161-166`; the outer `none` is a panic. -/
def Metadata.mtimeAsFiletime (windows : Bool) (self : Metadata) : Option (Option FileTime) :=
  match self.getMtime with
  | none => some none
  | some (seconds, nanos) => (FileTime.fromUnixTime windows seconds nanos).map some

end Verif
