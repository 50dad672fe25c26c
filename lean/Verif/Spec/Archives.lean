import Verif.Ingest
import Verif.Spec.AtPath
import Verif.Spec.Balanced
/-
What an archive is: paths with files, symlinks and directories. And which blocks and which calls of the builder belong to its
entries.
-/
namespace Verif.Spec
open Verif Verif.Ingest

/-- The bytes read: everything before the first empty read. -/
def bytesRead : List Bytes → Bytes
  | [] | [] :: _ => []
  | (b :: x) :: rest => b :: x ++ bytesRead rest

/-- A link name makes it a symlink, a slash at the end of the path a directory; all others are files. -/
def _root_.Verif.Ingest.TarEntry.content (e : TarEntry) : Content :=
  match e.link with
  | some target => .symlink target
  | none => if e.path.getLast? = some slash then .dir else .file (bytesRead e.reads)

/-- The path under which the entry is put: without the slash which makes it a directory. -/
def _root_.Verif.Ingest.TarEntry.name (e : TarEntry) : Bytes :=
  if e.content = .dir then e.path.dropLast else e.path

/-- The entry is at the path with these components. -/
def _root_.Verif.Ingest.TarEntry.At (e : TarEntry) (cs : List Bytes) : Prop := PathOf e.name cs

/-- Paths and link names have less than 2^31 bytes. -/
def _root_.Verif.Ingest.TarEntry.Small (e : TarEntry) : Prop := e.path.length < 2 ^ 31 ∧ ∀ t, e.link = some t → t.length < 2 ^ 31

/-- The path and the link name are UTF-8. -/
def _root_.Verif.Ingest.TarEntry.Text (e : TarEntry) : Prop := validUtf8 e.path = true ∧ ∀ t, e.link = some t → validUtf8 t = true

/-- `Stored sha e op blocks`: the entry `e` has the blocks `blocks`, and is put into a directory with the call `op`. A file is
added with the default configuration; its link leads to its last block and has the size of all of them. -/
inductive Stored (sha : Bytes → Bytes) (e : TarEntry) : Op → Saved → Prop
  | file {x blocks root} : e.content = .file x → Adds sha 262144 174 x blocks → blocks.getLast? = some root →
      Stored sha e (.putLink e.name root.1 (blocks.map (·.2.length)).sum) blocks
  | symlink {t} : e.content = .symlink t →
      Stored sha e (.putLink e.name (cidOf sha (symlinkBlock t)) (symlinkBlock t).length) [(cidOf sha (symlinkBlock t), symlinkBlock t)]
  | dir : e.content = .dir → Stored sha e (.setMetadata e.name {}) []

/-- The same for all entries, in order. -/
inductive StoredAll (sha : Bytes → Bytes) : List TarEntry → List Op → Saved → Prop
  | nil : StoredAll sha [] [] []
  | cons {e es op ops bs bss} : Stored sha e op bs → StoredAll sha es ops bss → StoredAll sha (e :: es) (op :: ops) (bs ++ bss)

/-- Two entries which can be in one tree: nothing else is at or below the path of a file or symlink. -/
def CanCoexist (a b : TarEntry) : Prop :=
  ∀ p q, a.At p → b.At q → (a.content ≠ .dir → ¬ p <+: q) ∧ (b.content ≠ .dir → ¬ q <+: p)

end Verif.Spec
