import Verif.BuilderIter
import Verif.Adder
import Verif.DagPb
/-
Model of `ingest_tar`, `/repo/benches/ingest-tar.rs:24-139`: the only program in the repository which uses the adder, symlinks and
the directory builder together. The archive is the list of its entries. The benchmark computes the blocks and drops them; the model
also returns them, in the order in which they are computed. Not modelled: the format of the archive and failures to read it
(`:32`, `:39`, `:93`), and the reuse of the buffer, which is cleared before it is used for a symlink (`:50`) and otherwise
holds what was read.
-/
namespace Verif.Ingest
open Verif

/-- An entry of an archive: `path_bytes()`, `link_name_bytes()`, and what the successive calls of `read` give. (`benches/ingest-tar.rs:38-46`, `:93`.) -/
structure TarEntry where
  path : Bytes
  link : Option Bytes := none
  reads : List Bytes := []
  deriving DecidableEq, Repr

/-- Blocks, in the order in which they were computed. (not collected in `benches/ingest-tar.rs`, which only counts them.) -/
abbrev Saved := List (Cid × Bytes)

/-- The sum of the lengths of some blocks. (as summed up in `benches/ingest-tar.rs:95-117`.) -/
def lengths (bs : Saved) : Nat := (bs.map (·.2.length)).sum

/-- The loop `while read < n`, `benches/ingest-tar.rs:113-118`; `x` is what is left, `buffer[read..n]`. -/
def pushAll (sha : Bytes → Bytes) (adder : FileAdder) (total_written : Nat) (saved : Saved) (x : Bytes) :
    Run (FileAdder × Nat × Saved) :=
  if x = [] then some (.ok (adder, total_written, saved))
  else
    match adder.push sha x with
    | none => none
    | some (.err e) => some (.err e)
    | some (.panic p) => some (.panic p)
    | some (.ok (adder, blocks, consumed)) =>
      if U64 ≤ total_written + lengths blocks then some (.panic .ingestOverflow)
      else pushAll sha adder (total_written + lengths blocks) (saved ++ blocks) (x.drop consumed)
partial_fixpoint

/-- The `loop` over the reads, `benches/ingest-tar.rs:92-121`; an empty read is the end of the file. The result is the arguments
of `put_link`, and the blocks. -/
def readAll (sha : Bytes → Bytes) (adder : FileAdder) (total_written : Nat) (saved : Saved) : List Bytes → Run (Cid × Nat × Saved)
  | [] | [] :: _ =>
    match adder.finish sha with
    | none => none
    | some (.err e) => some (.err e)
    | some (.panic p) => some (.panic p)
    | some (.ok blocks) =>
      match blocks.getLast? with
      | none => some (.panic .ingestNoBlocks)
      | some (cid, _) =>
        if U64 ≤ total_written + lengths blocks then some (.panic .ingestOverflow)
        else some (.ok (cid, total_written + lengths blocks, saved ++ blocks))
  | x@(_ :: _) :: rest =>
    match pushAll sha adder total_written saved x with
    | none => none
    | some (.err e) => some (.err e)
    | some (.panic p) => some (.panic p)
    | some (.ok (adder, total_written, saved)) => readAll sha adder total_written saved rest

/-- `.unwrap()` of the result of a call of the builder. (`benches/ingest-tar.rs:58`, `:109`, `:124`.) -/
def unwrapCall (r : Res TreeBuildingFailed Unit × BufferingTreeBuilder) (saved : Saved) : Run (BufferingTreeBuilder × Saved) :=
  match r with
  | (.panic p, _) => some (.panic p)
  | (.err _, _) => some (.panic .ingestBuilder)
  | (.ok (), tree) => some (.ok (tree, saved))

/-- The body of the loop over the entries, `benches/ingest-tar.rs:38-126`: the builder afterwards and the blocks. -/
def ingestEntry (sha : Bytes → Bytes) (tree : BufferingTreeBuilder) (e : TarEntry) : Run (BufferingTreeBuilder × Saved) :=
  if validUtf8 e.path = false then some (.panic .ingestUtf8)
  else
    match e.link with
    | some link_name =>
      if validUtf8 link_name = false then some (.panic .ingestUtf8)
      else
        let buffer := serializeSymlinkBlock link_name []
        let cid := cidOf sha buffer
        unwrapCall (tree.putLink e.path cid buffer.length) [(cid, buffer)]
    | none =>
      if endsWithSlash e.path = false then
        match readAll sha FileAdder.default 0 [] e.reads with
        | none => none
        | some (.err e) => some (.err e)
        | some (.panic p) => some (.panic p)
        | some (.ok (cid, total_written, saved)) => unwrapCall (tree.putLink e.path cid total_written) saved
      else unwrapCall (tree.setMetadata e.path.dropLast {}) []

/-- The loop over the entries. (`benches/ingest-tar.rs:38-126`.) -/
def ingestEntries (sha : Bytes → Bytes) (tree : BufferingTreeBuilder) (saved : Saved) :
    List TarEntry → Run (BufferingTreeBuilder × Saved)
  | [] => some (.ok (tree, saved))
  | e :: rest =>
    match ingestEntry sha tree e with
    | none => none
    | some (.err e) => some (.err e)
    | some (.panic p) => some (.panic p)
    | some (.ok (tree, blocks)) => ingestEntries sha tree (saved ++ blocks) rest

/-- The loop `while let Some(res) = iter.next_borrowed()`, `benches/ingest-tar.rs:132-135`: `last` and the blocks. -/
def drainIter (sha : Bytes → Bytes) (it : PostOrderIterator) (last : Option (Cid × Nat × Nat)) (saved : Saved) :
    Run (Option (Cid × Nat × Nat) × Saved) :=
  match PostOrderIterator.next sha it with
  | none => none
  | some (.panic p, _) => some (.panic p)
  | some (.failed _, _) => some (.panic .ingestIter)
  | some (.finished, _) => some (.ok (last, saved))
  | some (.item n, it) => drainIter sha it (some (n.cid, n.total_size, n.block.length)) (saved ++ [(n.cid, n.block)])
partial_fixpoint

/-- `TreeOptions::default()` after `wrap_with_directory()`, `benches/ingest-tar.rs:34-35`. -/
def ingestOptions : TreeOptions := { wrap_with_directory := true }

/-- `ingest_tar`, `benches/ingest-tar.rs:24-139`: the `last` given to `black_box` (Cid, total size and length of the root
directory's block), and all blocks. -/
def ingestTar (sha : Bytes → Bytes) (entries : List TarEntry) : Run ((Cid × Nat × Nat) × Saved) :=
  match ingestEntries sha (.new ingestOptions) [] entries with
  | none => none
  | some (.err e) => some (.err e)
  | some (.panic p) => some (.panic p)
  | some (.ok (tree, saved)) =>
    match drainIter sha tree.build none saved with
    | none => none
    | some (.err e) => some (.err e)
    | some (.panic p) => some (.panic p)
    | some (.ok (none, _)) => some (.panic .ingestNoLast)
    | some (.ok (some last, saved)) => some (.ok (last, saved))

end Verif.Ingest
