import Verif.CidText
import Verif.DebugText
/-
The `main`s of the example programs `/repo/examples/{cat,get,resolve}.rs` as whole processes: arguments, the variable `IPFS_PATH`, files,
standard output, standard error and exit code; and the lines `resolve` writes on the way.
-/
namespace Verif.Examples
open Verif

/-- UTF-8, as `print!` and `eprint!` write it. (the `println!` and `eprintln!` of `examples/*.rs`.) -/
def utf8 (t : Text) : Bytes := t.flatMap String.utf8EncodeChar

/-- `{}` of a Cid, in characters. (e.g. `examples/resolve.rs:174`.) -/
def shown (c : Cid) : Text := decodeText c.text

/-- A process which has ended. 101 is the exit code after a panic.
(`main` of `examples/cat.rs:5-56`, `examples/get.rs:5-58`, `examples/resolve.rs:5-80`.) -/
structure Process where
  stdout : Bytes
  stderr : Text
  code : Nat

/-- What is around a program: the texts of other crates and of the operating system (of the only `open` which can fail in a run, of the
variable which is not set, of a panic), the bases which are not modelled, what `IPFS_PATH` is, the files below a directory (`none` if a
file cannot be opened; other errors of reading are left out), and what `capacity` returns of a queue when this has been written already.
(around `main` of `examples/*.rs`.) -/
structure Machine where
  env : DebugEnv
  cidError : CidTextError → Text
  openError : Text
  panicText : Panic → Text
  other : UInt8 → Bytes → Option Bytes
  ipfsPath : Except Text Bytes
  file : Bytes → List Bytes → Option Bytes
  capacity : Text → Nat

/-- `"blocks"`, `examples/cat.rs:33-34`, `get.rs:31-32`, `resolve.rs:38-39`. -/
def blocksDir : Bytes := [0x62, 0x6C, 0x6F, 0x63, 0x6B, 0x73]

/-- `blocks.as_file(&cid.to_bytes())?.read_to_end(&mut buf)?`, `examples/cat.rs:158-165` (no Cid makes `as_path` panic: C75). -/
def Machine.store (m : Machine) (root : Bytes) (c : Cid) : Option Bytes :=
  match asPath c.toBytes with
  | .ok p => m.file root (blocksDir :: p)
  | _ => none

/-- The four lines after the error, `examples/cat.rs:43-48`, `get.rs:40-46`, `resolve.rs:49-55`. -/
def openHelp (e : Text) : Text :=
  e ++ lit "\n\nThis is likely caused by either:\n - ipfs does not have the block\n - ipfs is configured to use non-flatfs storage\n - ipfs is configured to use flatfs with different sharding\n"

/-- A variable which is not set, or no Unicode: `examples/cat.rs:25-31`, `get.rs:23-29`, `resolve.rs:30-36`. -/
def noIpfsPath (e : Text) : Process := ⟨[], lit "IPFS_PATH is not set or could not be read: " ++ e ++ lit "\n", 1⟩

/-- `main`, `examples/cat.rs:8-56`. `name` is the first and `arg` the second argument of the process. -/
def catMain (m : Machine) (name : Text) (arg : Option Bytes) : Option Process :=
  match arg.map (Cid.ofText m.other) with
  | none =>
    some ⟨[], lit "USAGE: " ++ name ++ lit " CID\n\nWill walk the unixfs file pointed out by the CID from default go-ipfs 0.5 configuration flatfs blockstore and write all content to stdout.\n", 0⟩
  | some (.error e) => some ⟨[], lit "Invalid cid given as argument: " ++ m.cidError e ++ lit "\n", 1⟩
  | some (.ok cid) =>
    match m.ipfsPath with
    | .error e => some (noIpfsPath e)
    | .ok root =>
      match catWalk (m.store root) cid with
      | none => none
      | some (s, .ok ()) =>
        some ⟨s.stdout, lit "Content bytes: " ++ numText s.content_bytes ++ lit "\nTotal bytes:   " ++ numText s.read_bytes ++ lit "\n", 0⟩
      | some (s, .err .OpeningFailed) => some ⟨s.stdout, openHelp m.openError, 1⟩
      | some (s, .err (.Traversal e)) =>
        some ⟨s.stdout, lit "Failed to walk the merkle tree: Traversal failed, please report this as a bug: " ++ e.display m.env.toFmtEnv ++ lit "\n", 1⟩
      | some (s, .panic p) => some ⟨s.stdout, m.panicText p, 101⟩

/-- `main`, `examples/get.rs:7-52`. -/
def getMain (m : Machine) (name : Text) (arg : Option Bytes) : Option Process :=
  match arg.map (Cid.ofText m.other) with
  | none =>
    some ⟨[], lit "USAGE: " ++ name ++ lit " CID\n\nWill walk the unixfs file pointed out by the CID from default go-ipfs 0.5 configuration flatfs blockstore and write listing to stdout.\n", 0⟩
  | some (.error e) => some ⟨[], lit "Invalid cid given as argument: " ++ m.cidError e ++ lit "\n", 1⟩
  | some (.ok cid) =>
    match m.ipfsPath with
    | .error e => some (noIpfsPath e)
    | .ok root =>
      match getWalk (m.store root) cid with
      | none => none
      | some (ls, .ok ()) => some ⟨utf8 (output m.env.toFmtEnv ls), [], 0⟩
      | some (ls, .err .OpeningFailed) => some ⟨utf8 (output m.env.toFmtEnv ls), openHelp m.openError, 1⟩
      | some (ls, .err (.Walk e)) =>
        some ⟨utf8 (output m.env.toFmtEnv ls),
          lit "Failed to walk the merkle tree: Walk failed, please report this as a bug: " ++ e.display m.env.toFmtEnv ++ lit "\n", 1⟩
      | some (ls, .panic p) => some ⟨utf8 (output m.env.toFmtEnv ls), m.panicText p, 101⟩

/-! ### `examples/resolve.rs` -/

/-- What has been written to standard output and standard error. (`examples/resolve.rs:150-225`.) -/
structure Log where
  out : Text := []
  err : Text := []

/-- `println!("cache {:?}", cache)`, `examples/resolve.rs:163,177,205,220`; `impl Debug for Cache`, `src/dir/sharded_lookup.rs:22-26`. -/
def Log.cache (m : Machine) (log : Log) (cache : Option LookupCache) : Log :=
  { log with out := log.out ++ lit "cache " ++
      someText (fun _ => lit "Cache { buffer: " ++ numText (m.capacity log.out) ++ lit " }") cache ++ lit "\n" }

/-- `eprintln!`. (`examples/resolve.rs:165`, `:192`, `:199`.) -/
def Log.eprint (log : Log) (t : Text) : Log := { log with err := log.err ++ t ++ lit "\n" }

/-- The inner `loop`, `examples/resolve.rs:196-217`, with what it writes. (`other_blocks` is an `i32`; its overflow after
2^31 blocks is left out.) -/
def resolveLoopLog (m : Machine) (get : Cid → Option Bytes) (segment : Bytes) (root : Cid) (other_blocks : Nat) (log : Log)
    (walker : ShardedLookup) (cache : Option LookupCache) : Option (Res ResolveFail (Option Cid) × Option LookupCache × Log) :=
  match walker.pendingLinks with
  | .panic p => some (.panic p, cache, log)
  | .err () => some (.ok none, cache, log)
  | .ok (first, _) =>
    let log := log.eprint (lit "  -> reading " ++ shown first ++ lit " while searching for " ++ m.env.str segment)
    match get first with
    | none => some (.err .OpeningFailed, cache, log)
    | some buf =>
      match walker.continueWalk buf cache with
      | (.panic p, cache) => some (.panic p, cache, log)
      | (.err e, cache) => some (.err (.Traversal (.Lookup e)), cache, log)
      | (.ok .NotFound, cache) => some (.ok none, cache, log.cache m cache)
      | (.ok (.Found cid), cache) =>
        some (.ok (some cid), cache, log.eprint (lit "     resolved " ++ decodeText segment ++ lit " from " ++ shown root ++ lit " after " ++
          numText other_blocks ++ lit " blocks to " ++ shown cid))
      | (.ok (.NeedToLoadMore next), cache) => resolveLoopLog m get segment root (other_blocks + 1) log next cache
partial_fixpoint

/-- `walk`, `examples/resolve.rs:154-222`, from `for segment in path.path` on, with what it writes. -/
def resolveSegmentsLog (m : Machine) (get : Cid → Option Bytes) (root : Cid) (cache : Option LookupCache) (log : Log) :
    List Bytes → Option (Res ResolveFail (Option Cid) × Log)
  | [] => some (.ok (some root), log.cache m cache)
  | segment :: rest =>
    let log := (log.cache m cache).eprint (lit "reading " ++ shown root ++ lit " to resolve " ++ m.env.str segment)
    match get root with
    | none => some (.err .OpeningFailed, log)
    | some buf =>
      match resolve buf segment cache with
      | (.panic p, _) => some (.panic p, log)
      | (.err e, _) => some (.err (.Traversal e), log)
      | (.ok (.Found cid), cache) =>
        let log := { log with out := log.out ++ lit "got lucky: found " ++ shown cid ++ lit " for " ++ m.env.str segment ++ lit "\n" }
        resolveSegmentsLog m get cid cache (log.cache m cache) rest
      | (.ok .NotFound, _) => some (.ok none, log)
      | (.ok (.NeedToLoadMore walker), cache) =>
        let log := log.eprint (lit "walking " ++ shown root ++ lit " on " ++ m.env.str segment)
        match resolveLoopLog m get segment root 1 log walker cache with
        | none => none
        | some (.panic p, _, log) => some (.panic p, log)
        | some (.err e, _, log) => some (.err e, log)
        | some (.ok none, _, log) => some (.ok none, log)
        | some (.ok (some cid), cache, log) => resolveSegmentsLog m get cid cache log rest

/-- `impl Display for PathError`, `examples/resolve.rs:71-78`. The model of the argument's reading does not keep the error of the Cid, so its
text is given as `e`. -/
def PathError.display (e : Text) : PathError → Text
  | .InvalidCid => e
  | .InvalidPath => lit "invalid path"

/-- `main`, `examples/resolve.rs:8-63`. (`resolve` prints its errors with `{:?}`.) -/
def resolveMain (m : Machine) (name : Text) (arg : Option Bytes) : Option Process :=
  match arg.map (IpfsPath.tryFrom (fun t => (Cid.ofText m.other t).toOption)) with
  | none =>
    some ⟨[], lit "USAGE: " ++ name ++ lit " IPFSPATH\n\nWill resolve the given IPFSPATH to a CID through any UnixFS directories or HAMT shards from default go-ipfs 0.5 configuration flatfs blockstore and write the final CID into stdout\n", 0⟩
  | some (.error e) => some ⟨[], lit "Invalid path given as argument: " ++ e.display (m.cidError .base) ++ lit "\n", 1⟩
  | some (.ok path) =>
    match m.ipfsPath with
    | .error e => some (noIpfsPath e)
    | .ok root =>
      match resolveSegmentsLog m (m.store root) path.root none {} path.path with
      | none => none
      | some (.ok (some cid), log) => some ⟨utf8 (log.out ++ shown cid ++ lit "\n"), log.err, 0⟩
      | some (.ok none, log) => some ⟨utf8 log.out, log.err ++ lit "not found\n", 0⟩
      | some (.err .OpeningFailed, log) => some ⟨utf8 log.out, log.err ++ openHelp m.openError, 1⟩
      | some (.err (.Traversal e), log) =>
        some ⟨utf8 log.out, log.err ++ lit "Failed to walk the merkle tree: Walking failed, please report this as a bug: " ++
          e.debugText m.env ++ lit "\n", 1⟩
      | some (.panic p, log) => some ⟨utf8 log.out, log.err ++ m.panicText p, 101⟩

/-! ### `examples/add.rs` -/

/-- `impl Display for Stats`, `examples/add.rs:130-143`, of the values `Stats.printed`. -/
def statsLine : Nat × Nat × Cid × Cid → Text
  | (blocks, block_bytes, last, cidv1) =>
    numText blocks ++ lit " blocks, " ++ numText block_bytes ++ lit " block bytes, " ++ shown last ++ lit " or " ++ shown cidv1

end Verif.Examples
