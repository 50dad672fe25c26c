import Verif.Visit
import Verif.Walk
import Verif.Dir
import Verif.Adder
import Verif.Builder
/-
Model of the four example programs `/repo/examples/{cat,get,resolve,add}.rs`: their loops, what they write, and how they find
blocks. `get` is the block store: `none` when opening the block's file fails. Other I/O errors: `IoFail.lean`. Not modelled: timing and process
statistics, overflow of the byte counters. The text of the lines and exit codes are in `Verif/Programs.lean`.
-/
namespace Verif.Examples
open Verif

/-! ### `examples/cat.rs` -/

/-- `Error`, `examples/cat.rs:106-110`. -/
inductive CatError where
  | OpeningFailed
  | Traversal (e : FileReadFailed)
  deriving DecidableEq, Repr

/-- What has been written to stdout, and the local variables `read_bytes` and `content_bytes`. (`examples/cat.rs:59-63`.) -/
structure CatState where
  stdout : Bytes := []
  read_bytes : Nat := 0
  content_bytes : Nat := 0
  deriving DecidableEq, Repr

/-- `stdout.write_all(content)?; content_bytes += content.len() as u64`. (`examples/cat.rs:77-78`, `:94-95`.) -/
def CatState.write (s : CatState) (content : Bytes) : CatState :=
  { s with stdout := s.stdout ++ content, content_bytes := s.content_bytes + content.length }

/-- `read_bytes += blocks.as_file(..)?.read_to_end(&mut buf)? as u64`. (`examples/cat.rs:73`, `:88`.) -/
def CatState.read (s : CatState) (block : Bytes) : CatState := { s with read_bytes := s.read_bytes + block.length }

/-- The loop `while let Some(visit) = step`, `examples/cat.rs:81-99`. -/
def catLoop (get : Cid → Option Bytes) (s : CatState) (visit : FileVisit) : Option (CatState × Res CatError Unit) :=
  match visit.pendingLinks with
  | .panic p => some (s, .panic p)
  | .err () => some (s, .ok ())
  | .ok (first, _) =>
    match get first with
    | none => some (s, .err .OpeningFailed)
    | some buf =>
      let s := s.read buf
      match (visit.continueWalk buf none).1 with
      | .panic p => some (s, .panic p)
      | .err e => some (s, .err (.Traversal e))
      | .ok (content, step) =>
        match step with
        | none => some (s.write content, .ok ())
        | some visit => catLoop get (s.write content) visit
partial_fixpoint

/-- `walk`, `examples/cat.rs:58-104`. -/
def catWalk (get : Cid → Option Bytes) (start : Cid) : Option (CatState × Res CatError Unit) :=
  match get start with
  | none => some ({}, .err .OpeningFailed)
  | some buf =>
    let s := CatState.read {} buf
    match (IdleFileVisit.start {} buf) with
    | .panic p => some (s, .panic p)
    | .err e => some (s, .err (.Traversal e))
    | .ok r =>
      match r.next with
      | none => some (s.write r.content, .ok ())
      | some visit => catLoop get (s.write r.content) visit

/-! ### `examples/get.rs` -/

/-- `Error`, `examples/get.rs:105-109`. -/
inductive GetError where
  | OpeningFailed
  | Walk (e : WalkError)
  deriving DecidableEq, Repr

/-- A line written by `println!`: its first letter and its values. (`examples/get.rs:81`, `:88`, `:94-100`.) -/
inductive Line where
  | f (mode : Nat) (seconds : Int) (size : Nat) (path : PathBuf)
  | d (mode : Nat) (seconds : Int) (path : PathBuf)
  | s (mode : Nat) (seconds : Int) (path : PathBuf) (target : Bytes)
  deriving DecidableEq, Repr

/-- `metadata.mode().unwrap_or(default) & 0o7777`. (`examples/get.rs:79`, `:86`, `:92`.) -/
def modeOr (default : Nat) (m : Metadata) : Nat := (m.mode.getD default) &&& 0o7777

/-- `let (seconds, _) = metadata.mtime().unwrap_or((0, 0))`. (`examples/get.rs:80`, `:87`, `:93`.) -/
def secondsOf (m : Metadata) : Int := (m.mtime.getD (0, 0)).1

/-- The body of the `match`, `examples/get.rs:69-100`: the lines written for one item. -/
def getItem : ContinuedWalk → Res GetError (List Line)
  | .Bucket _ _ => .ok []
  | .File segment _ path metadata size =>
    if segment.isLast then .ok [.f (modeOr 0o0644 metadata) (secondsOf metadata) size path] else .ok []
  | .Directory _ path metadata | .RootDirectory _ path metadata => .ok [.d (modeOr 0o0755 metadata) (secondsOf metadata) path]
  | .Symlink bytes _ path metadata =>
    if validUtf8 bytes = false then .panic .exampleUtf8
    else .ok [.s (modeOr 0o0755 metadata) (secondsOf metadata) path bytes]

/-- The loop of `walk`, `examples/get.rs:61-101`. -/
def getLoop (get : Cid → Option Bytes) (out : List Line) (walker : Walker) (cache : Option VisitCache) :
    Option (List Line × Res GetError Unit) :=
  if walker.shouldContinue = false then some (out, .ok ())
  else match walker.pendingLinks with
  | .panic p => some (out, .panic p)
  | .err () => some (out, .ok ())
  | .ok (next, _) =>
    match get next with
    | none => some (out, .err .OpeningFailed)
    | some buf =>
      match walker.step buf cache with
      | (.panic p, _, _) => some (out, .panic p)
      | (.err e, _, _) => some (out, .err (.Walk e))
      | (.ok item, walker, cache) =>
        match getItem item with
        | .panic p => some (out, .panic p)
        | .err e => some (out, .err e)
        | .ok lines => getLoop get (out ++ lines) walker cache
partial_fixpoint

/-- `walk`, `examples/get.rs:54-104`. -/
def getWalk (get : Cid → Option Bytes) (start : Cid) : Option (List Line × Res GetError Unit) :=
  getLoop get [] (Walker.new start []) none

/-! ### `examples/resolve.rs` -/

/-- `PathError`, `examples/resolve.rs:65-69`. -/
inductive PathError where
  | InvalidCid
  | InvalidPath
  deriving DecidableEq, Repr

/-- `IpfsPath`, `examples/resolve.rs:84-88`. -/
structure IpfsPath where
  root : Cid
  path : List Bytes
  deriving DecidableEq, Repr

/-- `"/ipfs/"`. (`examples/resolve.rs:105`.) -/
def ipfsSep : Bytes := [0x2F, 0x69, 0x70, 0x66, 0x73, 0x2F]

/-- `str::splitn(2, sep)`: the text before the first occurrence of `sep` and, if there is one, the text after it. (`examples/resolve.rs:105`, `:130`.) -/
def splitOnce (sep : Bytes) : Bytes → Bytes × Option Bytes
  | [] => if sep.isPrefixOf [] then ([], some []) else ([], none)
  | b :: t =>
    if sep.isPrefixOf (b :: t) then ([], some ((b :: t).drop sep.length))
    else
      let (a, r) := splitOnce sep t
      (b :: a, r)

/-- `impl TryFrom<&str> for IpfsPath`, `examples/resolve.rs:104-145`. `parse` is `Cid::try_from(&str)`. -/
def IpfsPath.tryFrom (parse : Bytes → Option Cid) (path : Bytes) : Except PathError IpfsPath :=
  match splitOnce ipfsSep path with
  | ([], none) => .error .InvalidPath
  | ([], some x) => go x
  | (_ :: _, some _) => .error .InvalidPath
  | (x@(_ :: _), none) => go x
where
  /-- `examples/resolve.rs:130-144`. -/
  go (path : Bytes) : Except PathError IpfsPath :=
    let (root, rest) := splitOnce [slash] path
    let segments := (rest.map (fun s => (splitSlash s).filter (fun x => x ≠ []))).getD []
    match parse root with
    | none => .error .InvalidCid
    | some root => .ok ⟨root, segments⟩

/-- `Error`, `examples/resolve.rs:226-230`. -/
inductive ResolveFail where
  | OpeningFailed
  | Traversal (e : ResolveError)
  deriving DecidableEq, Repr

/-- The inner `loop`, `examples/resolve.rs:196-217`: the Cid found or none, and the cache. -/
def resolveLoop (get : Cid → Option Bytes) (walker : ShardedLookup) (cache : Option LookupCache) :
    Option (Res ResolveFail (Option Cid) × Option LookupCache) :=
  match walker.pendingLinks with
  | .panic p => some (.panic p, cache)
  | .err () => some (.ok none, cache)
  | .ok (first, _) =>
    match get first with
    | none => some (.err .OpeningFailed, cache)
    | some buf =>
      match walker.continueWalk buf cache with
      | (.panic p, cache) => some (.panic p, cache)
      | (.err e, cache) => some (.err (.Traversal (.Lookup e)), cache)
      | (.ok .NotFound, cache) => some (.ok none, cache)
      | (.ok (.Found cid), cache) => some (.ok (some cid), cache)
      | (.ok (.NeedToLoadMore next), cache) => resolveLoop get next cache
partial_fixpoint

/-- `walk`, `examples/resolve.rs:154-222`, from `for segment in path.path` on. -/
def resolveSegments (get : Cid → Option Bytes) (root : Cid) (cache : Option LookupCache) :
    List Bytes → Option (Res ResolveFail (Option Cid))
  | [] => some (.ok (some root))
  | segment :: rest =>
    match get root with
    | none => some (.err .OpeningFailed)
    | some buf =>
      match resolve buf segment cache with
      | (.panic p, _) => some (.panic p)
      | (.err e, _) => some (.err (.Traversal e))
      | (.ok (.Found cid), cache) => resolveSegments get cid cache rest
      | (.ok .NotFound, _) => some (.ok none)
      | (.ok (.NeedToLoadMore walker), cache) =>
        match resolveLoop get walker cache with
        | none => none
        | some (.panic p, _) => some (.panic p)
        | some (.err e, _) => some (.err e)
        | some (.ok none, _) => some (.ok none)
        | some (.ok (some cid), cache) => resolveSegments get cid cache rest

/-- `walk`, `examples/resolve.rs:154-222`. -/
def resolveWalk (get : Cid → Option Bytes) (path : IpfsPath) : Option (Res ResolveFail (Option Cid)) :=
  resolveSegments get path.root none path.path

/-! ### `examples/add.rs` -/

/-- `Stats`, `examples/add.rs:123-128`. -/
structure Stats where
  blocks : Nat := 0
  block_bytes : Nat := 0
  last : Option Cid := none
  deriving DecidableEq, Repr

/-- `Stats::process`, `examples/add.rs:146-152`. -/
def Stats.process (self : Stats) (new_blocks : List (Cid × Bytes)) : Stats :=
  new_blocks.foldl (fun s (cid, block) => ⟨s.blocks + 1, s.block_bytes + block.length, some cid⟩) self

/-- The adder and the local variables `stats` and `input`. (`examples/add.rs:15-19`.) -/
structure AddState where
  adder : FileAdder
  stats : Stats := {}
  input : Nat := 0

/-- The loop `while total < x.len()`, `examples/add.rs:35-41`; `x` is what is left, `x[total..]`. A `consumed` of more than what is
left would make the next slice panic, or fail the `assert_eq!` (`:43`). -/
def addBuffer (sha : Bytes → Bytes) (s : AddState) (x : Bytes) : Run AddState :=
  if x = [] then some (.ok s)
  else
    match s.adder.push sha x with
    | none => none
    | some (.err e) => some (.err e)
    | some (.panic p) => some (.panic p)
    | some (.ok (adder, blocks, consumed)) =>
      if x.length < consumed then some (.panic .exampleTotal)
      else addBuffer sha ⟨adder, s.stats.process blocks, s.input + consumed⟩ (x.drop consumed)
partial_fixpoint

/-- The loop of `main`, `examples/add.rs:23-47`; the arguments are the successive results of `fill_buf`; an empty one is the end of
the input. The result is `stats` and `input`. -/
def addLoop (sha : Bytes → Bytes) (s : AddState) : List Bytes → Run (Stats × Nat)
  | [] | [] :: _ =>
    match s.adder.finish sha with
    | none => none
    | some (.err e) => some (.err e)
    | some (.panic p) => some (.panic p)
    | some (.ok blocks) => some (.ok (s.stats.process blocks, s.input))
  | x@(_ :: _) :: rest =>
    match addBuffer sha s x with
    | none => none
    | some (.err e) => some (.err e)
    | some (.panic p) => some (.panic p)
    | some (.ok s) => addLoop sha s rest

/-- The values printed by `impl Display for Stats`, `examples/add.rs:130-143`: `blocks`, `block_bytes`, `last` and the same hash as
a v1 Cid. -/
def Stats.printed (self : Stats) : Res Unit (Nat × Nat × Cid × Cid) :=
  match self.last with
  | none => .panic .exampleNoLast
  | some last => .ok (self.blocks, self.block_bytes, last, ⟨.v1, 0x70, last.code, last.digest⟩)

/-- `main`, `examples/add.rs:7-70`: what is printed, and the number of bytes read. -/
def addMain (sha : Bytes → Bytes) (reads : List Bytes) : Run ((Nat × Nat × Cid × Cid) × Nat) :=
  match addLoop sha ⟨FileAdder.default, {}, 0⟩ reads with
  | none => none
  | some (.err e) => some (.err e)
  | some (.panic p) => some (.panic p)
  | some (.ok (stats, input)) =>
    match stats.printed with
    | .err e => some (.err e)
    | .panic p => some (.panic p)
    | .ok printed => some (.ok (printed, input))

/-! ### `ShardedBlockStore`, the same in `cat.rs`, `get.rs` and `resolve.rs` -/

/-- The bits of a byte, most significant first. (`examples/cat.rs:144`.) -/
def bitsOf (b : UInt8) : List Bool := (List.range 8).map (fun i => b.toNat.testBit (7 - i))

/-- A base 32 digit (`multibase::Base::Base32Upper`: RFC 4648, `A-Z2-7`). (`examples/cat.rs:144`.) -/
def digit32 (n : Nat) : UInt8 := if n < 26 then UInt8.ofNat (0x41 + n) else UInt8.ofNat (0x32 + (n - 26))

/-- Five bits as a number. (`examples/cat.rs:144`.) -/
def fromBits : List Bool → Nat := List.foldl (fun n b => 2 * n + b.toNat) 0

/-- Base 32 without padding: five bits for a digit, the last ones filled up with zeros. (`examples/cat.rs:144`.) -/
def encodeBits : List Bool → Bytes
  | [] => []
  | a :: b :: c :: d :: e :: t => digit32 (fromBits [a, b, c, d, e]) :: encodeBits t
  | bits => [digit32 (fromBits (bits ++ List.replicate (5 - bits.length) false))]

/-- `Base32Upper.encode(key)`: the digits alone; this method, unlike `multibase::encode`, does not put the code in front. (`examples/cat.rs:144`.) -/
def encodeKey (key : Bytes) : Bytes := encodeBits (key.flatMap bitsOf)

/-- `".data"`. (`examples/cat.rs:153-154`.) -/
def dotData : Bytes := [0x2E, 0x64, 0x61, 0x74, 0x61]

/-- `ShardedBlockStore::as_path`, `examples/cat.rs:140-156`: the components below `root`. The file name has no dot, so that
`set_extension` appends. (The bounds of the slice underflow or are out of order if there are fewer than three characters.) -/
def asPath (key : Bytes) : Res Unit (List Bytes) :=
  let encoded := encodeKey key
  let len := encoded.length
  if len < 3 then .panic .examplePath
  else
    let dir := (encoded.take (len - 1)).drop (len - 3)
    if dir.length ≠ 2 then .panic .examplePath
    else .ok [dir, encoded ++ dotData]

end Verif.Examples
