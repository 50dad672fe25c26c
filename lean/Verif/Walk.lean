import Verif.Visit
import Verif.Dir
import Verif.Builder
/-
Model of `/repo/src/walk.rs` (the whole file except `Display`/`Debug` impls and tests).
-/
namespace Verif

/-! ### `std::path::PathBuf` -/

/-- `std::path::PathBuf` on Unix, as the list of its components (`Path` equality is component-wise): `absolute` tells
whether there is a root component, `comps` are the other ones in order. A `.` is a component only when it is the first of
a relative path; empty components never are. Not represented: redundant separators and dots in the underlying bytes.
(std, used at `src/walk.rs:360-425`.) -/
structure PathBuf where
  absolute : Bool := false
  comps : List Bytes := []
  deriving DecidableEq, Repr

/-- The component `.` (std, used at `src/walk.rs:360-425`.) -/
abbrev dot : Bytes := [0x2E]

/-- The components of the relative path `pieces` when appended to a path which is (`fresh`) the empty relative path or
not: `std::path::Components` skips empty components, and `.` unless it is the first of a relative path. (std, used at `src/walk.rs:360-425`.) -/
def pathComps (fresh : Bool) (pieces : List Bytes) : List Bytes :=
  match pieces with
  | [] => []
  | x :: xs => (if x = [] ∨ (x = dot ∧ fresh = false) then [] else [x]) ++ xs.filter (fun x => x ≠ [] ∧ x ≠ dot)

/-- `PathBuf::push` on Unix: an absolute path replaces, a relative one is appended. (`src/walk.rs:385`, `:398`, `:418`.) -/
def PathBuf.push (self : PathBuf) (name : Bytes) : PathBuf :=
  if name.head? = some slash then ⟨true, pathComps false (splitSlash name)⟩
  else ⟨self.absolute, self.comps ++ pathComps (self.absolute = false ∧ self.comps = []) (splitSlash name)⟩

/-- `PathBuf::pop`: `None` is `false`. (`src/walk.rs:411`.) -/
def PathBuf.pop (self : PathBuf) : Option PathBuf :=
  if self.comps = [] then none else some ⟨self.absolute, self.comps.dropLast⟩

/-- `Path::ancestors().count()`: the path itself and each parent. (`src/walk.rs:408`, `:421`.) -/
def PathBuf.ancestorsCount (self : PathBuf) : Nat := self.comps.length + 1

/-! ### Results -/

/-- `FileSegment`, `src/walk.rs:584-588`. -/
structure FileSegment where
  bytes : Bytes
  first_block : Bool
  last_block : Bool
  deriving DecidableEq, Repr

/-- `FileSegment::first`, `src/walk.rs:591-597`. -/
def FileSegment.first (bytes : Bytes) (last_block : Bool) : FileSegment := ⟨bytes, true, last_block⟩
/-- `FileSegment::later`, `src/walk.rs:599-605`. -/
def FileSegment.later (bytes : Bytes) (last_block : Bool) : FileSegment := ⟨bytes, false, last_block⟩
/-- `FileSegment::is_first`, `src/walk.rs:610-612`. -/
def FileSegment.isFirst (self : FileSegment) : Bool := self.first_block
/-- `FileSegment::is_last`, `src/walk.rs:617-619`. -/
def FileSegment.isLast (self : FileSegment) : Bool := self.last_block
/-- `FileSegment::as_bytes`, `src/walk.rs:623-625` (and `as_ref`, `:628-632`). -/
def FileSegment.asBytes (self : FileSegment) : Bytes := self.bytes

/-- `ContinuedWalk`, `src/walk.rs:554-567`. -/
inductive ContinuedWalk where
  | Bucket (cid : Cid) (path : PathBuf)
  | Directory (cid : Cid) (path : PathBuf) (metadata : Metadata)
  | File (segment : FileSegment) (cid : Cid) (path : PathBuf) (metadata : Metadata) (size : Nat)
  | RootDirectory (cid : Cid) (path : PathBuf) (metadata : Metadata)
  | Symlink (target : Bytes) (cid : Cid) (path : PathBuf) (metadata : Metadata)
  deriving DecidableEq, Repr

/-- `Error`, `src/walk.rs:636-666`. `UnexpectedNodeType` is represented by the `UnixFsType` it is made from. -/
inductive WalkError where
  | UnsupportedType (t : DataType)
  | UnexpectedType (t : DataType)
  | DagPbParsingFailed (e : PbError)
  | UnixFsParsingFailed (e : PbError)
  | EmptyDagPbNode
  | InvalidCid (e : InvalidCidInLink)
  | File (e : FileError)
  | UnsupportedDirectory (e : UnexpectedDirectoryProperties)
  | UnsupportedHAMTShard (e : ShardError)
  deriving DecidableEq, Repr

/-- `impl From<ParsingFailed> for Error`, `src/walk.rs:668-677`. -/
def WalkError.ofParsing : ParsingFailed → WalkError
  | .InvalidDagPb e => .DagPbParsingFailed e
  | .InvalidUnixFs e _ => .UnixFsParsingFailed e
  | .NoData _ => .EmptyDagPbNode

/-- `impl From<FileReadFailed> for Error`, `src/walk.rs:685-695`; `Read` panics. -/
def WalkError.ofFileReadFailed {α : Type} : FileReadFailed → Res WalkError α
  | .File e => .err (.File e)
  | .UnexpectedType t => .err (.UnexpectedType t)
  | .Read _ => .panic .walkRead
  | .InvalidCid l => .err (.InvalidCid l)

/-! ### Links -/

/-- An element of `pending`: `(Cid, String, usize)`. (`src/walk.rs:25`.) -/
structure WalkLink where
  cid : Cid
  name : Bytes
  depth : Nat
  deriving DecidableEq, Repr

/-- `convert_link`, `src/walk.rs:32-49`. -/
def convertLink (nested_depth nth : Nat) (link : PBLink) : Res InvalidCidInLink WalkLink :=
  match Cid.tryFrom (link.Hash.getD []) with
  | .error e => .err (.of nth link e)
  | .ok cid =>
    match link.Name with
    | none => .panic .walkEmptyName
    | some s =>
      if s = [] then .panic .walkEmptyName
      else if slash ∈ s then .panic .walkSlash
      else .ok ⟨cid, s, nested_depth⟩

/-- `convert_sharded_link`, `src/walk.rs:52-71`. -/
def convertShardedLink (nested_depth sibling_depth nth : Nat) (link : PBLink) : Res InvalidCidInLink WalkLink :=
  match Cid.tryFrom (link.Hash.getD []) with
  | .error e => .err (.of nth link e)
  | .ok cid =>
    match link.Name with
    | none => .panic .walkEmptyName
    | some s =>
      if 2 < s.length then
        if isCharBoundary s 2 = false then .panic .walkBoundary
        else if slash ∈ s.drop 2 then .panic .walkSlash
        else .ok ⟨cid, s.drop 2, nested_depth⟩
      else if s.length = 2 then .ok ⟨cid, [], sibling_depth⟩
      else .panic .walkEmptyName

/-- The loops `for link in links { pending.push(link?); }`, `src/walk.rs:163-174` and `:199-212`: the argument is the
already reversed list of numbered links; converted lazily. The last element of `pending` is popped first. -/
def pushLinks (convert : Nat → PBLink → Res InvalidCidInLink WalkLink) :
    List (PBLink × Nat) → List WalkLink → Res InvalidCidInLink Unit × List WalkLink
  | [], pending => (.ok (), pending)
  | (link, nth) :: rest, pending =>
    match convert nth link with
    | .ok l => pushLinks convert rest (pending ++ [l])
    | .err e => (.err e, pending)
    | .panic p => (.panic p, pending)

/-! ### The current entry -/

/-- `InnerKind`, `src/walk.rs:335-350`. -/
inductive InnerKind where
  | RootDirectory
  | BucketAtRoot
  | RootBucket
  | Bucket
  | Directory
  | File (visit : Option FileVisit) (size : Nat)
  | Symlink
  deriving DecidableEq, Repr

/-- `InnerEntry`, `src/walk.rs:319-325`. -/
structure InnerEntry where
  cid : Cid
  kind : InnerKind
  path : PathBuf
  metadata : Metadata
  depth : Nat
  deriving DecidableEq, Repr

/-- `InnerEntry::new_root_dir`, `new_root_bucket`, `new_root_file`, `new_root_symlink`, `src/walk.rs:353-404`, which differ
in the kind. -/
def InnerEntry.newRoot (kind : InnerKind) (cid : Cid) (metadata : Metadata) (name : Bytes) (depth : Nat) : InnerEntry :=
  ⟨cid, kind, PathBuf.push {} name, metadata, depth⟩

/-- The loop `while self.depth >= depth && self.depth > 0`, `src/walk.rs:410-416`; recursion on `self.depth`. -/
def popWhileGe {ε : Type} (depth : Nat) : Nat → PathBuf → Res ε PathBuf
  | 0, path => .ok path
  | d + 1, path =>
    if depth ≤ d + 1 then
      match path.pop with
      | none => .panic .walkPathPop
      | some path => popWhileGe depth d path
    else .ok path

/-- `InnerEntry::set_path`, `src/walk.rs:406-422`. -/
def InnerEntry.setPath {ε : Type} (self : InnerEntry) (name : Bytes) (depth : Nat) : Res ε InnerEntry :=
  if self.depth ≠ self.path.ancestorsCount then .panic .walkPathDepth
  else do
    let path ← popWhileGe depth self.depth self.path
    let path := path.push name
    if depth ≠ path.ancestorsCount then .panic .walkPathDepth
    else .ok { self with path := path, depth := depth }

/-- `InnerEntry::as_directory`, `as_bucket_root`, `as_file`, `as_symlink`, `src/walk.rs:424-460` and `:490-538`, which
differ in the new kind. -/
def InnerEntry.asKind {ε : Type} (self : InnerEntry) (kind : InnerKind) (cid : Cid) (name : Bytes) (depth : Nat)
    (metadata : Metadata) : Res ε InnerEntry :=
  match self.kind with
  | .File (some _) _ => .panic .walkKind
  | _ => do
    let ie ← { self with cid := cid, kind := kind }.setPath name depth
    .ok { ie with metadata := metadata }

/-- The loop `while self.depth > depth`, `src/walk.rs:477-483`; recursion on `self.depth`. Returns the new depth too. -/
def popWhileGt {ε : Type} (depth : Nat) : Nat → PathBuf → Res ε (Nat × PathBuf)
  | 0, path => .ok (0, path)
  | d + 1, path =>
    if depth < d + 1 then
      match path.pop with
      | none => .panic .walkPathPop
      | some path => popWhileGt depth d path
    else .ok (d + 1, path)

/-- `InnerEntry::as_bucket`, `src/walk.rs:462-488`; the asserted `name.is_empty()` is checked by its only caller. -/
def InnerEntry.asBucket {ε : Type} (self : InnerEntry) (cid : Cid) (depth : Nat) : Res ε InnerEntry :=
  match self.kind with
  | .BucketAtRoot => if self.depth ≠ depth then .panic .walkBucketDepth else .ok self
  | .RootBucket | .Bucket | .File none _ | .Symlink => do
    let (d, path) ← popWhileGt depth self.depth self.path
    if d ≠ depth then .panic .walkBucketDepth
    else .ok { self with cid := cid, kind := .Bucket, path := path, depth := d }
  | _ => .panic .walkBucketKind

/-! ### The walker -/

/-- `Walker`, `src/walk.rs:17-29`. -/
structure Walker where
  current : Option InnerEntry
  next : Option WalkLink
  pending : List WalkLink
  should_continue : Bool
  deriving DecidableEq, Repr

/-- `Walker::new`, `src/walk.rs:75-86`. -/
def Walker.new (cid : Cid) (root_name : Bytes) : Walker :=
  ⟨none, some ⟨cid, root_name, if root_name = [] then 1 else 2⟩, [], true⟩

/-- `Walker::should_continue`, `src/walk.rs:308-310`. -/
def Walker.shouldContinue (self : Walker) : Bool := self.should_continue

/-- `Walker::pending_links`, `src/walk.rs:94-114`. -/
def Walker.pendingLinks (self : Walker) : Res Unit (Cid × List Cid) :=
  let cids := (self.pending.map (·.cid)).reverse
  match self.current.map InnerEntry.kind with
  | some (.File (some visit) _) => do
    let (first, rest) ← visit.pendingLinks
    .ok (first, rest ++ ((self.next.map (·.cid)).toList ++ cids))
  | _ =>
    match self.next with
    | none => .panic .walkNoNext
    | some next => .ok (next.cid, cids)

/-- What `Walker::next` answers, the walker afterwards and the cache afterwards. (After a panic the walker is of no
interest.) (`src/walk.rs:120-124`.) -/
abbrev WalkStep := Res WalkError ContinuedWalk × Walker × Option VisitCache

/-- `if let next_local @ Some(_) = pending.pop() { *next = next_local; *should_continue = true; }`,
`src/walk.rs:176-179`, `:214-217`, `:291-294`, at a point where `next` is `None` and `should_continue` is `false`. -/
def Walker.popNext (current : Option InnerEntry) (pending : List WalkLink) : Walker :=
  match pending.getLast? with
  | some l => ⟨current, some l, pending.dropLast, true⟩
  | none => ⟨current, none, [], false⟩

/-- The branch for an ongoing file visit, `src/walk.rs:137-155`; `ie` is `current`, with an ongoing `visit`. -/
def Walker.nextFile (self : Walker) (ie : InnerEntry) (visit : FileVisit) (sz : Nat) (bytes : Bytes)
    (cache : Option VisitCache) : WalkStep :=
  match visit.continueWalk bytes cache with
  | (.panic p, cache) => (.panic p, self, cache)
  | (.err e, cache) =>
    (WalkError.ofFileReadFailed e,
      { self with current := some { ie with kind := .File none sz }, should_continue := false }, cache)
  | (.ok (content, step), cache) =>
    let file_continues := step.isSome
    (.ok (.File (.later content (!file_continues)) ie.cid ie.path ie.metadata sz),
      { self with current := some { ie with kind := .File step sz }, should_continue := file_continues || self.next.isSome },
      cache)

/-- The branches for directories of both kinds, `src/walk.rs:156-234`, after the check of the properties: `convert` is the
conversion of links given the directory's depth, `enter` makes the new current entry and the answer. -/
def Walker.nextDir (self : Walker) (links : List PBLink) (convert : Nat → Nat → PBLink → Res InvalidCidInLink WalkLink)
    (enter : WalkLink → Res WalkError (InnerEntry × ContinuedWalk)) (cache : Option VisitCache) : WalkStep :=
  match self.next with
  | none => (.panic .walkNoNext, self, cache)
  | some n =>
    match pushLinks (convert n.depth) links.zipIdx.reverse self.pending with
    | (.panic p, _) => (.panic p, self, cache)
    | (.err e, pending) => (.err (.InvalidCid e), ⟨self.current, none, pending, false⟩, cache)
    | (.ok (), pending) =>
      match enter n with
      | .panic p => (.panic p, self, cache)
      | .err e => (.err e, self, cache)
      | .ok (ie, item) => (.ok item, Walker.popNext (some ie) pending, cache)

/-- The entry and the answer for a plain directory, `src/walk.rs:181-191`. -/
def Walker.enterDirectory (self : Walker) (metadata : Metadata) (n : WalkLink) : Res WalkError (InnerEntry × ContinuedWalk) :=
  match self.current with
  | none =>
    let ie := InnerEntry.newRoot .RootDirectory n.cid metadata n.name n.depth
    .ok (ie, .RootDirectory ie.cid ie.path ie.metadata)
  | some ie => do
    let ie ← ie.asKind .Directory n.cid n.name n.depth metadata
    .ok (ie, .Directory ie.cid ie.path ie.metadata)

/-- The entry and the answer for a sharded directory or bucket, `src/walk.rs:219-237`. -/
def Walker.enterShard (self : Walker) (metadata : Metadata) (n : WalkLink) : Res WalkError (InnerEntry × ContinuedWalk) :=
  match self.current with
  | none =>
    let ie := InnerEntry.newRoot .BucketAtRoot n.cid metadata n.name n.depth
    .ok (ie, .RootDirectory ie.cid ie.path ie.metadata)
  | some ie =>
    if n.name = [] then do
      let ie ← ie.asBucket n.cid n.depth
      .ok (ie, .Bucket ie.cid ie.path)
    else do
      let ie ← ie.asKind .RootBucket n.cid n.name n.depth metadata
      .ok (ie, .RootDirectory ie.cid ie.path ie.metadata)

/-- The new current entry for a file or symlink: `match current { None => new_root_.., Some(ie) => ie.as_..}`,
`src/walk.rs:245-255` and `:281-289`. -/
def Walker.enterLeaf (self : Walker) (kind : InnerKind) (metadata : Metadata) (n : WalkLink) : Res WalkError InnerEntry :=
  match self.current with
  | none => .ok (InnerEntry.newRoot kind n.cid metadata n.name n.depth)
  | some ie => ie.asKind kind n.cid n.name n.depth metadata

/-- The branch for the first block of a file, `src/walk.rs:238-272`. -/
def Walker.nextFirst (self : Walker) (flat : FlatUnixFs) (cache : Option VisitCache) : WalkStep :=
  match IdleFileVisit.startFromParsed {} flat cache with
  | (.panic p, cache) => (.panic p, self, cache)
  | (.err e, cache) => (WalkError.ofFileReadFailed e, { self with should_continue := false }, cache)
  | (.ok r, cache) =>
    match self.next with
    | none => (.panic .walkNoNext, self, cache)
    | some n =>
      let file_continues := r.next.isSome
      match self.enterLeaf (.File r.next r.total_size) r.metadata n with
      | .panic p => (.panic p, self, cache)
      | .err e => (.err e, self, cache)
      | .ok ie =>
        let w := Walker.popNext (some ie) self.pending
        (.ok (.File (.first r.content (!file_continues)) ie.cid ie.path ie.metadata r.total_size),
          { w with should_continue := file_continues || w.next.isSome }, cache)

/-- The branch for a symlink, `src/walk.rs:274-303`. -/
def Walker.nextSymlink (self : Walker) (flat : FlatUnixFs) (metadata : Metadata) (cache : Option VisitCache) : WalkStep :=
  let contents := flat.data.Data.getD []
  match self.next with
  | none => (.panic .walkNoNext, self, cache)
  | some n =>
    match self.enterLeaf .Symlink metadata n with
    | .panic p => (.panic p, self, cache)
    | .err e => (.err e, self, cache)
    | .ok ie => (.ok (.Symlink contents ie.cid ie.path ie.metadata), Walker.popNext (some ie) self.pending, cache)

/-- `Walker::next` when there is no ongoing file visit, `src/walk.rs:157-304`. -/
def Walker.nextBlock (self : Walker) (bytes : Bytes) (cache : Option VisitCache) : WalkStep :=
  let stopped := { self with should_continue := false }
  match FlatUnixFs.tryParse bytes with
  | .error e => (.err (.ofParsing e), stopped, cache)
  | .ok flat =>
    let metadata := Metadata.ofUnixFs flat.data
    match flat.data.Ty with
    | .Directory =>
      match checkDirectorySupported flat with
      | .error e => (.err (.UnsupportedDirectory e), stopped, cache)
      | .ok flat =>
        self.nextDir flat.links (fun depth nth l => convertLink (depth + 1) nth l) (self.enterDirectory metadata) cache
    | .HAMTShard =>
      match checkHamtshardSupported flat with
      | .panic p => (.panic p, self, cache)
      | .err e => (.err (.UnsupportedHAMTShard e), stopped, cache)
      | .ok flat =>
        self.nextDir flat.links (fun depth nth l => convertShardedLink (depth + 1) depth nth l) (self.enterShard metadata) cache
    | .Raw | .File => self.nextFirst flat cache
    | .Metadata => (.err (.UnsupportedType flat.data.Ty), stopped, cache)
    | .Symlink => self.nextSymlink flat metadata cache

/-- `Walker::next`, `src/walk.rs:121-305`. -/
def Walker.step (self : Walker) (bytes : Bytes) (cache : Option VisitCache) : WalkStep :=
  match self.current with
  | some ⟨cid, .File (some visit) sz, path, metadata, depth⟩ =>
    self.nextFile ⟨cid, .File (some visit) sz, path, metadata, depth⟩ visit sz bytes cache
  | _ => self.nextBlock bytes cache

end Verif
