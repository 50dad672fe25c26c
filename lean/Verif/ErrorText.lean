import Verif.Access
import Verif.BuilderIter
import Verif.Examples
/-
What the errors of the crate, and the lines of the example program `get`, print: the `Display` and derived `Debug` implementations.
-/
namespace Verif

/-- What is written to a formatter.
(std, used for the messages of `src/lib.rs:79-110`, `src/file.rs:35-47`, `src/dir.rs:119-129`, `src/walk.rs:710-726`.) -/
abbrev Text := List Char

/-- A literal part of a format string.
(std, used for the messages of `src/lib.rs:79-110`, `src/file.rs:35-47`, `src/dir.rs:119-129`, `src/walk.rs:710-726`.) -/
def lit (s : String) : Text := s.toList

/-- What the messages contain of other crates: the table of `core::unicode::printable` (with `Grapheme_Extend`) for characters beyond
ASCII, the messages of `quick_protobuf::Error` and `libipld::cid::Error`, the `Debug` of the latter and of `Cid`; and whether the `Debug` of
`Path` escapes a single quote (it did in older versions of `std`, the `Debug` of `str` never does).
(std, used for the messages of `src/lib.rs:79-110`, `src/file.rs:35-47`, `src/dir.rs:119-129`, `src/walk.rs:710-726`.) -/
structure FmtEnv where
  printable : Char → Bool
  pathQuote : Bool
  pb : PbError → Text
  cidError : CidError → Text
  cidErrorDebug : CidError → Text
  cid : Cid → Text

/-- `str::chars`, for text: decoding UTF-8.
(std, used for the messages of `src/lib.rs:79-110`, `src/file.rs:35-47`, `src/dir.rs:119-129`, `src/walk.rs:710-726`.) -/
def decodeText : Bytes → Text
  | [] => []
  | a :: t =>
    if a.toNat < 0x80 then Char.ofNat a.toNat :: decodeText t
    else match t with
    | [] => []
    | b :: t =>
      if a.toNat < 0xE0 then Char.ofNat (a.toNat % 32 * 64 + b.toNat % 64) :: decodeText t
      else match t with
      | [] => []
      | c :: t =>
        if a.toNat < 0xF0 then Char.ofNat (a.toNat % 16 * 4096 + b.toNat % 64 * 64 + c.toNat % 64) :: decodeText t
        else match t with
        | [] => []
        | d :: t =>
          Char.ofNat (a.toNat % 8 * 262144 + b.toNat % 64 * 4096 + c.toNat % 64 * 64 + d.toNat % 64) :: decodeText t

/-- `{}` of an unsigned number. (std, used for the messages of `src/lib.rs:79-110`, `src/file.rs:35-47`, `src/dir.rs:119-129`, `src/walk.rs:710-726`.) -/
def numText (n : Nat) : Text := Nat.toDigits 10 n

/-- `{}` of a signed number. (std, used for the messages of `src/lib.rs:79-110`, `src/file.rs:35-47`, `src/dir.rs:119-129`, `src/walk.rs:710-726`.) -/
def intText : Int → Text
  | .ofNat n => numText n
  | .negSucc n => '-' :: numText (n + 1)

/-- `char::escape_debug_ext`, with `escape_grapheme_extended` and `escape_double_quote`; `single` is `escape_single_quote`.
(std, used for the messages of `src/lib.rs:79-110`, `src/file.rs:35-47`, `src/dir.rs:119-129`, `src/walk.rs:710-726`.) -/
def escapeChar (printable : Char → Bool) (single : Bool) (c : Char) : Text :=
  if c = Char.ofNat 0 then ['\\', '0']
  else if c = '\t' then ['\\', 't']
  else if c = '\r' then ['\\', 'r']
  else if c = '\n' then ['\\', 'n']
  else if c = '\\' ∨ c = '"' ∨ (c = '\'' ∧ single = true) then ['\\', c]
  else if (0x20 ≤ c.toNat ∧ c.toNat < 0x7F) ∨ (0x7F ≤ c.toNat ∧ printable c = true) then [c]
  else ['\\', 'u', '{'] ++ Nat.toDigits 16 c.toNat ++ ['}']

/-- The characters between the quotes of `{:?}`.
(std, used for the messages of `src/lib.rs:79-110`, `src/file.rs:35-47`, `src/dir.rs:119-129`, `src/walk.rs:710-726`.) -/
def escaped (printable : Char → Bool) (single : Bool) (cs : Text) : Text := cs.flatMap (escapeChar printable single)

/-- `{:?}` of a `str`. (std, used for the messages of `src/lib.rs:79-110`, `src/file.rs:35-47`, `src/dir.rs:119-129`, `src/walk.rs:710-726`.) -/
def FmtEnv.str (env : FmtEnv) (s : Bytes) : Text := ['"'] ++ escaped env.printable false (decodeText s) ++ ['"']

/-- `{:?}` of an `Option` of a number.
(std, used for the messages of `src/lib.rs:79-110`, `src/file.rs:35-47`, `src/dir.rs:119-129`, `src/walk.rs:710-726`.) -/
def optText : Option Nat → Text
  | none => lit "None"
  | some n => lit "Some(" ++ numText n ++ lit ")"

/-- The elements of a list, with commas.
(std, used for the messages of `src/lib.rs:79-110`, `src/file.rs:35-47`, `src/dir.rs:119-129`, `src/walk.rs:710-726`.) -/
def commas : List Text → Text
  | [] => []
  | [x] => x
  | x :: xs => x ++ lit ", " ++ commas xs

/-- `{:?}` of a slice of bytes. (std, used for the messages of `src/lib.rs:79-110`, `src/file.rs:35-47`, `src/dir.rs:119-129`, `src/walk.rs:710-726`.) -/
def bytesText (b : Bytes) : Text := lit "[" ++ commas (b.map (fun x => numText x.toNat)) ++ lit "]"

/-- `{:02x}` of a byte. (`src/dir/directory.rs:54-56`.) -/
def hexByte (b : UInt8) : Text := [Nat.digitChar (b.toNat / 16), Nat.digitChar (b.toNat % 16)]

/-- `{:?}` of an `UnexpectedNodeType` made from a `UnixFsType`, `src/lib.rs:98-114`. -/
def typeText (t : DataType) : Text := (UnexpectedNodeType.of t).debug.toList

/-- The derived `Debug` of `Metadata`, `src/lib.rs:132-136`. -/
def Metadata.debugText (m : Metadata) : Text :=
  lit "Metadata { mode: " ++ optText m.mode ++ lit ", mtime: " ++
    (match m.mtime with
     | none => lit "None"
     | some (s, n) => lit "Some((" ++ intText s ++ lit ", " ++ numText n ++ lit "))") ++ lit " }"

/-- `impl Display for InvalidCidInLink`, `src/lib.rs:79-87`. -/
def InvalidCidInLink.display (env : FmtEnv) (e : InvalidCidInLink) : Text :=
  lit "failed to convert link #" ++ numText e.nth ++ lit " (" ++ env.str e.name ++ lit ") to Cid: " ++ env.cidError e.source

/-- The derived `Debug` of `InvalidCidInLink`, `src/lib.rs:38-53`. -/
def InvalidCidInLink.debugText (env : FmtEnv) (e : InvalidCidInLink) : Text :=
  lit "InvalidCidInLink { nth: " ++ numText e.nth ++ lit ", hash: " ++ bytesText e.hash ++ lit ", name: " ++ env.str e.name ++
    lit ", source: " ++ env.cidErrorDebug e.source ++ lit ", hidden: () }"

/-- `impl Display for FileError`, `src/file.rs:107-140`. -/
def FileError.display : FileError → Text
  | .LinksAndBlocksizesMismatch => lit "different number of links and blocksizes: cannot determine subtree ranges"
  | .NoLinksNoContent => lit "filesize is non-zero while there are no links or content"
  | .NonRootDefinesMetadata m => lit "unsupported: non-root defines " ++ m.debugText
  | .IntermediateNodeWithoutFileSize => lit "intermediatery node with links but no filesize"
  | .TreeExpandsOnLinks => lit "total size of tree expands through links, it should only get smaller or keep size"
  | .TreeOverlapsBetweenLinks => lit "unsupported: tree contains overlap"
  | .EarlierLink => lit "error: earlier link given"
  | .TreeJumpsBetweenLinks => lit "unsupported: tree contains holes"
  | .UnexpectedRawOrFileProperties hash_type fanout =>
    lit "unsupported: File or Raw with hash_type " ++ optText hash_type ++ lit " or fanount " ++ optText fanout

/-- `impl Display for FileReadFailed`, `src/file.rs:35-47`. -/
def FileReadFailed.display (env : FmtEnv) : FileReadFailed → Text
  | .File e => e.display
  | .UnexpectedType t => lit "unexpected type for UnixFs: " ++ typeText t
  | .Read (some e) => lit "reading failed: " ++ env.pb e
  | .Read none => lit "reading failed: missing UnixFS message"
  | .InvalidCid e => e.display env

/-- `impl Display for ParsingFailed`, `src/pb.rs:26-39`. -/
def ParsingFailed.display (env : FmtEnv) : ParsingFailed → Text
  | .InvalidDagPb e => lit "failed to read the block as dag-pb: " ++ env.pb e
  | .InvalidUnixFs e _ => lit "failed to read the dag-pb PBNode::Data as UnixFS message: " ++ env.pb e
  | .NoData _ => lit "dag-pb PBNode::Data was missing or empty"

/-- `impl Display for UnexpectedDirectoryProperties`, `src/dir/directory.rs:43-60`. -/
def UnexpectedDirectoryProperties.display (e : UnexpectedDirectoryProperties) : Text :=
  lit "filesize=" ++ optText e.filesize ++ lit ", " ++ numText e.blocksizes.length ++ lit " blocksizes, hash_type=" ++
    optText e.hash_type ++ lit ", fanout=" ++ optText e.fanout ++ lit ", data=[" ++ (e.data.getD []).flatMap hexByte ++ lit "]"

/-- `impl Display for ShardError`, `src/dir/sharded_lookup.rs:243-262`. -/
def ShardError.display : ShardError → Text
  | .UnsupportedProperties hash_type fanout =>
    lit "unsupported HAMTShard properties: hash_type=" ++ optText hash_type ++ lit ", fanout=" ++ optText fanout
  | .UnexpectedProperties filesize blocksizes =>
    lit "unexpected HAMTShard properties: filesize=(" ++ optText filesize ++ lit "), " ++ numText blocksizes.length ++ lit " blocksizes"

/-- `{:?}` of a pair of an index and a `Cid`. (`src/dir/sharded_lookup.rs:313`.) -/
def FmtEnv.indexed (env : FmtEnv) (x : Nat × Cid) : Text := lit "(" ++ numText x.1 ++ lit ", " ++ env.cid x.2 ++ lit ")"

/-- The derived `Debug` of `MultipleMatchingLinks`, `src/dir.rs:167-184`. -/
def MultipleMatchingLinks.debugText (env : FmtEnv) : MultipleMatchingLinks → Text
  | .Two first second => lit "Two { first: " ++ env.indexed first ++ lit ", second: " ++ env.indexed second ++ lit " }"
  | .OneValid first second => lit "OneValid { first: " ++ env.indexed first ++ lit ", second: " ++ second.debugText env ++ lit " }"

/-- `impl Display for LookupError`, `src/dir/sharded_lookup.rs:307-323`. -/
def LookupError.display (env : FmtEnv) : LookupError → Text
  | .InvalidCid e => lit "Invalid link: " ++ e.debugText env
  | .Multiple e => lit "Multiple matching links found: " ++ e.debugText env
  | .UnexpectedBucketType t => lit "unexpected type for HAMT bucket: " ++ typeText t
  | .Shard e => e.display
  | .Read (some e) => lit "failed to parse the block as unixfs or dag-pb node: " ++ env.pb e
  | .Read none => lit "HAMTDirectory not found in empty dag-pb node"

/-- `impl Display for ResolveError`, `src/dir.rs:119-129`. -/
def ResolveError.display (env : FmtEnv) : ResolveError → Text
  | .UnexpectedType t => lit "unexpected type for UnixFs: " ++ typeText t
  | .UnexpectedDirProperties e => lit "unexpected directory properties: " ++ e.display
  | .Read e => lit "parsing failed: " ++ env.pb e
  | .Lookup e => e.display env

/-- `impl Display for Error`, `src/walk.rs:709-725`. -/
def WalkError.display (env : FmtEnv) : WalkError → Text
  | .UnsupportedType t => lit "unsupported UnixFs type: " ++ typeText t
  | .UnexpectedType t => lit "link to unexpected UnixFs type from File: " ++ typeText t
  | .DagPbParsingFailed e => lit "failed to parse the outer dag-pb: " ++ env.pb e
  | .UnixFsParsingFailed e => lit "failed to parse the inner UnixFs: " ++ env.pb e
  | .EmptyDagPbNode => lit "failed to parse the inner UnixFs: no data"
  | .InvalidCid e => lit "link contained an invalid Cid: " ++ e.display env
  | .File e => lit "invalid file: " ++ e.display
  | .UnsupportedDirectory e => lit "unsupported directory: " ++ e.display
  | .UnsupportedHAMTShard e => lit "unsupported hamtshard: " ++ e.display

/-- `impl Display for TreeBuildingFailed`, `src/dir/builder.rs:102-123`. -/
def TreeBuildingFailed.display (env : FmtEnv) : TreeBuildingFailed → Text
  | .RootedPath s => lit "path is rooted: " ++ env.str s
  | .RepeatSlashesInPath s => lit "path contains repeat slashes: " ++ env.str s
  | .PathEndsInSlash s => lit "path ends in a slash: " ++ env.str s
  | .TooManyRootLevelEntries => lit "multiple root level entries while configured wrap_with_directory = false"
  | .DuplicatePath s => lit "path exists already: " ++ env.str s
  | .LeafAsDirectory s => lit "attempted to use already added leaf as a subdirectory: " ++ env.str s

/-- `impl Display for TreeConstructionFailed`, `src/dir/builder.rs:137-146`. -/
def TreeConstructionFailed.display (env : FmtEnv) : TreeConstructionFailed → Text
  | .Protobuf => lit "serialization failed: " ++ env.pb .outputBufferTooSmall
  | .TooLargeBlock size => lit "attempted to create block of " ++ numText size ++ lit " bytes"

/-! ### The lines of `examples/get.rs` -/

/-- The bytes of a path: its components, with slashes. This is what the string in a `PathBuf` is if nothing but names without slashes was
pushed, and no `.` except first; `get` walks with the root name `""`. (`examples/get.rs:81-100`.) -/
def PathBuf.bytes (p : PathBuf) : Bytes :=
  (if p.absolute then [slash] else []) ++ (p.comps.intersperse [slash]).flatten

/-- `{:?}` of a path. (`examples/get.rs:81-100`.) -/
def FmtEnv.path (env : FmtEnv) (s : Bytes) : Text := ['"'] ++ escaped env.printable env.pathQuote (decodeText s) ++ ['"']

/-- `{:>width}`. (`examples/get.rs:81-100`.) -/
def padLeft (width : Nat) (t : Text) : Text := List.replicate (width - t.length) ' ' ++ t

/-- The `println!`s, `examples/get.rs:81,88,94-97`: a line and the newline after it. `{:o}` is octal. -/
def Examples.Line.text (env : FmtEnv) : Examples.Line → Text
  | .f mode seconds size path =>
    lit "f " ++ Nat.toDigits 8 mode ++ lit " " ++ padLeft 12 (intText seconds) ++ lit " " ++ padLeft 16 (numText size) ++ lit " " ++
      env.path path.bytes ++ ['\n']
  | .d mode seconds path =>
    lit "d " ++ Nat.toDigits 8 mode ++ lit " " ++ padLeft 12 (intText seconds) ++ lit " " ++ padLeft 16 (lit "-") ++ lit " " ++
      env.path path.bytes ++ ['\n']
  | .s mode seconds path target =>
    lit "s " ++ Nat.toDigits 8 mode ++ lit " " ++ padLeft 12 (intText seconds) ++ lit " " ++ padLeft 16 (lit "-") ++ lit " " ++
      env.path path.bytes ++ lit " -> " ++ env.path target ++ ['\n']

/-- Everything `get` has written to its standard output. (`examples/get.rs:56-103`.) -/
def Examples.output (env : FmtEnv) (ls : List Examples.Line) : Text := ls.flatMap (Examples.Line.text env)

end Verif
