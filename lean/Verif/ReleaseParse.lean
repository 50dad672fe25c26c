import Verif.Release
/-
Reading blocks in the release profile. quick-protobuf's `BytesReader` computes with `usize` (64 bits here); where the arithmetic
overflows, a build with overflow checks panics (the marker `overflow` of `Pb.lean`), and a release build goes on with the wrapped
number, so that the reader may go back to a place where it has been. Everything else is as in `Pb.lean` and `Messages.lean`, whose
functions are used for single reads, which never go back.
-/
namespace Verif

/-- `BytesReader`, with the buffer which is passed along with it: `start` is `pos`, `end` is `stop`.
(quick-protobuf 0.8.0, called from `src/pb/merkledag.rs:25-39`, `:69-82` and `src/pb/unixfs.rs:31-49`, `:169-181`.) -/
structure ReaderR where
  buf : Bytes
  pos : Nat
  stop : Nat
  deriving DecidableEq, Repr

/-- The bytes from `start` on: `bytes.get(start..)`, nothing if it is behind the end of the buffer.
(quick-protobuf 0.8.0, called from `src/pb/merkledag.rs:25-39`, `:69-82` and `src/pb/unixfs.rs:31-49`, `:169-181`.) -/
def ReaderR.view (r : ReaderR) : Reader := ⟨r.pos, r.stop, r.buf.drop r.pos⟩

/-- The same buffer at another place. (quick-protobuf 0.8.0, called from `src/pb/merkledag.rs:25-39`, `:69-82` and `src/pb/unixfs.rs:31-49`, `:169-181`.) -/
def ReaderR.at (r : ReaderR) (r' : Reader) : ReaderR := ⟨r.buf, r'.pos, r'.stop⟩

/-- A single read. (quick-protobuf 0.8.0, called from `src/pb/merkledag.rs:25-39`, `:69-82` and `src/pb/unixfs.rs:31-49`, `:169-181`.) -/
def ReaderR.lift {α : Type} (r : ReaderR) : Except PbError (α × Reader) → Except PbError (α × ReaderR)
  | .ok (a, r') => .ok (a, r.at r')
  | .error e => .error e

/-- `BytesReader::read_varint32`. (quick-protobuf 0.8.0, called from `src/pb/merkledag.rs:25-39`, `:69-82` and `src/pb/unixfs.rs:31-49`, `:169-181`.) -/
def ReaderR.readVarint32 (r : ReaderR) : Except PbError (Nat × ReaderR) := r.lift r.view.readVarint32
/-- `BytesReader::read_varint64`. (quick-protobuf 0.8.0, called from `src/pb/merkledag.rs:25-39`, `:69-82` and `src/pb/unixfs.rs:31-49`, `:169-181`.) -/
def ReaderR.readVarint64 (r : ReaderR) : Except PbError (Nat × ReaderR) := r.lift r.view.readVarint64
/-- `BytesReader::read_bytes`; `start + len` is below 2^64, as `start` is a place in the buffer and `len` has 32 bits.
(quick-protobuf 0.8.0, called from `src/pb/merkledag.rs:25-39`, `:69-82` and `src/pb/unixfs.rs:31-49`, `:169-181`.) -/
def ReaderR.readBytes (r : ReaderR) : Except PbError (Slice × ReaderR) := r.lift r.view.readBytes
/-- `BytesReader::read_string`. (quick-protobuf 0.8.0, called from `src/pb/merkledag.rs:25-39`, `:69-82` and `src/pb/unixfs.rs:31-49`, `:169-181`.) -/
def ReaderR.readString (r : ReaderR) : Except PbError (Bytes × ReaderR) := r.lift r.view.readString
/-- `BytesReader::read_fixed32`. (quick-protobuf 0.8.0, called from `src/pb/merkledag.rs:25-39`, `:69-82` and `src/pb/unixfs.rs:31-49`, `:169-181`.) -/
def ReaderR.readFixed32 (r : ReaderR) : Except PbError (Nat × ReaderR) := r.lift r.view.readFixed32

/-- The end of `BytesReader::read_unknown` for a field with a length, with wrapping arithmetic:
`if end - start < len { return Err(Error::Varint) }; start += len`.
(quick-protobuf 0.8.0, called from `src/pb/merkledag.rs:25-39`, `:69-82` and `src/pb/unixfs.rs:31-49`, `:169-181`.) -/
def ReaderR.skip (r : ReaderR) (len : Nat) : Except PbError ReaderR :=
  if subW r.stop r.pos < len then .error .varint else .ok { r with pos := addW r.pos len }

/-- `BytesReader::read_unknown`. (quick-protobuf 0.8.0, called from `src/pb/merkledag.rs:25-39`, `:69-82` and `src/pb/unixfs.rs:31-49`, `:169-181`.) -/
def ReaderR.readUnknown (r : ReaderR) (tag : Nat) : Except PbError ReaderR :=
  match tag % 8 with
  | 0 => do let (_, r) ← r.readVarint64; .ok r
  | 1 => .ok { r with pos := addW r.pos 8 }
  | 2 => do
    let (len, r) ← r.readVarint64
    r.skip len
  | 5 => .ok { r with pos := addW r.pos 4 }
  | 3 => .error .deprecated
  | 4 => .error .deprecated
  | _ => .error .unknownWireType

/-- The loop common to all generated `from_reader` functions (see `readLoop`). `none`: it never ends.
(quick-protobuf 0.8.0, called from `src/pb/merkledag.rs:25-39`, `:69-82` and `src/pb/unixfs.rs:31-49`, `:169-181`.) -/
def fromReaderR {M : Type} (step : Nat → M → ReaderR → Option (Except PbError (M × ReaderR))) (m : M) (r : ReaderR) :
    Option (Except PbError (M × ReaderR)) :=
  if r.pos = r.stop then some (.ok (m, r))
  else
    match r.readVarint32 with
    | .error e => some (.error e)
    | .ok (tag, r) => do
      let x ← step tag m r
      match x with
      | .error e => some (.error e)
      | .ok (m, r) => fromReaderR step m r
partial_fixpoint

/-- `BytesReader::read_message`. (quick-protobuf 0.8.0, called from `src/pb/merkledag.rs:25-39`, `:69-82` and `src/pb/unixfs.rs:31-49`, `:169-181`.) -/
def ReaderR.readMessage {M : Type} (step : Nat → M → ReaderR → Option (Except PbError (M × ReaderR))) (dflt : M) (r : ReaderR) :
    Option (Except PbError (M × ReaderR)) :=
  match r.readVarint32 with
  | .error e => some (.error e)
  | .ok (len, r) =>
    (fromReaderR step dflt { r with stop := addW r.pos len }).bind (fun x =>
      match x with
      | .error e => some (.error e)
      | .ok (m, r') => some (.ok (m, { r' with pos := r'.stop, stop := r.stop })))

/-- One field of `PBLink::from_reader`, `src/pb/merkledag.rs:28-36`. -/
def PBLink.stepR (tag : Nat) (m : PBLink) (r : ReaderR) : Option (Except PbError (PBLink × ReaderR)) :=
  some (match tag with
  | 10 => do let (s, r) ← r.readBytes; .ok ({ m with Hash := some s.val }, r)
  | 18 => do let (s, r) ← r.readString; .ok ({ m with Name := some s }, r)
  | 24 => do let (n, r) ← r.readVarint64; .ok ({ m with Tsize := some n }, r)
  | t => do let r ← r.readUnknown t; .ok (m, r))

/-- One field of `PBNode::from_reader`, `src/pb/merkledag.rs:72-79`. -/
def PBNode.stepR (tag : Nat) (m : PBNode) (r : ReaderR) : Option (Except PbError (PBNode × ReaderR)) :=
  match tag with
  | 18 => (r.readMessage PBLink.stepR {}).map (fun x => do let (l, r) ← x; .ok ({ m with Links := m.Links ++ [l] }, r))
  | 10 => some (do let (s, r) ← r.readBytes; .ok ({ m with Data := some s }, r))
  | t => some (do let r ← r.readUnknown t; .ok (m, r))

/-- One field of `UnixTime::from_reader`, `src/pb/unixfs.rs:172-179`. -/
def UnixTime.stepR (tag : Nat) (m : UnixTime) (r : ReaderR) : Option (Except PbError (UnixTime × ReaderR)) :=
  some (match tag with
  | 8 => do let (n, r) ← r.readVarint64; .ok ({ m with Seconds := u64AsI64 n }, r)
  | 21 => do let (n, r) ← r.readFixed32; .ok ({ m with FractionalNanoseconds := some n }, r)
  | t => do let r ← r.readUnknown t; .ok (m, r))

/-- One field of `Data::from_reader`, `src/pb/unixfs.rs:34-47`. -/
def UnixFs.stepR (tag : Nat) (m : UnixFs) (r : ReaderR) : Option (Except PbError (UnixFs × ReaderR)) :=
  match tag with
  | 8 => some (do let (n, r) ← r.readVarint32; .ok ({ m with Ty := DataType.ofI32 n }, r))
  | 18 => some (do let (s, r) ← r.readBytes; .ok ({ m with Data := some s.val }, r))
  | 24 => some (do let (n, r) ← r.readVarint64; .ok ({ m with filesize := some n }, r))
  | 32 => some (do let (n, r) ← r.readVarint64; .ok ({ m with blocksizes := m.blocksizes ++ [n] }, r))
  | 40 => some (do let (n, r) ← r.readVarint64; .ok ({ m with hashType := some n }, r))
  | 48 => some (do let (n, r) ← r.readVarint64; .ok ({ m with fanout := some n }, r))
  | 56 => some (do let (n, r) ← r.readVarint32; .ok ({ m with mode := some n }, r))
  | 66 => (r.readMessage UnixTime.stepR {}).map (fun x => do let (t, r) ← x; .ok ({ m with mtime := some t }, r))
  | t => some (do let r ← r.readUnknown t; .ok (m, r))

/-- `MessageRead::from_reader(&mut BytesReader::from_bytes(b), b)`.
(quick-protobuf 0.8.0, called from `src/pb/merkledag.rs:25-39`, `:69-82` and `src/pb/unixfs.rs:31-49`, `:169-181`.) -/
def parseMessageR {M : Type} (step : Nat → M → ReaderR → Option (Except PbError (M × ReaderR))) (dflt : M) (b : Bytes) :
    Option (Except PbError M) :=
  (fromReaderR step dflt ⟨b, 0, b.length⟩).map (fun x => do let (m, _) ← x; .ok m)

/-- `impl TryFrom<&[u8]> for PBNode`, `src/pb.rs:76-83`. -/
def PBNode.tryFromR (data : Bytes) : Option (Except PbError PBNode) := parseMessageR PBNode.stepR {} data

/-- `impl TryFrom<Option<&[u8]>> for UnixFs`, `src/pb.rs:63-73`. -/
def UnixFs.tryFromR (data : Option Bytes) : Option (Except PbError UnixFs) := parseMessageR UnixFs.stepR {} (data.getD [])

/-- `FlatUnixFs::try_parse`, `src/pb.rs:121-147`. -/
def FlatUnixFs.tryParseR (data : Bytes) : Option (Except ParsingFailed FlatUnixFs) :=
  (PBNode.tryFromR data).bind (fun x =>
    match x with
    | .error e => some (.error (.InvalidDagPb e))
    | .ok node =>
      match node.Data with
      | some s =>
        if s.val = [] then some (.error (.NoData node))
        else (UnixFs.tryFromR (some s.val)).map (fun y =>
          match y with
          | .ok d => .ok { links := node.Links, data := d }
          | .error e => .error (.InvalidUnixFs e node))
      | none => some (.error (.NoData node)))

end Verif
