import Verif.Messages
import Verif.Visit
/-
Platforms with 32 bits (overflow checks on). Three things depend on the width of `usize`: quick-protobuf computes positions with it, and panics
where they overflow; it cuts the length of an unknown field, a number of 64 bits, to `usize`; and `target_slice` in
`/repo/src/file/visit.rs:265-273` cuts the offsets of a range. Everything else is as in `Pb.lean`, `Messages.lean`, `FileReader.lean` and
`Visit.lean`. Panics while parsing are the marker `overflow`, as there.
-/
namespace Verif

/-- `BytesReader::read_bytes`: `start + len` may overflow.
(quick-protobuf 0.8.0, called from `src/pb/merkledag.rs:25-39`, `:69-82` and `src/pb/unixfs.rs:31-49`, `:169-181`.) -/
def Reader.readBytes32 (r : Reader) : Except PbError (Slice × Reader) := do
  let (len, r) ← r.readVarint32
  if U32 ≤ r.pos + len then .error .overflow
  else if len ≤ r.rest.length then
    .ok (⟨r.pos, r.rest.take len⟩, { r with pos := r.pos + len, rest := r.rest.drop len })
  else .error .unexpectedEnd

/-- `BytesReader::read_string`. (quick-protobuf 0.8.0, called from `src/pb/merkledag.rs:25-39`, `:69-82` and `src/pb/unixfs.rs:31-49`, `:169-181`.) -/
def Reader.readString32 (r : Reader) : Except PbError (Bytes × Reader) := do
  let (s, r) ← r.readBytes32
  if validUtf8 s.val then .ok (s.val, r) else .error .utf8

/-- `BytesReader::read_unknown`: the length of an unknown field is cut (`as usize`).
(quick-protobuf 0.8.0, called from `src/pb/merkledag.rs:25-39`, `:69-82` and `src/pb/unixfs.rs:31-49`, `:169-181`.) -/
def Reader.readUnknown32 (r : Reader) (tag : Nat) : Except PbError Reader :=
  match tag % 8 with
  | 0 => do let (_, r) ← r.readVarint64; .ok r
  | 1 => if U32 ≤ r.pos + 8 then .error .overflow else .ok { r with pos := r.pos + 8, rest := r.rest.drop 8 }
  | 2 => do
    let (n, r) ← r.readVarint64
    let len := n % U32
    if r.stop < r.pos then .error .overflow
    else if r.stop - r.pos < len then .error .varint
    else .ok { r with pos := r.pos + len, rest := r.rest.drop len }
  | 5 => if U32 ≤ r.pos + 4 then .error .overflow else .ok { r with pos := r.pos + 4, rest := r.rest.drop 4 }
  | 3 => .error .deprecated
  | 4 => .error .deprecated
  | _ => .error .unknownWireType

/-- `BytesReader::read_message`: `start + len` may overflow.
(quick-protobuf 0.8.0, called from `src/pb/merkledag.rs:25-39`, `:69-82` and `src/pb/unixfs.rs:31-49`, `:169-181`.) -/
def Reader.readMessage32 {M : Type} (step : Nat → M → Reader → Except PbError (M × Reader)) (dflt : M) (r : Reader) :
    Except PbError (M × Reader) := do
  let (len, r) ← r.readVarint32
  let outer := r.stop
  if U32 ≤ r.pos + len then .error .overflow
  else do
    let (m, r) ← fromReader step dflt { r with stop := r.pos + len }
    .ok (m, { r with pos := r.stop, stop := outer })

/-- One field of `PBLink::from_reader`, `src/pb/merkledag.rs:28-36`. -/
def PBLink.step32 (tag : Nat) (m : PBLink) (r : Reader) : Except PbError (PBLink × Reader) :=
  match tag with
  | 10 => do let (s, r) ← r.readBytes32; .ok ({ m with Hash := some s.val }, r)
  | 18 => do let (s, r) ← r.readString32; .ok ({ m with Name := some s }, r)
  | 24 => do let (n, r) ← r.readVarint64; .ok ({ m with Tsize := some n }, r)
  | t => do let r ← r.readUnknown32 t; .ok (m, r)

/-- One field of `PBNode::from_reader`, `src/pb/merkledag.rs:72-79`. -/
def PBNode.step32 (tag : Nat) (m : PBNode) (r : Reader) : Except PbError (PBNode × Reader) :=
  match tag with
  | 18 => do let (l, r) ← r.readMessage32 PBLink.step32 {}; .ok ({ m with Links := m.Links ++ [l] }, r)
  | 10 => do let (s, r) ← r.readBytes32; .ok ({ m with Data := some s }, r)
  | t => do let r ← r.readUnknown32 t; .ok (m, r)

/-- One field of `UnixTime::from_reader`, `src/pb/unixfs.rs:172-179`. -/
def UnixTime.step32 (tag : Nat) (m : UnixTime) (r : Reader) : Except PbError (UnixTime × Reader) :=
  match tag with
  | 8 => do let (n, r) ← r.readVarint64; .ok ({ m with Seconds := u64AsI64 n }, r)
  | 21 => do let (n, r) ← r.readFixed32; .ok ({ m with FractionalNanoseconds := some n }, r)
  | t => do let r ← r.readUnknown32 t; .ok (m, r)

/-- One field of `Data::from_reader`, `src/pb/unixfs.rs:34-47`. -/
def UnixFs.step32 (tag : Nat) (m : UnixFs) (r : Reader) : Except PbError (UnixFs × Reader) :=
  match tag with
  | 8 => do let (n, r) ← r.readVarint32; .ok ({ m with Ty := DataType.ofI32 n }, r)
  | 18 => do let (s, r) ← r.readBytes32; .ok ({ m with Data := some s.val }, r)
  | 24 => do let (n, r) ← r.readVarint64; .ok ({ m with filesize := some n }, r)
  | 32 => do let (n, r) ← r.readVarint64; .ok ({ m with blocksizes := m.blocksizes ++ [n] }, r)
  | 40 => do let (n, r) ← r.readVarint64; .ok ({ m with hashType := some n }, r)
  | 48 => do let (n, r) ← r.readVarint64; .ok ({ m with fanout := some n }, r)
  | 56 => do let (n, r) ← r.readVarint32; .ok ({ m with mode := some n }, r)
  | 66 => do let (t, r) ← r.readMessage32 UnixTime.step32 {}; .ok ({ m with mtime := some t }, r)
  | t => do let r ← r.readUnknown32 t; .ok (m, r)

/-- `impl TryFrom<&[u8]> for PBNode`, `src/pb.rs:76-83`. -/
def PBNode.tryFrom32 (data : Bytes) : Except PbError PBNode := parseMessage PBNode.step32 {} data

/-- `impl TryFrom<Option<&[u8]>> for UnixFs`, `src/pb.rs:63-73`. -/
def UnixFs.tryFrom32 (data : Option Bytes) : Except PbError UnixFs := parseMessage UnixFs.step32 {} (data.getD [])

/-- `FlatUnixFs::try_parse`, `src/pb.rs:121-147`. -/
def FlatUnixFs.tryParse32 (data : Bytes) : Except ParsingFailed FlatUnixFs :=
  match PBNode.tryFrom32 data with
  | .error e => .error (.InvalidDagPb e)
  | .ok node =>
    match node.Data with
    | some s =>
      if s.val = [] then .error (.NoData node)
      else match UnixFs.tryFrom32 (some s.val) with
        | .ok d => .ok { links := node.Links, data := d }
        | .error e => .error (.InvalidUnixFs e node)
    | none => .error (.NoData node)

end Verif
