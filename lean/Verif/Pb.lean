import Verif.Varint
import Verif.Utf8
/-
Model of the parts of quick-protobuf 0.8.0 (external) used by `/repo/src/pb/*.rs`: `BytesReader` and `Writer`.
-/
namespace Verif

@[simp] theorem except_ok_bind {ε α β : Type} (a : α) (f : α → Except ε β) :
    ((Except.ok a : Except ε α) >>= f) = f a := rfl
@[simp] theorem except_error_bind {ε α β : Type} (e : ε) (f : α → Except ε β) :
    ((Except.error e : Except ε α) >>= f) = Except.error e := rfl
@[simp] theorem except_pure {ε α : Type} (a : α) : (pure a : Except ε α) = .ok a := rfl

/-- A borrowed slice of the block: its offset in the buffer it was read from (what `as_ptr` differences reveal)
and its contents. (quick-protobuf 0.8.0, called from `src/pb/merkledag.rs:25-39`, `:69-82` and `src/pb/unixfs.rs:31-49`, `:169-181`.) -/
structure Slice where
  off : Nat
  val : Bytes
  deriving DecidableEq, Repr

/-! ### `BytesReader` -/

/-- `BytesReader::read_bytes`: varint32 length, then `bytes.get(start..start+len)`.
(quick-protobuf 0.8.0, called from `src/pb/merkledag.rs:25-39`, `:69-82` and `src/pb/unixfs.rs:31-49`, `:169-181`.) -/
def Reader.readBytes (r : Reader) : Except PbError (Slice × Reader) := do
  let (len, r) ← r.readVarint32
  if len ≤ r.rest.length then
    .ok (⟨r.pos, r.rest.take len⟩, { r with pos := r.pos + len, rest := r.rest.drop len })
  else .error .unexpectedEnd

/-- `BytesReader::read_string`: as `read_bytes`, then `from_utf8`.
(quick-protobuf 0.8.0, called from `src/pb/merkledag.rs:25-39`, `:69-82` and `src/pb/unixfs.rs:31-49`, `:169-181`.) -/
def Reader.readString (r : Reader) : Except PbError (Bytes × Reader) := do
  let (s, r) ← r.readBytes
  if validUtf8 s.val then .ok (s.val, r) else .error .utf8

/-- Four bytes, little endian. (quick-protobuf 0.8.0, called from `src/pb/merkledag.rs:25-39`, `:69-82` and `src/pb/unixfs.rs:31-49`, `:169-181`.) -/
def le32 (a b c d : UInt8) : Nat := a.toNat + 256 * (b.toNat + 256 * (c.toNat + 256 * d.toNat))

/-- `BytesReader::read_fixed32`. (quick-protobuf 0.8.0, called from `src/pb/merkledag.rs:25-39`, `:69-82` and `src/pb/unixfs.rs:31-49`, `:169-181`.) -/
def Reader.readFixed32 (r : Reader) : Except PbError (Nat × Reader) :=
  match r.rest with
  | a :: b :: c :: d :: t => .ok (le32 a b c d, { r with pos := r.pos + 4, rest := t })
  | _ => .error .unexpectedEnd

/-- `BytesReader::read_unknown`: skips a field by its wire type. Fixed-width skips only move `start`
(a skip past the end makes the next read fail). For the length-delimited case the crate compares the length with
`end - start`; when `start` has already overrun `end` that subtraction overflows in the external crate (a panic in
builds with overflow checks); this model returns the marker `overflow` there.
(quick-protobuf 0.8.0, called from `src/pb/merkledag.rs:25-39`, `:69-82` and `src/pb/unixfs.rs:31-49`, `:169-181`.) -/
def Reader.readUnknown (r : Reader) (tag : Nat) : Except PbError Reader :=
  match tag % 8 with
  | 0 => do let (_, r) ← r.readVarint64; .ok r
  | 1 => .ok { r with pos := r.pos + 8, rest := r.rest.drop 8 }
  | 2 => do
    let (len, r) ← r.readVarint64
    if r.stop < r.pos then .error .overflow
    else if r.stop - r.pos < len then .error .varint
    else .ok { r with pos := r.pos + len, rest := r.rest.drop len }
  | 5 => .ok { r with pos := r.pos + 4, rest := r.rest.drop 4 }
  | 3 => .error .deprecated
  | 4 => .error .deprecated
  | _ => .error .unknownWireType

/-- The loop common to all generated `from_reader` functions:
`while !r.is_eof() { match r.next_tag(bytes) { Ok(tag) => step, Err(e) => return Err(e) } }`
(`merkledag.rs:27-37,71-80`, `unixfs.rs:33-48,171-180,205-213`). `next_tag` is `read_varint32`. The first argument
bounds the iterations; `from_reader` passes one more than the number of remaining bytes, and every iteration consumes
at least one byte (`readLoop_no_fuel`). -/
def readLoop {M : Type} (step : Nat → M → Reader → Except PbError (M × Reader)) :
    Nat → M → Reader → Except PbError (M × Reader)
  | 0, _, _ => .error .fuel
  | fuel + 1, m, r =>
    if r.pos = r.stop then .ok (m, r)
    else do
      let (tag, r) ← r.readVarint32
      let (m, r) ← step tag m r
      readLoop step fuel m r

/-- `MessageRead::from_reader` on the reader's current window.
(quick-protobuf 0.8.0, called from `src/pb/merkledag.rs:25-39`, `:69-82` and `src/pb/unixfs.rs:31-49`, `:169-181`.) -/
def fromReader {M : Type} (step : Nat → M → Reader → Except PbError (M × Reader)) (dflt : M) (r : Reader) :
    Except PbError (M × Reader) :=
  readLoop step (r.rest.length + 1) dflt r

/-- `BytesReader::read_message`: varint32 length; `end` is moved to `start + len` during the nested read and
restored afterwards, `start` becomes the nested `end`.
(quick-protobuf 0.8.0, called from `src/pb/merkledag.rs:25-39`, `:69-82` and `src/pb/unixfs.rs:31-49`, `:169-181`.) -/
def Reader.readMessage {M : Type} (step : Nat → M → Reader → Except PbError (M × Reader)) (dflt : M) (r : Reader) :
    Except PbError (M × Reader) := do
  let (len, r) ← r.readVarint32
  let outer := r.stop
  let (m, r) ← fromReader step dflt { r with stop := r.pos + len }
  .ok (m, { r with pos := r.stop, stop := outer })

/-- `MessageRead::from_reader(&mut BytesReader::from_bytes(b), b)`.
(quick-protobuf 0.8.0, called from `src/pb/merkledag.rs:25-39`, `:69-82` and `src/pb/unixfs.rs:31-49`, `:169-181`.) -/
def parseMessage {M : Type} (step : Nat → M → Reader → Except PbError (M × Reader)) (dflt : M) (b : Bytes) :
    Except PbError M := do
  let (m, _) ← fromReader step dflt (Reader.ofBytes b)
  .ok m

/-! ### `Writer` -/

/-- `Writer::write_bytes` / `write_string`: length prefix and contents.
(quick-protobuf 0.8.0, called from `src/pb/merkledag.rs:50-61`, `:93-101` and `src/pb/unixfs.rs:83-107`, `:190-196`.) -/
def wBytes (b : Bytes) : Bytes := encVarint b.length ++ b

/-- `Writer::write_with_tag(tag, f)`.
(quick-protobuf 0.8.0, called from `src/pb/merkledag.rs:50-61`, `:93-101` and `src/pb/unixfs.rs:83-107`, `:190-196`.) -/
def wTag (tag : Nat) (payload : Bytes) : Bytes := encVarint tag ++ payload

/-- `Writer::write_message`: the declared size followed by the body.
(quick-protobuf 0.8.0, called from `src/pb/merkledag.rs:50-61`, `:93-101` and `src/pb/unixfs.rs:83-107`, `:190-196`.) -/
def wMessage (size : Nat) (body : Bytes) : Bytes := encVarint size ++ body

/-- `Writer::write_fixed32`. (quick-protobuf 0.8.0, called from `src/pb/merkledag.rs:50-61`, `:93-101` and `src/pb/unixfs.rs:83-107`, `:190-196`.) -/
def wFixed32 (n : Nat) : Bytes :=
  [UInt8.ofNat (n % 256), UInt8.ofNat (n / 256 % 256), UInt8.ofNat (n / 65536 % 256), UInt8.ofNat (n / 16777216 % 256)]

/-- `x as u64` for an `i64`. (quick-protobuf 0.8.0, called from `src/pb/merkledag.rs:50-61`, `:93-101` and `src/pb/unixfs.rs:83-107`, `:190-196`.) -/
def i64AsU64 (x : Int) : Nat := (x % (2 ^ 64 : Int)).toNat

/-- `x as i64` for a `u64`. (quick-protobuf 0.8.0, called from `src/pb/merkledag.rs:25-39`, `:69-82` and `src/pb/unixfs.rs:31-49`, `:169-181`.) -/
def u64AsI64 (n : Nat) : Int := if n < 2 ^ 63 then (n : Int) else (n : Int) - 2 ^ 64

end Verif
