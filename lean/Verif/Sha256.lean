import Verif.Cid
/-
SHA-256 (FIPS 180-4), the hash behind `Code::Sha2_256.digest` (`src/file/adder.rs:615`, `src/dir/builder/iter.rs:167`).
The theorems of this development hold for every `sha` with 32-byte results; this file shows that the actual function is
one of them, and `Verif/Vectors.lean` runs the model with it against the unit tests of `/repo`.
-/
namespace Verif

/-- The first 32 bits of the fractional parts of the cube roots of the first 64 primes (FIPS 180-4, 4.2.2). -/
def shaK : List UInt32 := [
  0x428a2f98, 0x71374491, 0xb5c0fbcf, 0xe9b5dba5, 0x3956c25b, 0x59f111f1, 0x923f82a4, 0xab1c5ed5,
  0xd807aa98, 0x12835b01, 0x243185be, 0x550c7dc3, 0x72be5d74, 0x80deb1fe, 0x9bdc06a7, 0xc19bf174,
  0xe49b69c1, 0xefbe4786, 0x0fc19dc6, 0x240ca1cc, 0x2de92c6f, 0x4a7484aa, 0x5cb0a9dc, 0x76f988da,
  0x983e5152, 0xa831c66d, 0xb00327c8, 0xbf597fc7, 0xc6e00bf3, 0xd5a79147, 0x06ca6351, 0x14292967,
  0x27b70a85, 0x2e1b2138, 0x4d2c6dfc, 0x53380d13, 0x650a7354, 0x766a0abb, 0x81c2c92e, 0x92722c85,
  0xa2bfe8a1, 0xa81a664b, 0xc24b8b70, 0xc76c51a3, 0xd192e819, 0xd6990624, 0xf40e3585, 0x106aa070,
  0x19a4c116, 0x1e376c08, 0x2748774c, 0x34b0bcb5, 0x391c0cb3, 0x4ed8aa4a, 0x5b9cca4f, 0x682e6ff3,
  0x748f82ee, 0x78a5636f, 0x84c87814, 0x8cc70208, 0x90befffa, 0xa4506ceb, 0xbef9a3f7, 0xc67178f2]

/-- The eight working variables. -/
structure Sha where
  a : UInt32
  b : UInt32
  c : UInt32
  d : UInt32
  e : UInt32
  f : UInt32
  g : UInt32
  h : UInt32

/-- The initial hash value (FIPS 180-4, 5.3.3). -/
def Sha.init : Sha :=
  ⟨0x6a09e667, 0xbb67ae85, 0x3c6ef372, 0xa54ff53a, 0x510e527f, 0x9b05688c, 0x1f83d9ab, 0x5be0cd19⟩

def rotr (x n : UInt32) : UInt32 := (x >>> n) ||| (x <<< (32 - n))

/-- One round (FIPS 180-4, 6.2.2, step 3). -/
def Sha.round (s : Sha) (k w : UInt32) : Sha :=
  let t1 := s.h + (rotr s.e 6 ^^^ rotr s.e 11 ^^^ rotr s.e 25) + ((s.e &&& s.f) ^^^ (~~~s.e &&& s.g)) + k + w
  let t2 := (rotr s.a 2 ^^^ rotr s.a 13 ^^^ rotr s.a 22) + ((s.a &&& s.b) ^^^ (s.a &&& s.c) ^^^ (s.b &&& s.c))
  ⟨t1 + t2, s.a, s.b, s.c, s.d + t1, s.e, s.f, s.g⟩

/-- All rounds on one block; `w` is the window of the sixteen next words of the message schedule. -/
def Sha.rounds : List UInt32 → List UInt32 → Sha → Sha
  | k :: ks, w0 :: w, s =>
    let w1 := w.getD 0 0
    let w14 := w.getD 13 0
    let s0 := rotr w1 7 ^^^ rotr w1 18 ^^^ (w1 >>> 3)
    let s1 := rotr w14 17 ^^^ rotr w14 19 ^^^ (w14 >>> 10)
    Sha.rounds ks (w ++ [s1 + w.getD 8 0 + s0 + w0]) (s.round k w0)
  | _, _, s => s

def Sha.add (s t : Sha) : Sha :=
  ⟨s.a + t.a, s.b + t.b, s.c + t.c, s.d + t.d, s.e + t.e, s.f + t.f, s.g + t.g, s.h + t.h⟩

/-- Big-endian words of a byte string. -/
def beWords : Bytes → List UInt32
  | x0 :: x1 :: x2 :: x3 :: xs =>
    (x0.toUInt32 <<< 24 ||| x1.toUInt32 <<< 16 ||| x2.toUInt32 <<< 8 ||| x3.toUInt32) :: beWords xs
  | _ => []

/-- Process `n` blocks of sixteen words. -/
def Sha.blocks : Nat → List UInt32 → Sha → Sha
  | 0, _, s => s
  | n + 1, ws, s => Sha.blocks n (ws.drop 16) (s.add (Sha.rounds shaK (ws.take 16) s))

/-- Big-endian bytes of a word. -/
def beBytes (x : UInt32) : Bytes := [(x >>> 24).toUInt8, (x >>> 16).toUInt8, (x >>> 8).toUInt8, x.toUInt8]

/-- The padded message (FIPS 180-4, 5.1.1). -/
def shaPad (m : Bytes) : Bytes :=
  m ++ 0x80 :: (List.replicate ((119 - m.length % 64) % 64) 0 ++
    (List.range 8).map fun i => UInt8.ofNat (m.length * 8 / 256 ^ (7 - i)))

/-- SHA-256. (used at `src/file/adder.rs:316`, `src/symlink.rs:50`, `src/dir/builder/iter.rs:146`.) -/
def sha256 (m : Bytes) : Bytes :=
  let p := shaPad m
  let s := Sha.blocks (p.length / 64) (beWords p) Sha.init
  beBytes s.a ++ (beBytes s.b ++ (beBytes s.c ++ (beBytes s.d ++ (beBytes s.e ++ (beBytes s.f ++
    (beBytes s.g ++ beBytes s.h))))))

/-- The hypothesis of the theorems about hashes holds of the actual function. -/
theorem sha256_length (m : Bytes) : (sha256 m).length = 32 := rfl

/-- The padded message is a whole number of 64-byte blocks. -/
theorem shaPad_length (m : Bytes) : (shaPad m).length % 64 = 0 := by
  simp only [shaPad, List.length_append, List.length_cons, List.length_replicate, List.length_map, List.length_range]
  omega

end Verif
