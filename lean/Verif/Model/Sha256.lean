import Verif.Model.Hashing

/-! # SHA-256

`sha2::Sha256`, the hash function of the suite that the crate ships (`src/lib.rs:1658`, `src/dkg/complaint.rs:52`,
`src/dkg/secret_share.rs:299`), after FIPS 180-4. -/

namespace IceFrost.Sha256

/-- FIPS 180-4, section 4.2.2: the round constants. -/
def constants : List UInt32 :=
  [0x428a2f98, 0x71374491, 0xb5c0fbcf, 0xe9b5dba5, 0x3956c25b, 0x59f111f1, 0x923f82a4, 0xab1c5ed5,
   0xd807aa98, 0x12835b01, 0x243185be, 0x550c7dc3, 0x72be5d74, 0x80deb1fe, 0x9bdc06a7, 0xc19bf174,
   0xe49b69c1, 0xefbe4786, 0x0fc19dc6, 0x240ca1cc, 0x2de92c6f, 0x4a7484aa, 0x5cb0a9dc, 0x76f988da,
   0x983e5152, 0xa831c66d, 0xb00327c8, 0xbf597fc7, 0xc6e00bf3, 0xd5a79147, 0x06ca6351, 0x14292967,
   0x27b70a85, 0x2e1b2138, 0x4d2c6dfc, 0x53380d13, 0x650a7354, 0x766a0abb, 0x81c2c92e, 0x92722c85,
   0xa2bfe8a1, 0xa81a664b, 0xc24b8b70, 0xc76c51a3, 0xd192e819, 0xd6990624, 0xf40e3585, 0x106aa070,
   0x19a4c116, 0x1e376c08, 0x2748774c, 0x34b0bcb5, 0x391c0cb3, 0x4ed8aa4a, 0x5b9cca4f, 0x682e6ff3,
   0x748f82ee, 0x78a5636f, 0x84c87814, 0x8cc70208, 0x90befffa, 0xa4506ceb, 0xbef9a3f7, 0xc67178f2]

/-- Section 5.3.3: the initial hash value. -/
def initial : List UInt32 :=
  [0x6a09e667, 0xbb67ae85, 0x3c6ef372, 0xa54ff53a, 0x510e527f, 0x9b05688c, 0x1f83d9ab, 0x5be0cd19]

def rotr (x n : UInt32) : UInt32 := (x >>> n) ||| (x <<< (32 - n))

/-- Section 4.1.2. -/
def ch (x y z : UInt32) : UInt32 := (x &&& y) ^^^ (~~~x &&& z)
def maj (x y z : UInt32) : UInt32 := (x &&& y) ^^^ (x &&& z) ^^^ (y &&& z)
def bigSigma0 (x : UInt32) : UInt32 := rotr x 2 ^^^ rotr x 13 ^^^ rotr x 22
def bigSigma1 (x : UInt32) : UInt32 := rotr x 6 ^^^ rotr x 11 ^^^ rotr x 25
def smallSigma0 (x : UInt32) : UInt32 := rotr x 7 ^^^ rotr x 18 ^^^ (x >>> 3)
def smallSigma1 (x : UInt32) : UInt32 := rotr x 17 ^^^ rotr x 19 ^^^ (x >>> 10)

/-- Section 5.1.1: one bit 1, zeros, and the number of bits in 64 bits, so that the length is a multiple of 64 bytes. -/
def padded (msg : Bytes) : Bytes :=
  msg ++ [0x80] ++ List.replicate ((119 - msg.length % 64) % 64) 0 ++ beBytes 8 (8 * msg.length)

/-- A block as sixteen words, most significant byte first. -/
def words (block : Bytes) : List UInt32 :=
  (List.range 16).map fun i => UInt32.ofNat (beNat ((block.drop (4 * i)).take 4))

/-- Section 6.2.2, step 3, with the schedule of step 1 kept as a window of sixteen words. -/
def rounds : List UInt32 → List UInt32 → List UInt32 → List UInt32
  | [], _, s => s
  | k :: ks, w, s =>
    let t1 := s.getD 7 0 + bigSigma1 (s.getD 4 0) + ch (s.getD 4 0) (s.getD 5 0) (s.getD 6 0) + k + w.getD 0 0
    let t2 := bigSigma0 (s.getD 0 0) + maj (s.getD 0 0) (s.getD 1 0) (s.getD 2 0)
    rounds ks (w.tail ++ [smallSigma1 (w.getD 14 0) + w.getD 9 0 + smallSigma0 (w.getD 1 0) + w.getD 0 0])
      [t1 + t2, s.getD 0 0, s.getD 1 0, s.getD 2 0, s.getD 3 0 + t1, s.getD 4 0, s.getD 5 0, s.getD 6 0]

/-- Section 6.2.2: the hash value after a further block. -/
def compress (h : List UInt32) (block : Bytes) : List UInt32 :=
  let s := rounds constants (words block) h
  (List.range 8).map fun i => h.getD i 0 + s.getD i 0

/-- The first `k` blocks of 64 bytes. -/
def blocks : Nat → Bytes → List Bytes
  | 0, _ => []
  | k + 1, bs => bs.take 64 :: blocks k (bs.drop 64)

end Sha256

/-- `Sha256::digest`. -/
def sha256 (msg : Bytes) : Bytes :=
  let h := (Sha256.blocks ((Sha256.padded msg).length / 64) (Sha256.padded msg)).foldl Sha256.compress Sha256.initial
  ((List.range 8).map fun i => beBytes 4 (h.getD i 0).toNat).flatten

end IceFrost
