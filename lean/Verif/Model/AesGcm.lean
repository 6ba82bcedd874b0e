import Verif.Model.Hashing

/-! # AES-128-GCM

`aes_gcm::Aes128Gcm`, the cipher of the suite that the crate ships (`src/lib.rs:1660`), after FIPS 197 and
NIST SP 800-38D, without associated data (the crate has none: `src/dkg/secret_share.rs:315-317`) and with nonces of 12 bytes.
The limit of 64 GB on plaintexts is left out. -/

namespace IceFrost.Aes

/-- FIPS 197, section 5.1.1. -/
def sbox : List UInt8 :=
  [0x63, 0x7c, 0x77, 0x7b, 0xf2, 0x6b, 0x6f, 0xc5, 0x30, 0x01, 0x67, 0x2b, 0xfe, 0xd7, 0xab, 0x76,
   0xca, 0x82, 0xc9, 0x7d, 0xfa, 0x59, 0x47, 0xf0, 0xad, 0xd4, 0xa2, 0xaf, 0x9c, 0xa4, 0x72, 0xc0,
   0xb7, 0xfd, 0x93, 0x26, 0x36, 0x3f, 0xf7, 0xcc, 0x34, 0xa5, 0xe5, 0xf1, 0x71, 0xd8, 0x31, 0x15,
   0x04, 0xc7, 0x23, 0xc3, 0x18, 0x96, 0x05, 0x9a, 0x07, 0x12, 0x80, 0xe2, 0xeb, 0x27, 0xb2, 0x75,
   0x09, 0x83, 0x2c, 0x1a, 0x1b, 0x6e, 0x5a, 0xa0, 0x52, 0x3b, 0xd6, 0xb3, 0x29, 0xe3, 0x2f, 0x84,
   0x53, 0xd1, 0x00, 0xed, 0x20, 0xfc, 0xb1, 0x5b, 0x6a, 0xcb, 0xbe, 0x39, 0x4a, 0x4c, 0x58, 0xcf,
   0xd0, 0xef, 0xaa, 0xfb, 0x43, 0x4d, 0x33, 0x85, 0x45, 0xf9, 0x02, 0x7f, 0x50, 0x3c, 0x9f, 0xa8,
   0x51, 0xa3, 0x40, 0x8f, 0x92, 0x9d, 0x38, 0xf5, 0xbc, 0xb6, 0xda, 0x21, 0x10, 0xff, 0xf3, 0xd2,
   0xcd, 0x0c, 0x13, 0xec, 0x5f, 0x97, 0x44, 0x17, 0xc4, 0xa7, 0x7e, 0x3d, 0x64, 0x5d, 0x19, 0x73,
   0x60, 0x81, 0x4f, 0xdc, 0x22, 0x2a, 0x90, 0x88, 0x46, 0xee, 0xb8, 0x14, 0xde, 0x5e, 0x0b, 0xdb,
   0xe0, 0x32, 0x3a, 0x0a, 0x49, 0x06, 0x24, 0x5c, 0xc2, 0xd3, 0xac, 0x62, 0x91, 0x95, 0xe4, 0x79,
   0xe7, 0xc8, 0x37, 0x6d, 0x8d, 0xd5, 0x4e, 0xa9, 0x6c, 0x56, 0xf4, 0xea, 0x65, 0x7a, 0xae, 0x08,
   0xba, 0x78, 0x25, 0x2e, 0x1c, 0xa6, 0xb4, 0xc6, 0xe8, 0xdd, 0x74, 0x1f, 0x4b, 0xbd, 0x8b, 0x8a,
   0x70, 0x3e, 0xb5, 0x66, 0x48, 0x03, 0xf6, 0x0e, 0x61, 0x35, 0x57, 0xb9, 0x86, 0xc1, 0x1d, 0x9e,
   0xe1, 0xf8, 0x98, 0x11, 0x69, 0xd9, 0x8e, 0x94, 0x9b, 0x1e, 0x87, 0xe9, 0xce, 0x55, 0x28, 0xdf,
   0x8c, 0xa1, 0x89, 0x0d, 0xbf, 0xe6, 0x42, 0x68, 0x41, 0x99, 0x2d, 0x0f, 0xb0, 0x54, 0xbb, 0x16]

/-- Multiplication by `x` (section 4.2.1). -/
def xtime (b : UInt8) : UInt8 := (b <<< 1) ^^^ (if b &&& 0x80 = 0 then 0 else 0x1b)

def subByte (b : UInt8) : UInt8 := sbox.getD b.toNat 0

/-- The state is a list of sixteen bytes, column by column (section 3.4). `SubBytes` and `ShiftRows` (5.1.1, 5.1.2). -/
def subShift (s : Bytes) : Bytes := (List.range 16).map fun i => subByte (s.getD ((i + 4 * (i % 4)) % 16) 0)

/-- `MixColumns` (5.1.3). -/
def mix (s : Bytes) : Bytes := (List.range 16).map fun i =>
  let at_ (j : Nat) : UInt8 := s.getD (i / 4 * 4 + (i + j) % 4) 0
  xtime (at_ 0) ^^^ (xtime (at_ 1) ^^^ at_ 1) ^^^ at_ 2 ^^^ at_ 3

/-- `AddRoundKey` (5.1.4). -/
def addKey (s k : Bytes) : Bytes := (List.range 16).map fun i => s.getD i 0 ^^^ k.getD i 0

/-- `KeyExpansion` (5.2): the next round key. -/
def nextKey (k : Bytes) (rcon : UInt8) : Bytes :=
  let w0 := (List.range 4).map fun i => k.getD i 0 ^^^ subByte (k.getD (12 + (i + 1) % 4) 0) ^^^ (if i = 0 then rcon else 0)
  let w1 := xorBytes w0 ((k.drop 4).take 4)
  let w2 := xorBytes w1 ((k.drop 8).take 4)
  w0 ++ w1 ++ w2 ++ xorBytes w2 ((k.drop 12).take 4)

/-- Rounds 1 to 9 and the last one (section 5.1). -/
def rounds : Nat → UInt8 → Bytes → Bytes → Bytes
  | 0, rcon, k, s => addKey (subShift s) (nextKey k rcon)
  | r + 1, rcon, k, s => rounds r (xtime rcon) (nextKey k rcon) (addKey (mix (subShift s)) (nextKey k rcon))

/-- AES-128 of one block. -/
def encrypt (key block : Bytes) : Bytes := rounds 9 1 key (addKey block key)

end Aes

namespace Gcm

/-- SP 800-38D, section 6.3: the product of blocks, as numbers whose highest bit is the constant coefficient. -/
def mulLoop : Nat → Nat → Nat → Nat → Nat
  | 0, _, _, z => z
  | k + 1, x, v, z =>
    mulLoop k x (if v % 2 = 0 then v / 2 else (v / 2) ^^^ (0xe1 * 2 ^ 120)) (if x.testBit k then z ^^^ v else z)

def mul (x y : Nat) : Nat := mulLoop 128 x y 0

/-- Section 6.4: blocks of 16 bytes, the last one filled up with zeros. -/
def ghashLoop (h : Nat) : Nat → Bytes → Nat → Nat
  | 0, _, y => y
  | k + 1, bs, y =>
    ghashLoop h k (bs.drop 16) (mul (y ^^^ beNat (bs.take 16 ++ List.replicate (16 - (bs.take 16).length) 0)) h)

/-- The key stream of the counter mode with the block cipher `E`: the counter starts at 2 (sections 6.5 and 7.1). -/
def streamWith (E : Bytes → Bytes) (nonce : Bytes) (k : Nat) : Bytes :=
  (((List.range ((k + 15) / 16)).map fun i => E (nonce ++ beBytes 4 (i + 2))).flatten).take k

/-- The number that the tag hides: the hash of the ciphertext under the subkey `h`, without associated data. -/
def ghash (h : Nat) (ct : Bytes) : Nat :=
  mul (ghashLoop h ((ct.length + 15) / 16) ct 0 ^^^ beNat (beBytes 8 0 ++ beBytes 8 (8 * ct.length))) h

/-- The authentication tag (section 7.1). -/
def tagWith (E : Bytes → Bytes) (nonce ct : Bytes) : Bytes :=
  Aes.addKey (E (nonce ++ beBytes 4 1)) (beBytes 16 (ghash (beNat (E (List.replicate 16 0))) ct))

/-- `Aes128Gcm` is the mode with AES-128. -/
def stream (key : Bytes) : Bytes → Nat → Bytes := streamWith (Aes.encrypt key)
def tag (key : Bytes) : Bytes → Bytes → Bytes := tagWith (Aes.encrypt key)

end Gcm

end IceFrost
