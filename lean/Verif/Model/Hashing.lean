import Verif.Base

/-! # What the crate calls in its dependencies: hashing to the field, key derivation

The crate hashes to the scalar field through `DefaultFieldHasher` of ark-ff 0.4 (`src/utils.rs:79-85`,
`src/dkg/complaint.rs:52-54`) and derives cipher keys through HKDF (`src/dkg/secret_share.rs:299-302`). Both are built from
a hash function; they are written here over an arbitrary one, `H`. The source of the dependencies is not in `/repo`: this
follows RFC 9380 (section 5.3.1), RFC 2104 and RFC 5869, and what we remember of the crates. -/

namespace IceFrost

/-- The `k` low bytes of `n`, most significant first (`to_be_bytes`). -/
def beBytes (k n : Nat) : Bytes := (leBytes k n).reverse

/-- The number written by a big-endian byte string (`from_be_bytes`). -/
def beNat (bs : Bytes) : Nat := leNat bs.reverse

/-- Byte-wise sum modulo 2. -/
def xorBytes (a b : Bytes) : Bytes := List.zipWith (fun x y => x ^^^ y) a b

variable (H : Bytes → Bytes)

/-- `ExpanderXmd::construct_dst_prime` of ark-ff: the tag, or its hash if it is longer than 255 bytes, and its length. -/
def dstPrime (dst : Bytes) : Bytes :=
  if 255 < dst.length then
    H (strBytes "H2C-OVERSIZE-DST-" ++ dst) ++ [UInt8.ofNat (H (strBytes "H2C-OVERSIZE-DST-" ++ dst)).length]
  else dst ++ [UInt8.ofNat dst.length]

/-- `ExpanderXmd::expand`: the first string that is hashed. `z` is the number of zero bytes in front (the RFC takes the
block size of the hash function; ark-ff 0.4, as we remember it, the number of bytes requested per field element). -/
def xmdFirst (z n : Nat) (dst msg : Bytes) : Bytes :=
  List.replicate z 0 ++ msg ++ beBytes 2 n ++ [0] ++ dstPrime H dst

/-- `ExpanderXmd::expand`: the string that is hashed for the block with number `i`, after the block `prev`; `b0` is the
hash of the first string. -/
def xmdNext (b0 prev : Bytes) (i : Nat) (dst : Bytes) : Bytes :=
  (if i = 1 then b0 else xorBytes b0 prev) ++ [UInt8.ofNat i] ++ dstPrime H dst

/-- `ExpanderXmd::expand`, the loop: `k` blocks from number `i` on. -/
def xmdBlocks (b0 dst : Bytes) : Nat → Nat → Bytes → List Bytes
  | 0, _, _ => []
  | k + 1, i, prev => H (xmdNext H b0 prev i dst) :: xmdBlocks b0 dst k (i + 1) (H (xmdNext H b0 prev i dst))

/-- `ExpanderXmd::expand`: `n` bytes from blocks of `len` bytes. `none` stands for the two assertions. -/
def expandXmd (len z n : Nat) (dst msg : Bytes) : Option Bytes :=
  if 255 < (n + (len - 1)) / len ∨ 2 ^ 16 ≤ n then none
  else some ((xmdBlocks H (H (xmdFirst H z n dst msg)) dst ((n + (len - 1)) / len) 1 []).flatten.take n)

/-- The strings that `expandXmd` hashes, in order; the one of an oversized tag is not counted. -/
def xmdLater (b0 dst : Bytes) : Nat → Nat → Bytes → List Bytes
  | 0, _, _ => []
  | k + 1, i, prev => xmdNext H b0 prev i dst :: xmdLater b0 dst k (i + 1) (H (xmdNext H b0 prev i dst))

/-- `hmac::Hmac::<H>` with blocks of 64 bytes and a key that is not longer (RFC 2104). -/
def hmacPad (key : Bytes) (c : UInt8) : Bytes := (key ++ List.replicate (64 - key.length) 0).map (· ^^^ c)

def hmac (key msg : Bytes) : Bytes := H (hmacPad key 0x5c ++ H (hmacPad key 0x36 ++ msg))

/-- `Hkdf::new(None, ikm)`: the salt is 32 zero bytes (RFC 5869, section 2.2). -/
def hkdfExtract (ikm : Bytes) : Bytes := hmac H (List.replicate 32 0) ikm

/-- The blocks of `Hkdf::expand`. -/
def hkdfBlocks (prk info : Bytes) : Nat → Nat → Bytes → List Bytes
  | 0, _, _ => []
  | k + 1, i, prev =>
    hmac H prk (prev ++ info ++ [UInt8.ofNat i]) ::
      hkdfBlocks prk info k (i + 1) (hmac H prk (prev ++ info ++ [UInt8.ofNat i]))

/-- `Hkdf::expand`: `n` bytes; more than 255 blocks of 32 bytes are refused. -/
def hkdfExpand (prk info : Bytes) (n : Nat) : Option Bytes :=
  if 255 * 32 < n then none else some ((hkdfBlocks H prk info ((n + 31) / 32) 1 []).flatten.take n)

end IceFrost
