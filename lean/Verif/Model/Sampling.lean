import Verif.Base
import Mathlib.Data.ZMod.Basic

/-! # What the crate calls in its dependencies: random numbers

Scalars are drawn with `Scalar::rand` of ark-ff 0.4 (`src/dkg/participant.rs:148, 177, 181`, `src/dkg/nizkpok.rs:48`,
`src/dkg/complaint.rs:47`), bytes with `fill_bytes` (`src/sign/precomputation.rs:29`, and in `generate_nonce`,
`src/dkg/secret_share.rs:307`). The generator is a finite tape of bytes, as `OsRng` delivers them. The source of ark-ff is not in
`/repo`; this is what we remember of it, for a modulus of 256 bits on a little-endian machine: four `u64` are drawn, which are
taken as the Montgomery form of a number; if the number is not below the modulus, four others are drawn. (For a modulus with
fewer bits the surplus bits would be cleared first.) The real loop has no end; here the scalar is 0 when the tape is used up. -/

namespace IceFrost

/-- `Fp::rand` for a modulus `p` with `2^255 < p < 2^256`, on a tape of bytes. -/
def drawScalar (p : ℕ) (bs : Bytes) : ZMod p × Bytes :=
  if h : bs.length < 32 then (0, [])
  else if leNat (bs.take 32) < p then ((leNat (bs.take 32) : ZMod p) * ((2 ^ 256 : ℕ) : ZMod p)⁻¹, bs.drop 32)
  else drawScalar p (bs.drop 32)
termination_by bs.length
decreasing_by rw [List.length_drop]; omega

/-- `fill_bytes` on a tape of bytes; zeros when the tape is used up. -/
def drawBytes (k : ℕ) (bs : Bytes) : Bytes × Bytes := (bs.take k ++ List.replicate (k - bs.length) 0, bs.drop k)

end IceFrost
