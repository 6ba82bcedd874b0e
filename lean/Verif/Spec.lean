import Verif.Model.Types
import Mathlib.Algebra.BigOperators.Group.Finset.Basic
import Mathlib.Algebra.BigOperators.Ring.Finset

/-!
# Specification

What the code is supposed to compute, written with sums and products and without reference to any function of the
model, and the laws assumed of the external parts (group, codecs, KDF, AEAD).
-/

namespace IceFrost

open Finset

namespace Spec

variable {F G R : Type} [Field F] [AddCommGroup G] [Module F G]

/-- The value at `x` of the polynomial with coefficients `cs` (constant term first): `∑ cs_k x^k`. -/
def polyEval (cs : List F) (x : F) : F := ∑ k ∈ range cs.length, cs.getD k 0 * x ^ k

/-- The value at `x` of the polynomial "in the exponent" given by commitment points: `∑ x^k • φ_k`. -/
def pointEval (ps : List G) (x : F) : G := ∑ k ∈ range ps.length, x ^ k • ps.getD k 0

/-- The Lagrange coefficient at zero of index `i` for the index list `l`: `∏_{j ∈ l, j ≠ i} j / (j - i)`. -/
def lagrange (l : List U32) (i : U32) : F :=
  ∏ j ∈ l.toFinset.erase i, (j.toNat : F) / ((j.toNat : F) - (i.toNat : F))

/-- The secret obtained by interpolating at 0 the keys `key i` of the indices in `l`. -/
def interpolate (l : List U32) (key : U32 → F) : F := ∑ i ∈ l.toFinset, lagrange l i * key i

/-- The same in the group. -/
def interpolateG (F : Type) [Field F] [Module F G] (l : List U32) (pk : U32 → G) : G :=
  ∑ i ∈ l.toFinset, lagrange (F := F) l i • pk i

/-- The Schnorr verification equation `g^z = R · Y^c`. -/
def Schnorr (g R' Y : G) (c z : F) : Prop := z • g = R' + c • Y

/-- A proof of knowledge `(s, r)` for `(index, pk)`: `s` is the hash of `(index, pk, g^r pk^-s)`. -/
def PokValid (S : Suite F G R) (index : U32) (pk : G) (p : Nizk F) : Prop :=
  p.s = S.fieldHash (S.contextString ++ strBytes "nizkpok")
    (u32le index ++ S.encG pk ++ S.encG (p.r • S.gen - p.s • pk))

/-- The proof of knowledge of the Diffie-Hellman key a participant broadcasts is valid. -/
def DhValid (S : Suite F G R) (p : Participant F G) : Prop :=
  PokValid S p.index p.dhPublicKey p.proofOfDhPrivateKey

/-- A participant broadcasts a valid dealer record: its DH proof is valid, it has at least one commitment point and
a proof of knowledge of the discrete logarithm of the first one. -/
def DealerValid (S : Suite F G R) (p : Participant F G) : Prop :=
  DhValid S p ∧ ∃ c pk pf, p.commitments = some c ∧ c.points.head? = some pk ∧ p.proofOfSecretKey = some pf ∧
    PokValid S p.index pk pf

/-- The number of commitment points is the threshold. -/
def DegreeOk (t : U32) (p : Participant F G) : Prop :=
  ∀ c, p.commitments = some c → c.points.length = t.toNat

/-- A record with a valid DH proof and commitment points, but without proof of knowledge. -/
def LacksProof (S : Suite F G R) (p : Participant F G) : Prop :=
  DhValid S p ∧ p.proofOfSecretKey = none ∧ ∃ c pk, p.commitments = some c ∧ c.points.head? = some pk

/-- An encrypted share opens to `v` under the Diffie-Hellman shared key: the key derived from the shared key
decrypts the ciphertext to bytes that start with the encoding of `v`. -/
def Opens (S : Suite F G R) (e : EncShare) (shared : G) (v : F) : Prop :=
  ∃ key pt rest, S.kdf (S.encG shared) = some key ∧ S.aeadDec key e.nonce e.ct = some pt ∧
    S.decF pt = some (v, rest)

/-- An encrypted share is good with respect to the shared key and the dealer's commitments: it opens to the value
of the committed polynomial at the receiver's index. -/
def GoodShare (S : Suite F G R) (shared : G) (points : List G) (e : EncShare) : Prop :=
  ∃ v : F, Opens S e shared v ∧ v • S.gen = pointEval points (e.receiverIndex.toNat : F)

/-- The bytes of a list of signers with their commitment shares: for each, the index (4 bytes) and the two points. -/
def signersBytes (S : Suite F G R) (signers : List (Signer G)) : Bytes :=
  signers.flatMap fun s => u32le s.participantIndex ++ S.encG s.share.1 ++ S.encG s.share.2

/-- The bytes hashed into the binding factor of signer `i`. -/
def rhoInput (S : Suite F G R) (msg : Bytes) (signers : List (Signer G)) (i : U32) : Bytes :=
  S.digest (S.contextString ++ strBytes "message" ++ msg) ++
    S.digest (S.contextString ++ strBytes "commitment" ++ signersBytes S signers) ++ u32le i

/-- The binding factor `ρ_i`. -/
def rho (S : Suite F G R) (msg : Bytes) (signers : List (Signer G)) (i : U32) : F :=
  S.fieldHash (S.contextString ++ strBytes "rho") (rhoInput S msg signers i)

/-- The commitment `D · E^ρ` of one signer. -/
def signerCommitment (S : Suite F G R) (msg : Bytes) (signers : List (Signer G)) (s : Signer G) : G :=
  s.share.1 + rho S msg signers s.participantIndex • s.share.2

/-- The group commitment `R = ∏ D_i · E_i^ρ_i`. -/
def groupCommitment (S : Suite F G R) (msg : Bytes) (signers : List (Signer G)) : G :=
  (signers.map (signerCommitment S msg signers)).sum

/-- The Schnorr challenge of a commitment, a group key and a message. -/
def challenge (S : Suite F G R) (commitment groupKey : G) (msg : Bytes) : F :=
  S.fieldHash (S.contextString ++ strBytes "challenge") (S.encG commitment ++ S.encG groupKey ++ msg)

/-- The challenge of a signing session. -/
def sessionChallenge (S : Suite F G R) (groupKey : G) (msg : Bytes) (signers : List (Signer G)) : F :=
  challenge S (groupCommitment S msg signers) groupKey msg

/-- The share equation `g^z = D · E^ρ · Y_i^(c·λ_i)` for signer `s` with public key `pk`. -/
def PartialValid (S : Suite F G R) (groupKey : G) (msg : Bytes) (signers : List (Signer G)) (s : Signer G)
    (pk : G) (z : F) : Prop :=
  z • S.gen = signerCommitment S msg signers s +
    (sessionChallenge S groupKey msg signers * lagrange (signers.map (·.participantIndex)) s.participantIndex) • pk

/-- A threshold signature is a Schnorr signature on the message under the group key. -/
def SigValid (S : Suite F G R) (groupKey : G) (msg : Bytes) (sig : ThresholdSignature F G) : Prop :=
  Schnorr S.gen sig.groupCommitment groupKey (challenge S sig.groupCommitment groupKey msg) sig.z

end Spec

/-! ### Assumed laws of the external parts -/

namespace Suite

variable {F G R : Type} [Field F] [AddCommGroup G] [Module F G]

/-- `G` is generated by `gen` and scalars act freely: `a ↦ a • gen` is a bijection. This is what a prime-order
group with scalar field `F` provides. -/
structure GroupLaws (S : Suite F G R) : Prop where
  gen_inj : ∀ a b : F, a • S.gen = b • S.gen → a = b
  gen_surj : ∀ P : G, ∃ a : F, P = a • S.gen

/-- Encodings have a fixed width, and decoding reads back exactly what was written. -/
structure CodecLaws (S : Suite F G R) : Prop where
  decG_encG : ∀ P rest, S.decG (S.encG P ++ rest) = some (P, rest)
  decF_encF : ∀ a rest, S.decF (S.encF a ++ rest) = some (a, rest)
  encG_length : ∀ P, (S.encG P).length = S.sizeG
  encF_length : ∀ a, (S.encF a).length = S.sizeF

/-- Key derivation always succeeds (HKDF-SHA256 expansion to a short key), encryption of a scalar succeeds with a
nonce of the right size and decrypts under the same key and nonce, and `fill_bytes` fills the whole buffer. -/
structure CipherLaws (S : Suite F G R) : Prop where
  kdf_ok : ∀ ikm, ∃ key, S.kdf ikm = some key
  aead_ok : ∀ ikm key nonce pt, S.kdf ikm = some key → nonce.length = S.nonceSize →
    ∃ ct, S.aeadEnc key nonce pt = some ct ∧ S.aeadDec key nonce ct = some pt
  randBytes_length : ∀ k rng, (S.randBytes k rng).1.length = k

/-- Different `u32` indices are different scalars (the scalar field is larger than `2^32`). -/
def U32Inj (F : Type) [Field F] : Prop := ∀ a b : U32, u32F F a = u32F F b → a = b

/-- All laws together. -/
structure Lawful (S : Suite F G R) : Prop where
  group : S.GroupLaws
  codec : S.CodecLaws
  cipher : S.CipherLaws
  u32 : U32Inj F

end Suite

end IceFrost
