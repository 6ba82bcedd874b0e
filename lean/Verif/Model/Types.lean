import Verif.Base
import Mathlib.Algebra.Module.Defs
import Mathlib.Algebra.Field.Defs

/-!
# Data types of the crate

`F` is the scalar field `<C::G as Group>::ScalarField`, `G` the group `C::G` (written additively, as in
arkworks), `R` the state of a random number generator.
-/

namespace IceFrost

/-- `src/parameters.rs:13-20` `ThresholdParameters`. -/
structure Params where
  n : U32
  t : U32
deriving DecidableEq, Repr

/-- `src/dkg/secret_share.rs:45-54` `SecretShare`. -/
structure SecretShare (F : Type) where
  senderIndex : U32
  receiverIndex : U32
  eval : F
deriving DecidableEq

/-- `src/dkg/secret_share.rs:110-122` `EncryptedSecretShare`. Equality (lines 124-131) is fieldwise, `new` (lines 219-234) is
the constructor, and the hand-written `Debug` (lines 135-146) prints the four fields, none of which is secret. -/
structure EncShare where
  senderIndex : U32
  receiverIndex : U32
  nonce : Bytes
  ct : Bytes
deriving DecidableEq

/-- `src/dkg/secret_share.rs:240-246` `VerifiableSecretSharingCommitment`. -/
structure VssCommitment (G : Type) where
  index : U32
  points : List G
deriving DecidableEq

/-- `src/dkg/nizkpok.rs:31-36` `NizkPokOfSecretKey`. -/
structure Nizk (F : Type) where
  s : F
  r : F
deriving DecidableEq

/-- `src/dkg/complaint.rs:144-151` `ComplaintProof`. -/
structure ComplaintProof (F G : Type) where
  a1 : G
  a2 : G
  z : F
deriving DecidableEq

/-- `src/dkg/complaint.rs:26-35` `Complaint`. -/
structure Complaint (F G : Type) where
  dhSharedKey : G
  dhPublicKey : G
  encShare : EncShare
  proof : ComplaintProof F G
deriving DecidableEq

/-- `src/dkg/participant.rs:31-47` `Participant`. -/
structure Participant (F G : Type) where
  index : U32
  dhPublicKey : G
  commitments : Option (VssCommitment G)
  proofOfSecretKey : Option (Nizk F)
  proofOfDhPrivateKey : Nizk F
deriving DecidableEq

/-- `src/keys.rs:66-71` `IndividualVerifyingKey`. -/
structure IndividualVerifyingKey (G : Type) where
  index : U32
  share : G
deriving DecidableEq

/-- `src/keys.rs:187-192` `IndividualSigningKey`. -/
structure IndividualSigningKey (F : Type) where
  index : U32
  key : F
deriving DecidableEq

/-- `src/dkg/key_generation.rs:530-552` `ActualState`.  The phantom round marker of
`DistributedKeyGeneration<S, C>` (an empty struct, `src/dkg/round_types.rs:13,18`) is represented by the two
wrapper types below. -/
structure DkgState (F G : Type) where
  parameters : Params
  index : U32
  dhPrivateKey : F
  dhPublicKey : G
  theirCommitments : Option (BMap (VssCommitment G))
  theirDhPublicKeys : BMap G
  theirEncryptedSecretShares : Option (BMap EncShare)
  mySecretShares : Option (BMap (SecretShare F))
deriving DecidableEq

/-- `DistributedKeyGeneration<RoundOne, C>`, `src/dkg/key_generation.rs:520-523`. -/
structure RoundOne (F G : Type) where
  state : DkgState F G
deriving DecidableEq

/-- `DistributedKeyGeneration<RoundTwo, C>`, `src/dkg/key_generation.rs:520-523`. -/
structure RoundTwo (F G : Type) where
  state : DkgState F G
deriving DecidableEq

/-- `src/dkg/key_generation.rs:609-614` `DKGParticipantList`. -/
structure ParticipantList (F G : Type) where
  valid : List (Participant F G)
  misbehaving : Option (List U32)
deriving DecidableEq

/-- `src/sign/precomputation.rs:78-83` `Commitment`. -/
structure Commitment (F G : Type) where
  secret : F
  commit : G
deriving DecidableEq

/-- `src/sign/precomputation.rs:110-119` `CommitmentShare`; equality (130-134) is fieldwise. -/
structure CommitmentShare (F G : Type) where
  hidingC : Commitment F G
  bindingC : Commitment F G
deriving DecidableEq

/-- `src/sign/precomputation.rs:159-164` `PublicCommitmentShareList`. -/
structure PublicCommitmentShareList (G : Type) where
  participantIndex : U32
  commitments : List (G × G)
deriving DecidableEq

/-- `src/sign/signature.rs:26-32` `Signer`. Its `Ord`/`Eq` (34-55) compare only the index; the model
applies `sortByKey`/`dedupByKey` with that key instead of giving `Signer` an equality. -/
structure Signer (G : Type) where
  participantIndex : U32
  share : G × G
deriving DecidableEq

/-- `src/sign/signature.rs:60-63` `PartialThresholdSignature`. -/
structure PartialSignature (F : Type) where
  index : U32
  z : F
deriving DecidableEq

/-- `src/sign/signature.rs:69-72` `ThresholdSignature`. -/
structure ThresholdSignature (F G : Type) where
  groupCommitment : G
  z : F
deriving DecidableEq

/-- `src/sign/signature.rs:349-361` `AggregatorState`. -/
structure AggregatorState (F G : Type) where
  parameters : Params
  signers : List (Signer G)
  publicKeys : BMap G
  partialSignatures : BMap F
  groupKey : G
deriving DecidableEq

/-- `SignatureAggregator<C, Initial>`, `src/sign/signature.rs:369-374, 394-397`. -/
structure InitialAggregator (F G : Type) where
  state : AggregatorState F G
  message : Bytes
deriving DecidableEq

/-- `SignatureAggregator<C, Finalized>`, `src/sign/signature.rs:369-374, 415-418`. -/
structure FinalizedAggregator (F G : Type) where
  state : AggregatorState F G
  messageHash : Bytes
deriving DecidableEq

/-- `src/error.rs:11-66` `Error`. `usize` payloads are natural numbers. -/
inductive Error (F G : Type) where
  | serializationError
  | deserializationError
  | compressionError
  | decompressionError
  | decryptionError
  | encryptionError
  | shareVerificationError
  | complaintVerificationError
  | indexIsZero
  | indexMismatch (participant pubkey : U32)
  | invalidGroupKey
  | invalidProofOfKnowledge
  | invalidCommitmentLength
  | missingShares
  | noEncryptedShares
  | complaint (cs : List (Complaint F G))
  | invalidNumberOfParticipants (len : Nat) (n : U32)
  | invalidMSMParameters
  | tooManyInvalidParticipants (idx : List U32)
  | tooManySigners (len : Nat) (n : U32)
  | missingCommitmentShares
  | invalidBindingFactor
  | invalidChallenge
  | invalidSignature
  | misbehavingParticipants (idx : List U32)
  | invalidThresholdParams
  | custom (s : String)
deriving DecidableEq

/-- What `{:?}` prints for one character of a string: quotes, backslashes and the usual control characters are
escaped. The other control characters, which `{:?}` writes as `\u{..}`, are left as they are; no text of the crate
contains any of them. -/
def debugChar (c : Char) : List Char :=
  if c = '"' then ['\\', '"'] else if c = '\\' then ['\\', '\\'] else if c = '\n' then ['\\', 'n']
  else if c = '\r' then ['\\', 'r'] else if c = '\t' then ['\\', 't'] else [c]

/-- `{:?}` for a `String` (`src/error.rs:139`). -/
def debugString (s : String) : String := "\"" ++ String.ofList (s.toList.flatMap debugChar) ++ "\""

/-- `{:?}` for the entries of a `Vec<u32>` after the first. -/
def debugRest : List U32 → String
  | [] => "]"
  | i :: l => ", " ++ (toString i.toNat ++ debugRest l)

/-- `{:?}` for a `Vec<u32>` (`src/error.rs:119-123`, `:133-137`). -/
def debugList : List U32 → String
  | [] => "[]"
  | i :: l => "[" ++ (toString i.toNat ++ debugRest l)

/-- `src/error.rs:68-143` `Display for Error`. The `Debug` output of the fields of a complaint is that of the curve
library and is not modelled. -/
def Error.display {F G : Type} : Error F G → String
  | .serializationError => "An error happened while serializing."
  | .deserializationError => "An error happened while deserializing."
  | .compressionError => "An error happened while compressing a point."
  | .decompressionError => "An error happened while decompressing a point."
  | .decryptionError => "Could not decrypt encrypted share."
  | .encryptionError => "Could not encrypt secret share."
  | .shareVerificationError => "The secret share is not correct."
  | .complaintVerificationError => "The complaint is not correct."
  | .indexIsZero => "The indexs of a participant cannot be 0."
  | .indexMismatch a b =>
    "Index mismatch between participant index (" ++ (toString a.toNat ++ (") and the public key index (" ++
      (toString b.toNat ++ ").")))
  | .invalidGroupKey => "Could not generate a valid group key with the given commitments."
  | .tooManySigners a n =>
    "Too many signers (" ++ (toString a ++ (") given the DKG instance parameters (total participants set to " ++
      (toString n.toNat ++ ").")))
  | .invalidProofOfKnowledge => "The NiZK proof of knowledge of the secret key is not correct."
  | .invalidCommitmentLength =>
    "The length of this commitment does not correspond to the threshold parameter."
  | .missingShares => "Some shares are missing."
  | .noEncryptedShares => "Could not retrieve encrypted shares."
  | .complaint _ => "[..]"
  | .invalidMSMParameters => "The provided slices of points and scalars do not match in length."
  | .invalidNumberOfParticipants a n =>
    "The number of participants " ++ (toString a ++ (" does not match Dkg instance parameters " ++
      (toString n.toNat ++ ".")))
  | .tooManyInvalidParticipants l => "Too many invalid participants to continue the Dkg: " ++ debugList l
  | .missingCommitmentShares => "The participant is missing commitment shares for signing."
  | .invalidBindingFactor => "Could not compute the participant binding factor."
  | .invalidChallenge => "Could not compute the signature challenge."
  | .invalidSignature => "The threshold signature is not correct."
  | .misbehavingParticipants l => "These participants provided invalid partial signatures: " ++ debugList l
  | .invalidThresholdParams => "Invalid threshold parameters"
  | .custom s => debugString s

/-- Places where the code can panic. -/
inductive PanicSite where
  /-- a failed `debug_assert!` (debug builds only) -/
  | debugAssert
  /-- integer overflow (debug builds only) -/
  | overflow
  /-- slice index out of bounds -/
  | outOfBounds
  /-- `Option::expect` / `Option::unwrap` on `None` -/
  | expectNone
deriving DecidableEq, Repr

/-- How a call can fail: with an `Err` value or with a panic. -/
inductive Fail (F G : Type) where
  | err (e : Error F G)
  | panic (site : PanicSite)
deriving DecidableEq

/-- The outcome of a call that can return `Err` but cannot panic. -/
abbrev Out (F G α : Type) := Except (Error F G) α

/-- The outcome of a call that can return `Err` or panic. -/
abbrev Res (F G α : Type) := Except (Fail F G) α

/-- The `?` operator applied, inside a function that may panic, to a call that cannot. -/
def Out.lift {F G α : Type} : Out F G α → Res F G α
  | .ok a => .ok a
  | .error e => .error (.err e)

/-- `Option::expect` / `unwrap`. -/
def expect {F G α : Type} : Option α → Res F G α
  | some a => .ok a
  | none => .error (.panic .expectNone)

/-- The ciphersuite `C: CipherSuite` (`src/ciphersuite.rs:19-39`) together with the external crates it
stands for. All fields are arbitrary functions; assumptions on them live in `Suite.Lawful`. -/
structure Suite (F G R : Type) where
  /-- `C::G::generator()` -/
  gen : G
  /-- `C::context_string()`, `src/ciphersuite.rs:39`, as bytes -/
  contextString : Bytes
  /-- `DefaultFieldHasher::<C::InnerHasher, 128>::new(dst).hash_to_field(msg, 1)[0]`, `src/utils.rs:79-85` -/
  fieldHash : Bytes → Bytes → F
  /-- `DefaultFieldHasher::<Sha256, 128>::new(dst).hash_to_field(msg, 1)[0]`, `src/dkg/complaint.rs:52-54,79` -/
  sha256FieldHash : Bytes → Bytes → F
  /-- `C::InnerHasher` digest copied into `C::HashOutput`, `src/utils.rs:87-99` -/
  digest : Bytes → Bytes
  /-- number of bytes of `C::HashOutput` -/
  hashLen : Nat
  /-- compressed encoding of a group element -/
  encG : G → Bytes
  /-- decoding of a group element from a reader: value and remaining bytes -/
  decG : Bytes → Option (G × Bytes)
  /-- `compressed_size()` of a group element -/
  sizeG : Nat
  /-- compressed encoding of a scalar -/
  encF : F → Bytes
  /-- decoding of a scalar from a reader: value and remaining bytes -/
  decF : Bytes → Option (F × Bytes)
  /-- `compressed_size()` of a scalar -/
  sizeF : Nat
  /-- `Hkdf::<Sha256>::new(None, ikm).expand(&[], key)`, `src/dkg/secret_share.rs:299-302` -/
  kdf : Bytes → Option Bytes
  /-- nonce size of `C::Cipher` -/
  nonceSize : Nat
  /-- `C::Cipher::new(key).encrypt(nonce, plaintext)` -/
  aeadEnc : Bytes → Bytes → Bytes → Option Bytes
  /-- `C::Cipher::new(key).decrypt(nonce, ciphertext)` -/
  aeadDec : Bytes → Bytes → Bytes → Option Bytes
  /-- `Scalar::rand(rng)` -/
  randScalar : R → F × R
  /-- `rng.fill_bytes` on a buffer of the given size -/
  randBytes : Nat → R → Bytes × R

/-- `u32 → Scalar` (`Scalar::<C>::from(u32)`). -/
def u32F (F : Type) [Field F] (i : U32) : F := (i.toNat : F)

end IceFrost
