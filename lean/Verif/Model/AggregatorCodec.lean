import Verif.Model.Codec

/-! # Encodings of the types that only the crate itself can write and read

`src/sign/signature.rs` and `src/sign/precomputation.rs` derive encodings for types that are not public. -/

namespace IceFrost

open Codec

variable {F G R : Type} [Field F] [DecidableEq F] [AddCommGroup G] [Module F G] [DecidableEq G]
variable (S : Suite F G R)

/-- `NoncePair`, derived, `src/sign/precomputation.rs:37-38`. -/
def noncePairCodec : Codec (F × F) := pair (scalar S) (scalar S)

/-- `BindingFactors`, derived, `src/sign/signature.rs:77-78`. -/
def bindingFactorsCodec : Codec (BMap F) := bmap (scalar S)

/-- `PartialThresholdSignatures`, derived, `src/sign/signature.rs:102-103`. -/
def partialSignaturesCodec : Codec (BMap F) := bmap (scalar S)

/-- `IndividualPublicKeys`, derived, `src/sign/signature.rs:127-128`. -/
def publicKeysCodec : Codec (BMap G) := bmap (group S)

/-- `AggregatorState`, derived, `src/sign/signature.rs:348-361`: parameters, signers, public keys, partial signatures, group
key. -/
def aggregatorStateCodec : Codec (AggregatorState F G) :=
  (pair paramsCodec (pair (vec (signerCodec S)) (pair (publicKeysCodec S) (pair (partialSignaturesCodec S)
    (publicKeyCodec S))))).iso (fun p => ⟨p.1, p.2.1, p.2.2.1, p.2.2.2.1, p.2.2.2.2⟩)
    (fun s => (s.parameters, s.signers, s.publicKeys, s.partialSignatures, s.groupKey))

end IceFrost
