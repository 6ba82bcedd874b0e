import Verif.Model.Precomputation
import Verif.Model.Signature

/-!
# Comparison operators and erasure

The hand-written `PartialEq`, `PartialOrd`, `Ord` and `Zeroize`/`Drop` implementations.
-/

namespace IceFrost

variable {F G R : Type} [Field F] [DecidableEq F] [AddCommGroup G] [Module F G] [DecidableEq G]

/-- `u32::cmp`. -/
def u32Cmp (a b : U32) : Ordering := if a < b then .lt else if a = b then .eq else .gt

/-- `PartialOrd for Participant`, `src/dkg/participant.rs:291-299`. -/
def Participant.partialCmp (p q : Participant F G) : Option Ordering :=
  match u32Cmp p.index q.index with
  | .lt => some .lt
  | .eq => none
  | .gt => some .gt

/-- `PartialEq for Participant`, `src/dkg/participant.rs:301-305`. -/
def Participant.eq (p q : Participant F G) : Bool := p.index == q.index

/-- `Ord for Signer`, `src/sign/signature.rs:34-43`. -/
def Signer.cmp (s s' : Signer G) : Ordering :=
  match u32Cmp s.participantIndex s'.participantIndex with
  | .lt => .lt
  | .eq => .eq
  | .gt => .gt

/-- `PartialOrd for Signer`, `src/sign/signature.rs:45-49`. -/
def Signer.partialCmp (s s' : Signer G) : Option Ordering := some (s.cmp s')

/-- `PartialEq for Signer`, `src/sign/signature.rs:51-55`. -/
def Signer.eq (s s' : Signer G) : Bool := s.participantIndex == s'.participantIndex

/-- `PartialEq for Commitment`, `src/sign/precomputation.rs:102-106`. (`into_affine` on a group whose elements are
compared by value does nothing.) -/
def Commitment.eq (c c' : Commitment F G) : Bool := (c.secret == c'.secret) && (c.commit == c'.commit)

/-- `PartialEq for CommitmentShare`, `src/sign/precomputation.rs:130-134`. -/
def CommitmentShare.eq (c c' : CommitmentShare F G) : Bool := c.hidingC.eq c'.hidingC && c.bindingC.eq c'.bindingC

/-- `PartialEq for EncryptedSecretShare`, `src/dkg/secret_share.rs:124-131`. -/
def EncShare.eq (e e' : EncShare) : Bool :=
  e.senderIndex == e'.senderIndex && e.receiverIndex == e'.receiverIndex && e.nonce == e'.nonce && e.ct == e'.ct

/-! ### Erasure -/

/-- `Zeroize for Commitment` (run by its `Drop`), `src/sign/precomputation.rs:85-99`. -/
def Commitment.zeroize (_ : Commitment F G) : Commitment F G := ⟨0, 0⟩

/-- The derived `Zeroize` of `CommitmentShare` (run by its `Drop`), `src/sign/precomputation.rs:109-127`. -/
def CommitmentShare.zeroize (c : CommitmentShare F G) : CommitmentShare F G := ⟨c.hidingC.zeroize, c.bindingC.zeroize⟩

/-- `Drop for Coefficients`, `src/dkg/secret_share.rs:37-41`: every element is overwritten, the length stays. -/
def dropCoefficients (cs : List F) : List F := cs.map fun _ => 0

/-- The derived `Zeroize` of `SecretShare` (run by its `Drop`), `src/dkg/secret_share.rs:45-62`. -/
def SecretShare.zeroize (_ : SecretShare F) : SecretShare F := ⟨0, 0, 0⟩

/-- The derived `Zeroize` of `IndividualSigningKey` (run by its `Drop`), `src/keys.rs:186-200`. -/
def IndividualSigningKey.zeroize (_ : IndividualSigningKey F) : IndividualSigningKey F := ⟨0, 0⟩

/-- The derived `Zeroize` of `DiffieHellmanPrivateKey` (run by its `Drop`), `src/keys.rs:22-31`. The model stores the
key as a bare scalar. -/
def zeroizeDhPrivateKey (_ : F) : F := 0

/-- The derived `Zeroize` of `NoncePair` (run by its `Drop`), `src/sign/precomputation.rs:37-44`. -/
def zeroizeNoncePair (_ : F × F) : F × F := (0, 0)

/-- The derived `Zeroize` of `EncryptedSecretShare` (run by its `Drop`), `src/dkg/secret_share.rs:109-122, 213-217`: the
nonce is an array of fixed length, the ciphertext a vector, which `zeroize` also empties. -/
def EncShare.zeroize (e : EncShare) : EncShare := ⟨0, 0, e.nonce.map fun _ => 0, []⟩

end IceFrost
