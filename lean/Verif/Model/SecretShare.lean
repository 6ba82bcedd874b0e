import Verif.Model.Utils

/-! # `src/dkg/secret_share.rs` -/

namespace IceFrost

variable {F G R : Type} [Field F] [DecidableEq F] [AddCommGroup G] [Module F G] [DecidableEq G]

/-- The Horner loop of `evaluate_polynomial` (`src/dkg/secret_share.rs:75-82`) over the reversed coefficient
list; `k` is the `enumerate` counter, `len` the number of coefficients. -/
def hornerLoop (len : Nat) (term : F) : Nat → List F → F → F
  | _, [], sum => sum
  | k, c :: cs, sum =>
    hornerLoop len term (k + 1) cs (if k ≠ len - 1 then (sum + c) * term else sum + c)

/-- `SecretShare::evaluate_polynomial`, `src/dkg/secret_share.rs:66-88`. -/
def evaluatePolynomial (sender receiver : U32) (coeffs : List F) : SecretShare F :=
  ⟨sender, receiver, hornerLoop coeffs.length (u32F F receiver) 0 coeffs.reverse 0⟩

/-- The Horner loop of `evaluate_hiding` (`src/dkg/secret_share.rs:265-272`); the same loop appears in
`src/keys.rs:109-115` and `src/keys.rs:166-172`. -/
def hornerHidingLoop (len : Nat) (term : F) : Nat → List G → G → G
  | _, [], sum => sum
  | k, c :: cs, sum =>
    hornerHidingLoop len term (k + 1) cs (if k ≠ len - 1 then term • (sum + c) else sum + c)

namespace VssCommitment

/-- `VerifiableSecretSharingCommitment::public_key`, `src/dkg/secret_share.rs:252-258`. -/
def publicKey (c : VssCommitment G) : Option G := c.points.head?

/-- `evaluate_hiding`, `src/dkg/secret_share.rs:261-275`. -/
def evaluateHiding (c : VssCommitment G) (term : F) : G :=
  hornerHidingLoop c.points.length term 0 c.points.reverse 0

/-- `check_degree`, `src/dkg/secret_share.rs:279-285`. -/
def checkDegree (c : VssCommitment G) (p : Params) : Out F G Unit :=
  if c.points.length ≠ p.t.toNat then .error .invalidCommitmentLength else .ok ()

end VssCommitment

/-- `SecretShare::verify`, `src/dkg/secret_share.rs:92-106`. -/
def SecretShare.verify (S : Suite F G R) (s : SecretShare F) (c : VssCommitment G) : Out F G Unit :=
  if s.eval • S.gen = c.evaluateHiding (u32F F s.receiverIndex) then .ok ()
  else .error .shareVerificationError

/-- `encrypt_share`, `src/dkg/secret_share.rs:294-326`. Also returns the RNG state. -/
def encryptShare (S : Suite F G R) (share : SecretShare F) (initialKey : Bytes) (rng : R) :
    Out F G (EncShare × R) :=
  match S.kdf initialKey with
  | none => .error (.custom "KDF expansion failed unexpectedly")
  | some key =>
    let (nonce, rng) := S.randBytes S.nonceSize rng
    match S.aeadEnc key nonce (S.encF share.eval) with
    | none => .error .encryptionError
    | some ct => .ok (⟨share.senderIndex, share.receiverIndex, nonce, ct⟩, rng)

/-- `decrypt_share`, `src/dkg/secret_share.rs:334-361`. -/
def decryptShare (S : Suite F G R) (e : EncShare) (initialKey : Bytes) : Out F G (SecretShare F) :=
  match S.kdf initialKey with
  | none => .error (.custom "KDF expansion failed unexpectedly")
  | some key =>
    match S.aeadDec key e.nonce e.ct with
    | none => .error .decryptionError
    | some bytes =>
      match S.decF bytes with
      | none => .error .decompressionError
      | some (v, _) => .ok ⟨e.senderIndex, e.receiverIndex, v⟩

end IceFrost
