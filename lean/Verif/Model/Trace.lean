import Verif.Model.Participant
import Verif.Model.Signature
import Verif.Model.Compare

/-!
# What an observer of the running time sees

The functions that handle secrets once more, each with the list of the steps it takes: which way every branch of the
crate's own code goes, which position of a vector or key of a map it touches, and which operation of a dependency it calls
with arguments of which size. What happens inside one operation of a dependency is not recorded. Computations on public
data only (verification of proofs, binding factors, Lagrange coefficients, challenges) take no steps here: they run on the
same data whatever the secrets are. `Props/Trace.lean` proves that leaving the steps out gives the functions of the other
model files.
-/

namespace IceFrost

/-- One observable step. -/
inductive Step where
  /-- a branch of the crate's own code, and whether it is taken -/
  | branch (taken : Bool)
  /-- access to a position of a vector -/
  | position (i : Nat)
  /-- access to a key of a map -/
  | mapKey (k : U32)
  | fieldAdd
  | fieldMul
  | fieldEq
  | groupAdd
  | groupMul
  | groupEq
  | intoAffine
  /-- `Scalar::rand` -/
  | drawScalar
  /-- `fill_bytes` on so many bytes -/
  | drawBytes (n : Nat)
  /-- hashing of so many bytes -/
  | hash (n : Nat)
  /-- HKDF on so many bytes -/
  | kdf (n : Nat)
  /-- AEAD encryption: sizes of nonce and plaintext -/
  | sealBytes (n m : Nat)
  /-- AEAD decryption: sizes of nonce and ciphertext -/
  | openBytes (n m : Nat)
  /-- decoding of a scalar -/
  | decode
deriving DecidableEq, Repr

/-- A value together with the steps taken to compute it. -/
structure Traced (α : Type) where
  val : α
  steps : List Step

namespace Traced

instance : Monad Traced where
  pure a := ⟨a, []⟩
  bind x f := ⟨(f x.val).val, x.steps ++ (f x.val).steps⟩

/-- One step. -/
def step (s : Step) : Traced Unit := ⟨(), [s]⟩

/-- A branch on a condition. -/
def test (b : Bool) : Traced Bool := ⟨b, [.branch b]⟩

end Traced

open Traced

variable {F G R : Type} [Field F] [DecidableEq F] [AddCommGroup G] [Module F G] [DecidableEq G]

/-! ### Shares -/

/-- The loop of `evaluate_polynomial`, `src/dkg/secret_share.rs:75-82`. -/
def hornerLoopT (len : Nat) (term : F) : Nat → List F → F → Traced F
  | _, [], sum => do step (.branch false); pure sum
  | k, c :: cs, sum => do
    step (.branch true)
    step .fieldAdd
    if ← test (k ≠ len - 1) then
      step .fieldMul
      hornerLoopT len term (k + 1) cs ((sum + c) * term)
    else hornerLoopT len term (k + 1) cs (sum + c)

/-- `SecretShare::evaluate_polynomial`, `src/dkg/secret_share.rs:66-88`. -/
def evaluatePolynomialT (sender receiver : U32) (coeffs : List F) : Traced (SecretShare F) := do
  let v ← hornerLoopT coeffs.length (u32F F receiver) 0 coeffs.reverse 0
  pure ⟨sender, receiver, v⟩

/-- The loop of `evaluate_hiding`, `src/dkg/secret_share.rs:265-272`. -/
def hornerHidingLoopT (len : Nat) (term : F) : Nat → List G → G → Traced G
  | _, [], sum => do step (.branch false); pure sum
  | k, c :: cs, sum => do
    step (.branch true)
    step .groupAdd
    if ← test (k ≠ len - 1) then
      step .groupMul
      hornerHidingLoopT len term (k + 1) cs (term • (sum + c))
    else hornerHidingLoopT len term (k + 1) cs (sum + c)

/-- `SecretShare::verify`, `src/dkg/secret_share.rs:92-106`. -/
def SecretShare.verifyT (S : Suite F G R) (s : SecretShare F) (c : VssCommitment G) : Traced (Out F G Unit) := do
  step .groupMul
  let rhs ← hornerHidingLoopT c.points.length (u32F F s.receiverIndex) 0 c.points.reverse 0
  step .intoAffine
  step .intoAffine
  step .groupEq
  if ← test (s.eval • S.gen = rhs) then pure (.ok ())
  else pure (.error .shareVerificationError)

/-- `encrypt_share`, `src/dkg/secret_share.rs:294-326`. -/
def encryptShareT (S : Suite F G R) (share : SecretShare F) (initialKey : Bytes) (rng : R) :
    Traced (Out F G (EncShare × R)) := do
  step (.kdf initialKey.length)
  match S.kdf initialKey with
  | none => do
    step (.branch true)
    pure (.error (.custom "KDF expansion failed unexpectedly"))
  | some key => do
    step (.branch false)
    step (.drawBytes S.nonceSize)
    let (nonce, rng) := S.randBytes S.nonceSize rng
    step (.sealBytes nonce.length (S.encF share.eval).length)
    match S.aeadEnc key nonce (S.encF share.eval) with
    | none => do
      step (.branch true)
      pure (.error .encryptionError)
    | some ct => do
      step (.branch false)
      pure (.ok (⟨share.senderIndex, share.receiverIndex, nonce, ct⟩, rng))

/-- `decrypt_share`, `src/dkg/secret_share.rs:334-361`. -/
def decryptShareT (S : Suite F G R) (e : EncShare) (initialKey : Bytes) : Traced (Out F G (SecretShare F)) := do
  step (.kdf initialKey.length)
  match S.kdf initialKey with
  | none => do
    step (.branch true)
    pure (.error (.custom "KDF expansion failed unexpectedly"))
  | some key => do
    step (.branch false)
    step (.openBytes e.nonce.length e.ct.length)
    match S.aeadDec key e.nonce e.ct with
    | none => do
      step (.branch true)
      pure (.error .decryptionError)
    | some bytes => do
      step (.branch false)
      step .decode
      match S.decF bytes with
      | none => do
        step (.branch true)
        pure (.error .decompressionError)
      | some (v, _) => do
        step (.branch false)
        pure (.ok ⟨e.senderIndex, e.receiverIndex, v⟩)

/-! ### Proofs and complaints -/

/-- `NizkPokOfSecretKey::prove`, `src/dkg/nizkpok.rs:42-62`. -/
def nizkProveT (S : Suite F G R) (index : U32) (secretKey : F) (publicKey : G) (rng : R) : Traced (Nizk F × R) := do
  step .drawScalar
  let (k, rng) := S.randScalar rng
  step .groupMul
  let m := k • S.gen
  step (.hash (nizkMessage S index publicKey m).length)
  let s := S.h0 (nizkMessage S index publicKey m)
  step .fieldMul
  step .fieldAdd
  pure (⟨s, k + secretKey * s⟩, rng)

/-- `Complaint::new`, `src/dkg/complaint.rs:40-91`. -/
def Complaint.newT (S : Suite F G R) (accusedPk : G) (dhSkey : F) (shared : G) (e : EncShare) (rng : R) :
    Traced (Complaint F G × R) := do
  step .drawScalar
  let (r, rng) := S.randScalar rng
  step .groupMul
  let a1 := r • S.gen
  step .groupMul
  let a2 := r • accusedPk
  step .groupMul
  let dhPk := dhSkey • S.gen
  step (.hash (complaintMessage S dhPk accusedPk shared a1 a2 e).length)
  let h := complaintHash S (complaintMessage S dhPk accusedPk shared a1 a2 e)
  step .fieldMul
  step .fieldAdd
  pure (⟨shared, dhPk, e, ⟨a1, a2, r + h * dhSkey⟩⟩, rng)

/-! ### Creation of participants -/

/-- `k` calls of `Scalar::rand`, `src/dkg/participant.rs:180-182`. -/
def randScalarsT (S : Suite F G R) : Nat → R → Traced (List F × R)
  | 0, rng => do step (.branch false); pure ([], rng)
  | k + 1, rng => do
    step (.branch true)
    step .drawScalar
    let (a, rng) := S.randScalar rng
    let (as, rng) ← randScalarsT S k rng
    pure (a :: as, rng)

/-- The loop over the coefficients, `src/dkg/participant.rs:189-193`. -/
def commitLoopT (S : Suite F G R) (coeffs : List F) (j : Nat) : Nat → Traced (Res F G (List G))
  | 0 => do step (.branch false); pure (.ok [])
  | k + 1 => do
    step (.branch true)
    step (.position j)
    match coeffs[j]? with
    | none => pure (.error (.panic .outOfBounds))
    | some a => do
      step .groupMul
      match ← commitLoopT S coeffs (j + 1) k with
      | .error f => pure (.error f)
      | .ok rest => pure (.ok ((a • S.gen) :: rest))

/-- `match secret_key`, `src/dkg/participant.rs:175-178`. -/
def firstCoefficientT (S : Suite F G R) (secretKey : Option F) (rng : R) : Traced (F × R) :=
  match secretKey with
  | some sk => do step (.branch true); pure (sk, rng)
  | none => do
    step (.branch false)
    step .drawScalar
    pure (S.randScalar rng)

/-- `Participant::new_internal`, `src/dkg/participant.rs:128-220`. -/
def newInternalT (S : Suite F G R) (parameters : Params) (isSigner : Bool) (index : U32) (secretKey : Option F)
    (rng : R) : Traced (Res F G (NewParticipant F G × R)) := do
  if ← test (index = 0) then pure (.error (.err .indexIsZero))
  else do
    let t := parameters.t.toNat
    step .drawScalar
    let (dhPrivateKey, rng) := S.randScalar rng
    step .groupMul
    let dhPublicKey := dhPrivateKey • S.gen
    let (proofDh, rng) ← nizkProveT S index dhPrivateKey dhPublicKey rng
    if ← test isSigner then
      pure (.ok ((⟨index, dhPublicKey, none, none, proofDh⟩, none, dhPrivateKey), rng))
    else do
      let (a0, rng) ← firstCoefficientT S secretKey rng
      let (as, rng) ← randScalarsT S (t - 1) rng
      let coefficients := a0 :: as
      match ← commitLoopT S coefficients 0 t with
      | .error f => pure (.error f)
      | .ok points => do
        let commitments : VssCommitment G := ⟨index, points⟩
        match commitments.publicKey with
        | none => do
          step (.branch true)
          pure (.error (.panic .expectNone))
        | some pk => do
          step (.branch false)
          let (proofSk, rng) ← nizkProveT S index a0 pk rng
          pure (.ok ((⟨index, dhPublicKey, some commitments, some proofSk, proofDh⟩, some coefficients,
            dhPrivateKey), rng))

/-! ### Key generation -/

/-- The share loop of `new_state_internal`, `src/dkg/key_generation.rs:832-849`. -/
def dealSharesT (S : Suite F G R) (dhPrivateKey : F) (myIndex : U32) (myCoefficients : Option (List F)) :
    List (Participant F G) → BMap EncShare → R → Traced (Res F G (BMap EncShare × R))
  | [], m, rng => do step (.branch false); pure (.ok (m, rng))
  | p :: ps, m, rng => do
    step (.branch true)
    match myCoefficients with
    | none => pure (.error (.panic .expectNone))
    | some coeffs => do
      let share ← evaluatePolynomialT myIndex p.index coeffs
      step .groupMul
      let dhKey := dhPrivateKey • p.dhPublicKey
      match ← encryptShareT S share (S.encG dhKey) rng with
      | .error e => pure (.error (.err e))
      | .ok (enc, rng) => do
        step (.mapKey p.index)
        dealSharesT S dhPrivateKey myIndex myCoefficients ps (m.insert p.index enc) rng

/-- The condition of the inner loop of `to_round_two`, `src/dkg/key_generation.rs:959-965`: `is_err()`, then (`||` does not
evaluate its right side otherwise) `verify`. -/
def badShareT (S : Suite F G R) (decrypted : Out F G (SecretShare F)) (commitment : VssCommitment G) : Traced Bool :=
  match decrypted with
  | .error _ => do step (.branch true); pure true
  | .ok share => do
    step (.branch false)
    match ← share.verifyT S commitment with
    | .error _ => pure true
    | .ok () => pure false

/-- The inner loop of `to_round_two`, `src/dkg/key_generation.rs:953-977`. -/
def complaintLoopT (S : Suite F G R) (pk : G) (dhPrivateKey : F) (shared : G) (e : EncShare)
    (decrypted : Out F G (SecretShare F)) :
    List (U32 × VssCommitment G) → List (Complaint F G) → R → Traced (List (Complaint F G) × R)
  | [], cs, rng => do step (.branch false); pure (cs, rng)
  | (index, commitment) :: rest, cs, rng => do
    step (.branch true)
    if ← test (index = e.senderIndex) then do
      let bad ← badShareT S decrypted commitment
      if ← test bad then do
        let (c, rng) ← Complaint.newT S pk dhPrivateKey shared e rng
        pure (cs ++ [c], rng)
      else complaintLoopT S pk dhPrivateKey shared e decrypted rest cs rng
    else complaintLoopT S pk dhPrivateKey shared e decrypted rest cs rng

/-- Keeping the decrypted share, `src/dkg/key_generation.rs:978-980`. -/
def keepShareT (decrypted : Out F G (SecretShare F)) (shares : BMap (SecretShare F)) : Traced (BMap (SecretShare F)) :=
  match decrypted with
  | .ok share => do
    step (.branch true)
    step (.mapKey share.senderIndex)
    pure (shares.insert share.senderIndex share)
  | .error _ => do step (.branch false); pure shares

/-- The outer loop of `to_round_two`, `src/dkg/key_generation.rs:928-984`. -/
def roundTwoLoopT (S : Suite F G R) (dbg : Bool) (st : DkgState F G) :
    List EncShare → BMap (SecretShare F) → List (Complaint F G) → R →
      Traced (Res F G (BMap (SecretShare F) × List (Complaint F G)))
  | [], shares, cs, _ => do step (.branch false); pure (.ok (shares, cs))
  | e :: es, shares, cs, rng => do
    step (.branch true)
    if ← test (dbg && e.receiverIndex != st.index) then pure (.error (.panic .debugAssert))
    else do
      step (.mapKey e.senderIndex)
      match st.theirDhPublicKeys.get? e.senderIndex with
      | none => do
        step (.branch false)
        pure (.error (.err (.custom
          "to_round_two() was called with encrypted secret shares containing invalid indices")))
      | some pk => do
        step (.branch true)
        step .groupMul
        let shared := st.dhPrivateKey • pk
        let decrypted ← (decryptShareT S e (S.encG shared) : Traced (Out F G (SecretShare F)))
        match st.theirCommitments with
        | none => pure (.error (.panic .expectNone))
        | some comms => do
          let (cs, rng) ← complaintLoopT S pk st.dhPrivateKey shared e decrypted comms cs rng
          let shares ← keepShareT decrypted shares
          roundTwoLoopT S dbg st es shares cs rng

/-- The loop of `calculate_signing_key`, `src/dkg/key_generation.rs:1033-1042`. -/
def signingKeyLoopT (indices : List U32) :
    List (U32 × SecretShare F) → F → Traced (Res F G F × List (U32 × SecretShare F))
  | [], key => do step (.branch false); pure (.ok key, [])
  | (index, share) :: rest, key => do
    step (.branch true)
    match lagrangeCoeff (G := G) index indices with
    | .error e => do
      step (.branch true)
      pure (.error (.err (.custom e.display)), (index, share) :: rest)
    | .ok coeff => do
      step (.branch false)
      step .fieldMul
      step .fieldAdd
      let (r, rest') ← signingKeyLoopT indices rest (key + share.eval * coeff)
      pure (r, (index, ⟨0, 0, 0⟩) :: rest')

/-! ### Signing -/

/-- `nonce_generate`, `src/sign/precomputation.rs:24-35`. -/
def nonceGenerateT (S : Suite F G R) (sk : IndividualSigningKey F) (rng : R) : Traced (F × R) := do
  step (.drawBytes S.hashLen)
  let (randomBytes, rng) := S.randBytes S.hashLen rng
  step (.hash (randomBytes ++ (signingKeyCodec S).enc sk).length)
  pure (S.h3 (randomBytes ++ (signingKeyCodec S).enc sk), rng)

/-- `NoncePair::new` followed by `CommitmentShare::from`, `src/sign/precomputation.rs:47-55, 58-74`. -/
def newCommitmentShareT (S : Suite F G R) (sk : IndividualSigningKey F) (rng : R) :
    Traced (CommitmentShare F G × R) := do
  let (d, rng) ← nonceGenerateT S sk rng
  let (e, rng) ← nonceGenerateT S sk rng
  step .groupMul
  step .groupMul
  pure (⟨⟨d, d • S.gen⟩, ⟨e, e • S.gen⟩⟩, rng)

/-- The loop of `generate_commitment_share_lists`, `src/sign/precomputation.rs:186-191`. -/
def commitmentSharesT (S : Suite F G R) (sk : IndividualSigningKey F) :
    Nat → R → Traced (List (CommitmentShare F G) × R)
  | 0, rng => do step (.branch false); pure ([], rng)
  | k + 1, rng => do
    step (.branch true)
    let (c, rng) ← newCommitmentShareT S sk rng
    let (cs, rng) ← commitmentSharesT S sk k rng
    pure (c :: cs, rng)

/-- `PartialEq for Commitment`, `src/sign/precomputation.rs:102-106`: `&` evaluates both sides. -/
def Commitment.eqT (c c' : Commitment F G) : Traced Bool := do
  step .fieldEq
  let a := c.secret == c'.secret
  step .intoAffine
  step .intoAffine
  step .groupEq
  let b := c.commit == c'.commit
  pure (a && b)

/-- `PartialEq for CommitmentShare`, `src/sign/precomputation.rs:130-134`: `&` evaluates both sides. -/
def CommitmentShare.eqT (c c' : CommitmentShare F G) : Traced Bool := do
  let a ← c.hidingC.eqT c'.hidingC
  let b ← c.bindingC.eqT c'.bindingC
  pure (a && b)

/-- The scan of `drop_share`, `src/sign/precomputation.rs:218-222`. -/
def lastIndexLoopT (share : CommitmentShare F G) :
    Nat → List (CommitmentShare F G) → Option Nat → Traced (Option Nat)
  | _, [], index => do step (.branch false); pure index
  | i, s :: l, index => do
    step (.branch true)
    let same ← s.eqT share
    if ← test same then lastIndexLoopT share (i + 1) l (some i)
    else lastIndexLoopT share (i + 1) l index

/-- `SecretCommitmentShareList::drop_share`, `src/sign/precomputation.rs:211-227`. -/
def dropShareT (list : List (CommitmentShare F G)) (share : CommitmentShare F G) :
    Traced (List (CommitmentShare F G)) := do
  match ← lastIndexLoopT share 0 list none with
  | some i => do
    step (.branch true)
    step (.position i)
    pure (list.eraseIdx i)
  | none => do
    step (.branch false)
    pure list

/-- `IndividualSigningKey::sign`, `src/sign/signature.rs:303-341`. The three `?` on public computations are branches. -/
def signT (S : Suite F G R) (dbg : Bool) (sk : IndividualSigningKey F) (messageHash : Bytes) (groupKey : G)
    (secretList : List (CommitmentShare F G)) (shareIndex : UInt64) (signers : List (Signer G)) :
    Traced (Res F G (PartialSignature F) × List (CommitmentShare F G)) := do
  if ← test (dbg && shareIndex == UInt64.ofNat (2 ^ 64 - 1)) then pure (.error (.panic .overflow), secretList)
  else if ← test ((shareIndex + 1).toNat > secretList.length) then
    pure (.error (.err .missingCommitmentShares), secretList)
  else
    match computeBindingFactors S messageHash signers with
    | .error f => do step (.branch true); pure (.error f, secretList)
    | .ok factors => do
      step (.branch false)
      match bindingFactorFor (G := G) sk.index factors with
      | .error e => do step (.branch true); pure (.error (.err e), secretList)
      | .ok factor => do
        step (.branch false)
        match computeGroupCommitment factors signers 0 with
        | .error e => do step (.branch true); pure (.error (.err e), secretList)
        | .ok groupCommitment => do
          step (.branch false)
          match lagrangeCoeff (F := F) (G := G) sk.index (signers.map (·.participantIndex)) with
          | .error e => do step (.branch true); pure (.error (.err e), secretList)
          | .ok lambda => do
            step (.branch false)
            step (.position shareIndex.toNat)
            match secretList[shareIndex.toNat]? with
            | none => pure (.error (.panic .outOfBounds), secretList)
            | some share => do
              let challenge := computeChallenge S groupCommitment groupKey messageHash
              step .fieldMul
              step .fieldAdd
              step .fieldMul
              step .fieldMul
              step .fieldAdd
              let list ← dropShareT secretList share
              pure (.ok ⟨sk.index, share.hidingC.secret + share.bindingC.secret * factor
                + lambda * sk.key * challenge⟩, list)

end IceFrost
