import Verif.Model.Trace
import Verif.Model.Keys

/-!
# What the calls cost

The public functions once more, each with the scalar multiplications in the group and the hash computations it makes,
recorded as steps like in `Model/Trace`; the functions recorded there are used as they are. A multi-scalar
multiplication of two bases counts as two multiplications. Branches, additions, comparisons and the multiplications of the field are not
recorded. `Props/Work.lean` proves that leaving the steps out gives the functions of the other model files.
-/

namespace IceFrost

open Traced

variable {F G R : Type} [Field F] [DecidableEq F] [AddCommGroup G] [Module F G] [DecidableEq G]

/-! ### Key generation -/

/-- `NizkPokOfSecretKey::verify`, `src/dkg/nizkpok.rs:65-90`. -/
def nizkVerifyW (S : Suite F G R) (p : Nizk F) (index : U32) (publicKey : G) : Traced (Out F G Unit) := do
  step .groupMul
  step .groupMul
  match msm [S.gen, publicKey] [p.r, -p.s] with
  | none => pure (.error .invalidMSMParameters)
  | some retrieved => do
    step (.hash (nizkMessage S index publicKey retrieved).length)
    pure (if p.s = S.h0 (nizkMessage S index publicKey retrieved) then .ok ()
      else .error .invalidProofOfKnowledge)

/-- `Complaint::verify`, `src/dkg/complaint.rs:99-139`: the second equation is only computed if the first holds. -/
def Complaint.verifyW (S : Suite F G R) (c : Complaint F G) (pkL : G) : Traced (Out F G Unit) := do
  step (.hash (complaintMessage S c.dhPublicKey pkL c.dhSharedKey c.proof.a1 c.proof.a2 c.encShare).length)
  let h := complaintHash S
    (complaintMessage S c.dhPublicKey pkL c.dhSharedKey c.proof.a1 c.proof.a2 c.encShare)
  step .groupMul
  step .groupMul
  if c.proof.a1 + h • c.dhPublicKey ≠ c.proof.z • S.gen then pure (.error .complaintVerificationError)
  else do
    step .groupMul
    step .groupMul
    if c.proof.a2 + h • c.dhSharedKey ≠ c.proof.z • pkL then pure (.error .complaintVerificationError)
    else pure (.ok ())

/-- One iteration of the participant loop, `src/dkg/key_generation.rs:731-781`. -/
def checkParticipantW (S : Suite F G R) (dbg : Bool) (parameters : Params) (fromDealer fromSigner : Bool)
    (acc : RoundOneAcc F G) (p : Participant F G) : Traced (Res F G (RoundOneAcc F G)) := do
  match ← nizkVerifyW S p.proofOfDhPrivateKey p.index p.dhPublicKey with
  | .error _ => pure (.ok (acc.blame p))
  | .ok () =>
    if fromSigner then
      match p.publicKey with
      | none => pure (.ok (acc.blame p))
      | some publicKey =>
        match p.proofOfSecretKey with
        | none => pure (.error (.panic .expectNone))
        | some proof => do
          match ← nizkVerifyW S proof p.index publicKey with
          | .error _ => pure (.ok (acc.blame p))
          | .ok () =>
            match p.commitments with
            | none => pure (.error (.panic .expectNone))
            | some commitments =>
              if fromDealer && !(commitments.checkDegree (F := F) parameters).toBool then pure (.ok (acc.blame p))
              else pure (.ok
                { acc with
                  valid := acc.valid ++ [p]
                  commitments := acc.commitments.insert p.index commitments
                  dhPublicKeys := acc.dhPublicKeys.insert p.index p.dhPublicKey })
    else if dbg && !fromDealer then pure (.error (.panic .debugAssert))
    else pure (.ok
      { acc with
        valid := acc.valid ++ [p]
        dhPublicKeys := acc.dhPublicKeys.insert p.index p.dhPublicKey })

/-- The participant loop, `src/dkg/key_generation.rs:731-781`. -/
def checkParticipantsW (S : Suite F G R) (dbg : Bool) (parameters : Params) (fromDealer fromSigner : Bool) :
    List (Participant F G) → RoundOneAcc F G → Traced (Res F G (RoundOneAcc F G))
  | [], acc => pure (.ok acc)
  | p :: ps, acc => do
    match ← checkParticipantW S dbg parameters fromDealer fromSigner acc p with
    | .error f => pure (.error f)
    | .ok acc => checkParticipantsW S dbg parameters fromDealer fromSigner ps acc

/-- `new_state_internal`, `src/dkg/key_generation.rs:704-886`. -/
def newStateInternalW (S : Suite F G R) (dbg : Bool) (parameters : Params) (dhPrivateKey : F) (myIndex : U32)
    (myCoefficients : Option (List F)) (participants : List (Participant F G))
    (fromDealer fromSigner : Bool) (rng : R) : Traced (Res F G ((RoundOne F G × ParticipantList F G) × R)) := do
  step .groupMul
  let dhPublicKey := dhPrivateKey • S.gen
  if participants.length ≠ parameters.n.toNat then
    pure (.error (.err (.invalidNumberOfParticipants participants.length parameters.n)))
  else do
    match ← checkParticipantsW S dbg parameters fromDealer fromSigner participants ⟨[], [], [], []⟩ with
    | .error f => pure (.error f)
    | .ok acc =>
      if acc.valid.length < parameters.t.toNat then
        pure (.error (.err (.tooManyInvalidParticipants acc.misbehaving)))
      else if !fromDealer && fromSigner then
        match u32Sub dbg parameters.n (UInt32.ofNat acc.misbehaving.length) with
        | .error f => pure (.error f)
        | .ok n =>
          match Params.new dbg n parameters.t with
          | .error f => pure (.error f)
          | .ok parameters =>
            pure (.ok ((⟨{ parameters := parameters, index := myIndex, dhPrivateKey := dhPrivateKey,
                           dhPublicKey := dhPublicKey, theirCommitments := some acc.commitments,
                           theirDhPublicKeys := acc.dhPublicKeys, theirEncryptedSecretShares := none,
                           mySecretShares := none }⟩, participantList acc.valid acc.misbehaving), rng))
      else do
        match ← dealSharesT S dhPrivateKey myIndex myCoefficients participants [] rng with
        | .error f => pure (.error f)
        | .ok (shares, rng) =>
          match u32Sub dbg parameters.n (UInt32.ofNat acc.misbehaving.length) with
          | .error f => pure (.error f)
          | .ok n =>
            match Params.new dbg n parameters.t with
            | .error f => pure (.error f)
            | .ok parameters =>
              pure (.ok ((⟨{ parameters := parameters, index := myIndex, dhPrivateKey := dhPrivateKey,
                             dhPublicKey := dhPublicKey,
                             theirCommitments := if fromSigner then some acc.commitments else none,
                             theirDhPublicKeys := acc.dhPublicKeys, theirEncryptedSecretShares := some shares,
                             mySecretShares := none }⟩, participantList acc.valid acc.misbehaving), rng))

/-- `to_round_two`, `src/dkg/key_generation.rs:903-1000`. -/
def RoundOne.toRoundTwoW (S : Suite F G R) (dbg : Bool) (d : RoundOne F G) (myShares : List EncShare) (rng : R) :
    Traced (Res F G (RoundTwo F G × List (Complaint F G))) := do
  let st := { d.state with theirEncryptedSecretShares := none }
  if myShares.length < st.parameters.t.toNat then pure (.error (.err .missingShares))
  else do
    match ← roundTwoLoopT S dbg st myShares [] [] rng with
    | .error f => pure (.error f)
    | .ok (shares, complaints) =>
      match u32Sub dbg st.parameters.n (UInt32.ofNat complaints.length) with
      | .error f => pure (.error f)
      | .ok remaining =>
        if remaining < st.parameters.t then pure (.error (.err (.complaint complaints)))
        else pure (.ok (⟨{ st with mySecretShares := some shares }⟩, complaints))

/-- The loop of `calculate_group_key`, `src/dkg/key_generation.rs:1068-1080`. -/
def groupKeyLoopW (indices : List U32) : List (U32 × VssCommitment G) → G → Traced (Res F G G)
  | [], acc => pure (.ok acc)
  | (index, commitment) :: rest, acc =>
    match lagrangeCoeff (F := F) (G := G) index indices with
    | .error e => pure (.error (.err e))
    | .ok coeff =>
      match commitment.publicKey with
      | none => pure (.error (.panic .expectNone))
      | some pk => do
        step .groupMul
        groupKeyLoopW indices rest (acc + coeff • pk)

/-- `finish`, `src/dkg/key_generation.rs:1012-1017`, with `calculate_signing_key` (lines 1022-1048), which makes no
multiplication in the group, and `calculate_group_key` (lines 1055-1083). -/
def RoundTwo.finishW (d : RoundTwo F G) : Traced (Res F G (G × IndividualSigningKey F)) :=
  match d.calculateSigningKey with
  | (.error f, _) => pure (.error f)
  | (.ok sk, d) =>
    match d.state.theirCommitments with
    | none => pure (.error (.err .invalidGroupKey))
    | some comms => do
      match ← groupKeyLoopW comms.keys comms 0 with
      | .error f => pure (.error f)
      | .ok gk => pure (.ok (gk, sk))

/-- The verdict of `blame` on one complaint, `src/dkg/key_generation.rs:1118-1169`. -/
def judgeW (S : Suite F G R) (st : DkgState F G) (c : Complaint F G) : Traced (Res F G U32) :=
  let accused := c.encShare.senderIndex
  let maker := c.encShare.receiverIndex
  if accused = 0 ∨ accused > st.parameters.n then pure (.ok maker)
  else
    match st.theirCommitments with
    | none => pure (.error (.panic .expectNone))
    | some comms =>
      match comms.get? accused with
      | none => pure (.ok maker)
      | some commitment => do
        let pk := match st.theirDhPublicKeys.get? accused with
          | none => 0
          | some pk => pk
        match ← c.verifyW S pk with
        | .error _ => pure (.ok maker)
        | .ok () => do
          match decryptShare S c.encShare (S.encG c.dhSharedKey) with
          | .error _ => pure (.ok accused)
          | .ok share => do
            match ← share.verifyT S commitment with
            | .ok () => pure (.ok maker)
            | .error _ => pure (.ok accused)

/-- The loop of `blame` over the complaints, `src/dkg/key_generation.rs:1118-1169`. -/
def judgeAllW (S : Suite F G R) (st : DkgState F G) : List (Complaint F G) → Traced (Res F G (List U32))
  | [] => pure (.ok [])
  | c :: cs => do
    match ← judgeW S st c with
    | .error f => pure (.error f)
    | .ok i => do
      match ← judgeAllW S st cs with
      | .error f => pure (.error f)
      | .ok is => pure (.ok (i :: is))

/-- `blame`, `src/dkg/key_generation.rs:1097-1184`. -/
def RoundTwo.blameW (S : Suite F G R) (d : RoundTwo F G) (complaints : List (Complaint F G)) :
    Traced (Res F G (RoundTwo F G × List G)) := do
  match ← judgeAllW S d.state complaints with
  | .error f => pure (.error f)
  | .ok verdicts =>
    let pending := dedupByKey id (sortByKey id verdicts)
    match pending.foldlM removeMalicious d.state with
    | .error f => pure (.error f)
    | .ok st => pure (.ok (⟨st⟩, pending.filterMap fun i => st.theirDhPublicKeys.get? i))

/-! ### Keys -/

/-- The loop of `generate_from_commitments`, `src/keys.rs:164-176`. -/
def fromCommitmentsLoopW (term : F) (indices : List U32) : List (VssCommitment G) → G → Traced (Out F G G)
  | [], share => pure (.ok share)
  | c :: cs, share => do
    let tmp ← hornerHidingLoopT c.points.length term 0 c.points.reverse 0
    match lagrangeCoeff (G := G) c.index indices with
    | .error e => pure (.error e)
    | .ok (coeff : F) => do
      step .groupMul
      fromCommitmentsLoopW term indices cs (share + coeff • tmp)

/-- `IndividualVerifyingKey::generate_from_commitments`, `src/keys.rs:152-182`. -/
def generateFromCommitmentsW (F : Type) [Field F] [DecidableEq F] [Module F G] (index : U32)
    (commitments : List (VssCommitment G)) : Traced (Out F G (IndividualVerifyingKey G)) := do
  match ← fromCommitmentsLoopW (u32F F index) (commitments.map (·.index)) commitments 0 with
  | .error e => pure (.error e)
  | .ok share => pure (.ok ⟨index, share⟩)

/-- The loop of `IndividualVerifyingKey::verify`, `src/keys.rs:107-124`. -/
def verifyKeyLoopW (term : F) (indices : List U32) : List (VssCommitment G) → G → Traced (Out F G G)
  | [], rhs => pure (.ok rhs)
  | c :: cs, rhs => do
    let tmp ← hornerHidingLoopT c.points.length term 0 c.points.reverse 0
    match lagrangeCoeff (G := G) c.index indices with
    | .error e => pure (.error (.custom e.display))
    | .ok (coeff : F) => do
      step .groupMul
      verifyKeyLoopW term indices cs (rhs + coeff • tmp)

/-- `IndividualVerifyingKey::verify`, `src/keys.rs:95-131`. -/
def IndividualVerifyingKey.verifyW (F : Type) [Field F] [DecidableEq F] [Module F G]
    (k : IndividualVerifyingKey G) (commitments : List (VssCommitment G)) : Traced (Out F G Unit) := do
  match ← verifyKeyLoopW (u32F F k.index) (commitments.map (·.index)) commitments 0 with
  | .error e => pure (.error e)
  | .ok rhs => pure (if k.share = rhs then .ok () else .error .shareVerificationError)

/-! ### Signing -/

/-- The hash computations of one binding factor per entry, `src/sign/signature.rs:188-195`. -/
def factorsW (S : Suite F G R) (prefix' : Bytes) : List (U32 × G × G) → BMap F → Traced (BMap F)
  | [], m => pure m
  | e :: l, m => do
    step (.hash (prefix' ++ u32le e.1).length)
    factorsW S prefix' l (m.insert e.1 (S.h1 (prefix' ++ u32le e.1)))

/-- `compute_binding_factors`, `src/sign/signature.rs:169-198`. -/
def computeBindingFactorsW (S : Suite F G R) (message : Bytes) (signers : List (Signer G)) :
    Traced (Res F G (BMap F)) := do
  match encodeGroupCommitmentList S (commitmentList signers) with
  | .error f => pure (.error f)
  | .ok encoded => do
    step (.hash message.length)
    step (.hash encoded.length)
    let factors ← factorsW S (S.h4 message ++ S.h5 encoded) (commitmentList signers) []
    pure (.ok factors)

/-- `commitment_for_participant`, `src/sign/signature.rs:210-240`: encodes and hashes the whole list again. -/
def commitmentForParticipantW (S : Suite F G R) (index : U32) (message : Bytes) (signers : List (Signer G)) :
    Traced (Res F G G) := do
  let mine := signers.foldl (fun acc s => if index = s.participantIndex then s.share else acc) (0, 0)
  match encodeGroupCommitmentList S (commitmentList signers) with
  | .error f => pure (.error f)
  | .ok encoded => do
    step (.hash message.length)
    step (.hash encoded.length)
    step (.hash (S.h4 message ++ S.h5 encoded ++ u32le index).length)
    let factor := S.h1 (S.h4 message ++ S.h5 encoded ++ u32le index)
    step .groupMul
    pure (.ok (mine.1 + factor • mine.2))

/-- `compute_group_commitment`, `src/sign/signature.rs:242-259`. -/
def computeGroupCommitmentW (factors : BMap F) : List (Signer G) → G → Traced (Out F G G)
  | [], acc => pure (.ok acc)
  | s :: l, acc =>
    match bindingFactorFor (G := G) s.participantIndex factors with
    | .error e => pure (.error e)
    | .ok factor => do
      step .groupMul
      computeGroupCommitmentW factors l (acc + (s.share.1 + factor • s.share.2))

/-- `compute_challenge`, `src/sign/signature.rs:261-278`. -/
def computeChallengeW (S : Suite F G R) (groupCommitment groupKey : G) (messageHash : Bytes) : Traced F := do
  step (.hash (S.encG groupCommitment ++ S.encG groupKey ++ messageHash).length)
  pure (computeChallenge S groupCommitment groupKey messageHash)

/-- `IndividualSigningKey::sign`, `src/sign/signature.rs:303-341`. -/
def signW (S : Suite F G R) (dbg : Bool) (sk : IndividualSigningKey F) (messageHash : Bytes) (groupKey : G)
    (secretList : List (CommitmentShare F G)) (shareIndex : UInt64) (signers : List (Signer G)) :
    Traced (Res F G (PartialSignature F) × List (CommitmentShare F G)) :=
  if dbg && shareIndex == UInt64.ofNat (2 ^ 64 - 1) then pure (.error (.panic .overflow), secretList)
  else if (shareIndex + 1).toNat > secretList.length then
    pure (.error (.err .missingCommitmentShares), secretList)
  else do
    match ← computeBindingFactorsW S messageHash signers with
    | .error f => pure (.error f, secretList)
    | .ok factors =>
      match bindingFactorFor (G := G) sk.index factors with
      | .error e => pure (.error (.err e), secretList)
      | .ok factor => do
        match ← computeGroupCommitmentW factors signers 0 with
        | .error e => pure (.error (.err e), secretList)
        | .ok groupCommitment =>
          match lagrangeCoeff (F := F) (G := G) sk.index (signers.map (·.participantIndex)) with
          | .error e => pure (.error (.err e), secretList)
          | .ok lambda =>
            match secretList[shareIndex.toNat]? with
            | none => pure (.error (.panic .outOfBounds), secretList)
            | some share => do
              let challenge ← computeChallengeW S groupCommitment groupKey messageHash
              pure (.ok ⟨sk.index, share.hidingC.secret + share.bindingC.secret * factor
                + lambda * sk.key * challenge⟩, dropShare secretList share)

/-- `ThresholdSignature::verify`, `src/sign/signature.rs:693-711`, and `GroupVerifyingKey::verify_signature`,
`src/keys.rs:247-265`. -/
def verifySignatureW (S : Suite F G R) (groupKey : G) (sig : ThresholdSignature F G) (messageHash : Bytes) :
    Traced (Out F G Unit) := do
  let challenge ← computeChallengeW S sig.groupCommitment groupKey messageHash
  step .groupMul
  step .groupMul
  match msm [S.gen, -groupKey] [sig.z, challenge] with
  | none => pure (.error .invalidSignature)
  | some retrieved => pure (if sig.groupCommitment = retrieved then .ok () else .error .invalidSignature)

/-- The search for misbehaving signers, `src/sign/signature.rs:646-681`. -/
def culpritsLoopW (S : Suite F G R) (st : AggregatorState F G) (messageHash : Bytes) (challenge : F) :
    List (Signer G) → Traced (Res F G (List U32))
  | [] => pure (.ok [])
  | s :: l =>
    match lagrangeCoeff (F := F) (G := G) s.participantIndex (st.signers.map (·.participantIndex)) with
    | .error e => pure (.error (.err e))
    | .ok lambda =>
      match st.partialSignatures.get? s.participantIndex with
      | none => pure (.error (.panic .expectNone))
      | some z =>
        match st.publicKeys.get? s.participantIndex with
        | none => pure (.error (.panic .expectNone))
        | some pk => do
          match ← commitmentForParticipantW S s.participantIndex messageHash st.signers with
          | .error f => pure (.error f)
          | .ok commitment => do
            step .groupMul
            step .groupMul
            let bad := z • S.gen ≠ commitment + (challenge * lambda) • pk
            match ← culpritsLoopW S st messageHash challenge l with
            | .error f => pure (.error f)
            | .ok rest => pure (.ok (if bad then s.participantIndex :: rest else rest))

/-- `aggregate`, `src/sign/signature.rs:602-684`. -/
def FinalizedAggregator.aggregateW (S : Suite F G R) (a : FinalizedAggregator F G) :
    Traced (Res F G (ThresholdSignature F G)) := do
  match ← computeBindingFactorsW S a.messageHash a.state.signers with
  | .error f => pure (.error f)
  | .ok factors => do
    match ← computeGroupCommitmentW factors a.state.signers 0 with
    | .error e => pure (.error (.err e))
    | .ok groupCommitment => do
      let challenge ← computeChallengeW S groupCommitment a.state.groupKey a.messageHash
      match sumPartials (G := G) a.state.partialSignatures a.state.signers 0 with
      | .error f => pure (.error f)
      | .ok z => do
        let signature : ThresholdSignature F G := ⟨groupCommitment, z⟩
        match ← verifySignatureW S a.state.groupKey signature a.messageHash with
        | .ok () => pure (.ok signature)
        | .error _ => do
          match ← culpritsLoopW S a.state a.messageHash challenge a.state.signers with
          | .error f => pure (.error f)
          | .ok culprits => pure (.error (.err (.misbehavingParticipants culprits)))

end IceFrost
