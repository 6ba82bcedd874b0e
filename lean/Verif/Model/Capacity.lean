import Verif.Model.Memory
import Verif.Model.Participant
import Verif.Model.Signature

/-!
# Vectors that are reserved in advance

The calls of `Vec::with_capacity` outside `to_bytes` and outside the buffers of `Model/Memory.lean`, with what is pushed into
the vectors. Each definition returns the content of the vector and the contents of the buffers that are released because the
vector moved while it was filled.
-/

namespace IceFrost

/-- Pushing `xs` one after the other to a vector of capacity `cap` that contains `buf`: when it is full, `Vec::push` of the
standard library moves the content to a buffer of at least twice the size, and releases the old one if it had any
capacity. -/
def pushAll {α : Type} : Nat → List α → List α → List α × List (List α)
  | _, buf, [] => (buf, [])
  | cap, buf, x :: xs =>
    if buf.length < cap then pushAll cap (buf ++ [x]) xs
    else
      let (r, freed) := pushAll (max 4 (2 * cap)) (buf ++ [x]) xs
      (r, if cap = 0 then freed else buf :: freed)

variable {F G R : Type} [Field F] [DecidableEq F] [AddCommGroup G] [Module F G] [DecidableEq G]

/-- The vector `coefficients` of `new_internal`, `src/dkg/participant.rs:169-182`; `rng` is the state of the generator at that
point. -/
def coefficientsVec (S : Suite F G R) (t : Nat) (secretKey : Option F) (rng : R) : List F × List (List F) :=
  let (a0, rng) := match secretKey with
    | some sk => (sk, rng)
    | none => S.randScalar rng
  pushAll t [] (a0 :: (randScalars S (t - 1) rng).1)

/-- The vector `points` of `new_internal`, `src/dkg/participant.rs:170-173, 189-193`. -/
def pointsVec (S : Suite F G R) (t : Nat) (coefficients : List F) : Res F G (List G × List (List G)) :=
  (commitLoop S coefficients 0 t).map (pushAll t [])

/-- The vector `commitments` of `generate_commitment_share_lists`, `src/sign/precomputation.rs:184-191`. -/
def noncesVec (S : Suite F G R) (rng : R) (sk : IndividualSigningKey F) (number : Nat) :
    List (CommitmentShare F G) × List (List (CommitmentShare F G)) :=
  pushAll number [] (commitmentShares S sk number rng).1

/-- The vector `published` of `generate_commitment_share_lists`, `src/sign/precomputation.rs:193-197`. -/
def publishedVec (number : Nat) (commitments : List (CommitmentShare F G)) : List (G × G) × List (List (G × G)) :=
  pushAll number [] (commitments.map (·.publish))

/-- The vector `commitment_list` of `compute_binding_factors` and `commitment_for_participant`,
`src/sign/signature.rs:177-183, 217-229`. -/
def commitmentListVec (signers : List (Signer G)) : List (U32 × G × G) × List (List (U32 × G × G)) :=
  pushAll signers.length [] (commitmentList signers)

/-- The vector `encoded_group_commitment` of `encode_group_commitment_list`, `src/sign/signature.rs:153-164`. -/
def groupCommitmentVec (S : Suite F G R) (l : List (U32 × G × G)) : Bytes × List Bytes :=
  writeChunks (l.length * 2 * S.sizeG) [] (l.map fun e => [u32le e.1, S.encG e.2.1, S.encG e.2.2]).flatten

/-- The vector `challenge_input` of `compute_challenge`, `src/sign/signature.rs:266-276`. -/
def challengeVec (S : Suite F G R) (groupCommitment groupKey : G) (messageHash : Bytes) : Bytes × List Bytes :=
  writeChunks (S.sizeG + S.sizeG + messageHash.length) [] [S.encG groupCommitment, S.encG groupKey, messageHash]

/-- The vector `message` of `Complaint::new` and `Complaint::verify`, `src/dkg/complaint.rs:59-77, 105-126`; the encoder of the
share hands over its output in the pieces `chunks`. -/
def complaintVec (S : Suite F G R) (dhPk accusedPk shared a1 a2 : G) (e : EncShare) (chunks : List Bytes) :
    Bytes × List Bytes :=
  writeChunks (S.sizeG * 5 + (encShareCodec S).size e) []
    ([S.encG dhPk, S.encG accusedPk, S.encG shared, S.encG a1, S.encG a2] ++ chunks)

/-- The vector `index_vector` of `IndividualVerifyingKey::verify` and `generate_from_commitments`,
`src/keys.rs:102-105, 159-162`. -/
def indexVec (commitments : List (VssCommitment G)) : List U32 × List (List U32) :=
  pushAll commitments.length [] (commitments.map (·.index))

/-- The vector of `remaining_signers` before it is sorted, `src/sign/signature.rs:519-530`. -/
def remainingVec (a : InitialAggregator F G) : List (Signer G) × List (List (Signer G)) :=
  pushAll a.state.signers.length []
    (a.state.signers.filter fun s => (a.state.partialSignatures.get? s.participantIndex).isNone)

/-- The vector `pending_removals` of `blame` before it is sorted, `src/dkg/key_generation.rs:1116-1170`. -/
def pendingVec (S : Suite F G R) (st : DkgState F G) (complaints : List (Complaint F G)) :
    Res F G (List U32 × List (List U32)) :=
  (complaints.mapM (judge S st)).map (pushAll complaints.length [])

/-- The vector `valid_participants` of `new_state_internal`, `src/dkg/key_generation.rs:717-789`: it is reserved before the
number of participants is compared with the parameters. The first
component is the number of elements reserved. -/
def validVec (S : Suite F G R) (dbg : Bool) (parameters : Params) (participants : List (Participant F G))
    (fromDealer fromSigner : Bool) : Nat × Res F G (List (Participant F G) × List (List (Participant F G))) :=
  let reserved := parameters.n.toNat
  (reserved,
    if participants.length ≠ parameters.n.toNat then
      .error (.err (.invalidNumberOfParticipants participants.length parameters.n))
    else
      (participants.foldlM (checkParticipant S dbg parameters fromDealer fromSigner) ⟨[], [], [], []⟩).map fun acc =>
        pushAll reserved [] acc.valid)

/-- The vector `signers` of a `SignatureAggregator`, `src/sign/signature.rs:445`: the number of elements that `new`
reserves. -/
def aggregatorReserved (parameters : Params) : Nat := parameters.t.toNat

end IceFrost
