import Verif.Model.Precomputation

/-! # `src/sign/signature.rs` -/

namespace IceFrost

variable {F G R : Type} [Field F] [DecidableEq F] [AddCommGroup G] [Module F G] [DecidableEq G]

/-- The entries of a commitment list, `src/sign/signature.rs:155-164`. -/
def encodeCommitments (S : Suite F G R) (l : List (U32 × G × G)) : Bytes :=
  (l.map fun e => u32le e.1 ++ S.encG e.2.1 ++ S.encG e.2.2).flatten

/-- `encode_group_commitment_list`, `src/sign/signature.rs:150-167`. `commitment_list[0]` panics on an empty
list. -/
def encodeGroupCommitmentList (S : Suite F G R) (l : List (U32 × G × G)) : Res F G Bytes :=
  match l with
  | [] => .error (.panic .outOfBounds)
  | _ :: _ => .ok (encodeCommitments S l)

/-- The `commitment_list` built from the signers, `src/sign/signature.rs:177-183`. -/
def commitmentList (signers : List (Signer G)) : List (U32 × G × G) :=
  signers.map fun s => (s.participantIndex, s.share.1, s.share.2)

/-- `compute_binding_factors`, `src/sign/signature.rs:169-198`. The wrappers `BindingFactors`, `PartialThresholdSignatures` and
`IndividualPublicKeys` (lines 75-147) are the maps they contain. -/
def computeBindingFactors (S : Suite F G R) (message : Bytes) (signers : List (Signer G)) :
    Res F G (BMap F) :=
  match encodeGroupCommitmentList S (commitmentList signers) with
  | .error f => .error f
  | .ok encoded =>
    let prefix' := S.h4 message ++ S.h5 encoded
    .ok ((commitmentList signers).foldl (fun m e => m.insert e.1 (S.h1 (prefix' ++ u32le e.1))) [])

/-- `binding_factor_for_participant`, `src/sign/signature.rs:200-208`. -/
def bindingFactorFor (index : U32) (factors : BMap F) : Out F G F :=
  match factors.get? index with
  | some f => .ok f
  | none => .error .invalidBindingFactor

/-- `commitment_for_participant`, `src/sign/signature.rs:210-240`. -/
def commitmentForParticipant (S : Suite F G R) (index : U32) (message : Bytes) (signers : List (Signer G)) :
    Res F G G :=
  let mine := signers.foldl (fun acc s => if index = s.participantIndex then s.share else acc) (0, 0)
  match encodeGroupCommitmentList S (commitmentList signers) with
  | .error f => .error f
  | .ok encoded =>
    let factor := S.h1 (S.h4 message ++ S.h5 encoded ++ u32le index)
    .ok (mine.1 + factor • mine.2)

/-- `compute_group_commitment`, `src/sign/signature.rs:242-259`. -/
def computeGroupCommitment (factors : BMap F) : List (Signer G) → G → Out F G G
  | [], acc => .ok acc
  | s :: l, acc =>
    match bindingFactorFor (G := G) s.participantIndex factors with
    | .error e => .error e
    | .ok factor => computeGroupCommitment factors l (acc + (s.share.1 + factor • s.share.2))

/-- `compute_challenge`, `src/sign/signature.rs:261-278`. -/
def computeChallenge (S : Suite F G R) (groupCommitment groupKey : G) (messageHash : Bytes) : F :=
  S.h2 (S.encG groupCommitment ++ S.encG groupKey ++ messageHash)

/-- The part of `sign` that only reads, `src/sign/signature.rs:311-332`: the response and the consumed
commitment share. `usize` is 64 bits wide; `i + 1` overflows only for `i = usize::MAX`. -/
def signCore (S : Suite F G R) (dbg : Bool) (sk : IndividualSigningKey F) (messageHash : Bytes) (groupKey : G)
    (secretList : List (CommitmentShare F G)) (shareIndex : UInt64) (signers : List (Signer G)) :
    Res F G (F × CommitmentShare F G) :=
  if dbg && shareIndex == UInt64.ofNat (2 ^ 64 - 1) then .error (.panic .overflow)
  else if (shareIndex + 1).toNat > secretList.length then .error (.err .missingCommitmentShares)
  else
    match computeBindingFactors S messageHash signers with
    | .error f => .error f
    | .ok factors =>
      match bindingFactorFor (G := G) sk.index factors with
      | .error e => .error (.err e)
      | .ok factor =>
        match computeGroupCommitment factors signers 0 with
        | .error e => .error (.err e)
        | .ok groupCommitment =>
          match lagrangeCoeff (F := F) (G := G) sk.index (signers.map (·.participantIndex)) with
          | .error e => .error (.err e)
          | .ok lambda =>
            match secretList[shareIndex.toNat]? with
            | none => .error (.panic .outOfBounds)
            | some share =>
              let challenge := computeChallenge S groupCommitment groupKey messageHash
              .ok (share.hidingC.secret + share.bindingC.secret * factor + lambda * sk.key * challenge,
                share)

/-- `IndividualSigningKey::sign`, `src/sign/signature.rs:303-341`: result and the secret list afterwards. -/
def sign (S : Suite F G R) (dbg : Bool) (sk : IndividualSigningKey F) (messageHash : Bytes) (groupKey : G)
    (secretList : List (CommitmentShare F G)) (shareIndex : UInt64) (signers : List (Signer G)) :
    Res F G (PartialSignature F) × List (CommitmentShare F G) :=
  match signCore S dbg sk messageHash groupKey secretList shareIndex signers with
  | .error f => (.error f, secretList)
  | .ok (z, share) => (.ok ⟨sk.index, z⟩, dropShare secretList share)

/-- `ThresholdSignature::verify`, `src/sign/signature.rs:693-711`. -/
def ThresholdSignature.verify (S : Suite F G R) (sig : ThresholdSignature F G) (groupKey : G)
    (messageHash : Bytes) : Out F G Unit :=
  let challenge := computeChallenge S sig.groupCommitment groupKey messageHash
  match msm [S.gen, -groupKey] [sig.z, challenge] with
  | none => .error .invalidSignature
  | some retrieved => if sig.groupCommitment = retrieved then .ok () else .error .invalidSignature

/-- `GroupVerifyingKey::verify_signature`, `src/keys.rs:247-265`. -/
def verifySignature (S : Suite F G R) (groupKey : G) (sig : ThresholdSignature F G) (messageHash : Bytes) :
    Out F G Unit :=
  let challenge := computeChallenge S sig.groupCommitment groupKey messageHash
  match msm [S.gen, -groupKey] [sig.z, challenge] with
  | none => .error .invalidSignature
  | some retrieved => if sig.groupCommitment = retrieved then .ok () else .error .invalidSignature

namespace InitialAggregator

/-- `SignatureAggregator::new`, `src/sign/signature.rs:440-460`. -/
def new (parameters : Params) (groupKey : G) (message : Bytes) : InitialAggregator F G :=
  ⟨⟨parameters, [], [], [], groupKey⟩, message⟩

/-- `include_signer`, `src/sign/signature.rs:473-503`: result and state afterwards. -/
def includeSigner (a : InitialAggregator F G) (index : U32) (share : G × G)
    (publicKey : IndividualVerifyingKey G) : Out F G Unit × InitialAggregator F G :=
  if index ≠ publicKey.index then (.error (.indexMismatch index publicKey.index), a)
  else
    let signers := dedupByKey Signer.participantIndex
      (sortByKey Signer.participantIndex (a.state.signers ++ [⟨index, share⟩]))
    let a := { a with state := { a.state with signers := signers } }
    if signers.length > a.state.parameters.n.toNat then
      (.error (.tooManySigners signers.length a.state.parameters.n), a)
    else
      (.ok (), { a with state := { a.state with
        publicKeys := a.state.publicKeys.insert publicKey.index publicKey.share } })

/-- `remaining_signers`, `src/sign/signature.rs:518-534`. -/
def remainingSigners (a : InitialAggregator F G) : List (Signer G) :=
  dedupByKey Signer.participantIndex (sortByKey Signer.participantIndex
    (a.state.signers.filter fun s => (a.state.partialSignatures.get? s.participantIndex).isNone))

/-- `include_partial_signature`, `src/sign/signature.rs:537-541`. -/
def includePartialSignature (a : InitialAggregator F G) (p : PartialSignature F) : InitialAggregator F G :=
  { a with state := { a.state with partialSignatures := a.state.partialSignatures.insert p.index p.z } }

/-- The indices reported by `finalize`, `src/sign/signature.rs:555-579`. -/
def missing (a : InitialAggregator F G) : List U32 :=
  let remaining := a.remainingSigners
  (if remaining.isEmpty then [] else 0 :: remaining.map (·.participantIndex)) ++
    (a.state.signers.filter fun s => (a.state.publicKeys.get? s.participantIndex).isNone).map
      (·.participantIndex)

/-- `finalize`, `src/sign/signature.rs:554-591`. -/
def finalize (S : Suite F G R) (a : InitialAggregator F G) : Out F G (FinalizedAggregator F G) :=
  if a.missing.isEmpty then .ok ⟨a.state, S.h4 a.message⟩
  else .error (.misbehavingParticipants a.missing)

end InitialAggregator

/-- The sum of the partial signatures, `src/sign/signature.rs:623-631`. -/
def sumPartials (partials : BMap F) : List (Signer G) → F → Res F G F
  | [], z => .ok z
  | s :: l, z =>
    match partials.get? s.participantIndex with
    | none => .error (.panic .expectNone)
    | some p => sumPartials partials l (z + p)

/-- The search for misbehaving signers, `src/sign/signature.rs:646-681`, over the remaining signers `l`. -/
def culpritsLoop (S : Suite F G R) (st : AggregatorState F G) (messageHash : Bytes) (challenge : F) :
    List (Signer G) → Res F G (List U32)
  | [] => .ok []
  | s :: l =>
    match lagrangeCoeff (F := F) (G := G) s.participantIndex (st.signers.map (·.participantIndex)) with
    | .error e => .error (.err e)
    | .ok lambda =>
      match st.partialSignatures.get? s.participantIndex with
      | none => .error (.panic .expectNone)
      | some z =>
        match st.publicKeys.get? s.participantIndex with
        | none => .error (.panic .expectNone)
        | some pk =>
          match commitmentForParticipant S s.participantIndex messageHash st.signers with
          | .error f => .error f
          | .ok commitment =>
            let bad := z • S.gen ≠ commitment + (challenge * lambda) • pk
            match culpritsLoop S st messageHash challenge l with
            | .error f => .error f
            | .ok rest => .ok (if bad then s.participantIndex :: rest else rest)

/-- `aggregate`, `src/sign/signature.rs:602-684`. -/
def FinalizedAggregator.aggregate (S : Suite F G R) (a : FinalizedAggregator F G) :
    Res F G (ThresholdSignature F G) :=
  match computeBindingFactors S a.messageHash a.state.signers with
  | .error f => .error f
  | .ok factors =>
    match computeGroupCommitment factors a.state.signers 0 with
    | .error e => .error (.err e)
    | .ok groupCommitment =>
      let challenge := computeChallenge S groupCommitment a.state.groupKey a.messageHash
      match sumPartials (G := G) a.state.partialSignatures a.state.signers 0 with
      | .error f => .error f
      | .ok z =>
        let signature : ThresholdSignature F G := ⟨groupCommitment, z⟩
        match signature.verify S a.state.groupKey a.messageHash with
        | .ok () => .ok signature
        | .error _ =>
          match culpritsLoop S a.state a.messageHash challenge a.state.signers with
          | .error f => .error f
          | .ok culprits => .error (.err (.misbehavingParticipants culprits))

end IceFrost
