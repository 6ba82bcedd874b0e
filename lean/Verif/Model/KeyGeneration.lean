import Verif.Model.Nizk
import Verif.Model.Complaint

/-! # `src/dkg/key_generation.rs` -/

namespace IceFrost

variable {F G R : Type} [Field F] [DecidableEq F] [AddCommGroup G] [Module F G] [DecidableEq G]

/-- `Participant::public_key`, `src/dkg/participant.rs:286-288`. -/
def Participant.publicKey (p : Participant F G) : Option G := p.commitments.bind (·.publicKey)

/-- The mutable variables of the first loop of `new_state_internal`, `src/dkg/key_generation.rs:714-718`. -/
structure RoundOneAcc (F G : Type) where
  commitments : BMap (VssCommitment G)
  dhPublicKeys : BMap G
  valid : List (Participant F G)
  misbehaving : List U32
deriving DecidableEq

/-- `misbehaving_participants.push(p.index)`. -/
def RoundOneAcc.blame (acc : RoundOneAcc F G) (p : Participant F G) : RoundOneAcc F G :=
  { acc with misbehaving := acc.misbehaving ++ [p.index] }

/-- One iteration of the participant loop, `src/dkg/key_generation.rs:731-781`. -/
def checkParticipant (S : Suite F G R) (dbg : Bool) (parameters : Params) (fromDealer fromSigner : Bool)
    (acc : RoundOneAcc F G) (p : Participant F G) : Res F G (RoundOneAcc F G) :=
  match nizkVerify S p.proofOfDhPrivateKey p.index p.dhPublicKey with
  | .error _ => .ok (acc.blame p)
  | .ok () =>
    if fromSigner then
      match p.publicKey with
      | none => .ok (acc.blame p)
      | some publicKey =>
        match p.proofOfSecretKey with
        | none => .error (.panic .expectNone)
        | some proof =>
          match nizkVerify S proof p.index publicKey with
          | .error _ => .ok (acc.blame p)
          | .ok () =>
            match p.commitments with
            | none => .error (.panic .expectNone)
            | some commitments =>
              if fromDealer && !(commitments.checkDegree (F := F) parameters).toBool then .ok (acc.blame p)
              else .ok
                { acc with
                  valid := acc.valid ++ [p]
                  commitments := acc.commitments.insert p.index commitments
                  dhPublicKeys := acc.dhPublicKeys.insert p.index p.dhPublicKey }
    else if dbg && !fromDealer then .error (.panic .debugAssert)
    else .ok
      { acc with
        valid := acc.valid ++ [p]
        dhPublicKeys := acc.dhPublicKeys.insert p.index p.dhPublicKey }

/-- The share loop of `new_state_internal`, `src/dkg/key_generation.rs:832-849`. It runs over *all*
participants, including misbehaving ones. -/
def dealShares (S : Suite F G R) (dhPrivateKey : F) (myIndex : U32) (myCoefficients : Option (List F)) :
    List (Participant F G) → BMap EncShare → R → Res F G (BMap EncShare × R)
  | [], m, rng => .ok (m, rng)
  | p :: ps, m, rng =>
    match myCoefficients with
    | none => .error (.panic .expectNone)
    | some coeffs =>
      let share := evaluatePolynomial myIndex p.index coeffs
      let dhKey := dhPrivateKey • p.dhPublicKey
      match encryptShare S share (S.encG dhKey) rng with
      | .error e => .error (.err e)
      | .ok (enc, rng) => dealShares S dhPrivateKey myIndex myCoefficients ps (m.insert p.index enc) rng

/-- `a - b` on `u32`: debug builds panic on overflow, release builds wrap. -/
def u32Sub (dbg : Bool) (a b : U32) : Res F G U32 :=
  if dbg && a < b then .error (.panic .overflow) else .ok (a - b)

/-- `DKGParticipantList` built from the two vectors, `src/dkg/key_generation.rs:811-818, 877-884`. -/
def participantList (valid : List (Participant F G)) (misbehaving : List U32) : ParticipantList F G :=
  ⟨valid, if misbehaving.isEmpty then none else some misbehaving⟩

/-- `new_state_internal`, `src/dkg/key_generation.rs:704-886`. Also returns the RNG state. -/
def newStateInternal (S : Suite F G R) (dbg : Bool) (parameters : Params) (dhPrivateKey : F) (myIndex : U32)
    (myCoefficients : Option (List F)) (participants : List (Participant F G))
    (fromDealer fromSigner : Bool) (rng : R) : Res F G ((RoundOne F G × ParticipantList F G) × R) :=
  let dhPublicKey := dhPrivateKey • S.gen
  if participants.length ≠ parameters.n.toNat then
    .error (.err (.invalidNumberOfParticipants participants.length parameters.n))
  else
    match participants.foldlM (checkParticipant S dbg parameters fromDealer fromSigner) ⟨[], [], [], []⟩ with
    | .error f => .error f
    | .ok acc =>
      if acc.valid.length < parameters.t.toNat then
        .error (.err (.tooManyInvalidParticipants acc.misbehaving))
      else if !fromDealer && fromSigner then
        match u32Sub dbg parameters.n (UInt32.ofNat acc.misbehaving.length) with
        | .error f => .error f
        | .ok n =>
          match Params.new dbg n parameters.t with
          | .error f => .error f
          | .ok parameters =>
            .ok ((⟨{ parameters := parameters, index := myIndex, dhPrivateKey := dhPrivateKey,
                     dhPublicKey := dhPublicKey, theirCommitments := some acc.commitments,
                     theirDhPublicKeys := acc.dhPublicKeys, theirEncryptedSecretShares := none,
                     mySecretShares := none }⟩, participantList acc.valid acc.misbehaving), rng)
      else
        match dealShares S dhPrivateKey myIndex myCoefficients participants [] rng with
        | .error f => .error f
        | .ok (shares, rng) =>
          match u32Sub dbg parameters.n (UInt32.ofNat acc.misbehaving.length) with
          | .error f => .error f
          | .ok n =>
            match Params.new dbg n parameters.t with
            | .error f => .error f
            | .ok parameters =>
              .ok ((⟨{ parameters := parameters, index := myIndex, dhPrivateKey := dhPrivateKey,
                       dhPublicKey := dhPublicKey,
                       theirCommitments := if fromSigner then some acc.commitments else none,
                       theirDhPublicKeys := acc.dhPublicKeys, theirEncryptedSecretShares := some shares,
                       mySecretShares := none }⟩, participantList acc.valid acc.misbehaving), rng)

/-- `DistributedKeyGeneration::<RoundOne, C>::bootstrap`, `src/dkg/key_generation.rs:640-658`. -/
def bootstrap (S : Suite F G R) (dbg : Bool) (parameters : Params) (dhPrivateKey : F) (myIndex : U32)
    (myCoefficients : List F) (participants : List (Participant F G)) (rng : R) :
    Res F G (RoundOne F G × ParticipantList F G) :=
  (newStateInternal S dbg parameters dhPrivateKey myIndex (some myCoefficients) participants true true
    rng).map Prod.fst

/-- `DistributedKeyGeneration::<RoundOne, C>::new`, `src/dkg/key_generation.rs:684-701`. -/
def dkgNew (S : Suite F G R) (dbg : Bool) (parameters : Params) (dhPrivateKey : F) (myIndex : U32)
    (dealers : List (Participant F G)) (rng : R) : Res F G (RoundOne F G × ParticipantList F G) :=
  (newStateInternal S dbg parameters dhPrivateKey myIndex none dealers false true rng).map Prod.fst

/-- `their_encrypted_secret_shares`, `src/dkg/key_generation.rs:890-897`. -/
def RoundOne.theirEncryptedSecretShares (d : RoundOne F G) : Out F G (BMap EncShare) :=
  match d.state.theirEncryptedSecretShares with
  | some m => .ok m
  | none => .error .noEncryptedShares

/-- The inner loop of `to_round_two`, `src/dkg/key_generation.rs:953-977`: goes through all commitments, and
at those of the share's sender pushes a complaint (and leaves the loop) if the share does not decrypt or does not
verify. -/
def complaintLoop (S : Suite F G R) (pk : G) (dhPrivateKey : F) (shared : G) (e : EncShare)
    (decrypted : Out F G (SecretShare F)) :
    List (U32 × VssCommitment G) → List (Complaint F G) → R → List (Complaint F G) × R
  | [], cs, rng => (cs, rng)
  | (index, commitment) :: rest, cs, rng =>
    if index = e.senderIndex then
      let bad := match decrypted with
        | .error _ => true
        | .ok share => match share.verify S commitment with
          | .error _ => true
          | .ok () => false
      if bad then
        let (c, rng) := Complaint.new S pk dhPrivateKey shared e rng
        (cs ++ [c], rng)
      else complaintLoop S pk dhPrivateKey shared e decrypted rest cs rng
    else complaintLoop S pk dhPrivateKey shared e decrypted rest cs rng

/-- The outer loop of `to_round_two`, `src/dkg/key_generation.rs:928-984`. -/
def roundTwoLoop (S : Suite F G R) (dbg : Bool) (st : DkgState F G) :
    List EncShare → BMap (SecretShare F) → List (Complaint F G) → R →
      Res F G (BMap (SecretShare F) × List (Complaint F G))
  | [], shares, cs, _ => .ok (shares, cs)
  | e :: es, shares, cs, rng =>
    if dbg && e.receiverIndex != st.index then .error (.panic .debugAssert)
    else
      match st.theirDhPublicKeys.get? e.senderIndex with
      | none => .error (.err (.custom
          "to_round_two() was called with encrypted secret shares containing invalid indices"))
      | some pk =>
        let shared := st.dhPrivateKey • pk
        let decrypted : Out F G (SecretShare F) := decryptShare S e (S.encG shared)
        match st.theirCommitments with
        | none => .error (.panic .expectNone)
        | some comms =>
          let (cs, rng) := complaintLoop S pk st.dhPrivateKey shared e decrypted comms cs rng
          let shares := match decrypted with
            | .ok share => shares.insert share.senderIndex share
            | .error _ => shares
          roundTwoLoop S dbg st es shares cs rng

/-- `to_round_two`, `src/dkg/key_generation.rs:903-1000`. -/
def RoundOne.toRoundTwo (S : Suite F G R) (dbg : Bool) (d : RoundOne F G) (myShares : List EncShare) (rng : R) :
    Res F G (RoundTwo F G × List (Complaint F G)) :=
  let st := { d.state with theirEncryptedSecretShares := none }
  if myShares.length < st.parameters.t.toNat then .error (.err .missingShares)
  else
    match roundTwoLoop S dbg st myShares [] [] rng with
    | .error f => .error f
    | .ok (shares, complaints) =>
      match u32Sub dbg st.parameters.n (UInt32.ofNat complaints.length) with
      | .error f => .error f
      | .ok remaining =>
        if remaining < st.parameters.t then .error (.err (.complaint complaints))
        else .ok (⟨{ st with mySecretShares := some shares }⟩, complaints)

/-- The loop of `calculate_signing_key`, `src/dkg/key_generation.rs:1033-1042`: returns the result and the shares
as left in memory (consumed shares are zeroized). -/
def signingKeyLoop (indices : List U32) :
    List (U32 × SecretShare F) → F → Res F G F × List (U32 × SecretShare F)
  | [], key => (.ok key, [])
  | (index, share) :: rest, key =>
    match lagrangeCoeff (G := G) index indices with
    | .error e => (.error (.err (.custom e.display)), (index, share) :: rest)
    | .ok coeff =>
      let (r, rest') := signingKeyLoop indices rest (key + share.eval * coeff)
      (r, (index, ⟨0, 0, 0⟩) :: rest')

/-- `calculate_signing_key`, `src/dkg/key_generation.rs:1022-1048`: result and state after the call. -/
def RoundTwo.calculateSigningKey (d : RoundTwo F G) : Res F G (IndividualSigningKey F) × RoundTwo F G :=
  match d.state.mySecretShares with
  | none => (.error (.panic .expectNone), d)
  | some shares =>
    let (r, shares') := signingKeyLoop (G := G) shares.keys shares 0
    (r.map fun key => ⟨d.state.index, key⟩, ⟨{ d.state with mySecretShares := some shares' }⟩)

/-- The loop of `calculate_group_key`, `src/dkg/key_generation.rs:1068-1080`. -/
def groupKeyLoop (indices : List U32) : List (U32 × VssCommitment G) → G → Res F G G
  | [], acc => .ok acc
  | (index, commitment) :: rest, acc =>
    match lagrangeCoeff (F := F) (G := G) index indices with
    | .error e => .error (.err e)
    | .ok coeff =>
      match commitment.publicKey with
      | none => .error (.panic .expectNone)
      | some pk => groupKeyLoop indices rest (acc + coeff • pk)

/-- `calculate_group_key`, `src/dkg/key_generation.rs:1055-1083`. -/
def RoundTwo.calculateGroupKey (d : RoundTwo F G) : Res F G G :=
  match d.state.theirCommitments with
  | none => .error (.err .invalidGroupKey)
  | some comms => groupKeyLoop comms.keys comms 0

/-- `finish`, `src/dkg/key_generation.rs:1012-1017`. -/
def RoundTwo.finish (d : RoundTwo F G) : Res F G (G × IndividualSigningKey F) :=
  match d.calculateSigningKey with
  | (.error f, _) => .error f
  | (.ok sk, d) =>
    match d.calculateGroupKey with
    | .error f => .error f
    | .ok gk => .ok (gk, sk)

/-- The verdict of `blame` on one complaint: the index pushed to `pending_removals`,
`src/dkg/key_generation.rs:1118-1169`. -/
def judge (S : Suite F G R) (st : DkgState F G) (c : Complaint F G) : Res F G U32 :=
  let accused := c.encShare.senderIndex
  let maker := c.encShare.receiverIndex
  if accused = 0 ∨ accused > st.parameters.n then .ok maker
  else
    match st.theirCommitments with
    | none => .error (.panic .expectNone)
    | some comms =>
      match comms.get? accused with
      | none => .ok maker
      | some commitment =>
        let pk := match st.theirDhPublicKeys.get? accused with
          | none => 0
          | some pk => pk
        match c.verify S pk with
        | .error _ => .ok maker
        | .ok () =>
          match decryptShare S c.encShare (S.encG c.dhSharedKey) with
          | .error _ => .ok accused
          | .ok share =>
            match share.verify S commitment with
            | .ok () => .ok maker
            | .error _ => .ok accused

/-- `remove_malicious`, `src/dkg/key_generation.rs:1098-1114`. -/
def removeMalicious (st : DkgState F G) (idx : U32) : Res F G (DkgState F G) :=
  match st.theirCommitments with
  | none => .error (.panic .expectNone)
  | some comms =>
    match st.mySecretShares with
    | none => .error (.panic .expectNone)
    | some shares =>
      .ok { st with theirCommitments := some (comms.remove idx), mySecretShares := some (shares.remove idx) }

/-- `blame`, `src/dkg/key_generation.rs:1097-1184`: the updated state and the returned DH public keys. -/
def RoundTwo.blame (S : Suite F G R) (d : RoundTwo F G) (complaints : List (Complaint F G)) :
    Res F G (RoundTwo F G × List G) :=
  match complaints.mapM (judge S d.state) with
  | .error f => .error f
  | .ok verdicts =>
    let pending := dedupByKey id (sortByKey id verdicts)
    match pending.foldlM removeMalicious d.state with
    | .error f => .error f
    | .ok st => .ok (⟨st⟩, pending.filterMap fun i => st.theirDhPublicKeys.get? i)

end IceFrost
