import Verif.Model.KeyGeneration

/-! # `src/dkg/participant.rs` -/

namespace IceFrost

variable {F G R : Type} [Field F] [DecidableEq F] [AddCommGroup G] [Module F G] [DecidableEq G]

/-- `k` calls of `Scalar::rand`, `src/dkg/participant.rs:180-182`. -/
def randScalars (S : Suite F G R) : Nat → R → List F × R
  | 0, rng => ([], rng)
  | k + 1, rng =>
    let (a, rng) := S.randScalar rng
    let (as, rng) := randScalars S k rng
    (a :: as, rng)

/-- The loop `for j in 0..t { points.push(g * coefficients[j]) }`, `src/dkg/participant.rs:189-193`, for the
positions from `j` on: panics when the coefficient vector is too short. -/
def commitLoop (S : Suite F G R) (coeffs : List F) (j : Nat) : Nat → Res F G (List G)
  | 0 => .ok []
  | k + 1 =>
    match coeffs[j]? with
    | none => .error (.panic .outOfBounds)
    | some a =>
      match commitLoop S coeffs (j + 1) k with
      | .error f => .error f
      | .ok rest => .ok ((a • S.gen) :: rest)

/-- What `new_internal` returns. -/
abbrev NewParticipant (F G : Type) := Participant F G × Option (List F) × F

/-- `Participant::new_internal`, `src/dkg/participant.rs:128-220`. Also returns the RNG state. -/
def newInternal (S : Suite F G R) (parameters : Params) (isSigner : Bool) (index : U32) (secretKey : Option F)
    (rng : R) : Res F G (NewParticipant F G × R) :=
  if index = 0 then .error (.err .indexIsZero)
  else
    let t := parameters.t.toNat
    let (dhPrivateKey, rng) := S.randScalar rng
    let dhPublicKey := dhPrivateKey • S.gen
    let (proofDh, rng) := nizkProve S index dhPrivateKey dhPublicKey rng
    if isSigner then
      .ok ((⟨index, dhPublicKey, none, none, proofDh⟩, none, dhPrivateKey), rng)
    else
      let (a0, rng) := match secretKey with
        | some sk => (sk, rng)
        | none => S.randScalar rng
      let (as, rng) := randScalars S (t - 1) rng
      let coefficients := a0 :: as
      match commitLoop S coefficients 0 t with
      | .error f => .error f
      | .ok points =>
        let commitments : VssCommitment G := ⟨index, points⟩
        match commitments.publicKey with
        | none => .error (.panic .expectNone)
        | some pk =>
          let (proofSk, rng) := nizkProve S index a0 pk rng
          .ok ((⟨index, dhPublicKey, some commitments, some proofSk, proofDh⟩, some coefficients,
            dhPrivateKey), rng)

/-- `Participant::new_dealer`, `src/dkg/participant.rs:81-93`. -/
def newDealer (S : Suite F G R) (parameters : Params) (index : U32) (rng : R) :
    Res F G (Participant F G × List F × F) :=
  match newInternal S parameters false index none rng with
  | .error f => .error f
  | .ok ((dealer, some coeffs, dh), _) => .ok (dealer, coeffs, dh)
  | .ok ((_, none, _), _) => .error (.panic .expectNone)

/-- `Participant::new_signer`, `src/dkg/participant.rs:118-126`. -/
def newSigner (S : Suite F G R) (parameters : Params) (index : U32) (rng : R) :
    Res F G (Participant F G × F) :=
  match newInternal S parameters true index none rng with
  | .error f => .error f
  | .ok ((signer, _, dh), _) => .ok (signer, dh)

/-- `Participant::reshare`, `src/dkg/participant.rs:244-281`. -/
def reshare (S : Suite F G R) (dbg : Bool) (parameters : Params) (secretKey : IndividualSigningKey F)
    (signers : List (Participant F G)) (rng : R) :
    Res F G (Participant F G × BMap EncShare × ParticipantList F G) :=
  match newInternal S parameters false secretKey.index (some secretKey.key) rng with
  | .error f => .error f
  | .ok ((_, none, _), _) => .error (.panic .expectNone)
  | .ok ((dealer, some coeffs, dh), rng) =>
    match newStateInternal S dbg parameters dh secretKey.index (some coeffs) signers true false rng with
    | .error f => .error f
    | .ok ((st, lists), _) =>
      match st.theirEncryptedSecretShares with
      | .error e => .error (.err e)
      | .ok shares => .ok (dealer, shares, lists)

end IceFrost
