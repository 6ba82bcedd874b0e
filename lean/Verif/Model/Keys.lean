import Verif.Model.SecretShare

/-! # `src/keys.rs` -/

namespace IceFrost

variable {F G R : Type} [Field F] [DecidableEq F] [AddCommGroup G] [Module F G] [DecidableEq G]

/-- `IndividualSigningKey::from_single_key`, `src/keys.rs:207-209`. -/
def IndividualSigningKey.fromSingleKey (key : F) : IndividualSigningKey F := ⟨1, key⟩

/-- `IndividualSigningKey::to_public`, `src/keys.rs:212-219`. -/
def IndividualSigningKey.toPublic (S : Suite F G R) (k : IndividualSigningKey F) : IndividualVerifyingKey G :=
  ⟨k.index, k.key • S.gen⟩

/-- The loop of `generate_from_commitments`, `src/keys.rs:164-176`. -/
def fromCommitmentsLoop (term : F) (indices : List U32) : List (VssCommitment G) → G → Out F G G
  | [], share => .ok share
  | c :: cs, share =>
    let tmp := hornerHidingLoop c.points.length term 0 c.points.reverse 0
    match lagrangeCoeff (G := G) c.index indices with
    | .error e => .error e
    | .ok (coeff : F) => fromCommitmentsLoop term indices cs (share + coeff • tmp)

/-- `IndividualVerifyingKey::generate_from_commitments`, `src/keys.rs:152-182`. -/
def generateFromCommitments (index : U32) (commitments : List (VssCommitment G)) :
    Out F G (IndividualVerifyingKey G) :=
  match fromCommitmentsLoop (u32F F index) (commitments.map (·.index)) commitments 0 with
  | .error e => .error e
  | .ok share => .ok ⟨index, share⟩

/-- The loop of `IndividualVerifyingKey::verify`, `src/keys.rs:107-124`. -/
def verifyKeyLoop (term : F) (indices : List U32) : List (VssCommitment G) → G → Out F G G
  | [], rhs => .ok rhs
  | c :: cs, rhs =>
    let tmp := hornerHidingLoop c.points.length term 0 c.points.reverse 0
    match lagrangeCoeff (G := G) c.index indices with
    | .error e => .error (.custom e.display)
    | .ok (coeff : F) => verifyKeyLoop term indices cs (rhs + coeff • tmp)

/-- `IndividualVerifyingKey::verify`, `src/keys.rs:95-131`. -/
def IndividualVerifyingKey.verify (F : Type) [Field F] [DecidableEq F] [Module F G]
    (k : IndividualVerifyingKey G) (commitments : List (VssCommitment G)) : Out F G Unit :=
  match verifyKeyLoop (u32F F k.index) (commitments.map (·.index)) commitments 0 with
  | .error e => .error e
  | .ok rhs => if k.share = rhs then .ok () else .error .shareVerificationError

end IceFrost
