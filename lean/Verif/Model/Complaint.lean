import Verif.Model.SecretShare

/-! # `src/dkg/complaint.rs` -/

namespace IceFrost

variable {F G R : Type} [Field F] [DecidableEq F] [AddCommGroup G] [Module F G] [DecidableEq G]

/-- The message hashed by `Complaint::new` (lines 59-77) and `Complaint::verify` (lines 105-126). -/
def complaintMessage (S : Suite F G R) (dhPk accusedPk shared a1 a2 : G) (e : EncShare) : Bytes :=
  S.encG dhPk ++ S.encG accusedPk ++ S.encG shared ++ S.encG a1 ++ S.encG a2 ++ (encShareCodec S).enc e

/-- The complaint challenge, `src/dkg/complaint.rs:52-54,79` and `100-102,128`. -/
def complaintHash (S : Suite F G R) (msg : Bytes) : F :=
  S.sha256FieldHash (strBytes "Complaint Context") msg

/-- `Complaint::new`, `src/dkg/complaint.rs:40-91`. Also returns the RNG state. -/
def Complaint.new (S : Suite F G R) (accusedPk : G) (dhSkey : F) (shared : G) (e : EncShare) (rng : R) :
    Complaint F G × R :=
  let (r, rng) := S.randScalar rng
  let a1 := r • S.gen
  let a2 := r • accusedPk
  let dhPk := dhSkey • S.gen
  let h := complaintHash S (complaintMessage S dhPk accusedPk shared a1 a2 e)
  (⟨shared, dhPk, e, ⟨a1, a2, r + h * dhSkey⟩⟩, rng)

/-- `Complaint::verify`, `src/dkg/complaint.rs:99-139`. -/
def Complaint.verify (S : Suite F G R) (c : Complaint F G) (pkL : G) : Out F G Unit :=
  let h := complaintHash S
    (complaintMessage S c.dhPublicKey pkL c.dhSharedKey c.proof.a1 c.proof.a2 c.encShare)
  if c.proof.a1 + h • c.dhPublicKey ≠ c.proof.z • S.gen then .error .complaintVerificationError
  else if c.proof.a2 + h • c.dhSharedKey ≠ c.proof.z • pkL then .error .complaintVerificationError
  else .ok ()

end IceFrost
