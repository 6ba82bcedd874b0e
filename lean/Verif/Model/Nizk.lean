import Verif.Model.Utils

/-! # `src/dkg/nizkpok.rs` -/

namespace IceFrost

variable {F G R : Type} [Field F] [DecidableEq F] [AddCommGroup G] [Module F G] [DecidableEq G]

/-- The message hashed by `prove` (lines 51-56) and `verify` (lines 75-81). -/
def nizkMessage (S : Suite F G R) (index : U32) (publicKey m : G) : Bytes :=
  u32le index ++ S.encG publicKey ++ S.encG m

/-- `NizkPokOfSecretKey::prove`, `src/dkg/nizkpok.rs:42-62`. Also returns the RNG state. -/
def nizkProve (S : Suite F G R) (index : U32) (secretKey : F) (publicKey : G) (rng : R) : Nizk F × R :=
  let (k, rng) := S.randScalar rng
  let m := k • S.gen
  let s := S.h0 (nizkMessage S index publicKey m)
  (⟨s, k + secretKey * s⟩, rng)

/-- `NizkPokOfSecretKey::verify`, `src/dkg/nizkpok.rs:65-90`. -/
def nizkVerify (S : Suite F G R) (p : Nizk F) (index : U32) (publicKey : G) : Out F G Unit :=
  match msm [S.gen, publicKey] [p.r, -p.s] with
  | none => .error .invalidMSMParameters
  | some retrieved =>
    if p.s = S.h0 (nizkMessage S index publicKey retrieved) then .ok ()
    else .error .invalidProofOfKnowledge

end IceFrost
