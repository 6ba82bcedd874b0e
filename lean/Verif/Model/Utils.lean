import Verif.Model.Codec

/-! # `src/parameters.rs`, `src/utils.rs`, `src/ciphersuite.rs` -/

namespace IceFrost

variable {F G R : Type}

/-- `ThresholdParameters::new`, `src/parameters.rs:31-43`. `dbg` = debug assertions enabled. -/
def Params.new (dbg : Bool) (n t : U32) : Res F G Params :=
  if dbg && !(n != 0) then .error (.panic .debugAssert)
  else if dbg && !(t != 0) then .error (.panic .debugAssert)
  else if dbg && !(t ≤ n) then .error (.panic .debugAssert)
  else if n == 0 || t == 0 || n < t then .error (.err .invalidThresholdParams)
  else .ok ⟨n, t⟩

section
variable [Field F] [DecidableEq F]

/-- The body of the loop of `calculate_lagrange_coefficients`, `src/utils.rs:62-70`:
the pair (numerator, denominator) after processing index `j`. -/
def lagrangeStep (myIndex : U32) (acc : F × F) (j : U32) : F × F :=
  if j = myIndex then acc
  else (acc.1 * u32F F j, acc.2 * (u32F F j - u32F F myIndex))

/-- `calculate_lagrange_coefficients`, `src/utils.rs:42-77`. -/
def lagrangeCoeff (myIndex : U32) (allIndices : List U32) : Out F G F :=
  let sorted := dedupByKey id (sortByKey id allIndices)
  if sorted.length ≠ allIndices.length then .error (.custom "Duplicate indices provided")
  else if 0 ∈ sorted then .error .indexIsZero
  else
    let nd := sorted.foldl (lagrangeStep myIndex) (1, 1)
    if nd.2 = 0 then .error (.custom "Duplicate indices provided")
    else .ok (nd.1 * nd.2⁻¹)

end

/-- `VariableBaseMSM::msm` as called by the crate: fails when the lengths differ, otherwise the sum of the
scaled bases. (ark-ec; `src/dkg/nizkpok.rs:66`, `src/keys.rs:254`, `src/sign/signature.rs:700`.) -/
def msm [Field F] [AddCommGroup G] [Module F G] (bases : List G) (scalars : List F) : Option G :=
  if bases.length = scalars.length then some ((List.zipWith (fun b s => s • b) bases scalars).sum)
  else none

namespace Suite
variable (S : Suite F G R)

/-- `hash_to_array`, `src/utils.rs:87-99`: digest of context followed by message. -/
def hashToArray (ctx msg : Bytes) : Bytes := S.digest (ctx ++ msg)

/-- `h0`, `src/ciphersuite.rs:56-58`. -/
def h0 (m : Bytes) : F := S.fieldHash (S.contextString ++ strBytes "nizkpok") m
/-- `h1`, `src/ciphersuite.rs:67-69`. -/
def h1 (m : Bytes) : F := S.fieldHash (S.contextString ++ strBytes "rho") m
/-- `h2`, `src/ciphersuite.rs:78-80`. -/
def h2 (m : Bytes) : F := S.fieldHash (S.contextString ++ strBytes "challenge") m
/-- `h3`, `src/ciphersuite.rs:89-91`. -/
def h3 (m : Bytes) : F := S.fieldHash (S.contextString ++ strBytes "nonce") m
/-- `h4`, `src/ciphersuite.rs:103-105`. -/
def h4 (m : Bytes) : Bytes := S.hashToArray (S.contextString ++ strBytes "message") m
/-- `h5`, `src/ciphersuite.rs:114-116`. -/
def h5 (m : Bytes) : Bytes := S.hashToArray (S.contextString ++ strBytes "commitment") m

end Suite

end IceFrost
