import Verif.Toy
import Verif.Lemmas.Base
import Verif.Model.Utils

/-! # C01: threshold parameters -/

set_option linter.unusedSectionVars false
set_option linter.unusedSimpArgs false

namespace IceFrost

variable {F G : Type}

/-- C01, acceptance: `ThresholdParameters::new(n, t)` returns a value exactly when `n ≠ 0`, `t ≠ 0`, `t ≤ n`, and
then it is `(n, t)` — in debug and release builds alike. -/
theorem C01_params_accepted (dbg : Bool) (n t : U32) (p : Params) :
    (Params.new dbg n t : Res F G Params) = .ok p ↔ (n ≠ 0 ∧ t ≠ 0 ∧ t.toNat ≤ n.toNat) ∧ p = ⟨n, t⟩ := by
  unfold Params.new
  have hle : t ≤ n ↔ t.toNat ≤ n.toNat := UInt32.le_iff_toNat_le
  have hlt : n < t ↔ ¬ t.toNat ≤ n.toNat := by rw [UInt32.lt_iff_toNat_lt]; omega
  cases dbg <;> by_cases h1 : n = 0 <;> by_cases h2 : t = 0 <;> by_cases h3 : t.toNat ≤ n.toNat <;>
    simp [h1, h2, h3, hle, hlt] <;> exact ⟨Eq.symm, Eq.symm⟩

/-- C01, rejection: in every other case a release build returns `Err(InvalidThresholdParams)` and a debug build
panics in a `debug_assert!`. -/
theorem C01_params_rejected (dbg : Bool) (n t : U32) (h : ¬ (n ≠ 0 ∧ t ≠ 0 ∧ t.toNat ≤ n.toNat)) :
    (Params.new dbg n t : Res F G Params) =
      .error (if dbg then .panic .debugAssert else .err .invalidThresholdParams) := by
  unfold Params.new
  have hle : t ≤ n ↔ t.toNat ≤ n.toNat := UInt32.le_iff_toNat_le
  have hlt : n < t ↔ ¬ t.toNat ≤ n.toNat := by rw [UInt32.lt_iff_toNat_lt]; omega
  cases dbg <;> by_cases h1 : n = 0 <;> by_cases h2 : t = 0 <;> by_cases h3 : t.toNat ≤ n.toNat <;>
    simp [h1, h2, h3, hle, hlt] <;> simp_all

example : (Params.new true 5 3 : Res F G Params) = .ok ⟨5, 3⟩ :=
  (C01_params_accepted true 5 3 _).mpr ⟨⟨by decide, by decide, by decide⟩, rfl⟩
example : (Params.new false 2 3 : Res F G Params) = .error (.err .invalidThresholdParams) :=
  C01_params_rejected false 2 3 (by decide)

end IceFrost
