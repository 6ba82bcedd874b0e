import Verif.Toy
import Verif.Lemmas.RoundOne

/-! # C16–C17: creating participants -/

set_option linter.unusedSectionVars false

namespace IceFrost

variable {F G R : Type} [Field F] [DecidableEq F] [AddCommGroup G] [Module F G] [DecidableEq G]

/-- C16: index 0 is rejected. -/
theorem C16_new_dealer_zero (S : Suite F G R) (params : Params) (rng : R) :
    newDealer S params 0 rng = .error (.err .indexIsZero) := by
  unfold newDealer
  rw [newInternal_dealer_eq, if_pos rfl]

/-- C16: any other index gives a well-formed dealer: its index, `t` coefficients, `t` commitment points which are
`g` to these coefficients, a matching DH key pair and two proofs that verify. -/
theorem C16_new_dealer (S : Suite F G R) (params : Params) (ht : params.t ≠ 0) (i : U32) (hi : i ≠ 0) (rng : R) :
    ∃ (p : Participant F G) (cs : List F) (dh : F), newDealer S params i rng = .ok (p, cs, dh) ∧
      p.index = i ∧ cs.length = params.t.toNat ∧
      p.commitments = some ⟨i, cs.map (· • S.gen)⟩ ∧ p.dhPublicKey = dh • S.gen ∧
      nizkVerify S p.proofOfDhPrivateKey i p.dhPublicKey = .ok () ∧
      ∃ pf, p.proofOfSecretKey = some pf ∧ nizkVerify S pf i (cs.headD 0 • S.gen) = .ok () := by
  obtain ⟨p, cs, dh, rng', h, h1, h2, _, h4, h5, h6⟩ := newInternal_dealer S params ht i hi none rng
  refine ⟨p, cs, dh, by unfold newDealer; rw [h], h1, h2, h4, h5, ?_, ?_⟩
  · rw [nizkVerify_ok_iff, ← h1]; exact h6.1
  · obtain ⟨_, c, pk, pf, k1, k2, k3, k4⟩ := h6
    refine ⟨pf, k3, ?_⟩
    rw [h4] at k1
    cases k1
    rw [nizkVerify_ok_iff, ← h1]
    cases cs with
    | nil => simp [commitPoints] at k2
    | cons a as =>
      simp only [commitPoints, List.map_cons, List.head?_cons, Option.some.injEq] at k2
      rw [List.headD_cons, k2]; exact k4

/-- C16: `IndexIsZero` is returned exactly for index 0 (sound parameters). -/
theorem C16_index_zero_iff (S : Suite F G R) (params : Params) (ht : params.t ≠ 0) (i : U32) (rng : R) :
    newDealer S params i rng = .error (.err .indexIsZero) ↔ i = 0 := by
  constructor
  · intro h
    by_contra hi
    obtain ⟨p, cs, dh, h', _⟩ := C16_new_dealer S params ht i hi rng
    rw [h'] at h; cases h
  · rintro rfl; exact C16_new_dealer_zero S params rng

/-- Parameters with threshold 0, which only deserialization can produce (C75), make `new_dealer` panic. -/
theorem C16_zero_threshold_panics (S : Suite F G R) (n : U32) (i : U32) (hi : i ≠ 0) (rng : R) :
    newDealer S ⟨n, 0⟩ i rng = .error (.panic .expectNone) := by
  unfold newDealer
  rw [newInternal_dealer_eq, if_neg hi]
  rfl

/-- C17: index 0 is rejected. -/
theorem C17_new_signer_zero (S : Suite F G R) (params : Params) (rng : R) :
    newSigner S params 0 rng = .error (.err .indexIsZero) := rfl

/-- C17: any other index gives a signer without commitments or proof of secret key, whose DH proof verifies. -/
theorem C17_new_signer (S : Suite F G R) (params : Params) (i : U32) (hi : i ≠ 0) (rng : R) :
    ∃ (p : Participant F G) (dh : F), newSigner S params i rng = .ok (p, dh) ∧ p.index = i ∧
      p.commitments = none ∧ p.proofOfSecretKey = none ∧ p.dhPublicKey = dh • S.gen ∧
      nizkVerify S p.proofOfDhPrivateKey i p.dhPublicKey = .ok () := by
  obtain ⟨p, dh, rng', h, h1, h2, h3, h4, h5⟩ := newInternal_signer S params i hi none rng
  refine ⟨p, dh, by unfold newSigner; rw [h], h1, h2, h3, h4, ?_⟩
  rw [nizkVerify_ok_iff, ← h1]; exact h5

/-- C17: `IndexIsZero` exactly for index 0. -/
theorem C17_index_zero_iff (S : Suite F G R) (params : Params) (i : U32) (rng : R) :
    newSigner S params i rng = .error (.err .indexIsZero) ↔ i = 0 := by
  constructor
  · intro h
    by_contra hi
    obtain ⟨p, dh, h', _⟩ := C17_new_signer S params i hi rng
    rw [h'] at h; cases h
  · rintro rfl; rfl

section Examples
open Toy
example : ∃ p cs dh, newDealer suite ⟨3, 2⟩ 1 0 = .ok (p, cs, dh) ∧ cs.length = 2 :=
  (C16_new_dealer suite ⟨3, 2⟩ (by decide) 1 (by decide) 0).imp fun _ h => h.imp fun _ h => h.imp fun _ h =>
    ⟨h.1, h.2.2.1⟩
example : ∃ p dh, newSigner suite ⟨3, 2⟩ 1 0 = .ok (p, dh) ∧ p.commitments = none :=
  (C17_new_signer suite ⟨3, 2⟩ 1 (by decide) 0).imp fun _ h => h.imp fun _ h => ⟨h.1, h.2.2.1⟩
end Examples

end IceFrost
