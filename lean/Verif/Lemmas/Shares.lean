import Verif.Lemmas.Algebra
import Verif.Lemmas.Suite
import Verif.Model.SecretShare

/-! # Shares, commitments, encryption -/

set_option linter.unusedSectionVars false
set_option linter.unusedSimpArgs false

namespace IceFrost

open Finset Polynomial

variable {F G R : Type} [Field F] [DecidableEq F] [AddCommGroup G] [Module F G] [DecidableEq G]

theorem evaluatePolynomial_eq (i j : U32) (cs : List F) :
    evaluatePolynomial i j cs = ⟨i, j, Spec.polyEval cs (u32F F j)⟩ := by
  simp [evaluatePolynomial, horner_eq]

theorem evaluateHiding_eq (c : VssCommitment G) (x : F) : c.evaluateHiding x = Spec.pointEval c.points x :=
  hornerHiding_eq x c.points

/-- The commitment points of a coefficient vector. -/
def commitPoints (S : Suite F G R) (cs : List F) : List G := cs.map (· • S.gen)

theorem pointEval_commitPoints (S : Suite F G R) (cs : List F) (x : F) :
    Spec.pointEval (commitPoints S cs) x = Spec.polyEval cs x • S.gen :=
  Spec.pointEval_map_smul cs S.gen x

theorem exists_coeffs {S : Suite F G R} (h : S.GroupLaws) (ps : List G) :
    ∃ cs : List F, ps = commitPoints S cs := by
  induction ps with
  | nil => exact ⟨[], rfl⟩
  | cons p ps ih =>
    obtain ⟨cs, rfl⟩ := ih
    obtain ⟨a, rfl⟩ := h.gen_surj p
    exact ⟨a :: cs, rfl⟩

theorem commitPoints_length (S : Suite F G R) (cs : List F) : (commitPoints S cs).length = cs.length := by
  simp [commitPoints]

theorem commitPoints_inj {S : Suite F G R} (h : S.GroupLaws) {cs cs' : List F}
    (he : commitPoints S cs = commitPoints S cs') : cs = cs' :=
  List.map_injective_iff.mpr (fun a b e => h.gen_inj a b e) he

theorem verify_ok_iff (S : Suite F G R) (s : SecretShare F) (c : VssCommitment G) :
    s.verify S c = .ok () ↔ s.eval • S.gen = Spec.pointEval c.points (u32F F s.receiverIndex) := by
  unfold SecretShare.verify
  rw [evaluateHiding_eq]
  split <;> simp_all

theorem verify_cases (S : Suite F G R) (s : SecretShare F) (c : VssCommitment G) :
    s.verify S c = if s.eval • S.gen = Spec.pointEval c.points (u32F F s.receiverIndex) then .ok ()
      else .error .shareVerificationError := by
  unfold SecretShare.verify
  rw [evaluateHiding_eq]

theorem encryptShare_ok {S : Suite F G R} (hc : S.CipherLaws) (hd : S.CodecLaws) (share : SecretShare F)
    (ikm : Bytes) (rng : R) :
    ∃ e rng', encryptShare S share ikm rng = .ok (e, rng') ∧ e.senderIndex = share.senderIndex ∧
      e.receiverIndex = share.receiverIndex ∧ e.nonce.length = S.nonceSize ∧
      decryptShare S e ikm = .ok share := by
  obtain ⟨key, hk⟩ := hc.kdf_ok ikm
  obtain ⟨ct, h1, h2⟩ := hc.aead_ok ikm key (S.randBytes S.nonceSize rng).1 (S.encF share.eval) hk
    (hc.randBytes_length _ _)
  refine ⟨⟨share.senderIndex, share.receiverIndex, (S.randBytes S.nonceSize rng).1, ct⟩,
    (S.randBytes S.nonceSize rng).2, ?_, rfl, rfl, hc.randBytes_length _ _, ?_⟩
  · simp [encryptShare, hk, h1]
  · simp [decryptShare, hk, h2, hd.decF_encF']

/-- Labels of a decrypted share are those of the ciphertext. -/
theorem decryptShare_labels {S : Suite F G R} {e : EncShare} {ikm : Bytes} {s : SecretShare F}
    (h : decryptShare S e ikm = .ok s) : s.senderIndex = e.senderIndex ∧ s.receiverIndex = e.receiverIndex := by
  unfold decryptShare at h
  split at h
  · cases h
  · split at h
    · cases h
    · split at h
      · cases h
      · cases h; exact ⟨rfl, rfl⟩

/-! ### Polynomials vanishing at given indices -/

/-- The polynomial `∏_{j ∈ l} (1 - X / j)`. -/
noncomputable def maskPoly (F : Type) [Field F] (l : List U32) : F[X] :=
  ∏ j ∈ l.toFinset, (1 - C (u32F F j)⁻¹ * X)

theorem maskPoly_zero (l : List U32) : (maskPoly F l).eval 0 = 1 := by
  simp [maskPoly, eval_prod]

theorem u32F_ne_zero (hu : Suite.U32Inj F) {j : U32} (h : j ≠ 0) : u32F F j ≠ 0 := by
  intro he
  exact h (hu j 0 (by rw [he]; simp [u32F]))

theorem maskPoly_root (hu : Suite.U32Inj F) {l : List U32} (h0 : 0 ∉ l) {j : U32} (hj : j ∈ l) :
    (maskPoly F l).eval (u32F F j) = 0 := by
  rw [maskPoly, eval_prod]
  refine prod_eq_zero (List.mem_toFinset.mpr hj) ?_
  have : u32F F j ≠ 0 := u32F_ne_zero hu (by rintro rfl; exact h0 hj)
  simp [this]

theorem maskPoly_degree (l : List U32) : (maskPoly F l).degree ≤ l.length := by
  rw [maskPoly]
  refine (degree_prod_le _ _).trans ?_
  refine (sum_le_card_nsmul _ _ (1 : WithBot ℕ) ?_).trans ?_
  · intro j _
    refine (degree_sub_le _ _).trans (max_le (by simp [degree_one_le.trans]) ?_)
    exact degree_C_mul_X_le _
  · rw [nsmul_one]
    exact_mod_cast l.toFinset_card_le

end IceFrost
