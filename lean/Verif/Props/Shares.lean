import Verif.Toy
import Verif.Lemmas.Shares

/-! # C05–C11: secret shares -/

set_option linter.unusedSectionVars false

namespace IceFrost

open Polynomial

variable {F G R : Type} [Field F] [DecidableEq F] [AddCommGroup G] [Module F G] [DecidableEq G]

/-- C05: the share for receiver `j` is `∑ a_k j^k`, tagged with the given indices. -/
theorem C05_share_value (i j : U32) (cs : List F) :
    (evaluatePolynomial i j cs).senderIndex = i ∧ (evaluatePolynomial i j cs).receiverIndex = j ∧
      (evaluatePolynomial i j cs).eval = ∑ k ∈ Finset.range cs.length, cs.getD k 0 * (j.toNat : F) ^ k := by
  rw [evaluatePolynomial_eq]
  exact ⟨rfl, rfl, rfl⟩

/-- C06: `evaluate_hiding(x)` on arbitrary points is `∑ x^k φ_k`. -/
theorem C06_evaluate_hiding (c : VssCommitment G) (x : F) :
    c.evaluateHiding x = ∑ k ∈ Finset.range c.points.length, x ^ k • c.points.getD k 0 :=
  evaluateHiding_eq c x

/-- C06: on the commitment to coefficients `a` it is `g^{f(x)}`. -/
theorem C06_evaluate_hiding_commitment (S : Suite F G R) (i : U32) (cs : List F) (x : F) :
    (VssCommitment.mk i (cs.map (· • S.gen))).evaluateHiding x =
      (∑ k ∈ Finset.range cs.length, cs.getD k 0 * x ^ k) • S.gen := by
  rw [evaluateHiding_eq]
  exact pointEval_commitPoints S cs x

/-- C07: a share is accepted against the commitment to coefficients `a` exactly when it is `f(receiver)`. -/
theorem C07_feldman_iff {S : Suite F G R} (hg : S.GroupLaws) (s : SecretShare F) (i : U32) (cs : List F) :
    s.verify S ⟨i, cs.map (· • S.gen)⟩ = .ok () ↔
      s.eval = ∑ k ∈ Finset.range cs.length, cs.getD k 0 * (s.receiverIndex.toNat : F) ^ k := by
  rw [verify_ok_iff]
  have := pointEval_commitPoints S cs (u32F F s.receiverIndex)
  rw [show cs.map (· • S.gen) = commitPoints S cs from rfl, this, hg.gen_inj_iff]
  rfl

/-- C07: whatever the commitment points are, exactly one value is acceptable for each receiver. -/
theorem C07_feldman_unique {S : Suite F G R} (hg : S.GroupLaws) (c : VssCommitment G) (sender receiver : U32) :
    ∃! v : F, (SecretShare.mk sender receiver v).verify S c = .ok () := by
  obtain ⟨cs, hcs⟩ := exists_coeffs (F := F) hg c.points
  refine ⟨Spec.polyEval cs (u32F F receiver), ?_, ?_⟩
  · beta_reduce
    rw [verify_ok_iff, hcs, pointEval_commitPoints]
  · intro v hv
    rw [verify_ok_iff, hcs, pointEval_commitPoints, hg.gen_inj_iff] at hv
    exact hv

/-- C08: encryption always succeeds and decryption under the same key returns the identical share, for every
random nonce. -/
theorem C08_encrypt_decrypt {S : Suite F G R} (hc : S.CipherLaws) (hd : S.CodecLaws) (share : SecretShare F)
    (key : Bytes) (rng : R) :
    ∃ e rng', encryptShare S share key rng = .ok (e, rng') ∧ decryptShare S e key = .ok share := by
  obtain ⟨e, rng', h1, _, _, _, h2⟩ := encryptShare_ok hc hd share key rng
  exact ⟨e, rng', h1, h2⟩

/-- C09: the holder of `xj` decrypts, with the key derived from the dealer's public key `g^xi`, what the dealer
encrypted with the key derived from `g^xj`, and obtains the dealer's polynomial at its index. -/
theorem C09_both_ends {S : Suite F G R} (hc : S.CipherLaws) (hd : S.CodecLaws) (i j : U32) (cs : List F)
    (xi xj : F) (rng : R) :
    ∃ e rng', encryptShare S (evaluatePolynomial i j cs) (S.encG (xi • (xj • S.gen))) rng = .ok (e, rng') ∧
      decryptShare S e (S.encG (xj • (xi • S.gen))) =
        .ok ⟨i, j, ∑ k ∈ Finset.range cs.length, cs.getD k 0 * (j.toNat : F) ^ k⟩ := by
  obtain ⟨e, rng', h1, _, _, _, h2⟩ :=
    encryptShare_ok hc hd (evaluatePolynomial i j cs) (S.encG (xi • (xj • S.gen))) rng
  refine ⟨e, rng', h1, ?_⟩
  rw [smul_comm xj xi, h2, evaluatePolynomial_eq]
  rfl

/-- C10, perfect secrecy: for fewer than `t` distinct non-zero receivers there is, for every shift `δ` of the
secret, a permutation of the coefficient vectors of length `t` that adds `δ` to the secret and leaves all the
receivers' shares unchanged.  Hence each candidate secret is compatible with the observed shares, and with exactly
as many coefficient vectors as any other. -/
theorem C10_secrecy_bijection (hu : Suite.U32Inj F) (t : Nat) (l : List U32) (h0 : 0 ∉ l) (ht : l.length < t)
    (δ : F) :
    ∃ f g : List F → List F, ∀ cs : List F, cs.length = t →
      (f cs).length = t ∧ (g cs).length = t ∧ g (f cs) = cs ∧ f (g cs) = cs ∧
      (f cs).headD 0 = cs.headD 0 + δ ∧
      ∀ i, ∀ j ∈ l, evaluatePolynomial i j (f cs) = evaluatePolynomial i j cs := by
  have hdeg : ∀ (d : F) (cs : List F), cs.length = t → (toPoly cs + C d * maskPoly F l).degree < t := by
    intro d cs hcs
    refine lt_of_le_of_lt (degree_add_le _ _) (max_lt ?_ ?_)
    · rw [← hcs]; exact toPoly_degree cs
    · rw [C_mul']
      exact lt_of_le_of_lt (degree_smul_le _ _) (lt_of_le_of_lt (maskPoly_degree l) (by exact_mod_cast ht))
  have key : ∀ (d : F) (cs : List F), cs.length = t →
      ofPoly t (toPoly (ofPoly t (toPoly cs + C d * maskPoly F l)) + C (-d) * maskPoly F l) = cs := by
    intro d cs hcs
    rw [toPoly_ofPoly _ _ (hdeg d cs hcs), ← hcs]
    conv_rhs => rw [← ofPoly_toPoly cs]
    congr 1
    simp
  refine ⟨fun cs => ofPoly t (toPoly cs + C δ * maskPoly F l),
    fun cs => ofPoly t (toPoly cs + C (-δ) * maskPoly F l), fun cs hcs => ?_⟩
  refine ⟨ofPoly_length _ _, ofPoly_length _ _, key δ cs hcs, ?_, ?_, ?_⟩
  · have := key (-δ) cs hcs
    rwa [neg_neg] at this
  · rw [← Spec.polyEval_zero, ofPoly_eval _ _ (hdeg δ cs hcs), eval_add, eval_mul, maskPoly_zero, toPoly_eval,
      Spec.polyEval_zero]
    simp
  · intro i j hj
    rw [evaluatePolynomial_eq, evaluatePolynomial_eq, ofPoly_eval _ _ (hdeg δ cs hcs), eval_add, eval_mul,
      maskPoly_root hu h0 hj, toPoly_eval]
    simp

/-- C10: every candidate secret explains the observed shares. -/
theorem C10_secrecy (hu : Suite.U32Inj F) (t : Nat) (l : List U32) (h0 : 0 ∉ l) (ht : l.length < t)
    (cs : List F) (hcs : cs.length = t) (s : F) :
    ∃ cs' : List F, cs'.length = t ∧ cs'.headD 0 = s ∧
      ∀ i, ∀ j ∈ l, evaluatePolynomial i j cs' = evaluatePolynomial i j cs := by
  obtain ⟨f, g, h⟩ := C10_secrecy_bijection hu t l h0 ht (s - cs.headD 0)
  obtain ⟨h1, _, _, _, h5, h6⟩ := h cs hcs
  exact ⟨f cs, h1, by rw [h5]; ring, h6⟩

/-- C11: two coefficient vectors of length at most `t` that give the same shares to `t` distinct receivers give the
same share to every receiver, and have the same secret. -/
theorem C11_shares_determine (hu : Suite.U32Inj F) (l : List U32) (hl : l.Nodup) (cs cs' : List F)
    (hc : cs.length ≤ l.length) (hc' : cs'.length ≤ l.length)
    (h : ∀ j ∈ l, ∀ i, evaluatePolynomial i j cs = evaluatePolynomial i j cs') :
    cs.headD 0 = cs'.headD 0 ∧ ∀ i j, evaluatePolynomial i j cs = evaluatePolynomial i j cs' := by
  have heq : toPoly cs = toPoly cs' := by
    refine eq_of_degrees_lt_of_eval_index_eq l.toFinset (u32F_injOn hu l.toFinset) ?_ ?_ ?_
    · refine lt_of_lt_of_le (toPoly_degree cs) ?_
      rw [List.toFinset_card_of_nodup hl]; exact_mod_cast hc
    · refine lt_of_lt_of_le (toPoly_degree cs') ?_
      rw [List.toFinset_card_of_nodup hl]; exact_mod_cast hc'
    · intro j hj
      have := h j (List.mem_toFinset.mp hj) 0
      rw [evaluatePolynomial_eq, evaluatePolynomial_eq] at this
      rw [toPoly_eval, toPoly_eval]
      exact congrArg SecretShare.eval this
  have hall : ∀ x, Spec.polyEval cs x = Spec.polyEval cs' x := fun x => by
    rw [← toPoly_eval, heq, toPoly_eval]
  refine ⟨?_, fun i j => ?_⟩
  · rw [← Spec.polyEval_zero, ← Spec.polyEval_zero, hall]
  · rw [evaluatePolynomial_eq, evaluatePolynomial_eq, hall]

/-- C10: with exactly `t - 1` receivers the explaining coefficient vector is unique. -/
theorem C10_secrecy_unique (hu : Suite.U32Inj F) (t : Nat) (l : List U32) (hl : l.Nodup) (h0 : 0 ∉ l)
    (ht : l.length + 1 = t) (cs : List F) (hcs : cs.length = t) (s : F) :
    ∃! cs' : List F, cs'.length = t ∧ cs'.headD 0 = s ∧
      ∀ i, ∀ j ∈ l, evaluatePolynomial i j cs' = evaluatePolynomial i j cs := by
  obtain ⟨cs', h1, h2, h3⟩ := C10_secrecy hu t l h0 (by omega) cs hcs s
  refine ⟨cs', ⟨h1, h2, h3⟩, ?_⟩
  rintro cs'' ⟨k1, k2, k3⟩
  have hn : (0 :: l).Nodup := List.nodup_cons.mpr ⟨h0, hl⟩
  have h := (C11_shares_determine hu (0 :: l) hn cs'' cs' (by simp; omega) (by simp; omega) ?_).2
  · have heq : toPoly cs'' = toPoly cs' := by
      refine eq_of_degrees_lt_of_eval_index_eq (0 :: l).toFinset (u32F_injOn hu _) ?_ ?_ ?_
      · refine lt_of_lt_of_le (toPoly_degree _) ?_
        rw [List.toFinset_card_of_nodup hn]; exact_mod_cast (by simp; omega)
      · refine lt_of_lt_of_le (toPoly_degree _) ?_
        rw [List.toFinset_card_of_nodup hn]; exact_mod_cast (by simp; omega)
      · intro j _
        have := h 0 j
        rw [evaluatePolynomial_eq, evaluatePolynomial_eq] at this
        rw [toPoly_eval, toPoly_eval]
        exact congrArg SecretShare.eval this
    rw [← ofPoly_toPoly cs'', ← ofPoly_toPoly cs', heq, k1, h1]
  · intro j hj i
    rcases List.mem_cons.mp hj with rfl | hj
    · rw [evaluatePolynomial_eq, evaluatePolynomial_eq]
      have hz : u32F F 0 = 0 := by simp [u32F]
      rw [hz, Spec.polyEval_zero, Spec.polyEval_zero, k2, h2]
    · rw [k3 i j hj, h3 i j hj]

section Examples
open Toy

example : (evaluatePolynomial 1 2 [(5 : Fp), 3, 1]).eval = 15 := by
  have h := (C05_share_value 1 2 [(5 : Fp), 3, 1]).2.2
  rw [h]; decide
example : (SecretShare.mk 1 2 (15 : Fp)).verify suite ⟨1, [(5 : Fp), 3, 1].map (· • suite.gen)⟩ = .ok () :=
  (C07_feldman_iff group_laws ⟨1, 2, 15⟩ 1 [5, 3, 1]).mpr (by decide)
example : (SecretShare.mk 1 2 (16 : Fp)).verify suite ⟨1, [(5 : Fp), 3, 1].map (· • suite.gen)⟩ ≠ .ok () :=
  fun h => absurd ((C07_feldman_iff group_laws ⟨1, 2, 16⟩ 1 [5, 3, 1]).mp h) (by decide)
example : ∃ e rng', encryptShare suite ⟨1, 2, 15⟩ [1, 2, 3] 0 = .ok (e, rng') ∧
    decryptShare suite e [1, 2, 3] = .ok ⟨1, 2, 15⟩ := C08_encrypt_decrypt cipher_laws codec_laws _ _ _
example : ∃ cs' : List Fp, cs'.length = 3 ∧ cs'.headD 0 = 99 ∧
    ∀ i, ∀ j ∈ [1, 2], evaluatePolynomial i j cs' = evaluatePolynomial i j [5, 3, 1] :=
  C10_secrecy u32_inj 3 [1, 2] (by decide) (by decide) [5, 3, 1] rfl 99
example : ∃! cs' : List Fp, cs'.length = 3 ∧ cs'.headD 0 = 99 ∧
    ∀ i, ∀ j ∈ [1, 2], evaluatePolynomial i j cs' = evaluatePolynomial i j [5, 3, 1] :=
  C10_secrecy_unique u32_inj 3 [1, 2] (by decide) (by decide) rfl [5, 3, 1] rfl 99
example : ([5, 3] : List Fp).headD 0 = ([5, 3, 0] : List Fp).headD 0 ∧
    ∀ i j, evaluatePolynomial i j ([5, 3] : List Fp) = evaluatePolynomial i j [5, 3, 0] :=
  C11_shares_determine u32_inj [1, 2, 3] (by decide) _ _ (by decide) (by decide)
    (fun j _ i => by
      rw [evaluatePolynomial_eq, evaluatePolynomial_eq]
      simp [Spec.polyEval, Finset.sum_range_succ])
end Examples

end IceFrost
