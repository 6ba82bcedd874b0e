import Verif.Lemmas.Gf128

/-! # The field of AES

FIPS 197, section 4: bytes are polynomials over the field with two elements modulo `X ^ 8 + X ^ 4 + X ^ 3 + X + 1`, bit `i` is
the coefficient of `X ^ i`. -/

set_option linter.unusedSectionVars false
set_option linter.unusedSimpArgs false
set_option linter.unusedVariables false

namespace IceFrost

open Polynomial Finset

noncomputable def Spec.aesPoly : (ZMod 2)[X] := X ^ 8 + X ^ 4 + X ^ 3 + X + 1

/-- Polynomials modulo that one. -/
abbrev Spec.Gf8 : Type := AdjoinRoot Spec.aesPoly

noncomputable def Spec.bytePoly (b : UInt8) : (ZMod 2)[X] := ∑ i ∈ range 8, if b.toNat.testBit i then X ^ i else 0

/-- The element that a byte stands for. -/
noncomputable def Spec.byteElement (b : UInt8) : Spec.Gf8 := AdjoinRoot.mk _ (Spec.bytePoly b)

namespace Gf8

theorem two_eq : (2 : Spec.Gf8) = 0 := by
  have h : (AdjoinRoot.mk Spec.aesPoly) (1 + 1) = 0 := by rw [Gf.poly_add_self, map_zero]
  rw [map_add, map_one] at h
  rw [← h]
  norm_num

/-- A bit as an element. -/
noncomputable def bit (b : Bool) : Spec.Gf8 := if b then 1 else 0

theorem bit_xor (a b : Bool) : bit (a ^^ b) = bit a + bit b := by
  cases a <;> cases b <;> simp [bit]
  linear_combination -two_eq

theorem element_eq (b : UInt8) : Spec.byteElement b =
    ∑ i ∈ range 8, bit (b.toNat.testBit i) * AdjoinRoot.root Spec.aesPoly ^ i := by
  unfold Spec.byteElement Spec.bytePoly
  rw [map_sum]
  refine Finset.sum_congr rfl fun i _ => ?_
  unfold bit
  split
  · rw [map_pow, AdjoinRoot.mk_X, one_mul]
  · rw [map_zero, zero_mul]

theorem element_xor (a b : UInt8) : Spec.byteElement (a ^^^ b) = Spec.byteElement a + Spec.byteElement b := by
  rw [element_eq, element_eq, element_eq, ← Finset.sum_add_distrib]
  refine Finset.sum_congr rfl fun i _ => ?_
  rw [UInt8.toNat_xor, Nat.testBit_xor, bit_xor, add_mul]

theorem root_pow : AdjoinRoot.root Spec.aesPoly ^ 8 =
    AdjoinRoot.root Spec.aesPoly ^ 4 + AdjoinRoot.root Spec.aesPoly ^ 3 + AdjoinRoot.root Spec.aesPoly + 1 := by
  have h : AdjoinRoot.mk Spec.aesPoly (X ^ 8 + X ^ 4 + X ^ 3 + X + 1) = 0 := AdjoinRoot.mk_eq_zero.mpr (dvd_refl _)
  simp only [map_add, map_pow, AdjoinRoot.mk_X, map_one] at h
  linear_combination h - (AdjoinRoot.root Spec.aesPoly ^ 4 + AdjoinRoot.root Spec.aesPoly ^ 3 + AdjoinRoot.root Spec.aesPoly + 1) * two_eq

/-- A statement about bytes is one about 256 numbers. -/
theorem all_bytes {p : UInt8 → Prop} (h : ∀ n : Fin 256, p (UInt8.ofNat n)) (b : UInt8) : p b := by
  have := h ⟨b.toNat, b.toNat_lt⟩
  simpa using this

theorem xtime_bits (b : UInt8) : (∀ i ∈ ([0, 1, 3, 4] : List ℕ), (Aes.xtime b).toNat.testBit i =
      ((decide (i ≠ 0) && b.toNat.testBit (i - 1)) ^^ b.toNat.testBit 7)) ∧
    ∀ i ∈ ([2, 5, 6, 7] : List ℕ), (Aes.xtime b).toNat.testBit i = b.toNat.testBit (i - 1) := by
  revert b
  refine all_bytes ?_
  decide +kernel

theorem element_xtime (b : UInt8) : Spec.byteElement (Aes.xtime b) = AdjoinRoot.root Spec.aesPoly * Spec.byteElement b := by
  obtain ⟨h1, h2⟩ := xtime_bits b
  simp only [List.mem_cons, List.not_mem_nil, or_false, forall_eq_or_imp, forall_eq] at h1 h2
  obtain ⟨b0, b1, b3, b4⟩ := h1
  obtain ⟨b2, b5, b6, b7⟩ := h2
  rw [element_eq, element_eq]
  simp only [Finset.sum_range_succ, Finset.sum_range_zero, b0, b1, b2, b3, b4, b5, b6, b7, bit_xor]
  have hf : bit false = 0 := rfl
  simp only [ne_eq, not_true_eq_false, decide_false, Bool.false_and, hf, one_ne_zero, not_false_eq_true, decide_true, Bool.true_and,
    Nat.sub_self, Nat.reduceSub, OfNat.ofNat_ne_zero, zero_add, pow_zero, pow_one]
  linear_combination (-bit (b.toNat.testBit 7)) * root_pow

/-! ### Different bytes are different elements -/

theorem aes_monic : Spec.aesPoly.Monic := by
  unfold Spec.aesPoly
  monicity!

theorem aes_degree : Spec.aesPoly.natDegree = 8 := by
  unfold Spec.aesPoly
  compute_degree!

theorem bytePoly_coeff (b : UInt8) (i : ℕ) (hi : i < 8) : (Spec.bytePoly b).coeff i = if b.toNat.testBit i then 1 else 0 := by
  unfold Spec.bytePoly
  rw [finsetSum_coeff, Finset.sum_eq_single i]
  · split
    · rw [coeff_X_pow, if_pos rfl]
    · rw [coeff_zero]
  · intro j _ hne
    split
    · rw [coeff_X_pow, if_neg (Ne.symm hne)]
    · rw [coeff_zero]
  · intro h
    exact absurd (Finset.mem_range.mpr hi) h

theorem bytePoly_degree (b : UInt8) : (Spec.bytePoly b).degree < Spec.aesPoly.degree := by
  rw [degree_eq_natDegree aes_monic.ne_zero, aes_degree]
  unfold Spec.bytePoly
  refine lt_of_le_of_lt (degree_sum_le _ _) ((Finset.sup_lt_iff (WithBot.bot_lt_coe _)).mpr fun i hi => ?_)
  have := Finset.mem_range.mp hi
  split
  · rw [degree_X_pow]
    exact_mod_cast this
  · rw [degree_zero]
    exact WithBot.bot_lt_coe _

theorem element_injective {a b : UInt8} (h : Spec.byteElement a = Spec.byteElement b) : a = b := by
  unfold Spec.byteElement at h
  rw [AdjoinRoot.mk_eq_mk] at h
  have h0 : Spec.bytePoly a - Spec.bytePoly b = 0 :=
    eq_zero_of_dvd_of_degree_lt h (lt_of_le_of_lt (degree_sub_le _ _) (max_lt (bytePoly_degree a) (bytePoly_degree b)))
  refine UInt8.toNat.inj (Nat.eq_of_testBit_eq fun i => ?_)
  rcases Nat.lt_or_ge i 8 with hi | hi
  · have h1 := congrArg (fun p => p.coeff i) (sub_eq_zero.mp h0)
    simp only [bytePoly_coeff _ _ hi] at h1
    cases ha : a.toNat.testBit i <;> cases hb : b.toNat.testBit i <;> simp_all
  · have hl : ∀ c : UInt8, c.toNat.testBit i = false := fun c =>
      Nat.testBit_lt_two_pow (lt_of_lt_of_le c.toNat_lt (Nat.pow_le_pow_right (by norm_num) hi))
    rw [hl, hl]

end Gf8

end IceFrost
