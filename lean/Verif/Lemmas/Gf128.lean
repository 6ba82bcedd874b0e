import Mathlib.FieldTheory.Finite.Extension
import Verif.Model.AesGcm

/-! # The field of the authentication tag

`Gcm.mul` computes in the field with `2 ^ 128` elements: its elements are polynomials over the field with two elements modulo
`X ^ 128 + X ^ 7 + X ^ 2 + X + 1`, written as numbers whose highest bit is the constant coefficient. That the polynomial is
irreducible is proved with `Gcm.mul` itself. -/

set_option linter.unusedSectionVars false
set_option linter.unusedSimpArgs false
set_option linter.unusedVariables false

set_option maxRecDepth 8000

namespace IceFrost

open Polynomial Finset

/-- SP 800-38D, section 6.3. -/
noncomputable def Spec.gcmPoly : (ZMod 2)[X] := X ^ 128 + X ^ 7 + X ^ 2 + X + 1

/-- Polynomials modulo that one. -/
abbrev Spec.Gf : Type := AdjoinRoot Spec.gcmPoly

/-- The polynomial that a block stands for: bit 127 is the constant coefficient. -/
noncomputable def Spec.blockPoly (n : ℕ) : (ZMod 2)[X] := ∑ i ∈ range 128, if n.testBit (127 - i) then X ^ i else 0

/-- The element that a block stands for. -/
noncomputable def Spec.element (n : ℕ) : Spec.Gf := AdjoinRoot.mk _ (Spec.blockPoly n)

namespace Gf

theorem poly_add_self (a : (ZMod 2)[X]) : a + a = 0 := by
  have : (1 + 1 : ZMod 2) = 0 := by decide
  rw [← two_mul, show (2 : (ZMod 2)[X]) = C (1 + 1) by rw [C_add, C_1]; norm_num, this, C_0, zero_mul]

theorem add_self (a : Spec.Gf) : a + a = 0 := by
  induction a using AdjoinRoot.induction_on with
  | ih p => rw [← map_add, poly_add_self, map_zero]

theorem sub_eq (a b : Spec.Gf) : a - b = a + b := by
  rw [sub_eq_iff_eq_add, add_assoc, add_self, add_zero]

theorem blockPoly_xor (a b : ℕ) : Spec.blockPoly (a ^^^ b) = Spec.blockPoly a + Spec.blockPoly b := by
  unfold Spec.blockPoly
  rw [← Finset.sum_add_distrib]
  refine Finset.sum_congr rfl fun i _ => ?_
  rw [Nat.testBit_xor]
  cases a.testBit (127 - i) <;> cases b.testBit (127 - i) <;> simp [poly_add_self]

theorem element_xor (a b : ℕ) : Spec.element (a ^^^ b) = Spec.element a + Spec.element b := by
  unfold Spec.element
  rw [blockPoly_xor, map_add]

theorem element_zero : Spec.element 0 = 0 := by
  unfold Spec.element Spec.blockPoly
  simp

theorem root_pow : (AdjoinRoot.root Spec.gcmPoly) ^ 128 =
    AdjoinRoot.root Spec.gcmPoly ^ 7 + AdjoinRoot.root Spec.gcmPoly ^ 2 + AdjoinRoot.root Spec.gcmPoly + 1 := by
  have h : AdjoinRoot.mk Spec.gcmPoly (X ^ 128 + X ^ 7 + X ^ 2 + X + 1) = 0 := AdjoinRoot.mk_eq_zero.mpr (dvd_refl _)
  simp only [map_add, map_pow, AdjoinRoot.mk_X, map_one] at h
  have h2 : AdjoinRoot.root Spec.gcmPoly ^ 128 - (AdjoinRoot.root Spec.gcmPoly ^ 7 + AdjoinRoot.root Spec.gcmPoly ^ 2 +
      AdjoinRoot.root Spec.gcmPoly + 1) = 0 := by
    rw [sub_eq, ← h]
    ring
  exact sub_eq_zero.mp h2

theorem element_sum (n : ℕ) : Spec.element n = ∑ i ∈ range 128,
    if n.testBit (127 - i) then AdjoinRoot.root Spec.gcmPoly ^ i else 0 := by
  unfold Spec.element Spec.blockPoly
  rw [map_sum]
  refine Finset.sum_congr rfl fun i _ => ?_
  split
  · rw [map_pow, AdjoinRoot.mk_X]
  · rw [map_zero]

/-- The step of the multiplication: a shift, with a reduction if a bit falls out. -/
def step (v : ℕ) : ℕ := if v % 2 = 0 then v / 2 else (v / 2) ^^^ (0xe1 * 2 ^ 120)

theorem step_lt {v : ℕ} (h : v < 2 ^ 128) : step v < 2 ^ 128 := by
  unfold step
  split
  · omega
  · exact Nat.xor_lt_two_pow (by omega) (by norm_num)

theorem element_half {v : ℕ} (h : v < 2 ^ 128) :
    Spec.element (v / 2) + (if v.testBit 0 then AdjoinRoot.root Spec.gcmPoly ^ 128 else 0) =
      AdjoinRoot.root Spec.gcmPoly * Spec.element v := by
  rw [element_sum, element_sum, Finset.mul_sum, Finset.sum_range_succ' _ 127, Finset.sum_range_succ _ 127]
  have h1 : (v / 2).testBit (127 - 0) = false := by
    rw [Nat.testBit_div_two]
    exact Nat.testBit_lt_two_pow (by simpa using h)
  rw [h1, if_neg (by simp), add_zero]
  congr 1
  · refine Finset.sum_congr rfl fun i hi => ?_
    have hi := Finset.mem_range.mp hi
    rw [Nat.testBit_div_two, show 127 - (i + 1) + 1 = 127 - i by omega]
    split
    · rw [pow_succ']
    · rw [mul_zero]
  · rw [show 127 - 127 = 0 from rfl]
    split
    · rw [← pow_succ']
    · rw [mul_zero]

theorem element_red : Spec.element (0xe1 * 2 ^ 120) = AdjoinRoot.root Spec.gcmPoly ^ 128 := by
  rw [element_sum, root_pow]
  have h : ∀ i ∈ range 128, (if (0xe1 * 2 ^ 120 : ℕ).testBit (127 - i) then AdjoinRoot.root Spec.gcmPoly ^ i else 0) =
      if i ∈ ({7, 2, 1, 0} : Finset ℕ) then AdjoinRoot.root Spec.gcmPoly ^ i else 0 := by
    intro i hi
    have hd : ∀ i ∈ range 128, (0xe1 * 2 ^ 120 : ℕ).testBit (127 - i) = decide (i ∈ ({7, 2, 1, 0} : Finset ℕ)) := by
      decide +kernel
    rw [hd i hi]
    simp only [decide_eq_true_eq]
  rw [Finset.sum_congr rfl h, Finset.sum_ite_mem, show range 128 ∩ {7, 2, 1, 0} = ({7, 2, 1, 0} : Finset ℕ) by decide]
  rw [Finset.sum_insert (by decide), Finset.sum_insert (by decide), Finset.sum_insert (by decide), Finset.sum_singleton,
    pow_zero, pow_one, add_assoc, add_assoc]

theorem element_step {v : ℕ} (h : v < 2 ^ 128) :
    Spec.element (step v) = AdjoinRoot.root Spec.gcmPoly * Spec.element v := by
  rw [← element_half h]
  unfold step
  rw [Nat.testBit_zero]
  by_cases hv : v % 2 = 0
  · rw [if_pos hv, if_neg (by simp [hv]), add_zero]
  · rw [if_neg hv, if_pos (by simp; omega), element_xor, element_red]

theorem mulLoop_lt (k x v z : ℕ) (hv : v < 2 ^ 128) (hz : z < 2 ^ 128) : Gcm.mulLoop k x v z < 2 ^ 128 := by
  induction k generalizing v z with
  | zero => exact hz
  | succ k ih =>
    refine ih _ _ (step_lt hv) ?_
    split
    · exact Nat.xor_lt_two_pow hz hv
    · exact hz

theorem mul_lt (x : ℕ) {y : ℕ} (hy : y < 2 ^ 128) : Gcm.mul x y < 2 ^ 128 := mulLoop_lt _ _ _ _ hy (by norm_num)

theorem element_mulLoop (k x v z : ℕ) (hv : v < 2 ^ 128) : Spec.element (Gcm.mulLoop k x v z) =
    Spec.element z + (∑ i ∈ range k, if x.testBit (k - 1 - i) then AdjoinRoot.root Spec.gcmPoly ^ i else 0) *
      Spec.element v := by
  induction k generalizing v z with
  | zero => simp [Gcm.mulLoop]
  | succ k ih =>
    have hs : Gcm.mulLoop (k + 1) x v z = Gcm.mulLoop k x (step v) (if x.testBit k then z ^^^ v else z) := rfl
    rw [hs, ih _ _ (step_lt hv), element_step hv, Finset.sum_range_succ']
    have h0 : Spec.element (if x.testBit k then z ^^^ v else z) =
        Spec.element z + (if x.testBit k then 1 else 0) * Spec.element v := by
      split
      · rw [element_xor, one_mul]
      · rw [zero_mul, add_zero]
    rw [h0, add_mul, pow_zero, Nat.sub_zero, Nat.add_sub_cancel, ← mul_assoc, Finset.sum_mul, add_assoc,
      add_comm (_ * Spec.element v)]
    congr 3
    refine Finset.sum_congr rfl fun i _ => ?_
    rw [show k - (i + 1) = k - 1 - i by omega]
    split
    · rw [pow_succ]
    · rw [zero_mul]

/-- `Gcm.mul` is the multiplication of polynomials modulo the polynomial of the standard. -/
theorem element_mul (x : ℕ) {y : ℕ} (hy : y < 2 ^ 128) :
    Spec.element (Gcm.mul x y) = Spec.element x * Spec.element y := by
  unfold Gcm.mul
  rw [element_mulLoop _ _ _ _ hy, element_zero, zero_add, element_sum x]

/-! ### The polynomial is irreducible -/

theorem gcm_monic : Spec.gcmPoly.Monic := by
  unfold Spec.gcmPoly
  monicity!

theorem gcm_degree : Spec.gcmPoly.natDegree = 128 := by
  unfold Spec.gcmPoly
  compute_degree!

/-- Squaring `n` times. -/
def squares : ℕ → ℕ → ℕ
  | 0, v => v
  | n + 1, v => squares n (Gcm.mul v v)

theorem element_squares (n v : ℕ) (hv : v < 2 ^ 128) : Spec.element (squares n v) = Spec.element v ^ 2 ^ n := by
  induction n generalizing v with
  | zero => rw [pow_zero, pow_one]; rfl
  | succ n ih =>
    show Spec.element (squares n (Gcm.mul v v)) = _
    rw [ih _ (mul_lt _ hv), element_mul _ hv, ← pow_two, ← pow_mul, pow_succ']

theorem element_root : Spec.element (2 ^ 126) = AdjoinRoot.root Spec.gcmPoly := by
  rw [element_sum, Finset.sum_eq_single 1]
  · rw [if_pos (by rw [Nat.testBit_two_pow_self]), pow_one]
  · intro i hi hne
    rw [if_neg]
    have := Finset.mem_range.mp hi
    rw [Nat.testBit_two_pow]
    simp
    omega
  · intro h
    exact absurd (Finset.mem_range.mpr (by norm_num)) h

theorem element_one : Spec.element (2 ^ 127) = 1 := by
  rw [element_sum, Finset.sum_eq_single 0]
  · rw [if_pos (by rw [Nat.sub_zero, Nat.testBit_two_pow_self]), pow_zero]
  · intro i hi hne
    rw [if_neg]
    have := Finset.mem_range.mp hi
    rw [Nat.testBit_two_pow]
    simp
    omega
  · intro h
    exact absurd (Finset.mem_range.mpr (by norm_num)) h

theorem dvd_long : Spec.gcmPoly ∣ X ^ 2 ^ 128 - X := by
  rw [← AdjoinRoot.mk_eq_zero, map_sub, map_pow, AdjoinRoot.mk_X]
  have h : squares 128 (2 ^ 126) = 2 ^ 126 := by decide +kernel
  rw [← element_root, ← element_squares _ _ (by norm_num), h, sub_self]

theorem unit_short : ∃ u : (ZMod 2)[X], Spec.gcmPoly ∣ u * (X ^ 2 ^ 64 - X) - 1 := by
  refine ⟨Spec.blockPoly 0x180da934bf53158251c13dbb149f5279, ?_⟩
  rw [← AdjoinRoot.mk_eq_zero, map_sub, map_mul, map_sub, map_pow, AdjoinRoot.mk_X, map_one]
  have h : Gcm.mul 0x180da934bf53158251c13dbb149f5279 (squares 64 (2 ^ 126) ^^^ 2 ^ 126) = 2 ^ 127 := by decide +kernel
  have hlt : squares 64 (2 ^ 126) ^^^ 2 ^ 126 < 2 ^ 128 := by decide +kernel
  show Spec.element _ * _ - 1 = 0
  rw [← element_root, ← element_squares _ _ (by norm_num), sub_eq (Spec.element (squares 64 (2 ^ 126))), ← element_xor, ← element_mul _ hlt, h, element_one,
    sub_self]

theorem factor_long {f : (ZMod 2)[X]} (hf : Irreducible f) (hdvd : f ∣ Spec.gcmPoly) : f.natDegree ∣ 128 := by
  refine hf.natDegree_dvd_of_dvd_X_pow_card_pow_sub_X ?_
  rw [Nat.card_zmod]
  exact hdvd.trans dvd_long

theorem unit_of_dvd {f p u v : (ZMod 2)[X]} (h1 : f ∣ v) (h2 : f ∣ p) (h3 : p ∣ u * v - 1) : IsUnit f := by
  have h5 := dvd_sub (h1.mul_left u) (h2.trans h3)
  rw [sub_sub_cancel] at h5
  exact isUnit_of_dvd_one h5

theorem factor_short {f : (ZMod 2)[X]} (hf : Irreducible f) (hdvd : f ∣ Spec.gcmPoly) : ¬ f.natDegree ∣ 64 := by
  intro h
  have h1 : f ∣ X ^ 2 ^ 64 - X := by
    have := hf.natDegree_dvd_iff_dvd_X_pow_card_pow_sub_X.mp h
    rwa [Nat.card_zmod] at this
  obtain ⟨u, hu⟩ := unit_short
  exact hf.not_isUnit (unit_of_dvd h1 hdvd hu)

theorem eq_of_dvd {d : ℕ} (h1 : d ∣ 128) (h2 : ¬ d ∣ 64) : d = 128 := by
  have hd : d ≤ 128 := Nat.le_of_dvd (by norm_num) h1
  interval_cases d <;> simp_all

theorem gcm_irreducible : Irreducible Spec.gcmPoly := by
  have hne : Spec.gcmPoly ≠ 0 := gcm_monic.ne_zero
  have hgd := gcm_degree
  have hnu : ¬ IsUnit Spec.gcmPoly := by
    intro h
    have := natDegree_eq_zero_of_isUnit h
    omega
  obtain ⟨f, hf, hdvd⟩ := WfDvdMonoid.exists_irreducible_factor hnu hne
  have hdeg := eq_of_dvd (factor_long hf hdvd) (factor_short hf hdvd)
  generalize Spec.gcmPoly = p at hne hgd hdvd
  obtain ⟨g, rfl⟩ := hdvd
  have hgne : g ≠ 0 := right_ne_zero_of_mul hne
  have h0 : g.natDegree = 0 := by
    have := natDegree_mul hf.ne_zero hgne
    omega
  have hgu : IsUnit g := by
    rw [isUnit_iff_degree_eq_zero, degree_eq_natDegree hgne, h0]
    rfl
  exact (irreducible_mul_isUnit hgu).mpr hf

instance : Fact (Irreducible Spec.gcmPoly) := ⟨gcm_irreducible⟩

/-! ### Blocks are the elements of the field -/

theorem blockPoly_coeff (n i : ℕ) (hi : i < 128) : (Spec.blockPoly n).coeff i = if n.testBit (127 - i) then 1 else 0 := by
  unfold Spec.blockPoly
  rw [finsetSum_coeff, Finset.sum_eq_single i]
  · split
    · rw [coeff_X_pow, if_pos rfl]
    · rw [coeff_zero]
  · intro j _ hne
    split
    · rw [coeff_X_pow, if_neg (Ne.symm hne)]
    · rw [coeff_zero]
  · intro h
    exact absurd (Finset.mem_range.mpr hi) h

theorem blockPoly_degree (n : ℕ) : (Spec.blockPoly n).degree < Spec.gcmPoly.degree := by
  rw [degree_eq_natDegree gcm_monic.ne_zero, gcm_degree]
  unfold Spec.blockPoly
  refine lt_of_le_of_lt (degree_sum_le _ _) ((Finset.sup_lt_iff (WithBot.bot_lt_coe _)).mpr fun i hi => ?_)
  have := Finset.mem_range.mp hi
  split
  · rw [degree_X_pow]
    exact_mod_cast this
  · rw [degree_zero]
    exact WithBot.bot_lt_coe _

theorem element_injective {a b : ℕ} (ha : a < 2 ^ 128) (hb : b < 2 ^ 128) (h : Spec.element a = Spec.element b) : a = b := by
  have h0 : Spec.element (a ^^^ b) = 0 := by rw [element_xor, h, add_self]
  have hz : Spec.blockPoly (a ^^^ b) = 0 :=
    eq_zero_of_dvd_of_degree_lt (AdjoinRoot.mk_eq_zero.mp h0) (blockPoly_degree _)
  refine Nat.eq_of_testBit_eq fun i => ?_
  by_cases hi : i < 128
  · have hc := blockPoly_coeff (a ^^^ b) (127 - i) (by omega)
    rw [hz, coeff_zero, show 127 - (127 - i) = i by omega, Nat.testBit_xor] at hc
    revert hc
    cases a.testBit i <;> cases b.testBit i <;> simp
  · rw [Nat.testBit_lt_two_pow (lt_of_lt_of_le ha (Nat.pow_le_pow_right (by norm_num) (by omega))),
      Nat.testBit_lt_two_pow (lt_of_lt_of_le hb (Nat.pow_le_pow_right (by norm_num) (by omega)))]

end Gf

end IceFrost
