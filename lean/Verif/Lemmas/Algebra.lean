import Verif.Spec
import Verif.Lemmas.Base
import Verif.Model.Signature
import Mathlib.LinearAlgebra.Lagrange
import Mathlib.Data.List.GetD
import Mathlib.Tactic.Ring
import Mathlib.Tactic.FieldSimp
import Mathlib.Tactic.Module

/-! # Polynomials, Horner evaluation and Lagrange interpolation -/

set_option linter.unusedSectionVars false
set_option linter.unusedSimpArgs false

namespace IceFrost

open Finset Polynomial

variable {F G R : Type} [Field F] [AddCommGroup G] [Module F G]

/-! ### Horner loops -/

namespace Spec

theorem polyEval_append_singleton (cs : List F) (c x : F) :
    polyEval (cs ++ [c]) x = polyEval cs x + c * x ^ cs.length := by
  unfold polyEval
  rw [List.length_append, List.length_singleton, sum_range_succ]
  congr 1
  · refine sum_congr rfl fun k hk => ?_
    rw [List.getD_append _ _ _ _ (mem_range.mp hk)]
  · simp

theorem pointEval_append_singleton (ps : List G) (p : G) (x : F) :
    pointEval (ps ++ [p]) x = pointEval ps x + x ^ ps.length • p := by
  unfold pointEval
  rw [List.length_append, List.length_singleton, sum_range_succ]
  congr 1
  · refine sum_congr rfl fun k hk => ?_
    rw [List.getD_append _ _ _ _ (mem_range.mp hk)]
  · simp

@[simp] theorem polyEval_nil (x : F) : polyEval ([] : List F) x = 0 := by simp [polyEval]
@[simp] theorem pointEval_nil (x : F) : pointEval ([] : List G) x = 0 := by simp [pointEval]

theorem polyEval_cons (c : F) (cs : List F) (x : F) : polyEval (c :: cs) x = c + x * polyEval cs x := by
  unfold polyEval
  rw [List.length_cons, sum_range_succ', mul_sum, add_comm]
  congr 1
  · simp
  · refine sum_congr rfl fun k _ => ?_
    simp only [List.getD_cons_succ, pow_succ]; ring

theorem pointEval_cons (p : G) (ps : List G) (x : F) :
    pointEval (p :: ps) x = p + x • pointEval ps x := by
  unfold pointEval
  rw [List.length_cons, sum_range_succ', smul_sum, add_comm]
  congr 1
  · simp
  · refine sum_congr rfl fun k _ => ?_
    simp only [List.getD_cons_succ, pow_succ, mul_comm, mul_smul]

theorem polyEval_zero (cs : List F) : polyEval cs 0 = cs.headD 0 := by
  cases cs with
  | nil => simp
  | cons c cs => simp [polyEval_cons]

theorem pointEval_map_smul (cs : List F) (g : G) (x : F) :
    pointEval (cs.map (· • g)) x = polyEval cs x • g := by
  induction cs with
  | nil => simp
  | cons c cs ih => rw [List.map_cons, pointEval_cons, polyEval_cons, ih, add_smul, mul_smul]

theorem pointEval_zero (ps : List G) : pointEval ps (0 : F) = ps.headD 0 := by
  cases ps with
  | nil => simp
  | cons c cs => simp [pointEval_cons]

end Spec

theorem hornerLoop_eq (len : Nat) (x : F) (k : Nat) (l : List F) (s : F) (hl : l ≠ []) (hk : k + l.length = len) :
    hornerLoop len x k l s = s * x ^ (l.length - 1) + Spec.polyEval l.reverse x := by
  induction l generalizing k s with
  | nil => exact absurd rfl hl
  | cons c l ih =>
    cases l with
    | nil =>
      have : k = len - 1 := by simp at hk; omega
      simp [hornerLoop, this, Spec.polyEval_cons]
    | cons d l =>
      have hne : k ≠ len - 1 := by simp at hk; omega
      rw [hornerLoop, if_pos hne, ih _ _ (by simp) (by simp at hk ⊢; omega), List.reverse_cons (a := c),
        Spec.polyEval_append_singleton]
      simp only [List.length_cons, List.length_reverse, Nat.add_sub_cancel]
      ring

theorem horner_eq (x : F) (cs : List F) : hornerLoop cs.length x 0 cs.reverse 0 = Spec.polyEval cs x := by
  by_cases h : cs = []
  · subst h; simp [hornerLoop]
  · rw [hornerLoop_eq _ _ _ _ _ (by simpa using h) (by simp)]; simp

theorem hornerHidingLoop_eq (len : Nat) (x : F) (k : Nat) (l : List G) (s : G) (hl : l ≠ [])
    (hk : k + l.length = len) :
    hornerHidingLoop len x k l s = x ^ (l.length - 1) • s + Spec.pointEval l.reverse x := by
  induction l generalizing k s with
  | nil => exact absurd rfl hl
  | cons c l ih =>
    cases l with
    | nil =>
      have : k = len - 1 := by simp at hk; omega
      simp [hornerHidingLoop, this, Spec.pointEval_cons]
    | cons d l =>
      have hne : k ≠ len - 1 := by simp at hk; omega
      rw [hornerHidingLoop, if_pos hne, ih _ _ (by simp) (by simp at hk ⊢; omega), List.reverse_cons (a := c),
        Spec.pointEval_append_singleton]
      simp only [List.length_cons, List.length_reverse, Nat.add_sub_cancel]
      module

theorem hornerHiding_eq (x : F) (ps : List G) :
    hornerHidingLoop ps.length x 0 ps.reverse 0 = Spec.pointEval ps x := by
  by_cases h : ps = []
  · subst h; simp [hornerHidingLoop]
  · rw [hornerHidingLoop_eq _ _ _ _ _ (by simpa using h) (by simp)]; simp

/-! ### Coefficient lists as polynomials -/

/-- The Mathlib polynomial with the given coefficients. -/
noncomputable def toPoly (cs : List F) : F[X] := ∑ k ∈ range cs.length, C (cs.getD k 0) * X ^ k

theorem toPoly_eval (cs : List F) (x : F) : (toPoly cs).eval x = Spec.polyEval cs x := by
  simp [toPoly, Spec.polyEval, eval_finsetSum]

theorem toPoly_degree (cs : List F) : (toPoly cs).degree < cs.length := by
  rw [toPoly, Finset.sum_range]
  exact degree_sum_fin_lt _

theorem toPoly_coeff (cs : List F) (k : Nat) : (toPoly cs).coeff k = cs.getD k 0 := by
  rw [toPoly, finsetSum_coeff]
  simp only [coeff_C_mul, coeff_X_pow, mul_ite, mul_one, mul_zero]
  rw [Finset.sum_ite_eq]
  split
  · rfl
  · next h =>
    rw [mem_range, not_lt] at h
    rw [List.getD_eq_default _ _ h]

/-- The first `n` coefficients of a polynomial. -/
noncomputable def ofPoly (n : Nat) (p : F[X]) : List F := (List.range n).map p.coeff

theorem ofPoly_length (n : Nat) (p : F[X]) : (ofPoly n p).length = n := by simp [ofPoly]

theorem ofPoly_getD (n : Nat) (p : F[X]) (k : Nat) (hk : k < n) : (ofPoly n p).getD k 0 = p.coeff k := by
  simp [ofPoly, List.getD_eq_getElem?_getD, hk]

theorem toPoly_ofPoly (n : Nat) (p : F[X]) (h : p.degree < n) : toPoly (ofPoly n p) = p := by
  ext k
  rw [toPoly_coeff]
  by_cases hk : k < n
  · exact ofPoly_getD n p k hk
  · rw [List.getD_eq_default _ _ (by rw [ofPoly_length]; omega)]
    symm
    apply coeff_eq_zero_of_degree_lt
    exact lt_of_lt_of_le h (by exact_mod_cast not_lt.mp hk)

theorem ofPoly_toPoly (cs : List F) : ofPoly cs.length (toPoly cs) = cs := by
  apply List.ext_getElem (ofPoly_length _ _)
  intro k h1 h2
  have := ofPoly_getD cs.length (toPoly cs) k h2
  rw [toPoly_coeff, List.getD_eq_getElem _ _ h1, List.getD_eq_getElem _ _ h2] at this
  exact this

theorem ofPoly_eval (n : Nat) (p : F[X]) (h : p.degree < n) (x : F) :
    Spec.polyEval (ofPoly n p) x = p.eval x := by
  rw [← toPoly_eval, toPoly_ofPoly n p h]

/-! ### Lagrange interpolation -/

theorem u32F_injOn (hu : Suite.U32Inj F) (s : Finset U32) : Set.InjOn (u32F F) s := fun a _ b _ h => hu a b h

theorem lagrange_eq_basis_eval (l : List U32) (i : U32) :
    Spec.lagrange (F := F) l i = (Lagrange.basis l.toFinset (u32F F) i).eval 0 := by
  unfold Spec.lagrange Lagrange.basis
  rw [eval_prod]
  refine prod_congr rfl fun j hj => ?_
  simp only [Lagrange.basisDivisor, eval_mul, eval_C, eval_sub, eval_X, u32F]
  rw [div_eq_mul_inv, ← neg_sub, inv_neg]
  ring

/-- Interpolating a polynomial of degree `< |l|` at 0. -/
theorem interpolate_poly (hu : Suite.U32Inj F) (l : List U32) (p : F[X]) (h : p.degree < l.toFinset.card) :
    ∑ i ∈ l.toFinset, Spec.lagrange l i * p.eval (u32F F i) = p.eval 0 := by
  conv_rhs => rw [Lagrange.eq_interpolate (u32F_injOn hu l.toFinset) h]
  rw [Lagrange.interpolate_apply, eval_finsetSum]
  refine sum_congr rfl fun i hi => ?_
  rw [eval_mul, eval_C, lagrange_eq_basis_eval]; ring

theorem interpolate_polyEval (hu : Suite.U32Inj F) {l : List U32} (hl : l.Nodup) (cs : List F)
    (h : cs.length ≤ l.length) :
    Spec.interpolate l (fun i => Spec.polyEval cs (u32F F i)) = Spec.polyEval cs 0 := by
  unfold Spec.interpolate
  rw [← toPoly_eval cs 0, ← interpolate_poly hu l (toPoly cs)]
  · simp only [toPoly_eval]
  · refine lt_of_lt_of_le (toPoly_degree cs) ?_
    rw [List.toFinset_card_of_nodup hl]
    exact_mod_cast h

/-! ### `calculate_lagrange_coefficients` -/

theorem lagrangeStep_foldl (my : U32) (l : List U32) (acc : F × F) :
    l.foldl (lagrangeStep my) acc =
      (acc.1 * ((l.filter (· ≠ my)).map (u32F F)).prod,
       acc.2 * ((l.filter (· ≠ my)).map (fun j => u32F F j - u32F F my)).prod) := by
  induction l generalizing acc with
  | nil => simp
  | cons j l ih =>
    rw [List.foldl_cons, ih]
    by_cases h : j = my
    · simp [lagrangeStep, h]
    · simp [lagrangeStep, h, mul_assoc]

theorem lagrangeStep_foldl_finset (my : U32) {l : List U32} (hl : l.Nodup) :
    l.foldl (lagrangeStep my) ((1 : F), (1 : F)) =
      (∏ j ∈ l.toFinset.erase my, u32F F j, ∏ j ∈ l.toFinset.erase my, (u32F F j - u32F F my)) := by
  have hf : (l.filter (· ≠ my)).toFinset = l.toFinset.erase my := by
    ext j; simp [and_comm]
  have hn : (l.filter (· ≠ my)).Nodup := hl.filter _
  rw [lagrangeStep_foldl, one_mul, one_mul, ← hf, List.prod_toFinset _ hn, List.prod_toFinset _ hn]

variable [DecidableEq F]

/-- Exact behaviour of `calculate_lagrange_coefficients` on every input. -/
theorem lagrangeCoeff_cases (my : U32) (l : List U32) :
    lagrangeCoeff (F := F) (G := G) my l =
      if ¬ l.Nodup then .error (.custom "Duplicate indices provided")
      else if 0 ∈ l then .error .indexIsZero
      else if ∃ j ∈ l, j ≠ my ∧ u32F F j = u32F F my then .error (.custom "Duplicate indices provided")
      else .ok (Spec.lagrange l my) := by
  unfold lagrangeCoeff
  simp only [ne_eq, sortDedup_length, sortDedup_mem]
  by_cases hn : l.Nodup
  · simp only [hn, not_true_eq_false, if_false]
    split
    · rfl
    · have hf : (dedupByKey id (sortByKey id l)).toFinset = l.toFinset := by ext k; simp [sortDedup_mem]
      rw [lagrangeStep_foldl_finset my (sortDedup_nodup l), hf]
      have hz : (∏ j ∈ l.toFinset.erase my, (u32F F j - u32F F my)) = 0 ↔
          ∃ j ∈ l, j ≠ my ∧ u32F F j = u32F F my := by
        rw [prod_eq_zero_iff]
        constructor
        · rintro ⟨j, hj, h⟩
          rw [mem_erase, List.mem_toFinset] at hj
          exact ⟨j, hj.2, hj.1, sub_eq_zero.mp h⟩
        · rintro ⟨j, h1, h2, h3⟩
          exact ⟨j, by rw [mem_erase, List.mem_toFinset]; exact ⟨h2, h1⟩, sub_eq_zero.mpr h3⟩
      simp only [hz]
      split
      · rfl
      · rw [Spec.lagrange, prod_div_distrib, div_eq_mul_inv]
        rfl
  · simp [hn]

theorem lagrangeCoeff_ok (hu : Suite.U32Inj F) {l : List U32} (hl : l.Nodup) (h0 : 0 ∉ l) (my : U32) :
    lagrangeCoeff (F := F) (G := G) my l = .ok (Spec.lagrange l my) := by
  rw [lagrangeCoeff_cases, if_neg (by simpa using hl), if_neg h0, if_neg]
  rintro ⟨j, _, hne, he⟩
  exact hne (hu _ _ he)

omit [DecidableEq F] in
theorem spec_lagrange_congr {l l' : List U32} (h : ∀ k, k ∈ l ↔ k ∈ l') (i : U32) :
    Spec.lagrange (F := F) l i = Spec.lagrange l' i := by
  have : l.toFinset = l'.toFinset := by ext k; simp [h k]
  simp only [Spec.lagrange, this]

end IceFrost
