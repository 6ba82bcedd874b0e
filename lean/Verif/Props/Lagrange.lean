import Verif.Toy
import Verif.Lemmas.Algebra

/-! # C02–C04: interpolation coefficients -/

set_option linter.unusedSectionVars false
set_option linter.unusedSimpArgs false

namespace IceFrost

variable {F G : Type} [Field F] [DecidableEq F] [AddCommGroup G] [Module F G]

/-- C02: for distinct non-zero indices the coefficient of `i` is `∏_{j ∈ l, j ≠ i} j / (j - i)`. -/
theorem C02_lagrange_value (hu : Suite.U32Inj F) (l : List U32) (hl : l.Nodup) (h0 : 0 ∉ l) (i : U32) :
    lagrangeCoeff (F := F) (G := G) i l =
      .ok (∏ j ∈ l.toFinset.erase i, (j.toNat : F) / ((j.toNat : F) - (i.toNat : F))) :=
  lagrangeCoeff_ok hu hl h0 i

/-- C02: the outcome (value or error) does not depend on the order of the list. -/
theorem C02_lagrange_order (i : U32) (l l' : List U32) (h : l.Perm l') :
    lagrangeCoeff (F := F) (G := G) i l = lagrangeCoeff i l' := by
  have hm : ∀ k, k ∈ l ↔ k ∈ l' := fun k => h.mem_iff
  rw [lagrangeCoeff_cases, lagrangeCoeff_cases]
  simp only [h.nodup_iff, hm, spec_lagrange_congr hm]

/-- C03: for every polynomial with at most as many coefficients as there are indices, the interpolation
coefficients all exist and `∑ λ_i f(i) = f(0)`, the constant term. -/
theorem C03_interpolation (hu : Suite.U32Inj F) (l : List U32) (hl : l.Nodup) (h0 : 0 ∉ l) (cs : List F)
    (hc : cs.length ≤ l.length) :
    ∃ lam : U32 → F, (∀ i ∈ l, lagrangeCoeff (F := F) (G := G) i l = .ok (lam i)) ∧
      (l.map fun i => lam i * Spec.polyEval cs (u32F F i)).sum = cs.headD 0 := by
  refine ⟨Spec.lagrange l, fun i _ => lagrangeCoeff_ok hu hl h0 i, ?_⟩
  rw [← Spec.polyEval_zero, ← interpolate_polyEval hu hl cs hc, Spec.interpolate, List.sum_toFinset _ hl]

/-- C04, what is true: the call fails exactly on duplicates or a zero in the list (given that indices are distinct
scalars).  Nothing is said about the caller's own index, because the code does not check it.

Missing for the full C04: rejection of a caller index that is 0 or not in the list; see the next two theorems,
which show that this part is false. -/
theorem C04_lagrange_rejects_partial (hu : Suite.U32Inj F) (i : U32) (l : List U32) :
    (∃ e, lagrangeCoeff (F := F) (G := G) i l = .error e) ↔ ¬ l.Nodup ∨ 0 ∈ l := by
  rw [lagrangeCoeff_cases]
  have hno : ¬ ∃ j ∈ l, j ≠ i ∧ u32F F j = u32F F i := by
    rintro ⟨j, _, hne, he⟩; exact hne (hu _ _ he)
  by_cases h1 : l.Nodup <;> by_cases h2 : (0 : U32) ∈ l <;> simp [h1, h2, hno]

/-- C04, negation: a caller whose index is not in the list gets a coefficient, although `src/utils.rs` documents
that the call fails. -/
theorem C04_foreign_index_accepted (hu : Suite.U32Inj F) (l : List U32) (hl : l.Nodup) (h0 : 0 ∉ l) (i : U32)
    (_hi : i ∉ l) : ∃ c, lagrangeCoeff (F := F) (G := G) i l = .ok c :=
  ⟨_, lagrangeCoeff_ok hu hl h0 i⟩

/-- C04, negation: a caller with index 0 gets the coefficient 1. -/
theorem C04_zero_index_accepted (hu : Suite.U32Inj F) (l : List U32) (hl : l.Nodup) (h0 : 0 ∉ l) :
    lagrangeCoeff (F := F) (G := G) 0 l = .ok 1 := by
  rw [lagrangeCoeff_ok hu hl h0, Spec.lagrange]
  congr 1
  refine Finset.prod_eq_one fun j hj => ?_
  have hne : j ≠ 0 := by rintro rfl; simp at hj
  have hz : (j.toNat : F) ≠ 0 := by
    intro h
    exact hne (hu j 0 (by simpa [u32F] using h))
  simp [div_self hz]

/-- The documented behaviour is violated: there are an index and a list not containing it for which the call
succeeds. -/
theorem C04_documented_rejection_fails (hu : Suite.U32Inj F) :
    ¬ ∀ (i : U32) (l : List U32), i = 0 ∨ 0 ∈ l ∨ ¬ l.Nodup ∨ i ∉ l →
      ∃ e, lagrangeCoeff (F := F) (G := G) i l = .error e := by
  intro h
  obtain ⟨e, he⟩ := h 3 [1, 2] (by decide)
  rw [lagrangeCoeff_ok hu (by decide) (by decide)] at he
  cases he

section Examples
open Toy
example : lagrangeCoeff (F := Fp) (G := Fp) 2 [1, 2, 3] =
    .ok (∏ j ∈ [1, 2, 3].toFinset.erase 2, ((j : U32).toNat : Fp) / ((j.toNat : Fp) - ((2 : U32).toNat : Fp))) :=
  C02_lagrange_value u32_inj [1, 2, 3] (by decide) (by decide) 2
example : ∃ lam : U32 → Fp, (∀ i ∈ [1, 2, 3], lagrangeCoeff (F := Fp) (G := Fp) i [1, 2, 3] = .ok (lam i)) ∧
    ([1, 2, 3].map fun i => lam i * Spec.polyEval [42, 7, 9] (u32F Fp i)).sum = 42 :=
  C03_interpolation u32_inj [1, 2, 3] (by decide) (by decide) [42, 7, 9] (by decide)
example : ∃ e, lagrangeCoeff (F := Fp) (G := Fp) 2 [1, 2, 1] = .error e :=
  (C04_lagrange_rejects_partial u32_inj 2 [1, 2, 1]).mpr (.inl (by decide))
example : ∃ c, lagrangeCoeff (F := Fp) (G := Fp) 9 [1, 2] = .ok c :=
  C04_foreign_index_accepted u32_inj [1, 2] (by decide) (by decide) 9 (by decide)
end Examples

end IceFrost
