import Verif.Toy
import Verif.Lemmas.Finish

/-!
# C115: fields in which different indices coincide

Everywhere else it is assumed that different `u32` are different scalars. Here is what interpolation does in a field of
any size.
-/

set_option linter.unusedSectionVars false
set_option linter.unusedSimpArgs false

namespace IceFrost

open Finset Polynomial

variable {F G R : Type} [Field F] [DecidableEq F] [AddCommGroup G] [Module F G] [DecidableEq G]

/-- C115: in every field the coefficient of `i` is refused exactly if the list repeats an index, contains 0, or contains
another index that is the same scalar as `i`; otherwise it is the Lagrange coefficient. -/
theorem C115_exact (i : U32) (l : List U32) :
    ((l.Nodup ∧ 0 ∉ l ∧ ∀ j ∈ l, j ≠ i → (j.toNat : F) ≠ (i.toNat : F)) ∧
      lagrangeCoeff (F := F) (G := G) i l =
        .ok (∏ j ∈ l.toFinset.erase i, (j.toNat : F) / ((j.toNat : F) - (i.toNat : F)))) ∨
    (¬ (l.Nodup ∧ 0 ∉ l ∧ ∀ j ∈ l, j ≠ i → (j.toNat : F) ≠ (i.toNat : F)) ∧
      ∃ e, lagrangeCoeff (F := F) (G := G) i l = .error e) := by
  rw [lagrangeCoeff_cases]
  by_cases h1 : l.Nodup
  · by_cases h2 : (0 : U32) ∈ l
    · right
      exact ⟨fun h => h.2.1 h2, _, by rw [if_neg (by simpa using h1), if_pos h2]⟩
    · by_cases h3 : ∃ j ∈ l, j ≠ i ∧ u32F F j = u32F F i
      · right
        obtain ⟨j, hj, hne, he⟩ := h3
        exact ⟨fun h => h.2.2 j hj hne he, _, by
          rw [if_neg (by simpa using h1), if_neg h2, if_pos ⟨j, hj, hne, he⟩]⟩
      · left
        refine ⟨⟨h1, h2, fun j hj hne he => h3 ⟨j, hj, hne, he⟩⟩, ?_⟩
        rw [if_neg (by simpa using h1), if_neg h2, if_neg h3]
        rfl
  · right
    exact ⟨fun h => h1 h.1, _, by rw [if_pos h1]⟩

/-- C115: in every field, if coefficients exist for all indices of a list, they interpolate at zero correctly: a wrong
result is never computed. -/
theorem C115_interpolation (l : List U32) (lam : U32 → F)
    (h : ∀ i ∈ l, lagrangeCoeff (F := F) (G := G) i l = .ok (lam i)) (cs : List F) (hc : cs.length ≤ l.length) :
    (l.map fun i => lam i * Spec.polyEval cs (u32F F i)).sum = cs.headD 0 := by
  cases l with
  | nil =>
    have : cs = [] := by simpa using hc
    subst this
    rfl
  | cons a l' =>
    set l := a :: l' with hl
    have key : ∀ i ∈ l, (l.Nodup ∧ 0 ∉ l ∧ ∀ j ∈ l, j ≠ i → (j.toNat : F) ≠ (i.toNat : F)) ∧ lam i = Spec.lagrange l i := by
      intro i hi
      rcases C115_exact (F := F) (G := G) i l with ⟨h1, h2⟩ | ⟨_, e, he⟩
      · rw [h i hi] at h2
        exact ⟨h1, Except.ok.inj h2⟩
      · rw [h i hi] at he
        cases he
    have hnd := (key a (by simp [hl])).1.1
    have hinj : Set.InjOn (u32F F) (l.toFinset : Set U32) := by
      intro i hi j hj he
      by_contra hne
      have hi' : i ∈ l := by simpa using hi
      have hj' : j ∈ l := by simpa using hj
      exact (key j hj').1.2.2 i hi' hne he
    have hdeg : (toPoly cs).degree < (l.toFinset.card : WithBot ℕ) := by
      refine lt_of_lt_of_le (toPoly_degree cs) ?_
      rw [List.toFinset_card_of_nodup hnd]
      exact_mod_cast hc
    have hsum : ∑ i ∈ l.toFinset, Spec.lagrange l i * (toPoly cs).eval (u32F F i) = (toPoly cs).eval 0 := by
      conv_rhs => rw [Lagrange.eq_interpolate hinj hdeg]
      rw [Lagrange.interpolate_apply, eval_finsetSum]
      refine sum_congr rfl fun i hi => ?_
      rw [eval_mul, eval_C, lagrange_eq_basis_eval]; ring
    rw [← Spec.polyEval_zero, ← toPoly_eval, ← hsum, List.sum_toFinset _ hnd]
    refine congrArg List.sum (List.map_congr_left fun i hi => ?_)
    rw [(key i hi).2, toPoly_eval]

/-- C115: with two dealers whose indices are the same scalar, `finish` fails with an error; no key is produced. -/
theorem C115_finish_collision (d : RoundTwo F G) (m : BMap (SecretShare F)) (hm : d.state.mySecretShares = some m)
    (k k' : U32) (hk : k ∈ m.keys) (hk' : k' ∈ m.keys) (hne : k ≠ k') (he : (k.toNat : F) = (k'.toNat : F)) :
    ∃ e, d.finish = .error (.err e) := by
  have key : ∀ (rest : List (U32 × SecretShare F)) (acc : F), k ∈ rest.map Prod.fst →
      ∃ e, (signingKeyLoop (G := G) m.keys rest acc).1 = .error (.err e) := by
    intro rest
    induction rest with
    | nil => intro acc h; simp at h
    | cons a rest ih =>
      intro acc h
      obtain ⟨i, s⟩ := a
      unfold signingKeyLoop
      split
      · exact ⟨_, rfl⟩
      · next c hc =>
        by_cases hik : k = i
        · exfalso
          subst hik
          rcases C115_exact (F := F) (G := G) k m.keys with ⟨h1, _⟩ | ⟨_, e, h2⟩
          · exact h1.2.2 k' hk' (Ne.symm hne) he.symm
          · rw [hc] at h2
            cases h2
        · obtain ⟨e, h'⟩ := ih (acc + s.eval * c) (by simpa [hik] using h)
          exact ⟨e, h'⟩
  obtain ⟨e, h⟩ := key m 0 hk
  unfold RoundTwo.finish RoundTwo.calculateSigningKey
  rw [hm]
  simp only []
  exact ⟨e, by rw [h]; rfl⟩

section Examples

instance : Fact (Nat.Prime 7) := ⟨by norm_num⟩

/-- In the field with 7 elements the indices 1 and 8 collide, 1 and 2 do not, and 7 is the scalar 0, which does no
harm. -/
example : ∃ e, lagrangeCoeff (F := ZMod 7) (G := ZMod 7) 1 [1, 8] = .error e := by
  rcases C115_exact (F := ZMod 7) (G := ZMod 7) 1 [1, 8] with ⟨h, _⟩ | ⟨_, h⟩
  · exact absurd rfl (h.2.2 8 (by simp) (by decide))
  · exact h

example : ∃ lam : U32 → ZMod 7, (∀ i ∈ [7, 2], lagrangeCoeff (F := ZMod 7) (G := ZMod 7) i [7, 2] = .ok (lam i)) ∧
    ([7, 2].map fun i => lam i * Spec.polyEval [3, 4] (u32F (ZMod 7) i)).sum = 3 := by
  have h : ∀ i ∈ [7, 2], lagrangeCoeff (F := ZMod 7) (G := ZMod 7) i [7, 2] = .ok (Spec.lagrange [7, 2] i) := by
    intro i hi
    rcases C115_exact (F := ZMod 7) (G := ZMod 7) i [7, 2] with ⟨_, h⟩ | ⟨h, _⟩
    · exact h
    · exfalso
      apply h
      simp only [List.mem_cons, List.not_mem_nil, or_false] at hi
      rcases hi with rfl | rfl <;> decide
  exact ⟨_, h, C115_interpolation [7, 2] _ h [3, 4] (by simp)⟩

example : ∃ e, (⟨⟨⟨2, 2⟩, 3, 0, 0, none, [], none, some [(1, ⟨1, 3, 5⟩), (8, ⟨8, 3, 5⟩)]⟩⟩ :
    RoundTwo (ZMod 7) (ZMod 7)).finish = .error (.err e) :=
  C115_finish_collision _ _ rfl 1 8 (by simp [BMap.keys]) (by simp [BMap.keys]) (by decide) (by decide)

end Examples

end IceFrost
