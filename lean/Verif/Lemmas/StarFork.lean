import Verif.Props.RandomOracle
import Mathlib.Algebra.BigOperators.Ring.Finset
import Mathlib.Data.List.Sort

/-! # Forking at several questions

An experiment that is repeated from each of `m` questions on, every time from the first run. -/

set_option linter.unusedSectionVars false
set_option linter.unusedSimpArgs false
set_option linter.unusedVariables false

namespace IceFrost

open Finset

section Star

variable {Ω C : Type} [Fintype Ω] [Fintype C] {n : ℕ}

/-- The mean over all answers. -/
noncomputable def mean (g : (Fin n → C) → ℚ) : ℚ := (∑ h, g h) / Fintype.card (Fin n → C)

/-- The mean over all answers from position `j` on. -/
noncomputable def meanFrom (j : Fin n) (g : (Fin n → C) → ℚ) (h : Fin n → C) : ℚ :=
  (∑ h', g (splice j h h')) / Fintype.card (Fin n → C)

theorem splice_le {i j : Fin n} (hij : i ≤ j) (a b c : Fin n → C) : splice i (splice j a b) c = splice i a c := by
  funext x
  unfold splice
  by_cases h : x < i
  · rw [if_pos h, if_pos h, if_pos (lt_of_lt_of_le h hij)]
  · rw [if_neg h, if_neg h]

theorem splice_assoc {i j : Fin n} (hij : i ≤ j) (a b c : Fin n → C) :
    splice j (splice i a b) c = splice i a (splice j b c) := by
  funext x
  unfold splice
  by_cases h : x < i
  · rw [if_pos h, if_pos h, if_pos (lt_of_lt_of_le h hij)]
  · rw [if_neg h, if_neg h]

variable [Nonempty C]

theorem card_tapes_pos : (0 : ℚ) < (Fintype.card (Fin n → C) : ℕ) := by
  exact_mod_cast Fintype.card_pos

theorem mean_meanFrom (j : Fin n) (g : (Fin n → C) → ℚ) : mean (meanFrom j g) = mean g := by
  have hP := card_tapes_pos (C := C) (n := n)
  unfold mean meanFrom
  rw [← Finset.sum_div, sum_splice]
  field_simp

theorem meanFrom_meanFrom {i j : Fin n} (hij : i ≤ j) (g : (Fin n → C) → ℚ) (h : Fin n → C) :
    meanFrom i (meanFrom j g) h = meanFrom i g h := by
  have hP := card_tapes_pos (C := C) (n := n)
  unfold meanFrom
  rw [← Finset.sum_div]
  have := sum_splice j fun h' => g (splice i h h')
  simp only [splice_assoc hij]
  rw [this]
  field_simp

theorem meanFrom_mul (j : Fin n) (g u : (Fin n → C) → ℚ) (hu : ∀ h h', u (splice j h h') = u h) (h : Fin n → C) :
    meanFrom j (fun x => g x * u x) h = meanFrom j g h * u h := by
  unfold meanFrom
  simp only [hu]
  rw [← Finset.sum_mul]
  ring

theorem meanFrom_nonneg (j : Fin n) {g : (Fin n → C) → ℚ} (hg : ∀ h, 0 ≤ g h) (h : Fin n → C) : 0 ≤ meanFrom j g h :=
  div_nonneg (Finset.sum_nonneg fun _ _ => hg _) card_tapes_pos.le

theorem mean_mono {g u : (Fin n → C) → ℚ} (h : ∀ x, g x ≤ u x) : mean g ≤ mean u :=
  div_le_div_of_nonneg_right (Finset.sum_le_sum fun x _ => h x) card_tapes_pos.le

/-- The power of a mean is at most the mean of the powers. -/
theorem pow_sum_le {A : Type} [Fintype A] [Nonempty A] (g : A → ℚ) (hg : ∀ h, 0 ≤ g h) (a : ℕ) :
    ((∑ x, g x) / Fintype.card A) ^ (a + 1) ≤ (∑ x, g x ^ (a + 1)) / Fintype.card A := by
  have hA : (0 : ℚ) < Fintype.card A := by exact_mod_cast Fintype.card_pos
  have h := pow_sum_div_card_le_sum_pow (s := (univ : Finset A)) (f := g) (fun i _ => hg i) a
  rw [Finset.card_univ] at h
  rw [div_pow, pow_succ (Fintype.card A : ℚ), ← div_div]
  exact div_le_div_of_nonneg_right h hA.le

theorem mean_pow (g : (Fin n → C) → ℚ) (hg : ∀ h, 0 ≤ g h) (a : ℕ) : mean g ^ (a + 1) ≤ mean fun h => g h ^ (a + 1) :=
  pow_sum_le g hg a

theorem meanFrom_pow (j : Fin n) (g : (Fin n → C) → ℚ) (hg : ∀ h, 0 ≤ g h) (a : ℕ) (h : Fin n → C) :
    meanFrom j g h ^ (a + 1) ≤ meanFrom j (fun h => g h ^ (a + 1)) h :=
  pow_sum_le (fun h' => g (splice j h h')) (fun _ => hg _) a

theorem star_list (f : (Fin n → C) → ℚ) (hf : ∀ h, 0 ≤ f h) (L : List (Fin n)) (hL : L.Pairwise (· ≥ ·))
    (g : (Fin n → C) → ℚ) (hg : ∀ h, 0 ≤ g h) (hm : mean g = mean f) (hc : ∀ j ∈ L, ∀ h, meanFrom j g h = meanFrom j f h)
    (a : ℕ) : mean f ^ (a + 1 + L.length) ≤ mean fun h => g h ^ (a + 1) * (L.map fun j => meanFrom j f h).prod := by
  induction L generalizing g a with
  | nil =>
    simp only [List.map_nil, List.prod_nil, mul_one, List.length_nil, Nat.add_zero]
    rw [← hm]
    exact mean_pow g hg a
  | cons j L ih =>
    rw [List.pairwise_cons] at hL
    have hu : ∀ h h', ((j :: L).map fun i => meanFrom i f (splice j h h')).prod = ((j :: L).map fun i => meanFrom i f h).prod := by
      intro h h'
      congr 1
      refine List.map_congr_left fun i hi => ?_
      have hij : i ≤ j := by
        rcases List.mem_cons.mp hi with rfl | hi
        · exact le_rfl
        · exact hL.1 i hi
      unfold meanFrom
      simp only [splice_le hij]
    have h1 := ih hL.2 (meanFrom j f) (meanFrom_nonneg j hf) (mean_meanFrom j f)
      (fun i hi h => meanFrom_meanFrom (hL.1 i hi) f h) (a + 1)
    rw [List.length_cons, show a + 1 + (L.length + 1) = a + 1 + 1 + L.length by omega]
    refine h1.trans ?_
    rw [← mean_meanFrom j fun h => g h ^ (a + 1) * ((j :: L).map fun i => meanFrom i f h).prod]
    refine mean_mono fun h => ?_
    rw [meanFrom_mul j (fun h => g h ^ (a + 1)) _ hu]
    have h2 := meanFrom_pow j g hg a h
    rw [hc j List.mem_cons_self h] at h2
    rw [List.map_cons, List.prod_cons, pow_succ _ (a + 1), mul_assoc]
    refine mul_le_mul_of_nonneg_right h2 (mul_nonneg (meanFrom_nonneg j hf h) (List.prod_nonneg fun x hx => ?_))
    obtain ⟨i, -, rfl⟩ := List.mem_map.mp hx
    exact meanFrom_nonneg i hf h

theorem star_fixed (f : (Fin n → C) → ℚ) (hf : ∀ h, 0 ≤ f h) {m : ℕ} (j : Fin m → Fin n) :
    mean f ^ (m + 1) ≤ mean fun h => f h * ∏ k, meanFrom (j k) f h := by
  have hperm := List.mergeSort_perm (List.ofFn j) (fun a b => decide (b ≤ a))
  have hsort : ((List.ofFn j).mergeSort fun a b => decide (b ≤ a)).Pairwise (· ≥ ·) := by
    have := List.pairwise_mergeSort (le := fun a b : Fin n => decide (b ≤ a))
      (fun a b c h1 h2 => by simp only [decide_eq_true_eq] at *; exact h2.trans h1)
      (fun a b => by simp only [Bool.or_eq_true, decide_eq_true_eq]; exact (le_total b a)) (List.ofFn j)
    exact this.imp fun h => by simpa using h
  have h := star_list f hf _ hsort f hf rfl (fun _ _ _ => rfl) 0
  rw [hperm.length_eq, List.length_ofFn, Nat.zero_add, Nat.add_comm] at h
  refine h.trans (le_of_eq ?_)
  congr 1
  funext x
  rw [pow_one]
  congr 1
  rw [(hperm.map _).prod_eq, List.map_ofFn, List.prod_ofFn]
  rfl

theorem chance_eq_sum {A : Type} [Fintype A] (E : A → Prop) [DecidablePred E] :
    Spec.chance E = (∑ a, if E a then (1 : ℚ) else 0) / Fintype.card A := by
  classical
  unfold Spec.chance
  congr 1
  rw [Finset.card_filter, Nat.cast_sum]
  refine Finset.sum_congr rfl fun a _ => ?_
  by_cases h : E a <;> simp [h]

/-- An experiment that yields `m` indices with chance `acc`, repeated `m` times, from each of the indices on, yields every
time the same indices, and another answer at the one from which it was repeated, with chance at least
`acc ^ (m + 1) / n ^ (m * m) - m * acc / |C|`. -/
theorem star_forking [Nonempty Ω] {m : ℕ} (J : Ω → (Fin n → C) → Option (Fin m → Fin n)) :
    let acc : ℚ := Spec.chance fun x : Ω × (Fin n → C) => (J x.1 x.2).isSome
    acc ^ (m + 1) / (n : ℚ) ^ (m * m) - m * acc / Fintype.card C ≤
      Spec.chance fun x : Ω × (Fin n → C) × (Fin m → Fin n → C) => ∃ j, J x.1 x.2.1 = some j ∧
        ∀ k, J x.1 (splice (j k) x.2.1 (x.2.2 k)) = some j ∧ x.2.2 k (j k) ≠ x.2.1 (j k) := by
  classical
  intro acc
  set P : ℚ := ((Fintype.card (Fin n → C) : ℕ) : ℚ) with hP
  have hP0 : 0 < P := card_tapes_pos
  set W : ℚ := ((Fintype.card Ω : ℕ) : ℚ) with hW
  have hW0 : 0 < W := by
    rw [hW]
    exact_mod_cast Fintype.card_pos
  set Q : ℚ := ((Fintype.card C : ℕ) : ℚ) with hQ
  have hQ0 : 0 < Q := by
    rw [hQ]
    exact_mod_cast Fintype.card_pos
  have hPm : ((Fintype.card (Fin m → Fin n → C) : ℕ) : ℚ) = P ^ m := by
    rw [Fintype.card_fun, Fintype.card_fin, Nat.cast_pow]
  set f : (Fin m → Fin n) → Ω → (Fin n → C) → ℚ := fun j ω h => if J ω h = some j then 1 else 0 with hf
  have hf0 : ∀ j ω h, 0 ≤ f j ω h := by
    intro j ω h
    simp only [hf]
    split <;> norm_num
  have hpick : ∀ ω h (g : (Fin m → Fin n) → ℚ), ∑ j, f j ω h * g j = match J ω h with | some j => g j | none => 0 := by
    intro ω h g
    simp only [hf]
    cases hJ : J ω h with
    | none => simp
    | some i => simp
  set a : (Fin m → Fin n) → ℚ := fun j => (∑ ω, mean (f j ω)) / W with ha
  have ha0 : ∀ j, 0 ≤ a j := fun j =>
    div_nonneg (Finset.sum_nonneg fun ω _ => div_nonneg (Finset.sum_nonneg fun h _ => hf0 j ω h) hP0.le) hW0.le
  have hacc : acc = ∑ j, a j := by
    show Spec.chance _ = _
    rw [chance_eq_sum, Fintype.card_prod, Nat.cast_mul, ← hW, ← hP]
    simp only [ha, mean]
    simp only [← Finset.sum_div]
    rw [div_div, mul_comm P W]
    congr 1
    rw [Finset.sum_comm, Fintype.sum_prod_type]
    refine Finset.sum_congr rfl fun ω _ => ?_
    rw [Finset.sum_comm]
    refine Finset.sum_congr rfl fun h _ => ?_
    have := hpick ω h fun _ => 1
    simp only [mul_one] at this
    rw [this]
    cases J ω h <;> simp
  -- the same indices every time
  have hsame : acc ^ (m + 1) / (n : ℚ) ^ (m * m) ≤ Spec.chance fun x : Ω × (Fin n → C) × (Fin m → Fin n → C) =>
      ∃ j, J x.1 x.2.1 = some j ∧ ∀ k, J x.1 (splice (j k) x.2.1 (x.2.2 k)) = some j := by
    have h1 : (Spec.chance fun x : Ω × (Fin n → C) × (Fin m → Fin n → C) =>
        ∃ j, J x.1 x.2.1 = some j ∧ ∀ k, J x.1 (splice (j k) x.2.1 (x.2.2 k)) = some j) =
        ∑ j, (∑ ω, mean fun h => f j ω h * ∏ k, meanFrom (j k) (f j ω) h) / W := by
      rw [chance_eq_sum, Fintype.card_prod, Fintype.card_prod, Nat.cast_mul, Nat.cast_mul, hPm, ← hW, ← hP]
      simp only [mean, meanFrom, Finset.prod_div_distrib, Finset.prod_const, Finset.card_univ, Fintype.card_fin, ← hP]
      simp only [← mul_div_assoc, ← Finset.sum_div]
      rw [div_div, div_div, show P ^ m * (P * W) = W * (P * P ^ m) by ring]
      congr 1
      rw [Finset.sum_comm, Fintype.sum_prod_type]
      refine Finset.sum_congr rfl fun ω _ => ?_
      rw [Finset.sum_comm, Fintype.sum_prod_type]
      refine Finset.sum_congr rfl fun h _ => ?_
      rw [hpick]
      cases hJ : J ω h with
      | none => simp [hJ]
      | some j =>
        simp only [hJ, Option.some.injEq, exists_eq_left']
        rw [Finset.prod_univ_sum, Fintype.piFinset_univ]
        refine Finset.sum_congr rfl fun h' _ => ?_
        simp only [hf]
        rw [Finset.prod_boole]
        simp
    rw [h1]
    have h2 : ∀ j, a j ^ (m + 1) ≤ (∑ ω, mean fun h => f j ω h * ∏ k, meanFrom (j k) (f j ω) h) / W := by
      intro j
      refine (pow_sum_le (fun ω => mean (f j ω)) (fun ω => div_nonneg (Finset.sum_nonneg fun h _ => hf0 j ω h) hP0.le)
        m).trans (div_le_div_of_nonneg_right ?_ hW0.le)
      exact Finset.sum_le_sum fun ω _ => star_fixed (f j ω) (hf0 j ω) j
    refine le_trans ?_ (Finset.sum_le_sum fun j _ => h2 j)
    have h3 := pow_sum_div_card_le_sum_pow (s := (univ : Finset (Fin m → Fin n))) (f := a) (fun i _ => ha0 i) m
    rw [Finset.card_univ, Fintype.card_fun, Fintype.card_fin, Fintype.card_fin, Nat.cast_pow, ← pow_mul, ← hacc] at h3
    exact h3
  -- the same answer
  have hcoll : (Spec.chance fun x : Ω × (Fin n → C) × (Fin m → Fin n → C) =>
      ∃ j, J x.1 x.2.1 = some j ∧ ∃ k, x.2.2 k (j k) = x.2.1 (j k)) ≤ m * acc / Q := by
    rw [chance_eq_sum, Fintype.card_prod, Fintype.card_prod, Nat.cast_mul, Nat.cast_mul, hPm, ← hW, ← hP]
    have h1 : (∑ x : Ω × (Fin n → C) × (Fin m → Fin n → C),
        if ∃ j, J x.1 x.2.1 = some j ∧ ∃ k, x.2.2 k (j k) = x.2.1 (j k) then (1 : ℚ) else 0) ≤
        ∑ ω, ∑ h, ∑ j, f j ω h * (m * (P ^ m / Q)) := by
      rw [Fintype.sum_prod_type]
      refine Finset.sum_le_sum fun ω _ => ?_
      rw [Fintype.sum_prod_type]
      refine Finset.sum_le_sum fun h _ => ?_
      rw [hpick]
      cases hJ : J ω h with
      | none => simp [hJ]
      | some j =>
        simp only [hJ, Option.some.injEq, exists_eq_left']
        calc (∑ h' : Fin m → Fin n → C, if ∃ k, h' k (j k) = h (j k) then (1 : ℚ) else 0)
            ≤ ∑ h' : Fin m → Fin n → C, ∑ k, if h' k (j k) = h (j k) then (1 : ℚ) else 0 := by
              refine Finset.sum_le_sum fun h' _ => ?_
              split_ifs with hk
              · obtain ⟨k, hk⟩ := hk
                refine le_trans (le_of_eq ?_) (Finset.single_le_sum (f := fun k => if h' k (j k) = h (j k) then (1 : ℚ) else 0)
                  (fun i _ => by split <;> norm_num) (Finset.mem_univ k))
                simp only [hk, if_true]
              · exact Finset.sum_nonneg fun i _ => by split <;> norm_num
          _ = ∑ k : Fin m, P ^ m / Q := by
              rw [Finset.sum_comm]
              refine Finset.sum_congr rfl fun k _ => ?_
              have := sum_part (n := m) (Equiv.funSplitAt (j k) C) k (h (j k))
              rw [hPm, ← hQ] at this
              rw [eq_div_iff hQ0.ne', mul_comm, ← this]
              rfl
          _ = _ := by simp
    refine (div_le_div_of_nonneg_right h1 (by positivity)).trans (le_of_eq ?_)
    rw [hacc]
    simp only [ha, mean, ← hP, ← Finset.sum_div, ← Finset.sum_mul]
    have h2 : ∑ ω, ∑ h, ∑ j, f j ω h = ∑ j, ∑ ω, ∑ h, f j ω h := by
      rw [Finset.sum_comm]
      rw [Finset.sum_congr rfl fun h _ => Finset.sum_comm]
      rw [Finset.sum_comm]
      refine Finset.sum_congr rfl fun j _ => Finset.sum_comm
    rw [h2]
    field_simp
  have hor : (Spec.chance fun x : Ω × (Fin n → C) × (Fin m → Fin n → C) =>
      ∃ j, J x.1 x.2.1 = some j ∧ ∀ k, J x.1 (splice (j k) x.2.1 (x.2.2 k)) = some j) ≤
      (Spec.chance fun x : Ω × (Fin n → C) × (Fin m → Fin n → C) => ∃ j, J x.1 x.2.1 = some j ∧
        ∀ k, J x.1 (splice (j k) x.2.1 (x.2.2 k)) = some j ∧ x.2.2 k (j k) ≠ x.2.1 (j k)) +
      Spec.chance fun x : Ω × (Fin n → C) × (Fin m → Fin n → C) =>
        ∃ j, J x.1 x.2.1 = some j ∧ ∃ k, x.2.2 k (j k) = x.2.1 (j k) := by
    refine (chance_mono (E' := fun x => ∃ b : Bool, if b then (∃ j, J x.1 x.2.1 = some j ∧
        ∀ k, J x.1 (splice (j k) x.2.1 (x.2.2 k)) = some j ∧ x.2.2 k (j k) ≠ x.2.1 (j k)) else
        ∃ j, J x.1 x.2.1 = some j ∧ ∃ k, x.2.2 k (j k) = x.2.1 (j k)) ?_).trans ((chance_exists _).trans (le_of_eq ?_))
    · rintro ⟨ω, h, h'⟩ ⟨j, h1, h2⟩
      by_cases hk : ∃ k, h' k (j k) = h (j k)
      · exact ⟨false, j, h1, hk⟩
      · push_neg at hk
        exact ⟨true, j, h1, fun k => ⟨h2 k, hk k⟩⟩
    · rw [Fintype.sum_bool]
      simp
  linarith

end Star

end IceFrost
