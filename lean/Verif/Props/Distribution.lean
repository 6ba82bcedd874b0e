import Verif.Toy
import Verif.Props.Below
import Verif.Props.Fresh
import Verif.Props.FreshSharing
import Verif.Props.Simulation
import Verif.Props.SignatureForms
import Verif.Props.Attacks
import Verif.Props.FinishExamples
import Mathlib.Probability.Distributions.Uniform

/-!
# C139: secrecy as probability

The counting statements of C10, C14, C97, C119 and C131 as statements about probability distributions. The random
generator is a tape of independent uniform scalars; the key generation and `new_dealer` are the model's functions run on
that tape.
-/

set_option linter.unusedSectionVars false
set_option linter.unusedSimpArgs false
set_option linter.unusedVariables false

namespace IceFrost

open Finset PMF

variable {F G R : Type} [Field F] [DecidableEq F] [AddCommGroup G] [Module F G] [DecidableEq G]

/-! ### Images of uniform distributions -/

theorem uniform_map_balanced {A B : Type} [Fintype A] [Nonempty A] [Fintype B] [Nonempty B] [DecidableEq B]
    (f : A → B) (k : ℕ) (hk : ∀ b, (univ.filter fun a => f a = b).card = k) :
    (uniformOfFintype A).map f = uniformOfFintype B := by
  classical
  have hA : Fintype.card A = Fintype.card B * k := by
    rw [← Finset.card_univ, Finset.card_eq_sum_card_fiberwise (f := f) (t := univ) (fun _ _ => mem_univ _)]
    simp [hk]
  have hk0 : k ≠ 0 := by
    rintro rfl
    exact Fintype.card_ne_zero (α := A) (by rw [hA, Nat.mul_zero])
  ext b
  rw [map_apply, tsum_fintype]
  simp only [uniformOfFintype_apply]
  rw [← Finset.sum_filter, Finset.sum_const, nsmul_eq_mul,
    show (univ.filter fun a => b = f a) = univ.filter fun a => f a = b from
      Finset.filter_congr fun a _ => eq_comm, hk, hA, Nat.cast_mul,
    ENNReal.mul_inv (Or.inr (ENNReal.natCast_ne_top _)) (Or.inr (by simpa using hk0)), mul_comm, mul_assoc,
    ENNReal.inv_mul_cancel (by simpa using hk0) (ENNReal.natCast_ne_top _), mul_one]

theorem uniform_map_hom {A B : Type} [AddGroup A] [AddGroup B] [Fintype A] [Fintype B] (f : A →+ B)
    (hf : Function.Surjective f) : (uniformOfFintype A).map f = uniformOfFintype B := by
  classical
  refine uniform_map_balanced f (univ.filter fun a => f a = 0).card fun b => ?_
  obtain ⟨a₀, rfl⟩ := hf b
  refine Finset.card_bij (fun a _ => a - a₀) (fun a ha => ?_) (fun a _ a' _ h => sub_left_injective h) fun a ha => ?_
  · rw [mem_filter] at ha ⊢
    exact ⟨mem_univ _, by rw [map_sub, ha.2, sub_self]⟩
  · rw [mem_filter] at ha
    exact ⟨a + a₀, by simp [ha.2], by simp⟩

theorem uniform_map_bijective {A B : Type} [Fintype A] [Nonempty A] [Fintype B] [Nonempty B] (f : A → B)
    (hf : Function.Bijective f) : (uniformOfFintype A).map f = uniformOfFintype B := by
  classical
  refine uniform_map_balanced f 1 fun b => ?_
  obtain ⟨a₀, rfl⟩ := hf.2 b
  rw [Finset.card_eq_one]
  exact ⟨a₀, by ext a; simp [hf.1.eq_iff]⟩

/-! ### The tape -/

/-- A tape of `N` scalars, as a random generator state: `randScalar` reads the next cell. -/
def Spec.tape {N : ℕ} (v : Fin N → F) (n : ℕ) : F := if h : n < N then v ⟨n, h⟩ else 0

/-- The coefficients returned by `new_dealer`. -/
def Spec.coefficientsOf : Res F G (Participant F G × List F × F) → List F
  | .ok r => r.2.1
  | .error _ => []

theorem coefficients_tape (S : Suite F G (Nat → F)) (hS : ∀ ρ, S.randScalar ρ = (ρ 0, fun n => ρ (n + 1)))
    (params : Params) (ht : params.t ≠ 0) (i : U32) (hi : i ≠ 0) {N : ℕ} (hN : params.t.toNat + 2 ≤ N)
    (v : Fin N → F) :
    Spec.coefficientsOf (newDealer S params i (Spec.tape v)) =
      List.ofFn fun k : Fin params.t.toNat => v ⟨2 + k, by omega⟩ := by
  obtain ⟨p, cs, dh, rng', h, _⟩ := newInternal_dealer S params ht i hi none (Spec.tape v)
  have hD : newDealer S params i (Spec.tape v) = .ok (p, cs, dh) := by unfold newDealer; rw [h]
  obtain ⟨-, -, e, -⟩ := C113_dealer S params i (Spec.tape v) p cs dh hD
  rw [hD]
  show cs = _
  rw [e]
  refine List.ext_getElem (by simp) fun k h1 h2 => ?_
  have hk : k < params.t.toNat := by simpa using h1
  simp only [List.getElem_map, List.getElem_range, scalar_tape S hS, List.getElem_ofFn, Spec.tape]
  rw [dif_pos (by omega)]

theorem uniform_cells [Fintype F] {t N : ℕ} (hN : t + 2 ≤ N) :
    (uniformOfFintype (Fin N → F)).map (fun v (k : Fin t) => v ⟨2 + k, by omega⟩) =
      uniformOfFintype (Fin t → F) := by
  refine uniform_map_hom (⟨⟨fun v (k : Fin t) => v ⟨2 + k, by omega⟩, rfl⟩, fun _ _ => rfl⟩ :
    (Fin N → F) →+ (Fin t → F)) fun w => ?_
  refine ⟨fun n => if h : 2 ≤ n.1 ∧ n.1 - 2 < t then w ⟨n.1 - 2, h.2⟩ else 0, ?_⟩
  funext k
  show (if h : 2 ≤ 2 + k.1 ∧ 2 + k.1 - 2 < t then w ⟨2 + k.1 - 2, h.2⟩ else 0) = w k
  rw [dif_pos ⟨by omega, by omega⟩]
  congr 1
  exact Fin.ext (by simp)

/-- C139: the coefficients of a dealer are uniformly distributed. -/
theorem C139_coefficients [Fintype F] (S : Suite F G (Nat → F))
    (hS : ∀ ρ, S.randScalar ρ = (ρ 0, fun n => ρ (n + 1))) (params : Params) (ht : params.t ≠ 0) (i : U32) (hi : i ≠ 0)
    {N : ℕ} (hN : params.t.toNat + 2 ≤ N) :
    (uniformOfFintype (Fin N → F)).map (fun v => Spec.coefficientsOf (newDealer S params i (Spec.tape v))) =
      (uniformOfFintype (Fin params.t.toNat → F)).map List.ofFn := by
  rw [← uniform_cells (F := F) hN, PMF.map_comp]
  congr 1
  funext v
  exact coefficients_tape S hS params ht i hi hN v

/-! ### Shares of fewer than `t` participants -/

/-- The secret of the polynomial `w` and its values at `J`. -/
def Spec.secretAndValues {t : ℕ} (J : List U32) (w : Fin t → F) : F × ({j // j ∈ J} → F) :=
  (Spec.polyEval (List.ofFn w) 0, fun j => Spec.polyEval (List.ofFn w) (j.1.toNat : F))

theorem secretAndValues_surj (hu : Suite.U32Inj F) (t : ℕ) (J : List U32) (hJ : J.Nodup) (h0 : 0 ∉ J)
    (hlt : J.length < t) : Function.Surjective (Spec.secretAndValues (F := F) (t := t) J) := by
  rintro ⟨s, y⟩
  obtain ⟨cs, ⟨hl, hs, hv⟩, -⟩ := C124_shares_uniform hu (J.length + 1) J hJ h0 rfl s
    (fun j => if h : j ∈ J then y ⟨j, h⟩ else 0)
  have he : ∀ x : F, Spec.polyEval (List.ofFn fun k : Fin t => cs.getD k 0) x = Spec.polyEval cs x := by
    intro x
    rw [polyEval_ofFn]
    unfold Spec.polyEval
    rw [← Finset.sum_range (fun k => cs.getD k 0 * x ^ k)]
    refine (Finset.sum_subset (Finset.range_mono (by omega)) fun k _ hk => ?_).symm
    rw [Finset.mem_range, not_lt] at hk
    rw [List.getD_eq_getElem?_getD, List.getElem?_eq_none hk, Option.getD_none, zero_mul]
  refine ⟨fun k => cs.getD k 0, Prod.ext ?_ (funext fun j => ?_)⟩
  · show Spec.polyEval _ 0 = s
    rw [he, Spec.polyEval_zero, hs]
  · show Spec.polyEval _ _ = y j
    rw [he, hv j.1 j.2, dif_pos j.2]

theorem secretAndValues_uniform [Fintype F] (hu : Suite.U32Inj F) (t : ℕ) (J : List U32) (hJ : J.Nodup) (h0 : 0 ∉ J)
    (hlt : J.length < t) :
    (uniformOfFintype (Fin t → F)).map (Spec.secretAndValues J) = uniformOfFintype (F × ({j // j ∈ J} → F)) := by
  have hadd : ∀ (w w' : Fin t → F) (x : F), Spec.polyEval (List.ofFn (w + w')) x =
      Spec.polyEval (List.ofFn w) x + Spec.polyEval (List.ofFn w') x := by
    intro w w' x
    simp only [polyEval_ofFn, Pi.add_apply, add_mul, Finset.sum_add_distrib]
  have hzero : ∀ x : F, Spec.polyEval (List.ofFn (0 : Fin t → F)) x = 0 := by
    intro x
    simp [polyEval_ofFn]
  refine uniform_map_hom (⟨⟨Spec.secretAndValues J, ?_⟩, ?_⟩ : (Fin t → F) →+ F × ({j // j ∈ J} → F)) ?_
  · refine Prod.ext (hzero _) (funext fun j => hzero _)
  · intro w w'
    refine Prod.ext (hadd _ _ _) (funext fun j => hadd _ _ _)
  · exact secretAndValues_surj hu t J hJ h0 hlt

/-- C139, one dealer: for fewer than `t` participants `J`, the dealer's secret together with the shares computed for
`J` is uniformly distributed. So the shares are independent of the secret, and of each other. -/
theorem C139_shares [Fintype F] (hu : Suite.U32Inj F) (S : Suite F G (Nat → F))
    (hS : ∀ ρ, S.randScalar ρ = (ρ 0, fun n => ρ (n + 1))) (params : Params) (ht : params.t ≠ 0) (i : U32) (hi : i ≠ 0)
    {N : ℕ} (hN : params.t.toNat + 2 ≤ N) (J : List U32) (hJ : J.Nodup) (h0 : 0 ∉ J)
    (hlt : J.length < params.t.toNat) :
    (uniformOfFintype (Fin N → F)).map (fun v =>
      let cs := Spec.coefficientsOf (newDealer S params i (Spec.tape v))
      (cs.headD 0, fun j : {j // j ∈ J} => (evaluatePolynomial i j.1 cs).eval)) =
      uniformOfFintype (F × ({j // j ∈ J} → F)) := by
  rw [← secretAndValues_uniform hu params.t.toNat J hJ h0 hlt, ← uniform_cells (F := F) hN, PMF.map_comp]
  congr 1
  funext v
  simp only [coefficients_tape S hS params ht i hi hN v, evaluatePolynomial_eq, Function.comp, Spec.secretAndValues,
    ← Spec.polyEval_zero, u32F]

/-- The probability that a function of the second component of a uniform pair hits the first. -/
theorem guess_uniform {A B : Type} [Fintype A] [Nonempty A] [Fintype B] [Nonempty B] (f : B → A) :
    (uniformOfFintype (A × B)).toOuterMeasure {p | f p.2 = p.1} = (Fintype.card A : ENNReal)⁻¹ := by
  classical
  rw [toOuterMeasure_uniformOfFintype_apply]
  have hc : Fintype.card {p : A × B | f p.2 = p.1} = Fintype.card B := by
    refine Fintype.card_congr ⟨fun p => p.1.2, fun b => ⟨(f b, b), rfl⟩, ?_, fun b => rfl⟩
    rintro ⟨⟨a, b⟩, h⟩
    exact Subtype.ext (Prod.ext h rfl)
  rw [hc, Fintype.card_prod, Nat.cast_mul, div_eq_mul_inv, ENNReal.mul_inv (Or.inr (ENNReal.natCast_ne_top _))
    (Or.inl (ENNReal.natCast_ne_top _)), mul_comm, mul_assoc, ENNReal.inv_mul_cancel
    (by simp) (ENNReal.natCast_ne_top _), mul_one]

/-- C139: no function of the shares of fewer than `t` participants finds the dealer's secret with a probability other
than that of a blind guess. -/
theorem C139_guess_secret [Fintype F] (hu : Suite.U32Inj F) (S : Suite F G (Nat → F))
    (hS : ∀ ρ, S.randScalar ρ = (ρ 0, fun n => ρ (n + 1))) (params : Params) (ht : params.t ≠ 0) (i : U32) (hi : i ≠ 0)
    {N : ℕ} (hN : params.t.toNat + 2 ≤ N) (J : List U32) (hJ : J.Nodup) (h0 : 0 ∉ J)
    (hlt : J.length < params.t.toNat) (A : ({j // j ∈ J} → F) → F) :
    (uniformOfFintype (Fin N → F)).toOuterMeasure {v |
      let cs := Spec.coefficientsOf (newDealer S params i (Spec.tape v))
      A (fun j => (evaluatePolynomial i j.1 cs).eval) = cs.headD 0} = (Fintype.card F : ENNReal)⁻¹ := by
  rw [← guess_uniform A, ← C139_shares hu S hS params ht i hi hN J hJ h0 hlt, toOuterMeasure_map_apply]
  rfl

/-! ### The whole key generation -/

/-- The coefficients of the group polynomial. -/
def Spec.groupPolynomial (t : ℕ) (D : List U32) (cs : U32 → List F) (k : Fin t) : F :=
  Spec.interpolate D fun i => (cs i).getD k 0

theorem groupPolynomial_eval (t : ℕ) (D : List U32) (cs : U32 → List F) (hcs : ∀ k ∈ D, (cs k).length ≤ t) (x : F) :
    Spec.polyEval (List.ofFn (Spec.groupPolynomial t D cs)) x = Spec.interpolate D fun k => Spec.polyEval (cs k) x := by
  rw [polyEval_ofFn]
  unfold Spec.groupPolynomial Spec.interpolate
  simp only [Finset.sum_mul]
  rw [Finset.sum_comm]
  refine Finset.sum_congr rfl fun i hi => ?_
  have hl := hcs i (List.mem_toFinset.mp hi)
  unfold Spec.polyEval
  rw [← Finset.sum_range (fun k => Spec.lagrange D i * (cs i).getD k 0 * x ^ k), Finset.mul_sum]
  symm
  rw [Finset.sum_subset (Finset.range_mono hl) fun k _ hk => ?_]
  · exact Finset.sum_congr rfl fun k _ => (mul_assoc _ _ _).symm
  · rw [Finset.mem_range, not_lt] at hk
    rw [List.getD_eq_getElem?_getD, List.getElem?_eq_none hk, Option.getD_none, zero_mul, mul_zero]

/-- What a trusted dealer with the polynomial `w` hands to the participants `J`: the group key and their signing keys. -/
def Spec.trustedDealer {t : ℕ} (S : Suite F G R) (J : List U32) (w : Fin t → F) (j : {j // j ∈ J}) :
    Res F G (G × IndividualSigningKey F) :=
  .ok (Spec.polyEval (List.ofFn w) 0 • S.gen, ⟨j.1, Spec.polyEval (List.ofFn w) (j.1.toNat : F)⟩)

theorem groupPolynomial_uniform [Fintype F] (hu : Suite.U32Inj F) (t : ℕ) (D : List U32) (h0 : 0 ∉ D) (l : U32)
    (hl : l ∈ D) (others : U32 → List F) :
    (uniformOfFintype (Fin t → F)).map (fun w => Spec.groupPolynomial t D (Spec.dealtBy l (List.ofFn w) others)) =
      uniformOfFintype (Fin t → F) := by
  have hne : (Spec.lagrange D l : F) ≠ 0 := lagrange_ne_zero hu D h0 l
  have e : ∀ w : Fin t → F, Spec.groupPolynomial t D (Spec.dealtBy l (List.ofFn w) others) =
      fun k => Spec.lagrange D l * w k +
        ∑ i ∈ D.toFinset.erase l, Spec.lagrange D i * (others i).getD k 0 := by
    intro w
    funext k
    unfold Spec.groupPolynomial Spec.interpolate
    rw [← Finset.add_sum_erase _ _ (List.mem_toFinset.mpr hl)]
    congr 1
    · simp [Spec.dealtBy, List.getD_eq_getElem?_getD]
    · refine Finset.sum_congr rfl fun i hi => ?_
      simp only [Spec.dealtBy, if_neg (Finset.ne_of_mem_erase hi)]
  refine uniform_map_bijective _ ⟨fun w w' h => ?_, fun y => ?_⟩
  · funext k
    have := congrFun h k
    simp only [e] at this
    exact mul_left_cancel₀ hne (add_right_cancel this)
  · refine ⟨fun k => (Spec.lagrange D l)⁻¹ *
      (y k - ∑ i ∈ D.toFinset.erase l, Spec.lagrange D i * (others i).getD k 0), ?_⟩
    simp only [e]
    funext k
    rw [mul_inv_cancel_left₀ hne, sub_add_cancel]

/-- C139, the key generation is a trusted dealer: let dealer `l` run `new_dealer` on a tape of uniform scalars and fix the
polynomials of the other dealers beforehand, whatever they are. For every set of participants `J`, whatever its size, the
results of `finish` of the participants in `J` have jointly the same distribution as what a trusted dealer hands them who
draws one uniform polynomial of `t` coefficients. -/
theorem C139_trusted_dealer [Fintype F] {S : Suite F G (Nat → F)} (hg : S.GroupLaws) (hu : Suite.U32Inj F)
    (hS : ∀ ρ, S.randScalar ρ = (ρ 0, fun n => ρ (n + 1))) (params : Params) (ht : params.t ≠ 0) {N : ℕ}
    (hN : params.t.toNat + 2 ≤ N) (D : List U32) (hD : D.Nodup) (h0 : 0 ∉ D) (l : U32) (hl : l ∈ D)
    (others : U32 → List F) (ho : ∀ k ∈ D, k ≠ l → others k ≠ [] ∧ (others k).length ≤ params.t.toNat) (J : List U32)
    (d : (Fin N → F) → {j // j ∈ J} → RoundTwo F G) (m : (Fin N → F) → {j // j ∈ J} → BMap (SecretShare F))
    (hi : ∀ v j, (d v j).state.index = j.1)
    (hV : ∀ v j, HoldsVerified S (d v j) (dealerMap S D (Spec.dealtBy l
      (Spec.coefficientsOf (newDealer S params l (Spec.tape v))) others)) (m v j)) :
    (uniformOfFintype (Fin N → F)).map (fun v j => (d v j).finish) =
      (uniformOfFintype (Fin params.t.toNat → F)).map (Spec.trustedDealer S J) := by
  have htn : params.t.toNat ≠ 0 := fun h => ht (UInt32.toNat_inj.mp (by simpa using h))
  have hl0 : l ≠ 0 := fun h => h0 (h ▸ hl)
  rw [← groupPolynomial_uniform hu params.t.toNat D h0 l hl others, ← uniform_cells (F := F) hN, PMF.map_comp,
    PMF.map_comp]
  congr 1
  funext v j
  have hV' := hV v j
  rw [coefficients_tape S hS params ht l hl0 hN v] at hV'
  have hlen : ∀ k ∈ D, Spec.dealtBy l (List.ofFn fun k : Fin params.t.toNat => v ⟨2 + k, by omega⟩) others k ≠ [] ∧
      (Spec.dealtBy l (List.ofFn fun k : Fin params.t.toNat => v ⟨2 + k, by omega⟩) others k).length ≤
        params.t.toNat := by
    intro k hk
    unfold Spec.dealtBy
    split
    · refine ⟨fun h => htn (by simpa using congrArg List.length h), by simp⟩
    · next hkl => exact ho k hk hkl
  rw [C119_finish hg hu D hD h0 _ (fun k hk => (hlen k hk).1) (d v j) (m v j) hV', hi v j]
  show _ = Spec.trustedDealer S J (Spec.groupPolynomial params.t.toNat D _) j
  unfold Spec.trustedDealer
  rw [groupPolynomial_eval _ _ _ (fun k hk => (hlen k hk).2), groupPolynomial_eval _ _ _ (fun k hk => (hlen k hk).2)]
  rfl

/-- C139: fewer than `t` participants cannot do better than guess. Whatever function `A` they apply to their signing keys
after the key generation of `C139_trusted_dealer`, it yields the group secret with probability `1 / |F|`. -/
theorem C139_guess_group_secret [Fintype F] {S : Suite F G (Nat → F)} (hg : S.GroupLaws) (hu : Suite.U32Inj F)
    (hS : ∀ ρ, S.randScalar ρ = (ρ 0, fun n => ρ (n + 1))) (params : Params) (ht : params.t ≠ 0) {N : ℕ}
    (hN : params.t.toNat + 2 ≤ N) (D : List U32) (hD : D.Nodup) (h0 : 0 ∉ D) (l : U32) (hl : l ∈ D)
    (others : U32 → List F) (ho : ∀ k ∈ D, k ≠ l → others k ≠ [] ∧ (others k).length ≤ params.t.toNat) (J : List U32)
    (hJ : J.Nodup) (hJ0 : 0 ∉ J) (hne : J ≠ []) (hlt : J.length < params.t.toNat)
    (d : (Fin N → F) → {j // j ∈ J} → RoundTwo F G) (m : (Fin N → F) → {j // j ∈ J} → BMap (SecretShare F))
    (hi : ∀ v j, (d v j).state.index = j.1)
    (hV : ∀ v j, HoldsVerified S (d v j) (dealerMap S D (Spec.dealtBy l
      (Spec.coefficientsOf (newDealer S params l (Spec.tape v))) others)) (m v j))
    (A : ({j // j ∈ J} → F) → F) :
    (uniformOfFintype (Fin N → F)).toOuterMeasure {v | ∃ Y keys, (∀ j, (d v j).finish = .ok (Y, ⟨j.1, keys j⟩)) ∧
      A keys • S.gen = Y} = (Fintype.card F : ENNReal)⁻¹ := by
  obtain ⟨j₀, hj₀⟩ := List.exists_mem_of_ne_nil J hne
  have h1 := toOuterMeasure_map_apply (p := uniformOfFintype (Fin N → F)) (f := fun v j => (d v j).finish)
    {r | ∃ Y keys, (∀ j, r j = .ok (Y, ⟨j.1, keys j⟩)) ∧ A keys • S.gen = Y}
  rw [C139_trusted_dealer hg hu hS params ht hN D hD h0 l hl others ho J d m hi hV] at h1
  have h2 := toOuterMeasure_map_apply (p := uniformOfFintype (Fin params.t.toNat → F)) (f := Spec.secretAndValues J)
    {p | A p.2 = p.1}
  rw [secretAndValues_uniform hu params.t.toNat J hJ hJ0 hlt, guess_uniform] at h2
  refine h1.symm.trans ?_
  rw [h2, toOuterMeasure_map_apply]
  congr 1
  ext w
  constructor
  · rintro ⟨Y, keys, hk, hA⟩
    have e1 := hk ⟨j₀, hj₀⟩
    unfold Spec.trustedDealer at e1
    have e2 := (Prod.mk.inj (Except.ok.inj e1)).1
    have e3 : keys = fun j => Spec.polyEval (List.ofFn w) (j.1.toNat : F) := by
      funext j
      have := (Prod.mk.inj (Except.ok.inj (hk j))).2
      exact (IndividualSigningKey.mk.inj this).2.symm
    rw [← e2, e3] at hA
    exact hg.gen_inj _ _ hA
  · intro h
    have h' : A (fun j => Spec.polyEval (List.ofFn w) (j.1.toNat : F)) = Spec.polyEval (List.ofFn w) 0 := h
    exact ⟨_, _, fun j => rfl, by rw [h']⟩

/-! ### Influence on the group key -/

/-- The secret coefficient of a dealer is uniformly distributed. -/
theorem uniform_cell [Fintype F] {N : ℕ} (n : Fin N) :
    (uniformOfFintype (Fin N → F)).map (fun v => v n) = uniformOfFintype F :=
  uniform_map_hom (⟨⟨fun v => v n, rfl⟩, fun _ _ => rfl⟩ : (Fin N → F) →+ F) fun x => ⟨fun _ => x, rfl⟩

theorem lagrange_without {D : List U32} (hu : Suite.U32Inj F) (l a : U32) (hl : l ≠ 0) (ha : a ∈ D) (hal : a ≠ l) (h0 : 0 ∉ D) :
    (Spec.lagrange D l : F) ≠ Spec.lagrange (D.filter (· ≠ a)) l := by
  have e : D.toFinset.erase l = insert a ((D.filter (· ≠ a)).toFinset.erase l) := by
    ext k
    by_cases hk : k = a
    · subst hk; simp [ha, hal]
    · simp [hk]
  have hne : (Spec.lagrange (D.filter (· ≠ a)) l : F) ≠ 0 :=
    lagrange_ne_zero hu _ (fun h => h0 (List.mem_of_mem_filter h)) l
  have hd : (a.toNat : F) - (l.toNat : F) ≠ 0 := fun h => hal (hu _ _ (sub_eq_zero.mp h))
  have hz : (l.toNat : F) ≠ 0 := fun h => hl (hu l 0 (by simpa [u32F] using h))
  intro h
  have : (Spec.lagrange D l : F) =
      (a.toNat : F) / ((a.toNat : F) - (l.toNat : F)) * Spec.lagrange (D.filter (· ≠ a)) l := by
    unfold Spec.lagrange
    rw [e, Finset.prod_insert (by simp)]
  rw [this] at h
  have h1 := mul_right_cancel₀ hne (h.trans (one_mul _).symm)
  rw [div_eq_one_iff_eq hd] at h1
  exact hz (by rw [← sub_sub_cancel (a.toNat : F) (l.toNat : F), ← h1, sub_self])

theorem dealerMap_heads (S : Suite F G R) {D : List U32} (hD : D.Nodup) (cs : U32 → List F) (hcs : ∀ k ∈ D, cs k ≠ [])
    (k : U32) (hk : k ∈ D) :
    (((dealerMap S D cs).get? k).map fun c => c.points.headD 0).getD 0 = (cs k).headD 0 • S.gen := by
  rw [(dealerMap_get S hD cs k _).mpr ⟨hk, rfl⟩]
  have := hcs k hk
  match h : cs k with
  | [] => exact absurd h this
  | c :: r => simp [commitPoints]

theorem interpolateG_keys (S : Suite F G R) {D : List U32} (hD : D.Nodup) (cs : U32 → List F)
    (hcs : ∀ k ∈ D, cs k ≠ []) (E : List U32) (hE : ∀ k ∈ E, k ∈ D) (E' : List U32) (hE' : ∀ k, k ∈ E' ↔ k ∈ E) :
    Spec.interpolateG F E' (fun k => (((dealerMap S D cs).get? k).map fun c => c.points.headD 0).getD 0) =
      Spec.interpolate E (fun k => (cs k).headD 0) • S.gen := by
  rw [interpolateG_congr (F := F) E' _ (fun k => (cs k).headD 0 • S.gen) fun k hk =>
    dealerMap_heads S hD cs hcs k (hE k ((hE' k).mp hk)), interpolate_list_congr (F := F) (fun k => (hE' k).symm)]
  unfold Spec.interpolateG Spec.interpolate
  rw [Finset.sum_smul]
  exact Finset.sum_congr rfl fun k _ => (mul_smul _ _ _).symm

/-- C139: with the other dealers' polynomials fixed beforehand, every group key is equally likely. -/
theorem C139_group_key [Fintype F] {S : Suite F G (Nat → F)} (hg : S.GroupLaws) (hu : Suite.U32Inj F)
    (hS : ∀ ρ, S.randScalar ρ = (ρ 0, fun n => ρ (n + 1))) (params : Params) (ht : params.t ≠ 0) {N : ℕ}
    (hN : params.t.toNat + 2 ≤ N) (D : List U32) (hD : D.Nodup) (h0 : 0 ∉ D) (l : U32) (hl : l ∈ D)
    (others : U32 → List F) (ho : ∀ k ∈ D, k ≠ l → others k ≠ []) (d : (Fin N → F) → RoundTwo F G)
    (m : (Fin N → F) → BMap (SecretShare F))
    (hV : ∀ v, HoldsVerified S (d v) (dealerMap S D (Spec.dealtBy l
      (Spec.coefficientsOf (newDealer S params l (Spec.tape v))) others)) (m v)) (y : G) :
    (uniformOfFintype (Fin N → F)).toOuterMeasure {v | ∃ sk, (d v).finish = .ok (y, sk)} =
      (Fintype.card F : ENNReal)⁻¹ := by
  have htn : params.t.toNat ≠ 0 := fun h => ht (UInt32.toNat_inj.mp (by simpa using h))
  have hl0 : l ≠ 0 := fun h => h0 (h ▸ hl)
  obtain ⟨z, rfl⟩ := hg.gen_surj y
  have hne : (Spec.lagrange D l : F) ≠ 0 := lagrange_ne_zero hu D h0 l
  set c : F := ∑ k ∈ D.toFinset.erase l, Spec.lagrange D k * (others k).headD 0 with hc
  have hset : {v | ∃ sk, (d v).finish = .ok (z • S.gen, sk)} =
      (fun v : Fin N → F => v ⟨2, by omega⟩) ⁻¹' {(Spec.lagrange D l)⁻¹ * (z - c)} := by
    ext v
    have hV' := hV v
    rw [coefficients_tape S hS params ht l hl0 hN v] at hV'
    have hcs : ∀ k ∈ D, Spec.dealtBy l (List.ofFn fun k : Fin params.t.toNat => v ⟨2 + k, by omega⟩) others k ≠ [] := by
      intro k hk
      unfold Spec.dealtBy
      split
      · exact fun h => htn (by simpa using congrArg List.length h)
      · next hkl => exact ho k hk hkl
    rw [Set.mem_preimage, Set.mem_singleton_iff, Set.mem_setOf_eq,
      finish_phase hg hu D hD h0 _ hcs (d v) (m v) hV']
    have e : Spec.interpolate D (fun k => (Spec.dealtBy l (List.ofFn fun k : Fin params.t.toNat => v ⟨2 + k, by omega⟩)
        others k).headD 0) = Spec.lagrange D l * v ⟨2, by omega⟩ + c := by
      unfold Spec.interpolate
      rw [← Finset.add_sum_erase _ _ (List.mem_toFinset.mpr hl), hc]
      congr 1
      · congr 1
        simp only [Spec.dealtBy, if_true]
        obtain ⟨n, hn⟩ := Nat.exists_eq_succ_of_ne_zero htn
        rw [List.headD_eq_head?_getD, List.head?_eq_getElem?, List.getElem?_ofFn]
        simp [hn]
      · refine Finset.sum_congr rfl fun i hi => ?_
        simp only [Spec.dealtBy, if_neg (Finset.ne_of_mem_erase hi)]
    rw [e]
    constructor
    · rintro ⟨sk, h⟩
      have := hg.gen_inj _ _ (Prod.mk.inj (Except.ok.inj h)).1
      rw [← this, add_sub_cancel_right, inv_mul_cancel_left₀ hne]
    · intro h
      exact ⟨_, by rw [h, mul_inv_cancel_left₀ hne, sub_add_cancel]⟩
  rw [hset, ← toOuterMeasure_map_apply, uniform_cell, toOuterMeasure_uniformOfFintype_apply]
  simp

/-- C139, negation: that only holds without complaints. Somebody who sees the commitments and may then file a complaint
(made of nothing) against one dealer `a` doubles the probability of a group key of their choice: all but one point `y`
come out with probability `2 / |F|`. -/
theorem C139_late_complaint [Fintype F] {S : Suite F G (Nat → F)} (hg : S.GroupLaws) (hu : Suite.U32Inj F)
    (hS : ∀ ρ, S.randScalar ρ = (ρ 0, fun n => ρ (n + 1))) (params : Params) (ht : params.t ≠ 0) {N : ℕ}
    (hN : params.t.toNat + 2 ≤ N) (D : List U32) (hD : D.Nodup) (h0 : 0 ∉ D) (l : U32) (hl : l ∈ D) (a : U32)
    (ha : a ∈ D) (hal : a ≠ l) (others : U32 → List F) (ho : ∀ k ∈ D, k ≠ l → others k ≠ []) :
    ∃ y₀ : G, ∀ y, y ≠ y₀ → ∃ complaints : BMap (VssCommitment G) → List (Complaint F G),
      ∀ (d : (Fin N → F) → RoundTwo F G) (m : (Fin N → F) → BMap (SecretShare F)),
        (∀ v, HoldsVerified S (d v) (dealerMap S D (Spec.dealtBy l
          (Spec.coefficientsOf (newDealer S params l (Spec.tape v))) others)) (m v)) →
        (uniformOfFintype (Fin N → F)).toOuterMeasure {v | ∃ d' keys sk,
          (d v).blame S (complaints (dealerMap S D (Spec.dealtBy l
            (Spec.coefficientsOf (newDealer S params l (Spec.tape v))) others))) = .ok (d', keys) ∧
          d'.finish = .ok (y, sk)} = 2 * (Fintype.card F : ENNReal)⁻¹ := by
  have htn : params.t.toNat ≠ 0 := fun h => ht (UInt32.toNat_inj.mp (by simpa using h))
  have hl0 : l ≠ 0 := fun h => h0 (h ▸ hl)
  have hlE : l ∈ D.filter (· ≠ a) := by simp [hl, hal.symm]
  have hne : (Spec.lagrange D l : F) ≠ 0 := lagrange_ne_zero hu D h0 l
  have hne' : (Spec.lagrange (D.filter (· ≠ a)) l : F) ≠ 0 :=
    lagrange_ne_zero hu _ (fun h => h0 (List.mem_of_mem_filter h)) l
  have hdiff := lagrange_without (F := F) hu l a hl0 ha hal h0
  set c : F := ∑ k ∈ D.toFinset.erase l, Spec.lagrange D k * (others k).headD 0 with hc
  set c' : F := ∑ k ∈ (D.filter (· ≠ a)).toFinset.erase l,
    Spec.lagrange (D.filter (· ≠ a)) k * (others k).headD 0 with hc'
  set lam : F := Spec.lagrange D l with hlam
  set lam' : F := Spec.lagrange (D.filter (· ≠ a)) l with hlam'
  refine ⟨((lam' - lam)⁻¹ * (lam' * c - lam * c')) • S.gen, fun y hy => ?_⟩
  obtain ⟨z, rfl⟩ := hg.gen_surj y
  refine ⟨fun comms => if Spec.interpolateG F comms.keys
    (fun k => ((comms.get? k).map fun c => c.points.headD 0).getD 0) = z • S.gen then [] else [bogus a],
    fun d m hV => ?_⟩
  have hs : lam⁻¹ * (z - c) ≠ lam'⁻¹ * (z - c') := by
    intro h
    apply hy
    congr 1
    have h1 : lam' * (z - c) = lam * (z - c') := by
      have := congrArg (fun x => lam' * (lam * x)) h
      simp only [mul_inv_cancel_left₀ hne] at this
      rw [this, mul_left_comm, mul_inv_cancel_left₀ hne']
    have h2 : lam' - lam ≠ 0 := sub_ne_zero.mpr hdiff.symm
    rw [eq_inv_mul_iff_mul_eq₀ h2]
    linear_combination h1
  have hset : {v | ∃ d' keys sk, (d v).blame S ((fun comms => if Spec.interpolateG F comms.keys
      (fun k => ((comms.get? k).map fun c => c.points.headD 0).getD 0) = z • S.gen then [] else [bogus a])
        (dealerMap S D (Spec.dealtBy l (Spec.coefficientsOf (newDealer S params l (Spec.tape v))) others))) =
          .ok (d', keys) ∧ d'.finish = .ok (z • S.gen, sk)} =
      (fun v : Fin N → F => v ⟨2, by omega⟩) ⁻¹' {lam⁻¹ * (z - c), lam'⁻¹ * (z - c')} := by
    ext v
    have hV' := hV v
    rw [Set.mem_setOf_eq]
    rw [coefficients_tape S hS params ht l hl0 hN v] at hV' ⊢
    set cs := Spec.dealtBy l (List.ofFn fun k : Fin params.t.toNat => v ⟨2 + k, by omega⟩) others with hcsdef
    have hcs : ∀ k ∈ D, cs k ≠ [] := by
      intro k hk
      rw [hcsdef]
      unfold Spec.dealtBy
      split
      · exact fun h => htn (by simpa using congrArg List.length h)
      · next hkl => exact ho k hk hkl
    have e : ∀ E : List U32, l ∈ E → Spec.interpolate E (fun k => (cs k).headD 0) =
        Spec.lagrange E l * v ⟨2, by omega⟩ + ∑ k ∈ E.toFinset.erase l, Spec.lagrange E k * (others k).headD 0 := by
      intro E hlE
      unfold Spec.interpolate
      rw [← Finset.add_sum_erase _ _ (List.mem_toFinset.mpr hlE)]
      congr 1
      · congr 1
        simp only [hcsdef, Spec.dealtBy, if_true]
        obtain ⟨n, hn⟩ := Nat.exists_eq_succ_of_ne_zero htn
        rw [List.headD_eq_head?_getD, List.head?_eq_getElem?, List.getElem?_ofFn]
        simp [hn]
      · refine Finset.sum_congr rfl fun i hi => ?_
        simp only [hcsdef, Spec.dealtBy, if_neg (Finset.ne_of_mem_erase hi)]
    have hY := interpolateG_keys S hD cs hcs D (fun _ h => h) _ (dealerMap_keys S D cs)
    rw [e D hl, ← hlam, ← hc] at hY
    have hbl := finish_after_blame hu (d v) _ (m v) (dealerMap_ok S hD h0 cs hcs) hV'
    have hx : ∀ (μ k x : F), μ ≠ 0 → ((μ * x + k) • S.gen = z • S.gen ↔ x = μ⁻¹ * (z - k)) := by
      intro μ k x hμ
      constructor
      · intro h
        rw [← hg.gen_inj _ _ h, add_sub_cancel_right, inv_mul_cancel_left₀ hμ]
      · rintro rfl
        rw [mul_inv_cancel_left₀ hμ, sub_add_cancel]
    rw [Set.mem_preimage, Set.mem_insert_iff, Set.mem_singleton_iff]
    beta_reduce
    rw [hY]
    by_cases hp : (lam * v ⟨2, by omega⟩ + c) • S.gen = z • S.gen
    · rw [if_pos hp]
      obtain ⟨d', keys, sk, h1, h2⟩ := hbl []
      rw [show (dealerMap S D cs).keys.filter (· ∉ ([] : List (Complaint F G)).map (verdict S (d v).state
        (dealerMap S D cs))) = (dealerMap S D cs).keys from by simp, hY, hp] at h2
      exact ⟨fun _ => Or.inl ((hx _ _ _ hne).mp hp), fun _ => ⟨d', keys, sk, h1, h2⟩⟩
    · rw [if_neg hp]
      obtain ⟨d', keys, sk, h1, h2⟩ := hbl [bogus a]
      have hv : [(bogus a : Complaint F G)].map (verdict S (d v).state (dealerMap S D cs)) = [a] := by
        rw [List.map_cons, List.map_nil]
        congr 1
        exact if_neg fun h => h.1 rfl
      rw [hv, interpolateG_keys S hD cs hcs (D.filter (· ≠ a)) (fun k hk => List.mem_of_mem_filter hk) _ (by
        intro k
        rw [List.mem_filter, List.mem_filter, dealerMap_keys]
        simp), e _ hlE, ← hlam', ← hc'] at h2
      constructor
      · rintro ⟨d'', keys', sk', h3, h4⟩
        rw [h1] at h3
        obtain ⟨rfl, -⟩ := Prod.mk.inj (Except.ok.inj h3)
        rw [h2] at h4
        exact Or.inr ((hx _ _ _ hne').mp (Prod.mk.inj (Except.ok.inj h4)).1)
      · rintro (h | h)
        · exact absurd ((hx _ _ _ hne).mpr h) hp
        · refine ⟨d', keys, sk, h1, ?_⟩
          rw [h2, (hx _ _ _ hne').mpr h]
  refine (congrArg _ hset).trans ?_
  rw [← toOuterMeasure_map_apply, uniform_cell, toOuterMeasure_uniformOfFintype_apply, div_eq_mul_inv]
  congr 1
  classical
  rw [← Set.toFinset_card, Set.toFinset_insert, Set.toFinset_singleton, Finset.card_pair hs]
  rfl

/-! ### Proofs and signatures -/

/-- C139: for a given challenge, the transcript of an honest prover with a uniform nonce and that of the simulator with
a uniform response have the same distribution. -/
theorem C139_proof_simulated [Fintype F] (S : Suite F G R) (sk c : F) :
    (uniformOfFintype F).map (fun k => (k • S.gen, c, k + sk * c)) =
      (uniformOfFintype F).map (fun r => (r • S.gen - c • (sk • S.gen), c, r)) := by
  obtain ⟨h1, h2⟩ := C14_transcripts_equal S sk c
  conv_rhs => rw [← uniform_map_bijective _ h1, PMF.map_comp]
  congr 1
  funext k
  exact Prod.ext (h2 k) rfl

/-- C139: for a given binding factor and challenge, what a signer with uniform nonces shows (its two commitments and its
response) has the same distribution as what the simulator shows, who does not know the signing key. -/
theorem C139_signature_simulated [Fintype F] (S : Suite F G R) (key ρ w : F) :
    (uniformOfFintype (F × F)).map (fun n => Spec.shownBySigner S key ρ w n.1 n.2) =
      (uniformOfFintype (F × F)).map (fun n => Spec.shownBySimulator S (key • S.gen) ρ w n.1 n.2) := by
  obtain ⟨φ, h1, h2⟩ := C97_simulation S key ρ w
  conv_rhs => rw [← uniform_map_bijective _ h1, PMF.map_comp]
  congr 1
  funext n
  exact h2 n.1 n.2

/-! ### Concrete sessions -/

section Examples
open Toy

/-- The toy suite with a tape as random generator. -/
def tapeSuite : Suite Fp Fp (Nat → Fp) :=
  { gen := suite.gen, contextString := suite.contextString, fieldHash := suite.fieldHash,
    sha256FieldHash := suite.sha256FieldHash, digest := suite.digest, hashLen := suite.hashLen, encG := suite.encG,
    decG := suite.decG, sizeG := suite.sizeG, encF := suite.encF, decF := suite.decF, sizeF := suite.sizeF,
    kdf := suite.kdf, nonceSize := suite.nonceSize, aeadEnc := suite.aeadEnc, aeadDec := suite.aeadDec,
    randScalar := fun ρ => (ρ 0, fun n => ρ (n + 1)),
    randBytes := fun k ρ => (leBytes k (ρ 0).val, fun n => ρ (n + 1)) }

theorem tape_laws : tapeSuite.GroupLaws := ⟨group_laws.gen_inj, group_laws.gen_surj⟩

/-- The polynomials of the dealers 2 and 3: the first short, the second of full length. -/
def tapeOthers (k : U32) : List Fp := if k = 2 then [7] else [4, 0, 9]

/-- Two participants, fewer than the threshold of three. -/
def tapeTwo : List U32 := [2, 4]

/-- What participant `j` holds after dealer 1 has dealt with the tape `v` and the others with `tapeOthers`. -/
def tapeState (v : Fin 5 → Fp) (j : U32) : RoundTwo Fp Fp :=
  honestState tapeSuite ⟨4, 3⟩ [1, 2, 3] (Spec.dealtBy 1
    (Spec.coefficientsOf (newDealer tapeSuite ⟨4, 3⟩ 1 (Spec.tape v))) tapeOthers) j

example : Spec.coefficientsOf (newDealer tapeSuite ⟨4, 3⟩ 1 (Spec.tape ![11, 12, 13, 14, 15])) = [13, 14, 15] := by
  rw [coefficients_tape tapeSuite (fun _ => rfl) ⟨4, 3⟩ (by decide) 1 (by decide) (N := 5) (by decide)]
  decide +kernel

example [Fintype Fp] : (uniformOfFintype (Fin 5 → Fp)).map
    (fun v => Spec.coefficientsOf (newDealer tapeSuite ⟨4, 3⟩ 1 (Spec.tape v))) =
      (uniformOfFintype (Fin 3 → Fp)).map List.ofFn :=
  C139_coefficients tapeSuite (fun _ => rfl) ⟨4, 3⟩ (by decide) 1 (by decide) (by decide)

example [Fintype Fp] : (uniformOfFintype (Fin 5 → Fp)).map (fun v =>
    let cs := Spec.coefficientsOf (newDealer tapeSuite ⟨4, 3⟩ 1 (Spec.tape v))
    (cs.headD 0, fun j : {j // j ∈ tapeTwo} => (evaluatePolynomial 1 j.1 cs).eval)) =
      uniformOfFintype (Fp × ({j // j ∈ tapeTwo} → Fp)) :=
  C139_shares u32_inj tapeSuite (fun _ => rfl) ⟨4, 3⟩ (by decide) 1 (by decide) (N := 5) (by decide) tapeTwo (by decide)
    (by decide) (by decide)

/-- Adding up the shares is not a good strategy. -/
def tapeAdd (y : {j // j ∈ tapeTwo} → Fp) : Fp := y ⟨2, by decide⟩ + y ⟨4, by decide⟩

example [Fintype Fp] : (uniformOfFintype (Fin 5 → Fp)).toOuterMeasure {v |
    let cs := Spec.coefficientsOf (newDealer tapeSuite ⟨4, 3⟩ 1 (Spec.tape v))
    tapeAdd (fun j => (evaluatePolynomial 1 j.1 cs).eval) = cs.headD 0} = (Fintype.card Fp : ENNReal)⁻¹ :=
  C139_guess_secret u32_inj tapeSuite (fun _ => rfl) ⟨4, 3⟩ (by decide) 1 (by decide) (N := 5) (by decide) tapeTwo
    (by decide) (by decide) (by decide) tapeAdd

/-- The shares in `tapeState`. -/
def tapeShares (v : Fin 5 → Fp) (j : U32) : BMap (SecretShare Fp) :=
  BMap.ofList ([1, 2, 3].map fun l => (l, evaluatePolynomial l j (Spec.dealtBy 1
    (Spec.coefficientsOf (newDealer tapeSuite ⟨4, 3⟩ 1 (Spec.tape v))) tapeOthers l)))

theorem tapeState_holds (v : Fin 5 → Fp) (j : U32) : HoldsVerified tapeSuite (tapeState v j)
    (dealerMap tapeSuite [1, 2, 3] (Spec.dealtBy 1
      (Spec.coefficientsOf (newDealer tapeSuite ⟨4, 3⟩ 1 (Spec.tape v))) tapeOthers)) (tapeShares v j) :=
  honestState_holds tapeSuite ⟨4, 3⟩ (by decide) _ j

example [Fintype Fp] : (uniformOfFintype (Fin 5 → Fp)).map
    (fun v (j : {j : U32 // j ∈ [1, 2, 3, 4]}) => (tapeState v j.1).finish) =
      (uniformOfFintype (Fin 3 → Fp)).map (Spec.trustedDealer tapeSuite [1, 2, 3, 4]) :=
  C139_trusted_dealer tape_laws u32_inj (fun _ => rfl) ⟨4, 3⟩ (by decide) (by decide) [1, 2, 3] (by decide) (by decide) 1
    (by decide) tapeOthers (by decide) [1, 2, 3, 4] (fun v j => tapeState v j.1) (fun v j => tapeShares v j.1) (fun _ _ => rfl) (fun v j => tapeState_holds v j.1)

example [Fintype Fp] (A : ({j // j ∈ tapeTwo} → Fp) → Fp) :
    (uniformOfFintype (Fin 5 → Fp)).toOuterMeasure {v | ∃ Y keys,
      (∀ j : {j // j ∈ tapeTwo}, (tapeState v j.1).finish = .ok (Y, ⟨j.1, keys j⟩)) ∧
        A keys • tapeSuite.gen = Y} = (Fintype.card Fp : ENNReal)⁻¹ :=
  C139_guess_group_secret tape_laws u32_inj (fun _ => rfl) ⟨4, 3⟩ (by decide) (by decide) [1, 2, 3] (by decide)
    (by decide) 1 (by decide) tapeOthers (by decide) tapeTwo (by decide) (by decide) (by decide) (by decide)
    (fun v j => tapeState v j.1) (fun v j => tapeShares v j.1) (fun _ _ => rfl) (fun v j => tapeState_holds v j.1) A

example [Fintype Fp] (y : Fp) : (uniformOfFintype (Fin 5 → Fp)).toOuterMeasure
    {v | ∃ sk, (tapeState v 4).finish = .ok (y, sk)} = (Fintype.card Fp : ENNReal)⁻¹ :=
  C139_group_key tape_laws u32_inj (fun _ => rfl) ⟨4, 3⟩ (by decide) (by decide) [1, 2, 3] (by decide) (by decide) 1
    (by decide) tapeOthers (by decide) (fun v => tapeState v 4) (fun v => tapeShares v 4) (fun v => tapeState_holds v 4) y

example [Fintype Fp] : ∃ y₀ : Fp, ∀ y, y ≠ y₀ → ∃ complaints : BMap (VssCommitment Fp) → List (Complaint Fp Fp),
    (uniformOfFintype (Fin 5 → Fp)).toOuterMeasure {v | ∃ d' keys sk,
      (tapeState v 4).blame tapeSuite (complaints (dealerMap tapeSuite [1, 2, 3] (Spec.dealtBy 1
        (Spec.coefficientsOf (newDealer tapeSuite ⟨4, 3⟩ 1 (Spec.tape v))) tapeOthers))) = .ok (d', keys) ∧
      d'.finish = .ok (y, sk)} = 2 * (Fintype.card Fp : ENNReal)⁻¹ := by
  obtain ⟨y₀, h⟩ := C139_late_complaint tape_laws u32_inj (fun _ => rfl) ⟨4, 3⟩ (by decide) (N := 5) (by decide)
    [1, 2, 3] (by decide) (by decide) 1 (by decide) 2 (by decide) (by decide) tapeOthers (by decide)
  refine ⟨y₀, fun y hy => ?_⟩
  obtain ⟨c, hc⟩ := h y hy
  exact ⟨c, hc (fun v => tapeState v 4) (fun v => tapeShares v 4) (fun v => tapeState_holds v 4)⟩

example [Fintype Fp] : (uniformOfFintype Fp).map (fun k => (k • suite.gen, (5 : Fp), k + 9 * 5)) =
    (uniformOfFintype Fp).map (fun r => (r • suite.gen - (5 : Fp) • ((9 : Fp) • suite.gen), 5, r)) :=
  C139_proof_simulated suite 9 5

example [Fintype Fp] : (uniformOfFintype (Fp × Fp)).map (fun n => Spec.shownBySigner suite 9 3 4 n.1 n.2) =
    (uniformOfFintype (Fp × Fp)).map (fun n => Spec.shownBySimulator suite ((9 : Fp) • suite.gen) 3 4 n.1 n.2) :=
  C139_signature_simulated suite 9 3 4

end Examples

end IceFrost
