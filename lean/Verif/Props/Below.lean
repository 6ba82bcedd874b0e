import Verif.Props.SignAny
import Verif.Props.Secrecy
import Verif.Toy
import Mathlib.Data.Fintype.BigOperators
import Mathlib.Data.Fintype.Pi

/-! # C119: what fewer than `t` signers can expect -/

set_option linter.unusedSectionVars false
set_option linter.unusedSimpArgs false

namespace IceFrost

open Finset

variable {F G R : Type} [Field F] [DecidableEq F] [AddCommGroup G] [Module F G] [DecidableEq G]

/-- The group secret of dealers `D` with coefficient lists `cs`. -/
def Spec.groupSecret (D : List U32) (cs : U32 → List F) : F := Spec.interpolate D fun k => Spec.polyEval (cs k) 0

/-- The signing key that participant `j` derives from the shares of dealers `D` with coefficient lists `cs`. -/
def Spec.signingKey (D : List U32) (cs : U32 → List F) (j : U32) : F :=
  Spec.interpolate D fun k => Spec.polyEval (cs k) (j.toNat : F)

theorem card_shift {A : Type} [AddGroup A] [Fintype A] [Fintype F] (P : A → Prop) [DecidablePred P]
    (e : A → F) (c : F) (hc : c ≠ 0) (sh : F → A) (he : ∀ v a, e (v + sh a) = e v + a * c)
    (hP : ∀ v a, P (v + sh a) ↔ P v) :
    Fintype.card F * (univ.filter fun v : A => P v ∧ e v = 0).card = (univ.filter P).card := by
  classical
  have hfib : ∀ x : F, ((univ.filter P).filter fun v => e v = x).card =
      (univ.filter fun v : A => P v ∧ e v = 0).card := by
    intro x
    refine Finset.card_bij' (fun v _ => v + sh (-(x * c⁻¹))) (fun v _ => v - sh (-(x * c⁻¹))) ?_ ?_ ?_ ?_
    · intro v hv
      simp only [mem_filter, mem_univ, true_and] at hv ⊢
      refine ⟨(hP _ _).mpr hv.1, ?_⟩
      rw [he, hv.2]
      field_simp
      ring
    · intro v hv
      simp only [mem_filter, mem_univ, true_and] at hv ⊢
      have h1 := he (v - sh (-(x * c⁻¹))) (-(x * c⁻¹))
      have h2 := hP (v - sh (-(x * c⁻¹))) (-(x * c⁻¹))
      rw [sub_add_cancel] at h1 h2
      refine ⟨h2.mp hv.1, ?_⟩
      rw [hv.2] at h1
      have h3 : -(x * c⁻¹) * c = -x := by field_simp
      rw [h3] at h1
      linear_combination -h1
    · intro v _
      simp
    · intro v _
      simp
  have h := Finset.card_eq_sum_card_fiberwise (s := univ.filter P) (t := (univ : Finset F)) (f := e) (fun _ _ => mem_coe.mpr (mem_univ _))
  rw [h, Finset.sum_congr rfl (fun x _ => hfib x), Finset.sum_const, card_univ, smul_eq_mul]

theorem polyEval_ofFn {t : Nat} (v : Fin t → F) (x : F) :
    Spec.polyEval (List.ofFn v) x = ∑ k, v k * x ^ (k : Nat) := by
  unfold Spec.polyEval
  rw [List.length_ofFn, ← Fin.sum_univ_eq_sum_range (fun k => (List.ofFn v).getD k 0 * x ^ k)]
  refine Finset.sum_congr rfl fun k _ => ?_
  rw [List.getD_eq_getElem _ _ (by simp)]
  simp

theorem polyEval_ofFn_add {t : Nat} (v w : Fin t → F) (a x : F) :
    Spec.polyEval (List.ofFn (v + fun k => a * w k)) x =
      Spec.polyEval (List.ofFn v) x + a * Spec.polyEval (List.ofFn w) x := by
  rw [polyEval_ofFn, polyEval_ofFn, polyEval_ofFn, mul_sum, ← sum_add_distrib]
  refine Finset.sum_congr rfl fun k _ => ?_
  simp only [Pi.add_apply]
  ring

/-- A coefficient vector that gives nothing to `J` and the secret 1. -/
theorem exists_mask (hu : Suite.U32Inj F) (t : Nat) (J : List U32) (h0 : 0 ∉ J) (hJ : J.length < t) :
    ∃ w : Fin t → F, Spec.polyEval (List.ofFn w) 0 = 1 ∧ ∀ j ∈ J, Spec.polyEval (List.ofFn w) (u32F F j) = 0 := by
  have hev : ∀ x, Spec.polyEval (List.ofFn fun k : Fin t => (maskPoly F J).coeff k) x = (maskPoly F J).eval x := by
    intro x
    have hn : (maskPoly F J).natDegree < t :=
      lt_of_le_of_lt (Polynomial.natDegree_le_of_degree_le (maskPoly_degree J)) hJ
    rw [polyEval_ofFn, Polynomial.eval_eq_sum_range' hn,
      ← Fin.sum_univ_eq_sum_range (fun k => (maskPoly F J).coeff k * x ^ k)]
  refine ⟨fun k : Fin t => (maskPoly F J).coeff k, ?_, ?_⟩
  · rw [hev, maskPoly_zero]
  · intro j hj
    rw [hev, maskPoly_root hu h0 hj]

theorem interpolate_split (D : List U32) (l : U32) (hl : l ∈ D) (f : U32 → F) (x : F) :
    Spec.interpolate D (Function.update f l x) =
      Spec.lagrange D l * x + ∑ k ∈ D.toFinset.erase l, Spec.lagrange D k * f k := by
  unfold Spec.interpolate
  rw [← Finset.add_sum_erase _ _ (List.mem_toFinset.mpr hl), Function.update_self]
  congr 1
  refine Finset.sum_congr rfl fun k hk => ?_
  rw [Function.update_of_ne (Finset.ne_of_mem_erase hk)]

theorem eval_update (D : List U32) (l : U32) (hl : l ∈ D) (cs : U32 → List F) (c : List F) (x : F) :
    Spec.interpolate D (fun k => Spec.polyEval (Function.update cs l c k) x) =
      Spec.lagrange D l * Spec.polyEval c x +
        ∑ k ∈ D.toFinset.erase l, Spec.lagrange D k * Spec.polyEval (cs k) x := by
  rw [← interpolate_split D l hl]
  congr 1
  funext k
  by_cases h : k = l
  · subst h; simp
  · rw [Function.update_of_ne h, Function.update_of_ne h]

/-- Adding `a` times a vector that gives nothing to `J` and the secret 1 changes the gap between the group secret and
what `J` interpolates by `a` times the dealer's Lagrange coefficient. -/
theorem gap_shift (t : Nat) (D : List U32) (l : U32) (hl : l ∈ D) (J : List U32) (cs : U32 → List F) (w : Fin t → F)
    (hw0 : Spec.polyEval (List.ofFn w) 0 = 1) (hw : ∀ j ∈ J, Spec.polyEval (List.ofFn w) (u32F F j) = 0)
    (v : Fin t → F) (a : F) :
    Spec.groupSecret D (Function.update cs l (List.ofFn (v + fun k => a * w k))) -
        Spec.interpolate J (Spec.signingKey D (Function.update cs l (List.ofFn (v + fun k => a * w k)))) =
      Spec.groupSecret D (Function.update cs l (List.ofFn v)) -
        Spec.interpolate J (Spec.signingKey D (Function.update cs l (List.ofFn v))) + a * Spec.lagrange D l := by
  have e1 : Spec.groupSecret D (Function.update cs l (List.ofFn (v + fun k => a * w k))) =
      Spec.groupSecret D (Function.update cs l (List.ofFn v)) + a * Spec.lagrange D l := by
    unfold Spec.groupSecret
    rw [eval_update D l hl, eval_update D l hl, polyEval_ofFn_add, hw0]
    ring
  have e2 : Spec.interpolate J (Spec.signingKey D (Function.update cs l (List.ofFn (v + fun k => a * w k)))) =
      Spec.interpolate J (Spec.signingKey D (Function.update cs l (List.ofFn v))) := by
    unfold Spec.interpolate
    refine Finset.sum_congr rfl fun j hj => ?_
    have e3 : Spec.signingKey D (Function.update cs l (List.ofFn (v + fun k => a * w k))) j =
        Spec.signingKey D (Function.update cs l (List.ofFn v)) j := by
      unfold Spec.signingKey
      rw [eval_update D l hl, eval_update D l hl, polyEval_ofFn_add]
      have := hw j (List.mem_toFinset.mp hj)
      unfold u32F at this
      rw [this, mul_zero, add_zero]
    rw [e3]
  rw [e1, e2]
  ring

/-- C119: fewer than `t` holders `J` of signing keys, who also know the polynomials of all dealers but `l`. Fix what
they know of dealer `l`: its shares `view j` for `J`. Of the coefficient vectors of length `t` of dealer `l` that are
compatible with that, exactly one in `|F|` is such that the keys of `J` interpolate to the group secret. -/
theorem C119_view [Fintype F] (hu : Suite.U32Inj F) (t : Nat) (D : List U32) (h0 : 0 ∉ D) (l : U32)
    (hl : l ∈ D) (J : List U32) (hJ0 : 0 ∉ J) (hJ : J.length < t) (cs : U32 → List F) (view : U32 → F) :
    Fintype.card F * (univ.filter fun v : Fin t → F =>
        (∀ j ∈ J, Spec.polyEval (List.ofFn v) (j.toNat : F) = view j) ∧
        Spec.interpolate J (Spec.signingKey D (Function.update cs l (List.ofFn v))) =
          Spec.groupSecret D (Function.update cs l (List.ofFn v))).card =
      (univ.filter fun v : Fin t → F => ∀ j ∈ J, Spec.polyEval (List.ofFn v) (j.toNat : F) = view j).card := by
  obtain ⟨w, hw0, hw⟩ := exists_mask hu t J hJ0 hJ
  have hlam : (Spec.lagrange D l : F) ≠ 0 := lagrange_ne_zero hu _ h0 l
  have h := card_shift (fun v : Fin t → F => ∀ j ∈ J, Spec.polyEval (List.ofFn v) (j.toNat : F) = view j)
    (fun v => Spec.groupSecret D (Function.update cs l (List.ofFn v)) -
      Spec.interpolate J (Spec.signingKey D (Function.update cs l (List.ofFn v)))) (Spec.lagrange D l) hlam
    (fun a k => a * w k) (gap_shift t D l hl J cs w hw0 hw) (by
      intro v a
      refine forall₂_congr fun j hj => ?_
      have := hw j hj
      unfold u32F at this
      rw [polyEval_ofFn_add, this, mul_zero, add_zero])
  rw [← h]
  congr 2
  ext v
  simp only [mem_filter, mem_univ, true_and, sub_eq_zero]
  exact and_congr_right fun _ => eq_comm

/-- C119, unconditionally: of the `|F|^t` coefficient vectors of one dealer exactly one in `|F|` lets `J` sign. -/
theorem C119_count [Fintype F] (hu : Suite.U32Inj F) (t : Nat) (D : List U32) (h0 : 0 ∉ D) (l : U32)
    (hl : l ∈ D) (J : List U32) (hJ0 : 0 ∉ J) (hJ : J.length < t) (cs : U32 → List F) :
    Fintype.card F * (univ.filter fun v : Fin t → F =>
        Spec.interpolate J (Spec.signingKey D (Function.update cs l (List.ofFn v))) =
          Spec.groupSecret D (Function.update cs l (List.ofFn v))).card = Fintype.card F ^ t := by
  obtain ⟨w, hw0, hw⟩ := exists_mask hu t J hJ0 hJ
  have hlam : (Spec.lagrange D l : F) ≠ 0 := lagrange_ne_zero hu _ h0 l
  have h := card_shift (fun _ : Fin t → F => True)
    (fun v => Spec.groupSecret D (Function.update cs l (List.ofFn v)) -
      Spec.interpolate J (Spec.signingKey D (Function.update cs l (List.ofFn v)))) (Spec.lagrange D l) hlam
    (fun a k => a * w k) (gap_shift t D l hl J cs w hw0 hw) (by
      intro v a
      exact Iff.rfl)
  rw [Finset.filter_true, Finset.card_univ, Fintype.card_fun, Fintype.card_fin] at h
  rw [← h]
  congr 2
  ext v
  simp only [mem_filter, mem_univ, true_and, sub_eq_zero]
  exact eq_comm

/-- C119, that the two functions above are what the code computes: a session that holds the verified shares of dealers
`D` with coefficient lists `cs` finishes with the group key of `groupSecret` and the key `signingKey`. -/
theorem C119_finish {S : Suite F G R} (hg : S.GroupLaws) (hu : Suite.U32Inj F) (D : List U32) (hD : D.Nodup)
    (h0 : 0 ∉ D) (cs : U32 → List F) (hcs : ∀ k ∈ D, cs k ≠ []) (d : RoundTwo F G) (m : BMap (SecretShare F))
    (hV : HoldsVerified S d (dealerMap S D cs) m) :
    d.finish = .ok (Spec.groupSecret D cs • S.gen, ⟨d.state.index, Spec.signingKey D cs d.state.index⟩) := by
  rw [finish_phase hg hu D hD h0 cs hcs d m hV]
  unfold Spec.groupSecret Spec.signingKey Spec.interpolate
  simp only [Spec.polyEval_zero]
  rfl

/-- C119, for `t` or more holders there is no such gap: their keys interpolate to the group secret for every choice of
the dealers. -/
theorem C119_enough (hu : Suite.U32Inj F) (t : Nat) (D : List U32) (J : List U32)
    (hJn : J.Nodup) (hJ : t ≤ J.length) (cs : U32 → List F) (hcs : ∀ k ∈ D, (cs k).length ≤ t) :
    Spec.interpolate J (Spec.signingKey D cs) = Spec.groupSecret D cs := by
  unfold Spec.groupSecret
  have : ∀ k ∈ D, Spec.interpolate J (fun j => Spec.polyEval (cs k) (u32F F j)) = Spec.polyEval (cs k) 0 :=
    fun k hk => interpolate_polyEval hu hJn _ (le_trans (hcs k hk) hJ)
  unfold Spec.signingKey Spec.interpolate
  simp only [mul_sum]
  rw [Finset.sum_comm]
  refine Finset.sum_congr rfl fun k hk => ?_
  rw [← this k (List.mem_toFinset.mp hk)]
  unfold Spec.interpolate u32F
  rw [mul_sum]
  refine Finset.sum_congr rfl fun j _ => ?_
  ring

/-- C119: dealers 1, 2, 3 with threshold 2, signer 3 alone. -/
example (cs : U32 → List Toy.Fp) : Fintype.card Toy.Fp * (univ.filter fun v : Fin 2 → Toy.Fp =>
    Spec.interpolate [3] (Spec.signingKey [1, 2, 3] (Function.update cs 1 (List.ofFn v))) =
      Spec.groupSecret [1, 2, 3] (Function.update cs 1 (List.ofFn v))).card = Fintype.card Toy.Fp ^ 2 :=
  C119_count Toy.u32_inj 2 [1, 2, 3] (by decide) 1 (by decide) [3] (by decide) (by decide) cs

end IceFrost
