import Verif.Props.Simulation
import Verif.Props.Secrecy

/-!
# One honest dealer makes the whole sharing fresh

C131: `finish`, `src/dkg/key_generation.rs:1012-1083`, as a function of the polynomial of one dealer while the
polynomials of all the others are arbitrary but fixed.
-/

set_option linter.unusedSectionVars false
set_option linter.unusedSimpArgs false

namespace IceFrost

open Finset Polynomial

variable {F G R : Type} [Field F] [DecidableEq F] [AddCommGroup G] [Module F G] [DecidableEq G]

/-- The polynomials of the dealers: `cs` for the dealer `l`, `others` for the rest. -/
def Spec.dealtBy (l : U32) (cs : List F) (others : U32 → List F) (k : U32) : List F := if k = l then cs else others k

/-- Evaluation at `t` distinct indices is a bijection of the coefficient vectors of length `t`. -/
theorem eval_bijective (hu : Suite.U32Inj F) (t : Nat) (L : List U32) (hL : L.Nodup) (ht : L.length = t) :
    Function.Bijective fun (cs : {cs : List F // cs.length = t}) (j : {j // j ∈ L}) =>
      Spec.polyEval cs.1 (u32F F j.1) := by
  have hcard : L.toFinset.card = t := by rw [List.toFinset_card_of_nodup hL, ht]
  have hinj := u32F_injOn hu L.toFinset
  constructor
  · rintro ⟨a, ha⟩ ⟨b, hb⟩ h
    have heq : toPoly a = toPoly b := by
      refine eq_of_degrees_lt_of_eval_index_eq L.toFinset hinj ?_ ?_ ?_
      · rw [hcard, ← ha]; exact toPoly_degree a
      · rw [hcard, ← hb]; exact toPoly_degree b
      · intro j hj
        rw [toPoly_eval, toPoly_eval]
        exact congrFun h ⟨j, List.mem_toFinset.mp hj⟩
    apply Subtype.ext
    change a = b
    rw [← ofPoly_toPoly a, ← ofPoly_toPoly b, heq, ha, hb]
  · intro w
    have hdeg : (Lagrange.interpolate L.toFinset (u32F F) fun j => if h : j ∈ L then w ⟨j, h⟩ else 0).degree < t := by
      rw [← hcard]; exact Lagrange.degree_interpolate_lt _ hinj
    refine ⟨⟨ofPoly t (Lagrange.interpolate L.toFinset (u32F F) fun j => if h : j ∈ L then w ⟨j, h⟩ else 0),
      ofPoly_length _ _⟩, funext fun j => ?_⟩
    beta_reduce
    rw [ofPoly_eval _ _ hdeg, Lagrange.eval_interpolate_at_node _ hinj (List.mem_toFinset.mpr j.2), dif_pos j.2]

/-- The same after multiplication by a nonzero factor and addition of constants. -/
theorem affine_eval_bijective (hu : Suite.U32Inj F) (t : Nat) (L : List U32) (hL : L.Nodup) (ht : L.length = t)
    (c : F) (hc : c ≠ 0) (A : U32 → F) :
    Function.Bijective fun (cs : {cs : List F // cs.length = t}) (j : {j // j ∈ L}) =>
      c * Spec.polyEval cs.1 (u32F F j.1) + A j.1 := by
  obtain ⟨hi, hs⟩ := eval_bijective hu t L hL ht
  constructor
  · intro a b h
    refine hi (funext fun j => ?_)
    exact mul_left_cancel₀ hc (add_right_cancel (congrFun h j))
  · intro w
    obtain ⟨cs, h⟩ := hs fun j => c⁻¹ * (w j - A j.1)
    refine ⟨cs, funext fun j => ?_⟩
    have := congrFun h j
    beta_reduce at this ⊢
    rw [this, mul_inv_cancel_left₀ hc]
    ring

theorem sum_dealtBy {D : List U32} {l : U32} (hl : l ∈ D) (others : U32 → List F) (cs : List F) (x : F) :
    ∑ k ∈ D.toFinset, Spec.lagrange D k * Spec.polyEval (Spec.dealtBy l cs others k) x =
      Spec.lagrange D l * Spec.polyEval cs x +
        ∑ k ∈ D.toFinset.erase l, Spec.lagrange D k * Spec.polyEval (others k) x := by
  rw [← add_sum_erase _ _ (List.mem_toFinset.mpr hl)]
  congr 1
  · rw [Spec.dealtBy, if_pos rfl]
  · exact sum_congr rfl fun k hk => by rw [Spec.dealtBy, if_neg (ne_of_mem_erase hk)]

theorem dealtBy_ne {D : List U32} {l : U32} {others : U32 → List F} (hne : ∀ k ∈ D, k ≠ l → others k ≠ [])
    {cs : List F} (hcs : cs ≠ []) : ∀ k ∈ D, Spec.dealtBy l cs others k ≠ [] := by
  intro k hk
  unfold Spec.dealtBy
  split
  · exact hcs
  · exact hne k hk ‹_›

/-- C131: fix the polynomials of all dealers but `l`, whatever they are. For `t - 1` participants `J`, the function from
the coefficient vectors of dealer `l` of length `t` to the pair of the group secret and the signing keys of `J` is a
bijection. So a uniform polynomial of one dealer makes the group secret and any `t - 1` signing keys uniform and
independent, as in a sharing made by a trusted dealer. -/
theorem C131_fresh_sharing {S : Suite F G R} (hg : S.GroupLaws) (hu : Suite.U32Inj F) (t : Nat) (D : List U32)
    (hD : D.Nodup) (h0 : 0 ∉ D) (l : U32) (hl : l ∈ D) (others : U32 → List F)
    (hne : ∀ k ∈ D, k ≠ l → others k ≠ []) (J : List U32) (hJ : J.Nodup) (hJ0 : 0 ∉ J) (ht : J.length + 1 = t) :
    ∃ Φ : {cs : List F // cs.length = t} → F × ({j // j ∈ J} → F), Function.Bijective Φ ∧
      ∀ (cs : {cs : List F // cs.length = t}) (j : {j // j ∈ J}) (d : RoundTwo F G) (m : BMap (SecretShare F)),
        d.state.index = j.1 → HoldsVerified S d (dealerMap S D (Spec.dealtBy l cs.1 others)) m →
          d.finish = .ok ((Φ cs).1 • S.gen, ⟨j.1, (Φ cs).2 j⟩) := by
  have hlam : (Spec.lagrange D l : F) ≠ 0 := lagrange_ne_zero hu D h0 l
  have hn : (0 :: J).Nodup := List.nodup_cons.mpr ⟨hJ0, hJ⟩
  set A : U32 → F := fun j => ∑ k ∈ D.toFinset.erase l, Spec.lagrange D k * Spec.polyEval (others k) (u32F F j)
    with hA
  obtain ⟨hi, hs⟩ := affine_eval_bijective hu t (0 :: J) hn (by simpa using ht) (Spec.lagrange D l) hlam A
  refine ⟨fun cs => (Spec.lagrange D l * Spec.polyEval cs.1 (u32F F 0) + A 0,
    fun j => Spec.lagrange D l * Spec.polyEval cs.1 (u32F F j.1) + A j.1), ⟨?_, ?_⟩, ?_⟩
  · intro a b h
    obtain ⟨h1, h2⟩ := Prod.mk.inj h
    refine hi (funext fun ⟨j, hj⟩ => ?_)
    rcases List.mem_cons.mp hj with rfl | hj
    · exact h1
    · exact congrFun h2 ⟨j, hj⟩
  · rintro ⟨s, w⟩
    obtain ⟨cs, h⟩ := hs fun j => if h : j.1 ∈ J then w ⟨j.1, h⟩ else s
    refine ⟨cs, Prod.ext ?_ (funext fun j => ?_)⟩
    · have := congrFun h ⟨0, List.mem_cons_self ..⟩
      beta_reduce at this
      rw [dif_neg hJ0] at this
      exact this
    · have := congrFun h ⟨j.1, List.mem_cons_of_mem _ j.2⟩
      beta_reduce at this
      rw [dif_pos j.2] at this
      exact this
  · intro cs j d m hj hV
    have hcs : cs.1 ≠ [] := by intro h; have := cs.2; rw [h] at this; simp at this; omega
    rw [finish_phase hg hu D hD h0 _ (dealtBy_ne hne hcs) d m hV, hj]
    have e : Spec.interpolate D (fun l_1 => (Spec.dealtBy l cs.1 others l_1).headD 0) =
        Spec.lagrange D l * Spec.polyEval cs.1 (u32F F 0) + A 0 := by
      rw [hA, ← sum_dealtBy hl]
      unfold Spec.interpolate
      exact sum_congr rfl fun k _ => by rw [u32F_zero, Spec.polyEval_zero]
    rw [e, sum_dealtBy hl]

/-- C131: likewise for the signing keys of any `t` participants `Q`: each combination of keys arises from exactly one
coefficient vector of dealer `l`. -/
theorem C131_quorum_keys {S : Suite F G R} (hg : S.GroupLaws) (hu : Suite.U32Inj F) (t : Nat) (ht0 : 0 < t)
    (D : List U32) (hD : D.Nodup) (h0 : 0 ∉ D) (l : U32) (hl : l ∈ D) (others : U32 → List F)
    (hne : ∀ k ∈ D, k ≠ l → others k ≠ []) (Q : List U32) (hQ : Q.Nodup) (ht : Q.length = t) :
    ∃ Φ : {cs : List F // cs.length = t} → ({j // j ∈ Q} → F), Function.Bijective Φ ∧
      ∀ (cs : {cs : List F // cs.length = t}) (j : {j // j ∈ Q}) (d : RoundTwo F G) (m : BMap (SecretShare F)),
        d.state.index = j.1 → HoldsVerified S d (dealerMap S D (Spec.dealtBy l cs.1 others)) m →
          ∃ gk, d.finish = .ok (gk, ⟨j.1, Φ cs j⟩) := by
  have hlam : (Spec.lagrange D l : F) ≠ 0 := lagrange_ne_zero hu D h0 l
  refine ⟨fun cs j => Spec.lagrange D l * Spec.polyEval cs.1 (u32F F j.1) +
    ∑ k ∈ D.toFinset.erase l, Spec.lagrange D k * Spec.polyEval (others k) (u32F F j.1),
    affine_eval_bijective hu t Q hQ ht _ hlam fun j =>
      ∑ k ∈ D.toFinset.erase l, Spec.lagrange D k * Spec.polyEval (others k) (u32F F j), ?_⟩
  intro cs j d m hj hV
  have hcs : cs.1 ≠ [] := by intro h; have := cs.2; rw [h] at this; simp at this; omega
  refine ⟨Spec.interpolate D (fun k => (Spec.dealtBy l cs.1 others k).headD 0) • S.gen, ?_⟩
  rw [finish_phase hg hu D hD h0 _ (dealtBy_ne hne hcs) d m hV, hj, sum_dealtBy hl]

/-- The participants that the two theorems speak about exist, for every polynomials and every index. -/
theorem C131_states_exist (S : Suite F G R) (D : List U32) (hD : D.Nodup) (cs : U32 → List F) (p : Params) (x : F)
    (j : U32) : ∃ d m, d.state.index = j ∧ HoldsVerified S d (dealerMap S D cs) m := by
  let m : BMap (SecretShare F) := BMap.ofList (D.map fun k => (k, evaluatePolynomial k j (cs k)))
  refine ⟨⟨⟨p, j, x, x • S.gen, some (dealerMap S D cs), [], none, some m⟩⟩, m, rfl, rfl, rfl, BMap.wf_ofList _, ?_, ?_⟩
  · intro k
    rw [dealerMap_keys, BMap.mem_keys_ofList]
    simp
  · intro k s c hs hc
    obtain ⟨_, rfl⟩ := (dealerMap_get S hD cs k c).mp hc
    have hnd : ((D.map fun k => (k, evaluatePolynomial k j (cs k))).map Prod.fst).Nodup := by
      rw [List.map_map]
      have : (Prod.fst ∘ fun k : U32 => (k, evaluatePolynomial k j (cs k))) = id := rfl
      rw [this, List.map_id]
      exact hD
    rw [BMap.get?_ofList hnd, List.mem_map] at hs
    obtain ⟨k', _, e⟩ := hs
    obtain ⟨rfl, rfl⟩ := Prod.mk.inj e
    rw [pointEval_commitPoints, evaluatePolynomial_eq]
    rfl

section Examples
open Toy

/-- Dealers 1, 2, 3 with threshold 3; the others deal constant, short and long polynomials. -/
def freshOthers (k : U32) : List Fp := if k = 2 then [7] else [4, 0, 9, 1]

example : ∃ Φ : {cs : List Fp // cs.length = 3} → Fp × ({j : U32 // j ∈ [2, 3]} → Fp), Function.Bijective Φ ∧
    ∀ cs (j : {j : U32 // j ∈ [2, 3]}) d m, d.state.index = j.1 →
      HoldsVerified suite d (dealerMap suite [1, 2, 3] (Spec.dealtBy 1 cs.1 freshOthers)) m →
        d.finish = .ok ((Φ cs).1 • suite.gen, ⟨j.1, (Φ cs).2 j⟩) :=
  C131_fresh_sharing group_laws u32_inj 3 [1, 2, 3] (by decide) (by decide) 1 (by decide) freshOthers
    (by decide) [2, 3] (by decide) (by decide) rfl

example : ∃ Φ : {cs : List Fp // cs.length = 3} → ({j : U32 // j ∈ [1, 2, 3]} → Fp), Function.Bijective Φ ∧
    ∀ cs (j : {j : U32 // j ∈ [1, 2, 3]}) d m, d.state.index = j.1 →
      HoldsVerified suite d (dealerMap suite [1, 2, 3] (Spec.dealtBy 1 cs.1 freshOthers)) m →
        ∃ gk, d.finish = .ok (gk, ⟨j.1, Φ cs j⟩) :=
  C131_quorum_keys group_laws u32_inj 3 (by decide) [1, 2, 3] (by decide) (by decide) 1 (by decide) freshOthers
    (by decide) [1, 2, 3] (by decide) rfl

example : ∃ d m, d.state.index = 2 ∧
    HoldsVerified suite d (dealerMap suite [1, 2, 3] (Spec.dealtBy 1 [5, 3, 1] freshOthers)) m :=
  C131_states_exist suite [1, 2, 3] (by decide) _ ⟨3, 3⟩ 6 2

end Examples

end IceFrost
