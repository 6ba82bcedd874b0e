import Verif.Props.Shares
import Verif.Props.Finish
import Verif.Props.Robust
import Verif.Toy

/-!
# Secrecy of the group secret and uniformity of the group key

C86, C87: `evaluate_polynomial` and `finish`, `src/dkg/secret_share.rs:64-90`,
`src/dkg/key_generation.rs:1012-1083`.
-/

set_option linter.unusedSectionVars false
set_option linter.unusedSimpArgs false

namespace IceFrost

open Finset

variable {F G R : Type} [Field F] [DecidableEq F] [AddCommGroup G] [Module F G] [DecidableEq G]

theorem interpolate_update {D : List U32} {l : U32} (hl : l ∈ D) (key key' : U32 → F) (δ : F)
    (h : ∀ k ∈ D, k ≠ l → key' k = key k) (hδ : key' l = key l + δ) :
    Spec.interpolate D key' = Spec.interpolate D key + Spec.lagrange D l * δ := by
  unfold Spec.interpolate
  rw [← add_sum_erase _ _ (List.mem_toFinset.mpr hl), ← add_sum_erase _ _ (List.mem_toFinset.mpr hl), hδ,
    sum_congr rfl fun k hk => by
      rw [h k (List.mem_toFinset.mp (mem_of_mem_erase hk)) (ne_of_mem_erase hk)]]
  ring

/-- C86: let fewer than `t` participants `J` pool everything they received, and let all dealers but one reveal their
polynomials. For every shift `δ` of the group secret there is a permutation `f` (with inverse `g`) of the coefficient
vectors of the remaining dealer `l` that changes neither a share sent to `J` nor a signing key of `J`, and that moves
the group key from `s • gen` to `(s + δ) • gen`. So every group secret is compatible with what `J` knows, each with
the same number of coefficient vectors. -/
theorem C86_group_secrecy {S : Suite F G R} (hg : S.GroupLaws) (hu : Suite.U32Inj F) (t : Nat) (D : List U32)
    (hD : D.Nodup) (h0 : 0 ∉ D) (l : U32) (hl : l ∈ D) (J : List U32) (hJ0 : 0 ∉ J) (hJ : J.length < t) (δ : F) :
    ∃ f g : List F → List F, (∀ cs, cs.length = t → (f cs).length = t ∧ (g cs).length = t ∧ g (f cs) = cs ∧
        f (g cs) = cs ∧ ∀ j ∈ J, evaluatePolynomial l j (f cs) = evaluatePolynomial l j cs) ∧
      ∀ cs cs' : U32 → List F, (cs l).length = t → (∀ k ∈ D, cs k ≠ []) → cs' l = f (cs l) →
        (∀ k ∈ D, k ≠ l → cs' k = cs k) → ∃ s : F, ∀ j ∈ J, ∀ d d' m m',
          d.state.index = j → HoldsVerified S d (dealerMap S D cs) m →
          d'.state.index = j → HoldsVerified S d' (dealerMap S D cs') m' →
          ∃ key, d.finish = .ok (s • S.gen, ⟨j, key⟩) ∧ d'.finish = .ok ((s + δ) • S.gen, ⟨j, key⟩) := by
  have hlam : (Spec.lagrange D l : F) ≠ 0 := lagrange_ne_zero hu D h0 l
  obtain ⟨f, g, hfg⟩ := C10_secrecy_bijection hu t J hJ0 hJ ((Spec.lagrange D l : F)⁻¹ * δ)
  refine ⟨f, g, fun cs hcs => ?_, fun cs cs' hcl hne hl' hk' => ?_⟩
  · obtain ⟨h1, h2, h3, h4, _, h6⟩ := hfg cs hcs
    exact ⟨h1, h2, h3, h4, h6 l⟩
  obtain ⟨h1, _, _, _, h5, h6⟩ := hfg (cs l) hcl
  have hne' : ∀ k ∈ D, cs' k ≠ [] := by
    intro k hk
    by_cases hkl : k = l
    · subst hkl
      rw [hl']
      intro he
      rw [he] at h1
      simp only [List.length_nil] at h1
      omega
    · rw [hk' k hk hkl]; exact hne k hk
  refine ⟨Spec.interpolate D (fun l => (cs l).headD 0), fun j hj d d' m m' hi hV hi' hV' => ?_⟩
  have e := finish_phase hg hu D hD h0 cs hne d m hV
  have e' := finish_phase hg hu D hD h0 cs' hne' d' m' hV'
  rw [hi] at e
  rw [hi'] at e'
  refine ⟨_, e, ?_⟩
  rw [e', interpolate_update hl (fun l => (cs l).headD 0) (fun l => (cs' l).headD 0) ((Spec.lagrange D l)⁻¹ * δ)
    (fun k hk hkl => by simp only [hk' k hk hkl]) (by simp only [hl', h5]), mul_inv_cancel_left₀ hlam]
  congr 3
  refine sum_congr rfl fun k hk => ?_
  by_cases hkl : k = l
  · subst hkl
    have := congrArg SecretShare.eval (h6 k j hj)
    rw [evaluatePolynomial_eq, evaluatePolynomial_eq] at this
    rw [hl']
    congr 1
  · rw [hk' k (List.mem_toFinset.mp hk) hkl]

/-- C87: fix the commitments of all dealers but `l`. Then the group key is a bijective function of the secret of
dealer `l`: whatever the others committed to, a uniform secret of one dealer makes the group key uniform. -/
theorem C87_group_key_bijective {S : Suite F G R} (hg : S.GroupLaws) (hu : Suite.U32Inj F)
    (comms : BMap (VssCommitment G)) (hD : DealersOk comms) (l : U32) (hl : l ∈ comms.keys) :
    ∃ gk : F → G, Function.Bijective gk ∧ ∀ (s : F) (d : RoundTwo F G) (comms' : BMap (VssCommitment G))
      (rest : List G) (i : U32), d.state.theirCommitments = some comms' → comms'.keys = comms.keys →
      (∀ k, k ≠ l → comms'.get? k = comms.get? k) → comms'.get? l = some ⟨i, s • S.gen :: rest⟩ →
      d.calculateGroupKey = (.ok (gk s) : Res F G G) ∧ ∀ r, d.finish = .ok r → r.1 = gk s := by
  obtain ⟨hwf, h0, hne⟩ := hD
  have hlam : (Spec.lagrange comms.keys l : F) ≠ 0 := lagrange_ne_zero hu _ h0 l
  refine ⟨fun s => Spec.lagrange (F := F) comms.keys l • s • S.gen + ∑ k ∈ comms.keys.toFinset.erase l,
    Spec.lagrange (F := F) comms.keys k • (((comms.get? k).map fun c => c.points.headD 0).getD 0), ⟨?_, ?_⟩, ?_⟩
  · intro a b h
    have h' := add_right_cancel h
    rw [← mul_smul, ← mul_smul] at h'
    exact mul_left_cancel₀ hlam (hg.gen_inj _ _ h')
  · intro P
    obtain ⟨a, ha⟩ := hg.gen_surj (P - ∑ k ∈ comms.keys.toFinset.erase l,
      Spec.lagrange (F := F) comms.keys k • (((comms.get? k).map fun c => c.points.headD 0).getD 0))
    refine ⟨(Spec.lagrange comms.keys l : F)⁻¹ * a, ?_⟩
    show _ + _ = _
    rw [← mul_smul, mul_inv_cancel_left₀ hlam, ← ha]
    abel
  · intro s d comms' rest i hc hk ho hl'
    have hkey : d.calculateGroupKey = (.ok (Spec.lagrange (F := F) comms.keys l • s • S.gen +
        ∑ k ∈ comms.keys.toFinset.erase l, Spec.lagrange (F := F) comms.keys k •
          (((comms.get? k).map fun c => c.points.headD 0).getD 0)) : Res F G G) := by
      rw [calculateGroupKey_ok hu d comms' hc (hk ▸ hwf.nodup) (hk ▸ h0)
        (fun k => ((comms'.get? k).map fun c => c.points.headD 0).getD 0) ?_]
      · unfold Spec.interpolateG
        rw [hk, ← add_sum_erase _ _ (List.mem_toFinset.mpr hl)]
        beta_reduce
        rw [hl']
        congr 2
        refine sum_congr rfl fun k hk' => ?_
        rw [ho k (ne_of_mem_erase hk')]
      · intro k c hkc
        rw [hkc]
        have : c.points ≠ [] := by
          by_cases hkl : k = l
          · subst hkl
            rw [hkc] at hl'
            cases hl'
            simp
          · exact hne k c (by rw [← ho k hkl]; exact hkc)
        cases hp : c.points with
        | nil => exact absurd hp this
        | cons a as => simp [hp]
    refine ⟨hkey, fun r hr => ?_⟩
    have := finish_groupKey d comms' hc (gk := r.1) (sk := r.2) hr
    unfold RoundTwo.calculateGroupKey at hkey
    rw [hc] at hkey
    simp only [] at hkey
    rw [this] at hkey
    exact Except.ok.inj hkey

end IceFrost
