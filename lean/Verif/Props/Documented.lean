import Verif.Props.ConcurrentBound

/-! # C144: the formulas in the documentation of the key generation -/

set_option linter.unusedSectionVars false
set_option linter.unusedSimpArgs false
set_option linter.unusedVariables false

namespace IceFrost

open Finset

variable {F G R : Type} [Field F] [DecidableEq F] [AddCommGroup G] [Module F G] [DecidableEq G]

/-- The signing key of participant `i` as in the module documentation (src/dkg/key_generation.rs:45-47): the sum of the
evaluations at `i` of all polynomials. -/
def Spec.documentedShare (D : List U32) (cs : U32 → List F) (i : U32) : F :=
  ∑ k ∈ D.toFinset, Spec.polyEval (cs k) (i.toNat : F)

/-- The group key as in the module documentation (src/dkg/key_generation.rs:48-49): the sum of the commitments to all
constant terms. -/
def Spec.documentedKey (S : Suite F G R) (D : List U32) (cs : U32 → List F) : G :=
  ∑ k ∈ D.toFinset, (cs k).headD 0 • S.gen

/-- C144: when `finish` returns the documented group key and the documented signing key. -/
theorem C144_documented_partial {S : Suite F G R} (hg : S.GroupLaws) (hu : Suite.U32Inj F) (D : List U32) (hD : D.Nodup)
    (h0 : 0 ∉ D) (cs : U32 → List F) (hcs : ∀ k ∈ D, cs k ≠ []) (d : RoundTwo F G) (m : BMap (SecretShare F))
    (hV : HoldsVerified S d (dealerMap S D cs) m) :
    ∃ Y sk, d.finish = .ok (Y, sk) ∧
      (Y = Spec.documentedKey S D cs ↔ ∑ k ∈ D.toFinset, (Spec.lagrange D k - 1) * (cs k).headD 0 = 0) ∧
      (sk.key = Spec.documentedShare D cs d.state.index ↔
        ∑ k ∈ D.toFinset, (Spec.lagrange D k - 1) * Spec.polyEval (cs k) (d.state.index.toNat : F) = 0) := by
  refine ⟨_, _, finish_phase hg hu D hD h0 cs hcs d m hV, ?_, ?_⟩
  · unfold Spec.documentedKey Spec.interpolate
    rw [← sum_smul, ← sub_eq_zero, ← sub_smul, ← sum_sub_distrib]
    have : ∀ k ∈ D.toFinset, Spec.lagrange D k * (cs k).headD 0 - (cs k).headD 0 =
        (Spec.lagrange D k - 1) * (cs k).headD 0 := fun k _ => by ring
    rw [sum_congr rfl this]
    constructor
    · intro h
      exact hg.gen_inj _ _ (by rw [h, zero_smul])
    · intro h
      rw [h, zero_smul]
  · unfold Spec.documentedShare
    simp only
    rw [← sub_eq_zero, ← sum_sub_distrib]
    have : ∀ k ∈ D.toFinset, Spec.lagrange D k * Spec.polyEval (cs k) (u32F F d.state.index) -
        Spec.polyEval (cs k) (d.state.index.toNat : F) =
        (Spec.lagrange D k - 1) * Spec.polyEval (cs k) (d.state.index.toNat : F) := fun k _ => by
      show _ * Spec.polyEval (cs k) (d.state.index.toNat : F) - _ = _
      ring
    rw [sum_congr rfl this]

/-- Lagrange coefficients add up to one. -/
theorem lagrange_sum (hu : Suite.U32Inj F) (D : List U32) (hD : D.Nodup) (h0 : 0 ∉ D) (hne : D ≠ []) :
    ∑ k ∈ D.toFinset, (Spec.lagrange D k : F) = 1 := by
  have h := interpolate_polyEval hu hD ([1] : List F) (List.length_pos_iff.mpr hne)
  unfold Spec.interpolate at h
  simpa [Spec.polyEval] using h

/-- With two or more dealers some Lagrange coefficient is not one. -/
theorem lagrange_ne_one (hu : Suite.U32Inj F) (D : List U32) (hD : D.Nodup) (h0 : 0 ∉ D) (h2 : 2 ≤ D.length) :
    ∃ k ∈ D, (Spec.lagrange D k : F) ≠ 1 := by
  by_contra hc
  push_neg at hc
  have h := lagrange_sum hu D hD h0 (by rintro rfl; simp at h2)
  rw [sum_congr rfl fun k hk => hc k (List.mem_toFinset.mp hk), sum_const, nsmul_eq_mul, mul_one,
    List.toFinset_card_of_nodup hD] at h
  have hlen : D.length < 2 ^ 32 := by
    have hsub : (D.map UInt32.toNat).toFinset ⊆ Finset.Ioo 0 (2 ^ 32) := by
      intro a ha
      obtain ⟨k, hk, rfl⟩ := List.mem_map.mp (List.mem_toFinset.mp ha)
      refine Finset.mem_Ioo.mpr ⟨Nat.pos_of_ne_zero fun hz => h0 ?_, k.toNat_lt⟩
      have : k = 0 := UInt32.toNat_inj.mp hz
      exact this ▸ hk
    have hcard := Finset.card_le_card hsub
    rw [List.toFinset_card_of_nodup (hD.map fun a b => UInt32.toNat_inj.mp), List.length_map, Nat.card_Ioo] at hcard
    omega
  have := hu (UInt32.ofNat D.length) 1 (by
    unfold u32F
    rw [UInt32.toNat_ofNat_of_lt' hlen, h]
    simp)
  have := congrArg UInt32.toNat this
  rw [UInt32.toNat_ofNat_of_lt' hlen] at this
  have h1 : (1 : U32).toNat = 1 := rfl
  omega

/-- C144: with one dealer the documentation is right. -/
theorem C144_single_dealer {S : Suite F G R} (hg : S.GroupLaws) (hu : Suite.U32Inj F) (l : U32) (h0 : l ≠ 0)
    (cs : U32 → List F) (hcs : cs l ≠ []) (d : RoundTwo F G) (m : BMap (SecretShare F))
    (hV : HoldsVerified S d (dealerMap S [l] cs) m) :
    d.finish = .ok (Spec.documentedKey S [l] cs, ⟨d.state.index, Spec.documentedShare [l] cs d.state.index⟩) := by
  rw [finish_phase hg hu [l] (by simp) (by simpa using h0.symm) cs (by simpa using hcs) d m hV]
  have h1 := lagrange_sum (F := F) hu [l] (by simp) (by simpa using h0.symm) (by simp)
  simp only [List.toFinset_cons, List.toFinset_nil, insert_empty_eq, sum_singleton] at h1
  unfold Spec.documentedKey Spec.documentedShare Spec.interpolate
  simp only [List.toFinset_cons, List.toFinset_nil, insert_empty_eq, sum_singleton, h1, one_mul]
  rfl

/-- The polynomials of dealers `D`. -/
def Spec.dealtAll {D : List U32} {t : ℕ} (w : {k // k ∈ D} → Fin t → F) (k : U32) : List F :=
  if h : k ∈ D then List.ofFn (w ⟨k, h⟩) else []

/-- C144: with two or more dealers and random polynomials the documented group key is returned with chance at most
`1 / |F|`. -/
theorem C144_chance [Fintype F] {S : Suite F G R} (hg : S.GroupLaws) (hu : Suite.U32Inj F) (D : List U32) (hD : D.Nodup)
    (h0 : 0 ∉ D) (h2 : 2 ≤ D.length) (t : ℕ) (ht : t ≠ 0)
    (d : ({k // k ∈ D} → Fin t → F) → RoundTwo F G) (m : ({k // k ∈ D} → Fin t → F) → BMap (SecretShare F))
    (hV : ∀ w, HoldsVerified S (d w) (dealerMap S D (Spec.dealtAll w)) (m w)) :
    Spec.chance (fun w => ∃ sk, (d w).finish = .ok (Spec.documentedKey S D (Spec.dealtAll w), sk)) ≤
      1 / (Fintype.card F : ℚ) := by
  classical
  obtain ⟨l, hl, hne⟩ := lagrange_ne_one hu D hD h0 h2
  obtain ⟨t, rfl⟩ := Nat.exists_eq_succ_of_ne_zero ht
  have hcs : ∀ (w : {k // k ∈ D} → Fin (t + 1) → F), ∀ k ∈ D, Spec.dealtAll w k ≠ [] := by
    intro w k hk
    unfold Spec.dealtAll
    rw [dif_pos hk]
    simp
  have hev : ∀ w, (∃ sk, (d w).finish = .ok (Spec.documentedKey S D (Spec.dealtAll w), sk)) →
      ∑ k ∈ D.toFinset, (Spec.lagrange D k - 1) * (Spec.dealtAll w k).headD 0 = 0 := by
    rintro w ⟨sk, h⟩
    obtain ⟨Y, sk', h1, h2, -⟩ := C144_documented_partial hg hu D hD h0 _ (hcs w) (d w) (m w) (hV w)
    rw [h] at h1
    injection h1 with h1
    injection h1 with h1
    exact h2.mp h1.symm
  refine le_trans (chance_mono hev) ?_
  refine chance_shift _ (fun k => Equiv.addRight (Pi.single (⟨l, hl⟩ : {k // k ∈ D}) (Pi.single (0 : Fin (t + 1)) k))) ?_
  intro w a b ha hb
  have key : ∀ a : F, ∑ k ∈ D.toFinset, (Spec.lagrange D k - 1) * (Spec.dealtAll (w +
      Pi.single (⟨l, hl⟩ : {k // k ∈ D}) (Pi.single (0 : Fin (t + 1)) a)) k).headD 0 =
      (∑ k ∈ D.toFinset, (Spec.lagrange D k - 1) * (Spec.dealtAll w k).headD 0) + (Spec.lagrange D l - 1) * a := by
    intro a
    have hm := List.mem_toFinset.mpr hl
    rw [← Finset.add_sum_erase _ _ hm, ← Finset.add_sum_erase _ (fun k => (Spec.lagrange D k - 1) *
      (Spec.dealtAll w k).headD 0) hm]
    have e1 : (Spec.dealtAll (w + Pi.single (⟨l, hl⟩ : {k // k ∈ D}) (Pi.single (0 : Fin (t + 1)) a)) l).headD 0 =
        (Spec.dealtAll w l).headD 0 + a := by
      unfold Spec.dealtAll
      rw [dif_pos hl, dif_pos hl]
      simp [List.ofFn_succ]
    have e2 : ∀ k ∈ D.toFinset.erase l, (Spec.lagrange D k - 1) * (Spec.dealtAll (w +
        Pi.single (⟨l, hl⟩ : {k // k ∈ D}) (Pi.single (0 : Fin (t + 1)) a)) k).headD 0 =
        (Spec.lagrange D k - 1) * (Spec.dealtAll w k).headD 0 := by
      intro k hk
      have hkl := Finset.ne_of_mem_erase hk
      have hkD := List.mem_toFinset.mp (Finset.mem_of_mem_erase hk)
      unfold Spec.dealtAll
      rw [dif_pos hkD, dif_pos hkD]
      have : (⟨k, hkD⟩ : {k // k ∈ D}) ≠ ⟨l, hl⟩ := fun h => hkl (congrArg Subtype.val h)
      rw [Pi.add_apply, Pi.single_eq_of_ne this, add_zero]
    rw [e1, sum_congr rfl e2]
    ring
  have ha' := key a
  have hb' := key b
  simp only [Equiv.coe_addRight] at ha hb
  rw [ha] at ha'
  rw [hb] at hb'
  have : (Spec.lagrange D l - 1) * a = (Spec.lagrange D l - 1) * b := by linear_combination hb' - ha'
  exact mul_left_cancel₀ (sub_ne_zero.mpr hne) this

section Examples
open Toy

/-- C144: with two dealers, whose polynomials are `3 + x` and `4 + 2 x`, participant 1 gets neither key. -/
theorem C144_documented_false :
    let cs : U32 → List Fp := fun k => if k = 1 then [3, 1] else [4, 2]
    ∃ Y sk, (honestState suite ⟨2, 2⟩ [1, 2] cs 1).finish = .ok (Y, sk) ∧ Y ≠ Spec.documentedKey suite [1, 2] cs ∧
      sk.key ≠ Spec.documentedShare [1, 2] cs 1 := by
  intro cs
  obtain ⟨Y, sk, h1, h2, h3⟩ := C144_documented_partial group_laws u32_inj [1, 2] (by decide) (by decide) cs
    (fun k _ => by show (if k = 1 then _ else _) ≠ _; split <;> simp) _ _ (honestState_holds suite ⟨2, 2⟩ (by decide) cs 1)
  refine ⟨Y, sk, h1, fun h => absurd (h2.mp h) (by decide +kernel), fun h => absurd (h3.mp h) (by decide +kernel)⟩

example : (honestState suite ⟨1, 1⟩ [3] (fun _ => ([5, 6] : List Fp)) 7).finish =
    .ok (Spec.documentedKey suite [3] fun _ => [5, 6], ⟨7, Spec.documentedShare [3] (fun _ => [5, 6]) 7⟩) :=
  C144_single_dealer group_laws u32_inj 3 (by decide) (fun _ => [5, 6]) (by simp) _ _
    (honestState_holds suite ⟨1, 1⟩ (by decide) _ 7)

example [Fintype Fp] :
    Spec.chance (fun w : {k : U32 // k ∈ [1, 2]} → Fin 2 → Fp => ∃ sk, (honestState suite ⟨2, 2⟩ [1, 2] (Spec.dealtAll w)
      1).finish = .ok (Spec.documentedKey suite [1, 2] (Spec.dealtAll w), sk)) ≤ 1 / (Fintype.card Fp : ℚ) :=
  C144_chance group_laws u32_inj [1, 2] (by decide) (by decide) (by decide) 2 (by decide) _ _
    fun w => honestState_holds suite ⟨2, 2⟩ (by decide) (Spec.dealtAll w) 1

end Examples

end IceFrost
