import Verif.Toy
import Verif.Props.Finish
import Verif.Props.Robust

/-!
# C134: an individual key is checked against the commitments of exactly its dealers
-/

set_option linter.unusedSectionVars false
set_option linter.unusedSimpArgs false
set_option linter.unusedVariables false

namespace IceFrost

variable {F G R : Type} [Field F] [DecidableEq F] [AddCommGroup G] [Module F G] [DecidableEq G]

/-- C134: the key derived from the commitments `rest` is rejected with one commitment more, and the key derived with it
is rejected without it, for all but one value that the commitment can take at the participant's index. -/
theorem C134_one_dealer (hu : Suite.U32Inj F) (i l : U32) (rest : List (VssCommitment G))
    (hn : (rest.map (·.index)).Nodup) (h0 : 0 ∉ rest.map (·.index)) (hl : l ∉ rest.map (·.index)) (hl0 : l ≠ 0) :
    ∃ v : G, ∀ c : VssCommitment G, c.index = l →
      ∃ k k' : IndividualVerifyingKey G, generateFromCommitments (F := F) i rest = .ok k ∧
        generateFromCommitments (F := F) i (c :: rest) = .ok k' ∧ k.index = i ∧ k'.index = i ∧
        k.verify F rest = .ok () ∧ k'.verify F (c :: rest) = .ok () ∧
        k.verify F (c :: rest) = (if Spec.pointEval c.points (i.toNat : F) = v then .ok () else
          .error .shareVerificationError) ∧
        k'.verify F rest = (if Spec.pointEval c.points (i.toNat : F) = v then .ok () else
          .error .shareVerificationError) := by
  set D : List U32 := l :: rest.map (·.index) with hD
  have hDn : D.Nodup := List.nodup_cons.mpr ⟨hl, hn⟩
  have hD0 : 0 ∉ D := by
    rw [hD, List.mem_cons]
    exact fun h => h.elim (fun h => hl0 h.symm) h0
  set A : G := (rest.map fun c => Spec.lagrange (F := F) D c.index • Spec.pointEval c.points (i.toNat : F)).sum with hA
  set B : G := (rest.map fun c => Spec.lagrange (F := F) (rest.map (·.index)) c.index •
    Spec.pointEval c.points (i.toNat : F)).sum with hB
  have hlam : (Spec.lagrange D l : F) ≠ 0 := lagrange_ne_zero hu D hD0 l
  refine ⟨(Spec.lagrange (F := F) D l)⁻¹ • (B - A), fun c hc => ?_⟩
  have hk : (generateFromCommitments (F := F) i rest : Out F G _) = .ok ⟨i, B⟩ := C38_generated_value hu i rest hn h0
  have hmap : (c :: rest).map (·.index) = D := by rw [List.map_cons, hc]
  have hk' : (generateFromCommitments (F := F) i (c :: rest) : Out F G _) =
      .ok ⟨i, Spec.lagrange (F := F) D l • Spec.pointEval c.points (i.toNat : F) + A⟩ := by
    rw [C38_generated_value hu i (c :: rest) (by rw [hmap]; exact hDn) (by rw [hmap]; exact hD0), hmap, List.map_cons,
      List.sum_cons, hc]
  have hiff : Spec.lagrange (F := F) D l • Spec.pointEval c.points (i.toNat : F) + A = B ↔
      Spec.pointEval c.points (i.toNat : F) = (Spec.lagrange (F := F) D l)⁻¹ • (B - A) := by
    rw [← eq_sub_iff_add_eq]
    constructor
    · intro h; rw [← h, inv_smul_smul₀ hlam]
    · intro h; rw [h, smul_inv_smul₀ hlam]
  refine ⟨_, _, hk, hk', rfl, rfl, ?_, ?_, ?_, ?_⟩
  · exact (C38_verify_iff_generated hu _ _).mpr hk
  · exact (C38_verify_iff_generated hu _ _).mpr hk'
  · rw [C38_verify_table hu, hk']
    simp only [IndividualVerifyingKey.mk.injEq, true_and]
    refine if_congr ?_ rfl rfl
    rw [eq_comm, hiff]
  · rw [C38_verify_table hu, hk]
    simp only [IndividualVerifyingKey.mk.injEq, true_and]
    exact if_congr hiff rfl rfl

/-- C134, any two sets of dealers: the key derived from one list of commitments passes with another one exactly if both
give the same key. -/
theorem C134_two_sets (hu : Suite.U32Inj F) (i : U32) (cs cs' : List (VssCommitment G))
    (hn : (cs.map (·.index)).Nodup) (h0 : 0 ∉ cs.map (·.index)) (hn' : (cs'.map (·.index)).Nodup)
    (h0' : 0 ∉ cs'.map (·.index)) :
    ∃ k : IndividualVerifyingKey G, generateFromCommitments (F := F) i cs = .ok k ∧
      k.verify F cs' = (if (cs.map fun c => Spec.lagrange (F := F) (cs.map (·.index)) c.index •
            Spec.pointEval c.points (i.toNat : F)).sum =
          (cs'.map fun c => Spec.lagrange (F := F) (cs'.map (·.index)) c.index •
            Spec.pointEval c.points (i.toNat : F)).sum then .ok () else .error .shareVerificationError) := by
  refine ⟨_, C38_generated_value hu i cs hn h0, ?_⟩
  rw [C38_verify_table hu, C38_generated_value hu i cs' hn' h0']
  simp only [IndividualVerifyingKey.mk.injEq, true_and]

/-- The assertions of the test of the repository, `src/dkg/key_generation.rs:2619-2754`: three dealers, of which the
first is left out. -/
example (i : U32) (c1 c2 c3 : VssCommitment Toy.Fp) (h1 : c1.index = 1) (h2 : c2.index = 2) (h3 : c3.index = 3) :
    ∃ v : Toy.Fp, ∀ c : VssCommitment Toy.Fp, c.index = 1 →
      ∃ k k' : IndividualVerifyingKey Toy.Fp, generateFromCommitments (F := Toy.Fp) i [c3, c2] = .ok k ∧
        generateFromCommitments (F := Toy.Fp) i [c, c3, c2] = .ok k' ∧ k.index = i ∧ k'.index = i ∧
        k.verify Toy.Fp [c3, c2] = .ok () ∧ k'.verify Toy.Fp [c, c3, c2] = .ok () ∧
        k.verify Toy.Fp [c, c3, c2] = (if Spec.pointEval c.points (i.toNat : Toy.Fp) = v then .ok () else
          .error .shareVerificationError) ∧
        k'.verify Toy.Fp [c3, c2] = (if Spec.pointEval c.points (i.toNat : Toy.Fp) = v then .ok () else
          .error .shareVerificationError) :=
  C134_one_dealer Toy.u32_inj i 1 [c3, c2] (by simp [h2, h3]) (by simp [h2, h3]) (by simp [h2, h3]) (by decide)

/-- A dealer that is left out changes the key of participant 2 here. -/
example : ∃ k : IndividualVerifyingKey Toy.Fp, generateFromCommitments (F := Toy.Fp) 2 [⟨1, [3, 1]⟩, ⟨2, [4, 1]⟩] = .ok k ∧
    k.verify Toy.Fp [⟨2, [4, 1]⟩] = .error .shareVerificationError := by
  obtain ⟨k, h, h'⟩ := C134_two_sets Toy.u32_inj 2 [⟨1, [3, 1]⟩, ⟨2, [4, 1]⟩] [(⟨2, [4, 1]⟩ : VssCommitment Toy.Fp)]
    (by simp) (by simp) (by simp) (by simp)
  refine ⟨k, h, h'.trans (if_neg ?_)⟩
  decide +kernel

end IceFrost
