import Verif.Props.Secrecy
import Verif.Props.SignatureForms
import Verif.Props.Nizk
import Verif.Toy

/-! # C124: simulating what fewer than `t` participants see of a key generation, commitments included -/

set_option linter.unusedSectionVars false
set_option linter.unusedSimpArgs false

namespace IceFrost

open Finset Polynomial

variable {F G R : Type} [Field F] [DecidableEq F] [AddCommGroup G] [Module F G] [DecidableEq G]

/-- The `k`-th coefficient of the polynomial that is one at the index `i` and zero at the other indices of `l`. -/
noncomputable def Spec.basisCoeff (F : Type) [Field F] (l : List U32) (i : U32) (k : Nat) : F :=
  (Lagrange.basis l.toFinset (fun j : U32 => (j.toNat : F)) i).coeff k

/-- Commitments computed from a public key `Y` and the shares `v` of the participants `J`, without any secret. -/
noncomputable def Spec.simulatedPoints (g : G) (t : Nat) (Y : G) (J : List U32) (v : U32 → F) : List G :=
  (List.range t).map fun k => Spec.basisCoeff F (0 :: J) 0 k • Y +
    ∑ j ∈ J.toFinset, Spec.basisCoeff F (0 :: J) j k • v j • g

theorem u32F_zero : u32F F 0 = 0 := by simp [u32F]

/-- Interpolation through the secret and `t - 1` shares. -/
theorem ofPoly_interpolate (hu : Suite.U32Inj F) (t : Nat) (J : List U32) (hJ : J.Nodup) (h0 : 0 ∉ J)
    (ht : J.length + 1 = t) (w : U32 → F) (cs : List F) :
    (cs.length = t ∧ cs.headD 0 = w 0 ∧ ∀ j ∈ J, Spec.polyEval cs (j.toNat : F) = w j) ↔
      cs = ofPoly t (Lagrange.interpolate (0 :: J).toFinset (u32F F) w) := by
  have hn : (0 :: J).Nodup := List.nodup_cons.mpr ⟨h0, hJ⟩
  have hcard : (0 :: J).toFinset.card = t := by rw [List.toFinset_card_of_nodup hn]; simpa using ht
  have hinj := u32F_injOn hu (0 :: J).toFinset
  have hdeg : (Lagrange.interpolate (0 :: J).toFinset (u32F F) w).degree < t := by
    rw [← hcard]; exact Lagrange.degree_interpolate_lt w hinj
  constructor
  · rintro ⟨h1, h2, h3⟩
    rw [← Lagrange.eq_interpolate_of_eval_eq (f := toPoly cs) w hinj, ← h1, ofPoly_toPoly]
    · rw [hcard, ← h1]; exact toPoly_degree cs
    · intro j hj
      rw [toPoly_eval]
      rcases List.mem_cons.mp (List.mem_toFinset.mp hj) with rfl | hj
      · rw [u32F_zero, Spec.polyEval_zero, h2]
      · exact h3 j hj
  · rintro rfl
    refine ⟨ofPoly_length _ _, ?_, fun j hj => ?_⟩
    · rw [← Spec.polyEval_zero, ofPoly_eval _ _ hdeg, ← u32F_zero]
      exact Lagrange.eval_interpolate_at_node w hinj (by simp)
    · rw [ofPoly_eval _ _ hdeg]
      exact Lagrange.eval_interpolate_at_node w hinj (by simp [hj])

/-- C124: with a given secret, the shares of `t - 1` participants correspond one to one to the polynomials. -/
theorem C124_shares_uniform (hu : Suite.U32Inj F) (t : Nat) (J : List U32) (hJ : J.Nodup) (h0 : 0 ∉ J)
    (ht : J.length + 1 = t) (s : F) (v : U32 → F) :
    ∃! cs : List F, cs.length = t ∧ cs.headD 0 = s ∧ ∀ j ∈ J, Spec.polyEval cs (j.toNat : F) = v j := by
  have h := ofPoly_interpolate hu t J hJ h0 ht (fun i => if i = 0 then s else v i)
  have hv : ∀ cs : List F, (∀ j ∈ J, Spec.polyEval cs (j.toNat : F) = if j = 0 then s else v j) ↔
      ∀ j ∈ J, Spec.polyEval cs (j.toNat : F) = v j := fun cs =>
    forall₂_congr fun j hj => by rw [if_neg (fun h : j = 0 => h0 (h ▸ hj))]
  simp only [if_true, hv] at h
  exact ⟨_, (h _).mpr rfl, fun cs hcs => (h cs).mp hcs⟩

/-- C124: the commitments of a dealer are a function of its public key and of the shares of any `t - 1` participants. -/
theorem C124_commitments_simulated (hu : Suite.U32Inj F) (S : Suite F G R) (t : Nat) (J : List U32) (hJ : J.Nodup)
    (h0 : 0 ∉ J) (ht : J.length + 1 = t) (cs : List F) (hcs : cs.length = t) :
    commitPoints S cs = Spec.simulatedPoints S.gen t (cs.headD 0 • S.gen) J fun j => Spec.polyEval cs (j.toNat : F) := by
  have h := (ofPoly_interpolate hu t J hJ h0 ht (fun i => Spec.polyEval cs (u32F F i)) cs).mp
    ⟨hcs, by rw [u32F_zero, Spec.polyEval_zero], fun j _ => rfl⟩
  conv_lhs => rw [h]
  unfold commitPoints ofPoly Spec.simulatedPoints
  rw [List.map_map]
  refine List.map_congr_left fun k _ => ?_
  have h0' : (0 : U32) ∉ J.toFinset := fun h => h0 (List.mem_toFinset.mp h)
  simp only [Function.comp, Lagrange.interpolate_apply, finsetSum_coeff, coeff_C_mul, List.toFinset_cons]
  rw [sum_insert h0', u32F_zero, Spec.polyEval_zero, add_smul, sum_smul, smul_smul, mul_comm]
  congr 1
  · simp only [Spec.basisCoeff, List.toFinset_cons]; rfl
  · refine sum_congr rfl fun j _ => ?_
    rw [smul_smul, mul_comm]
    simp only [Spec.basisCoeff, List.toFinset_cons]; rfl

/-- C124: for every point `Y`, of unknown logarithm, and all shares `v`, the computed commitments pass all checks of the
participants `J` and have the public key `Y`. -/
theorem C124_simulated_accepted {S : Suite F G R} (hg : S.GroupLaws) (hu : Suite.U32Inj F) (t : Nat) (J : List U32)
    (hJ : J.Nodup) (h0 : 0 ∉ J) (ht : J.length + 1 = t) (Y : G) (v : U32 → F) (l : U32) :
    (Spec.simulatedPoints S.gen t Y J v).length = t ∧ (Spec.simulatedPoints S.gen t Y J v).head? = some Y ∧
      ∀ j ∈ J, (SecretShare.mk l j (v j)).verify S ⟨l, Spec.simulatedPoints S.gen t Y J v⟩ = (.ok () : Out F G Unit) := by
  obtain ⟨s, rfl⟩ := hg.gen_surj Y
  obtain ⟨cs, ⟨h1, h2, h3⟩, _⟩ := C124_shares_uniform hu t J hJ h0 ht s v
  have h := C124_commitments_simulated hu S t J hJ h0 ht cs h1
  have hv : Spec.simulatedPoints S.gen t (s • S.gen) J v =
      Spec.simulatedPoints S.gen t (cs.headD 0 • S.gen) J fun j => Spec.polyEval cs (j.toNat : F) := by
    unfold Spec.simulatedPoints
    rw [h2]
    refine List.map_congr_left fun k _ => ?_
    congr 1
    exact sum_congr rfl fun j hj => by beta_reduce; rw [h3 j (List.mem_toFinset.mp hj)]
  rw [hv, ← h]
  refine ⟨by rw [commitPoints_length, h1], ?_, fun j hj => ?_⟩
  · cases cs with
    | nil => simp at h1; omega
    | cons a as => simp [commitPoints] at h2 ⊢; rw [h2]
  · rw [verify_ok_iff]
    show v j • S.gen = Spec.pointEval (commitPoints S cs) (u32F F j)
    rw [pointEval_commitPoints, ← h3 j hj]
    rfl

/-- What the group key lacks when the dealer `l` is left out. -/
def Spec.othersKey (F : Type) [Field F] [DecidableEq F] [Module F G] (comms : BMap (VssCommitment G)) (l : U32) : G :=
  ∑ k ∈ comms.keys.toFinset.erase l,
    Spec.lagrange (F := F) comms.keys k • (((comms.get? k).map fun c => c.points.headD 0).getD 0)

/-- The group key, seen from one dealer. -/
theorem groupKey_split (hu : Suite.U32Inj F) (comms : BMap (VssCommitment G)) (hD : DealersOk comms) (l : U32)
    (c : VssCommitment G) (hl : comms.get? l = some c) (d : RoundTwo F G)
    (hc : d.state.theirCommitments = some comms) :
    d.calculateGroupKey = (.ok (Spec.lagrange (F := F) comms.keys l • c.points.headD 0 + Spec.othersKey F comms l) :
      Res F G G) := by
  obtain ⟨hwf, h0, hne⟩ := hD
  rw [calculateGroupKey_ok hu d comms hc hwf.nodup h0 (fun k => ((comms.get? k).map fun c => c.points.headD 0).getD 0)]
  · unfold Spec.interpolateG Spec.othersKey
    rw [← add_sum_erase _ _ (List.mem_toFinset.mpr (BMap.mem_keys_of_get? hl))]
    beta_reduce
    rw [hl]
    rfl
  · intro k c hkc
    rw [hkc]
    cases hp : c.points with
    | nil => exact absurd hp (hne k c hkc)
    | cons a as => simp [hp]

theorem othersKey_congr (comms comms' : BMap (VssCommitment G)) (l : U32) (hk : comms'.keys = comms.keys)
    (ho : ∀ k, k ≠ l → comms'.get? k = comms.get? k) : Spec.othersKey F comms' l = Spec.othersKey F comms l := by
  unfold Spec.othersKey
  rw [hk]
  exact sum_congr rfl fun k hk' => by rw [ho k (ne_of_mem_erase hk')]

/-- The commitments of dealer `l` computed from the group key `Y`, the commitments of the other dealers and the shares
that `l` dealt to the participants `J`. -/
noncomputable def Spec.simulatedDealer (g : G) (t : Nat) (comms : BMap (VssCommitment G)) (l : U32) (Y : G)
    (J : List U32) (v : U32 → F) : List G :=
  Spec.simulatedPoints g t ((Spec.lagrange (F := F) comms.keys l)⁻¹ • (Y - Spec.othersKey F comms l)) J v

/-- C124, the real view: when `finish` computed the group key `Y`, the commitments of the dealer `l` are the function
`simulatedDealer` of `Y`, of the other dealers' commitments, and of the shares dealt to any `t - 1` participants. -/
theorem C124_real_view (hu : Suite.U32Inj F) (S : Suite F G R) (t : Nat) (J : List U32)
    (hJ : J.Nodup) (h0 : 0 ∉ J) (ht : J.length + 1 = t) (comms : BMap (VssCommitment G)) (hD : DealersOk comms)
    (l : U32) (cs : List F) (hcs : cs.length = t) (hl : comms.get? l = some ⟨l, commitPoints S cs⟩) (d : RoundTwo F G)
    (hc : d.state.theirCommitments = some comms) (Y : G) (hY : d.calculateGroupKey = (.ok Y : Res F G G)) :
    commitPoints S cs =
      Spec.simulatedDealer S.gen t comms l Y J fun j => Spec.polyEval cs (j.toNat : F) := by
  rw [groupKey_split hu comms hD l _ hl d hc] at hY
  have hY := Except.ok.inj hY
  have hlam : (Spec.lagrange comms.keys l : F) ≠ 0 := lagrange_ne_zero hu _ hD.zero l
  rw [C124_commitments_simulated hu S t J hJ h0 ht cs hcs, Spec.simulatedDealer, ← hY, add_sub_cancel_right,
    inv_smul_smul₀ hlam]
  congr 1
  cases cs with
  | nil => simp at hcs; omega
  | cons a as => rfl

/-- C124, the simulated view: for every point `Y` and all shares `v`, a session in which dealer `l` publishes the
computed commitments ends with the group key `Y`, and the shares `v` pass the checks of the participants `J`. -/
theorem C124_simulated_view {S : Suite F G R} (hg : S.GroupLaws) (hu : Suite.U32Inj F) (t : Nat) (J : List U32)
    (hJ : J.Nodup) (h0 : 0 ∉ J) (ht : J.length + 1 = t) (comms : BMap (VssCommitment G)) (hD : DealersOk comms)
    (l : U32) (Y : G) (v : U32 → F) (comms' : BMap (VssCommitment G)) (hD' : DealersOk comms')
    (hk : comms'.keys = comms.keys) (ho : ∀ k, k ≠ l → comms'.get? k = comms.get? k)
    (hl : comms'.get? l = some ⟨l, Spec.simulatedDealer S.gen t comms l Y J v⟩)
    (d : RoundTwo F G) (hc : d.state.theirCommitments = some comms') :
    d.calculateGroupKey = (.ok Y : Res F G G) ∧ (Spec.simulatedDealer S.gen t comms l Y J v).length = t ∧
      ∀ j ∈ J, (SecretShare.mk l j (v j)).verify S ⟨l, Spec.simulatedDealer S.gen t comms l Y J v⟩ =
        (.ok () : Out F G Unit) := by
  have hlam : (Spec.lagrange comms.keys l : F) ≠ 0 := lagrange_ne_zero hu _ hD.zero l
  obtain ⟨a1, a2, a3⟩ := C124_simulated_accepted hg hu t J hJ h0 ht
    ((Spec.lagrange (F := F) comms.keys l)⁻¹ • (Y - Spec.othersKey F comms l)) v l
  refine ⟨?_, a1, a3⟩
  rw [groupKey_split hu comms' hD' l _ hl d hc, othersKey_congr comms comms' l hk ho, hk]
  have : (Spec.simulatedDealer S.gen t comms l Y J v).headD 0 =
      (Spec.lagrange (F := F) comms.keys l)⁻¹ • (Y - Spec.othersKey F comms l) := by
    rw [List.headD_eq_head?_getD, Spec.simulatedDealer, a2]; rfl
  simp only [this, smul_inv_smul₀ hlam, sub_add_cancel]

/-- C124: the proof of knowledge can be supplied as well, without the secret: with the hash answering `c` on one input,
the record with the computed commitments is accepted as the record of a dealer. -/
theorem C124_record_accepted {S : Suite F G R} (hg : S.GroupLaws) (hu : Suite.U32Inj F) (t : U32) (J : List U32)
    (hJ : J.Nodup) (h0 : 0 ∉ J) (ht : J.length + 1 = t.toNat) (Y : G) (v : U32 → F) (l : U32) (c r : F) (dh : G)
    (pf : Nizk F) :
    let S' := S.program (S.contextString ++ strBytes "nizkpok") (u32le l ++ S.encG Y ++ S.encG (r • S.gen - c • Y)) c
    let p : Participant F G := ⟨l, dh, some ⟨l, Spec.simulatedPoints S.gen t.toNat Y J v⟩, some ⟨c, r⟩, pf⟩
    Spec.DhValid S' p → GoodDealer S' t p := by
  intro S' p hp
  obtain ⟨a1, a2, -⟩ := C124_simulated_accepted hg hu t.toNat J hJ h0 ht Y v l
  refine ⟨⟨hp, _, Y, ⟨c, r⟩, rfl, a2, rfl, ?_⟩, ?_⟩
  · exact (if_pos (⟨rfl, rfl⟩ : _ ∧ _)).symm
  · rintro _ ⟨⟩
    exact a1

section Examples
open Toy

/-- C124: threshold three, the shares of the participants 2 and 5 and the public key determine the commitments. -/
example : commitPoints suite [7, 8, 9] = Spec.simulatedPoints suite.gen 3 ((7 : Fp) • suite.gen) [2, 5]
    fun j => Spec.polyEval [7, 8, 9] (j.toNat : Fp) :=
  C124_commitments_simulated u32_inj suite 3 [2, 5] (by decide) (by decide) rfl [7, 8, 9] rfl

/-- C124: two dealers, threshold two; the group key 1000 is forced by computing the commitments of dealer 2, although
dealer 1 published other commitments; the shares of participant 3 are checked against the computed ones. -/
example (comms comms' : BMap (VssCommitment Fp)) (hcomms : comms = [(1, ⟨1, [10, 11]⟩), (2, ⟨2, [0, 0]⟩)])
    (hcomms' : comms' = [(1, ⟨1, [10, 11]⟩), (2, ⟨2, Spec.simulatedDealer suite.gen 2 comms 2 1000 [3] fun _ => (55 : Fp)⟩)])
    (st : DkgState Fp Fp) :
    (RoundTwo.mk { st with theirCommitments := some comms' } : RoundTwo Fp Fp).calculateGroupKey =
      (.ok 1000 : Res Fp Fp Fp) := by
  have hD : ∀ q : List Fp, q ≠ [] → DealersOk ([(1, ⟨1, [10, 11]⟩), (2, ⟨2, q⟩)] : BMap (VssCommitment Fp)) := by
    intro q hq
    refine ⟨by simp [BMap.WF, BMap.keys], by simp [BMap.keys], ?_⟩
    intro k c h
    simp only [BMap.get?] at h
    split at h
    · cases h; simp
    · split at h
      · cases h; exact hq
      · cases h
  have hlen : (Spec.simulatedDealer suite.gen 2 comms 2 1000 [3] fun _ => (55 : Fp)).length = 2 := by
    simp [Spec.simulatedDealer, Spec.simulatedPoints]
  have h1 : DealersOk comms := by subst hcomms; exact hD _ (by simp)
  have h2 : DealersOk comms' := by
    subst hcomms'
    refine hD _ fun h => ?_
    rw [h] at hlen
    cases hlen
  have h3 : comms'.keys = comms.keys := by rw [hcomms', hcomms]; simp only [BMap.keys, List.map]
  have h4 : ∀ k, k ≠ 2 → comms'.get? k = comms.get? k := by
    intro k hk
    rw [hcomms', hcomms]
    simp only [BMap.get?, if_neg hk]
  have h5 : comms'.get? 2 = some ⟨2, Spec.simulatedDealer suite.gen 2 comms 2 1000 [3] fun _ => (55 : Fp)⟩ := by
    rw [hcomms']
    simp [BMap.get?]
  exact (C124_simulated_view group_laws u32_inj 2 [3] (by decide) (by decide) rfl comms h1 2 1000 (fun _ => 55) comms' h2
    h3 h4 h5 _ rfl).1

/-- C124: a record of dealer 2 with computed commitments and an honest proof for the Diffie-Hellman key 21. -/
example : ∃ (S' : Suite Fp Fp Nat) (p : Participant Fp Fp), GoodDealer S' 2 p ∧ p.index = 2 ∧
    p.commitments = some ⟨2, Spec.simulatedPoints suite.gen 2 100 [3] fun _ => (55 : Fp)⟩ :=
  ⟨_, _, C124_record_accepted group_laws u32_inj 2 [3] (by decide) (by decide) rfl 100 (fun _ => 55) 2 9 8 ((21 : Fp) • _)
    _ (nizkProve_valid _ 2 21 0), rfl, rfl⟩

end Examples

end IceFrost
