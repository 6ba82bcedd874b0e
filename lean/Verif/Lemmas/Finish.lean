import Verif.Lemmas.RoundTwo
import Verif.Model.Keys

/-! # `finish` and individual verifying keys -/

set_option linter.unusedSectionVars false
set_option linter.unusedSimpArgs false

namespace IceFrost

open Finset

variable {F G R : Type} [Field F] [DecidableEq F] [AddCommGroup G] [Module F G] [DecidableEq G]

/-- The outcome of all Lagrange coefficients of an index list at once: the error does not depend on the index. -/
theorem lagrangeCoeff_uniform (hu : Suite.U32Inj F) (l : List U32) (my : U32) :
    lagrangeCoeff (F := F) (G := G) my l =
      if ¬ l.Nodup then .error (.custom "Duplicate indices provided")
      else if 0 ∈ l then .error .indexIsZero else .ok (Spec.lagrange l my) := by
  rw [lagrangeCoeff_cases]
  have : ¬ ∃ j ∈ l, j ≠ my ∧ u32F F j = u32F F my := by
    rintro ⟨j, _, hne, he⟩; exact hne (hu _ _ he)
  simp only [this, if_false]

/-! ### Sums over maps -/

theorem sum_map_eq {M : Type} [AddCommMonoid M] {α : Type} {m : BMap α} (hm : m.keys.Nodup) (f : U32 → α → M)
    (g : U32 → M) (h : ∀ k v, m.get? k = some v → g k = f k v) :
    (m.map fun e => f e.1 e.2).sum = ∑ k ∈ m.keys.toFinset, g k := by
  rw [List.sum_toFinset _ hm]
  unfold BMap.keys
  rw [List.map_map]
  congr 1
  refine List.map_congr_left fun e he => ?_
  exact (h e.1 e.2 (BMap.get?_of_mem hm he)).symm

/-! ### The signing key -/

theorem signingKeyLoop_ok (l : List U32) (L : U32 → F) (rest : List (U32 × SecretShare F))
    (h : ∀ e ∈ rest, lagrangeCoeff (F := F) (G := G) e.1 l = .ok (L e.1)) (key : F) :
    signingKeyLoop (G := G) l rest key =
      (.ok (key + (rest.map fun e => e.2.eval * L e.1).sum), rest.map fun e => (e.1, ⟨0, 0, 0⟩)) := by
  induction rest generalizing key with
  | nil => simp [signingKeyLoop]
  | cons e rest ih =>
    obtain ⟨k, s⟩ := e
    unfold signingKeyLoop
    rw [h (k, s) (by simp)]
    simp only []
    rw [ih (fun e he => h e (List.mem_cons_of_mem _ he))]
    simp [add_assoc]

theorem calculateSigningKey_ok (hu : Suite.U32Inj F) (d : RoundTwo F G) (m : BMap (SecretShare F))
    (hm : d.state.mySecretShares = some m) (hn : m.keys.Nodup) (h0 : 0 ∉ m.keys) (ev : U32 → F)
    (hev : ∀ k s, m.get? k = some s → ev k = s.eval) :
    d.calculateSigningKey = (.ok ⟨d.state.index, Spec.interpolate m.keys ev⟩,
      ⟨{ d.state with mySecretShares := some (m.map fun e => (e.1, ⟨0, 0, 0⟩)) }⟩) := by
  unfold RoundTwo.calculateSigningKey
  rw [hm]
  simp only []
  rw [signingKeyLoop_ok m.keys (Spec.lagrange m.keys) m (fun e _ => lagrangeCoeff_ok hu hn h0 _)]
  simp only [zero_add, Except.map]
  rw [sum_map_eq hn (fun k s => s.eval * Spec.lagrange m.keys k) (fun k => Spec.lagrange m.keys k * ev k)
    (fun k s h => by rw [hev k s h, mul_comm])]
  rfl

/-! ### The group key -/

theorem groupKeyLoop_ok (l : List U32) (L : U32 → F) (rest : List (U32 × VssCommitment G)) (pk : U32 → G)
    (h : ∀ e ∈ rest, lagrangeCoeff (F := F) (G := G) e.1 l = .ok (L e.1) ∧ e.2.points.head? = some (pk e.1))
    (acc : G) :
    groupKeyLoop (F := F) l rest acc = .ok (acc + (rest.map fun e => L e.1 • pk e.1).sum) := by
  induction rest generalizing acc with
  | nil => simp [groupKeyLoop]
  | cons e rest ih =>
    obtain ⟨k, c⟩ := e
    obtain ⟨h1, h2⟩ := h (k, c) (by simp)
    unfold groupKeyLoop
    rw [h1]
    simp only [VssCommitment.publicKey]
    rw [h2]
    simp only []
    rw [ih (fun e he => h e (List.mem_cons_of_mem _ he))]
    simp [add_assoc]

theorem calculateGroupKey_ok (hu : Suite.U32Inj F) (d : RoundTwo F G) (comms : BMap (VssCommitment G))
    (hc : d.state.theirCommitments = some comms) (hn : comms.keys.Nodup) (h0 : 0 ∉ comms.keys) (pk : U32 → G)
    (hpk : ∀ k c, comms.get? k = some c → c.points.head? = some (pk k)) :
    d.calculateGroupKey = (.ok (Spec.interpolateG F comms.keys pk) : Res F G G) := by
  unfold RoundTwo.calculateGroupKey
  rw [hc]
  simp only []
  rw [groupKeyLoop_ok comms.keys (Spec.lagrange comms.keys) comms pk
    (fun e he => ⟨lagrangeCoeff_ok hu hn h0 _, hpk e.1 e.2 (BMap.get?_of_mem hn he)⟩)]
  rw [zero_add, sum_map_eq hn (fun k _ => Spec.lagrange (F := F) comms.keys k • pk k)
    (fun k => Spec.lagrange (F := F) comms.keys k • pk k) (fun _ _ _ => rfl)]
  rfl

theorem finish_ok (hu : Suite.U32Inj F) (d : RoundTwo F G) (comms : BMap (VssCommitment G))
    (hc : d.state.theirCommitments = some comms) (hn : comms.keys.Nodup) (h0 : 0 ∉ comms.keys) (pk : U32 → G)
    (hpk : ∀ k c, comms.get? k = some c → c.points.head? = some (pk k)) (m : BMap (SecretShare F))
    (hm : d.state.mySecretShares = some m) (hmn : m.keys.Nodup) (hm0 : 0 ∉ m.keys) (ev : U32 → F)
    (hev : ∀ k s, m.get? k = some s → ev k = s.eval) :
    d.finish = .ok (Spec.interpolateG F comms.keys pk, ⟨d.state.index, Spec.interpolate m.keys ev⟩) := by
  unfold RoundTwo.finish
  rw [calculateSigningKey_ok hu d m hm hmn hm0 ev hev]
  simp only []
  rw [calculateGroupKey_ok hu
    ⟨{ d.state with mySecretShares := some (m.map fun e => (e.1, ⟨0, 0, 0⟩)) }⟩ comms hc hn h0 pk hpk]

/-- The group key of a successful `finish` is a function of the commitments alone. -/
theorem finish_groupKey (d : RoundTwo F G) (comms : BMap (VssCommitment G))
    (hc : d.state.theirCommitments = some comms) {gk : G} {sk : IndividualSigningKey F}
    (h : d.finish = .ok (gk, sk)) : groupKeyLoop (F := F) comms.keys comms 0 = .ok gk := by
  unfold RoundTwo.finish at h
  split at h
  · cases h
  · next sk' d' hs =>
    have hd' : d'.state.theirCommitments = d.state.theirCommitments := by
      unfold RoundTwo.calculateSigningKey at hs
      split at hs
      · cases hs
      · simp only [Prod.mk.injEq] at hs
        rw [← hs.2]
    split at h
    · cases h
    · next gk' hg =>
      cases h
      unfold RoundTwo.calculateGroupKey at hg
      rw [hd', hc] at hg
      exact hg

/-! ### Individual verifying keys -/

theorem sum_list_interp (l : List (VssCommitment G)) (hn : (l.map (·.index)).Nodup) (f : VssCommitment G → G) :
    (l.map f).sum = ∑ k ∈ (l.map (·.index)).toFinset, ((l.find? (·.index = k)).map f).getD 0 := by
  rw [List.sum_toFinset _ hn, List.map_map]
  congr 1
  refine List.map_congr_left fun c hc => ?_
  have : l.find? (fun c' => decide (c'.index = c.index)) = some c := by
    induction l with
    | nil => cases hc
    | cons a l ih =>
      rw [List.map_cons, List.nodup_cons] at hn
      rcases List.mem_cons.mp hc with rfl | hc'
      · simp
      · have : a.index ≠ c.index := fun h => hn.1 (h ▸ List.mem_map.mpr ⟨c, hc', rfl⟩)
        rw [List.find?_cons_of_neg (by simpa using this)]
        exact ih hn.2 hc'
  simp [this]

theorem fromCommitmentsLoop_eq (hu : Suite.U32Inj F) (x : F) (l : List U32) (cs : List (VssCommitment G)) (acc : G) :
    fromCommitmentsLoop x l cs acc =
      if cs = [] then .ok acc
      else if ¬ l.Nodup then .error (.custom "Duplicate indices provided")
      else if 0 ∈ l then .error .indexIsZero
      else .ok (acc + (cs.map fun c => Spec.lagrange (F := F) l c.index • Spec.pointEval c.points x).sum) := by
  induction cs generalizing acc with
  | nil => simp [fromCommitmentsLoop]
  | cons c cs ih =>
    unfold fromCommitmentsLoop
    rw [lagrangeCoeff_uniform hu]
    rw [if_neg (List.cons_ne_nil _ _)]
    by_cases hn : l.Nodup
    · by_cases h0 : 0 ∈ l
      · rw [if_neg (not_not.mpr hn), if_pos h0, if_neg (not_not.mpr hn), if_pos h0]
      · rw [if_neg (not_not.mpr hn), if_neg h0, if_neg (not_not.mpr hn), if_neg h0]
        simp only []
        rw [ih, hornerHiding_eq]
        cases cs with
        | nil => simp
        | cons b cs =>
          rw [if_neg (List.cons_ne_nil _ _), if_neg (not_not.mpr hn), if_neg h0]
          simp [add_assoc]
    · rw [if_pos hn, if_pos hn]

theorem verifyKeyLoop_eq (hu : Suite.U32Inj F) (x : F) (l : List U32) (cs : List (VssCommitment G)) (acc : G) :
    verifyKeyLoop x l cs acc =
      (match fromCommitmentsLoop x l cs acc with
        | .ok v => .ok v
        | .error e => .error (.custom e.display) : Out F G G) := by
  induction cs generalizing acc with
  | nil => rfl
  | cons c cs ih =>
    unfold verifyKeyLoop fromCommitmentsLoop
    rw [lagrangeCoeff_uniform hu]
    by_cases hn : l.Nodup
    · by_cases h0 : 0 ∈ l
      · rw [if_neg (not_not.mpr hn), if_pos h0]
      · rw [if_neg (not_not.mpr hn), if_neg h0]
        simp only []
        rw [ih]
    · rw [if_pos hn]

theorem generateFromCommitments_ok (hu : Suite.U32Inj F) (i : U32) (cs : List (VssCommitment G))
    (hn : (cs.map (·.index)).Nodup) (h0 : 0 ∉ cs.map (·.index)) :
    (generateFromCommitments i cs : Out F G _) =
      .ok ⟨i, (cs.map fun c => Spec.lagrange (F := F) (cs.map (·.index)) c.index •
        Spec.pointEval c.points (u32F F i)).sum⟩ := by
  unfold generateFromCommitments
  rw [fromCommitmentsLoop_eq hu]
  cases cs with
  | nil => rfl
  | cons c cs => rw [if_neg (List.cons_ne_nil _ _), if_neg (not_not.mpr hn), if_neg h0, zero_add]

theorem verifyKey_iff (hu : Suite.U32Inj F) (k : IndividualVerifyingKey G) (cs : List (VssCommitment G)) :
    k.verify F cs = .ok () ↔ (generateFromCommitments k.index cs : Out F G _) = .ok k := by
  unfold IndividualVerifyingKey.verify generateFromCommitments
  rw [verifyKeyLoop_eq hu]
  cases h : (fromCommitmentsLoop (u32F F k.index) (cs.map (·.index)) cs 0 : Out F G G) with
  | error e => simp
  | ok v =>
    simp only []
    constructor
    · intro h'
      split at h'
      · next he => rw [← he]
      · cases h'
    · intro h'
      obtain ⟨i, s⟩ := k
      simp only [Except.ok.injEq, IndividualVerifyingKey.mk.injEq, true_and] at h'
      rw [if_pos h'.symm]

/-! ### Polynomials and interpolation -/

/-- Interpolation is linear: a combination of polynomials of length at most `|J|`. -/
theorem interpolate_sum (hu : Suite.U32Inj F) {J : List U32} (hJ : J.Nodup) {ι : Type} (s : Finset ι) (w : ι → F)
    (cs : ι → List F) (hcs : ∀ k ∈ s, (cs k).length ≤ J.length) :
    Spec.interpolate J (fun j => ∑ k ∈ s, w k * Spec.polyEval (cs k) (u32F F j)) =
      ∑ k ∈ s, w k * Spec.polyEval (cs k) 0 := by
  have : ∀ k ∈ s, Spec.polyEval (cs k) 0 = Spec.interpolate J (fun j => Spec.polyEval (cs k) (u32F F j)) :=
    fun k hk => (interpolate_polyEval hu hJ (cs k) (hcs k hk)).symm
  rw [sum_congr rfl fun k hk => by rw [this k hk]]
  unfold Spec.interpolate
  simp only [mul_sum]
  rw [sum_comm]
  refine sum_congr rfl fun k _ => sum_congr rfl fun j _ => by ring

theorem interpolate_congr {l : List U32} {f g : U32 → F} (h : ∀ i ∈ l, f i = g i) :
    Spec.interpolate l f = Spec.interpolate l g := by
  unfold Spec.interpolate
  exact sum_congr rfl fun i hi => by rw [h i (List.mem_toFinset.mp hi)]

theorem interpolate_list_congr {l l' : List U32} (h : ∀ k, k ∈ l ↔ k ∈ l') (f : U32 → F) :
    Spec.interpolate l f = Spec.interpolate l' f := by
  unfold Spec.interpolate
  have : l.toFinset = l'.toFinset := by ext k; simp [h k]
  rw [this]
  exact sum_congr rfl fun i _ => by rw [spec_lagrange_congr h]

end IceFrost
