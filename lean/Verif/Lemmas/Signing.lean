import Verif.Lemmas.Algebra
import Verif.Lemmas.Suite
import Verif.Model.Signature
import Mathlib.Tactic.Module

/-! # Lemmas on signing and aggregation -/

set_option linter.unusedSectionVars false
set_option linter.unusedSimpArgs false

namespace IceFrost

open Finset

variable {F G R : Type} [Field F] [DecidableEq F] [AddCommGroup G] [Module F G] [DecidableEq G]

/-! ### Binding factors -/

theorem encodeCommitments_eq (S : Suite F G R) (signers : List (Signer G)) :
    encodeCommitments S (commitmentList signers) = Spec.signersBytes S signers := by
  simp [encodeCommitments, commitmentList, Spec.signersBytes, List.flatMap, Function.comp_def]

theorem encodeGroupCommitmentList_ok (S : Suite F G R) {signers : List (Signer G)} (h : signers ≠ []) :
    encodeGroupCommitmentList S (commitmentList signers) = .ok (Spec.signersBytes S signers) := by
  rw [← encodeCommitments_eq]
  cases signers with
  | nil => exact absurd rfl h
  | cons s l => rfl

theorem encodeGroupCommitmentList_nil (S : Suite F G R) :
    encodeGroupCommitmentList S (commitmentList ([] : List (Signer G))) = .error (.panic .outOfBounds) := rfl

theorem foldl_insert_const {α β : Type} (key : β → U32) (f : U32 → α) (l : List β) (m : BMap α) (k : U32) :
    (l.foldl (fun m e => m.insert (key e) (f (key e))) m).get? k =
      if k ∈ l.map key then some (f k) else m.get? k := by
  induction l generalizing m with
  | nil => simp
  | cons e l ih =>
    rw [List.foldl_cons, ih]
    by_cases h : k ∈ l.map key
    · rw [if_pos h, if_pos (by rw [List.map_cons]; exact List.mem_cons_of_mem _ h)]
    · rw [if_neg h, BMap.get?_insert]
      by_cases h' : k = key e
      · rw [if_pos h', if_pos (by simp [h']), h']
      · rw [if_neg h', if_neg]
        rw [List.map_cons, List.mem_cons]
        tauto

theorem computeBindingFactors_nil (S : Suite F G R) (msg : Bytes) :
    computeBindingFactors S msg ([] : List (Signer G)) = .error (.panic .outOfBounds) := rfl

theorem computeBindingFactors_ok (S : Suite F G R) (msg : Bytes) {signers : List (Signer G)} (h : signers ≠ []) :
    ∃ m, computeBindingFactors S msg signers = .ok m ∧ ∀ i, m.get? i =
      if i ∈ signers.map (·.participantIndex) then some (Spec.rho S msg signers i) else none := by
  unfold computeBindingFactors
  rw [encodeGroupCommitmentList_ok S h]
  refine ⟨_, rfl, fun i => ?_⟩
  have := foldl_insert_const (fun e : U32 × G × G => e.1)
    (fun k => S.h1 (S.h4 msg ++ S.h5 (Spec.signersBytes S signers) ++ u32le k)) (commitmentList signers) [] i
  refine this.trans ?_
  have hm : (commitmentList signers).map (fun e => e.1) = signers.map (·.participantIndex) := by
    simp [commitmentList, Function.comp_def]
  rw [hm]
  rfl

theorem computeGroupCommitment_ok (S : Suite F G R) (msg : Bytes) (signers : List (Signer G)) (m : BMap F)
    (l : List (Signer G)) (hm : ∀ s ∈ l, m.get? s.participantIndex = some (Spec.rho S msg signers s.participantIndex))
    (acc : G) : computeGroupCommitment m l acc =
      .ok (acc + (l.map (Spec.signerCommitment S msg signers)).sum) := by
  induction l generalizing acc with
  | nil => simp [computeGroupCommitment]
  | cons s l ih =>
    rw [computeGroupCommitment, bindingFactorFor, hm s (by simp)]
    simp only
    rw [ih (fun s' hs' => hm s' (by simp [hs'])), List.map_cons, List.sum_cons, Spec.signerCommitment]
    congr 1
    abel

/-- What `sign` and `aggregate` compute first. -/
theorem session_ok (S : Suite F G R) (msg : Bytes) {signers : List (Signer G)} (h : signers ≠ []) :
    ∃ m, computeBindingFactors S msg signers = .ok m ∧ (∀ i, m.get? i =
      if i ∈ signers.map (·.participantIndex) then some (Spec.rho S msg signers i) else none) ∧
      computeGroupCommitment m signers 0 = .ok (Spec.groupCommitment S msg signers) := by
  obtain ⟨m, h1, h2⟩ := computeBindingFactors_ok S msg h
  refine ⟨m, h1, h2, ?_⟩
  rw [computeGroupCommitment_ok S msg signers m signers, zero_add]
  · rfl
  · intro s hs
    rw [h2, if_pos (List.mem_map.mpr ⟨s, hs, rfl⟩)]

/-! ### `sign` -/

theorem signCore_nil (S : Suite F G R) (dbg : Bool) (sk : IndividualSigningKey F) (msg : Bytes) (Y : G)
    (L : List (CommitmentShare F G)) (k : UInt64) (hk : k.toNat < L.length) (hk' : k ≠ UInt64.ofNat (2 ^ 64 - 1)) :
    signCore S dbg sk msg Y L k [] = .error (.panic .outOfBounds) := by
  unfold signCore
  have h1 : (dbg && k == UInt64.ofNat (2 ^ 64 - 1)) = false := by
        rw [beq_false_of_ne hk', Bool.and_false]
  have h2 : (k + 1).toNat = k.toNat + 1 := by
    rw [UInt64.toNat_add]
    have : k.toNat ≠ 2 ^ 64 - 1 := fun h => hk' (UInt64.toNat_inj.mp (by rw [h]; rfl))
    have := k.toNat_lt
    simp only [UInt64.toNat_one]
    omega
  rw [h1, h2]
  simp only [Bool.false_eq_true, if_false]
  rw [if_neg (by omega), computeBindingFactors_nil]

theorem toNat_succ {k : UInt64} (hk' : k ≠ UInt64.ofNat (2 ^ 64 - 1)) : (k + 1).toNat = k.toNat + 1 := by
  rw [UInt64.toNat_add]
  have : k.toNat ≠ 2 ^ 64 - 1 := fun h => hk' (UInt64.toNat_inj.mp (by rw [h]; rfl))
  have := k.toNat_lt
  simp only [UInt64.toNat_one]
  omega

/-- Exact behaviour of `sign` (before the list is updated) for every position but `usize::MAX`. -/
theorem signCore_cases (hu : Suite.U32Inj F) (S : Suite F G R) (dbg : Bool) (sk : IndividualSigningKey F) (msg : Bytes)
    (Y : G) (L : List (CommitmentShare F G)) (k : UInt64) (hk' : k ≠ UInt64.ofNat (2 ^ 64 - 1))
    (signers : List (Signer G)) :
    signCore S dbg sk msg Y L k signers =
      match L[k.toNat]? with
      | none => .error (.err .missingCommitmentShares)
      | some share =>
        if signers = [] then .error (.panic .outOfBounds)
        else if sk.index ∉ signers.map (·.participantIndex) then .error (.err .invalidBindingFactor)
        else if ¬ (signers.map (·.participantIndex)).Nodup then .error (.err (.custom "Duplicate indices provided"))
        else if 0 ∈ signers.map (·.participantIndex) then .error (.err .indexIsZero)
        else .ok (share.hidingC.secret + share.bindingC.secret * Spec.rho S msg signers sk.index +
          Spec.lagrange (signers.map (·.participantIndex)) sk.index * sk.key *
            Spec.sessionChallenge S Y msg signers, share) := by
  by_cases hL : k.toNat < L.length
  · rw [List.getElem?_eq_getElem hL]
    simp only
    by_cases hs : signers = []
    · rw [if_pos hs, hs]; exact signCore_nil S dbg sk msg Y L k hL hk'
    · rw [if_neg hs]
      obtain ⟨m, h1, h2, h3⟩ := session_ok S msg hs
      unfold signCore
      have hd : (dbg && k == UInt64.ofNat (2 ^ 64 - 1)) = false := by
        rw [beq_false_of_ne hk', Bool.and_false]
      rw [hd, toNat_succ hk']
      simp only [Bool.false_eq_true, if_false]
      rw [if_neg (by omega), h1]
      simp only [bindingFactorFor, h2]
      by_cases hi : sk.index ∈ signers.map (·.participantIndex)
      · rw [if_pos hi]
        simp only [not_true_eq_false, if_false, h3, hi]
        rw [lagrangeCoeff_cases]
        by_cases hn : (signers.map (·.participantIndex)).Nodup
        · simp only [hn, not_true_eq_false, if_false]
          by_cases h0 : 0 ∈ signers.map (·.participantIndex)
          · simp only [h0, if_true]
          · simp only [h0, if_false]
            rw [if_neg (by rintro ⟨j, _, hne, he⟩; exact hne (hu _ _ he))]
            simp only [List.getElem?_eq_getElem hL]
            rfl
        · simp only [hn, not_false_eq_true, if_true]
      · simp only [hi, if_false, not_false_eq_true, if_true]
  · rw [List.getElem?_eq_none (by omega)]
    unfold signCore
    have hd : (dbg && k == UInt64.ofNat (2 ^ 64 - 1)) = false := by
        rw [beq_false_of_ne hk', Bool.and_false]
    rw [hd, toNat_succ hk']
    simp only [Bool.false_eq_true, if_false]
    rw [if_pos (by omega)]

/-- What a successful `sign` has checked, for every position. -/
theorem signCore_ok (S : Suite F G R) (dbg : Bool) (sk : IndividualSigningKey F) (msg : Bytes)
    (Y : G) (L : List (CommitmentShare F G)) (k : UInt64) (signers : List (Signer G)) (z : F)
    (share : CommitmentShare F G) (h : signCore S dbg sk msg Y L k signers = .ok (z, share)) :
    L[k.toNat]? = some share ∧ signers ≠ [] ∧ sk.index ∈ signers.map (·.participantIndex) ∧
      (signers.map (·.participantIndex)).Nodup ∧ 0 ∉ signers.map (·.participantIndex) ∧
      z = share.hidingC.secret + share.bindingC.secret * Spec.rho S msg signers sk.index +
          Spec.lagrange (signers.map (·.participantIndex)) sk.index * sk.key *
            Spec.sessionChallenge S Y msg signers := by
  have hs : signers ≠ [] := by
    rintro rfl
    unfold signCore at h
    rw [computeBindingFactors_nil] at h
    split at h
    · cases h
    · split at h <;> cases h
  obtain ⟨m, h1, h2, h3⟩ := session_ok S msg hs
  unfold signCore at h
  split at h
  · cases h
  · split at h
    · cases h
    · rw [h1] at h
      simp only [bindingFactorFor, h2] at h
      by_cases hi : sk.index ∈ signers.map (·.participantIndex)
      · rw [if_pos hi] at h
        simp only [h3] at h
        rw [lagrangeCoeff_cases] at h
        by_cases hn : (signers.map (·.participantIndex)).Nodup
        · simp only [hn, not_true_eq_false, if_false] at h
          by_cases h0 : 0 ∈ signers.map (·.participantIndex)
          · simp only [h0, if_true] at h; cases h
          · simp only [h0, if_false] at h
            by_cases hc : ∃ j ∈ signers.map (·.participantIndex), j ≠ sk.index ∧ u32F F j = u32F F sk.index
            · rw [if_pos hc] at h; cases h
            · rw [if_neg hc] at h
              simp only at h
              cases hL : L[k.toNat]? with
              | none => rw [hL] at h; cases h
              | some c =>
                rw [hL] at h
                simp only [Except.ok.injEq, Prod.mk.injEq] at h
                obtain ⟨rfl, rfl⟩ := h
                exact ⟨rfl, hs, hi, hn, h0, rfl⟩
        · simp only [hn, not_false_eq_true, if_true] at h; cases h
      · rw [if_neg hi] at h; cases h

/-! ### `drop_share` -/

theorem lastIndexLoop_none (share : CommitmentShare F G) (l : List (CommitmentShare F G)) (i : Nat)
    (acc : Option Nat) (h : share ∉ l) : lastIndexLoop share i l acc = acc := by
  induction l generalizing i acc with
  | nil => rfl
  | cons s l ih =>
    rw [lastIndexLoop, if_neg (fun e => h (by simp [e])), ih _ _ (fun hm => h (by simp [hm]))]

theorem lastIndexLoop_some (share : CommitmentShare F G) (l : List (CommitmentShare F G)) (i : Nat)
    (acc : Option Nat) (h : share ∈ l) : ∃ pre post, l = pre ++ share :: post ∧ share ∉ post ∧
      lastIndexLoop share i l acc = some (i + pre.length) := by
  induction l generalizing i acc with
  | nil => simp at h
  | cons s l ih =>
    by_cases hm : share ∈ l
    · obtain ⟨pre, post, h1, h2, h3⟩ := ih (i + 1) (if s = share then some i else acc) hm
      refine ⟨s :: pre, post, by rw [h1]; rfl, h2, ?_⟩
      rw [lastIndexLoop, h3, List.length_cons]
      congr 1; omega
    · have hs : s = share := by
        rcases List.mem_cons.mp h with h | h
        · exact h.symm
        · exact absurd h hm
      refine ⟨[], l, by rw [hs]; rfl, hm, ?_⟩
      rw [lastIndexLoop, if_pos hs, lastIndexLoop_none share l _ _ hm]
      rfl

theorem dropShare_not_mem (l : List (CommitmentShare F G)) (share : CommitmentShare F G) (h : share ∉ l) :
    dropShare l share = l := by
  unfold dropShare
  rw [lastIndexLoop_none share l 0 none h]

theorem dropShare_mem (l : List (CommitmentShare F G)) (share : CommitmentShare F G) (h : share ∈ l) :
    ∃ pre post, l = pre ++ share :: post ∧ share ∉ post ∧ dropShare l share = pre ++ post := by
  obtain ⟨pre, post, h1, h2, h3⟩ := lastIndexLoop_some share l 0 none h
  refine ⟨pre, post, h1, h2, ?_⟩
  unfold dropShare
  rw [h3, h1]
  simp [List.eraseIdx_append_of_length_le]

/-! ### `verify` -/

theorem verify_iff (S : Suite F G R) (sig : ThresholdSignature F G) (Y : G) (msg : Bytes) :
    sig.verify S Y msg = .ok () ↔ Spec.SigValid S Y msg sig := by
  unfold ThresholdSignature.verify Spec.SigValid Spec.Schnorr
  simp only [msm_two]
  have : computeChallenge S sig.groupCommitment Y msg = Spec.challenge S sig.groupCommitment Y msg := rfl
  rw [this]
  constructor
  · intro h
    split at h
    · next he => 
      have h2 : sig.z • S.gen = (sig.z • S.gen + Spec.challenge S sig.groupCommitment Y msg • -Y) +
        Spec.challenge S sig.groupCommitment Y msg • Y := by module
      rwa [← he] at h2
    · cases h
  · intro h
    rw [h, if_pos (by module)]

/-! ### `aggregate` -/

theorem sumPartials_ok (p : BMap F) (l : List (Signer G)) (zs : U32 → F)
    (h : ∀ s ∈ l, p.get? s.participantIndex = some (zs s.participantIndex)) (acc : F) :
    sumPartials p l acc = .ok (acc + (l.map fun s => zs s.participantIndex).sum) := by
  induction l generalizing acc with
  | nil => simp [sumPartials]
  | cons s l ih =>
    rw [sumPartials, h s (by simp)]
    simp only
    rw [ih (fun s' hs' => h s' (by simp [hs'])), List.map_cons, List.sum_cons, add_assoc]

theorem foldl_share_unique (l : List (Signer G)) (hn : (l.map (·.participantIndex)).Nodup) (s : Signer G)
    (hs : s ∈ l) (acc : G × G) :
    l.foldl (fun acc s' => if s.participantIndex = s'.participantIndex then s'.share else acc) acc = s.share := by
  induction l generalizing acc with
  | nil => simp at hs
  | cons a l ih =>
    rw [List.foldl_cons]
    rw [List.map_cons, List.nodup_cons] at hn
    rcases List.mem_cons.mp hs with rfl | hs'
    · rw [if_pos rfl]
      have : ∀ (m : List (Signer G)) (acc : G × G), s.participantIndex ∉ m.map (·.participantIndex) →
          m.foldl (fun acc s' => if s.participantIndex = s'.participantIndex then s'.share else acc) acc = acc := by
        intro m
        induction m with
        | nil => intros; rfl
        | cons b m ihm =>
          intro acc hm
          rw [List.map_cons, List.mem_cons, not_or] at hm
          rw [List.foldl_cons, if_neg hm.1, ihm _ hm.2]
      exact this l _ hn.1
    · exact ih hn.2 hs' _

theorem commitmentForParticipant_ok (S : Suite F G R) (msg : Bytes) (l : List (Signer G))
    (hn : (l.map (·.participantIndex)).Nodup) (s : Signer G) (hs : s ∈ l) :
    commitmentForParticipant S s.participantIndex msg l = .ok (Spec.signerCommitment S msg l s) := by
  unfold commitmentForParticipant
  rw [encodeGroupCommitmentList_ok S (List.ne_nil_of_mem hs)]
  simp only
  rw [foldl_share_unique l hn s hs]
  rfl

attribute [local instance] Classical.propDecidable in
/-- The search for culprits, when everything is present. -/
theorem culpritsLoop_ok (hu : Suite.U32Inj F) (S : Suite F G R) (st : AggregatorState F G) (msg : Bytes)
    (hn : (st.signers.map (·.participantIndex)).Nodup) (h0 : 0 ∉ st.signers.map (·.participantIndex))
    (zs : U32 → F) (pk : U32 → G) (l : List (Signer G)) (hl : ∀ s ∈ l, s ∈ st.signers)
    (hz : ∀ s ∈ l, st.partialSignatures.get? s.participantIndex = some (zs s.participantIndex))
    (hp : ∀ s ∈ l, st.publicKeys.get? s.participantIndex = some (pk s.participantIndex)) :
    culpritsLoop S st msg (Spec.sessionChallenge S st.groupKey msg st.signers) l =
      .ok ((l.filter fun s => ¬ Spec.PartialValid S st.groupKey msg st.signers s (pk s.participantIndex)
        (zs s.participantIndex)).map (·.participantIndex)) := by
  induction l with
  | nil => rfl
  | cons s l ih =>
    rw [culpritsLoop, lagrangeCoeff_ok hu hn h0]
    simp only [hz s (by simp), hp s (by simp)]
    rw [commitmentForParticipant_ok S msg st.signers hn s (hl s (by simp))]
    simp only
    rw [ih (fun s' hs' => hl s' (by simp [hs'])) (fun s' hs' => hz s' (by simp [hs']))
      (fun s' hs' => hp s' (by simp [hs']))]
    by_cases hv : Spec.PartialValid S st.groupKey msg st.signers s (pk s.participantIndex) (zs s.participantIndex)
    · rw [List.filter_cons_of_neg (by simpa using hv)]
      simp only
      rw [if_neg]
      rw [not_not]; exact hv
    · rw [List.filter_cons_of_pos (by simpa using hv)]
      simp only
      rw [if_pos]
      · rfl
      · exact hv

end IceFrost
