import Verif.Toy
import Verif.Props.RoundOne
import Verif.Props.Errors

/-!
# C116, continued: the complete tables of the calls that open a session

`bootstrap`, `new`, `reshare`, `new_dealer` and `new_signer`: every input, including thresholds of zero (which
`ThresholdParameters::new` refuses, but which can be read from bytes) and records without proof (C22).
-/

set_option linter.unusedSectionVars false
set_option linter.unusedSimpArgs false

namespace IceFrost

attribute [local instance] Classical.propDecidable

variable {F G R : Type} [Field F] [DecidableEq F] [AddCommGroup G] [Module F G] [DecidableEq G]

/-- What a threshold of zero leads to: a debug assertion, or an error in builds without. -/
def Spec.zeroThreshold {α : Type} (dbg : Bool) : Res F G α :=
  if dbg = true then .error (.panic .debugAssert) else .error (.err .invalidThresholdParams)

theorem newParams_zero (dbg : Bool) (n : U32) :
    (Params.new dbg n 0 : Res F G Params) = Spec.zeroThreshold dbg := by
  unfold Params.new Spec.zeroThreshold
  cases dbg
  · simp
  · by_cases h : n = 0 <;> simp [h]

/-- A threshold of zero in the dealing modes, when nothing panics before. -/
theorem newState_deal_zero {S : Suite F G R} (hc : S.CipherLaws) (hd : S.CodecLaws) (dbg : Bool) (params : Params)
    (x : F) (i : U32) (cs : List F) (fs : Bool) (ps : List (Participant F G)) (rng : R) (ht : params.t = 0)
    (hlen : ps.length = params.n.toNat) (hno : fs = true → ∀ p ∈ ps, ¬ Spec.LacksProof S p) :
    newStateInternal S dbg params x i (some cs) ps true fs rng = Spec.zeroThreshold dbg := by
  have hf := foldlM_check S dbg params true fs (.inr rfl) ps hno
  have hl := filter_lengths ps (Accepts S params true fs)
  obtain ⟨m, rng', h1, _⟩ := dealShares_map hc hd x i cs ps rng
  unfold newStateInternal
  simp only [hlen, ne_eq, not_true_eq_false, if_false, hf]
  rw [if_neg (by rw [ht]; simp)]
  simp only [Bool.not_true, Bool.false_and, Bool.false_eq_true, if_false, h1]
  rw [u32Sub_ok dbg params.n _ _ (by rw [← hlen]; exact hl)]
  simp only []
  rw [ht, newParams_zero]
  unfold Spec.zeroThreshold
  cases dbg <;> rfl

theorem newState_receive_zero {S : Suite F G R} (dbg : Bool) (params : Params)
    (x : F) (i : U32) (cs : Option (List F)) (ps : List (Participant F G)) (rng : R) (ht : params.t = 0)
    (hlen : ps.length = params.n.toNat) (hno : ∀ p ∈ ps, ¬ Spec.LacksProof S p) :
    newStateInternal S dbg params x i cs ps false true rng = Spec.zeroThreshold dbg := by
  have hf := foldlM_check S dbg params false true (.inl rfl) ps (fun _ => hno)
  have hl := filter_lengths ps (Accepts S params false true)
  unfold newStateInternal
  simp only [hlen, ne_eq, not_true_eq_false, if_false, hf]
  rw [if_neg (by rw [ht]; simp)]
  simp only [Bool.not_false, Bool.and_self, if_true]
  rw [u32Sub_ok dbg params.n _ _ (by rw [← hlen]; exact hl)]
  simp only []
  rw [ht, newParams_zero]
  unfold Spec.zeroThreshold
  cases dbg <;> rfl

/-- C116, the complete table of `bootstrap`: wrong number of records; a record that lacks its proof (a panic, C22); a
threshold of zero; fewer than `t` valid records; success, with the list of valid records and the misbehaving indices. -/
theorem C116_bootstrap {S : Suite F G R} (hc : S.CipherLaws) (hd : S.CodecLaws) (dbg : Bool) (params : Params) (x : F)
    (i : U32) (cs : List F) (ps : List (Participant F G)) (rng : R) :
    ∃ d, bootstrap S dbg params x i cs ps rng =
      if ps.length ≠ params.n.toNat then .error (.err (.invalidNumberOfParticipants ps.length params.n))
      else if ∃ p ∈ ps, Spec.LacksProof S p then .error (.panic .expectNone)
      else if params.t = 0 then Spec.zeroThreshold dbg
      else if (ps.filter (GoodDealer S params.t)).length < params.t.toNat then
        .error (.err (.tooManyInvalidParticipants ((ps.filter fun p => ¬ GoodDealer S params.t p).map (·.index))))
      else .ok (d, ⟨ps.filter (GoodDealer S params.t), if ∀ p ∈ ps, GoodDealer S params.t p then none
        else some ((ps.filter fun p => ¬ GoodDealer S params.t p).map (·.index))⟩) := by
  unfold bootstrap
  by_cases h1 : ps.length = params.n.toNat
  · simp only [if_neg (show ¬ (ps.length ≠ params.n.toNat) from not_not.mpr h1)]
    by_cases h2 : ∃ p ∈ ps, Spec.LacksProof S p
    · simp only [if_pos h2]
      rw [newState_panic S dbg params x i _ ps _ rng h1 h2]
      exact ⟨⟨roundOneState S params x i true [] none⟩, rfl⟩
    · simp only [if_neg h2]
      push Not at h2
      by_cases h3 : params.t = 0
      · simp only [if_pos h3]
        rw [newState_deal_zero hc hd dbg params x i cs true ps rng h3 h1 fun _ => h2]
        refine ⟨⟨roundOneState S params x i true [] none⟩, ?_⟩
        unfold Spec.zeroThreshold
        cases dbg <;> rfl
      · simp only [if_neg h3]
        obtain ⟨k1, k2⟩ := newState_deal dbg params x i hc hd cs true ps rng h3 h1 (fun _ => h2)
        rw [accepts_bootstrap] at k1 k2
        by_cases h4 : (ps.filter (GoodDealer S params.t)).length < params.t.toNat
        · simp only [if_pos h4]
          rw [k1 h4]
          exact ⟨⟨roundOneState S params x i true [] none⟩, rfl⟩
        · obtain ⟨m, rng', k3, _⟩ := k2 (not_lt.mp h4)
          simp only [if_neg h4]
          rw [k3]
          refine ⟨⟨roundOneState S params x i true (ps.filter (GoodDealer S params.t)) (some m)⟩, ?_⟩
          simp only [Except.map, participantList, List.isEmpty_iff, List.map_eq_nil_iff, List.filter_eq_nil_iff,
            decide_eq_true_eq, not_not]
  · simp only [if_pos (show ps.length ≠ params.n.toNat from h1)]
    rw [newState_length S dbg params x i _ ps _ _ rng h1]
    exact ⟨⟨roundOneState S params x i true [] none⟩, rfl⟩

/-- C116, the complete table of `new`. It is that of `bootstrap`, except that the number of commitment points is not
looked at (C26). -/
theorem C116_new (S : Suite F G R) (dbg : Bool) (params : Params) (x : F)
    (i : U32) (ps : List (Participant F G)) (rng : R) :
    ∃ d, dkgNew S dbg params x i ps rng =
      if ps.length ≠ params.n.toNat then .error (.err (.invalidNumberOfParticipants ps.length params.n))
      else if ∃ p ∈ ps, Spec.LacksProof S p then .error (.panic .expectNone)
      else if params.t = 0 then Spec.zeroThreshold dbg
      else if (ps.filter (Spec.DealerValid S)).length < params.t.toNat then
        .error (.err (.tooManyInvalidParticipants ((ps.filter fun p => ¬ Spec.DealerValid S p).map (·.index))))
      else .ok (d, ⟨ps.filter (Spec.DealerValid S), if ∀ p ∈ ps, Spec.DealerValid S p then none
        else some ((ps.filter fun p => ¬ Spec.DealerValid S p).map (·.index))⟩) := by
  unfold dkgNew
  by_cases h1 : ps.length = params.n.toNat
  · simp only [if_neg (show ¬ (ps.length ≠ params.n.toNat) from not_not.mpr h1)]
    by_cases h2 : ∃ p ∈ ps, Spec.LacksProof S p
    · simp only [if_pos h2]
      rw [newState_panic S dbg params x i _ ps _ rng h1 h2]
      exact ⟨⟨roundOneState S params x i true [] none⟩, rfl⟩
    · simp only [if_neg h2]
      push Not at h2
      by_cases h3 : params.t = 0
      · simp only [if_pos h3]
        rw [newState_receive_zero dbg params x i none ps rng h3 h1 h2]
        refine ⟨⟨roundOneState S params x i true [] none⟩, ?_⟩
        unfold Spec.zeroThreshold
        cases dbg <;> rfl
      · simp only [if_neg h3]
        obtain ⟨k1, k2⟩ := newState_receive dbg params x i none ps rng h3 h1 h2
        rw [accepts_new] at k1 k2
        by_cases h4 : (ps.filter (Spec.DealerValid S)).length < params.t.toNat
        · simp only [if_pos h4]
          rw [k1 h4]
          exact ⟨⟨roundOneState S params x i true [] none⟩, rfl⟩
        · simp only [if_neg h4]
          rw [k2 (not_lt.mp h4)]
          refine ⟨⟨roundOneState S params x i true (ps.filter (Spec.DealerValid S)) none⟩, ?_⟩
          simp only [Except.map, participantList, List.isEmpty_iff, List.map_eq_nil_iff, List.filter_eq_nil_iff,
            decide_eq_true_eq, not_not]
  · simp only [if_pos (show ps.length ≠ params.n.toNat from h1)]
    rw [newState_length S dbg params x i _ ps _ _ rng h1]
    exact ⟨⟨roundOneState S params x i true [] none⟩, rfl⟩

/-- C116, `new_dealer` and `new_signer`: index 0 is refused; a threshold of zero makes `new_dealer` panic, as there is no
commitment to the secret to prove knowledge of; nothing else fails. -/
theorem C116_participants (S : Suite F G R) (params : Params) (i : U32) (rng : R) :
    (∃ v, newDealer S params i rng =
      if i = 0 then .error (.err .indexIsZero)
      else if params.t = 0 then .error (.panic .expectNone) else .ok v) ∧
    (∃ v, newSigner S params i rng = if i = 0 then .error (.err .indexIsZero) else .ok v) := by
  constructor
  · by_cases hi : i = 0
    · simp only [if_pos hi]
      exact ⟨((nizkProve S i 0 0 rng).1 |> fun p => ⟨i, 0, none, none, p⟩, [], 0), by
        unfold newDealer newInternal; rw [if_pos hi]⟩
    · simp only [if_neg hi]
      by_cases ht : params.t = 0
      · simp only [if_pos ht]
        refine ⟨((nizkProve S i 0 0 rng).1 |> fun p => ⟨i, 0, none, none, p⟩, [], 0), ?_⟩
        unfold newDealer
        rw [newInternal_dealer_eq, if_neg hi, ht]
        rfl
      · obtain ⟨p, cs, dh, rng', h, _⟩ := newInternal_dealer S params ht i hi none rng
        simp only [if_neg ht]
        exact ⟨(p, cs, dh), by unfold newDealer; rw [h]⟩
  · by_cases hi : i = 0
    · simp only [if_pos hi]
      exact ⟨((nizkProve S i 0 0 rng).1 |> fun p => ⟨i, 0, none, none, p⟩, 0), by
        unfold newSigner newInternal; rw [if_pos hi]⟩
    · simp only [if_neg hi]
      unfold newSigner newInternal
      simp only [if_neg hi]
      exact ⟨_, rfl⟩

/-- C116, the complete table of `reshare`: only the Diffie-Hellman proofs of the receivers matter. -/
theorem C116_reshare {S : Suite F G R} (hc : S.CipherLaws) (hd : S.CodecLaws) (dbg : Bool) (params : Params)
    (sk : IndividualSigningKey F) (ps : List (Participant F G)) (rng : R) :
    ∃ dealer m, reshare S dbg params sk ps rng =
      if sk.index = 0 then .error (.err .indexIsZero)
      else if params.t = 0 then .error (.panic .expectNone)
      else if ps.length ≠ params.n.toNat then .error (.err (.invalidNumberOfParticipants ps.length params.n))
      else if (ps.filter (Spec.DhValid S)).length < params.t.toNat then
        .error (.err (.tooManyInvalidParticipants ((ps.filter fun p => ¬ Spec.DhValid S p).map (·.index))))
      else .ok (dealer, m, ⟨ps.filter (Spec.DhValid S), if ∀ p ∈ ps, Spec.DhValid S p then none
        else some ((ps.filter fun p => ¬ Spec.DhValid S p).map (·.index))⟩) := by
  let p0 : Participant F G := ⟨sk.index, 0, none, none, (nizkProve S sk.index 0 0 rng).1⟩
  by_cases hi : sk.index = 0
  · refine ⟨p0, [], ?_⟩
    simp only [if_pos hi]
    unfold reshare newInternal
    simp only [if_pos hi]
  · simp only [if_neg hi]
    by_cases ht : params.t = 0
    · refine ⟨p0, [], ?_⟩
      simp only [if_pos ht]
      unfold reshare
      rw [newInternal_dealer_eq, if_neg hi, ht]
      rfl
    · simp only [if_neg ht]
      obtain ⟨p, cs, dh, rng', h, _⟩ := newInternal_dealer S params ht sk.index hi (some sk.key) rng
      unfold reshare
      rw [h]
      simp only []
      by_cases h1 : ps.length = params.n.toNat
      · simp only [if_neg (show ¬ (ps.length ≠ params.n.toNat) from not_not.mpr h1)]
        obtain ⟨k1, k2⟩ := newState_deal dbg params dh sk.index hc hd cs false ps rng' ht h1
          (fun h => by cases h)
        rw [accepts_reshare] at k1 k2
        by_cases h4 : (ps.filter (Spec.DhValid S)).length < params.t.toNat
        · simp only [if_pos h4]
          rw [k1 h4]
          exact ⟨p0, [], rfl⟩
        · obtain ⟨m, rng'', k3, _⟩ := k2 (not_lt.mp h4)
          simp only [if_neg h4]
          rw [k3]
          refine ⟨p, m, ?_⟩
          simp only [RoundOne.theirEncryptedSecretShares, roundOneState, participantList, List.isEmpty_iff,
            List.map_eq_nil_iff, List.filter_eq_nil_iff, decide_eq_true_eq, not_not]
      · simp only [if_pos (show ps.length ≠ params.n.toNat from h1)]
        rw [newState_length S dbg params dh sk.index _ ps _ _ rng' h1]
        exact ⟨p0, [], rfl⟩

section Examples

open Toy

/-- The rows of C116_bootstrap: success and misbehaving records are met in the examples of `Props.RoundOne`; here a
threshold of zero, a record without proof and a wrong number of records. -/
example : bootstrap suite false ⟨0, 0⟩ 5 1 [8, 9] [] 0 = .error (.err .invalidThresholdParams) ∧
    bootstrap suite true ⟨0, 0⟩ 5 1 [8, 9] [] 0 = .error (.panic .debugAssert) ∧
    bootstrap suite true ⟨3, 2⟩ 5 1 [8, 9] [] 0 = .error (.err (.invalidNumberOfParticipants 0 3)) := by
  refine ⟨?_, ?_, ?_⟩
  · obtain ⟨d, h⟩ := C116_bootstrap cipher_laws codec_laws false ⟨0, 0⟩ 5 1 [8, 9] [] 0
    rw [h]; simp [Spec.zeroThreshold]
  · obtain ⟨d, h⟩ := C116_bootstrap cipher_laws codec_laws true ⟨0, 0⟩ 5 1 [8, 9] [] 0
    rw [h]; simp [Spec.zeroThreshold]
  · obtain ⟨d, h⟩ := C116_bootstrap cipher_laws codec_laws true ⟨3, 2⟩ 5 1 [8, 9] [] 0
    rw [h]; simp

example : ∃ ps, bootstrap suite true ⟨1, 1⟩ 5 1 [8] ps 0 = .error (.panic .expectNone) := by
  obtain ⟨p, cs, dh, _, hl⟩ := C22_attack suite ⟨1, 1⟩ (by decide) 2 (by decide) 0
  refine ⟨[{ p with proofOfSecretKey := none }], ?_⟩
  obtain ⟨d, h⟩ := C116_bootstrap cipher_laws codec_laws true ⟨1, 1⟩ 5 1 [8] [{ p with proofOfSecretKey := none }] 0
  have h' : ∃ q ∈ [{ p with proofOfSecretKey := none }], Spec.LacksProof suite q := ⟨_, List.mem_singleton.mpr rfl, hl⟩
  rw [h, if_neg (by simp), if_pos h']

end Examples

end IceFrost
