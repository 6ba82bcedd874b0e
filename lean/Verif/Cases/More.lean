import Verif.Props.Receivers
import Verif.Props.RobustChain
import Verif.Props.Withheld
import Verif.Props.Below
import Verif.Props.Transcripts
import Verif.Props.SignEndToEnd
import Verif.Props.Authentic
import Verif.Cases.Session

/-!
# Further concrete cases

Instances of theorems whose hypotheses are not all met in the examples beside them, or that appear there only in part.
-/

set_option linter.unusedSectionVars false
set_option linter.unusedSimpArgs false
set_option linter.unusedVariables false

namespace IceFrost.Cases

open Toy

/-- A (3, 2) group that reshares to itself. -/
theorem reshareOk33 : ReshareOk [1, 2, 3] ⟨3, 2⟩ ⟨3, 2⟩ [1, 2, 3] := by constructor <;> decide

/-- C49: as in the test of the repository, one of the receivers keeps the record that it made as a dealer. -/
example : ∃ (key' : U32 → Fp) (d2 : U32 → RoundTwo Fp Fp), (∀ i ∈ [(1 : U32), 2, 3], (d2 i).finish =
      .ok (Spec.interpolate [1, 2, 3] (fun i => Spec.polyEval [5, 2] (u32F Fp i)) • suite.gen, ⟨i, key' i⟩)) := by
  obtain ⟨a, ya, _, ha, _, ha', _⟩ := newInternal_signer suite ⟨3, 2⟩ 1 (by decide) none 0
  obtain ⟨b, yb, _, hb, _⟩ := newInternal_signer suite ⟨3, 2⟩ 2 (by decide) none 0
  obtain ⟨c, cs, yc, _, hc, _⟩ := newInternal_dealer suite ⟨3, 2⟩ (by decide) 3 (by decide) none 0
  obtain ⟨P, m, _, E, _, d1, _, d2, _, key', h, _⟩ := C49_any_receivers lawful true [1, 2, 3]
    (fun i => Spec.polyEval [5, 2] (u32F Fp i)) ⟨3, 2⟩ ⟨3, 2⟩ [1, 2, 3] reshareOk33
    (fun i => if i = 1 then a else if i = 2 then b else c) (fun i => if i = 1 then ya else if i = 2 then yb else yc)
    (by
      intro i hi
      simp only [List.mem_cons, List.not_mem_nil, or_false] at hi
      rcases hi with rfl | rfl | rfl
      · exact .inl ⟨⟨3, 2⟩, 0, by unfold newSigner; rw [ha]; rfl⟩
      · exact .inl ⟨⟨3, 2⟩, 0, by unfold newSigner; rw [hb]; rfl⟩
      · exact .inr ⟨⟨3, 2⟩, 0, cs, by unfold newDealer; rw [hc]; rfl⟩)
    (fun _ => 0) (fun _ => 0) (fun _ => 0) (fun _ => [1, 2, 3]) (fun _ => [3, 2, 1]) (fun _ => [2, 3, 1])
    (fun _ _ => List.Perm.refl _) (fun _ _ => by decide)
  exact ⟨key', d2, h⟩

example := C50_from_dkg lawful true ⟨3, 2⟩ (by decide) (by decide) [1, 2, 3] (by decide) (by decide) rfl
  (fun _ => [3, 1, 2]) (fun _ => [2, 1, 3]) (fun _ _ => by decide) (fun _ _ => by decide) (fun i => i.toNat) (fun _ => 7)
  (fun _ => 9)

/-- C64: a key generation among 1, 2, 3 and a signature of 3 and 1. -/
example : ∃ (d2 : U32 → RoundTwo Fp Fp) (Y : Fp) (key : U32 → Fp) (sig : ThresholdSignature Fp Fp),
    (∀ i ∈ [(1 : U32), 2, 3], (d2 i).finish = .ok (Y, ⟨i, key i⟩)) ∧
      Spec.SigValid suite Y (Spec.messageHash suite (strBytes "hello")) sig := by
  obtain ⟨d2, Y, key, h1, h2⟩ := C64_dkg_to_signature lawful true ⟨3, 2⟩ (by decide) (by decide) [1, 2, 3] (by decide)
    (by decide) rfl (fun _ => [3, 1, 2]) (fun _ => [2, 1, 3]) (fun _ _ => by decide) (fun _ _ => by decide)
    (fun i => i.toNat) (fun _ => 7) (fun _ => 9)
  obtain ⟨p, c, sig, _, _, _, h⟩ := h2 [] _ (.nil _) ⟨3, 2⟩ (strBytes "hello") [3, 1] (by decide) (by decide) (by decide)
    (by show [(3 : U32), 1] ⊆ [1, 2, 3]; decide) (by show (2 : U32).toNat ≤ 2; decide) (by decide) (fun i => 100 * i.toNat) (fun _ => 5) (fun i => if i = 1 then 0 else 4)
    (by intro i _; refine ⟨by norm_num, ?_⟩; split <;> decide)
  exact ⟨d2, Y, key, sig, h1, h⟩

example := C64_documented_flow u32_inj suite (fun _ => true) ⟨3, 2⟩ (strBytes "hello") [1, 3] (by decide) (by decide)
  (by decide) (by decide) (fun i => 5 + 2 * (i.toNat : Fp)) _ rfl (fun i => i.toNat) (fun _ => 4) (fun _ _ => by norm_num)
  (fun _ => 3) (fun _ _ => by decide) [3, 1] [1, 3] (by decide) (by decide)

/-- C54: two calls, of which the second asks for a position that the first one used up. -/
example := C54_never_reused suite true
  [⟨⟨2, 11⟩, [1], 5, 1, [⟨2, 3, 4⟩, ⟨3, 5, 6⟩]⟩, ⟨⟨2, 11⟩, [1], 5, 1, [⟨2, 3, 4⟩, ⟨3, 5, 6⟩]⟩]
  (generateCommitmentShareLists suite 3 ⟨2, 11⟩ 2).2 (by decide +kernel)

example := C60_below_threshold_accepted suite ⟨3, 2⟩ (by decide) (5 : Fp) [1] 2 (3, 4) 6 (7 : Fp)

example := C62_mixed (F := Fp) ⟨3, 2⟩ (by decide) (5 : Fp) [1] 2 (3, 4) (8, 9) 6 7

example := C70_challenge_input_injective codec_laws (3 : Fp) 3 5 5 [1, 2] [1, 2] rfl

example : Spec.Survives Fp Fp (complaintCodec suite)
    (Complaint.new suite 5 3 ((3 : Fp) • (5 : Fp)) ⟨2, 1, [0, 0], [1, 2, 3]⟩ 0).1 :=
  C72_complaint codec_laws _ (by constructor <;> decide)

example := C72_public_list codec_laws (generateCommitmentShareLists suite 3 ⟨2, 11⟩ 2).1 (by decide +kernel)

/-- C88: the same nonce means the same key and the same random bytes here: the second alternative is excluded. -/
example := C88_nonce_binds codec_laws cipher_laws ⟨2, (11 : Fp)⟩ ⟨2, 11⟩ 4 4 rfl

example := C88_list suite 3 ⟨2, (11 : Fp)⟩ 4 2 (by decide)

example := C94_erased (G := Fp) ⟨⟨1, 2⟩, ⟨3, 4⟩⟩ ⟨⟨5, 6⟩, ⟨7, 8⟩⟩ ⟨1, 2, (3 : Fp)⟩ ⟨4, 5, 6⟩ ⟨1, 2⟩ ⟨3, 4⟩ [1, 2] [3, 4] rfl

/-- C94: after the key of a participant with shares of 1, 2 and 5 is computed, the shares are erased. -/
example : ∃ sk d', (honestState suite ⟨3, 2⟩ FinishExamples.D FinishExamples.cs 2).calculateSigningKey = (.ok sk, d') ∧
    ∃ m', d'.state.mySecretShares = some m' ∧ m'.keys = [1, 2, 5] ∧ ∀ k s, m'.get? k = some s → s = ⟨0, 0, 0⟩ := by
  have h : (match (honestState suite ⟨3, 2⟩ FinishExamples.D FinishExamples.cs 2).calculateSigningKey with
      | (.ok _, d') => d'.state.mySecretShares.map BMap.keys
      | _ => none) = some [1, 2, 5] := by decide +kernel
  have h : ∃ sk d' m', (honestState suite ⟨3, 2⟩ FinishExamples.D FinishExamples.cs 2).calculateSigningKey = (.ok sk, d') ∧
      d'.state.mySecretShares = some m' ∧ m'.keys = [1, 2, 5] := by
    cases hk : (honestState suite ⟨3, 2⟩ FinishExamples.D FinishExamples.cs 2).calculateSigningKey with
    | mk r d' =>
      rw [hk] at h
      cases r with
      | error e => cases h
      | ok sk =>
        obtain ⟨m', h1, h2⟩ := Option.map_eq_some_iff.mp h
        exact ⟨sk, d', m', rfl, h1, h2⟩
  obtain ⟨sk, d', m', h1, h2, h3⟩ := h
  exact ⟨sk, d', h1, m', h2, h3, C94_shares_consumed _ _ _ h1 m' h2⟩

/-- C113: a resharing to three receivers: which random values the record and the three ciphertexts use. -/
example : ∃ p m l, reshare suite true ⟨3, 2⟩ ⟨2, 11⟩ ([1, 2, 3].map fun i => (⟨i, (5 : Fp) • suite.gen, none, none,
      (nizkProve suite i 5 ((5 : Fp) • suite.gen) 0).1⟩ : Participant Fp Fp)) 4 = .ok (p, m, l) ∧
    p.dhPublicKey = Spec.scalar suite 4 0 • suite.gen := by
  have h : (reshare suite true ⟨3, 2⟩ ⟨2, 11⟩ ([1, 2, 3].map fun i => (⟨i, (5 : Fp) • suite.gen, none, none,
      (nizkProve suite i 5 ((5 : Fp) • suite.gen) 0).1⟩ : Participant Fp Fp)) 4).isOk = true := by decide +kernel
  cases hr : reshare suite true ⟨3, 2⟩ ⟨2, 11⟩ ([1, 2, 3].map fun i => (⟨i, (5 : Fp) • suite.gen, none, none,
      (nizkProve suite i 5 ((5 : Fp) • suite.gen) 0).1⟩ : Participant Fp Fp)) 4 with
  | error e => rw [hr] at h; cases h
  | ok v =>
    obtain ⟨p, m, l⟩ := v
    exact ⟨p, m, l, rfl, (C113_reshare suite true ⟨3, 2⟩ ⟨2, 11⟩ _ (by decide) 4 p m l hr).2.1⟩

example := C116_sign_table u32_inj suite true ⟨2, (11 : Fp)⟩ [1] (5 : Fp) (generateCommitmentShareLists suite 3 ⟨2, 11⟩ 2).2
  (by decide +kernel) 1 [⟨2, 3, 4⟩, ⟨3, 5, 6⟩]

/-- C122: participant 1 of a (3, 2) session receives the shares of 1 and 2 only. -/
example : ∃ (d1 : RoundOne Fp Fp) (d2 : RoundTwo Fp Fp) (E : U32 → EncShare) (gk : Fp) (sk : IndividualSigningKey Fp),
    d1.toRoundTwo suite true [E 1, E 2] 0 = .ok (d2, []) ∧ d2.finish = .ok (gk, sk) ∧ sk.index = 1 := by
  have hdeal : ∀ i ∈ [(1 : U32), 2, 3], ∃ p cs x, newDealer suite ⟨3, 2⟩ i i.toNat = .ok (p, cs, x) := fun i hi => by
    obtain ⟨p, cs, x, h, _⟩ := C16_new_dealer suite ⟨3, 2⟩ (by decide) i (by rintro rfl; simp at hi) i.toNat
    exact ⟨p, cs, x, h⟩
  choose! P coeffs x hP using hdeal
  have hE : ∀ l, ∃ e, HonestlyDealt suite l 1 (x l) (coeffs l) (x 1 • suite.gen) e := fun l => by
    obtain ⟨e, r, h, _⟩ := encryptShare_ok cipher_laws codec_laws (evaluatePolynomial l 1 (coeffs l))
      (suite.encG (x l • (x 1 • suite.gen))) 0
    exact ⟨e, 0, r, h⟩
  choose E hE using hE
  have hPg := fun l hl => newDealer_good (params := ⟨3, 2⟩) (by decide) (hP l hl)
  obtain ⟨m0, hb, _⟩ := bootstrap_honest cipher_laws codec_laws true ⟨3, 2⟩ (by decide) (by decide) ([1, 2, 3].map P)
    (by simp) (by
      intro p hp
      obtain ⟨l, hl, rfl⟩ := List.mem_map.mp hp
      exact (hPg l hl).2.2.2.2.2) (x 1) 1 (coeffs 1) 0
  obtain ⟨d2, sk, h1, h2, h3, _⟩ := C122_self_check_partial lawful true ⟨3, 2⟩ (by decide) [1, 2, 3] (by decide) rfl _ P
    coeffs x hP 1 [1, 2, 3] (List.Perm.refl _) 0 0 _ _ hb E [1, 2] (by decide) (by decide) (by decide) (fun l _ => hE l)
  exact ⟨_, d2, E, _, sk, h1, h2, h3⟩

/-- C129: the group of `firstEpoch` reshares to the signers 7 and 9. -/
example : ∃ r : AttackedRun Fp Fp Nat, CheckedRun suite firstEpoch r ∧ r.H = [7, 9] := by
  obtain ⟨r, h1, h2, _⟩ := C129_extend lawful true firstEpoch _ firstEpoch_shares [1, 2, 3] ⟨3, 2⟩ ⟨2, 2⟩ rfl [7, 9]
    (by constructor <;> decide) (by decide) (by decide) (fun _ => 0) (fun _ => 1) (fun _ => 2) (fun _ => 3)
  exact ⟨r, h1, h2⟩

end IceFrost.Cases
