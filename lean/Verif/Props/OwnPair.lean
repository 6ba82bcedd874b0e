import Verif.Props.Positions

/-! # C142: whether `sign` looks for its own nonce commitments in the signer list -/

set_option linter.unusedSectionVars false
set_option linter.unusedSimpArgs false

namespace IceFrost

variable {F G R : Type} [Field F] [DecidableEq F] [AddCommGroup G] [Module F G] [DecidableEq G]

/-- C142, negation: of the signer list `sign` looks only at the indices. With any commitments in the place of all others,
also of its own, it succeeds or fails as before, and what is left of the nonce list is the same. -/
theorem C142_commitments_ignored (hu : Suite.U32Inj F) (S : Suite F G R) (dbg : Bool) (sk : IndividualSigningKey F)
    (msg : Bytes) (Y : G) (L : List (CommitmentShare F G)) (k : UInt64) (hL : L.length < 2 ^ 63)
    (signers signers' : List (Signer G)) (h : signers.map (·.participantIndex) = signers'.map (·.participantIndex)) :
    ((∃ p, (sign S dbg sk msg Y L k signers).1 = .ok p) ↔ ∃ p, (sign S dbg sk msg Y L k signers').1 = .ok p) ∧
    (sign S dbg sk msg Y L k signers).2 = (sign S dbg sk msg Y L k signers').2 := by
  have h1 : (∃ p, (sign S dbg sk msg Y L k signers).1 = .ok p) ↔ ∃ p, (sign S dbg sk msg Y L k signers').1 = .ok p := by
    rw [C55_success_iff hu S dbg sk msg Y L k hL, C55_success_iff hu S dbg sk msg Y L k hL, h]
  refine ⟨h1, ?_⟩
  unfold sign at h1 ⊢
  cases hc : signCore S dbg sk msg Y L k signers with
  | error f =>
    cases hc' : signCore S dbg sk msg Y L k signers' with
    | error f' => rfl
    | ok v =>
      rw [hc, hc'] at h1
      obtain ⟨p, hp⟩ := h1.mpr ⟨_, rfl⟩
      cases hp
  | ok v =>
    cases hc' : signCore S dbg sk msg Y L k signers' with
    | error f' =>
      rw [hc, hc'] at h1
      obtain ⟨p, hp⟩ := h1.mp ⟨_, rfl⟩
      cases hp
    | ok v' =>
      have e1 := (signCore_ok S dbg sk msg Y L k signers v.1 v.2 hc).1
      have e2 := (signCore_ok S dbg sk msg Y L k signers' v'.1 v'.2 hc').1
      rw [e1] at e2
      simp only [Option.some.injEq] at e2
      simp only [e2]

/-- C142, exact condition: the partial signature made with the nonce pair `share` satisfies the share equation of the
entry `s` for the signer exactly if this entry yields the same nonce commitment as the pair. -/
theorem C142_valid_iff (S : Suite F G R) (dbg : Bool) (sk : IndividualSigningKey F) (msg : Bytes) (Y : G)
    (L : List (CommitmentShare F G)) (k : UInt64) (signers : List (Signer G)) (p : PartialSignature F)
    (h : (sign S dbg sk msg Y L k signers).1 = .ok p) (share : CommitmentShare F G) (hs : L[k.toNat]? = some share)
    (hh : share.hidingC.commit = share.hidingC.secret • S.gen)
    (hb : share.bindingC.commit = share.bindingC.secret • S.gen) (entry : G × G) :
    Spec.PartialValid S Y msg signers ⟨sk.index, entry⟩ (sk.toPublic S).share p.z ↔
      entry.1 + Spec.rho S msg signers sk.index • entry.2 =
        share.publish.1 + Spec.rho S msg signers sk.index • share.publish.2 := by
  unfold sign at h
  cases hc : signCore S dbg sk msg Y L k signers with
  | error f => rw [hc] at h; cases h
  | ok v =>
    rw [hc] at h
    obtain ⟨h1, _, _, _, _, h2⟩ := signCore_ok S dbg sk msg Y L k signers v.1 v.2 hc
    rw [hs] at h1
    simp only [Option.some.injEq] at h1
    simp only [Except.ok.injEq] at h
    subst h
    unfold Spec.PartialValid Spec.signerCommitment
    simp only [h2, ← h1, CommitmentShare.publish, hh, hb, IndividualSigningKey.toPublic]
    have e : (share.hidingC.secret + share.bindingC.secret * Spec.rho S msg signers sk.index +
          Spec.lagrange (signers.map (·.participantIndex)) sk.index * sk.key *
            Spec.sessionChallenge S Y msg signers) • S.gen =
        (share.hidingC.secret • S.gen + Spec.rho S msg signers sk.index • share.bindingC.secret • S.gen) +
        (Spec.sessionChallenge S Y msg signers * Spec.lagrange (signers.map (·.participantIndex)) sk.index) •
          sk.key • S.gen := by module
    rw [e, add_left_inj]
    exact eq_comm

/-- C142, consequence: if the aggregator lists an honest signer with another nonce commitment, the signer signs all the
same, and a failing aggregation reports it. -/
theorem C142_honest_reported {S : Suite F G R} (hu : Suite.U32Inj F) (params : Params) (Y : G) (message : Bytes)
    (ops : List (AggOp F G)) (f : FinalizedAggregator F G) (hf : (session params Y message ops).finalize S = .ok f)
    (l : List U32) (hl : f.aggregate S = .error (.err (.misbehavingParticipants l)))
    (dbg : Bool) (sk : IndividualSigningKey F) (L : List (CommitmentShare F G)) (k : UInt64) (share : CommitmentShare F G)
    (hshare : L[k.toNat]? = some share) (hh : share.hidingC.commit = share.hidingC.secret • S.gen)
    (hb : share.bindingC.commit = share.bindingC.secret • S.gen) (entry : G × G)
    (hlisted : ⟨sk.index, entry⟩ ∈ f.state.signers)
    (hkey : f.state.publicKeys.get? sk.index = some (sk.toPublic S).share) (p : PartialSignature F)
    (hsign : (sign S dbg sk (Spec.messageHash S message) Y L k f.state.signers).1 = .ok p)
    (hp : f.state.partialSignatures.get? sk.index = some p.z) :
    sk.index ∈ l ↔ entry.1 + Spec.rho S (Spec.messageHash S message) f.state.signers sk.index • entry.2 ≠
      share.publish.1 + Spec.rho S (Spec.messageHash S message) f.state.signers sk.index • share.publish.2 := by
  rw [← not_iff_not, not_not,
    ← C142_valid_iff S dbg sk (Spec.messageHash S message) Y L k f.state.signers p hsign share hshare hh hb entry,
    (C65_exact S params Y message ops hu f hf l hl).2 sk.index]
  constructor
  · intro hn
    by_contra hv
    exact hn ⟨_, hlisted, rfl, p.z, _, hp, hkey, hv⟩
  · rintro hv ⟨s, hs, hi, z, pk, hz, hpk, hnv⟩
    rw [hp] at hz
    rw [hkey] at hpk
    obtain rfl := Option.some.inj hz
    obtain rfl := Option.some.inj hpk
    have hnd : (f.state.signers.map (·.participantIndex)).Nodup := by
      unfold sign at hsign
      cases hc : signCore S dbg sk (Spec.messageHash S message) Y L k f.state.signers with
      | error e => rw [hc] at hsign; cases hsign
      | ok v => exact (signCore_ok S dbg sk _ Y L k f.state.signers v.1 v.2 hc).2.2.2.1
    have : s = ⟨sk.index, entry⟩ := by
      have := List.inj_on_of_nodup_map hnd hs hlisted hi
      exact this
    rw [this] at hnv
    exact hnv hv

/-- C142, what holds: a signer that finds its own published pair in the list before it signs makes a valid partial
signature, whatever the other entries are.

Missing for the full C142: `sign` does not look, see `C142_commitments_ignored`. -/
theorem C142_own_pair_partial (S : Suite F G R) (dbg : Bool) (sk : IndividualSigningKey F) (msg : Bytes) (Y : G)
    (L : List (CommitmentShare F G)) (k : UInt64) (signers : List (Signer G)) (p : PartialSignature F)
    (h : (sign S dbg sk msg Y L k signers).1 = .ok p) (share : CommitmentShare F G) (hs : L[k.toNat]? = some share)
    (hh : share.hidingC.commit = share.hidingC.secret • S.gen)
    (hb : share.bindingC.commit = share.bindingC.secret • S.gen)
    (hl : ⟨sk.index, share.publish⟩ ∈ signers) :
    ∀ s ∈ signers, s.participantIndex = sk.index → Spec.PartialValid S Y msg signers s (sk.toPublic S).share p.z := by
  have hnd : (signers.map (·.participantIndex)).Nodup := by
    unfold sign at h
    cases hc : signCore S dbg sk msg Y L k signers with
    | error e => rw [hc] at h; cases h
    | ok v => exact (signCore_ok S dbg sk _ Y L k signers v.1 v.2 hc).2.2.2.1
  intro s hm hi
  have : s = ⟨sk.index, share.publish⟩ := List.inj_on_of_nodup_map hnd hm hl hi
  rw [this]
  exact (C142_valid_iff S dbg sk msg Y L k signers p h share hs hh hb _).mpr rfl

section Examples
open Toy SigningExamples

/-- Signer 3 with the pair `share 3`, listed with the commitments of `share 4`. -/
def wrongEntry : List (Signer Fp) := [⟨1, (share 1).publish⟩, ⟨3, (share 4).publish⟩]

/-- It signs, its pair is gone, and its partial signature is not valid for the list. -/
example : ∃ p, sign suite true ⟨3, key 3⟩ [1, 2] 42 [share 3] 0 wrongEntry = (.ok p, []) ∧
    ¬ Spec.PartialValid suite 42 [1, 2] wrongEntry ⟨3, (share 4).publish⟩ ((⟨3, key 3⟩ : IndividualSigningKey Fp).toPublic
      suite).share p.z := by
  have hi := C142_commitments_ignored u32_inj suite true ⟨3, key 3⟩ [1, 2] 42 [share 3] 0 (by decide) wrongEntry
    [⟨1, (share 1).publish⟩, ⟨3, (share 3).publish⟩] rfl
  obtain ⟨p, hp⟩ := hi.1.mpr ((C55_success_iff u32_inj suite true ⟨3, key 3⟩ [1, 2] 42 [share 3] 0 (by decide)
    [⟨1, (share 1).publish⟩, ⟨3, (share 3).publish⟩]).mpr ⟨by decide, by simp, by simp, by simp⟩)
  have h2 : (sign suite true ⟨3, key 3⟩ [1, 2] 42 [share 3] 0 wrongEntry).2 = [] := by
    have := (C117_shift suite true _ _ _ [share 3] (by simp) 0 wrongEntry p hp).2
    apply List.ext_getElem?
    intro j
    rw [this j (Nat.zero_le _)]
    rfl
  refine ⟨p, Prod.ext hp h2, ?_⟩
  rw [C142_valid_iff suite true ⟨3, key 3⟩ [1, 2] 42 [share 3] 0 wrongEntry p hp (share 3) rfl rfl rfl]
  decide +kernel

/-- With the own pair in the list the partial signature is valid. -/
example (p : PartialSignature Fp) (hp : (sign suite true ⟨3, key 3⟩ [1, 2] 42 [share 3] 0
    [⟨1, (share 4).publish⟩, ⟨3, (share 3).publish⟩]).1 = .ok p) :=
  C142_own_pair_partial suite true ⟨3, key 3⟩ [1, 2] 42 [share 3] 0 _ p hp (share 3) rfl rfl rfl (by simp)

/-- The response of signer `i` with the nonce pair `share i` for the list `wrongEntry`. -/
def responseOf (i : U32) : PartialSignature Fp :=
  match (sign suite true ⟨i, key i⟩ (Spec.messageHash suite [1]) (42 : Fp) [share i] 0 wrongEntry).1 with
  | .ok p => p
  | .error _ => ⟨0, 0⟩

/-- A session in which the aggregator lists signer 3 with the commitments of `share 4`. -/
def wrongSession : List (AggOp Fp Fp) :=
  [.signer 1 (share 1).publish ⟨1, key 1 • suite.gen⟩, .signer 3 (share 4).publish ⟨3, key 3 • suite.gen⟩,
    .partialSig (responseOf 1), .partialSig (responseOf 3)]

/-- Both signers are honest, aggregation fails, and signer 3 is reported. -/
example : ∃ f l, (session ⟨3, 2⟩ (42 : Fp) [1] wrongSession).finalize suite = .ok f ∧
    f.aggregate suite = .error (.err (.misbehavingParticipants l)) ∧ 3 ∈ l := by
  have h : (match (session ⟨3, 2⟩ (42 : Fp) [1] wrongSession).finalize suite with
    | .ok f => decide (f.state.signers = wrongEntry) &&
        decide (f.state.publicKeys.get? 3 = some (key 3 • suite.gen)) &&
        decide (f.state.partialSignatures.get? 3 = some (responseOf 3).z) &&
        (match f.aggregate suite with | .error (.err (.misbehavingParticipants _)) => true | _ => false)
    | .error _ => false) = true := by decide +kernel
  have hs : (match (sign suite true ⟨3, key 3⟩ (Spec.messageHash suite [1]) (42 : Fp) [share 3] 0 wrongEntry).1 with
    | .ok p => true
    | .error _ => false) = true := by decide +kernel
  cases hf : (session ⟨3, 2⟩ (42 : Fp) [1] wrongSession).finalize suite with
  | error e => rw [hf] at h; cases h
  | ok f =>
    rw [hf] at h
    simp only [Bool.and_eq_true, decide_eq_true_eq] at h
    obtain ⟨⟨⟨h1, h2⟩, h3⟩, h4⟩ := h
    split at h4
    · rename_i l hl
      refine ⟨f, l, rfl, hl, ?_⟩
      have hp : (sign suite true ⟨3, key 3⟩ (Spec.messageHash suite [1]) (42 : Fp) [share 3] 0 wrongEntry).1 =
          .ok (responseOf 3) := by
        unfold responseOf
        split at hs
        · rename_i p hp
          rw [hp]
        · cases hs
      refine (C142_honest_reported u32_inj ⟨3, 2⟩ 42 [1] wrongSession f hf l hl true ⟨3, key 3⟩ [share 3] 0 (share 3)
        rfl rfl rfl (share 4).publish (by rw [h1]; simp [wrongEntry]) h2 (responseOf 3) (by rw [h1]; exact hp) h3).mpr ?_
      rw [h1]
      decide +kernel
    · cases h4

end Examples
end IceFrost
