import Verif.Model.Capacity
import Verif.Lemmas.RoundOne
import Verif.Props.Buffers

/-!
# C173: vectors reserved in advance are filled and never outgrown

A vector that is reserved too small moves while it is filled and leaves a copy of its content in released memory, which for
coefficients and nonces nobody overwrites. A vector that is reserved too large wastes memory, and if a peer or a configuration
file determines the size, any amount of it.
-/

set_option linter.unusedSectionVars false

namespace IceFrost

section
variable {α : Type}

theorem pushAll_fst (cap : Nat) (buf xs : List α) : (pushAll cap buf xs).1 = buf ++ xs := by
  induction xs generalizing cap buf with
  | nil => simp [pushAll]
  | cons x xs ih =>
    rw [pushAll]
    split
    · rw [ih]; simp
    · show (pushAll _ (buf ++ [x]) xs).1 = _
      rw [ih]; simp

/-- A vector with a reservation moves exactly when more is pushed than was reserved. -/
theorem pushAll_snd_nil_iff (cap : Nat) (hcap : cap ≠ 0) (buf xs : List α) (h : buf.length ≤ cap) :
    (pushAll cap buf xs).2 = [] ↔ buf.length + xs.length ≤ cap := by
  induction xs generalizing buf with
  | nil => simpa [pushAll] using h
  | cons x xs ih =>
    rw [pushAll]
    split
    · next hc =>
      rw [ih _ (by rw [List.length_append, List.length_singleton]; exact hc)]
      simp only [List.length_append, List.length_cons, List.length_nil]
      omega
    · next hc =>
      simp only [List.length_cons, reduceCtorEq, false_iff]
      omega

theorem pushAll_of_le (cap : Nat) (xs : List α) (h : xs.length ≤ cap) : pushAll cap [] xs = (xs, []) := by
  refine Prod.ext (pushAll_fst _ _ _) ?_
  cases xs with
  | nil => rfl
  | cons x xs =>
    have : cap ≠ 0 := by rintro rfl; simp at h
    exact (pushAll_snd_nil_iff cap this [] _ (Nat.zero_le _)).mpr (by simpa using h)

end

theorem writeChunks_of_le (cap : Nat) (cs : List Bytes) (h : cs.flatten.length ≤ cap) :
    writeChunks cap [] cs = (cs.flatten, []) :=
  Prod.ext (writeChunks_fst _ _ _) ((writeChunks_snd_nil_iff cap [] cs (Nat.zero_le _)).mpr (by simpa using h))

variable {F G R : Type} [Field F] [DecidableEq F] [AddCommGroup G] [Module F G] [DecidableEq G]

/-- A vector reserved for `cap` elements was filled with `content`, did not move, and is full. -/
def Spec.Filled {α : Type} (v : List α × List (List α)) (cap : Nat) (content : List α) : Prop :=
  v.1 = content ∧ v.2 = [] ∧ content.length = cap

theorem filled_of_length {α : Type} {xs : List α} {cap : Nat} (h : xs.length = cap) : Spec.Filled (pushAll cap [] xs) cap xs := by
  rw [pushAll_of_le cap xs h.le]
  exact ⟨rfl, rfl, h⟩

theorem commitmentShares_count (S : Suite F G R) (sk : IndividualSigningKey F) (k : Nat) (rng : R) :
    (commitmentShares S sk k rng).1.length = k := by
  induction k generalizing rng with
  | zero => rfl
  | succ k ih => simp [commitmentShares, ih]

/-- C173 for the secrets: whenever a dealer is created, the vector of its coefficients was reserved for `t` scalars, received
exactly the coefficients that are returned and never moved; the points that commit to them likewise. The nonces likewise. So
no copy of a coefficient or a nonce is left behind by a vector that moved. -/
theorem C173_secrets (S : Suite F G R) :
    (∀ (params : Params) (i : U32) (sk : Option F) (rng rng' : R) (p : Participant F G) (cs : List F) (dh : F),
      newInternal S params false i sk rng = .ok ((p, some cs, dh), rng') →
        (∃ rng0, Spec.Filled (coefficientsVec S params.t.toNat sk rng0) params.t.toNat cs) ∧
          ∃ points v, p.commitments = some ⟨i, points⟩ ∧ pointsVec S params.t.toNat cs = .ok v ∧
            Spec.Filled v params.t.toNat points) ∧
      ∀ (rng : R) (sk : IndividualSigningKey F) (number : Nat),
        Spec.Filled (noncesVec S rng sk number) number (generateCommitmentShareLists S rng sk number).2 := by
  refine ⟨fun params i sk rng rng' p cs dh h => ?_, fun rng sk number => filled_of_length (commitmentShares_count S sk number rng)⟩
  rw [newInternal_dealer_eq] at h
  by_cases hi : i = 0
  · rw [if_pos hi] at h
    exact absurd h (by simp)
  rw [if_neg hi] at h
  by_cases ht : params.t.toNat = 0
  · rw [ht] at h
    exact absurd h (by simp [commitLoop, VssCommitment.publicKey])
  have hlen : ((firstCoeff S sk (nizkProve S i (S.randScalar rng).1 ((S.randScalar rng).1 • S.gen) (S.randScalar rng).2).2).1 ::
      (randScalars S (params.t.toNat - 1) (firstCoeff S sk (nizkProve S i (S.randScalar rng).1
        ((S.randScalar rng).1 • S.gen) (S.randScalar rng).2).2).2).1).length = params.t.toNat := by
    rw [List.length_cons, randScalars_length]
    omega
  generalize hr : (nizkProve S i (S.randScalar rng).1 ((S.randScalar rng).1 • S.gen) (S.randScalar rng).2).2 = r at *
  generalize hx : (firstCoeff S sk r).1 :: (randScalars S (params.t.toNat - 1) (firstCoeff S sk r).2).1 = xs at *
  have hc := commitLoop_ok S xs 0 params.t.toNat (by omega)
  rw [List.drop_zero, ← hlen, List.take_length] at hc
  have hp : (commitPoints S xs).length = params.t.toNat := by rw [← hlen]; simp [commitPoints]
  simp only [hr, hx] at h
  rw [← hlen, hc] at h
  have hv : Spec.Filled (coefficientsVec S params.t.toNat sk r) params.t.toNat xs := by
    have : coefficientsVec S params.t.toNat sk r = pushAll params.t.toNat [] xs := by
      rw [← hx]
      cases sk <;> rfl
    rw [this]
    exact filled_of_length hlen
  split at h
  · exact absurd h (by simp)
  · next points e =>
    simp only [Except.ok.injEq] at e
    split at h
    · exact absurd h (by simp)
    · simp only [Except.ok.injEq, Prod.mk.injEq, Option.some.injEq] at h
      obtain ⟨⟨h1, h2, -⟩, -⟩ := h
      subst h2 h1
      refine ⟨⟨r, hv⟩, points, pushAll params.t.toNat [] points, rfl, ?_, ?_⟩
      · rw [pointsVec, ← hlen, hc, e]
        rfl
      · rw [← e]
        exact filled_of_length hp

/-- C173 for public data: the published commitments, the list of commitments, the vector of indices, the input of the challenge
and the message of a complaint are reserved for exactly what they receive, which is what the functions of the model use.

Missing for the full C173: the encoded list of commitments, for which it is false (`C173_encoding_moves`). -/
theorem C173_public_partial {S : Suite F G R} (hS : S.CodecLaws) :
    (∀ (rng : R) (sk : IndividualSigningKey F) (number : Nat),
      Spec.Filled (publishedVec number (generateCommitmentShareLists S rng sk number).2) number
        (generateCommitmentShareLists S rng sk number).1.commitments) ∧
      (∀ signers : List (Signer G), Spec.Filled (commitmentListVec signers) signers.length (commitmentList signers)) ∧
      (∀ commitments : List (VssCommitment G),
        Spec.Filled (indexVec commitments) commitments.length (commitments.map (·.index))) ∧
      (∀ (c k : G) (m : Bytes), ∃ input, challengeVec S c k m = (input, []) ∧ input.length = S.sizeG + S.sizeG + m.length ∧
        computeChallenge S c k m = S.h2 input) ∧
      ∀ (pk accused shared a1 a2 : G) (e : EncShare) (chunks : List Bytes), chunks.flatten = (encShareCodec S).enc e →
        complaintVec S pk accused shared a1 a2 e chunks = (complaintMessage S pk accused shared a1 a2 e, []) ∧
          (complaintMessage S pk accused shared a1 a2 e).length = S.sizeG * 5 + (encShareCodec S).size e := by
  refine ⟨fun rng sk number => filled_of_length ?_, fun signers => filled_of_length (by simp [commitmentList]),
    fun cs => filled_of_length (by simp), fun c k m => ⟨S.encG c ++ S.encG k ++ m, ?_, ?_, rfl⟩,
    fun pk accused shared a1 a2 e chunks hc => ?_⟩
  · rw [List.length_map]
    exact commitmentShares_count S sk number rng
  · rw [challengeVec, writeChunks_of_le _ _ (by simp [hS.encG_length]; omega)]
    simp
  · simp only [List.length_append, hS.encG_length]
  · have hs := encShare_sized S e
    have hl : (complaintMessage S pk accused shared a1 a2 e).length = S.sizeG * 5 + (encShareCodec S).size e := by
      simp only [complaintMessage, List.length_append, hS.encG_length, hs]
      omega
    have hf : ([S.encG pk, S.encG accused, S.encG shared, S.encG a1, S.encG a2] ++ chunks).flatten =
        complaintMessage S pk accused shared a1 a2 e := by
      rw [List.flatten_append, hc]
      simp [complaintMessage]
    refine ⟨?_, hl⟩
    rw [complaintVec, writeChunks_of_le _ _ (by rw [hf, hl]), hf]

theorem foldlM_valid_le (S : Suite F G R) (dbg : Bool) (parameters : Params) (fromDealer fromSigner : Bool)
    (ps : List (Participant F G)) (acc acc' : RoundOneAcc F G)
    (h : ps.foldlM (checkParticipant S dbg parameters fromDealer fromSigner) acc = .ok acc') :
    acc'.valid.length ≤ acc.valid.length + ps.length := by
  induction ps generalizing acc with
  | nil =>
    simp only [List.foldlM_nil, pure, Except.pure, Except.ok.injEq] at h
    subst h
    exact Nat.le_add_right _ _
  | cons p ps ih =>
    rw [List.foldlM_cons] at h
    cases hc : checkParticipant S dbg parameters fromDealer fromSigner acc p with
    | error f => rw [hc] at h; exact absurd h (by simp [bind, Except.bind])
    | ok a =>
      rw [hc] at h
      have h1 := ih a h
      have h2 : a.valid.length ≤ acc.valid.length + 1 := by
        unfold checkParticipant at hc
        repeat' split at hc
        all_goals first
          | (simp only [Except.ok.injEq] at hc; subst hc; simp [RoundOneAcc.blame])
          | exact absurd hc (by simp)
      rw [List.length_cons]
      omega

theorem mapM_count {α β ε : Type} (f : α → Except ε β) (l : List α) (r : List β) (h : l.mapM f = .ok r) :
    r.length = l.length := by
  induction l generalizing r with
  | nil =>
    simp only [List.mapM_nil, pure, Except.pure, Except.ok.injEq] at h
    subst h
    rfl
  | cons a l ih =>
    rw [List.mapM_cons] at h
    cases ha : f a with
    | error e => rw [ha] at h; exact absurd h (by simp [bind, Except.bind])
    | ok b =>
      cases hl : l.mapM f with
      | error e => rw [ha, hl] at h; exact absurd h (by simp [bind, Except.bind])
      | ok bs =>
        rw [ha, hl] at h
        simp only [bind, Except.bind, pure, Except.pure, Except.ok.injEq] at h
        subst h
        rw [List.length_cons, List.length_cons, ih bs hl]

/-- C173 for vectors that may remain partly empty: the remaining signers, the pending removals (which is full) and the valid
participants never outgrow their reservation; they contain what the functions of the model use.

Missing for the full C173: that the reservation is justified when the call fails, which is false (`C173_parameters`). -/
theorem C173_filtered_partial (S : Suite F G R) (dbg : Bool) :
    (∀ a : InitialAggregator F G, (remainingVec a).2 = [] ∧
      a.remainingSigners = dedupByKey Signer.participantIndex (sortByKey Signer.participantIndex (remainingVec a).1)) ∧
      (∀ (st : DkgState F G) (complaints : List (Complaint F G)) (v : List U32 × List (List U32)),
        pendingVec S st complaints = .ok v → Spec.Filled v complaints.length v.1 ∧ complaints.mapM (judge S st) = .ok v.1) ∧
      ∀ (parameters : Params) (participants : List (Participant F G)) (fromDealer fromSigner : Bool)
        (v : List (Participant F G) × List (List (Participant F G))),
        (validVec S dbg parameters participants fromDealer fromSigner).2 = .ok v →
          v.2 = [] ∧ v.1.length ≤ (validVec S dbg parameters participants fromDealer fromSigner).1 ∧
            (validVec S dbg parameters participants fromDealer fromSigner).1 = participants.length := by
  refine ⟨fun a => ?_, fun st complaints v h => ?_, fun parameters ps fd fs v h => ?_⟩
  · have e : remainingVec a = (_, []) := pushAll_of_le _ _ (List.length_filter_le _ _)
    rw [e]
    exact ⟨rfl, rfl⟩
  · unfold pendingVec at h
    cases hm : complaints.mapM (judge S st) with
    | error f => rw [hm] at h; exact absurd h (by simp [Except.map])
    | ok r =>
      rw [hm] at h
      simp only [Except.map, Except.ok.injEq] at h
      have hl := mapM_count _ _ _ hm
      subst h
      have := filled_of_length hl
      rw [this.1]
      exact ⟨this, rfl⟩
  · unfold validVec at h ⊢
    simp only [ne_eq, ite_not] at h ⊢
    split at h
    · next hn =>
      cases hf : ps.foldlM (checkParticipant S dbg parameters fd fs) ⟨[], [], [], []⟩ with
      | error f => rw [hf] at h; exact absurd h (by simp [Except.map])
      | ok acc =>
        rw [hf] at h
        simp only [Except.map, Except.ok.injEq] at h
        have hl := foldlM_valid_le S dbg parameters fd fs ps _ _ hf
        rw [List.length_nil, Nat.zero_add, hn] at hl
        rw [pushAll_of_le _ _ hl] at h
        subst h
        exact ⟨rfl, hl, hn.symm⟩
    · exact absurd h (by simp)

/-- C173 for the valid participants: when `new_state_internal` succeeds, the vector was reserved for as many participants as
were given, it is the list that is returned, and it never moved. -/
theorem C173_valid_participants (S : Suite F G R) (dbg : Bool) (parameters : Params) (dhPrivateKey : F) (myIndex : U32)
    (myCoefficients : Option (List F)) (ps : List (Participant F G)) (fromDealer fromSigner : Bool) (rng rng' : R)
    (d : RoundOne F G) (l : ParticipantList F G)
    (h : newStateInternal S dbg parameters dhPrivateKey myIndex myCoefficients ps fromDealer fromSigner rng =
      .ok ((d, l), rng')) :
    validVec S dbg parameters ps fromDealer fromSigner = (ps.length, .ok (l.valid, [])) ∧ l.valid.length ≤ ps.length := by
  unfold newStateInternal at h
  simp only [ne_eq, ite_not] at h
  split at h
  · next hn =>
    unfold validVec
    simp only [ne_eq, ite_not, ← hn, if_true]
    cases hf : ps.foldlM (checkParticipant S dbg parameters fromDealer fromSigner) ⟨[], [], [], []⟩ with
    | error f => rw [hf] at h; exact absurd h (by simp)
    | ok acc =>
      have hl := foldlM_valid_le S dbg parameters fromDealer fromSigner ps _ _ hf
      rw [List.length_nil, Nat.zero_add] at hl
      have e : l.valid = acc.valid := by
        rw [hf] at h
        simp only at h
        repeat' split at h
        all_goals first
          | (simp only [Except.ok.injEq, Prod.mk.injEq] at h; rw [← h.1.2]; rfl)
          | exact absurd h (by simp)
      rw [e]
      refine ⟨?_, hl⟩
      simp only [Except.map, pushAll_of_le _ _ hl]
  · exact absurd h (by simp)

/-- C173, negation: `encode_group_commitment_list` reserves two points per signer but also writes the index. For every list of
signers the reservation is four bytes per signer too small, and the vector moves. -/
theorem C173_encoding_moves {S : Suite F G R} (hS : S.CodecLaws) (l : List (U32 × G × G)) :
    (groupCommitmentVec S l).1 = encodeCommitments S l ∧
      (encodeCommitments S l).length = l.length * 2 * S.sizeG + 4 * l.length ∧ (l ≠ [] → (groupCommitmentVec S l).2 ≠ []) := by
  have hf : ((l.map fun e => [u32le e.1, S.encG e.2.1, S.encG e.2.2]).flatten).flatten = encodeCommitments S l := by
    unfold encodeCommitments
    induction l with
    | nil => rfl
    | cons e l ih =>
      rw [List.map_cons, List.flatten_cons, List.flatten_append, ih, List.map_cons, List.flatten_cons]
      simp
  have hl : (encodeCommitments S l).length = l.length * 2 * S.sizeG + 4 * l.length := by
    clear hf
    unfold encodeCommitments
    induction l with
    | nil => simp
    | cons e l ih =>
      rw [List.map_cons, List.flatten_cons, List.length_append, ih]
      simp only [List.length_append, u32le_length, hS.encG_length, List.length_cons]
      ring
  refine ⟨by rw [groupCommitmentVec, writeChunks_fst, List.nil_append, hf], hl, fun hne h => ?_⟩
  have := (writeChunks_snd_nil_iff _ [] _ (Nat.zero_le _)).mp h
  rw [hf, hl] at this
  have : 0 < l.length := List.length_pos_iff.mpr hne
  simp only [List.length_nil] at *
  omega

/-- C173, negation: `new_state_internal` reserves memory for `n` participants before it compares `n` with the number of
participants it was given, and the aggregator for `t` signers before there is any. For every number `k` there are parameters,
accepted by `ThresholdParameters::new`, for which the first call reserves `k` participants only to return an error, and the
aggregator without a signer reserves `k` signers. -/
theorem C173_parameters (S : Suite F G R) (dbg fromDealer fromSigner : Bool) (k : Nat) (h0 : 0 < k) (hk : k < 2 ^ 32) :
    ∃ parameters : Params, Params.new (F := F) (G := G) dbg parameters.n parameters.t = .ok parameters ∧
      validVec S dbg parameters [] fromDealer fromSigner =
        (k, .error (.err (.invalidNumberOfParticipants 0 (UInt32.ofNat k)))) ∧
      aggregatorReserved parameters = k ∧
      ∀ (groupKey : G) (message : Bytes), (InitialAggregator.new (F := F) parameters groupKey message).state.signers = [] := by
  have hn : (UInt32.ofNat k).toNat = k := UInt32.toNat_ofNat_of_lt' hk
  refine ⟨⟨UInt32.ofNat k, UInt32.ofNat k⟩, ?_, ?_, hn, fun _ _ => rfl⟩
  · have h1 : UInt32.ofNat k ≠ 0 := fun h => by
      have := congrArg UInt32.toNat h
      rw [hn] at this
      exact absurd this (by simpa using h0.ne')
    unfold Params.new
    simp [h1]
  · unfold validVec
    simp only [hn, List.length_nil]
    rw [if_pos (by omega)]

section Examples
open Toy

/-- A dealer for threshold 3 (the hypothesis of `C173_secrets`). -/
example : ∃ p cs dh rng', newInternal suite ⟨5, 3⟩ false 1 none 0 = .ok ((p, some cs, dh), rng') ∧ cs.length = 3 := by
  obtain ⟨p, cs, dh, rng', h, -, hl, -⟩ := newInternal_dealer suite ⟨5, 3⟩ (by decide) 1 (by decide) none 0
  exact ⟨p, cs, dh, rng', h, hl⟩

/-- A reservation that is one too small leaves the first elements behind. -/
example : pushAll 2 [] [7, 8, 9] = ([7, 8, 9], [[7, 8]]) := by decide

/-- Two signers: the vector moves once, with everything but the last point. -/
example : ((groupCommitmentVec suite [(1, (4 : Fp), (5 : Fp)), (2, 6, 7)]).2.map List.length) ≠ [] := by
  have h := (C173_encoding_moves codec_laws [(1, (4 : Fp), (5 : Fp)), (2, 6, 7)]).2.2 (by simp)
  simpa using h

end Examples

end IceFrost
