import Verif.Model.Work
import Verif.Props.Trace
import Verif.Props.Capacity
import Verif.Props.Aggregation
import Verif.Props.RoundOne
import Verif.Props.Dkg

/-!
# C176: the work of a call is proportional to what it is given

Scalar multiplications in the group and hashed bytes, counted over every path through every public function.
-/

set_option linter.unusedSectionVars false
set_option linter.unusedSimpArgs false

namespace IceFrost

open Traced

variable {F G R : Type} [Field F] [DecidableEq F] [AddCommGroup G] [Module F G] [DecidableEq G]

namespace Spec

/-- Scalar multiplications in the group. -/
def muls (steps : List Step) : Nat := (steps.filter (· = .groupMul)).length

/-- How many bytes one step hashes. -/
def hashedBy : Step → Nat
  | .hash n => n
  | _ => 0

/-- Hashed bytes. -/
def hashed (steps : List Step) : Nat := (steps.map hashedBy).sum

end Spec

open Spec

/-! ### Without the steps, the functions are those of the model -/

theorem nizkVerifyW_val (S : Suite F G R) (p : Nizk F) (i : U32) (X : G) :
    (nizkVerifyW S p i X).val = nizkVerify S p i X := by
  unfold nizkVerifyW nizkVerify
  simp only [val_bind, val_step]
  cases msm [S.gen, X] [p.r, -p.s] <;> rfl

theorem complaintVerifyW_val (S : Suite F G R) (c : Complaint F G) (X : G) : (c.verifyW S X).val = c.verify S X := by
  unfold Complaint.verifyW Complaint.verify
  simp only [val_bind, val_step]
  split
  · rfl
  · simp only [val_bind, val_step]
    split <;> rfl

theorem checkParticipantW_val (S : Suite F G R) (dbg : Bool) (params : Params) (fd fs : Bool) (acc : RoundOneAcc F G)
    (p : Participant F G) : (checkParticipantW S dbg params fd fs acc p).val = checkParticipant S dbg params fd fs acc p := by
  unfold checkParticipantW checkParticipant
  simp only [val_bind, nizkVerifyW_val]
  cases nizkVerify S p.proofOfDhPrivateKey p.index p.dhPublicKey with
  | error e => rfl
  | ok u =>
    simp only
    cases fs with
    | false => simp only [Bool.false_eq_true, if_false]; split <;> rfl
    | true =>
      simp only [if_true]
      cases p.publicKey with
      | none => rfl
      | some X =>
        simp only
        cases p.proofOfSecretKey with
        | none => rfl
        | some proof =>
          simp only [val_bind, nizkVerifyW_val]
          cases nizkVerify S proof p.index X with
          | error e => rfl
          | ok u =>
            simp only
            cases p.commitments with
            | none => rfl
            | some c => simp only; split <;> rfl

theorem checkParticipantsW_val (S : Suite F G R) (dbg : Bool) (params : Params) (fd fs : Bool) (ps : List (Participant F G))
    (acc : RoundOneAcc F G) :
    (checkParticipantsW S dbg params fd fs ps acc).val = ps.foldlM (checkParticipant S dbg params fd fs) acc := by
  induction ps generalizing acc with
  | nil => rfl
  | cons p ps ih =>
    rw [List.foldlM_cons]
    unfold checkParticipantsW
    simp only [val_bind, checkParticipantW_val]
    cases checkParticipant S dbg params fd fs acc p with
    | error f => rfl
    | ok acc => exact ih acc

theorem newStateInternalW_val (S : Suite F G R) (dbg : Bool) (params : Params) (x : F) (i : U32) (cs : Option (List F))
    (ps : List (Participant F G)) (fd fs : Bool) (rng : R) :
    (newStateInternalW S dbg params x i cs ps fd fs rng).val = newStateInternal S dbg params x i cs ps fd fs rng := by
  unfold newStateInternalW newStateInternal
  simp only [val_bind, val_step]
  split
  · rfl
  · simp only [val_bind, checkParticipantsW_val]
    cases ps.foldlM (checkParticipant S dbg params fd fs) ⟨[], [], [], []⟩ with
    | error f => rfl
    | ok acc =>
      simp only
      split
      · rfl
      · split
        · cases u32Sub (F := F) (G := G) dbg params.n (UInt32.ofNat acc.misbehaving.length) with
          | error f => rfl
          | ok n =>
            simp only
            cases Params.new (F := F) (G := G) dbg n params.t <;> rfl
        · simp only [val_bind, dealSharesT_val]
          cases dealShares S x i cs ps [] rng with
          | error f => rfl
          | ok r =>
            simp only
            cases u32Sub (F := F) (G := G) dbg params.n (UInt32.ofNat acc.misbehaving.length) with
            | error f => rfl
            | ok n =>
              simp only
              cases Params.new (F := F) (G := G) dbg n params.t <;> rfl

theorem toRoundTwoW_val (S : Suite F G R) (dbg : Bool) (d : RoundOne F G) (es : List EncShare) (rng : R) :
    (d.toRoundTwoW S dbg es rng).val = d.toRoundTwo S dbg es rng := by
  unfold RoundOne.toRoundTwoW RoundOne.toRoundTwo
  simp only
  split
  · rfl
  · simp only [val_bind, roundTwoLoopT_val]
    cases roundTwoLoop S dbg { d.state with theirEncryptedSecretShares := none } es [] [] rng with
    | error f => rfl
    | ok r =>
      simp only
      cases u32Sub (F := F) (G := G) dbg d.state.parameters.n (UInt32.ofNat r.2.length) with
      | error f => rfl
      | ok n => simp only; split <;> rfl

theorem groupKeyLoopW_val (indices : List U32) (comms : List (U32 × VssCommitment G)) (acc : G) :
    (groupKeyLoopW (F := F) indices comms acc).val = groupKeyLoop (F := F) indices comms acc := by
  induction comms generalizing acc with
  | nil => rfl
  | cons c comms ih =>
    unfold groupKeyLoopW groupKeyLoop
    cases lagrangeCoeff (F := F) (G := G) c.1 indices with
    | error e => rfl
    | ok a =>
      simp only
      cases c.2.publicKey with
      | none => rfl
      | some X => exact ih _

theorem finishW_val (d : RoundTwo F G) : d.finishW.val = d.finish := by
  unfold RoundTwo.finishW RoundTwo.finish RoundTwo.calculateGroupKey
  cases d.calculateSigningKey with
  | mk r d' =>
    cases r with
    | error f => rfl
    | ok sk =>
      simp only
      cases d'.state.theirCommitments with
      | none => rfl
      | some comms =>
        simp only [val_bind, groupKeyLoopW_val]
        cases groupKeyLoop (F := F) comms.keys comms 0 <;> rfl

theorem judgeW_val (S : Suite F G R) (st : DkgState F G) (c : Complaint F G) : (judgeW S st c).val = judge S st c := by
  unfold judgeW judge
  simp only
  split
  · rfl
  · cases st.theirCommitments with
    | none => rfl
    | some comms =>
      simp only
      cases comms.get? c.encShare.senderIndex with
      | none => rfl
      | some commitment =>
        simp only [val_bind, complaintVerifyW_val]
        cases c.verify S _ with
        | error e => rfl
        | ok u =>
          simp only
          cases (decryptShare S c.encShare (S.encG c.dhSharedKey) : Out F G (SecretShare F)) with
          | error e => rfl
          | ok share =>
            simp only [val_bind, verifyT_val]
            cases share.verify S commitment <;> rfl

theorem judgeAllW_val (S : Suite F G R) (st : DkgState F G) (cs : List (Complaint F G)) :
    (judgeAllW S st cs).val = cs.mapM (judge S st) := by
  induction cs with
  | nil => rfl
  | cons c cs ih =>
    rw [List.mapM_cons]
    unfold judgeAllW
    simp only [val_bind, judgeW_val]
    cases judge S st c with
    | error f => rfl
    | ok i =>
      simp only [val_bind, ih]
      cases cs.mapM (judge S st) <;> rfl

theorem blameW_val (S : Suite F G R) (d : RoundTwo F G) (cs : List (Complaint F G)) :
    (d.blameW S cs).val = d.blame S cs := by
  unfold RoundTwo.blameW RoundTwo.blame
  simp only [val_bind, judgeAllW_val]
  cases cs.mapM (judge S d.state) with
  | error f => rfl
  | ok v =>
    simp only
    cases (dedupByKey id (sortByKey id v)).foldlM removeMalicious d.state <;> rfl

theorem fromCommitmentsLoopW_val (term : F) (indices : List U32) (cs : List (VssCommitment G)) (share : G) :
    (fromCommitmentsLoopW term indices cs share).val = fromCommitmentsLoop term indices cs share := by
  induction cs generalizing share with
  | nil => rfl
  | cons c cs ih =>
    unfold fromCommitmentsLoopW fromCommitmentsLoop
    simp only [val_bind, hornerHidingLoopT_val]
    cases (lagrangeCoeff (G := G) c.index indices : Out F G F) with
    | error e => rfl
    | ok a => exact ih _

theorem generateFromCommitmentsW_val (i : U32) (cs : List (VssCommitment G)) :
    (generateFromCommitmentsW F i cs).val = generateFromCommitments (F := F) i cs := by
  unfold generateFromCommitmentsW generateFromCommitments
  simp only [val_bind, fromCommitmentsLoopW_val]
  cases fromCommitmentsLoop (u32F F i) (cs.map (·.index)) cs 0 <;> rfl

theorem verifyKeyLoopW_val (term : F) (indices : List U32) (cs : List (VssCommitment G)) (rhs : G) :
    (verifyKeyLoopW term indices cs rhs).val = verifyKeyLoop term indices cs rhs := by
  induction cs generalizing rhs with
  | nil => rfl
  | cons c cs ih =>
    unfold verifyKeyLoopW verifyKeyLoop
    simp only [val_bind, hornerHidingLoopT_val]
    cases (lagrangeCoeff (G := G) c.index indices : Out F G F) with
    | error e => rfl
    | ok a => exact ih _

theorem verifyKeyW_val (k : IndividualVerifyingKey G) (cs : List (VssCommitment G)) :
    (k.verifyW F cs).val = k.verify F cs := by
  unfold IndividualVerifyingKey.verifyW IndividualVerifyingKey.verify
  simp only [val_bind, verifyKeyLoopW_val]
  cases verifyKeyLoop (u32F F k.index) (cs.map (·.index)) cs 0 <;> rfl

theorem factorsW_val (S : Suite F G R) (pre : Bytes) (l : List (U32 × G × G)) (m : BMap F) :
    (factorsW S pre l m).val = l.foldl (fun m e => m.insert e.1 (S.h1 (pre ++ u32le e.1))) m := by
  induction l generalizing m with
  | nil => rfl
  | cons e l ih => exact ih _

theorem computeBindingFactorsW_val (S : Suite F G R) (msg : Bytes) (signers : List (Signer G)) :
    (computeBindingFactorsW S msg signers).val = computeBindingFactors S msg signers := by
  unfold computeBindingFactorsW computeBindingFactors
  cases encodeGroupCommitmentList S (commitmentList signers) with
  | error f => rfl
  | ok b => simp only [val_bind, val_step, val_pure, factorsW_val]

theorem commitmentForParticipantW_val (S : Suite F G R) (i : U32) (msg : Bytes) (signers : List (Signer G)) :
    (commitmentForParticipantW S i msg signers).val = commitmentForParticipant S i msg signers := by
  unfold commitmentForParticipantW commitmentForParticipant
  simp only
  cases encodeGroupCommitmentList S (commitmentList signers) <;> rfl

theorem computeGroupCommitmentW_val (factors : BMap F) (signers : List (Signer G)) (acc : G) :
    (computeGroupCommitmentW factors signers acc).val = computeGroupCommitment factors signers acc := by
  induction signers generalizing acc with
  | nil => rfl
  | cons s l ih =>
    unfold computeGroupCommitmentW computeGroupCommitment
    cases bindingFactorFor (G := G) s.participantIndex factors with
    | error e => rfl
    | ok a => exact ih _

theorem computeChallengeW_val (S : Suite F G R) (P Y : G) (msg : Bytes) :
    (computeChallengeW S P Y msg).val = computeChallenge S P Y msg := rfl

theorem signW_val (S : Suite F G R) (dbg : Bool) (sk : IndividualSigningKey F) (msg : Bytes) (Y : G)
    (list : List (CommitmentShare F G)) (i : UInt64) (signers : List (Signer G)) :
    (signW S dbg sk msg Y list i signers).val = sign S dbg sk msg Y list i signers := by
  unfold signW sign signCore
  split
  · rfl
  · split
    · rfl
    · simp only [val_bind, computeBindingFactorsW_val]
      cases computeBindingFactors S msg signers with
      | error f => rfl
      | ok factors =>
        simp only
        cases bindingFactorFor (G := G) sk.index factors with
        | error e => rfl
        | ok a =>
          simp only [val_bind, computeGroupCommitmentW_val]
          cases computeGroupCommitment factors signers 0 with
          | error e => rfl
          | ok P =>
            simp only
            cases lagrangeCoeff (F := F) (G := G) sk.index (signers.map (·.participantIndex)) with
            | error e => rfl
            | ok lambda =>
              simp only
              cases list[i.toNat]? <;> rfl

theorem verifySignatureW_val (S : Suite F G R) (Y : G) (sig : ThresholdSignature F G) (msg : Bytes) :
    (verifySignatureW S Y sig msg).val = verifySignature S Y sig msg ∧
      (verifySignatureW S Y sig msg).val = sig.verify S Y msg := by
  have h : (verifySignatureW S Y sig msg).val = verifySignature S Y sig msg := by
    unfold verifySignatureW verifySignature
    simp only [val_bind, val_step, computeChallengeW_val]
    cases msm [S.gen, -Y] [sig.z, computeChallenge S sig.groupCommitment Y msg] <;> rfl
  exact ⟨h, h⟩

theorem culpritsLoopW_val (S : Suite F G R) (st : AggregatorState F G) (msg : Bytes) (c : F) (l : List (Signer G)) :
    (culpritsLoopW S st msg c l).val = culpritsLoop S st msg c l := by
  induction l with
  | nil => rfl
  | cons s l ih =>
    unfold culpritsLoopW culpritsLoop
    cases lagrangeCoeff (F := F) (G := G) s.participantIndex (st.signers.map (·.participantIndex)) with
    | error e => rfl
    | ok lambda =>
      simp only
      cases st.partialSignatures.get? s.participantIndex with
      | none => rfl
      | some z =>
        simp only
        cases st.publicKeys.get? s.participantIndex with
        | none => rfl
        | some pk =>
          simp only [val_bind, commitmentForParticipantW_val]
          cases commitmentForParticipant S s.participantIndex msg st.signers with
          | error f => rfl
          | ok P =>
            simp only [val_bind, val_step, ih]
            cases culpritsLoop S st msg c l <;> rfl

theorem aggregateW_val (S : Suite F G R) (a : FinalizedAggregator F G) : (a.aggregateW S).val = a.aggregate S := by
  unfold FinalizedAggregator.aggregateW FinalizedAggregator.aggregate
  simp only [val_bind, computeBindingFactorsW_val]
  cases computeBindingFactors S a.messageHash a.state.signers with
  | error f => rfl
  | ok factors =>
    simp only [val_bind, computeGroupCommitmentW_val]
    cases computeGroupCommitment factors a.state.signers 0 with
    | error e => rfl
    | ok P =>
      simp only [val_bind, computeChallengeW_val]
      cases sumPartials (G := G) a.state.partialSignatures a.state.signers 0 with
      | error f => rfl
      | ok z =>
        simp only [val_bind, (verifySignatureW_val _ _ _ _).2]
        cases (ThresholdSignature.verify S ⟨P, z⟩ a.state.groupKey a.messageHash) with
        | ok u => rfl
        | error e =>
          simp only [val_bind, culpritsLoopW_val]
          cases culpritsLoop S a.state a.messageHash _ a.state.signers <;> rfl

/-! ### Counting -/

/-- At most so many multiplications and so many hashed bytes. -/
def Within (steps : List Step) (m h : Nat) : Prop := muls steps ≤ m ∧ hashed steps ≤ h

theorem muls_append (a b : List Step) : muls (a ++ b) = muls a + muls b := by
  simp [muls, List.filter_append]

theorem hashed_append (a b : List Step) : hashed (a ++ b) = hashed a + hashed b := by
  simp [hashed, List.sum_append]

variable {α β : Type}

theorem Within.mono {s : List Step} {m h m' h' : Nat} (w : Within s m h) (hm : m ≤ m') (hh : h ≤ h') : Within s m' h' :=
  ⟨w.1.trans hm, w.2.trans hh⟩

theorem within_pure (a : α) (m h : Nat) : Within (pure a : Traced α).steps m h := ⟨Nat.zero_le _, Nat.zero_le _⟩

theorem within_bind {x : Traced α} {f : α → Traced β} {m h m' h' M H : Nat} (hx : Within x.steps m h)
    (hf : Within (f x.val).steps m' h') (hm : m + m' ≤ M) (hh : h + h' ≤ H) : Within (x >>= f).steps M H := by
  refine ⟨?_, ?_⟩
  · rw [steps_bind, muls_append]; exact (Nat.add_le_add hx.1 hf.1).trans hm
  · rw [steps_bind, hashed_append]; exact (Nat.add_le_add hx.2 hf.2).trans hh

/-- After a multiplication. -/
theorem within_mul {f : Unit → Traced β} {m' M H : Nat} (hf : Within (f ()).steps m' H) (hm : 1 + m' ≤ M) :
    Within (step .groupMul >>= f).steps M H :=
  within_bind (m := 1) (h := 0) ⟨le_refl _, le_refl _⟩ hf hm (by omega)

/-- After hashing. -/
theorem within_hash {n : Nat} {f : Unit → Traced β} {h' M H : Nat} (hf : Within (f ()).steps M h') (hh : n + h' ≤ H) :
    Within (step (.hash n) >>= f).steps M H :=
  within_bind (m := 0) (h := n) ⟨le_refl _, le_of_eq (by simp [hashed, hashedBy])⟩ hf (by omega) hh

/-- After a step that counts nothing. -/
theorem within_free {s : Step} (hs : s ≠ .groupMul) (hs' : hashedBy s = 0) {f : Unit → Traced β} {M H : Nat}
    (hf : Within (f ()).steps M H) : Within (step s >>= f).steps M H :=
  within_bind (m := 0) (h := 0) ⟨le_of_eq (by simp [muls, hs]), le_of_eq (by simp [hashed, hs'])⟩ hf (by omega) (by omega)

theorem within_test {b : Bool} {f : Bool → Traced β} {M H : Nat} (hf : Within (f b).steps M H) :
    Within (test b >>= f).steps M H :=
  within_bind (m := 0) (h := 0) ⟨le_of_eq (by simp [muls]), le_of_eq (by simp [hashed, hashedBy])⟩ hf (by omega) (by omega)

/-! Shares -/

theorem hornerLoopT_within (len : Nat) (term : F) (k : Nat) (cs : List F) (sum : F) :
    Within (hornerLoopT len term k cs sum).steps 0 0 := by
  induction cs generalizing k sum with
  | nil => exact within_free (by simp) rfl (within_pure _ _ _)
  | cons c cs ih =>
    unfold hornerLoopT
    refine within_free (by simp) rfl (within_free (by simp) rfl (within_test ?_))
    split
    · exact within_free (by simp) rfl (ih _ _)
    · exact ih _ _

theorem evaluatePolynomialT_within (s r : U32) (cs : List F) : Within (evaluatePolynomialT s r cs).steps 0 0 :=
  within_bind (hornerLoopT_within _ _ _ _ _) (within_pure _ 0 0) (by omega) (by omega)

/-- One multiplication for every point but the last. -/
theorem hornerHidingLoopT_within (len : Nat) (term : F) (k : Nat) (cs : List G) (sum : G) (hlen : k + cs.length = len) :
    Within (hornerHidingLoopT len term k cs sum).steps (cs.length - 1) 0 := by
  induction cs generalizing k sum with
  | nil => exact within_free (by simp) rfl (within_pure _ _ _)
  | cons c cs ih =>
    unfold hornerHidingLoopT
    rw [List.length_cons] at hlen
    have hi := fun s => ih (k + 1) s (by omega)
    refine within_free (by simp) rfl (within_free (by simp) rfl (within_test ?_))
    split
    · rename_i hk
      have hk : k ≠ len - 1 := of_decide_eq_true hk
      refine within_mul (hi _) ?_
      rw [List.length_cons]; omega
    · exact (hi _).mono (by rw [List.length_cons]; omega) (le_refl _)

theorem evaluateHidingT_within (term : F) (c : VssCommitment G) :
    Within (hornerHidingLoopT c.points.length term 0 c.points.reverse 0).steps (c.points.length - 1) 0 := by
  simpa using hornerHidingLoopT_within c.points.length term 0 c.points.reverse 0 (by simp)

theorem verifyT_within (S : Suite F G R) (s : SecretShare F) (c : VssCommitment G) :
    Within (s.verifyT S c).steps (1 + (c.points.length - 1)) 0 := by
  unfold SecretShare.verifyT
  refine within_mul (within_bind (m' := 0) (h' := 0) (evaluateHidingT_within _ c) ?_ (by omega) (by omega)) (le_refl _)
  refine within_free (by simp) rfl (within_free (by simp) rfl (within_free (by simp) rfl (within_test ?_)))
  split <;> exact within_pure _ _ _

theorem encryptShareT_within (S : Suite F G R) (s : SecretShare F) (ikm : Bytes) (rng : R) :
    Within (encryptShareT S s ikm rng).steps 0 0 := by
  unfold encryptShareT
  refine within_free (by simp) rfl ?_
  cases S.kdf ikm with
  | none => exact within_free (by simp) rfl (within_pure _ _ _)
  | some key =>
    refine within_free (by simp) rfl (within_free (by simp) rfl (within_free (by simp) rfl ?_))
    cases S.aeadEnc key _ _ with
    | none => exact within_free (by simp) rfl (within_pure _ _ _)
    | some ct => exact within_free (by simp) rfl (within_pure _ _ _)

theorem decryptShareT_within (S : Suite F G R) (e : EncShare) (ikm : Bytes) :
    Within (decryptShareT S e ikm).steps 0 0 := by
  unfold decryptShareT
  refine within_free (by simp) rfl ?_
  cases S.kdf ikm with
  | none => exact within_free (by simp) rfl (within_pure _ _ _)
  | some key =>
    refine within_free (by simp) rfl (within_free (by simp) rfl ?_)
    cases S.aeadDec key e.nonce e.ct with
    | none => exact within_free (by simp) rfl (within_pure _ _ _)
    | some bytes =>
      refine within_free (by simp) rfl (within_free (by simp) rfl ?_)
      cases S.decF bytes with
      | none => exact within_free (by simp) rfl (within_pure _ _ _)
      | some r => exact within_free (by simp) rfl (within_pure _ _ _)

/-! Proofs and complaints -/

namespace Spec

/-- Bytes of the message of a proof of knowledge: an index and two group elements. -/
def proofBytes (S : Suite F G R) : Nat := 4 + 2 * S.sizeG

/-- Bytes of the message of a complaint: five group elements and an encrypted share. -/
def complaintBytes (S : Suite F G R) (e : EncShare) : Nat := 5 * S.sizeG + (24 + e.nonce.length + e.ct.length)

end Spec

theorem nizkMessage_length {S : Suite F G R} (hS : S.CodecLaws) (i : U32) (X M : G) :
    (nizkMessage S i X M).length = proofBytes S := by
  simp only [nizkMessage, List.length_append, u32le_length, hS.encG_length, proofBytes]; omega

theorem complaintMessage_length {S : Suite F G R} (hS : S.CodecLaws) (a b c d f : G) (e : EncShare) :
    (complaintMessage S a b c d f e).length = complaintBytes S e := by
  have h : ((encShareCodec S).enc e).length = 24 + e.nonce.length + e.ct.length := by
    have hv : ∀ l : Bytes, ((Codec.vec Codec.u8).enc l).length = 8 + l.length := by
      intro l
      simp [Codec.vec, Codec.u8, Codec.u64, Codec.uint, Codec.iso, List.length_flatten, Function.comp_def]
    show (u32le e.senderIndex ++ (u32le e.receiverIndex ++ ((Codec.vec Codec.u8).enc e.nonce ++
      (Codec.vec Codec.u8).enc e.ct))).length = _
    simp only [List.length_append, u32le_length, hv]
    omega
  simp only [complaintMessage, List.length_append, hS.encG_length, h, complaintBytes]
  omega

theorem nizkProveT_within {S : Suite F G R} (hS : S.CodecLaws) (i : U32) (x : F) (X : G) (rng : R) :
    Within (nizkProveT S i x X rng).steps 1 (proofBytes S) := by
  unfold nizkProveT
  refine within_free (by simp) rfl (within_mul (m' := 0) (within_hash (h' := 0) ?_ ?_) (le_refl _))
  · exact within_free (by simp) rfl (within_free (by simp) rfl (within_pure _ _ _))
  · rw [nizkMessage_length hS]; omega

theorem nizkVerifyW_within {S : Suite F G R} (hS : S.CodecLaws) (p : Nizk F) (i : U32) (X : G) :
    Within (nizkVerifyW S p i X).steps 2 (proofBytes S) := by
  unfold nizkVerifyW
  refine within_mul (m' := 1) (within_mul (m' := 0) ?_ (le_refl _)) (le_refl _)
  cases msm [S.gen, X] [p.r, -p.s] with
  | none => exact within_pure _ _ _
  | some M => exact within_hash (h' := 0) (within_pure _ _ _) (by rw [nizkMessage_length hS]; omega)

theorem complaintNewT_within {S : Suite F G R} (hS : S.CodecLaws) (X : G) (x : F) (K : G) (e : EncShare) (rng : R) :
    Within (Complaint.newT S X x K e rng).steps 3 (complaintBytes S e) := by
  unfold Complaint.newT
  refine within_free (by simp) rfl (within_mul (m' := 2) (within_mul (m' := 1) (within_mul (m' := 0)
    (within_hash (h' := 0) ?_ ?_) (le_refl _)) (le_refl _)) (le_refl _))
  · exact within_free (by simp) rfl (within_free (by simp) rfl (within_pure _ _ _))
  · rw [complaintMessage_length hS]; omega

theorem complaintVerifyW_within {S : Suite F G R} (hS : S.CodecLaws) (c : Complaint F G) (X : G) :
    Within (c.verifyW S X).steps 4 (complaintBytes S c.encShare) := by
  unfold Complaint.verifyW
  refine within_hash (h' := 0) (within_mul (m' := 3) (within_mul (m' := 2) ?_ (le_refl _)) (le_refl _))
    (by rw [complaintMessage_length hS]; omega)
  split
  · exact within_pure _ _ _
  · refine within_mul (m' := 1) (within_mul (m' := 0) ?_ (le_refl _)) (le_refl _)
    split <;> exact within_pure _ _ _

/-! Creation of participants -/

theorem randScalarsT_within (S : Suite F G R) (k : Nat) (rng : R) : Within (randScalarsT S k rng).steps 0 0 := by
  induction k generalizing rng with
  | zero => exact within_free (by simp) rfl (within_pure _ _ _)
  | succ k ih =>
    unfold randScalarsT
    exact within_free (by simp) rfl (within_free (by simp) rfl
      (within_bind (ih _) (within_pure _ 0 0) (by omega) (by omega)))

theorem commitLoopT_within (S : Suite F G R) (cs : List F) (j k : Nat) : Within (commitLoopT S cs j k).steps k 0 := by
  induction k generalizing j with
  | zero => exact within_free (by simp) rfl (within_pure _ _ _)
  | succ k ih =>
    unfold commitLoopT
    refine within_free (by simp) rfl (within_free (by simp) rfl ?_)
    cases cs[j]? with
    | none => exact within_pure _ _ _
    | some a =>
      refine within_mul (m' := k) (within_bind (m' := 0) (h' := 0) (ih _) ?_ (by omega) (by omega)) (by omega)
      split <;> exact within_pure _ _ _

theorem newInternalT_within {S : Suite F G R} (hS : S.CodecLaws) (params : Params) (isSigner : Bool) (i : U32)
    (sk : Option F) (rng : R) :
    Within (newInternalT S params isSigner i sk rng).steps (if isSigner then 2 else params.t.toNat + 3)
      (if isSigner then proofBytes S else 2 * proofBytes S) := by
  unfold newInternalT
  refine within_test ?_
  split
  · exact within_pure _ _ _
  · refine within_free (by simp) rfl ?_
    have hrest : ∀ {M H : Nat} (a b : Nat), 1 + (1 + a) ≤ M → proofBytes S + b ≤ H →
        ∀ f : Nizk F × R → Traced (Res F G (NewParticipant F G × R)), (∀ r, Within (f r).steps a b) →
        Within (step .groupMul >>= fun _ => nizkProveT S i (S.randScalar rng).1 ((S.randScalar rng).1 • S.gen)
          (S.randScalar rng).2 >>= f).steps M H :=
      fun a b hM hH f hf => within_mul (within_bind (nizkProveT_within hS _ _ _ _) (hf _) (le_refl _) hH) hM
    cases isSigner with
    | true =>
      refine hrest 0 0 (by simp) (by simp) _ fun r => within_test ?_
      simp only [if_true]
      exact within_pure _ _ _
    | false =>
      refine hrest (params.t.toNat + 1) (proofBytes S) (by simp; omega) (by simp; omega) _ fun r => within_test ?_
      simp only [Bool.false_eq_true, if_false]
      have hf : ∀ rng, Within (firstCoefficientT S sk rng).steps 0 0 := by
        intro rng
        cases sk with
        | none => exact within_free (by simp) rfl (within_free (by simp) rfl (within_pure _ _ _))
        | some a => exact within_free (by simp) rfl (within_pure _ _ _)
      refine within_bind (hf _) (within_bind (randScalarsT_within _ _ _) (within_bind (commitLoopT_within _ _ _ _)
        (m' := 1) (h' := proofBytes S) ?_ (le_refl _) (le_refl _)) (le_refl _) (le_refl _)) (by omega) (by omega)
      split
      · exact within_pure _ _ _
      · split
        · exact within_free (by simp) rfl (within_pure _ _ _)
        · exact within_free (by simp) rfl (within_bind (nizkProveT_within hS _ _ _ _) (within_pure _ 0 0) (by omega) (by omega))

/-! Key generation -/

theorem dealSharesT_within (S : Suite F G R) (x : F) (i : U32) (cs : Option (List F)) (ps : List (Participant F G))
    (m : BMap EncShare) (rng : R) : Within (dealSharesT S x i cs ps m rng).steps ps.length 0 := by
  induction ps generalizing m rng with
  | nil => exact within_free (by simp) rfl (within_pure _ _ _)
  | cons p ps ih =>
    unfold dealSharesT
    refine within_free (by simp) rfl ?_
    cases cs with
    | none => exact within_pure _ _ _
    | some cs =>
      refine within_bind (evaluatePolynomialT_within _ _ _) (m' := 1 + ps.length) (h' := 0)
        (within_mul (m' := ps.length) (within_bind (encryptShareT_within _ _ _ _) (m' := ps.length) (h' := 0) ?_
          (by omega) (by omega)) (le_refl _)) (by rw [List.length_cons]; omega) (by omega)
      split
      · exact within_pure _ _ _
      · exact within_free (by simp) rfl (ih _ _)

namespace Spec

/-- Proofs a participant's message carries: one for the Diffie-Hellman key, one more for the secret of a dealer. -/
def proofs (fromSigner : Bool) : Nat := if fromSigner then 2 else 1

end Spec

theorem checkParticipantW_within {S : Suite F G R} (hS : S.CodecLaws) (dbg : Bool) (params : Params) (fd fs : Bool)
    (acc : RoundOneAcc F G) (p : Participant F G) :
    Within (checkParticipantW S dbg params fd fs acc p).steps (2 * proofs fs) (proofs fs * proofBytes S) := by
  unfold checkParticipantW
  refine within_bind (nizkVerifyW_within hS _ _ _) (m' := 2 * (proofs fs - 1)) (h' := (proofs fs - 1) * proofBytes S) ?_
    (by cases fs <;> simp [proofs]) (by cases fs <;> simp [proofs]; omega)
  split
  · exact within_pure _ _ _
  · cases fs with
    | false =>
      simp only [Bool.false_eq_true, if_false]
      split <;> exact within_pure _ _ _
    | true =>
      simp only [if_true]
      cases p.publicKey with
      | none => exact within_pure _ _ _
      | some X =>
        simp only
        cases p.proofOfSecretKey with
        | none => exact within_pure _ _ _
        | some proof =>
          refine within_bind (nizkVerifyW_within hS _ _ _) (m' := 0) (h' := 0) ?_ (by simp [proofs]) (by simp [proofs])
          split
          · exact within_pure _ _ _
          · cases p.commitments with
            | none => exact within_pure _ _ _
            | some c => simp only; split <;> exact within_pure _ _ _

theorem checkParticipantsW_within {S : Suite F G R} (hS : S.CodecLaws) (dbg : Bool) (params : Params) (fd fs : Bool)
    (ps : List (Participant F G)) (acc : RoundOneAcc F G) :
    Within (checkParticipantsW S dbg params fd fs ps acc).steps (ps.length * (2 * proofs fs))
      (ps.length * (proofs fs * proofBytes S)) := by
  induction ps generalizing acc with
  | nil => exact within_pure _ _ _
  | cons p ps ih =>
    unfold checkParticipantsW
    refine within_bind (checkParticipantW_within hS _ _ _ _ _ _) (m' := ps.length * (2 * proofs fs))
      (h' := ps.length * (proofs fs * proofBytes S)) ?_ (by rw [List.length_cons, Nat.add_mul, Nat.one_mul]; omega)
      (by rw [List.length_cons, Nat.add_mul, Nat.one_mul]; omega)
    split
    · exact within_pure _ _ _
    · exact ih _

theorem newStateInternalW_within {S : Suite F G R} (hS : S.CodecLaws) (dbg : Bool) (params : Params) (x : F) (i : U32)
    (cs : Option (List F)) (ps : List (Participant F G)) (fd fs : Bool) (rng : R) :
    Within (newStateInternalW S dbg params x i cs ps fd fs rng).steps
      (1 + ps.length * (2 * proofs fs) + if !fd && fs then 0 else ps.length)
      (ps.length * (proofs fs * proofBytes S)) := by
  unfold newStateInternalW
  refine within_mul (m' := ps.length * (2 * proofs fs) + if !fd && fs then 0 else ps.length) ?_ (by omega)
  dsimp only
  split
  · exact within_pure _ _ _
  · refine within_bind (checkParticipantsW_within hS _ _ _ _ _ _) (m' := if !fd && fs then 0 else ps.length) (h' := 0) ?_
      (by omega) (by omega)
    split
    · exact within_pure _ _ _
    · split
      · exact within_pure _ _ _
      · split
        · split
          · exact within_pure _ _ _
          · split <;> exact within_pure _ _ _
        · refine within_bind (dealSharesT_within _ _ _ _ _ _ _) (m' := 0) (h' := 0) ?_ (by omega) (by omega)
          split
          · exact within_pure _ _ _
          · split
            · exact within_pure _ _ _
            · split <;> exact within_pure _ _ _

theorem badShareT_within (S : Suite F G R) (d : Out F G (SecretShare F)) (c : VssCommitment G) :
    Within (badShareT S d c).steps (1 + (c.points.length - 1)) 0 := by
  unfold badShareT
  cases d with
  | error e => exact within_free (by simp) rfl (within_pure _ _ _)
  | ok s =>
    refine within_free (by simp) rfl (within_bind (verifyT_within _ _ _) (m' := 0) (h' := 0) ?_ (by omega) (by omega))
    split <;> exact within_pure _ _ _

/-- Because a map has every key once, only one commitment is looked at. -/
theorem complaintLoopT_within {S : Suite F G R} (hS : S.CodecLaws) (pk : G) (x : F) (K : G) (e : EncShare)
    (d : Out F G (SecretShare F)) (L : Nat) (comms : List (U32 × VssCommitment G)) (cs : List (Complaint F G)) (rng : R)
    (hn : (comms.map Prod.fst).Nodup) (hL : ∀ c ∈ comms, 1 + (c.2.points.length - 1) ≤ L) :
    Within (complaintLoopT S pk x K e d comms cs rng).steps (if e.senderIndex ∈ comms.map Prod.fst then L + 3 else 0)
      (complaintBytes S e) := by
  induction comms generalizing cs rng with
  | nil => exact within_free (by simp) rfl (within_pure _ _ _)
  | cons c comms ih =>
    obtain ⟨i, c⟩ := c
    have hi := fun cs rng => ih cs rng (List.nodup_cons.mp hn).2 fun c hc => hL c (List.mem_cons_of_mem _ hc)
    have hnot := (List.nodup_cons.mp hn).1
    unfold complaintLoopT
    refine within_free (by simp) rfl (within_test ?_)
    by_cases he : i = e.senderIndex
    · subst he
      simp only [decide_true, if_true, List.map_cons, List.mem_cons, true_or]
      rw [if_neg hnot] at hi
      refine within_bind (badShareT_within _ _ _) (m' := 3) (h' := complaintBytes S e) (within_test ?_)
        (by have := hL _ List.mem_cons_self; simp only at this; omega) (by omega)
      split
      · exact within_bind (complaintNewT_within hS _ _ _ _ _) (within_pure _ 0 0) (by omega) (by omega)
      · exact (hi _ _).mono (by omega) (le_refl _)
    · simp only [he, decide_false, Bool.false_eq_true, if_false]
      refine (hi _ _).mono ?_ (le_refl _)
      have : ∀ b, (if e.senderIndex ∈ List.map Prod.fst ((i, c) :: comms) then b else 0) =
          if e.senderIndex ∈ List.map Prod.fst comms then b else 0 := by
        intro b
        simp only [List.map_cons, List.mem_cons, Ne.symm he, false_or]
      rw [this]

theorem keepShareT_within (d : Out F G (SecretShare F)) (m : BMap (SecretShare F)) :
    Within (keepShareT d m).steps 0 0 := by
  cases d with
  | error e => exact within_free (by simp) rfl (within_pure _ _ _)
  | ok s => exact within_free (by simp) rfl (within_free (by simp) rfl (within_pure _ _ _))

theorem roundTwoLoopT_within {S : Suite F G R} (hS : S.CodecLaws) (dbg : Bool) (st : DkgState F G) (L : Nat)
    (hst : ∀ comms, st.theirCommitments = some comms →
      (comms.map Prod.fst).Nodup ∧ ∀ c ∈ comms, 1 + (c.2.points.length - 1) ≤ L)
    (es : List EncShare) (m : BMap (SecretShare F)) (cs : List (Complaint F G)) (rng : R) :
    Within (roundTwoLoopT S dbg st es m cs rng).steps (es.length * (L + 4)) (es.map (complaintBytes S)).sum := by
  induction es generalizing m cs rng with
  | nil => exact within_free (by simp) rfl (within_pure _ _ _)
  | cons e es ih =>
    unfold roundTwoLoopT
    rw [List.length_cons, List.map_cons, List.sum_cons, Nat.add_mul, Nat.one_mul]
    refine within_free (by simp) rfl (within_test ?_)
    split
    · exact within_pure _ _ _
    · refine within_free (by simp) rfl ?_
      cases st.theirDhPublicKeys.get? e.senderIndex with
      | none => exact within_free (by simp) rfl (within_pure _ _ _)
      | some pk =>
        refine within_free (by simp) rfl (within_mul (m' := L + 3 + es.length * (L + 4)) (within_bind
          (decryptShareT_within _ _ _) (m' := L + 3 + es.length * (L + 4))
          (h' := complaintBytes S e + (es.map (complaintBytes S)).sum) ?_ (by omega) (by omega)) (by omega))
        cases hc : st.theirCommitments with
        | none => exact within_pure _ _ _
        | some comms =>
          obtain ⟨hn, hL⟩ := hst comms hc
          refine within_bind ((complaintLoopT_within hS _ _ _ _ _ L comms _ _ hn hL).mono (m' := L + 3) (by split <;> omega)
            (le_refl _)) (within_bind (keepShareT_within _ _) (ih _ _ _) (le_refl _) (le_refl _)) (by omega) (by omega)

theorem groupKeyLoopW_within (indices : List U32) (comms : List (U32 × VssCommitment G)) (acc : G) :
    Within (groupKeyLoopW (F := F) indices comms acc).steps comms.length 0 := by
  induction comms generalizing acc with
  | nil => exact within_pure _ _ _
  | cons c comms ih =>
    unfold groupKeyLoopW
    cases lagrangeCoeff (F := F) (G := G) c.1 indices with
    | error e => exact within_pure _ _ _
    | ok a =>
      simp only
      cases c.2.publicKey with
      | none => exact within_pure _ _ _
      | some X => exact within_mul (ih _) (by rw [List.length_cons]; omega)

theorem judgeW_within {S : Suite F G R} (hS : S.CodecLaws) (st : DkgState F G) (L : Nat)
    (hst : ∀ comms, st.theirCommitments = some comms → ∀ c ∈ comms, 1 + (c.2.points.length - 1) ≤ L) (c : Complaint F G) :
    Within (judgeW S st c).steps (L + 4) (complaintBytes S c.encShare) := by
  unfold judgeW
  dsimp only
  split
  · exact within_pure _ _ _
  · cases hc : st.theirCommitments with
    | none => exact within_pure _ _ _
    | some comms =>
      simp only
      cases hg : comms.get? c.encShare.senderIndex with
      | none => exact within_pure _ _ _
      | some commitment =>
        have hL := hst comms hc _ (BMap.mem_of_get? hg)
        refine within_bind (complaintVerifyW_within hS _ _) (m' := L) (h' := 0) ?_ (by omega) (by omega)
        split
        · exact within_pure _ _ _
        · split
          · exact within_pure _ _ _
          · refine within_bind (verifyT_within _ _ _) (m' := 0) (h' := 0) ?_ (by simpa using hL) (by omega)
            split <;> exact within_pure _ _ _

theorem judgeAllW_within {S : Suite F G R} (hS : S.CodecLaws) (st : DkgState F G) (L : Nat)
    (hst : ∀ comms, st.theirCommitments = some comms → ∀ c ∈ comms, 1 + (c.2.points.length - 1) ≤ L)
    (cs : List (Complaint F G)) :
    Within (judgeAllW S st cs).steps (cs.length * (L + 4)) (cs.map fun c => complaintBytes S c.encShare).sum := by
  induction cs with
  | nil => exact within_pure _ _ _
  | cons c cs ih =>
    unfold judgeAllW
    rw [List.length_cons, List.map_cons, List.sum_cons, Nat.add_mul, Nat.one_mul]
    refine within_bind (judgeW_within hS st L hst c) (m' := cs.length * (L + 4))
      (h' := (cs.map fun c => complaintBytes S c.encShare).sum) ?_ (by omega) (by omega)
    split
    · exact within_pure _ _ _
    · refine within_bind ih (m' := 0) (h' := 0) ?_ (by omega) (by omega)
      split <;> exact within_pure _ _ _

/-! Keys -/

theorem fromCommitmentsLoopW_within (term : F) (indices : List U32) (cs : List (VssCommitment G)) (share : G) :
    Within (fromCommitmentsLoopW term indices cs share).steps (cs.map fun c => 1 + (c.points.length - 1)).sum 0 := by
  induction cs generalizing share with
  | nil => exact within_pure _ _ _
  | cons c cs ih =>
    unfold fromCommitmentsLoopW
    rw [List.map_cons, List.sum_cons]
    refine within_bind (evaluateHidingT_within _ _) (m' := 1 + (cs.map fun c => 1 + (c.points.length - 1)).sum) (h' := 0) ?_
      (by omega) (by omega)
    split
    · exact within_pure _ _ _
    · exact within_mul (ih _) (by omega)

theorem verifyKeyLoopW_within (term : F) (indices : List U32) (cs : List (VssCommitment G)) (rhs : G) :
    Within (verifyKeyLoopW term indices cs rhs).steps (cs.map fun c => 1 + (c.points.length - 1)).sum 0 := by
  induction cs generalizing rhs with
  | nil => exact within_pure _ _ _
  | cons c cs ih =>
    unfold verifyKeyLoopW
    rw [List.map_cons, List.sum_cons]
    refine within_bind (evaluateHidingT_within _ _) (m' := 1 + (cs.map fun c => 1 + (c.points.length - 1)).sum) (h' := 0) ?_
      (by omega) (by omega)
    split
    · exact within_pure _ _ _
    · exact within_mul (ih _) (by omega)

/-! Signing -/

namespace Spec

/-- Bytes of a list of `k` signers with their commitments. -/
def listBytes (S : Suite F G R) (k : Nat) : Nat := k * (4 + 2 * S.sizeG)

/-- Bytes of the input to one binding factor: two digests and an index. -/
def factorBytes (S : Suite F G R) : Nat := 2 * S.hashLen + 4

end Spec

theorem encoded_length {S : Suite F G R} (hS : S.CodecLaws) (signers : List (Signer G)) {b : Bytes}
    (h : encodeGroupCommitmentList S (commitmentList signers) = .ok b) : b.length = listBytes S signers.length := by
  have hl : ∀ l : List (U32 × G × G), (encodeCommitments S l).length = listBytes S l.length := by
    intro l
    rw [(C173_encoding_moves hS l).2.1, listBytes]; ring
  have hb : b = encodeCommitments S (commitmentList signers) := by
    revert h
    cases commitmentList signers with
    | nil => intro h; cases h
    | cons e l => intro h; injection h with h; exact h.symm
  rw [hb, hl, commitmentList, List.length_map]

theorem h45_length {S : Suite F G R} (hd : ∀ b, (S.digest b).length = S.hashLen) (m m' : Bytes) :
    (S.h4 m ++ S.h5 m').length = 2 * S.hashLen := by
  rw [List.length_append, Suite.h4, Suite.h5, Suite.hashToArray, Suite.hashToArray, hd, hd]; omega

theorem factorsW_within (S : Suite F G R) (pre : Bytes) (l : List (U32 × G × G)) (m : BMap F) :
    Within (factorsW S pre l m).steps 0 (l.length * (pre.length + 4)) := by
  induction l generalizing m with
  | nil => exact within_pure _ _ _
  | cons e l ih =>
    unfold factorsW
    refine within_hash (ih _) ?_
    rw [List.length_append, u32le_length, List.length_cons, Nat.add_mul, Nat.one_mul]; omega

theorem computeBindingFactorsW_within {S : Suite F G R} (hS : S.CodecLaws) (hd : ∀ b, (S.digest b).length = S.hashLen)
    (msg : Bytes) (signers : List (Signer G)) :
    Within (computeBindingFactorsW S msg signers).steps 0
      (msg.length + listBytes S signers.length + signers.length * factorBytes S) := by
  unfold computeBindingFactorsW
  cases h : encodeGroupCommitmentList S (commitmentList signers) with
  | error f => exact within_pure _ _ _
  | ok b =>
    refine within_hash (h' := listBytes S signers.length + signers.length * factorBytes S) (within_hash
      (h' := signers.length * factorBytes S) (within_bind (factorsW_within _ _ _ _) (within_pure _ 0 0) (by omega) ?_)
      (by rw [encoded_length hS signers h])) (by omega)
    rw [h45_length hd, commitmentList, List.length_map]
    exact le_refl _

theorem computeGroupCommitmentW_within (factors : BMap F) (signers : List (Signer G)) (acc : G) :
    Within (computeGroupCommitmentW factors signers acc).steps signers.length 0 := by
  induction signers generalizing acc with
  | nil => exact within_pure _ _ _
  | cons s l ih =>
    unfold computeGroupCommitmentW
    split
    · exact within_pure _ _ _
    · exact within_mul (ih _) (by rw [List.length_cons]; omega)

theorem computeChallengeW_within {S : Suite F G R} (hS : S.CodecLaws) (P Y : G) (msg : Bytes) :
    Within (computeChallengeW S P Y msg).steps 0 (2 * S.sizeG + msg.length) :=
  within_hash (h' := 0) (within_pure _ _ _) (by simp only [List.length_append, hS.encG_length]; omega)

theorem verifySignatureW_within {S : Suite F G R} (hS : S.CodecLaws) (Y : G) (sig : ThresholdSignature F G) (msg : Bytes) :
    Within (verifySignatureW S Y sig msg).steps 2 (2 * S.sizeG + msg.length) := by
  unfold verifySignatureW
  refine within_bind (computeChallengeW_within hS _ _ _) (m' := 2) (h' := 0)
    (within_mul (m' := 1) (within_mul (m' := 0) ?_ (le_refl _)) (le_refl _)) (by omega) (by omega)
  split <;> exact within_pure _ _ _

namespace Spec

/-- Bytes hashed again for every signer of a failed aggregation: message, whole list, and input to the binding factor. -/
def searchBytes (S : Suite F G R) (msg : Bytes) (k : Nat) : Nat := msg.length + listBytes S k + factorBytes S

end Spec

theorem commitmentForParticipantW_within {S : Suite F G R} (hS : S.CodecLaws) (hd : ∀ b, (S.digest b).length = S.hashLen)
    (i : U32) (msg : Bytes) (signers : List (Signer G)) :
    Within (commitmentForParticipantW S i msg signers).steps 1 (searchBytes S msg signers.length) := by
  unfold commitmentForParticipantW
  dsimp only
  cases h : encodeGroupCommitmentList S (commitmentList signers) with
  | error f => exact within_pure _ _ _
  | ok b =>
    refine within_hash (h' := listBytes S signers.length + factorBytes S) (within_hash (h' := factorBytes S)
      (within_hash (h' := 0) (within_mul (m' := 0) (within_pure _ _ _) (le_refl _)) ?_)
      (by rw [encoded_length hS signers h])) (by simp only [searchBytes]; omega)
    rw [List.length_append, h45_length hd, u32le_length, factorBytes]

theorem culpritsLoopW_within {S : Suite F G R} (hS : S.CodecLaws) (hd : ∀ b, (S.digest b).length = S.hashLen)
    (st : AggregatorState F G) (msg : Bytes) (c : F) (l : List (Signer G)) :
    Within (culpritsLoopW S st msg c l).steps (l.length * 3) (l.length * searchBytes S msg st.signers.length) := by
  induction l with
  | nil => exact within_pure _ _ _
  | cons s l ih =>
    unfold culpritsLoopW
    rw [List.length_cons, Nat.add_mul, Nat.one_mul, Nat.add_mul, Nat.one_mul]
    split
    · exact within_pure _ _ _
    · split
      · exact within_pure _ _ _
      · split
        · exact within_pure _ _ _
        · refine within_bind (commitmentForParticipantW_within hS hd _ _ _) (m' := 2 + l.length * 3)
            (h' := l.length * searchBytes S msg st.signers.length) ?_ (by omega) (by omega)
          split
          · exact within_pure _ _ _
          · refine within_mul (m' := 1 + l.length * 3) (within_mul (m' := l.length * 3) (within_bind ih (m' := 0) (h' := 0) ?_
              (by omega) (by omega)) (by omega)) (by omega)
            split <;> exact within_pure _ _ _

/-- The search for misbehaving signers, if it ends, has gone through all of them. -/
theorem culpritsLoopW_exact {S : Suite F G R} (hS : S.CodecLaws) (hd : ∀ b, (S.digest b).length = S.hashLen)
    (st : AggregatorState F G) (msg : Bytes) (c : F) (l : List (Signer G)) (is : List U32)
    (h : culpritsLoop S st msg c l = .ok is) :
    muls (culpritsLoopW S st msg c l).steps = l.length * 3 ∧
      hashed (culpritsLoopW S st msg c l).steps = l.length * searchBytes S msg st.signers.length := by
  induction l generalizing is with
  | nil => exact ⟨by simp [culpritsLoopW, muls], by simp [culpritsLoopW, hashed]⟩
  | cons s l ih =>
    have hf : ∀ i P, commitmentForParticipant S i msg st.signers = .ok P →
        muls (commitmentForParticipantW S i msg st.signers).steps = 1 ∧
          hashed (commitmentForParticipantW S i msg st.signers).steps = searchBytes S msg st.signers.length := by
      intro i P hP
      unfold commitmentForParticipantW
      unfold commitmentForParticipant at hP
      dsimp only at hP ⊢
      cases he : encodeGroupCommitmentList S (commitmentList st.signers) with
      | error f => rw [he] at hP; cases hP
      | ok b =>
        simp only [steps_bind, steps_step, steps_pure, muls_append, hashed_append]
        refine ⟨rfl, ?_⟩
        simp only [hashed, hashedBy, List.map_cons, List.map_nil, List.sum_cons, List.sum_nil, searchBytes, factorBytes]
        rw [encoded_length hS st.signers he, List.length_append (bs := u32le i), h45_length hd, u32le_length]
        omega
    unfold culpritsLoop at h
    unfold culpritsLoopW
    rw [List.length_cons, Nat.add_mul, Nat.one_mul, Nat.add_mul, Nat.one_mul]
    cases h1 : lagrangeCoeff (F := F) (G := G) s.participantIndex (st.signers.map (·.participantIndex)) with
    | error e => rw [h1] at h; cases h
    | ok lambda =>
      rw [h1] at h
      simp only at h ⊢
      cases h2 : st.partialSignatures.get? s.participantIndex with
      | none => rw [h2] at h; cases h
      | some z =>
        rw [h2] at h
        simp only at h ⊢
        cases h3 : st.publicKeys.get? s.participantIndex with
        | none => rw [h3] at h; cases h
        | some pk =>
          rw [h3] at h
          simp only at h ⊢
          cases h4 : commitmentForParticipant S s.participantIndex msg st.signers with
          | error f => rw [h4] at h; cases h
          | ok P =>
            rw [h4] at h
            simp only at h
            obtain ⟨k1, k2⟩ := hf _ P h4
            cases h5 : culpritsLoop S st msg c l with
            | error f => rw [h5] at h; cases h
            | ok rest =>
              obtain ⟨k3, k4⟩ := ih rest h5
              simp only [steps_bind, steps_step, commitmentForParticipantW_val, h4, culpritsLoopW_val, h5, steps_pure,
                muls_append, hashed_append, k1, k2, k3, k4]
              have e1 : muls [Step.groupMul] = 1 := rfl
              have e2 : hashed [Step.groupMul] = 0 := rfl
              have e3 : muls [] = 0 := rfl
              have e4 : hashed [] = 0 := rfl
              rw [e1, e2, e3, e4]
              omega

/-! ### C176 -/

/-- Without the steps, the functions whose work is counted are those of the model. -/
theorem C176_values (S : Suite F G R) (dbg : Bool) :
    (∀ params b i sk rng, (newInternalT S params b i sk rng).val = newInternal S params b i sk rng) ∧
      (∀ params x i cs ps fd fs rng, (newStateInternalW S dbg params x i cs ps fd fs rng).val =
        newStateInternal S dbg params x i cs ps fd fs rng) ∧
      (∀ d es rng, (RoundOne.toRoundTwoW S dbg d es rng).val = d.toRoundTwo S dbg es rng) ∧
      (∀ (d : RoundTwo F G) cs, (d.blameW S cs).val = d.blame S cs) ∧
      (∀ d : RoundTwo F G, d.finishW.val = d.finish) ∧
      (∀ i (cs : List (VssCommitment G)), (generateFromCommitmentsW F i cs).val = generateFromCommitments (F := F) i cs) ∧
      (∀ (k : IndividualVerifyingKey G) cs, (k.verifyW F cs).val = k.verify F cs) ∧
      (∀ sk msg Y list i signers, (signW S dbg sk msg Y list i signers).val = sign S dbg sk msg Y list i signers) ∧
      (∀ Y sig msg, (verifySignatureW S Y sig msg).val = verifySignature S Y sig msg) ∧
      ∀ a : FinalizedAggregator F G, (a.aggregateW S).val = a.aggregate S :=
  ⟨newInternalT_val S, newStateInternalW_val S dbg, toRoundTwoW_val S dbg, blameW_val S, finishW_val,
    generateFromCommitmentsW_val, verifyKeyW_val, signW_val S dbg, fun Y sig msg => (verifySignatureW_val S Y sig msg).1,
    aggregateW_val S⟩

/-- Creating a dealer takes at most `t + 3` multiplications and two proofs, creating a signer two multiplications and one
proof. -/
theorem C176_create {S : Suite F G R} (hS : S.CodecLaws) (params : Params) (i : U32) (sk : Option F) (rng : R) :
    (muls (newInternalT S params false i sk rng).steps ≤ params.t.toNat + 3 ∧
      hashed (newInternalT S params false i sk rng).steps ≤ 2 * proofBytes S) ∧
      muls (newInternalT S params true i sk rng).steps ≤ 2 ∧
        hashed (newInternalT S params true i sk rng).steps ≤ proofBytes S :=
  ⟨newInternalT_within hS params false i sk rng, newInternalT_within hS params true i sk rng⟩

/-- The first round of a participant's session (`bootstrap`), of a signer's (`new`), and the dealing of `reshare`, for
`k` messages: at most `5k + 1`, `4k + 1` and `3k + 1` multiplications, and one hash computation per proof. A list of the wrong
length costs one multiplication, whatever it contains. -/
theorem C176_round_one {S : Suite F G R} (hS : S.CodecLaws) (dbg : Bool) (params : Params) (x : F) (i : U32)
    (cs : Option (List F)) (ps : List (Participant F G)) (rng : R) :
    (muls (newStateInternalW S dbg params x i cs ps true true rng).steps ≤ 5 * ps.length + 1 ∧
      hashed (newStateInternalW S dbg params x i cs ps true true rng).steps ≤ 2 * ps.length * proofBytes S) ∧
    (muls (newStateInternalW S dbg params x i cs ps false true rng).steps ≤ 4 * ps.length + 1 ∧
      hashed (newStateInternalW S dbg params x i cs ps false true rng).steps ≤ 2 * ps.length * proofBytes S) ∧
    (muls (newStateInternalW S dbg params x i cs ps true false rng).steps ≤ 3 * ps.length + 1 ∧
      hashed (newStateInternalW S dbg params x i cs ps true false rng).steps ≤ ps.length * proofBytes S) ∧
    (ps.length ≠ params.n.toNat → ∀ fd fs, muls (newStateInternalW S dbg params x i cs ps fd fs rng).steps = 1 ∧
      hashed (newStateInternalW S dbg params x i cs ps fd fs rng).steps = 0) := by
  have e : ps.length * (2 * proofBytes S) = 2 * ps.length * proofBytes S := by ring
  refine ⟨?_, ?_, ?_, fun hlen fd fs => ?_⟩
  · refine (newStateInternalW_within hS dbg params x i cs ps true true rng).mono ?_ (le_of_eq e)
    simp only [proofs, if_true, Bool.not_true, Bool.false_and, Bool.false_eq_true, if_false]
    omega
  · refine (newStateInternalW_within hS dbg params x i cs ps false true rng).mono ?_ (le_of_eq e)
    simp only [proofs, if_true, Bool.not_false, Bool.true_and]
    omega
  · refine (newStateInternalW_within hS dbg params x i cs ps true false rng).mono ?_ (le_of_eq (by simp [proofs]))
    simp only [proofs, if_true, Bool.not_true, Bool.false_and, Bool.false_eq_true, if_false]
    omega
  · unfold newStateInternalW
    simp only [steps_bind, steps_step, hlen, ne_eq, not_false_eq_true, if_true, steps_pure]
    exact ⟨rfl, rfl⟩

/-- The second round: a share costs at most one multiplication for the key, as many as the sender's commitment has points for
the check, and three for a complaint. Fewer than `t` shares cost nothing. -/
theorem C176_round_two {S : Suite F G R} (hS : S.CodecLaws) (dbg : Bool) (d : RoundOne F G) (es : List EncShare) (rng : R)
    (L : Nat) (h1 : 1 ≤ L)
    (hd : ∀ comms, d.state.theirCommitments = some comms → comms.WF ∧ ∀ c ∈ comms, c.2.points.length ≤ L) :
    muls (d.toRoundTwoW S dbg es rng).steps ≤ es.length * (L + 4) ∧
      hashed (d.toRoundTwoW S dbg es rng).steps ≤ (es.map (complaintBytes S)).sum ∧
      (es.length < d.state.parameters.t.toNat → (d.toRoundTwoW S dbg es rng).steps = []) := by
  have hshort : es.length < d.state.parameters.t.toNat → (d.toRoundTwoW S dbg es rng).steps = [] := by
    intro hlt
    unfold RoundOne.toRoundTwoW
    dsimp only
    rw [if_pos hlt]; rfl
  have hw : Within (d.toRoundTwoW S dbg es rng).steps (es.length * (L + 4)) (es.map (complaintBytes S)).sum := by
    unfold RoundOne.toRoundTwoW
    dsimp only
    split
    · exact within_pure _ _ _
    · refine within_bind (roundTwoLoopT_within hS dbg _ L (fun comms hc => ?_) es [] [] rng) (m' := 0) (h' := 0) ?_
        (by omega) (by omega)
      · obtain ⟨hw, hl⟩ := hd comms hc
        exact ⟨hw.nodup, fun c hc => by have := hl c hc; omega⟩
      · split
        · exact within_pure _ _ _
        · split
          · exact within_pure _ _ _
          · split <;> exact within_pure _ _ _
  exact ⟨hw.1, hw.2, hshort⟩

/-- In a session from `bootstrap`, where every commitment has `t` points, a share costs at most `t + 4` multiplications. -/
theorem C176_round_two_bootstrap {S : Suite F G R} (hc : S.CipherLaws) (hS : S.CodecLaws) (dbg : Bool) (params : Params)
    (x : F) (i : U32) (cs : List F) (ps : List (Participant F G)) (rng : R) (d : RoundOne F G) (l : ParticipantList F G)
    (h : bootstrap S dbg params x i cs ps rng = .ok (d, l)) (ht : params.t ≠ 0) (es : List EncShare) (rng' : R) :
    muls (d.toRoundTwoW S dbg es rng').steps ≤ es.length * (params.t.toNat + 4) := by
  obtain ⟨hv, -, -, -, hcomm, -⟩ := C20_bootstrap_classifies hc hS dbg params x i cs ps rng d l h
  refine (C176_round_two hS dbg d es rng' params.t.toNat ?_ fun comms hcs => ?_).1
  · have : params.t.toNat ≠ 0 := fun h => ht (UInt32.toNat_inj.mp h)
    omega
  · rw [hcomm] at hcs
    cases hcs
    refine ⟨BMap.wf_ofList _, fun c hcm => ?_⟩
    have hm := BMap.mem_of_get?_ofList (BMap.get?_of_mem (BMap.wf_ofList _).nodup hcm)
    obtain ⟨p, hp, hpc⟩ := List.mem_filterMap.mp hm
    obtain ⟨c', hc', he⟩ := Option.map_eq_some_iff.mp hpc
    rw [hv] at hp
    have hg : GoodDealer S params.t p := by simpa using (List.mem_filter.mp hp).2
    have := hg.2 c' hc'
    rw [← congrArg Prod.snd he]
    exact le_of_eq this

/-- Judging a complaint costs at most four multiplications for its proof and as many as the accused's commitment has points. -/
theorem C176_blame {S : Suite F G R} (hS : S.CodecLaws) (d : RoundTwo F G) (cs : List (Complaint F G)) (L : Nat)
    (h1 : 1 ≤ L) (hd : ∀ comms, d.state.theirCommitments = some comms → ∀ c ∈ comms, c.2.points.length ≤ L) :
    muls (d.blameW S cs).steps ≤ cs.length * (L + 4) ∧
      hashed (d.blameW S cs).steps ≤ (cs.map fun c => complaintBytes S c.encShare).sum := by
  have hw : Within (d.blameW S cs).steps (cs.length * (L + 4)) (cs.map fun c => complaintBytes S c.encShare).sum := by
    unfold RoundTwo.blameW
    refine within_bind (judgeAllW_within hS d.state L (fun comms hc c hcm => ?_) cs) (m' := 0) (h' := 0) ?_
      (by omega) (by omega)
    · have := hd comms hc c hcm; omega
    · split
      · exact within_pure _ _ _
      · dsimp only
        split <;> exact within_pure _ _ _
  exact hw

/-- Finishing costs at most one multiplication per dealer, and hashes nothing. -/
theorem C176_finish (d : RoundTwo F G) (comms : BMap (VssCommitment G)) (hd : d.state.theirCommitments = some comms) :
    muls d.finishW.steps ≤ comms.length ∧ hashed d.finishW.steps = 0 := by
  have hc : d.calculateSigningKey.2.state.theirCommitments = some comms := by
    unfold RoundTwo.calculateSigningKey
    cases d.state.mySecretShares <;> exact hd
  have hw : Within d.finishW.steps comms.length 0 := by
    unfold RoundTwo.finishW
    revert hc
    cases d.calculateSigningKey with
    | mk r d' =>
      intro hc
      cases r with
      | error f => exact within_pure _ _ _
      | ok sk =>
        simp only at hc ⊢
        rw [hc]
        refine within_bind (groupKeyLoopW_within _ _ _) (m' := 0) (h' := 0) ?_ (by omega) (by omega)
        split <;> exact within_pure _ _ _
  exact ⟨hw.1, Nat.le_zero.mp hw.2⟩

/-- Computing or checking a verifying key costs at most one multiplication per point of the commitments (one for a commitment
without points). -/
theorem C176_keys (i : U32) (k : IndividualVerifyingKey G) (cs : List (VssCommitment G)) (N : Nat)
    (hN : N = (cs.map fun c => max 1 c.points.length).sum) :
    (muls (generateFromCommitmentsW F i cs).steps ≤ N ∧ hashed (generateFromCommitmentsW F i cs).steps = 0) ∧
      muls (k.verifyW F cs).steps ≤ N ∧ hashed (k.verifyW F cs).steps = 0 := by
  have e : N = (cs.map fun c => 1 + (c.points.length - 1)).sum := by
    rw [hN]
    congr 1
    exact List.map_congr_left fun c _ => by omega
  have h1 : Within (generateFromCommitmentsW F i cs).steps N 0 := by
    unfold generateFromCommitmentsW
    refine within_bind (fromCommitmentsLoopW_within _ _ _ _) (m' := 0) (h' := 0) ?_ (by omega) (by omega)
    split <;> exact within_pure _ _ _
  have h2 : Within (k.verifyW F cs).steps N 0 := by
    unfold IndividualVerifyingKey.verifyW
    refine within_bind (verifyKeyLoopW_within _ _ _ _) (m' := 0) (h' := 0) ?_ (by omega) (by omega)
    split <;> exact within_pure _ _ _
  exact ⟨⟨h1.1, Nat.le_zero.mp h1.2⟩, h2.1, Nat.le_zero.mp h2.2⟩

namespace Spec

/-- Bytes hashed for one signing session with `k` signers: the message twice, two group elements, the list of the
signers, and the input to every binding factor. -/
def sessionBytes (S : Suite F G R) (msg : Bytes) (k : Nat) : Nat :=
  2 * msg.length + 2 * S.sizeG + k * (4 + 2 * S.sizeG) + k * (2 * S.hashLen + 4)

end Spec

/-- Signing costs at most one multiplication per signer, and hashes message and list of the signers a fixed number of
times. -/
theorem C176_sign {S : Suite F G R} (hS : S.CodecLaws) (hd : ∀ b, (S.digest b).length = S.hashLen) (dbg : Bool)
    (sk : IndividualSigningKey F) (msg : Bytes) (Y : G) (list : List (CommitmentShare F G)) (i : UInt64)
    (signers : List (Signer G)) :
    muls (signW S dbg sk msg Y list i signers).steps ≤ signers.length ∧
      hashed (signW S dbg sk msg Y list i signers).steps ≤ sessionBytes S msg signers.length := by
  have hw : Within (signW S dbg sk msg Y list i signers).steps signers.length (sessionBytes S msg signers.length) := by
    unfold signW
    split
    · exact within_pure _ _ _
    · split
      · exact within_pure _ _ _
      · refine within_bind (computeBindingFactorsW_within hS hd _ _) (m' := signers.length)
          (h' := 2 * S.sizeG + msg.length) ?_ (by omega) (by simp only [sessionBytes, listBytes, factorBytes]; omega)
        split
        · exact within_pure _ _ _
        · split
          · exact within_pure _ _ _
          · refine within_bind (computeGroupCommitmentW_within _ _ _) (m' := 0) (h' := 2 * S.sizeG + msg.length) ?_
              (by omega) (by omega)
            split
            · exact within_pure _ _ _
            · split
              · exact within_pure _ _ _
              · split
                · exact within_pure _ _ _
                · exact within_bind (computeChallengeW_within hS _ _ _) (within_pure _ 0 0) (by omega) (by omega)
  exact hw

/-- Verifying a signature costs at most two multiplications. -/
theorem C176_verify {S : Suite F G R} (hS : S.CodecLaws) (Y : G) (sig : ThresholdSignature F G) (msg : Bytes) :
    muls (verifySignatureW S Y sig msg).steps ≤ 2 ∧ hashed (verifySignatureW S Y sig msg).steps ≤ 2 * S.sizeG + msg.length :=
  verifySignatureW_within hS Y sig msg

/-- Aggregation costs at most `4k + 2` multiplications for `k` signers; if it succeeds, at most `k + 2`, and the hashed bytes
are those of a session and a verification. -/
theorem C176_aggregate_partial {S : Suite F G R} (hS : S.CodecLaws) (hd : ∀ b, (S.digest b).length = S.hashLen)
    (a : FinalizedAggregator F G) :
    muls (a.aggregateW S).steps ≤ 4 * a.state.signers.length + 2 ∧
      hashed (a.aggregateW S).steps ≤ sessionBytes S a.messageHash a.state.signers.length +
        (2 * S.sizeG + a.messageHash.length) +
        a.state.signers.length * (a.messageHash.length + a.state.signers.length * (4 + 2 * S.sizeG) + (2 * S.hashLen + 4)) ∧
      ∀ sig, a.aggregate S = .ok sig → muls (a.aggregateW S).steps ≤ a.state.signers.length + 2 ∧
        hashed (a.aggregateW S).steps ≤ sessionBytes S a.messageHash a.state.signers.length +
          (2 * S.sizeG + a.messageHash.length) := by
  have hs : ∀ k, sessionBytes S a.messageHash k =
      (a.messageHash.length + listBytes S k + k * factorBytes S) + (2 * S.sizeG + a.messageHash.length) := by
    intro k; simp only [sessionBytes, listBytes, factorBytes]; omega
  have hall : Within (a.aggregateW S).steps (4 * a.state.signers.length + 2)
      (sessionBytes S a.messageHash a.state.signers.length + (2 * S.sizeG + a.messageHash.length) +
        a.state.signers.length * searchBytes S a.messageHash a.state.signers.length) := by
    rw [hs]
    generalize hX : a.state.signers.length * searchBytes S a.messageHash a.state.signers.length = X
    unfold FinalizedAggregator.aggregateW
    refine within_bind (computeBindingFactorsW_within hS hd _ _) (m' := 4 * a.state.signers.length + 2)
      (h' := (2 * S.sizeG + a.messageHash.length) + (2 * S.sizeG + a.messageHash.length) + X) ?_ (by omega) (by omega)
    split
    · exact within_pure _ _ _
    · refine within_bind (computeGroupCommitmentW_within _ _ _) (m' := 3 * a.state.signers.length + 2)
        (h' := (2 * S.sizeG + a.messageHash.length) + (2 * S.sizeG + a.messageHash.length) + X) ?_ (by omega) (by omega)
      split
      · exact within_pure _ _ _
      · refine within_bind (computeChallengeW_within hS _ _ _) (m' := 3 * a.state.signers.length + 2)
          (h' := (2 * S.sizeG + a.messageHash.length) + X) ?_ (by omega) (by omega)
        split
        · exact within_pure _ _ _
        · refine within_bind (verifySignatureW_within hS _ _ _) (m' := 3 * a.state.signers.length) (h' := X) ?_
            (by omega) (by omega)
          split
          · exact within_pure _ _ _
          · refine within_bind (culpritsLoopW_within hS hd _ _ _ _) (m' := 0) (h' := 0) ?_ (by omega) (by omega)
            split <;> exact within_pure _ _ _
  refine ⟨hall.1, hall.2, fun sig h => ?_⟩
  have hok : Within (a.aggregateW S).steps (a.state.signers.length + 2)
      (sessionBytes S a.messageHash a.state.signers.length + (2 * S.sizeG + a.messageHash.length)) := by
    rw [hs]
    unfold FinalizedAggregator.aggregate at h
    unfold FinalizedAggregator.aggregateW
    cases h1 : computeBindingFactors S a.messageHash a.state.signers with
    | error f => rw [h1] at h; cases h
    | ok factors =>
      rw [h1] at h
      simp only at h
      refine within_bind (computeBindingFactorsW_within hS hd _ _) (m' := a.state.signers.length + 2)
        (h' := (2 * S.sizeG + a.messageHash.length) + (2 * S.sizeG + a.messageHash.length)) ?_ (by omega) (by omega)
      rw [computeBindingFactorsW_val, h1]
      cases h2 : computeGroupCommitment factors a.state.signers 0 with
      | error e => rw [h2] at h; cases h
      | ok P =>
        rw [h2] at h
        simp only at h
        refine within_bind (computeGroupCommitmentW_within _ _ _) (m' := 2)
          (h' := (2 * S.sizeG + a.messageHash.length) + (2 * S.sizeG + a.messageHash.length)) ?_ (by omega) (by omega)
        rw [computeGroupCommitmentW_val, h2]
        cases h3 : sumPartials (G := G) a.state.partialSignatures a.state.signers 0 with
        | error f => rw [h3] at h; cases h
        | ok z =>
          rw [h3] at h
          simp only at h
          refine within_bind (computeChallengeW_within hS _ _ _) (m' := 2) (h' := (2 * S.sizeG + a.messageHash.length)) ?_
            (by omega) (by omega)
          refine within_bind (verifySignatureW_within hS _ _ _) (m' := 0) (h' := 0) ?_ (by omega) (by omega)
          rw [(verifySignatureW_val _ _ _ _).2]
          cases h4 : ThresholdSignature.verify S ⟨P, z⟩ a.state.groupKey a.messageHash with
          | ok u => exact within_pure _ _ _
          | error e =>
            rw [h4] at h
            simp only at h
            split at h <;> cases h
  exact hok

/-- C176, negation: if an aggregation of `k` signers reports misbehaving signers, it has hashed the list of all `k` signers
once more for each of them, at least `k * k` entries. -/
theorem C176_failed_aggregation {S : Suite F G R} (hS : S.CodecLaws) (hd : ∀ b, (S.digest b).length = S.hashLen)
    (a : FinalizedAggregator F G) (l : List U32) (h : a.aggregate S = .error (.err (.misbehavingParticipants l)))
    (k : Nat) (hk : a.state.signers.length = k) : k * (k * (4 + 2 * S.sizeG)) ≤ hashed (a.aggregateW S).steps := by
  unfold FinalizedAggregator.aggregate at h
  cases h1 : computeBindingFactors S a.messageHash a.state.signers with
  | error f =>
    rw [h1] at h
    exfalso
    unfold computeBindingFactors encodeGroupCommitmentList at h1
    revert h1 h
    cases commitmentList a.state.signers with
    | nil => intro h h1; cases h1; cases h
    | cons e l => intro h h1; cases h1
  | ok factors =>
    rw [h1] at h
    simp only at h
    cases h2 : computeGroupCommitment factors a.state.signers 0 with
    | error e =>
      rw [h2] at h
      exfalso
      simp only [Except.error.injEq, Fail.err.injEq] at h
      have : ∀ (l' : List (Signer G)) (acc : G) (e : Error F G), computeGroupCommitment factors l' acc = .error e →
          e = .invalidBindingFactor := by
        intro l'
        induction l' with
        | nil => intro acc e he; cases he
        | cons s l' ih =>
          intro acc e he
          unfold computeGroupCommitment bindingFactorFor at he
          cases hf : factors.get? s.participantIndex with
          | none => rw [hf] at he; cases he; rfl
          | some f => rw [hf] at he; exact ih _ _ he
      have := this _ _ _ h2
      rw [h] at this
      cases this
    | ok P =>
      rw [h2] at h
      simp only at h
      cases h3 : sumPartials (G := G) a.state.partialSignatures a.state.signers 0 with
      | error f =>
        rw [h3] at h
        exfalso
        have : ∀ (l' : List (Signer G)) (z : F) (f : Fail F G), sumPartials (G := G) a.state.partialSignatures l' z =
            .error f → f = .panic .expectNone := by
          intro l'
          induction l' with
          | nil => intro acc e he; cases he
          | cons s l' ih =>
            intro acc e he
            unfold sumPartials at he
            cases hf : a.state.partialSignatures.get? s.participantIndex with
            | none => rw [hf] at he; cases he; rfl
            | some f => rw [hf] at he; exact ih _ _ he
        have := this _ _ _ h3
        subst this
        cases h
      | ok z =>
        rw [h3] at h
        simp only at h
        cases h4 : ThresholdSignature.verify S ⟨P, z⟩ a.state.groupKey a.messageHash with
        | ok u => rw [h4] at h; cases h
        | error e =>
          rw [h4] at h
          simp only at h
          cases h5 : culpritsLoop S a.state a.messageHash (computeChallenge S P a.state.groupKey a.messageHash)
            a.state.signers with
          | error f =>
            rw [h5] at h
            exfalso
            simp only [Except.error.injEq] at h
            subst h
            have hlag : ∀ (i : U32) (is : List U32) (e : Error F G), lagrangeCoeff (F := F) (G := G) i is = .error e →
                ∀ l, e ≠ .misbehavingParticipants l := by
              intro i is e he l hl
              subst hl
              rw [lagrangeCoeff_cases] at he
              repeat' split at he
              all_goals cases he
            have hcom : ∀ (i : U32) (f : Fail F G), commitmentForParticipant S i a.messageHash a.state.signers = .error f →
                f = .panic .outOfBounds := by
              intro i f hf
              unfold commitmentForParticipant encodeGroupCommitmentList at hf
              revert hf
              cases commitmentList a.state.signers with
              | nil => intro hf; cases hf; rfl
              | cons e l => intro hf; cases hf
            have : ∀ (l' : List (Signer G)) (f : Fail F G), culpritsLoop S a.state a.messageHash
                (computeChallenge S P a.state.groupKey a.messageHash) l' = .error f →
                ∀ l, f ≠ .err (.misbehavingParticipants l) := by
              intro l'
              induction l' with
              | nil => intro f he; cases he
              | cons s l' ih =>
                intro f he l hl
                subst hl
                unfold culpritsLoop at he
                cases k1 : lagrangeCoeff (F := F) (G := G) s.participantIndex
                  (a.state.signers.map (·.participantIndex)) with
                | error e =>
                  rw [k1] at he
                  simp only [Except.error.injEq, Fail.err.injEq] at he
                  exact hlag _ _ _ k1 l he
                | ok lambda =>
                  rw [k1] at he
                  simp only at he
                  cases k2 : a.state.partialSignatures.get? s.participantIndex with
                  | none => rw [k2] at he; cases he
                  | some z =>
                    rw [k2] at he
                    simp only at he
                    cases k3 : a.state.publicKeys.get? s.participantIndex with
                    | none => rw [k3] at he; cases he
                    | some pk =>
                      rw [k3] at he
                      simp only at he
                      cases k4 : commitmentForParticipant S s.participantIndex a.messageHash a.state.signers with
                      | error f =>
                        rw [k4] at he
                        simp only [Except.error.injEq] at he
                        have := hcom _ _ k4
                        rw [he] at this
                        cases this
                      | ok Q =>
                        rw [k4] at he
                        simp only at he
                        cases k5 : culpritsLoop S a.state a.messageHash
                          (computeChallenge S P a.state.groupKey a.messageHash) l' with
                        | error f =>
                          rw [k5] at he
                          simp only [Except.error.injEq] at he
                          exact ih _ k5 l he
                        | ok rest => rw [k5] at he; cases he
            exact this _ _ h5 l rfl
          | ok is =>
            have hex := (culpritsLoopW_exact hS hd a.state a.messageHash _ a.state.signers is h5).2
            unfold FinalizedAggregator.aggregateW
            simp only [steps_bind, hashed_append, computeBindingFactorsW_val, h1, computeGroupCommitmentW_val, h2,
              computeChallengeW_val, h3, (verifySignatureW_val _ _ _ _).2, h4, hex]
            have : k * (k * (4 + 2 * S.sizeG)) ≤
                a.state.signers.length * searchBytes S a.messageHash a.state.signers.length := by
              rw [hk]
              refine Nat.mul_le_mul_left _ ?_
              simp only [searchBytes, listBytes]; omega
            omega

/-- Such aggregations exist for every set of signers: all announce the neutral element, and send the response 1. -/
theorem C176_failed_aggregation_exists {S : Suite F G R} (hS : S.CodecLaws) (hg : S.GroupLaws) (hu : Suite.U32Inj F)
    (hd : ∀ b, (S.digest b).length = S.hashLen) (params : Params) (message : Bytes) (J : List U32) (hJ : J.Nodup)
    (h0 : 0 ∉ J) (hne : J ≠ []) (hn : J.length ≤ params.n.toNat) :
    ∃ f : FinalizedAggregator F G, (session params (0 : G) message
        ((J.map fun i => .signer i (0, 0) ⟨i, 0⟩) ++ J.map fun i => .partialSig ⟨i, 1⟩)).finalize S = .ok f ∧
      f.state.signers.length = J.length ∧
      J.length * (J.length * (4 + 2 * S.sizeG)) ≤ hashed (f.aggregateW S).steps := by
  generalize hops : ((J.map fun i => (.signer i (0, 0) ⟨i, 0⟩ : AggOp F G)) ++ J.map fun i => .partialSig ⟨i, 1⟩) = ops
  have hi : Spec.inclusions ops = J.map fun i => (i, ((0 : G), (0 : G)), (0 : G)) := by
    rw [← hops]
    simp [Spec.inclusions, List.filterMap_append, List.filterMap_map, Function.comp_def]
  have hp : Spec.partials ops = J.map fun i => (i, (1 : F)) := by
    rw [← hops]
    simp [Spec.partials, List.filterMap_append, List.filterMap_map, Function.comp_def]
  have hinc : Spec.included ops = J := by
    simp [Spec.included, hi, Function.comp_def]
  have hcard : (Spec.included ops).toFinset.card = J.length := by
    rw [hinc, List.toFinset_card_of_nodup hJ]
  obtain ⟨f, hf⟩ := (C59_finalize_within_bound S params (0 : G) message ops (by rw [hcard]; exact hn)).mpr (by
    rw [hinc, hp]
    exact fun i hi => ⟨1, List.mem_map.mpr ⟨i, hi, rfl⟩⟩)
  have hr := reached params (0 : G) message ops
  obtain ⟨e1, e2, e3, e4⟩ := finalize_ok hf
  have hst : f.state = ((InitialAggregator.new params (0 : G) message).run ops).state := e1
  have hlen : f.state.signers.length = J.length := by rw [hst, hr.card, hcard]
  refine ⟨f, hf, hlen, ?_⟩
  have hmem : ∀ s ∈ f.state.signers, s.participantIndex ∈ J ∧ s.share = (0, 0) := by
    intro s hs
    rw [hst, hr.signers, hi] at hs
    obtain ⟨v, hv, hvs⟩ := Option.map_eq_some_iff.mp hs
    obtain ⟨j, hj, he⟩ := List.mem_map.mp (firstOf_mem hv)
    simp only [Prod.mk.injEq] at he
    exact ⟨he.1 ▸ hj, by rw [← hvs, ← he.2]⟩
  have hz : ∀ s ∈ f.state.signers, f.state.partialSignatures.get? s.participantIndex = some ((fun _ => (1 : F)) s.participantIndex) := by
    intro s hs
    rw [hst, hr.ps_eq, hp]
    refine lastOf_unique (List.mem_map.mpr ⟨_, (hmem s hs).1, rfl⟩) fun v hv => ?_
    obtain ⟨j, -, he⟩ := List.mem_map.mp hv
    exact (congrArg Prod.snd he).symm
  have hpk : ∃ pk : U32 → G, ∀ s ∈ f.state.signers, f.state.publicKeys.get? s.participantIndex = some (pk s.participantIndex) := by
    refine ⟨fun i => (f.state.publicKeys.get? i).getD 0, fun s hs => ?_⟩
    obtain ⟨pk, hpk⟩ := e4 s.participantIndex (by rw [hinc]; exact (hmem s hs).1)
    simp only [hpk, Option.getD_some]
  obtain ⟨pk, hpk⟩ := hpk
  have hsort : SignersSorted f.state.signers := by rw [hst]; exact hr.sorted
  have hcase := aggregate_cases hu S f hsort (fun _ => 1) pk hz hpk
  have hnil : f.state.signers ≠ [] := by
    intro h
    rw [h] at hlen
    exact hne (List.length_eq_zero_iff.mp hlen.symm)
  have hkey : f.state.groupKey = 0 := by rw [hst]; exact hr.key_eq
  have hzero : Spec.groupCommitment S f.messageHash f.state.signers = 0 := by
    unfold Spec.groupCommitment
    refine List.sum_eq_zero fun x hx => ?_
    obtain ⟨s, hs, rfl⟩ := List.mem_map.mp hx
    simp [Spec.signerCommitment, (hmem s hs).2]
  rw [if_neg hnil, if_neg, if_neg] at hcase
  · exact C176_failed_aggregation hS hd f _ hcase _ hlen
  · intro h
    obtain ⟨s, hs, he⟩ := List.mem_map.mp h
    exact h0 (he ▸ (hmem s hs).1)
  · intro h
    have hk : ((J.length : Nat) : F) = 0 := by
      have h' : ((f.state.signers.map fun _ => (1 : F)).sum) • S.gen = (0 : F) • S.gen := by
        have := h
        simp only [Spec.SigValid, Spec.Schnorr, hzero, hkey, smul_zero, add_zero] at this
        rw [this, zero_smul]
      have := hg.gen_inj _ _ h'
      simpa [hlen] using this
    have hlt : J.length < 2 ^ 32 := lt_of_le_of_lt hn params.n.toNat_lt
    have := hu (UInt32.ofNat J.length) 0 (by
      unfold u32F
      rw [UInt32.toNat_ofNat_of_lt' hlt, hk]; simp)
    have := congrArg UInt32.toNat this
    rw [UInt32.toNat_ofNat_of_lt' hlt] at this
    exact hne (List.length_eq_zero_iff.mp this)

/-! ### The hypotheses can be met -/

section Examples

open Toy

theorem toy_digest_length (b : Bytes) : (suite.digest b).length = suite.hashLen := leBytes_length _ _

/-- With ten signers, a failed aggregation hashes at least 1600 bytes for a list of 160 bytes. -/
example : ∃ f : FinalizedAggregator Fp Fp, f.state.signers.length = 10 ∧ 1600 ≤ hashed (f.aggregateW suite).steps := by
  obtain ⟨f, -, h1, h2⟩ := C176_failed_aggregation_exists codec_laws group_laws u32_inj toy_digest_length ⟨10, 5⟩ [1, 2, 3]
    [1, 2, 3, 4, 5, 6, 7, 8, 9, 10] (by decide) (by decide) (by decide) (by decide)
  exact ⟨f, h1, h2⟩

/-- An honest first round of three meets the hypotheses of `C176_round_two_bootstrap`; its second round makes at most six
multiplications per share. -/
example : ∃ d : RoundOne Fp Fp, d.state.parameters = ⟨3, 2⟩ ∧
    ∀ es rng, muls (d.toRoundTwoW suite true es rng).steps ≤ es.length * 6 := by
  obtain ⟨P, co, x, h0, d1, h1, E, h2, d2, h3, s, key, _⟩ := C36_honest_dkg lawful true ⟨3, 2⟩ (by decide)
    (by decide) [1, 2, 3] (by decide) (by decide) rfl (fun _ => [1, 2, 3]) (fun _ => [3, 1, 2])
    (fun _ _ => List.Perm.refl _) (fun _ _ => by decide) (fun _ => 0) (fun _ => 0) (fun _ => 0)
  have hb := h1 1 (by decide)
  obtain ⟨hv, -, hn, ht, -⟩ := C20_bootstrap_classifies cipher_laws codec_laws _ _ _ _ _ _ _ _ _ hb
  refine ⟨d1 1, ?_, fun es rng => C176_round_two_bootstrap cipher_laws codec_laws _ _ _ _ _ _ _ _ _ hb (by decide) es rng⟩
  have h3 : (d1 1).state.parameters.n = 3 := UInt32.toNat_inj.mp (by rw [hn]; rfl)
  exact (show (d1 1).state.parameters = ⟨(d1 1).state.parameters.n, (d1 1).state.parameters.t⟩ from rfl).trans
    (by rw [h3, ht])

/-- The bound of `C176_create` is reached. -/
example : muls (newInternalT suite ⟨3, 2⟩ false 1 none 0).steps = 5 := by decide +kernel

/-- The bound of `C176_sign` is reached. -/
example : muls (signW suite true ⟨1, 5⟩ [7] (9 : Fp) [⟨⟨1, 1⟩, ⟨2, 2⟩⟩] 0 [⟨1, (1, 2)⟩, ⟨2, (3, 4)⟩]).steps = 2 := by
  decide +kernel

end Examples

end IceFrost
