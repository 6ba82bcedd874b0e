import Verif.Toy
import Verif.Props.Nizk
import Verif.Props.Signing
import Verif.Props.Aggregation
import Verif.Props.Sessions
import Verif.Lemmas.Codec

/-!
# C116: every failure names its cause

For each function that can fail: which error is returned in which situation. The situations are listed in the order in
which they are looked at, so that each table is a complete description of success and failure.
-/

set_option linter.unusedSectionVars false
set_option linter.unusedSimpArgs false
set_option linter.unusedVariables false

namespace IceFrost

attribute [local instance] Classical.propDecidable

variable {F G R : Type} [Field F] [DecidableEq F] [AddCommGroup G] [Module F G] [DecidableEq G]

/-! ### Interpolation, proofs, shares -/

/-- C116, interpolation: repeated indices are looked at before zero. -/
theorem C116_lagrange (i : U32) (l : List U32) (e : Error F G) :
    lagrangeCoeff (F := F) i l = .error e ↔
      (e = .custom "Duplicate indices provided" ∧
        (¬ l.Nodup ∨ (0 ∉ l ∧ ∃ j ∈ l, j ≠ i ∧ (j.toNat : F) = (i.toNat : F)))) ∨
      (e = .indexIsZero ∧ l.Nodup ∧ 0 ∈ l) := by
  rw [lagrangeCoeff_cases]
  by_cases h1 : l.Nodup
  · by_cases h2 : (0 : U32) ∈ l
    · rw [if_neg (not_not.mpr h1), if_pos h2]
      simp only [Except.error.injEq, h1, h2, not_true_eq_false, false_and, or_self, and_false, true_and, and_true,
        false_or]
      exact eq_comm
    · rw [if_neg (not_not.mpr h1), if_neg h2]
      by_cases h3 : ∃ j ∈ l, j ≠ i ∧ u32F F j = u32F F i
      · rw [if_pos h3]
        simp only [Except.error.injEq, h1, h2, not_true_eq_false, not_false_eq_true, true_and, false_or, and_false,
          or_false]
        exact ⟨fun h => ⟨h.symm, h3⟩, fun h => h.1.symm⟩
      · rw [if_neg h3]
        simp only [reduceCtorEq, false_iff]
        rintro (⟨_, h | ⟨_, h⟩⟩ | ⟨_, _, h⟩)
        · exact h h1
        · exact h3 h
        · exact h2 h
  · rw [if_pos h1]
    simp only [Except.error.injEq, h1, not_false_eq_true, true_or, and_true, false_and, and_false, or_false]
    exact eq_comm

/-- C116, proofs of knowledge: the only error is `InvalidProofOfKnowledge`, returned exactly for invalid proofs. -/
theorem C116_nizk (S : Suite F G R) (p : Nizk F) (i : U32) (pk : G) :
    nizkVerify S p i pk = if Spec.PokValid S i pk p then .ok () else .error .invalidProofOfKnowledge := by
  rw [C13_verify_iff]
  by_cases h : Spec.PokValid S i pk p
  · exact (if_pos h).trans (if_pos h).symm
  · exact (if_neg h).trans (if_neg h).symm

/-- C116, share verification. -/
theorem C116_share (S : Suite F G R) (s : SecretShare F) (c : VssCommitment G) :
    s.verify S c = if s.eval • S.gen = Spec.pointEval c.points (s.receiverIndex.toNat : F) then .ok ()
      else .error .shareVerificationError := by
  unfold SecretShare.verify
  rw [evaluateHiding_eq]
  congr

/-- C116, number of commitment points. -/
theorem C116_degree (c : VssCommitment G) (p : Params) :
    c.checkDegree (F := F) p = if c.points.length = p.t.toNat then .ok () else .error .invalidCommitmentLength := by
  unfold VssCommitment.checkDegree
  by_cases h : c.points.length = p.t.toNat
  · rw [if_neg (not_not.mpr h), if_pos h]
  · rw [if_pos h, if_neg h]

/-- C116, complaint proofs: the only error is `ComplaintVerificationError`, returned exactly if one of the two equations
of the proof is violated. -/
theorem C116_complaint (S : Suite F G R) (c : Complaint F G) (pk : G) (h : F)
    (hh : h = S.sha256FieldHash (strBytes "Complaint Context") (S.encG c.dhPublicKey ++ S.encG pk ++
      S.encG c.dhSharedKey ++ S.encG c.proof.a1 ++ S.encG c.proof.a2 ++ (encShareCodec S).enc c.encShare)) :
    c.verify S pk = if c.proof.a1 + h • c.dhPublicKey = c.proof.z • S.gen ∧
        c.proof.a2 + h • c.dhSharedKey = c.proof.z • pk then .ok ()
      else .error .complaintVerificationError := by
  change h = complaintHash S (complaintMessage S c.dhPublicKey pk c.dhSharedKey c.proof.a1 c.proof.a2 c.encShare) at hh
  subst hh
  by_cases hv : c.verify S pk = .ok ()
  · rw [if_pos ((complaintVerify_iff S c pk).mp hv), hv]
  · rw [if_neg fun h => hv ((complaintVerify_iff S c pk).mpr h)]
    unfold Complaint.verify at hv ⊢
    simp only [] at hv ⊢
    split
    · rfl
    · next h1 =>
      rw [if_neg h1] at hv
      split
      · rfl
      · next h2 => rw [if_neg h2] at hv; exact absurd rfl hv

/-- C116, sealing a share: failed key derivation and failed encryption are told apart. -/
theorem C116_encrypt (S : Suite F G R) (share : SecretShare F) (shared : G) (rng : R) :
    (encryptShare S share (S.encG shared) rng).map Prod.fst =
      match S.kdf (S.encG shared) with
      | none => .error (.custom "KDF expansion failed unexpectedly")
      | some key => match S.aeadEnc key (S.randBytes S.nonceSize rng).1 (S.encF share.eval) with
        | none => .error .encryptionError
        | some ct => .ok ⟨share.senderIndex, share.receiverIndex, (S.randBytes S.nonceSize rng).1, ct⟩ := by
  unfold encryptShare
  cases S.kdf (S.encG shared) with
  | none => rfl
  | some key =>
    simp only []
    cases S.aeadEnc key (S.randBytes S.nonceSize rng).1 (S.encF share.eval) <;> rfl

/-- C116, opening a share: failed key derivation, failed decryption and an undecodable scalar are told apart. -/
theorem C116_decrypt (S : Suite F G R) (e : EncShare) (shared : G) :
    (S.kdf (S.encG shared) = none ∧
      decryptShare (F := F) S e (S.encG shared) = .error (.custom "KDF expansion failed unexpectedly")) ∨
    (∃ key, S.kdf (S.encG shared) = some key ∧ S.aeadDec key e.nonce e.ct = none ∧
      decryptShare S e (S.encG shared) = .error .decryptionError) ∨
    (∃ key pt, S.kdf (S.encG shared) = some key ∧ S.aeadDec key e.nonce e.ct = some pt ∧ S.decF pt = none ∧
      decryptShare S e (S.encG shared) = .error .decompressionError) ∨
    (∃ v, Spec.Opens S e shared v ∧ decryptShare S e (S.encG shared) = .ok ⟨e.senderIndex, e.receiverIndex, v⟩) := by
  unfold decryptShare
  cases h1 : S.kdf (S.encG shared) with
  | none => exact .inl ⟨rfl, rfl⟩
  | some key =>
    cases h2 : S.aeadDec key e.nonce e.ct with
    | none => exact .inr (.inl ⟨key, rfl, h2, by simp only [h2]⟩)
    | some pt =>
      cases h3 : S.decF pt with
      | none => exact .inr (.inr (.inl ⟨key, pt, rfl, h2, h3, by simp only [h2, h3]⟩))
      | some vr =>
        exact .inr (.inr (.inr ⟨vr.1, ⟨key, pt, vr.2, h1, h2, h3⟩, by simp only [h2, h3]⟩))

/-- C116, bytes: reading fails with `DeserializationError` only, writing never fails. -/
theorem C116_bytes {α : Type} (c : Codec α) (bs : Bytes) (a : α) (e : Error F G) :
    (c.fromBytes bs = .error e ↔ e = .deserializationError ∧ c.dec bs = none) ∧
      (c.toBytes (F := F) (G := G) a ≠ .error e) := by
  constructor
  · unfold Codec.fromBytes
    cases h : c.dec bs with
    | none =>
      simp only [Except.error.injEq, and_true]
      exact eq_comm
    | some p => simp
  · intro h; cases h

/-! ### Verifying keys -/

/-- C116, `generate_from_commitments`: fails exactly for a non-empty list in which an index is repeated or zero. -/
theorem C116_generate (hu : Suite.U32Inj F) (i : U32) (cs : List (VssCommitment G)) (e : Error F G) :
    generateFromCommitments (F := F) i cs = .error e ↔
      (e = .custom "Duplicate indices provided" ∧ ¬ (cs.map (·.index)).Nodup) ∨
      (e = .indexIsZero ∧ (cs.map (·.index)).Nodup ∧ 0 ∈ cs.map (·.index)) := by
  unfold generateFromCommitments
  rw [fromCommitmentsLoop_eq hu]
  by_cases h0 : cs = []
  · subst h0; simp
  · rw [if_neg h0]
    by_cases h1 : (cs.map (·.index)).Nodup
    · by_cases h2 : 0 ∈ cs.map (·.index)
      · rw [if_neg (not_not.mpr h1), if_pos h2]
        simp only [Except.error.injEq, h1, h2, not_true_eq_false, and_false, false_or, and_true]
        exact eq_comm
      · rw [if_neg (not_not.mpr h1), if_neg h2]
        simp [h1, h2]
    · rw [if_pos h1]
      simp only [Except.error.injEq, h1, not_false_eq_true, and_true, false_and, and_false, or_false]
      exact eq_comm

/-- C116, `IndividualVerifyingKey::verify`: a bad list gives the text of the interpolation error, a key that is not the
one generated from the list gives `ShareVerificationError`. -/
theorem C116_verify_key (hu : Suite.U32Inj F) (k : IndividualVerifyingKey G) (cs : List (VssCommitment G)) :
    k.verify F cs =
      if ¬ (cs.map (·.index)).Nodup then .error (.custom "\"Duplicate indices provided\"")
      else if 0 ∈ cs.map (·.index) then .error (.custom "The indexs of a participant cannot be 0.")
      else if k.share = (cs.map fun c => Spec.lagrange (F := F) (cs.map (·.index)) c.index •
        Spec.pointEval c.points (k.index.toNat : F)).sum then .ok ()
      else .error .shareVerificationError := by
  unfold IndividualVerifyingKey.verify
  rw [verifyKeyLoop_eq hu, fromCommitmentsLoop_eq hu]
  by_cases h0 : cs = []
  · subst h0
    simp
  · rw [if_neg h0]
    by_cases h1 : (cs.map (·.index)).Nodup
    · by_cases h2 : 0 ∈ cs.map (·.index)
      · rw [if_neg (not_not.mpr h1), if_pos h2, if_neg (not_not.mpr h1), if_pos h2]
        rfl
      · rw [if_neg (not_not.mpr h1), if_neg h2, if_neg (not_not.mpr h1), if_neg h2, zero_add]
        simp only []
        congr
    · rw [if_pos h1, if_pos h1]
      rfl

/-! ### Key generation -/

/-- C116, `finish` in a state reached by the calls of a session (so the shares and commitments are on file): what goes
wrong is an index 0, among the received shares or among the dealers, and the two are reported differently. -/
theorem C116_finish (hu : Suite.U32Inj F) {S : Suite F G R} {dbg : Bool} {ps : List (Participant F G)}
    {es : List EncShare} {d : RoundTwo F G} (h : ReachTwo S dbg ps es d) {comms : BMap (VssCommitment G)}
    (hc : d.state.theirCommitments = some comms) {m : BMap (SecretShare F)} (hm' : d.state.mySecretShares = some m)
    (f : Fail F G) :
    d.finish = .error f ↔
      (f = .err (.custom "The indexs of a participant cannot be 0.") ∧ 0 ∈ m.keys) ∨
      (f = .err .indexIsZero ∧ 0 ∉ m.keys ∧ 0 ∈ comms.keys) := by
  obtain ⟨comms', m', hs, hm⟩ := C95_round_two_sound h
  obtain rfl : comms' = comms := Option.some.inj (hs.comms_eq.symm.trans hc)
  obtain rfl : m' = m := Option.some.inj (hm.shares_eq.symm.trans hm')
  by_cases h0 : 0 ∈ m'.keys
  · have : d.finish = .error (.err (.custom "The indexs of a participant cannot be 0.")) := by
      cases hcm : m' with
      | nil => rw [hcm] at h0; simp [BMap.keys] at h0
      | cons e rest =>
        obtain ⟨k, c⟩ := e
        have hl : signingKeyLoop (G := G) m'.keys m' 0 =
            (.error (.err (.custom (Error.display (F := F) (G := G) .indexIsZero))), m') := by
          conv => lhs; arg 2; rw [hcm]
          unfold signingKeyLoop
          rw [lagrangeCoeff_uniform hu, if_neg (not_not.mpr hm.sorted.nodup), if_pos h0]
          simp only []
          rw [hcm]
        unfold RoundTwo.finish RoundTwo.calculateSigningKey
        rw [hm.shares_eq]
        simp only []
        rw [hl]
        rfl
    rw [this]
    simp only [Except.error.injEq, h0, and_true, not_true_eq_false, false_and, and_false, or_false]
    exact eq_comm
  · by_cases h1 : 0 ∈ comms'.keys
    · have : d.finish = .error (.err .indexIsZero) := by
        unfold RoundTwo.finish
        rw [calculateSigningKey_ok hu d m' hm.shares_eq hm.sorted.nodup h0
          (fun k => ((m'.get? k).map (·.eval)).getD 0) (by intro k s hk; simp [hk])]
        simp only [RoundTwo.calculateGroupKey]
        rw [hc]
        simp only []
        cases hcm : comms' with
        | nil => rw [hcm] at h1; simp [BMap.keys] at h1
        | cons e rest =>
          obtain ⟨k, c⟩ := e
          have hg : groupKeyLoop (F := F) comms'.keys comms' 0 = .error (.err .indexIsZero) := by
            conv => lhs; arg 2; rw [hcm]
            unfold groupKeyLoop
            rw [lagrangeCoeff_uniform hu, if_neg (not_not.mpr hs.comms_sorted.nodup), if_pos h1]
          rw [hcm] at hg
          rw [hg]
      rw [this]
      simp only [Except.error.injEq, h0, h1, and_false, not_false_eq_true, and_true, false_or]
      exact eq_comm
    · obtain ⟨v, hv⟩ := (C95_finish_ok_iff hu h hc hm').mpr ⟨h1, h0⟩
      rw [hv]
      simp [h0, h1]

/-! ### Round two -/

/-- The first share that makes `to_round_two` stop: in debug builds one labelled for somebody else, in all builds one
from an unknown sender. -/
noncomputable def Spec.stopper (dbg : Bool) (st : DkgState F G) (es : List EncShare) : Option EncShare :=
  es.find? fun e => (dbg = true ∧ e.receiverIndex ≠ st.index) ∨ e.senderIndex ∉ st.theirDhPublicKeys.keys

theorem roundTwoLoop_stops (S : Suite F G R) (dbg : Bool) (st : DkgState F G) (comms : BMap (VssCommitment G))
    (hcomms : st.theirCommitments = some comms) (es : List EncShare) (e : EncShare)
    (he : Spec.stopper dbg st es = some e) (shares : BMap (SecretShare F)) (cs : List (Complaint F G)) (rng : R) :
    roundTwoLoop S dbg st es shares cs rng =
      if dbg = true ∧ e.receiverIndex ≠ st.index then .error (.panic .debugAssert)
      else .error (.err (.custom
        "to_round_two() was called with encrypted secret shares containing invalid indices")) := by
  induction es generalizing shares cs rng with
  | nil => cases he
  | cons a es ih =>
    unfold Spec.stopper at he
    rw [List.find?_cons] at he
    unfold roundTwoLoop
    by_cases h1 : dbg = true ∧ a.receiverIndex ≠ st.index
    · simp only [h1, not_true_eq_false, not_false_eq_true, ne_eq, and_self, true_or, decide_true, Option.some.injEq] at he
      subst he
      rw [if_pos h1, if_pos (by simpa using h1)]
    · have h1' : ¬ (dbg && a.receiverIndex != st.index) = true := by simpa using h1
      rw [if_neg h1']
      by_cases h2 : a.senderIndex ∈ st.theirDhPublicKeys.keys
      · have hno : decide ((dbg = true ∧ a.receiverIndex ≠ st.index) ∨
            a.senderIndex ∉ st.theirDhPublicKeys.keys) = false := decide_eq_false (by simp only [h1, h2]; simp)
        rw [hno] at he
        obtain ⟨pk, hpk⟩ := BMap.exists_get? h2
        simp only [hpk, hcomms]
        exact ih he _ _ _
      · have hyes : decide ((dbg = true ∧ a.receiverIndex ≠ st.index) ∨
            a.senderIndex ∉ st.theirDhPublicKeys.keys) = true := decide_eq_true (Or.inr h2)
        rw [hyes] at he
        simp only [Option.some.injEq] at he
        subst he
        rw [if_neg h1, BMap.get?_eq_none.mpr h2]

/-- C116, the complete table of `to_round_two`: too few shares; the first share that stops it; and with `k` complaints,
one per bad share: the subtraction `n - k` overflows in debug builds and wraps around in others, and the call aborts with
the complaints exactly if the result is below `t`. This is the exact form of C30, for any number of bad shares. -/
theorem C116_to_round_two (S : Suite F G R) (dbg : Bool) (d : RoundOne F G) (comms : BMap (VssCommitment G))
    (hcomms : d.state.theirCommitments = some comms) (hn : comms.keys.Nodup) (es : List EncShare) (rng : R)
    (bad : List EncShare)
    (hbad : bad = es.filter fun e => ∃ pk c, d.state.theirDhPublicKeys.get? e.senderIndex = some pk ∧
        comms.get? e.senderIndex = some c ∧ ¬ Spec.GoodShare S (d.state.dhPrivateKey • pk) c.points e) :
    ∃ (d' : RoundTwo F G) (cs : List (Complaint F G)), cs.map (·.encShare) = bad ∧
      d.toRoundTwo S dbg es rng =
        if es.length < d.state.parameters.t.toNat then .error (.err .missingShares)
        else match Spec.stopper dbg d.state es with
          | some e =>
            if dbg = true ∧ e.receiverIndex ≠ d.state.index then .error (.panic .debugAssert)
            else .error (.err (.custom
              "to_round_two() was called with encrypted secret shares containing invalid indices"))
          | none =>
            if dbg = true ∧ d.state.parameters.n.toNat < bad.length % 2 ^ 32 then .error (.panic .overflow)
            else if (d.state.parameters.n.toNat + 2 ^ 32 - bad.length % 2 ^ 32) % 2 ^ 32 < d.state.parameters.t.toNat then
              .error (.err (.complaint cs))
            else .ok (d', cs) := by
  have hmk : ∃ cs : List (Complaint F G), cs.map (·.encShare) = bad := by
    refine ⟨bad.map fun e => ⟨0, 0, e, ⟨0, 0, 0⟩⟩, ?_⟩
    rw [List.map_map]
    exact List.map_id _
  by_cases hlen : es.length < d.state.parameters.t.toNat
  · obtain ⟨cs, hcs⟩ := hmk
    refine ⟨⟨d.state⟩, cs, hcs, ?_⟩
    rw [if_pos hlen]
    exact (C29_missing_shares S dbg d es rng).mpr hlen
  · cases hst : Spec.stopper dbg d.state es with
    | some e =>
      obtain ⟨cs, hcs⟩ := hmk
      refine ⟨⟨d.state⟩, cs, hcs, ?_⟩
      rw [if_neg hlen]
      unfold RoundOne.toRoundTwo
      simp only []
      rw [if_neg hlen, roundTwoLoop_stops S dbg { d.state with theirEncryptedSecretShares := none } comms hcomms es e hst]
      by_cases h : dbg = true ∧ e.receiverIndex ≠ d.state.index
      · simp only [h, ne_eq, not_true_eq_false, not_false_eq_true, and_self, if_true]
      · simp only [h, if_false]
    | none =>
      have hk : KnownShares dbg d.state es := by
        intro e he
        have := List.find?_eq_none.mp hst e he
        simp only [decide_eq_true_eq, not_or, not_and, not_not] at this
        exact this
      have hb : bad = es.filter (BadFor S d.state.dhPrivateKey d.state.theirDhPublicKeys comms) := hbad
      obtain ⟨cs, h1, h2⟩ := toRoundTwo_known S dbg d comms hcomms hn es (by omega) hk rng
      rw [← hb] at h1
      have hmap : cs.map (·.encShare) = bad := by
        clear h2 hb hbad hmk
        induction h1 with
        | nil => rfl
        | cons h _ ih => rw [List.map_cons, ih, h.1]
      refine ⟨⟨roundTwoState S d.state es⟩, cs, hmap, ?_⟩
      rw [if_neg hlen, h2, h1.length_eq]
      have hof : (UInt32.ofNat bad.length).toNat = bad.length % 2 ^ 32 := UInt32.toNat_ofNat'
      have hsub : (d.state.parameters.n - UInt32.ofNat bad.length).toNat =
          (d.state.parameters.n.toNat + 2 ^ 32 - bad.length % 2 ^ 32) % 2 ^ 32 := by
        rw [UInt32.toNat_sub, hof]
        congr 1
        have := Nat.mod_lt bad.length (by decide : 2 ^ 32 > 0)
        omega
      unfold u32Sub
      by_cases ho : dbg = true ∧ d.state.parameters.n.toNat < bad.length % 2 ^ 32
      · have ho' : (dbg && decide (d.state.parameters.n < UInt32.ofNat bad.length)) = true := by
          rw [Bool.and_eq_true, decide_eq_true_eq, UInt32.lt_iff_toNat_lt, hof]; exact ho
        rw [if_pos ho']
        exact (if_pos ho).symm
      · have ho' : ¬ (dbg && decide (d.state.parameters.n < UInt32.ofNat bad.length)) = true := by
          rw [Bool.and_eq_true, decide_eq_true_eq, UInt32.lt_iff_toNat_lt, hof]; exact ho
        rw [if_neg ho']
        simp only [ho, if_false]
        simp only [UInt32.lt_iff_toNat_lt, hsub]

/-! ### Signing -/

/-- C116, `sign`, for every position but `usize::MAX`: missing nonce, caller not in the list, repeated index, index 0,
in this order. -/
theorem C116_sign (hu : Suite.U32Inj F) (S : Suite F G R) (dbg : Bool) (sk : IndividualSigningKey F) (msg : Bytes)
    (Y : G) (L : List (CommitmentShare F G)) (k : UInt64) (hk : k ≠ UInt64.ofNat (2 ^ 64 - 1))
    (signers : List (Signer G)) (hs : signers ≠ []) (f : Fail F G) :
    (sign S dbg sk msg Y L k signers).1 = .error f ↔
      f = .err (if L.length ≤ k.toNat then .missingCommitmentShares
        else if sk.index ∉ signers.map (·.participantIndex) then .invalidBindingFactor
        else if ¬ (signers.map (·.participantIndex)).Nodup then .custom "Duplicate indices provided"
        else .indexIsZero) ∧
      (L.length ≤ k.toNat ∨ sk.index ∉ signers.map (·.participantIndex) ∨
        ¬ (signers.map (·.participantIndex)).Nodup ∨ 0 ∈ signers.map (·.participantIndex)) := by
  unfold sign
  rw [signCore_cases hu S dbg sk msg Y L k hk]
  by_cases hL : k.toNat < L.length
  · rw [List.getElem?_eq_getElem hL]
    simp only [if_neg hs]
    rw [if_neg (by omega : ¬ L.length ≤ k.toNat)]
    have hL' : ¬ L.length ≤ k.toNat := by omega
    by_cases h1 : sk.index ∈ signers.map (·.participantIndex)
    · by_cases h2 : (signers.map (·.participantIndex)).Nodup
      · by_cases h3 : 0 ∈ signers.map (·.participantIndex)
        · rw [if_neg (not_not.mpr h1), if_neg (not_not.mpr h2), if_pos h3, if_neg (not_not.mpr h1),
            if_neg (not_not.mpr h2)]
          simp only [Except.error.injEq, h3, or_true, and_true]
          exact eq_comm
        · rw [if_neg (not_not.mpr h1), if_neg (not_not.mpr h2), if_neg h3]
          simp only [hL', h1, h2, h3, not_true_eq_false, or_self, and_false, reduceCtorEq]
      · rw [if_neg (not_not.mpr h1), if_pos h2, if_neg (not_not.mpr h1), if_pos h2]
        simp only [Except.error.injEq, h2, not_false_eq_true, true_or, or_true, and_true]
        exact eq_comm
    · rw [if_pos h1, if_pos h1]
      simp only [Except.error.injEq, h1, not_false_eq_true, true_or, or_true, and_true]
      exact eq_comm
  · rw [List.getElem?_eq_none (by omega), if_pos (by omega : L.length ≤ k.toNat)]
    simp only [Except.error.injEq, (by omega : L.length ≤ k.toNat), true_or, and_true]
    exact eq_comm

/-- C116, the complete table of `sign`, also for position `usize::MAX` and an empty list of signers, where it panics. At
position `usize::MAX` a build with overflow checks panics at once; other builds wrap around, pass the length check and
panic at the access, unless the list of signers is rejected first. -/
theorem C116_sign_table (hu : Suite.U32Inj F) (S : Suite F G R) (dbg : Bool) (sk : IndividualSigningKey F) (msg : Bytes)
    (Y : G) (L : List (CommitmentShare F G)) (hlen : L.length < 2 ^ 63) (k : UInt64) (signers : List (Signer G)) :
    (sign S dbg sk msg Y L k signers).1 =
      if dbg = true ∧ k = UInt64.ofNat (2 ^ 64 - 1) then .error (.panic .overflow)
      else if k ≠ UInt64.ofNat (2 ^ 64 - 1) ∧ L.length ≤ k.toNat then .error (.err .missingCommitmentShares)
      else if signers = [] then .error (.panic .outOfBounds)
      else if sk.index ∉ signers.map (·.participantIndex) then .error (.err .invalidBindingFactor)
      else if ¬ (signers.map (·.participantIndex)).Nodup then .error (.err (.custom "Duplicate indices provided"))
      else if 0 ∈ signers.map (·.participantIndex) then .error (.err .indexIsZero)
      else match L[k.toNat]? with
        | none => .error (.panic .outOfBounds)
        | some share => .ok ⟨sk.index, share.hidingC.secret + share.bindingC.secret * Spec.rho S msg signers sk.index +
            Spec.lagrange (signers.map (·.participantIndex)) sk.index * sk.key *
              Spec.sessionChallenge S Y msg signers⟩ := by
  by_cases hk : k = UInt64.ofNat (2 ^ 64 - 1)
  · have hkn : L[k.toNat]? = none := by
      rw [List.getElem?_eq_none]
      rw [hk, UInt64.toNat_ofNat']
      omega
    rw [hkn]
    cases dbg with
    | true =>
      rw [if_pos ⟨rfl, hk⟩, hk]
      unfold sign signCore
      simp
    | false =>
      rw [if_neg (fun h => Bool.noConfusion h.1), if_neg (fun h => h.1 hk)]
      unfold sign signCore
      have h1 : (k + 1).toNat = 0 := by rw [hk]; decide
      simp only [Bool.false_and, Bool.false_eq_true, if_false, h1, gt_iff_lt, Nat.not_lt_zero, hkn]
      by_cases hs : signers = []
      · rw [if_pos hs, hs]
        rfl
      · rw [if_neg hs]
        obtain ⟨m, h1, h2, h3⟩ := session_ok S msg hs
        rw [h1]
        simp only [bindingFactorFor, h2]
        by_cases hi : sk.index ∈ signers.map (·.participantIndex)
        · rw [if_pos hi]
          simp only [not_true_eq_false, if_false, h3, hi]
          rw [lagrangeCoeff_cases]
          by_cases hn : (signers.map (·.participantIndex)).Nodup
          · simp only [hn, not_true_eq_false, if_false]
            by_cases h0 : 0 ∈ signers.map (·.participantIndex)
            · simp only [h0, if_true]
            · simp only [h0, if_false]
              rw [if_neg (by rintro ⟨j, _, hne, he⟩; exact hne (hu _ _ he))]
          · simp only [hn, not_false_eq_true, if_true]
        · simp only [hi, if_false, not_false_eq_true, if_true]
  · rw [if_neg (fun h => hk h.2)]
    unfold sign
    rw [signCore_cases hu S dbg sk msg Y L k hk]
    by_cases hL : k.toNat < L.length
    · rw [if_neg (by rintro ⟨_, h⟩; omega), List.getElem?_eq_getElem hL]
      simp only
      by_cases hs : signers = []
      · rw [if_pos hs, if_pos hs]
      rw [if_neg hs, if_neg hs]
      by_cases hi : sk.index ∈ signers.map (·.participantIndex)
      · rw [if_neg (not_not.mpr hi), if_neg (not_not.mpr hi)]
        by_cases hn : (signers.map (·.participantIndex)).Nodup
        · rw [if_neg (not_not.mpr hn), if_neg (not_not.mpr hn)]
          by_cases h0 : 0 ∈ signers.map (·.participantIndex)
          · rw [if_pos h0, if_pos h0]
          · rw [if_neg h0, if_neg h0]
        · rw [if_pos hn, if_pos hn]
      · rw [if_pos hi, if_pos hi]
    · rw [if_pos ⟨hk, by omega⟩, List.getElem?_eq_none (by omega)]

/-- C116, `include_signer`: first the indices are compared, then the signers are counted. -/
theorem C116_include_signer (params : Params) (Y : G) (message : Bytes) (ops : List (AggOp F G)) (i : U32)
    (share : G × G) (pk : IndividualVerifyingKey G) :
    ((session params Y message ops).includeSigner i share pk).1 =
      if i ≠ pk.index then .error (.indexMismatch i pk.index)
      else if params.n.toNat < (Spec.included ops ++ [i]).toFinset.card then
        .error (.tooManySigners (Spec.included ops ++ [i]).toFinset.card params.n)
      else .ok () := by
  have h := reached params Y message ops
  have h' := reached params Y message (ops ++ [.signer i share pk])
  rw [includeSigner_eq]
  by_cases hi : i = pk.index
  · have hi2 : ¬ i ≠ pk.index := not_not.mpr hi
    rw [if_neg hi2, if_neg hi2]
    have e2 : Spec.included (ops ++ [.signer i share pk]) = Spec.included ops ++ [i] := by
      unfold Spec.included; rw [inclusions_append, inclusions_signer, if_pos hi]; simp
    have hst : (session params Y message (ops ++ [.signer i share pk])).state.signers =
        addSigner (session params Y message ops).state.signers ⟨i, share⟩ := by
      show ((InitialAggregator.new params Y message).run (ops ++ [.signer i share pk])).state.signers = _
      rw [run_append]
      show (((session params Y message ops).includeSigner i share pk).2).state.signers = _
      rw [includeSigner_eq, if_neg (by simpa using hi)]
      split <;> rfl
    have hl' : (addSigner (session params Y message ops).state.signers ⟨i, share⟩).length =
        (Spec.included ops ++ [i]).toFinset.card := by
      rw [← hst, ← e2]; exact h'.card
    rw [hl', h.params_eq]
    by_cases hc : params.n.toNat < (Spec.included ops ++ [i]).toFinset.card
    · rw [if_pos hc, if_pos hc]
    · rw [if_neg hc, if_neg hc]
  · rw [if_pos hi, if_pos hi]

/-- C116, signature verification: the only error is `InvalidSignature`. -/
theorem C116_verify (S : Suite F G R) (sig : ThresholdSignature F G) (Y : G) (msg : Bytes) :
    sig.verify S Y msg = (if Spec.SigValid S Y msg sig then .ok () else .error .invalidSignature) ∧
    verifySignature S Y sig msg = (if Spec.SigValid S Y msg sig then .ok () else .error .invalidSignature) := by
  have key : sig.verify S Y msg = (if Spec.SigValid S Y msg sig then .ok () else .error .invalidSignature) := by
    by_cases h : Spec.SigValid S Y msg sig
    · rw [if_pos h, (verify_iff S sig Y msg).mpr h]
    · rw [if_neg h]
      have hn := fun h' => h ((verify_iff S sig Y msg).mp h')
      unfold ThresholdSignature.verify at hn ⊢
      simp only [msm_two] at hn ⊢
      split
      · next h2 => rw [if_pos h2] at hn; exact absurd rfl hn
      · rfl
  exact ⟨key, key⟩

/-- C116, the complete table of `aggregate` on a finalized session, in terms of the calls made: `signers` is the list of
included signers by index with the commitments of the first inclusion, `z` the last response given by each and `pk` the
key of the last accepted inclusion. Without signers it panics; it succeeds exactly if commitment and sum of responses
are a valid signature; otherwise `IndexIsZero` if 0 is a signer, and else the signers whose response is wrong. -/
theorem C116_aggregate (hu : Suite.U32Inj F) {S : Suite F G R} {params : Params} {Y : G} {message : Bytes}
    {ops : List (AggOp F G)} (f : FinalizedAggregator F G) (hf : (session params Y message ops).finalize S = .ok f)
    (signers : List (Signer G)) (hsort : (signers.map (·.participantIndex)).Pairwise (· < ·))
    (hsig : ∀ s, s ∈ signers ↔ ∃ pk, Spec.firstOf (Spec.inclusions ops) s.participantIndex = some (s.share, pk))
    (z : U32 → F) (hz : ∀ i ∈ Spec.included ops, Spec.lastOf (Spec.partials ops) i = some (z i))
    (pk : U32 → G) (hpk : ∀ i ∈ Spec.included ops,
      ∃ share, Spec.lastOf (Spec.accepted params.n.toNat (Spec.inclusions ops)) i = some (share, pk i))
    (h : Bytes) (hh : h = Spec.messageHash S message) (sig : ThresholdSignature F G)
    (hs : sig = ⟨Spec.groupCommitment S h signers, (signers.map fun s => z s.participantIndex).sum⟩) :
    f.aggregate S =
      if Spec.included ops = [] then .error (.panic .outOfBounds)
      else if Spec.SigValid S Y h sig then .ok sig
      else if 0 ∈ Spec.included ops then .error (.err .indexIsZero)
      else .error (.err (.misbehavingParticipants ((signers.filter fun s =>
        ¬ Spec.PartialValid S Y h signers s (pk s.participantIndex) (z s.participantIndex)).map
          (·.participantIndex)))) := by
  have hr := reached params Y message ops
  obtain ⟨h1, h2, -, -⟩ := finalize_ok hf
  have hsg : f.state.signers = signers := by
    rw [h1]
    refine signers_ext hr.sorted (List.pairwise_map.mp hsort) fun s => ?_
    rw [hr.signers, hsig, Option.map_eq_some_iff]
    constructor
    · rintro ⟨⟨a, b⟩, h, rfl⟩; exact ⟨b, h⟩
    · rintro ⟨b, h⟩; exact ⟨_, h, rfl⟩
  have hmem : ∀ i, i ∈ signers.map (·.participantIndex) ↔ i ∈ Spec.included ops := by
    intro i; rw [← hsg, h1]; exact hr.mem_indices i
  have hnil : signers = [] ↔ Spec.included ops = [] := by
    rw [← List.map_eq_nil_iff (f := fun s : Signer G => s.participantIndex), List.eq_nil_iff_forall_not_mem,
      List.eq_nil_iff_forall_not_mem]
    exact forall_congr' fun i => not_congr (hmem i)
  rw [aggregate_cases hu S f (by rw [h1]; exact hr.sorted) z pk]
  · subst hs hh
    rw [hsg, h2, h1, hr.key_eq]
    simp only [hnil, hmem]
  · intro s hs
    rw [h1, hr.ps_eq]
    exact hz _ ((hmem _).mp (hsg ▸ List.mem_map.mpr ⟨s, hs, rfl⟩))
  · intro s hs
    rw [h1, hr.pk_eq]
    obtain ⟨a, ha⟩ := hpk _ ((hmem _).mp (hsg ▸ List.mem_map.mpr ⟨s, hs, rfl⟩))
    rw [ha]
    rfl

section Examples
open Toy

example : lagrangeCoeff (F := Fp) (G := Fp) 1 [0, 1, 1] = .error (.custom "Duplicate indices provided") :=
  (C116_lagrange _ _ _).mpr (.inl ⟨rfl, .inl (by decide)⟩)

example : lagrangeCoeff (F := Fp) (G := Fp) 1 [0, 1, 2] = .error .indexIsZero :=
  (C116_lagrange _ _ _).mpr (.inr ⟨rfl, by decide, by decide⟩)

example : (⟨1, 5⟩ : IndividualVerifyingKey Fp).verify Fp [⟨1, [3]⟩, ⟨1, [4]⟩] =
    .error (.custom "\"Duplicate indices provided\"") := by
  rw [C116_verify_key u32_inj, if_pos (by decide)]

example : ((session ⟨1, 1⟩ (5 : Fp) [] [.signer 1 (1, 2) ⟨1, 3⟩] : InitialAggregator Fp Fp).includeSigner 2 (1, 2)
    ⟨2, 4⟩).1 = .error (.tooManySigners 2 1) := by
  rw [C116_include_signer, if_neg (by decide)]
  have : (Spec.included [(.signer 1 (1, 2) ⟨1, 3⟩ : AggOp Fp Fp)] ++ [2]).toFinset.card = 2 := by
    have : Spec.included [(.signer 1 (1, 2) ⟨1, 3⟩ : AggOp Fp Fp)] = [1] := rfl
    rw [this]; decide
  rw [this, if_pos (by decide)]

example : (sign suite false ⟨3, 8⟩ [] (5 : Fp) [⟨⟨1, 1⟩, ⟨2, 2⟩⟩] 0 [⟨1, (1, 2)⟩, ⟨2, (3, 4)⟩]).1 =
    .error (.err .invalidBindingFactor) := by
  refine (C116_sign u32_inj suite false _ _ _ _ _ (by decide) _ (by simp) _).mpr ⟨?_, .inr (.inl (by decide))⟩
  rw [if_neg (by simp), if_pos (by decide)]

/-- An aggregation that fails: the signer's response is wrong. -/
example : ∃ f : FinalizedAggregator Fp Fp, (session ⟨1, 1⟩ (5 : Fp) []
    [.signer 3 (1, 2) ⟨3, 4⟩, .partialSig ⟨3, 1⟩]).finalize suite = .ok f ∧
    f.aggregate suite = .error (.err (.misbehavingParticipants [3])) := by
  have hinc : Spec.included [(.signer 3 (1, 2) ⟨3, 4⟩ : AggOp Fp Fp), .partialSig ⟨3, 1⟩] = [3] := rfl
  obtain ⟨f, hf⟩ := (C59_finalize_within_bound suite ⟨1, 1⟩ (5 : Fp) []
    [.signer 3 (1, 2) ⟨3, 4⟩, .partialSig ⟨3, 1⟩] (by rw [hinc]; decide)).mpr (by
      rw [hinc]
      intro j hj
      rw [List.mem_singleton] at hj
      subst hj
      exact ⟨1, by simp [Spec.partials]⟩)
  refine ⟨f, hf, ?_⟩
  rw [C116_aggregate u32_inj f hf [⟨3, (1, 2)⟩] (by simp) (fun s => by
      show s ∈ [_] ↔ ∃ pk, Spec.firstOf [((3 : U32), ((1 : Fp), (2 : Fp)), (4 : Fp))] s.participantIndex = some (s.share, pk)
      rw [firstOf_singleton, List.mem_singleton]
      constructor
      · rintro rfl; exact ⟨4, rfl⟩
      · rintro ⟨pk, h⟩
        split at h
        · next h' => cases s; cases h'; cases h; rfl
        · cases h) (fun _ => 1)
      (fun i hi => by obtain rfl : i = 3 := by simpa [hinc] using hi
                      rfl) (fun _ => 4)
      (fun i hi => by obtain rfl : i = 3 := by simpa [hinc] using hi
                      exact ⟨(1, 2), rfl⟩) _ rfl _ rfl,
    hinc, if_neg (by simp), if_neg, if_neg (by simp)]
  · rw [List.filter_cons_of_pos]
    · rfl
    · refine decide_eq_true ?_
      unfold Spec.PartialValid
      decide +kernel
  · unfold Spec.SigValid Spec.Schnorr; decide +kernel

/-- The session of an honest key generation is one to which `C116_finish` applies. -/
example (f : Fail Fp Fp) : ∃ (ps : List (Participant Fp Fp)) (es : List EncShare) (d : RoundTwo Fp Fp)
    (comms : BMap (VssCommitment Fp)) (m : BMap (SecretShare Fp)), ps.length = 3 ∧ ReachTwo suite true ps es d ∧
    d.state.theirCommitments = some comms ∧ d.state.mySecretShares = some m ∧
    (d.finish = .error f ↔ (f = .err (.custom "The indexs of a participant cannot be 0.") ∧ 0 ∈ m.keys) ∨
      (f = .err .indexIsZero ∧ 0 ∉ m.keys ∧ 0 ∈ comms.keys)) := by
  obtain ⟨P, co, x, h0, d1, h1, E, h2, d2, h3, s, key, _⟩ := C36_honest_dkg lawful true ⟨3, 2⟩ (by decide)
    (by decide) [1, 2, 3] (by decide) (by decide) rfl (fun _ => [1, 2, 3]) (fun _ => [3, 1, 2])
    (fun _ _ => List.Perm.refl _) (fun _ _ => by decide) (fun _ => 0) (fun _ => 0) (fun _ => 0)
  have hr : ReachTwo suite true ([1, 2, 3].map P) ([3, 1, 2].map fun l => E l 1) (d2 1) :=
    .round _ _ _ _ _ _ (.bootstrap _ _ _ _ _ _ _ _ (h1 1 (by decide))) (h3 1 (by decide))
  obtain ⟨comms, m, hs, hm⟩ := C95_round_two_sound hr
  exact ⟨_, _, _, comms, m, by simp, hr, hs.comms_eq, hm.shares_eq,
    C116_finish u32_inj hr hs.comms_eq hm.shares_eq f⟩

end Examples

end IceFrost
