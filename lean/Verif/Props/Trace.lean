import Verif.Model.Trace
import Verif.Lemmas.Shares
import Verif.Props.Buffers
import Verif.Props.NonInterference
import Verif.Toy

/-!
# C174: the steps of the code do not depend on secrets

Two runs that differ in their secrets only take the same branches, touch the same positions and call the dependencies with
arguments of the same sizes.
-/

set_option linter.unusedSectionVars false
set_option linter.unusedSimpArgs false

namespace IceFrost

open Traced

namespace Traced

variable {α β : Type}

@[simp] theorem val_pure (a : α) : (pure a : Traced α).val = a := rfl
@[simp] theorem steps_pure (a : α) : (pure a : Traced α).steps = [] := rfl
@[simp] theorem val_bind (x : Traced α) (f : α → Traced β) : (x >>= f).val = (f x.val).val := rfl
@[simp] theorem steps_bind (x : Traced α) (f : α → Traced β) :
    (x >>= f).steps = x.steps ++ (f x.val).steps := rfl
@[simp] theorem val_step (s : Step) : (step s).val = () := rfl
@[simp] theorem steps_step (s : Step) : (step s).steps = [s] := rfl
@[simp] theorem val_test (b : Bool) : (test b).val = b := rfl
@[simp] theorem steps_test (b : Bool) : (test b).steps = [.branch b] := rfl

end Traced

variable {F G R : Type} [Field F] [DecidableEq F] [AddCommGroup G] [Module F G] [DecidableEq G]

/-! ### Without the steps, the functions are those of the model -/

theorem hornerLoopT_val (len : Nat) (term : F) (k : Nat) (cs : List F) (sum : F) :
    (hornerLoopT len term k cs sum).val = hornerLoop len term k cs sum := by
  induction cs generalizing k sum with
  | nil => rfl
  | cons c cs ih =>
    by_cases h : k = len - 1 <;> simp [hornerLoopT, hornerLoop, h, ih]

theorem evaluatePolynomialT_val (s r : U32) (cs : List F) :
    (evaluatePolynomialT s r cs).val = evaluatePolynomial s r cs := by
  simp [evaluatePolynomialT, evaluatePolynomial, hornerLoopT_val]

theorem hornerHidingLoopT_val (len : Nat) (term : F) (k : Nat) (cs : List G) (sum : G) :
    (hornerHidingLoopT len term k cs sum).val = hornerHidingLoop len term k cs sum := by
  induction cs generalizing k sum with
  | nil => rfl
  | cons c cs ih =>
    by_cases h : k = len - 1 <;> simp [hornerHidingLoopT, hornerHidingLoop, h, ih]

theorem verifyT_val (S : Suite F G R) (s : SecretShare F) (c : VssCommitment G) :
    (s.verifyT S c).val = s.verify S c := by
  by_cases h : s.eval • S.gen = hornerHidingLoop c.points.length (u32F F s.receiverIndex) 0 c.points.reverse 0 <;>
    simp [SecretShare.verifyT, SecretShare.verify, VssCommitment.evaluateHiding, hornerHidingLoopT_val, h]

theorem encryptShareT_val (S : Suite F G R) (s : SecretShare F) (ikm : Bytes) (rng : R) :
    (encryptShareT S s ikm rng).val = encryptShare S s ikm rng := by
  unfold encryptShareT encryptShare
  simp only [val_bind, val_step]
  cases S.kdf ikm with
  | none => rfl
  | some key =>
    simp only [val_bind, val_step]
    cases S.aeadEnc key (S.randBytes S.nonceSize rng).1 (S.encF s.eval) <;> rfl

theorem decryptShareT_val (S : Suite F G R) (e : EncShare) (ikm : Bytes) :
    (decryptShareT S e ikm).val = decryptShare S e ikm := by
  unfold decryptShareT decryptShare
  simp only [val_bind, val_step]
  cases S.kdf ikm with
  | none => rfl
  | some key =>
    simp only [val_bind, val_step]
    cases S.aeadDec key e.nonce e.ct with
    | none => rfl
    | some bytes =>
      simp only [val_bind, val_step]
      cases S.decF bytes <;> rfl

theorem nizkProveT_val (S : Suite F G R) (i : U32) (x : F) (X : G) (rng : R) :
    (nizkProveT S i x X rng).val = nizkProve S i x X rng := rfl

theorem complaintNewT_val (S : Suite F G R) (pk : G) (x : F) (k : G) (e : EncShare) (rng : R) :
    (Complaint.newT S pk x k e rng).val = Complaint.new S pk x k e rng := rfl

theorem randScalarsT_val (S : Suite F G R) (k : Nat) (rng : R) : (randScalarsT S k rng).val = randScalars S k rng := by
  induction k generalizing rng with
  | zero => rfl
  | succ k ih => simp [randScalarsT, randScalars, ih]

theorem commitLoopT_val (S : Suite F G R) (cs : List F) (j k : Nat) :
    (commitLoopT S cs j k).val = commitLoop S cs j k := by
  induction k generalizing j with
  | zero => rfl
  | succ k ih =>
    unfold commitLoopT commitLoop
    simp only [val_bind, val_step]
    cases cs[j]? with
    | none => rfl
    | some a =>
      simp only [val_bind, val_step, ih]
      cases commitLoop S cs (j + 1) k <;> rfl

theorem newInternalT_val (S : Suite F G R) (p : Params) (b : Bool) (i : U32) (sk : Option F) (rng : R) :
    (newInternalT S p b i sk rng).val = newInternal S p b i sk rng := by
  unfold newInternalT newInternal
  by_cases hi : i = 0
  · simp [hi]
  · cases b with
    | true => simp [hi, nizkProveT_val]
    | false =>
      have hf : ∀ rng, (firstCoefficientT S sk rng).val = match sk with
          | some sk => (sk, rng)
          | none => S.randScalar rng := by
        intro rng; cases sk <;> rfl
      simp only [val_bind, val_test, val_step, hi, decide_false, Bool.false_eq_true, if_false, nizkProveT_val, hf,
        randScalarsT_val, commitLoopT_val]
      cases commitLoop S _ 0 p.t.toNat with
      | error f => rfl
      | ok points =>
        simp only
        cases (VssCommitment.publicKey ⟨i, points⟩ : Option G) with
        | none => rfl
        | some pk => cases sk <;> rfl

theorem dealSharesT_val (S : Suite F G R) (x : F) (i : U32) (cs : Option (List F)) (ps : List (Participant F G))
    (m : BMap EncShare) (rng : R) : (dealSharesT S x i cs ps m rng).val = dealShares S x i cs ps m rng := by
  induction ps generalizing m rng with
  | nil => rfl
  | cons p ps ih =>
    unfold dealSharesT dealShares
    cases cs with
    | none => rfl
    | some cs =>
      simp only [val_bind, val_step, evaluatePolynomialT_val, encryptShareT_val]
      cases encryptShare S (evaluatePolynomial i p.index cs) (S.encG (x • p.dhPublicKey)) rng with
      | error e => rfl
      | ok r => simpa using ih _ _

theorem badShareT_val (S : Suite F G R) (d : Out F G (SecretShare F)) (c : VssCommitment G) :
    (badShareT S d c).val = match d with
      | .error _ => true
      | .ok share => match share.verify S c with
        | .error _ => true
        | .ok () => false := by
  cases d with
  | error e => rfl
  | ok s =>
    simp only [badShareT, val_bind, val_step, verifyT_val]
    cases s.verify S c <;> rfl

theorem complaintLoopT_val (S : Suite F G R) (pk : G) (x : F) (k : G) (e : EncShare) (d : Out F G (SecretShare F))
    (comms : List (U32 × VssCommitment G)) (cs : List (Complaint F G)) (rng : R) :
    (complaintLoopT S pk x k e d comms cs rng).val = complaintLoop S pk x k e d comms cs rng := by
  induction comms with
  | nil => rfl
  | cons a comms ih =>
    obtain ⟨i, c⟩ := a
    unfold complaintLoopT complaintLoop
    by_cases hi : i = e.senderIndex
    · cases d with
      | error f => simp [badShareT, complaintNewT_val, hi]
      | ok s => cases hv : s.verify S c with
        | error f => simp [badShareT, verifyT_val, complaintNewT_val, hi, hv]
        | ok u => simp [badShareT, verifyT_val, hi, hv, ih]
    · simp [hi, ih]

theorem keepShareT_val (d : Out F G (SecretShare F)) (m : BMap (SecretShare F)) :
    (keepShareT d m).val = match d with
      | .ok share => m.insert share.senderIndex share
      | .error _ => m := by
  cases d <;> rfl

theorem roundTwoLoopT_val (S : Suite F G R) (dbg : Bool) (st : DkgState F G) (es : List EncShare)
    (m : BMap (SecretShare F)) (cs : List (Complaint F G)) (rng : R) :
    (roundTwoLoopT S dbg st es m cs rng).val = roundTwoLoop S dbg st es m cs rng := by
  induction es generalizing m cs rng with
  | nil => rfl
  | cons e es ih =>
    unfold roundTwoLoopT roundTwoLoop
    cases hb : dbg && e.receiverIndex != st.index with
    | true => simp [hb]
    | false =>
      simp only [val_bind, val_step, val_test, hb, Bool.false_eq_true, if_false]
      cases st.theirDhPublicKeys.get? e.senderIndex with
      | none => rfl
      | some pk =>
        simp only [val_bind, val_step]
        cases st.theirCommitments with
        | none => rfl
        | some comms =>
          simp only [val_bind, val_step, decryptShareT_val, complaintLoopT_val, keepShareT_val]
          exact ih _ _ _

theorem signingKeyLoopT_val (indices : List U32) (shares : List (U32 × SecretShare F)) (key : F) :
    (signingKeyLoopT (G := G) indices shares key).val = signingKeyLoop indices shares key := by
  induction shares generalizing key with
  | nil => rfl
  | cons a shares ih =>
    obtain ⟨i, s⟩ := a
    unfold signingKeyLoopT signingKeyLoop
    simp only [val_bind, val_step]
    cases lagrangeCoeff (F := F) (G := G) i indices with
    | error e => rfl
    | ok c => simp [ih]

theorem nonceGenerateT_val (S : Suite F G R) (sk : IndividualSigningKey F) (rng : R) :
    (nonceGenerateT S sk rng).val = nonceGenerate S sk rng := rfl

theorem newCommitmentShareT_val (S : Suite F G R) (sk : IndividualSigningKey F) (rng : R) :
    (newCommitmentShareT S sk rng).val = newCommitmentShare S sk rng := rfl

theorem commitmentSharesT_val (S : Suite F G R) (sk : IndividualSigningKey F) (k : Nat) (rng : R) :
    (commitmentSharesT S sk k rng).val = commitmentShares S sk k rng := by
  induction k generalizing rng with
  | zero => rfl
  | succ k ih => simp [commitmentSharesT, commitmentShares, ih, newCommitmentShareT_val]

theorem eqT_val (c c' : CommitmentShare F G) : (c.eqT c').val = decide (c = c') := by
  obtain ⟨⟨a, b⟩, ⟨d, e⟩⟩ := c
  obtain ⟨⟨a', b'⟩, ⟨d', e'⟩⟩ := c'
  simp [CommitmentShare.eqT, Commitment.eqT, Bool.decide_and, Bool.and_assoc, beq_eq_decide]

theorem lastIndexLoopT_val (s : CommitmentShare F G) (i : Nat) (l : List (CommitmentShare F G)) (o : Option Nat) :
    (lastIndexLoopT s i l o).val = lastIndexLoop s i l o := by
  induction l generalizing i o with
  | nil => rfl
  | cons c l ih =>
    by_cases h : c = s <;> simp [lastIndexLoopT, lastIndexLoop, eqT_val, h, ih]

theorem dropShareT_val (l : List (CommitmentShare F G)) (s : CommitmentShare F G) :
    (dropShareT l s).val = dropShare l s := by
  unfold dropShareT dropShare
  simp only [val_bind, lastIndexLoopT_val]
  cases lastIndexLoop s 0 l none <;> rfl

theorem signT_val (S : Suite F G R) (dbg : Bool) (sk : IndividualSigningKey F) (msg : Bytes) (Y : G)
    (l : List (CommitmentShare F G)) (i : UInt64) (signers : List (Signer G)) :
    (signT S dbg sk msg Y l i signers).val = sign S dbg sk msg Y l i signers := by
  unfold signT sign signCore
  cases hb : dbg && i == UInt64.ofNat (2 ^ 64 - 1) with
  | true => simp [hb]
  | false =>
    simp only [val_bind, val_test, hb, Bool.false_eq_true, if_false]
    by_cases hl : (i + 1).toNat > l.length
    · simp only [val_bind, val_test, hl, decide_true, if_true, val_pure]
    · simp only [val_bind, val_test, hl, decide_false, Bool.false_eq_true, if_false]
      cases computeBindingFactors S msg signers with
      | error f => rfl
      | ok factors =>
        simp only [val_bind, val_step]
        cases bindingFactorFor (G := G) sk.index factors with
        | error f => rfl
        | ok factor =>
          simp only [val_bind, val_step]
          cases computeGroupCommitment factors signers 0 with
          | error f => rfl
          | ok gc =>
            simp only [val_bind, val_step]
            cases lagrangeCoeff (F := F) (G := G) sk.index (signers.map (·.participantIndex)) with
            | error f => rfl
            | ok lam =>
              simp only [val_bind, val_step]
              cases l[i.toNat]? with
              | none => rfl
              | some share => simp [dropShareT_val]

/-! ### Same steps -/

theorem hornerLoopT_steps (len : Nat) (x x' : F) (k : Nat) (cs cs' : List F) (h : cs.length = cs'.length) (s s' : F) :
    (hornerLoopT len x k cs s).steps = (hornerLoopT len x' k cs' s').steps := by
  induction cs generalizing k cs' s s' with
  | nil =>
    cases cs' with
    | nil => rfl
    | cons c cs' => simp at h
  | cons c cs ih =>
    cases cs' with
    | nil => simp at h
    | cons c' cs' =>
      have h' : cs.length = cs'.length := by simpa using h
      by_cases hk : k = len - 1 <;> simp [hornerLoopT, hk] <;> exact ih _ _ h' _ _

theorem hornerHidingLoopT_steps (len : Nat) (x x' : F) (k : Nat) (cs cs' : List G) (h : cs.length = cs'.length)
    (s s' : G) : (hornerHidingLoopT len x k cs s).steps = (hornerHidingLoopT len x' k cs' s').steps := by
  induction cs generalizing k cs' s s' with
  | nil =>
    cases cs' with
    | nil => rfl
    | cons c cs' => simp at h
  | cons c cs ih =>
    cases cs' with
    | nil => simp at h
    | cons c' cs' =>
      have h' : cs.length = cs'.length := by simpa using h
      by_cases hk : k = len - 1 <;> simp [hornerHidingLoopT, hk] <;> exact ih _ _ h' _ _

theorem evaluatePolynomialT_steps (i j i' j' : U32) (cs cs' : List F) (h : cs.length = cs'.length) :
    (evaluatePolynomialT i j cs).steps = (evaluatePolynomialT i' j' cs').steps := by
  simp only [evaluatePolynomialT, steps_bind, steps_pure, List.append_nil, h]
  exact hornerLoopT_steps _ _ _ _ _ _ (by simpa using h) _ _

theorem verifyT_steps (S : Suite F G R) (s s' : SecretShare F) (c c' : VssCommitment G)
    (hl : c.points.length = c'.points.length)
    (h : s.eval • S.gen = Spec.pointEval c.points (s.receiverIndex.toNat : F) ↔
      s'.eval • S.gen = Spec.pointEval c'.points (s'.receiverIndex.toNat : F)) :
    (s.verifyT S c).steps = (s'.verifyT S c').steps := by
  have e : ∀ (s : SecretShare F) (c : VssCommitment G),
      hornerHidingLoop c.points.length (u32F F s.receiverIndex) 0 c.points.reverse 0 =
        Spec.pointEval c.points (s.receiverIndex.toNat : F) := fun s c => evaluateHiding_eq c _
  simp only [SecretShare.verifyT, steps_bind, steps_step, steps_test, hornerHidingLoopT_val, val_test, e]
  have hh := hornerHidingLoopT_steps c.points.length (u32F F s.receiverIndex) (u32F F s'.receiverIndex) 0
    c.points.reverse c'.points.reverse (by simpa using hl) (0 : G) 0
  rw [hh, hl]
  by_cases hs : s.eval • S.gen = Spec.pointEval c.points (s.receiverIndex.toNat : F)
  · simp [hs, h.mp hs]
  · have hs' : ¬ s'.eval • S.gen = Spec.pointEval c'.points (s'.receiverIndex.toNat : F) := fun h' => hs (h.mpr h')
    simp [hs, hs']

theorem encryptShareT_ok {S : Suite F G R} (hS : S.CipherLaws) (s : SecretShare F) (ikm : Bytes) (rng : R) :
    ∃ r, (encryptShareT S s ikm rng).val = .ok r := by
  obtain ⟨key, hk⟩ := hS.kdf_ok ikm
  obtain ⟨ct, hct, -⟩ := hS.aead_ok ikm key (S.randBytes S.nonceSize rng).1 (S.encF s.eval) hk
    (hS.randBytes_length _ _)
  exact ⟨_, by rw [encryptShareT_val]; simp only [encryptShare, hk, hct]; rfl⟩

theorem encryptShareT_steps {S : Suite F G R} (hC : S.CodecLaws) (hS : S.CipherLaws) (s s' : SecretShare F)
    (ikm ikm' : Bytes) (h : ikm.length = ikm'.length) (rng rng' : R) :
    (encryptShareT S s ikm rng).steps = (encryptShareT S s' ikm' rng').steps := by
  have a : ∀ (s : SecretShare F) (ikm : Bytes) (rng : R), (encryptShareT S s ikm rng).steps =
      [.kdf ikm.length, .branch false, .drawBytes S.nonceSize, .sealBytes S.nonceSize S.sizeF, .branch false] := by
    intro s ikm rng
    obtain ⟨key, hk⟩ := hS.kdf_ok ikm
    obtain ⟨ct, hct, -⟩ := hS.aead_ok ikm key (S.randBytes S.nonceSize rng).1 (S.encF s.eval) hk
      (hS.randBytes_length _ _)
    simp [encryptShareT, hk, hct, hC.encF_length, hS.randBytes_length]
  rw [a, a, h]

theorem nizkProveT_steps {S : Suite F G R} (hC : S.CodecLaws) (i i' : U32) (x x' : F) (X X' : G) (rng rng' : R) :
    (nizkProveT S i x X rng).steps = (nizkProveT S i' x' X' rng').steps := by
  simp [nizkProveT, nizkMessage, hC.encG_length]

theorem randScalarsT_steps (S : Suite F G R) (k : Nat) (rng rng' : R) :
    (randScalarsT S k rng).steps = (randScalarsT S k rng').steps := by
  induction k generalizing rng rng' with
  | zero => rfl
  | succ k ih => simpa [randScalarsT] using ih _ _

theorem commitLoopT_steps (S : Suite F G R) (cs cs' : List F) (h : cs.length = cs'.length) (j k : Nat) :
    (commitLoopT S cs j k).steps = (commitLoopT S cs' j k).steps ∧
    ((∃ f, (commitLoopT S cs j k).val = .error f ∧ (commitLoopT S cs' j k).val = .error f) ∨
      ∃ ps ps', (commitLoopT S cs j k).val = .ok ps ∧ (commitLoopT S cs' j k).val = .ok ps' ∧
        ps.length = ps'.length) := by
  induction k generalizing j with
  | zero => exact ⟨rfl, .inr ⟨[], [], rfl, rfl, rfl⟩⟩
  | succ k ih =>
    obtain ⟨h1, h2⟩ := ih (j + 1)
    by_cases hj : j < cs.length
    · have e1 : cs[j]? = some cs[j] := List.getElem?_eq_getElem hj
      have e2 : cs'[j]? = some (cs'[j]'(h ▸ hj)) := List.getElem?_eq_getElem (h ▸ hj)
      simp only [commitLoopT, steps_bind, val_bind, e1, e2, steps_step, h1]
      rcases h2 with ⟨f, a, b⟩ | ⟨ps, ps', a, b, c⟩
      · simp [a, b]
      · simp [a, b, c]
    · have e1 : cs[j]? = none := List.getElem?_eq_none (Nat.le_of_not_lt hj)
      have e2 : cs'[j]? = none := List.getElem?_eq_none (Nat.le_of_not_lt (h ▸ hj))
      constructor
      · simp only [commitLoopT, steps_bind, e1, e2]
      · exact .inl ⟨.panic .outOfBounds, by simp only [commitLoopT, val_bind, e1, val_pure],
          by simp only [commitLoopT, val_bind, e2, val_pure]⟩

/-- Creating a participant takes the same steps whatever is drawn, and whatever key is shared again. -/
theorem C174_new_participant {S : Suite F G R} (hC : S.CodecLaws) (p : Params) (signer : Bool) (i : U32)
    (sk sk' : Option F) (h : sk.isSome = sk'.isSome) (rng rng' : R) :
    (newInternalT S p signer i sk rng).steps = (newInternalT S p signer i sk' rng').steps := by
  unfold newInternalT
  by_cases hi : i = 0
  · simp [hi]
  · have hf : ∀ rng rng', (firstCoefficientT S sk rng).steps = (firstCoefficientT S sk' rng').steps := by
      intro rng rng'
      cases sk <;> cases sk' <;> first | rfl | simp at h
    cases signer with
    | true =>
      simp only [steps_bind, steps_test, steps_step, val_test, hi, decide_false, Bool.false_eq_true, if_false, if_true,
        steps_pure]
      rw [nizkProveT_steps hC]
    | false =>
      simp only [steps_bind, steps_test, steps_step, val_test, hi, decide_false, Bool.false_eq_true, if_false,
        steps_pure, randScalarsT_val]
      refine congrArg₂ _ rfl (congrArg₂ _ rfl (congrArg₂ _ rfl (congrArg₂ _ (nizkProveT_steps hC _ _ _ _ _ _ _ _)
        (congrArg₂ _ rfl (congrArg₂ _ (hf _ _) (congrArg₂ _ (randScalarsT_steps S _ _ _) ?_))))))
      obtain ⟨h1, h2⟩ := commitLoopT_steps S
        ((firstCoefficientT S sk (nizkProveT S i (S.randScalar rng).1 ((S.randScalar rng).1 • S.gen)
          (S.randScalar rng).2).val.2).val.1 ::
          (randScalars S (p.t.toNat - 1) (firstCoefficientT S sk (nizkProveT S i (S.randScalar rng).1
            ((S.randScalar rng).1 • S.gen) (S.randScalar rng).2).val.2).val.2).1)
        ((firstCoefficientT S sk' (nizkProveT S i (S.randScalar rng').1 ((S.randScalar rng').1 • S.gen)
          (S.randScalar rng').2).val.2).val.1 ::
          (randScalars S (p.t.toNat - 1) (firstCoefficientT S sk' (nizkProveT S i (S.randScalar rng').1
            ((S.randScalar rng').1 • S.gen) (S.randScalar rng').2).val.2).val.2).1)
        (by simp [randScalars_length]) 0 p.t.toNat
      refine congrArg₂ _ h1 ?_
      rcases h2 with ⟨f, a, b⟩ | ⟨ps, ps', a, b, c⟩
      · simp [a, b]
      · simp only [a, b]
        cases ps with
        | nil =>
          cases ps' with
          | nil => rfl
          | cons q ps' => simp at c
        | cons q ps =>
          cases ps' with
          | nil => simp at c
          | cons q' ps' =>
            simp only [VssCommitment.publicKey, List.head?_cons, steps_bind, steps_step, steps_pure]
            rw [nizkProveT_steps hC]

/-- Encrypting the shares takes the same steps for all keys and all polynomials of the same degree. -/
theorem C174_deal_shares {S : Suite F G R} (hC : S.CodecLaws) (hS : S.CipherLaws) (x x' : F) (i : U32)
    (cs cs' : List F) (h : cs.length = cs'.length) (ps : List (Participant F G)) (m m' : BMap EncShare) (rng rng' : R) :
    (dealSharesT S x i (some cs) ps m rng).steps = (dealSharesT S x' i (some cs') ps m' rng').steps := by
  induction ps generalizing m m' rng rng' with
  | nil => rfl
  | cons p ps ih =>
    obtain ⟨r, hr⟩ := encryptShareT_ok hS (evaluatePolynomialT i p.index cs).val (S.encG (x • p.dhPublicKey)) rng
    obtain ⟨r', hr'⟩ := encryptShareT_ok hS (evaluatePolynomialT i p.index cs').val (S.encG (x' • p.dhPublicKey)) rng'
    simp only [dealSharesT, steps_bind, steps_step, hr, hr']
    rw [evaluatePolynomialT_steps i p.index i p.index cs cs' h, ih _ (m'.insert p.index r'.1) r.2 r'.2,
      encryptShareT_steps hC hS (evaluatePolynomialT i p.index cs).val (evaluatePolynomialT i p.index cs').val _
        (S.encG (x' • p.dhPublicKey)) (by simp [hC.encG_length]) rng rng']

/-- Computing the signing key takes the same steps for all shares from the same senders. -/
theorem C174_signing_key (indices : List U32) (shares shares' : List (U32 × SecretShare F))
    (h : shares.map Prod.fst = shares'.map Prod.fst) (key key' : F) :
    (signingKeyLoopT (G := G) indices shares key).steps = (signingKeyLoopT (G := G) indices shares' key').steps := by
  induction shares generalizing shares' key key' with
  | nil =>
    cases shares' with
    | nil => rfl
    | cons a s => simp at h
  | cons a shares ih =>
    cases shares' with
    | nil => simp at h
    | cons a' shares' =>
      obtain ⟨i, s⟩ := a
      obtain ⟨i', s'⟩ := a'
      simp only [List.map_cons, List.cons.injEq] at h
      obtain ⟨rfl, h⟩ := h
      simp only [signingKeyLoopT, steps_bind, steps_step]
      cases lagrangeCoeff (F := F) (G := G) i indices with
      | error e => rfl
      | ok c =>
        simp only [steps_bind, steps_step, steps_pure]
        rw [ih _ h]

/-- Generating nonces takes the same steps for all signing keys and all random bytes. -/
theorem C174_nonces {S : Suite F G R} (hC : S.CodecLaws) (hS : S.CipherLaws) (sk sk' : IndividualSigningKey F) (k : Nat)
    (rng rng' : R) : (commitmentSharesT S sk k rng).steps = (commitmentSharesT S sk' k rng').steps := by
  have hn : ∀ (sk : IndividualSigningKey F) (rng : R), (nonceGenerateT S sk rng).steps =
      [.drawBytes S.hashLen, .hash (S.hashLen + (4 + S.sizeF))] := by
    intro sk rng
    have h4 : ((signingKeyCodec S).enc sk).length = 4 + S.sizeF := by
      show (Codec.u32.enc sk.index ++ S.encF sk.key).length = _
      rw [List.length_append, show (Codec.u32.enc sk.index).length = 4 from leBytes_length 4 _, hC.encF_length]
    simp [nonceGenerateT, hS.randBytes_length, h4]
  induction k generalizing rng rng' with
  | zero => rfl
  | succ k ih =>
    simp only [commitmentSharesT, newCommitmentShareT, steps_bind, steps_step, steps_pure, hn]
    rw [ih]

/-- Comparing commitment shares takes the same steps whatever is compared. -/
theorem C174_equality (a b c d : CommitmentShare F G) : (a.eqT b).steps = (c.eqT d).steps := rfl

theorem eqT_steps (a b : CommitmentShare F G) : (a.eqT b).steps =
    [.fieldEq, .intoAffine, .intoAffine, .groupEq, .fieldEq, .intoAffine, .intoAffine, .groupEq] := rfl

theorem lastIndexLoopT_steps (s s' : CommitmentShare F G) (i : Nat) (l l' : List (CommitmentShare F G))
    (o : Option Nat) : (lastIndexLoopT s i l o).steps = (lastIndexLoopT s' i l' o).steps ↔
      l.map (fun c => decide (c = s)) = l'.map (fun c => decide (c = s')) := by
  have any : ∀ (s : CommitmentShare F G) (i : Nat) (l : List (CommitmentShare F G)) (o : Option Nat),
      (lastIndexLoopT s i l o).steps = (l.map fun c => decide (c = s)).flatMap (fun b =>
        [.branch true, .fieldEq, .intoAffine, .intoAffine, .groupEq, .fieldEq, .intoAffine, .intoAffine, .groupEq,
          .branch b]) ++ [.branch false] := by
    intro s i l o
    induction l generalizing i o with
    | nil => rfl
    | cons c l ih =>
      by_cases hc : c = s <;> simp [lastIndexLoopT, eqT_val, hc, ih, eqT_steps]
  rw [any, any]
  generalize l.map (fun c => decide (c = s)) = p
  generalize l'.map (fun c => decide (c = s')) = p'
  constructor
  · intro h
    induction p generalizing p' with
    | nil => cases p' with
      | nil => rfl
      | cons b p' => simp at h
    | cons b p ih => cases p' with
      | nil => simp at h
      | cons b' p' =>
        simp only [List.flatMap_cons, List.cons_append, List.nil_append, List.append_assoc, List.cons.injEq,
          Step.branch.injEq, true_and] at h
        rw [h.1, ih _ h.2]
  · rintro rfl; rfl

theorem lastIndexLoop_congr (s s' : CommitmentShare F G) (i : Nat) (l l' : List (CommitmentShare F G)) (o : Option Nat)
    (h : l.map (fun c => decide (c = s)) = l'.map (fun c => decide (c = s'))) :
    lastIndexLoop s i l o = lastIndexLoop s' i l' o := by
  induction l generalizing i l' o with
  | nil => cases l' with
    | nil => rfl
    | cons b l' => simp at h
  | cons b l ih => cases l' with
    | nil => simp at h
    | cons b' l' =>
      simp only [List.map_cons, List.cons.injEq] at h
      have hb : (b = s) = (b' = s') := by simpa using h.1
      simp only [lastIndexLoop, hb]
      exact ih _ _ _ h.2

/-- Dropping a used share tells exactly at which positions of the list a share equal to it stands. -/
theorem C174_drop_share (l l' : List (CommitmentShare F G)) (s s' : CommitmentShare F G) :
    (dropShareT l s).steps = (dropShareT l' s').steps ↔
      l.map (fun c => decide (c = s)) = l'.map (fun c => decide (c = s')) := by
  constructor
  · intro h
    refine (lastIndexLoopT_steps s s' 0 l l' none).mp ?_
    have any : ∀ (s : CommitmentShare F G) (i : Nat) (l : List (CommitmentShare F G)) (o : Option Nat),
        (lastIndexLoopT s i l o).steps.length = 10 * l.length + 1 := by
      intro s i l o
      induction l generalizing i o with
      | nil => rfl
      | cons c l ih =>
        by_cases hc : c = s <;> simp [lastIndexLoopT, eqT_val, hc, ih, eqT_steps] <;> omega
    have hv : ∀ (l : List (CommitmentShare F G)) (s : CommitmentShare F G), ∃ t, t.length ≤ 2 ∧
        (dropShareT l s).steps = (lastIndexLoopT s 0 l none).steps ++ t := by
      intro l s
      simp only [dropShareT, steps_bind]
      cases (lastIndexLoopT s 0 l none).val with
      | none => exact ⟨[.branch false], by simp, rfl⟩
      | some i => exact ⟨[.branch true, .position i], by simp, rfl⟩
    obtain ⟨t, ht, et⟩ := hv l s
    obtain ⟨t', ht', et'⟩ := hv l' s'
    rw [et, et'] at h
    have hl : l.length = l'.length := by
      have := congrArg List.length h
      simp only [List.length_append, any] at this
      omega
    exact (List.append_inj h (by rw [any, any, hl])).1
  · intro h
    simp only [dropShareT, steps_bind, (lastIndexLoopT_steps s s' 0 l l' none).mpr h, lastIndexLoopT_val,
      lastIndexLoop_congr s s' 0 l l' none h]
    cases lastIndexLoop s' 0 l' none <;> rfl

/-- In a list without repetition, that is the length of the list and the position of the share. -/
theorem C174_drop_position (l l' : List (CommitmentShare F G)) (hn : l.Nodup) (hn' : l'.Nodup)
    (hl : l.length = l'.length) (i : Nat) (hi : i < l.length) :
    (dropShareT l l[i]).steps = (dropShareT l' (l'[i]'(hl ▸ hi))).steps := by
  rw [C174_drop_share]
  refine List.ext_getElem (by simpa using hl) ?_
  intro j h1 h2
  simp only [List.getElem_map, decide_eq_decide]
  rw [hn.getElem_inj_iff, hn'.getElem_inj_iff]

/-- Signing takes the same steps for all signing keys and all nonces, apart from what dropping the used nonces tells. -/
theorem C174_sign (S : Suite F G R) (dbg : Bool) (sk sk' : IndividualSigningKey F) (hk : sk.index = sk'.index)
    (msg : Bytes) (Y : G) (l l' : List (CommitmentShare F G)) (i : UInt64) (signers : List (Signer G))
    (hl : l.length = l'.length)
    (hp : ∀ (h : i.toNat < l.length) (h' : i.toNat < l'.length),
      l.map (fun c => decide (c = l[i.toNat])) = l'.map (fun c => decide (c = l'[i.toNat]))) :
    (signT S dbg sk msg Y l i signers).steps = (signT S dbg sk' msg Y l' i signers).steps := by
  unfold signT
  cases hb : dbg && i == UInt64.ofNat (2 ^ 64 - 1) with
  | true => simp only [steps_bind, steps_test, val_test, if_true, steps_pure]
  | false =>
    simp only [steps_bind, steps_test, val_test, Bool.false_eq_true, if_false]
    by_cases hg : (i + 1).toNat > l.length
    · have hg' : (i + 1).toNat > l'.length := hl ▸ hg
      simp only [hg, hg', decide_true, if_true, steps_pure]
    · have hg' : ¬ (i + 1).toNat > l'.length := hl ▸ hg
      simp only [hg, hg', decide_false, Bool.false_eq_true, if_false, ← hk]
      cases computeBindingFactors S msg signers with
      | error f => rfl
      | ok factors =>
        simp only [steps_bind, steps_step]
        cases bindingFactorFor (G := G) sk.index factors with
        | error f => rfl
        | ok factor =>
          simp only [steps_bind, steps_step]
          cases computeGroupCommitment factors signers 0 with
          | error f => rfl
          | ok gc =>
            simp only [steps_bind, steps_step]
            cases lagrangeCoeff (F := F) (G := G) sk.index (signers.map (·.participantIndex)) with
            | error f => rfl
            | ok lam =>
              simp only [steps_bind, steps_step]
              by_cases h : i.toNat < l.length
              · have h' : i.toNat < l'.length := hl ▸ h
                simp only [List.getElem?_eq_getElem h, List.getElem?_eq_getElem h', steps_bind, steps_step, steps_pure]
                rw [(C174_drop_share l l' _ _).mpr (hp h h')]
              · have e1 : l[i.toNat]? = none := by simpa using h
                have e2 : l'[i.toNat]? = none := by simpa [← hl] using h
                simp only [e1, e2, steps_pure]

/-! ### Round two -/

/-- The ciphertext does not decrypt under the shared key. -/
def Spec.Unopened (S : Suite F G R) (e : EncShare) (shared : G) : Prop :=
  ∃ key, S.kdf (S.encG shared) = some key ∧ S.aeadDec key e.nonce e.ct = none

/-- The ciphertext decrypts to bytes that are no scalar. -/
def Spec.Garbled (S : Suite F G R) (e : EncShare) (shared : G) : Prop :=
  ∃ key pt, S.kdf (S.encG shared) = some key ∧ S.aeadDec key e.nonce e.ct = some pt ∧ S.decF pt = none

/-- Two shares that look alike: same labels and sizes, and they fail in the same way or open and are both right or both
wrong. Everyone sees this later on, from the complaint. -/
def Spec.AlikeShares (S : Suite F G R) (st st' : DkgState F G) (comms comms' : BMap (VssCommitment G)) (e e' : EncShare) : Prop :=
  e.senderIndex = e'.senderIndex ∧ e.receiverIndex = e'.receiverIndex ∧ e.nonce.length = e'.nonce.length ∧
  e.ct.length = e'.ct.length ∧
  ∀ pk pk', st.theirDhPublicKeys.get? e.senderIndex = some pk → st'.theirDhPublicKeys.get? e'.senderIndex = some pk' →
    (Spec.Unopened S e (st.dhPrivateKey • pk) ∧ Spec.Unopened S e' (st'.dhPrivateKey • pk')) ∨
    (Spec.Garbled S e (st.dhPrivateKey • pk) ∧ Spec.Garbled S e' (st'.dhPrivateKey • pk')) ∨
    ∃ v v' : F, Spec.Opens S e (st.dhPrivateKey • pk) v ∧ Spec.Opens S e' (st'.dhPrivateKey • pk') v' ∧
      ∀ c c', comms.get? e.senderIndex = some c → comms'.get? e'.senderIndex = some c' →
        (v • S.gen = Spec.pointEval c.points (e.receiverIndex.toNat : F) ↔
          v' • S.gen = Spec.pointEval c'.points (e'.receiverIndex.toNat : F))

theorem complaintNewT_steps {S : Suite F G R} (hC : S.CodecLaws) (pk pk' : G) (x x' : F) (k k' : G) (e e' : EncShare)
    (hn : e.nonce.length = e'.nonce.length) (hc : e.ct.length = e'.ct.length) (rng rng' : R) :
    (Complaint.newT S pk x k e rng).steps = (Complaint.newT S pk' x' k' e' rng').steps := by
  have hl : ∀ e : EncShare, ((encShareCodec S).enc e).length =
      4 + (4 + ((8 + e.nonce.length) + (8 + e.ct.length))) := by
    intro e
    have h8 : ∀ l : Bytes, (Codec.vec Codec.u8).size l = 8 + l.length := fun l => by
      simp [Codec.vec, Codec.u8, Codec.iso, Codec.uint]
    rw [encShare_sized S e]
    show 4 + (4 + ((Codec.vec Codec.u8).size e.nonce + (Codec.vec Codec.u8).size e.ct)) = _
    rw [h8, h8]
  simp [Complaint.newT, complaintMessage, hC.encG_length, hl, hn, hc]

/-- How the inner loop of round two relates in two runs. -/
theorem complaintLoopT_steps {S : Suite F G R} (hC : S.CodecLaws) (pk pk' : G) (x x' : F) (k k' : G) (e e' : EncShare)
    (hs : e.senderIndex = e'.senderIndex) (hn : e.nonce.length = e'.nonce.length) (hc : e.ct.length = e'.ct.length)
    (d d' : Out F G (SecretShare F)) (comms comms' : List (U32 × VssCommitment G))
    (h : List.Forall₂ (fun a a' => a.1 = a'.1 ∧ a.2.points.length = a'.2.points.length ∧
      (a.1 = e.senderIndex → (badShareT S d a.2).steps = (badShareT S d' a'.2).steps ∧
        (badShareT S d a.2).val = (badShareT S d' a'.2).val)) comms comms')
    (cs cs' : List (Complaint F G)) (rng rng' : R) :
    (complaintLoopT S pk x k e d comms cs rng).steps = (complaintLoopT S pk' x' k' e' d' comms' cs' rng').steps := by
  induction h with
  | nil => rfl
  | @cons a a' comms comms' ha _ ih =>
    obtain ⟨i, c⟩ := a
    obtain ⟨i', c'⟩ := a'
    obtain ⟨rfl, -, hb⟩ := ha
    simp only [complaintLoopT, steps_bind, steps_step, steps_test, val_test]
    by_cases hi : i = e.senderIndex
    · obtain ⟨hb1, hb2⟩ := hb hi
      simp only at hb1 hb2
      simp only [hi, ← hs, decide_true, if_true, steps_bind, steps_test, val_test, hb1, hb2]
      cases (badShareT S d' c').val with
      | true =>
        simp only [if_true, steps_bind, steps_pure]
        rw [complaintNewT_steps hC pk pk' x x' k k' e e' hn hc rng rng']
      | false => simp only [Bool.false_eq_true, if_false, ih]
    · simp only [hi, ← hs, decide_false, Bool.false_eq_true, if_false, ih]

theorem opens_decryptShare {S : Suite F G R} {e : EncShare} {shared : G} {v : F} (h : Spec.Opens S e shared v) :
    decryptShare (G := G) S e (S.encG shared) = .ok ⟨e.senderIndex, e.receiverIndex, v⟩ ∧
    (decryptShareT (G := G) S e (S.encG shared)).steps = [.kdf (S.encG shared).length, .branch false,
      .openBytes e.nonce.length e.ct.length, .branch false, .decode, .branch false] := by
  obtain ⟨key, pt, rest, h1, h2, h3⟩ := h
  constructor
  · simp only [decryptShare, h1, h2, h3]
  · simp only [decryptShareT, h1, h2, h3, steps_bind, steps_step, steps_pure]
    rfl

/-- Round two takes the same steps for all keys, all shares and all randomness, apart from which shares are good and how
the bad ones fail. -/
theorem C174_round_two {S : Suite F G R} (hC : S.CodecLaws) (dbg : Bool) (st st' : DkgState F G)
    (hi : st.index = st'.index) (hk : st.theirDhPublicKeys.keys = st'.theirDhPublicKeys.keys)
    (comms comms' : BMap (VssCommitment G)) (hc : st.theirCommitments = some comms)
    (hc' : st'.theirCommitments = some comms') (hn : comms.keys.Nodup)
    (hcc : List.Forall₂ (fun a a' => a.1 = a'.1 ∧ a.2.points.length = a'.2.points.length) comms comms')
    (es es' : List EncShare) (h : List.Forall₂ (Spec.AlikeShares S st st' comms comms') es es')
    (m m' : BMap (SecretShare F)) (cs cs' : List (Complaint F G)) (rng rng' : R) :
    (roundTwoLoopT S dbg st es m cs rng).steps = (roundTwoLoopT S dbg st' es' m' cs' rng').steps := by
  have hkeys : comms.keys = comms'.keys := by
    clear hc hc' hn h
    induction hcc with
    | nil => rfl
    | cons ha _ ih => simp only [BMap.keys, List.map_cons] at ih ⊢; rw [ha.1, ih]
  induction h generalizing m m' cs cs' rng rng' with
  | nil => rfl
  | @cons e e' es es' ha _ ih =>
    obtain ⟨h1, h2, h3, h4, h5⟩ := ha
    simp only [roundTwoLoopT, steps_bind, steps_step, steps_test, val_test]
    cases hb : dbg && e.receiverIndex != st.index with
    | true =>
      have hb' : (dbg && e'.receiverIndex != st'.index) = true := by rw [← hi, ← h2]; exact hb
      simp only [hb', if_true, steps_pure]
    | false =>
      have hb' : (dbg && e'.receiverIndex != st'.index) = false := by rw [← hi, ← h2]; exact hb
      simp only [hb', Bool.false_eq_true, if_false, steps_bind, steps_step]
      cases hp : st.theirDhPublicKeys.get? e.senderIndex with
      | none =>
        have hp' : st'.theirDhPublicKeys.get? e'.senderIndex = none := by
          rw [BMap.get?_eq_none] at hp ⊢; rw [← hk, ← h1]; exact hp
        simp only [hp', h1]
      | some pk =>
        obtain ⟨pk', hp'⟩ : ∃ pk', st'.theirDhPublicKeys.get? e'.senderIndex = some pk' :=
          BMap.exists_get? (by rw [← hk, ← h1]; exact BMap.mem_keys_of_get? hp)
        simp only [hp', hc, hc', steps_bind, steps_step, h1]
        suffices hmain :
            (decryptShareT (G := G) S e (S.encG (st.dhPrivateKey • pk))).steps =
              (decryptShareT (G := G) S e' (S.encG (st'.dhPrivateKey • pk'))).steps ∧
            List.Forall₂ (fun a a' => a.1 = a'.1 ∧ a.2.points.length = a'.2.points.length ∧
              (a.1 = e.senderIndex →
                (badShareT S (decryptShareT S e (S.encG (st.dhPrivateKey • pk))).val a.2).steps =
                  (badShareT S (decryptShareT S e' (S.encG (st'.dhPrivateKey • pk'))).val a'.2).steps ∧
                (badShareT S (decryptShareT S e (S.encG (st.dhPrivateKey • pk))).val a.2).val =
                  (badShareT S (decryptShareT S e' (S.encG (st'.dhPrivateKey • pk'))).val a'.2).val)) comms comms' ∧
            (∀ m m', (keepShareT (decryptShareT (G := G) S e (S.encG (st.dhPrivateKey • pk))).val m).steps =
              (keepShareT (decryptShareT (G := G) S e' (S.encG (st'.dhPrivateKey • pk'))).val m').steps) by
          obtain ⟨k1, k2, k3⟩ := hmain
          rw [k1, complaintLoopT_steps hC pk pk' st.dhPrivateKey st'.dhPrivateKey _ _ e e' h1 h3 h4 _ _ _ _ k2 cs cs'
            rng rng', k3 m m']
          exact congrArg₂ _ rfl (congrArg₂ _ rfl (congrArg₂ _ rfl (congrArg₂ _ rfl (congrArg₂ _ rfl (congrArg₂ _ rfl
            (congrArg₂ _ rfl (congrArg₂ _ rfl (ih _ _ _ _ _ _))))))))
        have hmem : ∀ a ∈ comms, a.1 = e.senderIndex → comms.get? e.senderIndex = some a.2 := by
          intro a ha he; rw [← he]; exact BMap.get?_of_mem hn (by simpa using ha)
        have hmem' : ∀ a ∈ comms', a.1 = e'.senderIndex → comms'.get? e'.senderIndex = some a.2 := by
          intro a ha he; rw [← he]; exact BMap.get?_of_mem (hkeys ▸ hn) (by simpa using ha)
        have hfail : ∀ f, decryptShare S e (S.encG (st.dhPrivateKey • pk)) = .error f →
            decryptShare S e' (S.encG (st'.dhPrivateKey • pk')) = .error f →
            List.Forall₂ (fun a a' => a.1 = a'.1 ∧ a.2.points.length = a'.2.points.length ∧
              (a.1 = e.senderIndex →
                (badShareT S (decryptShareT S e (S.encG (st.dhPrivateKey • pk))).val a.2).steps =
                  (badShareT S (decryptShareT S e' (S.encG (st'.dhPrivateKey • pk'))).val a'.2).steps ∧
                (badShareT S (decryptShareT S e (S.encG (st.dhPrivateKey • pk))).val a.2).val =
                  (badShareT S (decryptShareT S e' (S.encG (st'.dhPrivateKey • pk'))).val a'.2).val)) comms comms' ∧
            (∀ m m', (keepShareT (decryptShareT (G := G) S e (S.encG (st.dhPrivateKey • pk))).val m).steps =
              (keepShareT (decryptShareT (G := G) S e' (S.encG (st'.dhPrivateKey • pk'))).val m').steps) := by
          intro f a b
          simp only [decryptShareT_val, a, b]
          exact ⟨hcc.imp fun x y hxy => ⟨hxy.1, hxy.2, fun _ => ⟨rfl, rfl⟩⟩, fun _ _ => rfl⟩
        rcases h5 pk pk' hp hp' with ⟨⟨ka, a1, a2⟩, ⟨kb, b1, b2⟩⟩ | ⟨⟨ka, pa, a1, a2, a3⟩, ⟨kb, pb, b1, b2, b3⟩⟩ |
          ⟨v, v', o1, o2, hv⟩
        · refine ⟨?_, hfail .decryptionError (by simp only [decryptShare, a1, a2]) (by simp only [decryptShare, b1, b2])⟩
          simp only [decryptShareT, a1, a2, b1, b2, steps_bind, steps_step, hC.encG_length, h3, h4]
        · refine ⟨?_, hfail .decompressionError (by simp only [decryptShare, a1, a2, a3])
            (by simp only [decryptShare, b1, b2, b3])⟩
          simp only [decryptShareT, a1, a2, a3, b1, b2, b3, steps_bind, steps_step, hC.encG_length, h3, h4]
        · obtain ⟨d1, s1⟩ := opens_decryptShare o1
          obtain ⟨d2, s2⟩ := opens_decryptShare o2
          refine ⟨by rw [s1, s2, hC.encG_length, hC.encG_length, h3, h4], ?_, ?_⟩
          · simp only [decryptShareT_val, d1, d2]
            have hin : List.Forall₂ (fun a a' => (a.1 = a'.1 ∧ a.2.points.length = a'.2.points.length) ∧
                a ∈ comms ∧ a' ∈ comms') comms comms' := by
              rw [List.forall₂_iff_get] at hcc ⊢
              exact ⟨hcc.1, fun i q q' => ⟨hcc.2 i q q', List.get_mem _ _, List.get_mem _ _⟩⟩
            refine hin.imp fun a a' hx => ⟨hx.1.1, hx.1.2, fun he => ?_⟩
            have hiff := hv a.2 a'.2 (hmem a hx.2.1 he) (hmem' a' hx.2.2 (by rw [← hx.1.1, he, h1]))
            constructor
            · simp only [badShareT, steps_bind, steps_step, verifyT_val]
              rw [verifyT_steps S ⟨e.senderIndex, e.receiverIndex, v⟩ ⟨e'.senderIndex, e'.receiverIndex, v'⟩ a.2 a'.2
                hx.1.2 hiff]
              cases SecretShare.verify S ⟨e.senderIndex, e.receiverIndex, v⟩ a.2 <;>
                cases SecretShare.verify S ⟨e'.senderIndex, e'.receiverIndex, v'⟩ a'.2 <;> rfl
            · simp only [badShareT_val, SecretShare.verify, evaluateHiding_eq, u32F]
              by_cases hg : v • S.gen = Spec.pointEval a.2.points (e.receiverIndex.toNat : F)
              · rw [if_pos hg, if_pos (hiff.mp hg)]
              · rw [if_neg hg, if_neg fun q => hg (hiff.mpr q)]
          · intro m m'
            simp only [decryptShareT_val, d1, d2, keepShareT, steps_bind, steps_step, steps_pure, h1]

/-- If all shares are good in both runs, nothing else matters. -/
theorem C174_round_two_good {S : Suite F G R} (hC : S.CodecLaws) (dbg : Bool) (st st' : DkgState F G)
    (hi : st.index = st'.index) (hk : st.theirDhPublicKeys.keys = st'.theirDhPublicKeys.keys)
    (comms comms' : BMap (VssCommitment G)) (hc : st.theirCommitments = some comms)
    (hc' : st'.theirCommitments = some comms') (hn : comms.keys.Nodup)
    (hcc : List.Forall₂ (fun a a' => a.1 = a'.1 ∧ a.2.points.length = a'.2.points.length) comms comms')
    (es es' : List EncShare)
    (h : List.Forall₂ (fun e e' => e.senderIndex = e'.senderIndex ∧ e.receiverIndex = e'.receiverIndex ∧
      e.nonce.length = e'.nonce.length ∧ e.ct.length = e'.ct.length) es es')
    (hg : ∀ e ∈ es, ∃ pk c, st.theirDhPublicKeys.get? e.senderIndex = some pk ∧ comms.get? e.senderIndex = some c ∧
      Spec.GoodShare S (st.dhPrivateKey • pk) c.points e)
    (hg' : ∀ e ∈ es', ∃ pk c, st'.theirDhPublicKeys.get? e.senderIndex = some pk ∧ comms'.get? e.senderIndex = some c ∧
      Spec.GoodShare S (st'.dhPrivateKey • pk) c.points e)
    (m m' : BMap (SecretShare F)) (cs cs' : List (Complaint F G)) (rng rng' : R) :
    (roundTwoLoopT S dbg st es m cs rng).steps = (roundTwoLoopT S dbg st' es' m' cs' rng').steps := by
  refine C174_round_two hC dbg st st' hi hk comms comms' hc hc' hn hcc es es' ?_ m m' cs cs' rng rng'
  rw [List.forall₂_iff_get] at h ⊢
  refine ⟨h.1, fun i q q' => ?_⟩
  obtain ⟨h1, h2, h3, h4⟩ := h.2 i q q'
  refine ⟨h1, h2, h3, h4, fun pk pk' hp hp' => .inr (.inr ?_)⟩
  obtain ⟨pk1, c1, a1, a2, v, a3, a4⟩ := hg _ (List.get_mem es ⟨i, q⟩)
  obtain ⟨pk2, c2, b1, b2, v', b3, b4⟩ := hg' _ (List.get_mem es' ⟨i, q'⟩)
  rw [hp] at a1; rw [hp'] at b1
  cases a1; cases b1
  refine ⟨v, v', a3, b3, fun c c' hx hx' => ?_⟩
  rw [a2] at hx; rw [b2] at hx'
  cases hx; cases hx'
  exact ⟨fun _ => b4, fun _ => a4⟩

/-- What is computed along with the steps is what the model computes. -/
theorem C174_values (S : Suite F G R) (dbg : Bool) :
    (∀ p b i sk rng, (newInternalT S p b i sk rng).val = newInternal S p b i sk rng) ∧
    (∀ x i cs ps m rng, (dealSharesT S x i cs ps m rng).val = dealShares S x i cs ps m rng) ∧
    (∀ st es m cs rng, (roundTwoLoopT S dbg st es m cs rng).val = roundTwoLoop S dbg st es m cs rng) ∧
    (∀ indices shares key, (signingKeyLoopT (F := F) (G := G) indices shares key).val =
      signingKeyLoop indices shares key) ∧
    (∀ sk k rng, (commitmentSharesT S sk k rng).val = commitmentShares S sk k rng) ∧
    (∀ c c' : CommitmentShare F G, (c.eqT c').val = decide (c = c')) ∧
    (∀ (l : List (CommitmentShare F G)) s, (dropShareT l s).val = dropShare l s) ∧
    (∀ sk msg Y l i signers, (signT S dbg sk msg Y l i signers).val = sign S dbg sk msg Y l i signers) :=
  ⟨newInternalT_val S, dealSharesT_val S, roundTwoLoopT_val S dbg, signingKeyLoopT_val, commitmentSharesT_val S, eqT_val,
    dropShareT_val, signT_val S dbg⟩

/-! ### Concrete cases -/

open Toy

example (x x' : Fp) (rng rng' : Nat) := C174_new_participant codec_laws ⟨5, 3⟩ false 2 (some x) (some x') rfl rng rng'
example (rng rng' : Nat) := C174_new_participant codec_laws ⟨5, 3⟩ false 2 none none rfl rng rng'
/-- The steps are not empty: a dealer with threshold 3 takes at least three multiplications for its commitments. -/
example : ((newInternalT suite ⟨5, 3⟩ false 2 none 0).steps.filter (· = .groupMul)).length = 6 := by decide +kernel
/-- Sharing a key again is told apart from dealing a new one, by one random scalar. -/
example : (newInternalT suite ⟨5, 3⟩ false 2 none 0).steps ≠ (newInternalT suite ⟨5, 3⟩ false 2 (some 7) 0).steps := by
  decide +kernel
example (x x' a b a' b' : Fp) := C174_deal_shares codec_laws cipher_laws x x' 1 [a, b] [a', b'] rfl
  [⟨1, 5, none, none, ⟨1, 1⟩⟩, ⟨2, 6, none, none, ⟨1, 1⟩⟩] [] [] 0 9
example (s s' : Fp) := C174_signing_key (G := Fp) [1, 2] [(1, ⟨1, 3, s⟩), (2, ⟨2, 3, s⟩)]
  [(1, ⟨1, 3, s'⟩), (2, ⟨2, 3, s' + 1⟩)] rfl 0 0
example (x x' : Fp) (rng rng' : Nat) := C174_nonces codec_laws cipher_laws ⟨3, x⟩ ⟨3, x'⟩ 10 rng rng'
example (x x' : Fp) := C174_sign suite true ⟨3, x⟩ ⟨3, x'⟩ rfl [1] (7 : Fp)
  [⟨⟨1, 1⟩, ⟨2, 2⟩⟩, ⟨⟨5, 5⟩, ⟨6, 6⟩⟩] [⟨⟨3, 3⟩, ⟨4, 4⟩⟩, ⟨⟨3, 3⟩, ⟨5, 5⟩⟩] 0 [⟨3, (1, 2)⟩] rfl (by decide +kernel)
example := C174_drop_position (F := Fp) (G := Fp) [⟨⟨1, 1⟩, ⟨2, 2⟩⟩, ⟨⟨5, 5⟩, ⟨6, 6⟩⟩]
  [⟨⟨3, 3⟩, ⟨4, 4⟩⟩, ⟨⟨3, 3⟩, ⟨5, 5⟩⟩] (by decide +kernel) (by decide +kernel) rfl 1 (by decide)
/-- The position of the dropped share shows, and so does a repetition in the list. -/
example : (dropShareT (F := Fp) (G := Fp) [⟨⟨1, 1⟩, ⟨2, 2⟩⟩, ⟨⟨5, 5⟩, ⟨6, 6⟩⟩] ⟨⟨1, 1⟩, ⟨2, 2⟩⟩).steps ≠
    (dropShareT (F := Fp) (G := Fp) [⟨⟨1, 1⟩, ⟨2, 2⟩⟩, ⟨⟨5, 5⟩, ⟨6, 6⟩⟩] ⟨⟨5, 5⟩, ⟨6, 6⟩⟩).steps := by
  rw [ne_eq, C174_drop_share]; decide +kernel
example : (dropShareT (F := Fp) (G := Fp) [⟨⟨1, 1⟩, ⟨2, 2⟩⟩, ⟨⟨5, 5⟩, ⟨6, 6⟩⟩] ⟨⟨5, 5⟩, ⟨6, 6⟩⟩).steps ≠
    (dropShareT (F := Fp) (G := Fp) [⟨⟨5, 5⟩, ⟨6, 6⟩⟩, ⟨⟨5, 5⟩, ⟨6, 6⟩⟩] ⟨⟨5, 5⟩, ⟨6, 6⟩⟩).steps := by
  rw [ne_eq, C174_drop_share]; decide +kernel

/-- Dealer 1 is honest, dealer 2 sends an empty ciphertext: the secrets of 1 and 3 do not show in the steps. -/
example (x y a b x' y' a' b' : Fp) : ∃ e e', HonestlyDealt suite 1 3 y [a, b] (x • suite.gen) e ∧
    HonestlyDealt suite 1 3 y' [a', b'] (x' • suite.gen) e' ∧ ∀ rng rng',
    (roundTwoLoopT suite true (secretive x y a b).state [e, ⟨2, 3, [], []⟩] [] [] rng).steps =
      (roundTwoLoopT suite true (secretive x' y' a' b').state [e', ⟨2, 3, [], []⟩] [] [] rng').steps := by
  have hon : ∀ x y a b : Fp, ∃ e, HonestlyDealt suite 1 3 y [a, b] (x • suite.gen) e ∧ e.nonce.length = suite.nonceSize ∧
      e.ct.length = suite.sizeG + (suite.nonceSize + suite.sizeF) := by
    intro x y a b
    refine ⟨⟨1, 3, (suite.randBytes suite.nonceSize 0).1, suite.encG (y • (x • suite.gen)) ++
      ((suite.randBytes suite.nonceSize 0).1 ++ suite.encF (evaluatePolynomial (F := Fp) 1 3 [a, b]).eval)⟩,
      ⟨0, (suite.randBytes suite.nonceSize 0).2, by simp [encryptShare, suite, evaluatePolynomial]⟩, ?_, ?_⟩
    · exact cipher_laws.randBytes_length _ _
    · simp [codec_laws.encG_length, codec_laws.encF_length, cipher_laws.randBytes_length]
  have good : ∀ x y a b : Fp, ∀ e, HonestlyDealt suite 1 3 y [a, b] (x • suite.gen) e → e.senderIndex = 1 ∧ e.receiverIndex = 3 ∧
      Spec.GoodShare suite (x • y • suite.gen) [a • suite.gen, b • suite.gen] e := by
    intro x y a b e he
    obtain ⟨h1, h2, h3⟩ := honestlyDealt_opens cipher_laws codec_laws he
    refine ⟨h1, h2, _, by rw [smul_comm]; exact h3, ?_⟩
    rw [h2]
    simp [Spec.polyEval, Spec.pointEval, u32F, Finset.sum_range_succ]
    ring
  obtain ⟨e, he, n1, n2⟩ := hon x y a b
  obtain ⟨e', he', n1', n2'⟩ := hon x' y' a' b'
  obtain ⟨s1, s2, v, s3, s4⟩ := good x y a b e he
  obtain ⟨t1, t2, v', t3, t4⟩ := good x' y' a' b' e' he'
  refine ⟨e, e', he, he', fun rng rng' => ?_⟩
  refine C174_round_two codec_laws true (secretive x y a b).state (secretive x' y' a' b').state rfl rfl _ _ rfl rfl
    (by simp [BMap.keys]) (.cons ⟨rfl, rfl⟩ (.cons ⟨rfl, rfl⟩ .nil)) _ _ (.cons ?_ (.cons ?_ .nil)) _ _ _ _ rng rng'
  · refine ⟨by rw [s1, t1], by rw [s2, t2], by rw [n1, n1'], by rw [n2, n2'], fun pk pk' hp hp' => .inr (.inr ?_)⟩
    rw [s1] at hp; rw [t1] at hp'
    cases hp; cases hp'
    refine ⟨v, v', s3, t3, fun c c' hx hx' => ?_⟩
    rw [s1] at hx; rw [t1] at hx'
    cases hx; cases hx'
    exact ⟨fun _ => t4, fun _ => s4⟩
  · refine ⟨rfl, rfl, rfl, rfl, fun pk pk' hp hp' => .inl ?_⟩
    have hu : ∀ shared : Fp, Spec.Unopened suite ⟨2, 3, [], []⟩ shared := by
      intro shared
      refine ⟨_, rfl, ?_⟩
      have : (suite.encG shared).length = 6 := codec_laws.encG_length shared
      cases hs : suite.encG shared with
      | nil => rw [hs] at this; cases this
      | cons q l => rfl
    exact ⟨hu _, hu _⟩

end IceFrost
