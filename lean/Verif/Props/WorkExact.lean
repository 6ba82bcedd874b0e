import Verif.Props.Work
import Verif.Props.SigningExamples

/-!
# C182: the work of a successful call is fixed by what everybody sees

The bounds of C176 are reached by every successful call: scalar multiplications and hashed bytes of a call that succeeds are
functions of the sizes of its arguments alone.
-/

set_option linter.unusedSectionVars false
set_option linter.unusedSimpArgs false

namespace IceFrost

open Traced Spec

variable {F G R : Type} [Field F] [DecidableEq F] [AddCommGroup G] [Module F G] [DecidableEq G]
variable {α β ε : Type}

/-! ### Exact costs -/

namespace Spec

/-- If its result is `good`, the computation makes `m` multiplications and hashes `h` bytes. -/
def Costs (x : Traced α) (good : α → Prop) (m h : Nat) : Prop := good x.val → muls x.steps = m ∧ hashed x.steps = h

/-- The result is a success. -/
def Succeeds (r : Except ε α) : Prop := ∃ a, r = .ok a

end Spec

theorem not_succeeds (e : ε) : ¬ Succeeds (.error e : Except ε α) := fun ⟨_, h⟩ => nomatch h

theorem costs_pure (a : α) (good : α → Prop) : Costs (pure a) good 0 0 := fun _ => ⟨rfl, rfl⟩

theorem costs_bad {x : Traced α} {good : α → Prop} {m h : Nat} (hx : ¬ good x.val) : Costs x good m h :=
  fun hg => absurd hg hx

theorem costs_bind {x : Traced α} {f : α → Traced β} {good : β → Prop} {m h m' h' M H : Nat}
    (hx : Costs x (fun _ => True) m h) (hf : Costs (f x.val) good m' h') (hm : m + m' = M) (hh : h + h' = H) :
    Costs (x >>= f) good M H := by
  intro hg
  obtain ⟨h1, h2⟩ := hx trivial
  obtain ⟨h3, h4⟩ := hf hg
  rw [steps_bind, muls_append, hashed_append, h1, h2, h3, h4]
  exact ⟨hm, hh⟩

/-- A step that may fail, after which nothing good happens. -/
theorem costs_try {x : Traced (Except ε α)} {f : Except ε α → Traced β} {good : β → Prop} {m h m' h' M H : Nat}
    (hx : Costs x Succeeds m h) (hbad : ∀ e, ¬ good (f (.error e)).val)
    (hf : ∀ a, x.val = .ok a → Costs (f (.ok a)) good m' h') (hm : m + m' = M) (hh : h + h' = H) :
    Costs (x >>= f) good M H := by
  intro hg
  rw [val_bind] at hg
  cases hv : x.val with
  | error e => rw [hv] at hg; exact absurd hg (hbad e)
  | ok a =>
    obtain ⟨h1, h2⟩ := hx ⟨a, hv⟩
    rw [hv] at hg
    obtain ⟨h3, h4⟩ := hf a hv hg
    rw [steps_bind, muls_append, hashed_append, h1, h2, hv, h3, h4]
    exact ⟨hm, hh⟩

theorem costs_mul {f : Unit → Traced β} {good : β → Prop} {m' M H : Nat} (hf : Costs (f ()) good m' H) (hm : 1 + m' = M) :
    Costs (step .groupMul >>= f) good M H :=
  costs_bind (m := 1) (h := 0) (fun _ => ⟨rfl, rfl⟩) hf hm (by omega)

theorem costs_hash {n : Nat} {f : Unit → Traced β} {good : β → Prop} {h' M H : Nat} (hf : Costs (f ()) good M h')
    (hh : n + h' = H) : Costs (step (.hash n) >>= f) good M H :=
  costs_bind (m := 0) (h := n) (fun _ => ⟨rfl, by simp [hashed, hashedBy]⟩) hf (by omega) hh

theorem costs_free {s : Step} (hs : s ≠ .groupMul) (hs' : hashedBy s = 0) {f : Unit → Traced β} {good : β → Prop}
    {M H : Nat} (hf : Costs (f ()) good M H) : Costs (step s >>= f) good M H :=
  costs_bind (m := 0) (h := 0) (fun _ => ⟨by simp [muls, hs], by simp [hashed, hs']⟩) hf (by omega) (by omega)

theorem costs_test {b : Bool} {f : Bool → Traced β} {good : β → Prop} {M H : Nat} (hf : Costs (f b) good M H) :
    Costs (test b >>= f) good M H :=
  costs_bind (m := 0) (h := 0) (fun _ => ⟨by simp [muls], by simp [hashed, hashedBy]⟩) hf (by omega) (by omega)

theorem costs_within {x : Traced α} {good : α → Prop} (hx : Within x.steps 0 0) : Costs x good 0 0 :=
  fun _ => ⟨Nat.le_zero.mp hx.1, Nat.le_zero.mp hx.2⟩

/-! ### Proofs and creation of participants -/

theorem nizkProveT_costs {S : Suite F G R} (hS : S.CodecLaws) (i : U32) (x : F) (X : G) (rng : R)
    (good : Nizk F × R → Prop) : Costs (nizkProveT S i x X rng) good 1 (proofBytes S) := by
  unfold nizkProveT
  refine costs_free (by simp) rfl (costs_mul (m' := 0) (costs_hash (h' := 0) ?_ ?_) (by omega))
  · exact costs_free (by simp) rfl (costs_free (by simp) rfl (costs_pure _ _))
  · rw [nizkMessage_length hS]; omega

theorem nizkVerifyW_costs {S : Suite F G R} (hS : S.CodecLaws) (p : Nizk F) (i : U32) (X : G) :
    Costs (nizkVerifyW S p i X) Succeeds 2 (proofBytes S) := by
  unfold nizkVerifyW
  refine costs_mul (m' := 1) (costs_mul (m' := 0) ?_ (by omega)) (by omega)
  cases msm [S.gen, X] [p.r, -p.s] with
  | none => exact costs_bad (not_succeeds _)
  | some M => exact costs_hash (h' := 0) (costs_pure _ _) (by rw [nizkMessage_length hS]; omega)

theorem commitLoopT_costs (S : Suite F G R) (cs : List F) (j k : Nat) : Costs (commitLoopT S cs j k) Succeeds k 0 := by
  induction k generalizing j with
  | zero => exact costs_free (by simp) rfl (costs_pure _ _)
  | succ k ih =>
    unfold commitLoopT
    refine costs_free (by simp) rfl (costs_free (by simp) rfl ?_)
    cases cs[j]? with
    | none => exact costs_bad (not_succeeds _)
    | some a =>
      exact costs_mul (m' := k) (costs_try (m' := 0) (h' := 0) (ih _) (fun e => not_succeeds e)
        (fun _ _ => costs_pure _ _) (by omega) (by omega)) (by omega)

theorem newInternalT_costs {S : Suite F G R} (hS : S.CodecLaws) (params : Params) (isSigner : Bool) (i : U32)
    (sk : Option F) (rng : R) :
    Costs (newInternalT S params isSigner i sk rng) Succeeds (if isSigner then 2 else params.t.toNat + 3)
      (if isSigner then proofBytes S else 2 * proofBytes S) := by
  unfold newInternalT
  refine costs_test ?_
  split
  · exact costs_bad (not_succeeds _)
  · refine costs_free (by simp) rfl ?_
    have hrest : ∀ {M H : Nat} (a b : Nat), 1 + (1 + a) = M → proofBytes S + b = H →
        ∀ f : Nizk F × R → Traced (Res F G (NewParticipant F G × R)), (∀ r, Costs (f r) Succeeds a b) →
        Costs (step .groupMul >>= fun _ => nizkProveT S i (S.randScalar rng).1 ((S.randScalar rng).1 • S.gen)
          (S.randScalar rng).2 >>= f) Succeeds M H :=
      fun a b hM hH f hf => costs_mul (costs_bind (nizkProveT_costs hS _ _ _ _ _) (hf _) rfl hH) hM
    cases isSigner with
    | true =>
      refine hrest 0 0 (by simp) (by simp) _ fun r => costs_test ?_
      simp only [if_true]
      exact costs_pure _ _
    | false =>
      refine hrest (params.t.toNat + 1) (proofBytes S) (by simp; omega) (by simp; omega) _ fun r => costs_test ?_
      simp only [Bool.false_eq_true, if_false]
      have hf : ∀ rng, Within (firstCoefficientT S sk rng).steps 0 0 := by
        intro rng
        cases sk with
        | none => exact within_free (by simp) rfl (within_free (by simp) rfl (within_pure _ _ _))
        | some a => exact within_free (by simp) rfl (within_pure _ _ _)
      refine costs_bind (costs_within (hf _)) (costs_bind (costs_within (randScalarsT_within _ _ _))
        (costs_try (commitLoopT_costs _ _ _ _) (m' := 1) (h' := proofBytes S) (fun e => not_succeeds e)
        (fun a _ => ?_) rfl rfl) rfl rfl) (by omega) (by omega)
      dsimp only
      split
      · exact costs_bad (not_succeeds _)
      · exact costs_free (by simp) rfl (costs_bind (nizkProveT_costs hS _ _ _ _ _) (costs_pure _ _) (by omega) (by omega))

/-! ### First round -/

theorem dealSharesT_costs (S : Suite F G R) (x : F) (i : U32) (cs : Option (List F)) (ps : List (Participant F G))
    (m : BMap EncShare) (rng : R) : Costs (dealSharesT S x i cs ps m rng) Succeeds ps.length 0 := by
  induction ps generalizing m rng with
  | nil => exact costs_free (by simp) rfl (costs_pure _ _)
  | cons p ps ih =>
    unfold dealSharesT
    refine costs_free (by simp) rfl ?_
    cases cs with
    | none => exact costs_bad (not_succeeds _)
    | some cs =>
      refine costs_bind (costs_within (evaluatePolynomialT_within _ _ _)) (m' := 1 + ps.length) (h' := 0)
        (costs_mul (m' := ps.length) (costs_try (costs_within (encryptShareT_within _ _ _ _)) (m' := ps.length) (h' := 0)
          (fun e => not_succeeds _) (fun a _ => costs_free (by simp) rfl (ih _ _))
          (by omega) (by omega)) rfl) (by rw [List.length_cons]; omega) (by omega)

/-- Nobody is blamed. -/
def NoneBlamed (k : Nat) (r : Res F G (RoundOneAcc F G)) : Prop := ∃ acc, r = .ok acc ∧ acc.misbehaving.length = k

theorem checkParticipantW_costs {S : Suite F G R} (hS : S.CodecLaws) (dbg : Bool) (params : Params) (fd fs : Bool)
    (acc : RoundOneAcc F G) (p : Participant F G) :
    Costs (checkParticipantW S dbg params fd fs acc p) (NoneBlamed acc.misbehaving.length) (2 * proofs fs)
      (proofs fs * proofBytes S) := by
  have hb : ¬ NoneBlamed (F := F) acc.misbehaving.length (.ok (acc.blame p)) := by
    rintro ⟨a, ha, hl⟩
    cases ha
    simp [RoundOneAcc.blame] at hl
  have hp : ∀ f, ¬ NoneBlamed (F := F) (G := G) acc.misbehaving.length (.error f) := by
    rintro f ⟨a, ha, -⟩
    cases ha
  unfold checkParticipantW
  cases fs with
  | false =>
    refine costs_try (nizkVerifyW_costs hS _ _ _) (m' := 0) (h' := 0) (fun _ => hb) (fun _ _ => ?_) rfl (by simp [proofs])
    simp only [Bool.false_eq_true, if_false]
    split
    · exact costs_bad (hp _)
    · exact costs_pure _ _
  | true =>
    refine costs_try (nizkVerifyW_costs hS _ _ _) (m' := 2) (h' := proofBytes S) (fun _ => hb) (fun _ _ => ?_) rfl
      (by simp only [proofs, if_true]; omega)
    simp only [if_true]
    split
    · exact costs_bad hb
    · split
      · exact costs_bad (hp _)
      · refine costs_try (nizkVerifyW_costs hS _ _ _) (m' := 0) (h' := 0) (fun _ => hb) (fun _ _ => ?_) rfl rfl
        dsimp only
        split
        · exact costs_bad (hp _)
        · split
          · exact costs_bad hb
          · exact costs_pure _ _

theorem checkParticipant_blames (S : Suite F G R) (dbg : Bool) (params : Params) (fd fs : Bool) (acc acc' : RoundOneAcc F G)
    (p : Participant F G) (h : checkParticipant S dbg params fd fs acc p = .ok acc') :
    acc.misbehaving.length ≤ acc'.misbehaving.length := by
  unfold checkParticipant at h
  revert h
  repeat' split
  all_goals
    intro h
    first
    | cases h; done
    | (cases h; simp [RoundOneAcc.blame])

theorem checkParticipantsW_costs {S : Suite F G R} (hS : S.CodecLaws) (dbg : Bool) (params : Params) (fd fs : Bool)
    (ps : List (Participant F G)) (acc : RoundOneAcc F G) :
    acc.misbehaving.length ≤ ((checkParticipantsW S dbg params fd fs ps acc).val.toOption.elim acc.misbehaving.length
      (·.misbehaving.length)) ∧
    Costs (checkParticipantsW S dbg params fd fs ps acc) (NoneBlamed acc.misbehaving.length) (ps.length * (2 * proofs fs))
      (ps.length * (proofs fs * proofBytes S)) := by
  induction ps generalizing acc with
  | nil => exact ⟨le_refl _, by rw [List.length_nil, Nat.zero_mul, Nat.zero_mul]; exact costs_pure _ _⟩
  | cons p ps ih =>
    unfold checkParticipantsW
    rw [val_bind, checkParticipantW_val]
    cases h : checkParticipant S dbg params fd fs acc p with
    | error f =>
      refine ⟨le_refl _, costs_bad ?_⟩
      rw [val_bind, checkParticipantW_val, h]
      rintro ⟨a, ha, -⟩
      cases ha
    | ok acc' =>
      have hle := checkParticipant_blames S dbg params fd fs acc acc' p h
      obtain ⟨i1, i2⟩ := ih acc'
      constructor
      · revert i1
        show _ → acc.misbehaving.length ≤ (checkParticipantsW S dbg params fd fs ps acc').val.toOption.elim
          acc.misbehaving.length (·.misbehaving.length)
        cases (checkParticipantsW S dbg params fd fs ps acc').val with
        | error f => exact fun _ => le_refl _
        | ok a => exact fun i1 => le_trans hle i1
      · intro hg
        rw [val_bind, checkParticipantW_val, h] at hg
        obtain ⟨a, ha, hl⟩ := hg
        have ha' : (checkParticipantsW S dbg params fd fs ps acc').val = .ok a := ha
        rw [ha'] at i1
        have i1 : acc'.misbehaving.length ≤ a.misbehaving.length := i1
        have e : acc'.misbehaving.length = acc.misbehaving.length := by omega
        obtain ⟨k1, k2⟩ := checkParticipantW_costs hS dbg params fd fs acc p
          ⟨acc', by rw [checkParticipantW_val, h], e⟩
        obtain ⟨k3, k4⟩ := i2 ⟨a, ha', by omega⟩
        rw [steps_bind, checkParticipantW_val, h, muls_append, hashed_append, k1, k2]
        simp only [k3, k4, List.length_cons, Nat.add_mul, Nat.one_mul]
        omega

namespace Spec

/-- The first round succeeded and nobody is reported. -/
def CleanStart (r : Res F G ((RoundOne F G × ParticipantList F G) × R)) : Prop :=
  ∃ d l rng, r = .ok ((d, l), rng) ∧ l.misbehaving = none

end Spec

theorem newStateInternalW_costs {S : Suite F G R} (hS : S.CodecLaws) (dbg : Bool) (params : Params) (x : F) (i : U32)
    (cs : Option (List F)) (ps : List (Participant F G)) (fd fs : Bool) (rng : R) :
    Costs (newStateInternalW S dbg params x i cs ps fd fs rng) CleanStart
      (1 + (ps.length * (2 * proofs fs) + if !fd && fs then 0 else ps.length)) (ps.length * (proofs fs * proofBytes S)) := by
  have hbad : ∀ f, ¬ CleanStart (.error f : Res F G ((RoundOne F G × ParticipantList F G) × R)) := by
    rintro f ⟨_, _, _, h, -⟩
    cases h
  unfold newStateInternalW
  refine costs_mul ?_ rfl
  dsimp only
  split
  · exact costs_bad (hbad _)
  · intro hg
    have hc := (checkParticipantsW_costs hS dbg params fd fs ps ⟨[], [], [], []⟩).2
    rw [val_bind] at hg
    rw [steps_bind]
    cases hv : (checkParticipantsW S dbg params fd fs ps ⟨[], [], [], []⟩).val with
    | error f => rw [hv] at hg; exact absurd hg (hbad _)
    | ok acc =>
      rw [hv] at hg
      have key : ∀ (rest : Traced (Res F G ((RoundOne F G × ParticipantList F G) × R))) (m : Nat),
          (CleanStart rest.val → acc.misbehaving = []) → Costs rest CleanStart m 0 → CleanStart rest.val →
          muls ((checkParticipantsW S dbg params fd fs ps ⟨[], [], [], []⟩).steps ++ rest.steps) =
              ps.length * (2 * proofs fs) + m ∧
            hashed ((checkParticipantsW S dbg params fd fs ps ⟨[], [], [], []⟩).steps ++ rest.steps) =
              ps.length * (proofs fs * proofBytes S) := by
        intro rest m h1 h2 h3
        obtain ⟨k1, k2⟩ := hc ⟨acc, hv, by rw [h1 h3]⟩
        obtain ⟨k3, k4⟩ := h2 h3
        rw [muls_append, hashed_append, k1, k2, k3, k4]
        exact ⟨rfl, rfl⟩
      have hlist : ∀ d rng', CleanStart (.ok ((d, participantList acc.valid acc.misbehaving), rng') :
          Res F G ((RoundOne F G × ParticipantList F G) × R)) → acc.misbehaving = [] := by
        rintro d rng' ⟨d', l, r', h, hl⟩
        cases h
        unfold participantList at hl
        cases hm : acc.misbehaving with
        | nil => rfl
        | cons a b => rw [hm] at hl; simp at hl
      refine key _ _ ?_ ?_ hg
      · intro hg
        dsimp only at hg
        split at hg
        · exact absurd hg (hbad _)
        · split at hg
          · split at hg
            · exact absurd hg (hbad _)
            · split at hg
              · exact absurd hg (hbad _)
              · exact hlist _ _ hg
          · rw [val_bind] at hg
            split at hg
            · exact absurd hg (hbad _)
            · split at hg
              · exact absurd hg (hbad _)
              · split at hg
                · exact absurd hg (hbad _)
                · exact hlist _ _ hg
      · dsimp only
        split
        · exact costs_bad (hbad _)
        · split
          · split
            · exact costs_bad (hbad _)
            · split
              · exact costs_bad (hbad _)
              · exact costs_pure _ _
          · refine costs_try (dealSharesT_costs S x i cs ps [] rng) (m' := 0) (h' := 0) (fun e => hbad e)
              (fun a _ => ?_) (by omega) (by omega)
            dsimp only
            split
            · exact costs_bad (hbad _)
            · split
              · exact costs_bad (hbad _)
              · exact costs_pure _ _

/-! ### Finishing and keys -/

theorem groupKeyLoopW_costs (indices : List U32) (comms : List (U32 × VssCommitment G)) (acc : G) :
    Costs (groupKeyLoopW (F := F) indices comms acc) Succeeds comms.length 0 := by
  induction comms generalizing acc with
  | nil => exact costs_pure _ _
  | cons c comms ih =>
    unfold groupKeyLoopW
    split
    · exact costs_bad (not_succeeds _)
    · split
      · exact costs_bad (not_succeeds _)
      · exact costs_mul (ih _) (by rw [List.length_cons]; omega)

theorem hornerHidingLoopT_costs (len : Nat) (term : F) (k : Nat) (cs : List G) (sum : G) (hlen : k + cs.length = len)
    (good : G → Prop) : Costs (hornerHidingLoopT len term k cs sum) good (cs.length - 1) 0 := by
  induction cs generalizing k sum with
  | nil => exact costs_free (by simp) rfl (costs_pure _ _)
  | cons c cs ih =>
    unfold hornerHidingLoopT
    rw [List.length_cons] at hlen
    have hi := fun s => ih (k + 1) s (by omega)
    refine costs_free (by simp) rfl (costs_free (by simp) rfl (costs_test ?_))
    split
    · rename_i hk
      have hk : k ≠ len - 1 := of_decide_eq_true hk
      exact costs_mul (hi _) (by rw [List.length_cons]; omega)
    · rename_i hk
      have hk : k = len - 1 := by simpa using hk
      have e : cs.length - 1 = (c :: cs).length - 1 := by rw [List.length_cons]; omega
      exact e ▸ hi _

theorem fromCommitmentsLoopW_costs (term : F) (indices : List U32) (cs : List (VssCommitment G)) (share : G) :
    Costs (fromCommitmentsLoopW term indices cs share) Succeeds (cs.map fun c => max 1 c.points.length).sum 0 := by
  induction cs generalizing share with
  | nil => exact costs_pure _ _
  | cons c cs ih =>
    unfold fromCommitmentsLoopW
    refine costs_bind (m' := 1 + (cs.map fun c => max 1 c.points.length).sum) (h' := 0)
      (hornerHidingLoopT_costs _ _ _ _ _ (by simp) _) ?_
      (by rw [List.map_cons, List.sum_cons, List.length_reverse]; omega) rfl
    split
    · exact costs_bad (not_succeeds _)
    · exact costs_mul (ih _) rfl

theorem verifyKeyLoopW_costs (term : F) (indices : List U32) (cs : List (VssCommitment G)) (rhs : G) :
    Costs (verifyKeyLoopW term indices cs rhs) Succeeds (cs.map fun c => max 1 c.points.length).sum 0 := by
  induction cs generalizing rhs with
  | nil => exact costs_pure _ _
  | cons c cs ih =>
    unfold verifyKeyLoopW
    refine costs_bind (m' := 1 + (cs.map fun c => max 1 c.points.length).sum) (h' := 0)
      (hornerHidingLoopT_costs _ _ _ _ _ (by simp) _) ?_
      (by rw [List.map_cons, List.sum_cons, List.length_reverse]; omega) rfl
    split
    · exact costs_bad (not_succeeds _)
    · exact costs_mul (ih _) rfl

/-! ### Second round -/

theorem verifyT_costs (S : Suite F G R) (s : SecretShare F) (c : VssCommitment G) (good : Out F G Unit → Prop) :
    Costs (s.verifyT S c) good (max 1 c.points.length) 0 := by
  unfold SecretShare.verifyT
  refine costs_mul (costs_bind (m' := 0) (h' := 0) (hornerHidingLoopT_costs _ _ _ _ _ (by simp) _) ?_ rfl rfl)
    (by rw [List.length_reverse]; omega)
  refine costs_free (by simp) rfl (costs_free (by simp) rfl (costs_free (by simp) rfl (costs_test ?_)))
  split <;> exact costs_pure _ _

theorem badShareT_costs (S : Suite F G R) (d : Out F G (SecretShare F)) (c : VssCommitment G) :
    Costs (badShareT S d c) (· = false) (max 1 c.points.length) 0 := by
  unfold badShareT
  cases d with
  | error e => exact costs_bad (by simp)
  | ok s =>
    refine costs_free (by simp) rfl (costs_bind (verifyT_costs _ _ _ _) (m' := 0) (h' := 0) ?_ rfl rfl)
    split <;> exact costs_pure _ _

namespace Spec

/-- The points of the commitments kept for dealer `i`, counting one for a commitment without points. -/
def pointsHeld (comms : List (U32 × VssCommitment G)) (i : U32) : Nat :=
  ((comms.filter fun c => c.1 = i).map fun c => max 1 c.2.points.length).sum

end Spec

theorem complaintLoopT_costs (S : Suite F G R) (pk : G) (x : F) (K : G) (e : EncShare)
    (d : Out F G (SecretShare F)) (comms : List (U32 × VssCommitment G)) (cs : List (Complaint F G)) (rng : R) :
    cs.length ≤ (complaintLoopT S pk x K e d comms cs rng).val.1.length ∧
      Costs (complaintLoopT S pk x K e d comms cs rng) (fun r => r.1.length = cs.length) (pointsHeld comms e.senderIndex) 0 := by
  induction comms generalizing cs rng with
  | nil => exact ⟨le_refl _, costs_free (by simp) rfl (costs_pure _ _)⟩
  | cons c comms ih =>
    obtain ⟨i, c⟩ := c
    unfold complaintLoopT
    by_cases he : i = e.senderIndex
    · have hp : pointsHeld ((i, c) :: comms) e.senderIndex = max 1 c.points.length + pointsHeld comms e.senderIndex := by
        simp [pointsHeld, he]
      rw [hp]
      simp only [he, decide_true]
      cases hb : (badShareT S d c).val with
      | true =>
        constructor
        · simp only [val_bind, val_step, val_test, if_true, hb, val_pure, List.length_append]
          omega
        · refine costs_bad ?_
          simp only [val_bind, val_step, val_test, if_true, hb, val_pure, List.length_append, List.length_cons, List.length_nil]
          omega
      | false =>
        constructor
        · simp only [val_bind, val_step, val_test, if_true, hb, Bool.false_eq_true, if_false]
          exact (ih cs rng).1
        · refine costs_free (by simp) rfl (costs_test ?_)
          simp only [if_true]
          have hx : Costs (badShareT S d c) (fun _ => True) (max 1 c.points.length) 0 :=
            fun _ => badShareT_costs S d c hb
          refine costs_bind hx (costs_test ?_) rfl (Nat.zero_add 0)
          rw [hb]
          exact (ih cs rng).2
    · have hp : pointsHeld ((i, c) :: comms) e.senderIndex = pointsHeld comms e.senderIndex := by
        simp [pointsHeld, he]
      rw [hp]
      simp only [he, decide_false]
      constructor
      · simp only [val_bind, val_step, val_test, Bool.false_eq_true, if_false]
        exact (ih cs rng).1
      · refine costs_free (by simp) rfl (costs_test ?_)
        simp only [Bool.false_eq_true, if_false]
        exact (ih cs rng).2

/-- The loop ended with `k` complaints. -/
def EndsWith (k : Nat) (r : Res F G (BMap (SecretShare F) × List (Complaint F G))) : Prop :=
  ∃ m cs, r = .ok (m, cs) ∧ cs.length = k

theorem roundTwoLoopT_costs (S : Suite F G R) (dbg : Bool) (st : DkgState F G) (comms : BMap (VssCommitment G))
    (hst : st.theirCommitments = some comms) (es : List EncShare) (m : BMap (SecretShare F)) (cs : List (Complaint F G))
    (rng : R) :
    (∀ m' cs', (roundTwoLoopT S dbg st es m cs rng).val = .ok (m', cs') → cs.length ≤ cs'.length) ∧
      Costs (roundTwoLoopT S dbg st es m cs rng) (EndsWith cs.length)
        (es.map fun e => 1 + pointsHeld comms e.senderIndex).sum 0 := by
  have hbad : ∀ k f, ¬ EndsWith (F := F) (G := G) k (.error f) := by
    rintro k f ⟨_, _, h, -⟩
    cases h
  induction es generalizing m cs rng with
  | nil =>
    refine ⟨fun m' cs' h => ?_, costs_free (by simp) rfl (costs_pure _ _)⟩
    have h : Except.ok (m, cs) = (Except.ok (m', cs') : Res F G _) := h
    cases h
    exact le_refl _
  | cons e es ih =>
    unfold roundTwoLoopT
    rw [List.map_cons, List.sum_cons]
    cases hdbg : (dbg && e.receiverIndex != st.index) with
    | true => exact ⟨fun m' cs' h => (by cases h), costs_bad (hbad _ _)⟩
    | false =>
      cases hpk : st.theirDhPublicKeys.get? e.senderIndex with
      | none =>
        refine ⟨fun m' cs' h => ?_, costs_bad (hbad _ _)⟩
        cases h
      | some pk =>
        rw [hst]
        obtain ⟨l1, l2⟩ := complaintLoopT_costs S pk st.dhPrivateKey (st.dhPrivateKey • pk) e
          (decryptShareT S e (S.encG (st.dhPrivateKey • pk)) : Traced (Out F G (SecretShare F))).val comms cs rng
        obtain ⟨i1, i2⟩ := ih (keepShareT (decryptShareT S e (S.encG (st.dhPrivateKey • pk)) :
            Traced (Out F G (SecretShare F))).val m).val
          (complaintLoopT S pk st.dhPrivateKey (st.dhPrivateKey • pk) e
            (decryptShareT S e (S.encG (st.dhPrivateKey • pk)) : Traced (Out F G (SecretShare F))).val comms cs rng).val.1
          (complaintLoopT S pk st.dhPrivateKey (st.dhPrivateKey • pk) e
            (decryptShareT S e (S.encG (st.dhPrivateKey • pk)) : Traced (Out F G (SecretShare F))).val comms cs rng).val.2
        refine ⟨fun m' cs' h => le_trans l1 (i1 m' cs' h), ?_⟩
        refine costs_free (by simp) rfl (costs_test ?_)
        simp only [Bool.false_eq_true, if_false]
        refine costs_free (by simp) rfl (costs_free (by simp) rfl (costs_mul
          (m' := pointsHeld comms e.senderIndex + (es.map fun e => 1 + pointsHeld comms e.senderIndex).sum)
          (costs_bind (costs_within (decryptShareT_within _ _ _)) ?_ (Nat.zero_add _) (Nat.zero_add 0)) (by omega)))
        intro hg
        obtain ⟨m', cs', hr, hl⟩ := hg
        have hr' := i1 m' cs' hr
        have e1 := Nat.le_antisymm (hl ▸ hr') l1
        obtain ⟨k1, k2⟩ := l2 e1
        obtain ⟨k3, k4⟩ := costs_within (good := fun _ => True) (keepShareT_within (decryptShareT S e
          (S.encG (st.dhPrivateKey • pk)) : Traced (Out F G (SecretShare F))).val m) trivial
        obtain ⟨k5, k6⟩ := i2 ⟨m', cs', hr, hl.trans e1.symm⟩
        simp only [steps_bind, muls_append, hashed_append]
        rw [k1, k2, k3, k4, k5, k6]
        omega

theorem roundTwoLoop_senders (S : Suite F G R) (dbg : Bool) (st : DkgState F G) (es : List EncShare)
    (m : BMap (SecretShare F)) (cs : List (Complaint F G)) (rng : R) (r : BMap (SecretShare F) × List (Complaint F G))
    (h : roundTwoLoop S dbg st es m cs rng = .ok r) : ∀ e ∈ es, e.senderIndex ∈ st.theirDhPublicKeys.keys := by
  induction es generalizing m cs rng with
  | nil => exact fun e he => (List.not_mem_nil he).elim
  | cons a es ih =>
    unfold roundTwoLoop at h
    split at h
    · cases h
    · split at h
      · cases h
      · rename_i pk hpk
        dsimp only at h
        split at h
        · cases h
        · intro e he
          rcases List.mem_cons.mp he with rfl | he
          · exact BMap.mem_keys_of_get? hpk
          · exact ih _ _ _ h e he

theorem pointsHeld_eq {comms : List (U32 × VssCommitment G)} (hn : (comms.map Prod.fst).Nodup) {i : U32}
    (hi : i ∈ comms.map Prod.fst) {t : Nat} (ht : 1 ≤ t) (hl : ∀ c ∈ comms, c.2.points.length = t) : pointsHeld comms i = t := by
  induction comms with
  | nil => cases hi
  | cons c comms ih =>
    obtain ⟨hc, hn⟩ := List.nodup_cons.mp hn
    have hl' := fun c' hc' => hl c' (List.mem_cons_of_mem _ hc')
    unfold pointsHeld
    by_cases he : c.1 = i
    · subst he
      have h0 : comms.filter (fun c' => c'.1 = c.1) = [] :=
        List.filter_eq_nil_iff.mpr fun c' hc' h => hc (by
          have h : c'.1 = c.1 := by simpa using h
          exact h ▸ List.mem_map_of_mem hc')
      rw [List.filter_cons_of_pos (by simp), h0, List.map_cons, List.map_nil, List.sum_cons, List.sum_nil,
        hl c List.mem_cons_self]
      omega
    · rw [List.filter_cons_of_neg (by simpa using he)]
      refine ih hn ?_ hl'
      rcases List.mem_cons.mp hi with h | h
      · exact absurd h.symm he
      · exact h

/-! ### Signing -/

theorem factorsW_costs (S : Suite F G R) (pre : Bytes) (l : List (U32 × G × G)) (m : BMap F) (good : BMap F → Prop) :
    Costs (factorsW S pre l m) good 0 (l.length * (pre.length + 4)) := by
  induction l generalizing m with
  | nil => rw [List.length_nil, Nat.zero_mul]; exact costs_pure _ _
  | cons e l ih =>
    unfold factorsW
    refine costs_hash (ih _) ?_
    rw [List.length_append, u32le_length, List.length_cons, Nat.add_mul, Nat.one_mul]; omega

theorem computeBindingFactorsW_costs {S : Suite F G R} (hS : S.CodecLaws) (hd : ∀ b, (S.digest b).length = S.hashLen)
    (msg : Bytes) (signers : List (Signer G)) :
    Costs (computeBindingFactorsW S msg signers) Succeeds 0
      (msg.length + (listBytes S signers.length + signers.length * factorBytes S)) := by
  unfold computeBindingFactorsW
  cases h : encodeGroupCommitmentList S (commitmentList signers) with
  | error f => exact costs_bad (not_succeeds _)
  | ok b =>
    refine costs_hash (costs_hash (costs_bind (h' := 0) (factorsW_costs _ _ _ _ _) (costs_pure _ _) (by omega) ?_)
      (by rw [encoded_length hS signers h])) rfl
    rw [h45_length hd, commitmentList, List.length_map]
    rfl

theorem computeGroupCommitmentW_costs (factors : BMap F) (signers : List (Signer G)) (acc : G) :
    Costs (computeGroupCommitmentW factors signers acc) Succeeds signers.length 0 := by
  induction signers generalizing acc with
  | nil => exact costs_pure _ _
  | cons s l ih =>
    unfold computeGroupCommitmentW
    split
    · exact costs_bad (not_succeeds _)
    · exact costs_mul (ih _) (by rw [List.length_cons]; omega)

theorem computeChallengeW_costs {S : Suite F G R} (hS : S.CodecLaws) (P Y : G) (msg : Bytes) (good : F → Prop) :
    Costs (computeChallengeW S P Y msg) good 0 (2 * S.sizeG + msg.length) :=
  costs_hash (h' := 0) (costs_pure _ _) (by simp only [List.length_append, hS.encG_length]; omega)

theorem verifySignatureW_costs {S : Suite F G R} (hS : S.CodecLaws) (Y : G) (sig : ThresholdSignature F G) (msg : Bytes)
    (good : Out F G Unit → Prop) : Costs (verifySignatureW S Y sig msg) good 2 (2 * S.sizeG + msg.length) := by
  unfold verifySignatureW
  refine costs_bind (computeChallengeW_costs hS _ _ _ _) (m' := 2) (h' := 0)
    (costs_mul (m' := 1) (costs_mul (m' := 0) ?_ (by omega)) (by omega)) (by omega) (by omega)
  split <;> exact costs_pure _ _

/-! ### C182 -/

/-- Creating a dealer that succeeds makes exactly `t + 3` multiplications and hashes exactly the inputs of two proofs;
creating a signer makes two and hashes the input of one proof. The secret key given, and the random numbers, play no part. -/
theorem C182_create {S : Suite F G R} (hS : S.CodecLaws) (params : Params) (i : U32) (sk : Option F) (rng : R) :
    (∀ r, newInternal S params false i sk rng = .ok r →
      muls (newInternalT S params false i sk rng).steps = params.t.toNat + 3 ∧
        hashed (newInternalT S params false i sk rng).steps = 2 * proofBytes S) ∧
      ∀ r, newInternal S params true i sk rng = .ok r →
        muls (newInternalT S params true i sk rng).steps = 2 ∧
          hashed (newInternalT S params true i sk rng).steps = proofBytes S :=
  ⟨fun r h => newInternalT_costs hS params false i sk rng ⟨r, by rw [newInternalT_val, h]⟩,
    fun r h => newInternalT_costs hS params true i sk rng ⟨r, by rw [newInternalT_val, h]⟩⟩

/-- A first round that reports nobody makes exactly `5n + 1` multiplications for a dealer of a new key, `4n + 1` for a receiver
of shares and `3n + 1` for a dealer of a reshared key, and hashes exactly the inputs of all proofs. -/
theorem C182_round_one {S : Suite F G R} (hS : S.CodecLaws) (dbg : Bool) (params : Params) (x : F) (i : U32)
    (cs : Option (List F)) (ps : List (Participant F G)) (fd fs : Bool) (rng rng' : R) (d : RoundOne F G)
    (l : ParticipantList F G) (h : newStateInternal S dbg params x i cs ps fd fs rng = .ok ((d, l), rng'))
    (hl : l.misbehaving = none) :
    muls (newStateInternalW S dbg params x i cs ps fd fs rng).steps =
        (if fs then 4 else 2) * params.n.toNat + (if !fd && fs then 0 else params.n.toNat) + 1 ∧
      hashed (newStateInternalW S dbg params x i cs ps fd fs rng).steps =
        (if fs then 2 else 1) * (params.n.toNat * proofBytes S) := by
  have hn : ps.length = params.n.toNat := by
    by_contra hne
    unfold newStateInternal at h
    simp only [ne_eq, hne, not_false_eq_true, if_true] at h
    cases h
  obtain ⟨k1, k2⟩ := newStateInternalW_costs hS dbg params x i cs ps fd fs rng
    ⟨d, l, rng', by rw [newStateInternalW_val, h], hl⟩
  rw [k1, k2, hn]
  cases fs <;> simp only [proofs, if_true, Bool.false_eq_true, if_false]
  · constructor
    · omega
    · ring
  · constructor
    · omega
    · ring

/-- A second round without complaints makes, for every share, one multiplication and as many as the sender's commitment has
points, and hashes nothing: neither the shares nor the private keys play a part. -/
theorem C182_round_two (S : Suite F G R) (dbg : Bool) (d : RoundOne F G) (es : List EncShare) (rng : R) (d' : RoundTwo F G)
    (comms : BMap (VssCommitment G)) (hd : d.state.theirCommitments = some comms)
    (h : d.toRoundTwo S dbg es rng = .ok (d', [])) :
    muls (d.toRoundTwoW S dbg es rng).steps = (es.map fun e => 1 + pointsHeld comms e.senderIndex).sum ∧
      hashed (d.toRoundTwoW S dbg es rng).steps = 0 := by
  let good : Res F G (RoundTwo F G × List (Complaint F G)) → Prop := fun r => ∃ d', r = .ok (d', [])
  have hb : ∀ f, ¬ good (.error f) := by rintro f ⟨_, h⟩; cases h
  have hw : Costs (d.toRoundTwoW S dbg es rng) good (es.map fun e => 1 + pointsHeld comms e.senderIndex).sum 0 := by
    unfold RoundOne.toRoundTwoW
    dsimp only
    split
    · exact costs_bad (hb _)
    · intro hg
      have hc := (roundTwoLoopT_costs S dbg { d.state with theirEncryptedSecretShares := none } comms hd es [] [] rng).2
      rw [val_bind] at hg
      rw [steps_bind]
      cases hv : (roundTwoLoopT S dbg { d.state with theirEncryptedSecretShares := none } es [] [] rng).val with
      | error f => rw [hv] at hg; exact absurd hg (hb _)
      | ok r =>
        obtain ⟨shares, cs⟩ := r
        rw [hv] at hg
        dsimp only at hg ⊢
        split at hg
        · exact absurd hg (hb _)
        · rename_i hsub
          split at hg
          · exact absurd hg (hb _)
          · rename_i hlt
            obtain ⟨d', hd'⟩ := hg
            have hcs : cs = [] := (congrArg Prod.snd (Except.ok.inj hd'))
            rw [if_neg hlt, steps_pure, List.append_nil]
            exact hc ⟨shares, cs, hv, by rw [hcs]⟩
  exact hw ⟨d', by rw [toRoundTwoW_val, h]⟩

/-- In a session from `bootstrap`, a second round without complaints makes exactly `t + 1` multiplications per share. -/
theorem C182_round_two_bootstrap {S : Suite F G R} (hc : S.CipherLaws) (hS : S.CodecLaws) (dbg : Bool) (params : Params)
    (x : F) (i : U32) (cs : List F) (ps : List (Participant F G)) (rng : R) (d : RoundOne F G) (l : ParticipantList F G)
    (h : bootstrap S dbg params x i cs ps rng = .ok (d, l)) (ht : params.t ≠ 0) (es : List EncShare) (rng' : R)
    (d' : RoundTwo F G) (h2 : d.toRoundTwo S dbg es rng' = .ok (d', [])) :
    muls (d.toRoundTwoW S dbg es rng').steps = es.length * (params.t.toNat + 1) := by
  obtain ⟨hv, -, -, -, hcomm, hdh, -⟩ := C20_bootstrap_classifies hc hS dbg params x i cs ps rng d l h
  have ht1 : 1 ≤ params.t.toNat := by
    have : params.t.toNat ≠ 0 := fun h => ht (UInt32.toNat_inj.mp h)
    omega
  have hsend : ∀ e ∈ es, e.senderIndex ∈ d.state.theirDhPublicKeys.keys := by
    unfold RoundOne.toRoundTwo at h2
    dsimp only at h2
    split at h2
    · cases h2
    · split at h2
      · cases h2
      · rename_i r hr
        have hs := roundTwoLoop_senders S dbg _ es _ _ _ _ hr
        exact hs
  have hlen : ∀ c ∈ BMap.ofList (l.valid.filterMap fun p => p.commitments.map fun c => (p.index, c)),
      c.2.points.length = params.t.toNat := by
    intro c hcm
    have hm := BMap.mem_of_get?_ofList (BMap.get?_of_mem (BMap.wf_ofList _).nodup hcm)
    obtain ⟨p, hp, hpc⟩ := List.mem_filterMap.mp hm
    obtain ⟨c', hc', he⟩ := Option.map_eq_some_iff.mp hpc
    rw [hv] at hp
    have hg : GoodDealer S params.t p := by simpa using (List.mem_filter.mp hp).2
    have := hg.2 c' hc'
    rw [← congrArg Prod.snd he]
    exact this
  rw [(C182_round_two S dbg d es rng' d' _ hcomm h2).1]
  have hone : ∀ e ∈ es, 1 + pointsHeld (BMap.ofList (l.valid.filterMap fun p => p.commitments.map fun c => (p.index, c)))
      e.senderIndex = params.t.toNat + 1 := by
    intro e he
    rw [pointsHeld_eq (BMap.wf_ofList _).nodup ?_ ht1 hlen]
    · omega
    · have hk := hsend e he
      rw [hdh, BMap.mem_keys_ofList, List.map_map] at hk
      obtain ⟨p, hp, hpe⟩ := List.mem_map.mp hk
      have hg : GoodDealer S params.t p := by
        have hp' := hp
        rw [hv] at hp'
        simpa using (List.mem_filter.mp hp').2
      obtain ⟨-, c, pk, pf, hcs, -⟩ := hg.1
      refine (BMap.mem_keys_ofList _ _).mpr (List.mem_map.mpr ⟨(p.index, c), List.mem_filterMap.mpr ⟨p, hp, ?_⟩, hpe⟩)
      rw [hcs]; rfl
  rw [List.map_congr_left hone, List.map_const', List.sum_replicate, smul_eq_mul]

/-- Finishing makes exactly one multiplication per dealer. -/
theorem C182_finish (d : RoundTwo F G) (comms : BMap (VssCommitment G)) (hd : d.state.theirCommitments = some comms)
    (r : G × IndividualSigningKey F) (h : d.finish = .ok r) :
    muls d.finishW.steps = comms.length ∧ hashed d.finishW.steps = 0 := by
  have hc : (d.calculateSigningKey).2.state.theirCommitments = some comms := by
    unfold RoundTwo.calculateSigningKey
    cases d.state.mySecretShares <;> exact hd
  have hw : Costs d.finishW Succeeds comms.length 0 := by
    unfold RoundTwo.finishW
    revert hc
    cases d.calculateSigningKey with
    | mk r d' =>
      intro hc
      cases r with
      | error f => exact costs_bad (not_succeeds _)
      | ok sk =>
        simp only at hc ⊢
        rw [hc]
        exact costs_try (groupKeyLoopW_costs _ _ _) (m' := 0) (h' := 0) (fun e => not_succeeds e)
          (fun _ _ => costs_pure _ _) (by omega) (by omega)
  exact hw ⟨r, by rw [finishW_val, h]⟩

/-- Computing or confirming a verifying key makes exactly one multiplication per point of the commitments (one for a commitment
without points). -/
theorem C182_keys (i : U32) (k : IndividualVerifyingKey G) (cs : List (VssCommitment G)) :
    (∀ r, generateFromCommitments (F := F) i cs = .ok r →
      muls (generateFromCommitmentsW F i cs).steps = (cs.map fun c => max 1 c.points.length).sum) ∧
      (k.verify F cs = .ok () → muls (k.verifyW F cs).steps = (cs.map fun c => max 1 c.points.length).sum) := by
  constructor
  · intro r h
    have hw : Costs (generateFromCommitmentsW F i cs) Succeeds (cs.map fun c => max 1 c.points.length).sum 0 := by
      unfold generateFromCommitmentsW
      exact costs_try (fromCommitmentsLoopW_costs _ _ _ _) (m' := 0) (h' := 0) (fun e => not_succeeds e)
        (fun _ _ => costs_pure _ _) (by omega) (by omega)
    exact (hw ⟨r, by rw [generateFromCommitmentsW_val, h]⟩).1
  · intro h
    have hw : Costs (k.verifyW F cs) Succeeds (cs.map fun c => max 1 c.points.length).sum 0 := by
      unfold IndividualVerifyingKey.verifyW
      exact costs_try (verifyKeyLoopW_costs _ _ _ _) (m' := 0) (h' := 0) (fun e => not_succeeds e)
        (fun _ _ => costs_pure _ _) (by omega) (by omega)
    exact (hw ⟨(), by rw [verifyKeyW_val, h]⟩).1

/-- A signature share costs exactly one multiplication per signer, and exactly the bytes of one session are hashed: neither
the key nor the nonces nor their position in the list play a part. -/
theorem C182_sign {S : Suite F G R} (hS : S.CodecLaws) (hd : ∀ b, (S.digest b).length = S.hashLen) (dbg : Bool)
    (sk : IndividualSigningKey F) (msg : Bytes) (Y : G) (list : List (CommitmentShare F G)) (i : UInt64)
    (signers : List (Signer G)) (z : PartialSignature F) (h : (sign S dbg sk msg Y list i signers).1 = .ok z) :
    muls (signW S dbg sk msg Y list i signers).steps = signers.length ∧
      hashed (signW S dbg sk msg Y list i signers).steps = sessionBytes S msg signers.length := by
  have hb : ∀ f l, ¬ (fun r : Res F G (PartialSignature F) × List (CommitmentShare F G) => Succeeds r.1) (.error f, l) :=
    fun f l => not_succeeds f
  have hw : Costs (signW S dbg sk msg Y list i signers) (fun r => Succeeds r.1) signers.length
      (sessionBytes S msg signers.length) := by
    unfold signW
    split
    · exact costs_bad (hb _ _)
    · split
      · exact costs_bad (hb _ _)
      · refine costs_try (computeBindingFactorsW_costs hS hd _ _) (m' := signers.length)
          (h' := 2 * S.sizeG + msg.length) (fun e => hb _ _) (fun fs _ => ?_) (by omega)
          (by simp only [sessionBytes, listBytes, factorBytes]; omega)
        dsimp only
        split
        · exact costs_bad (hb _ _)
        · refine costs_try (computeGroupCommitmentW_costs _ _ _) (m' := 0) (h' := 2 * S.sizeG + msg.length)
            (fun e => hb _ _) (fun P _ => ?_) (by omega) (by omega)
          dsimp only
          split
          · exact costs_bad (hb _ _)
          · split
            · exact costs_bad (hb _ _)
            · exact costs_bind (computeChallengeW_costs hS _ _ _ _) (costs_pure _ _) (by omega) (by omega)
  exact hw ⟨z, by rw [signW_val]; exact h⟩

/-- Verifying makes exactly two multiplications, whether the signature is accepted or refused. -/
theorem C182_verify {S : Suite F G R} (hS : S.CodecLaws) (Y : G) (sig : ThresholdSignature F G) (msg : Bytes) :
    muls (verifySignatureW S Y sig msg).steps = 2 ∧ hashed (verifySignatureW S Y sig msg).steps = 2 * S.sizeG + msg.length :=
  verifySignatureW_costs hS Y sig msg (fun _ => True) trivial

/-- An aggregation that succeeds makes exactly one multiplication per signer and two more, and hashes exactly the bytes of a
session and of a verification. -/
theorem C182_aggregate {S : Suite F G R} (hS : S.CodecLaws) (hd : ∀ b, (S.digest b).length = S.hashLen)
    (a : FinalizedAggregator F G) (sig : ThresholdSignature F G) (h : a.aggregate S = .ok sig) :
    muls (a.aggregateW S).steps = a.state.signers.length + 2 ∧
      hashed (a.aggregateW S).steps = sessionBytes S a.messageHash a.state.signers.length +
        (2 * S.sizeG + a.messageHash.length) := by
  have hw : Costs (a.aggregateW S) Succeeds (a.state.signers.length + 2)
      (sessionBytes S a.messageHash a.state.signers.length + (2 * S.sizeG + a.messageHash.length)) := by
    unfold FinalizedAggregator.aggregateW
    refine costs_try (computeBindingFactorsW_costs hS hd _ _) (m' := a.state.signers.length + 2)
      (h' := (2 * S.sizeG + a.messageHash.length) + (2 * S.sizeG + a.messageHash.length)) (fun e => not_succeeds e)
      (fun fs _ => ?_) (by omega) (by simp only [sessionBytes, listBytes, factorBytes]; omega)
    refine costs_try (computeGroupCommitmentW_costs _ _ _) (m' := 2)
      (h' := (2 * S.sizeG + a.messageHash.length) + (2 * S.sizeG + a.messageHash.length)) (fun e => not_succeeds _)
      (fun P _ => ?_) (by omega) (by omega)
    refine costs_bind (computeChallengeW_costs hS _ _ _ _) (m' := 2) (h' := 2 * S.sizeG + a.messageHash.length) ?_
      (by omega) (by omega)
    split
    · exact costs_bad (not_succeeds _)
    · refine costs_try (verifySignatureW_costs hS _ _ _ _) (m' := 0) (h' := 0) (fun e => ?_)
        (fun _ _ => costs_pure _ _) (by omega) (by omega)
      dsimp only
      rw [val_bind]
      split <;> exact not_succeeds _
  exact hw ⟨sig, by rw [aggregateW_val, h]⟩

/-! ### Examples -/

section Examples

open Toy

/-- An honest first round of three meets the hypotheses of `C182_round_one`: it makes sixteen multiplications. Its second round
meets those of `C182_round_two`, and finishing those of `C182_finish`. -/
example : ∃ (x : Fp) (cs : List Fp) (ps : List (Participant Fp Fp)) (d1 : RoundOne Fp Fp) (es : List EncShare)
    (d2 : RoundTwo Fp Fp) (r : Fp × IndividualSigningKey Fp),
    muls (newStateInternalW suite true ⟨3, 2⟩ x 1 (some cs) ps true true 0).steps = 16 ∧
      d1.toRoundTwo suite true es 0 = .ok (d2, []) ∧ es.length = 3 ∧ d2.finish = .ok r := by
  obtain ⟨P, co, x, h0, d1, h1, E, h2, d2, h3, s, key, -, h4, -⟩ := C36_honest_dkg lawful true ⟨3, 2⟩ (by decide)
    (by decide) [1, 2, 3] (by decide) (by decide) rfl (fun _ => [1, 2, 3]) (fun _ => [3, 1, 2])
    (fun _ _ => List.Perm.refl _) (fun _ _ => by decide) (fun _ => 0) (fun _ => 0) (fun _ => 0)
  have hb := h1 1 (by decide)
  refine ⟨x 1, co 1, [1, 2, 3].map P, d1 1, _, d2 1, _, ?_, h3 1 (by decide), rfl, h4 1 (by decide)⟩
  unfold bootstrap at hb
  cases hn : newStateInternal suite true ⟨3, 2⟩ (x 1) 1 (some (co 1)) ([1, 2, 3].map P) true true 0 with
  | error f => rw [hn] at hb; cases hb
  | ok r =>
    obtain ⟨⟨d, l⟩, rng⟩ := r
    rw [hn] at hb
    cases hb
    exact (C182_round_one codec_laws _ _ _ _ _ _ _ _ _ _ _ _ hn rfl).1

/-- A dealer is created, so `C182_create` applies: five multiplications for a threshold of two. -/
example : ∃ r, newInternal suite ⟨3, 2⟩ false 1 none 0 = .ok r := ⟨_, rfl⟩

/-- A signature share of two signers meets the hypotheses of `C182_sign`. -/
example : (sign suite true ⟨1, 5⟩ [7] (9 : Fp) [⟨⟨1, 1⟩, ⟨2, 2⟩⟩] 0 [⟨1, (1, 2)⟩, ⟨2, (3, 4)⟩]).1.toOption.isSome = true := by
  decide +kernel

/-- The aggregation of `SigningExamples` meets the hypotheses of `C182_aggregate`: two signers, four multiplications. -/
example : ∃ (f : FinalizedAggregator Fp Fp) (sig : ThresholdSignature Fp Fp), f.aggregate suite = .ok sig ∧
    muls (f.aggregateW suite).steps = f.state.signers.length + 2 := by
  obtain ⟨p, hp, h⟩ := C64_honest_signing u32_inj suite (fun _ => true) ⟨3, 2⟩ (strBytes "hello") [1, 3] (by decide)
    (by decide) (by decide) (by decide) SigningExamples.key _ (SigningExamples.key_shares [1, 3] (by decide) (by decide))
    (fun i => [SigningExamples.share i, SigningExamples.share 2])
    (fun _ _ => by simp) (fun _ => 0) SigningExamples.share (fun _ _ => rfl) (fun _ _ => ⟨rfl, rfl⟩) SigningExamples.ops
    SigningExamples.hinc
  obtain ⟨f, sig, h1, h2, _, h3⟩ := h [.partialSig (p 3), .partialSig (p 1)] (by simp [Spec.inclusions]) (by
    intro i hi
    have e1 := (hp 1 (by simp)).1
    have e3 := (hp 3 (by simp)).1
    simp only [List.mem_cons, List.not_mem_nil, or_false] at hi
    rcases hi with rfl | rfl <;> simp [Spec.partials, SigningExamples.ops, Spec.lastOf, Spec.firstOf, e1, e3])
  exact ⟨f, sig, h2, (C182_aggregate codec_laws toy_digest_length f sig h2).1⟩

end Examples

end IceFrost
