import Verif.Props.ErrorTexts
import Verif.Props.SigningExamples
import Verif.Props.SignatureForms
import Verif.Props.SignatureTheory
import Verif.Props.SignAny
import Verif.Props.Wire
import Verif.Props.Positions
import Verif.Props.Oracles
import Verif.Props.Attacks
import Verif.Props.Tables

/-! # Two signing sessions of 1 and 3, and the theorems they meet (C54–C68, C84, C85, C97, C98, C106, C117, C118)

Keys, nonces and inclusions are those of `SigningExamples`. In the first session both partial signatures are what `sign`
returned, in the second one signer 3 adds 1 to its own. -/

set_option linter.unusedSectionVars false
set_option linter.unusedVariables false

namespace IceFrost.Cases.Sign

open Toy SigningExamples

/-- The group key. -/
def Y : Fp := Spec.polyEval [(42 : Fp), 7] 0 • suite.gen

/-- The message. -/
def msg : Bytes := strBytes "hello"

/-- The signers of both sessions. -/
def signers : List (Signer Fp) := (session (F := Fp) ⟨3, 2⟩ Y msg ops).state.signers

/-- The partial signatures as they should be. -/
def good (p : U32 → PartialSignature Fp) : List (AggOp Fp Fp) := [.partialSig (p 3), .partialSig (p 1)]

/-- Signer 3 adds 1 to its partial signature. -/
def bad (p : U32 → PartialSignature Fp) : List (AggOp Fp Fp) :=
  [.partialSig ⟨1, (p 1).z⟩, .partialSig ⟨3, (p 3).z + 1⟩]

/-- What the two sessions come to. -/
structure Run (dbg : Bool) (p : U32 → PartialSignature Fp) (f g : FinalizedAggregator Fp Fp)
    (sig : ThresholdSignature Fp Fp) : Prop where
  index : ∀ i ∈ [(1 : U32), 3], (p i).index = i
  sign : ∀ i ∈ [(1 : U32), 3], (sign suite dbg ⟨i, key i⟩ (Spec.messageHash suite msg) Y [share i, share 2] 0
    signers).1 = .ok (p i)
  fin : (session ⟨3, 2⟩ Y msg (ops ++ good p)).finalize suite = .ok f
  agg : f.aggregate suite = .ok sig
  gfin : (session ⟨3, 2⟩ Y msg (ops ++ bad p)).finalize suite = .ok g
  gagg : g.aggregate suite = .error (.err (.misbehavingParticipants [3]))
  fsigners : f.state.signers = signers
  gsigners : g.state.signers = signers
  gkeys : ∀ x ∈ g.state.signers, g.state.publicKeys.get? x.participantIndex = some (key x.participantIndex • suite.gen)
  gparts : ∀ x ∈ g.state.signers, g.state.partialSignatures.get? x.participantIndex =
    some (if x.participantIndex = 3 then (p 3).z + 1 else (p x.participantIndex).z)
  gint : Spec.interpolateG Fp (g.state.signers.map (·.participantIndex)) (fun i => key i • suite.gen) = Y
  valid : ∀ x ∈ g.state.signers, Spec.PartialValid suite Y (Spec.messageHash suite msg) g.state.signers x
    (key x.participantIndex • suite.gen) (p x.participantIndex).z

theorem run (dbg : Bool) : ∃ p f g sig, Run dbg p f g sig := by
  obtain ⟨p, hp, hall⟩ := honest_session u32_inj suite (fun _ => dbg) ⟨3, 2⟩ msg [1, 3] (by decide) (by decide) (by decide)
    (by decide) key _ (key_shares [1, 3] (by decide) (by decide)) (fun i => [share i, share 2])
    (fun _ _ => by simp) (fun _ => 0) share (fun _ _ => rfl) (fun _ _ => ⟨rfl, rfl⟩) ops hinc
  have e1 := (hp 1 (by simp)).1
  have e3 := (hp 3 (by simp)).1
  obtain ⟨f, f1, f2, f3, f4, f5, f6, f7, f8, f9, f10, f11⟩ := hall (good p) (fun i => (p i).z)
    (by simp [Spec.inclusions, good]) (by
      intro i hi
      simp only [List.mem_cons, List.not_mem_nil, or_false] at hi
      rcases hi with rfl | rfl <;> simp [Spec.partials, good, ops, Spec.lastOf, Spec.firstOf, e1, e3])
  obtain ⟨g, g1, g2, g3, g4, g5, g6, g7, g8, g9, g10, g11⟩ := hall (bad p)
    (fun i => if i = 3 then (p 3).z + 1 else (p i).z) (by simp [Spec.inclusions, bad]) (by
      intro i hi
      simp only [List.mem_cons, List.not_mem_nil, or_false] at hi
      rcases hi with rfl | rfl <;> simp [Spec.partials, bad, ops, Spec.lastOf, Spec.firstOf])
  have hv : Spec.SigValid suite f.state.groupKey f.messageHash
      ⟨Spec.groupCommitment suite f.messageHash f.state.signers,
        (f.state.signers.map fun x => (p x.participantIndex).z).sum⟩ := by
    have := sum_valid suite _ (Spec.messageHash suite msg) f.state.signers f5.nodup
      (fun i => (p i).z) (fun i => key i • suite.gen) f10
    unfold Spec.SigValid Spec.Schnorr
    simp only
    rw [f2, f3, this, f11]
    rfl
  have hagg := aggregate_cases u32_inj suite f f5 (fun i => (p i).z) (fun i => key i • suite.gen) f8 f9
  rw [if_neg f6, if_pos hv] at hagg
  have hperm : (g.state.signers.map (·.participantIndex)).Perm [1, 3] :=
    (List.perm_ext_iff_of_nodup g5.nodup (by decide)).mpr g7
  have hsum : ∀ h : U32 → Fp, (g.state.signers.map fun x => h x.participantIndex).sum = h 1 + h 3 := by
    intro h
    have := (hperm.map h).sum_eq
    rw [List.map_map] at this
    refine this.trans ?_
    simp
  have hbad : ¬ Spec.SigValid suite g.state.groupKey g.messageHash
      ⟨Spec.groupCommitment suite g.messageHash g.state.signers,
        (g.state.signers.map fun x => (fun i => if i = 3 then (p 3).z + 1 else (p i).z) x.participantIndex).sum⟩ := by
    have := sum_valid suite _ (Spec.messageHash suite msg) g.state.signers g5.nodup
      (fun i => (p i).z) (fun i => key i • suite.gen) g10
    rw [hsum (fun i => (p i).z), g11] at this
    unfold Spec.SigValid Spec.Schnorr
    simp only
    rw [hsum (fun i => if i = 3 then (p 3).z + 1 else (p i).z), g2, g3]
    intro hc
    have := group_laws.gen_inj _ _ (hc.trans this.symm)
    rw [if_neg (by decide), if_pos rfl] at this
    exact one_ne_zero (add_eq_left.mp (add_left_cancel this))
  obtain ⟨l, hl, hl'⟩ : ∃ l, g.aggregate suite = .error (.err (.misbehavingParticipants l)) ∧ l = [3] := by
    obtain ⟨q, hq, hd⟩ := C66_deviators_reported group_laws u32_inj (fun _ => dbg) ⟨3, 2⟩ msg [1, 3]
      (by decide) (by decide) (by decide) (by decide) key _ (key_shares [1, 3] (by decide) (by decide))
      (fun i => [share i, share 2]) (fun _ _ => by simp) (fun _ => 0) share (fun _ _ => rfl) (fun _ _ => ⟨rfl, rfl⟩)
      ops hinc
    have hpq : ∀ i ∈ [(1 : U32), 3], q i = p i := fun i hi => Except.ok.inj ((hq i hi).symm.trans (hp i hi).2)
    obtain ⟨g', h1, _, h2⟩ := hd (bad p) (fun i => if i = 3 then (p 3).z + 1 else (p i).z)
      (by simp [Spec.inclusions, bad]) (by
        intro i hi
        simp only [List.mem_cons, List.not_mem_nil, or_false] at hi
        rcases hi with rfl | rfl <;> simp [Spec.partials, bad, ops, Spec.lastOf, Spec.firstOf])
    obtain rfl := Except.ok.inj (g1.symm.trans h1)
    obtain ⟨l, h3, h4, h5⟩ := h2 (by
      simp only [List.map_cons, List.map_nil, List.sum_cons, List.sum_nil, if_pos, add_zero]
      rw [if_neg (by decide), hpq 1 (by simp), hpq 3 (by simp)]
      intro hc
      exact one_ne_zero (add_eq_left.mp (add_left_cancel hc)))
    refine ⟨l, h3, eq_of_strict_of_mem h4 (List.pairwise_singleton _ _) fun i => ?_⟩
    rw [h5]
    simp only [List.mem_cons, List.not_mem_nil, or_false]
    constructor
    · rintro ⟨rfl | rfl, hne⟩
      · exact absurd (by rw [if_neg (by decide), hpq 1 (by simp)]) hne
      · rfl
    · rintro rfl
      refine ⟨Or.inr rfl, ?_⟩
      rw [if_pos rfl, hpq 3 (by simp)]
      intro hc
      exact one_ne_zero (add_eq_left.mp hc)
  rw [hl'] at hl
  exact ⟨p, f, g, _, fun i hi => (hp i hi).1, fun i hi => (hp i hi).2, f1, hagg, g1, hl, f4, g4, g9, g8, g11, g10⟩

theorem mem_signers (s : Signer Fp) : s ∈ signers ↔ ∃ i ∈ [(1 : U32), 3], s = ⟨i, (share i).publish⟩ :=
  session_signers ⟨3, 2⟩ Y msg ops [1, 3] (fun i => (share i).publish) (fun i => key i • suite.gen) hinc s

theorem included_ops (l : List (AggOp Fp Fp)) (h : Spec.inclusions l = []) : Spec.included (ops ++ l) = [3, 1, 3] := by
  simp only [Spec.included, Spec.inclusions, List.filterMap_append] at h ⊢
  rw [h]
  rfl

section
variable {dbg : Bool} {p : U32 → PartialSignature Fp} {f g : FinalizedAggregator Fp Fp} {sig : ThresholdSignature Fp Fp}
  (r : Run dbg p f g sig)

theorem Run.key_of (r : Run dbg p f g sig) (i : U32) (hi : i ∈ [(1 : U32), 3]) :
    g.state.publicKeys.get? i = some (key i • suite.gen) :=
  r.gkeys ⟨i, (share i).publish⟩ (by rw [r.gsigners, mem_signers]; exact ⟨i, hi, rfl⟩)

example := C56_unique group_laws Y (Spec.messageHash suite msg) g.state.signers ⟨1, (share 1).publish⟩
  (key 1 • suite.gen) (p 1).z (p 1).z
  (r.valid _ (by rw [r.gsigners, mem_signers]; exact ⟨1, by simp, rfl⟩))
  (r.valid _ (by rw [r.gsigners, mem_signers]; exact ⟨1, by simp, rfl⟩))

example := C60_upper_bound_partial suite ⟨3, 2⟩ Y msg _ f r.fin

example := C62_consistent_partial (F := Fp) ⟨3, 2⟩ (5 : Fp) [1] [.signer 3 (3, 4) ⟨3, 6⟩, .signer 1 (1, 2) ⟨1, 5⟩,
  .signer 3 (3, 9) ⟨3, 6⟩] ⟨3, (3, 4)⟩ (by decide +kernel) 6 (by decide +kernel) (by
    intro v v' h h'
    have e : ∀ v, ((3 : U32), v) ∈ Spec.inclusions (F := Fp) (G := Fp) [.signer 3 (3, 4) ⟨3, 6⟩, .signer 1 (1, 2) ⟨1, 5⟩,
        .signer 3 (3, 9) ⟨3, 6⟩] → v.2 = 6 := by
      intro v h
      simp only [Spec.inclusions, List.filterMap_cons, List.filterMap_nil, if_true, List.mem_cons, List.not_mem_nil,
        or_false, Prod.mk.injEq] at h
      rcases h with ⟨_, rfl⟩ | ⟨h, _⟩ | ⟨_, rfl⟩
      · rfl
      · simp at h
      · rfl
    exact (e v h).trans (e v' h').symm)

example := C63_aggregate_valid suite f sig r.agg
example := C63_session_valid suite ⟨3, 2⟩ Y msg _ f r.fin sig r.agg

theorem Run.verify (r : Run dbg p f g sig) : sig.verify suite Y (Spec.messageHash suite msg) = .ok () :=
  (C63_verify_iff suite sig Y _).1.mpr (C63_session_valid suite ⟨3, 2⟩ Y msg _ f r.fin sig r.agg)

example := C63_not_malleable group_laws Y sig.groupCommitment (Spec.messageHash suite msg) sig.z sig.z r.verify r.verify

example := C65_exact suite ⟨3, 2⟩ Y msg _ u32_inj g r.gfin [3] r.gagg

example := C137_aggregate_text_partial suite ⟨3, 2⟩ Y msg _ u32_inj g r.gfin [3] r.gagg

example := C65_honest_not_blamed suite ⟨3, 2⟩ Y msg _ u32_inj g r.gfin [3] r.gagg dbg ⟨1, key 1⟩ [share 1, share 2] 0 (share 1) rfl rfl rfl
  (by rw [r.gsigners, mem_signers]; exact ⟨1, by simp, rfl⟩) (r.key_of 1 (by simp)) (p 1)
  (by rw [r.gsigners]; exact r.sign 1 (by simp))
  (r.gparts ⟨1, (share 1).publish⟩ (by rw [r.gsigners, mem_signers]; exact ⟨1, by simp, rfl⟩))

example := C66_culprit_found suite ⟨3, 2⟩ Y msg _ u32_inj g r.gfin (fun i => key i • suite.gen) r.gkeys r.gint [3] r.gagg

example := C66_fails_with_culprit_partial suite ⟨3, 2⟩ Y msg _ u32_inj g r.gfin (by rw [included_ops _ rfl]; simp)
  (by rw [included_ops _ rfl]; decide) (fun i => key i • suite.gen) r.gkeys r.gint _ r.gagg

example := C67_aggregate_no_panic_partial suite ⟨3, 2⟩ Y msg _ u32_inj g r.gfin (by rw [included_ops _ rfl]; simp) .outOfBounds

/-- The signing calls of the sessions, with lists in two orders. -/
theorem Run.again (r : Run dbg p f g sig) : ∃ p', (IceFrost.sign suite dbg ⟨1, key 1⟩ (Spec.messageHash suite msg) Y
    [share 2, share 1] 1 signers).1 = .ok p' := by
  refine (C55_success_iff u32_inj suite dbg ⟨1, key 1⟩ _ Y _ _ (by simp) _).mpr ?_
  obtain ⟨_, h⟩ := (C55_success_iff u32_inj suite dbg ⟨1, key 1⟩ _ Y _ _ (by simp) _).mp ⟨p 1, r.sign 1 (by simp)⟩
  exact ⟨by show (1 : UInt64).toNat < 2; decide, h⟩

example (p' : PartialSignature Fp) (h : (IceFrost.sign suite dbg ⟨1, key 1⟩ (Spec.messageHash suite msg) Y
    [share 2, share 1] 1 signers).1 = .ok p') :=
  C85_same_inputs suite dbg ⟨1, key 1⟩ [share 1, share 2] [share 2, share 1] 0 1 Y (Spec.messageHash suite msg)
    signers (p 1) p' (r.sign 1 (by simp)) h rfl

example := C97_sign_shows suite dbg ⟨1, key 1⟩ (Spec.messageHash suite msg) Y [share 1, share 2] 0 signers (p 1)
  (r.sign 1 (by simp)) (share 1) rfl rfl rfl

theorem Y_ne : Y ≠ 0 := by decide +kernel

example := C106_other_keys_partial group_laws Y Y_ne sig (Spec.messageHash suite msg)
  ((C63_verify_iff suite sig Y _).2.1.mpr (C63_session_valid suite ⟨3, 2⟩ Y msg _ f r.fin sig r.agg))

theorem shares_nodup : [share 1, share 2].Nodup := by decide +kernel

example := C117_shift suite dbg ⟨1, key 1⟩ (Spec.messageHash suite msg) Y [share 1, share 2] shares_nodup 0 signers (p 1)
  (r.sign 1 (by simp))

example := C117_remaining suite dbg [⟨⟨1, key 1⟩, Spec.messageHash suite msg, Y, 0, signers⟩] [share 1, share 2]
  shares_nodup
example := C117_front_partial suite dbg [⟨⟨1, key 1⟩, Spec.messageHash suite msg, Y, 0, signers⟩] [share 1, share 2]
  shares_nodup (by simp)

/-- Signer 1 listed with the pair it used, and with another one. -/
example := C117_mismatch_iff group_laws dbg ⟨1, key 1⟩ (Spec.messageHash suite msg) Y [share 1, share 2] 0 signers (p 1)
  (r.sign 1 (by simp)) (share 1) (share 1) rfl rfl rfl
example := C117_mismatch_iff group_laws dbg ⟨1, key 1⟩ (Spec.messageHash suite msg) Y [share 1, share 2] 0 signers (p 1)
  (r.sign 1 (by simp)) (share 1) (share 2) rfl rfl rfl

example := C118_success u32_inj suite dbg ⟨1, key 1⟩ (Spec.messageHash suite msg) Y [share 1, share 2] 0 (by simp) signers
  signers.reverse (List.reverse_perm _).symm

example := C118_list_iff group_laws dbg ⟨1, key 1⟩ (Spec.messageHash suite msg) Y [share 1, share 2] 0 signers.reverse
  signers (p 1) (r.sign 1 (by simp)) (share 1) rfl rfl rfl

example := C118_sorted_partial suite dbg ⟨3, 2⟩ Y msg ops [⟨1, (share 1).publish⟩, ⟨3, (share 3).publish⟩] (by
    refine (List.perm_ext_iff_of_nodup ?_ ?_).mpr fun s => ?_
    · refine List.Nodup.of_map (·.participantIndex) ?_
      simp
    · exact List.Nodup.of_map _ (C57_sorted (F := Fp) ⟨3, 2⟩ Y msg ops).nodup
    · rw [show (session (F := Fp) ⟨3, 2⟩ Y msg ops).state.signers = signers from rfl, mem_signers]
      simp) (by simp) ⟨1, key 1⟩ (Spec.messageHash suite msg) [share 1, share 2] 0

end

/-! ## Sessions written out -/

example := C55_failure_consumes_nothing suite true ⟨3, key 3⟩ [1, 2] 42 [share 3] 0 [] _
  (C67_sign_empty_panics suite true ⟨3, key 3⟩ [1, 2] 42 [share 3] 0 (by decide) (by simp))

example (dbg : Bool) := C55_max_position_panics u32_inj suite dbg ⟨3, key 3⟩ [1, 2] 42 [share 3] (by simp)
  [⟨1, (share 1).publish⟩, ⟨3, (share 3).publish⟩] (by simp) (by simp) (by simp)

/-- 1 and 3 included, in two orders and with a repetition. -/
def one : List (AggOp Fp Fp) := [.signer 1 (1, 2) ⟨1, 5⟩, .signer 3 (3, 4) ⟨3, 6⟩, .partialSig ⟨1, 3⟩]
def two : List (AggOp Fp Fp) := [.partialSig ⟨1, 3⟩, .signer 3 (3, 4) ⟨3, 6⟩, .signer 1 (1, 2) ⟨1, 5⟩, .partialSig ⟨1, 3⟩]

theorem one_two (op : AggOp Fp Fp) : op ∈ one ↔ op ∈ two := by
  simp only [one, two, List.mem_cons, List.not_mem_nil, or_false]
  tauto

theorem one_unique (i : U32) (v v' : (Fp × Fp) × Fp) (h : (i, v) ∈ Spec.inclusions one)
    (h' : (i, v') ∈ Spec.inclusions one) : v = v' := by
  simp only [one, Spec.inclusions, List.filterMap_cons, List.filterMap_nil, if_true, List.mem_cons, List.not_mem_nil,
    or_false, Prod.mk.injEq] at h h'
  rcases h with ⟨rfl, rfl⟩ | ⟨rfl, rfl⟩ <;> rcases h' with ⟨h1, rfl⟩ | ⟨h1, rfl⟩ <;> first | rfl | simp at h1

example := C58_signers_order ⟨3, 2⟩ (5 : Fp) [1] one two one_two
  (fun i s s' pk pk' h h' => congrArg Prod.fst (one_unique i (s, pk) (s', pk') h h'))

example := C58_order ⟨3, 2⟩ (5 : Fp) [1] one two one_two one_unique (by
    intro i z z' h h'
    simp [one, Spec.partials] at h h'
    rw [h.2, h'.2]) (by decide)

/-- The partial signature of 3 is missing. -/
example := C59_finalize suite ⟨3, 2⟩ (5 : Fp) [1] one [1, 3] (by simp) (by
    intro i
    simp [one, Spec.included, Spec.inclusions]) _ _ rfl rfl

/-- A fourth signer in a session of three. -/
def full : List (AggOp Fp Fp) := [.signer 1 (1, 2) ⟨1, 5⟩, .signer 3 (3, 4) ⟨3, 6⟩, .signer 2 (8, 9) ⟨2, 7⟩]

example := (C61_rejected_iff ⟨3, 2⟩ (5 : Fp) [1] full 4 (1, 1) ⟨4, 9⟩).mpr (Or.inr (by decide))

example := (C61_rejected_iff ⟨3, 2⟩ (5 : Fp) [1] full 3 (1, 1) ⟨4, 9⟩).mpr (Or.inl (by decide))

example (e : Error Fp Fp) (he : ((session ⟨3, 2⟩ (5 : Fp) [1] full).includeSigner 3 (1, 1) ⟨4, 9⟩).1 = .error e) :=
  C61_rejected_unchanged_partial ⟨3, 2⟩ (5 : Fp) [1] full 3 (1, 1) ⟨4, 9⟩ e he (Or.inl (by decide))

/-- One of two responses is wrong. -/
theorem some_wrong : ∃ z, ¬ Spec.PartialValid suite Y (Spec.messageHash suite msg) [⟨0, (1, 2)⟩] ⟨0, (1, 2)⟩ Y z := by
  by_contra h
  push Not at h
  exact zero_ne_one (C56_unique group_laws _ _ _ _ _ (0 : Fp) 1 (h 0) (h 1))

/-- Signer 0, with a wrong response, hides behind its index. -/
example : ∃ z f, (session ⟨3, 2⟩ Y msg [.signer 0 (1, 2) ⟨0, Y⟩, .partialSig ⟨0, z⟩]).finalize suite = .ok f ∧
    ∀ e, f.aggregate suite = .error e → e = .err .indexIsZero := by
  obtain ⟨z, hz⟩ := some_wrong
  obtain ⟨f, hf, _, h⟩ := C66_zero_index_no_report suite ⟨3, 2⟩ Y msg u32_inj (by decide) (1, 2) z hz
  exact ⟨z, f, hf, C65_zero_index_hides suite ⟨3, 2⟩ Y msg _ u32_inj f hf (List.mem_cons_self ..)⟩

/-- Both signers answer for the group key 1, which is not theirs: nobody is reported. -/
example : ∃ l f, (session ⟨3, 2⟩ (1 : Fp) msg (ops ++ l)).finalize suite = .ok f ∧
    f.aggregate suite = .error (.err (.misbehavingParticipants [])) := by
  obtain ⟨p, hp, hall⟩ := honest_session_any u32_inj suite (fun _ => true) ⟨3, 2⟩ msg [1, 3] (by decide) (by decide)
    (by decide) (by decide) key 1 (fun i => [share i, share 2])
    (fun _ _ => by simp) (fun _ => 0) share (fun _ _ => rfl) (fun _ _ => ⟨rfl, rfl⟩) ops hinc
  have e1 := (hp 1 (by simp)).1
  have e3 := (hp 3 (by simp)).1
  obtain ⟨f, f1, f2, f3, f4, f5, f6, f7, f8, f9, f10, f11⟩ := hall (good p) (fun i => (p i).z)
    (by simp [Spec.inclusions, good]) (by
      intro i hi
      simp only [List.mem_cons, List.not_mem_nil, or_false] at hi
      rcases hi with rfl | rfl <;> simp [Spec.partials, good, ops, Spec.lastOf, Spec.firstOf, e1, e3])
  refine ⟨_, f, f1, C66_empty_report suite ⟨3, 2⟩ 1 msg _ group_laws u32_inj f f1 (by rw [included_ops _ rfl]; simp)
    (by rw [included_ops _ rfl]; decide) (fun i => (p i).z) (fun i => key i • suite.gen) f8 f9 f10 ?_ ?_⟩
  · rw [f11, key_shares [1, 3] (by decide) (by decide)]
    decide +kernel
  · rw [f4]
    decide +kernel

example := C67_aggregate_empty_panics suite ⟨3, 2⟩ Y msg [.signer 1 (1, 2) ⟨4, 5⟩, .partialSig ⟨1, 3⟩] rfl

example (k : PanicSite) := C67_sign_no_panic_partial u32_inj suite true ⟨3, key 3⟩ [1, 2] 42 [share 3] 4 (by decide)
  [⟨1, (share 1).publish⟩, ⟨0, (share 3).publish⟩] (by simp) k

example := C68_last_wins ⟨3, 2⟩ (5 : Fp) [1] one full [] ⟨1, 4⟩ ⟨1, 9⟩ rfl

/-- Two responses with one commitment, to two messages with different challenges. -/
example : ∃ z z', (⟨1, z⟩ : ThresholdSignature Fp Fp).verify suite Y [1] = .ok () ∧
    (⟨1, z'⟩ : ThresholdSignature Fp Fp).verify suite Y [2] = .ok () ∧
    Y = ((z - z') / (Spec.challenge suite 1 Y [1] - Spec.challenge suite 1 Y [2])) • suite.gen := by
  obtain ⟨z, hz, _⟩ := C98_one_response group_laws Y 1 [1]
  obtain ⟨z', hz', _⟩ := C98_one_response group_laws Y 1 [2]
  exact ⟨z, z', hz, hz', C84_special_sound suite Y 1 [1] [2] z z' hz hz' (by decide +kernel)⟩

/-- Two calls on a list of three pairs. -/
example (dbg : Bool) : ∃ p p', (sign suite dbg ⟨3, key 3⟩ [1] Y [share 3, share 4, share 5] 0 [⟨3, (share 3).publish⟩]).1 = .ok p ∧
    (sign suite dbg ⟨3, key 3⟩ [2] Y (sign suite dbg ⟨3, key 3⟩ [1] Y [share 3, share 4, share 5] 0
      [⟨3, (share 3).publish⟩]).2 1 [⟨3, (share 4).publish⟩]).1 = .ok p' ∧
    (sign suite dbg ⟨3, key 3⟩ [2] Y (sign suite dbg ⟨3, key 3⟩ [1] Y [share 3, share 4, share 5] 0
      [⟨3, (share 3).publish⟩]).2 1 [⟨3, (share 4).publish⟩]).2 = [share 4] := by
  have hn : [share 3, share 4, share 5].Nodup := by decide +kernel
  obtain ⟨p, hp⟩ := (C55_success_iff u32_inj suite dbg ⟨3, key 3⟩ [1] Y [share 3, share 4, share 5] 0 (by simp)
    [⟨3, (share 3).publish⟩]).mpr ⟨by show (0 : UInt64).toNat < 3; decide, by simp, by simp, by simp⟩
  have hl : (sign suite dbg ⟨3, key 3⟩ [1] Y [share 3, share 4, share 5] 0 [⟨3, (share 3).publish⟩]).2.length = 2 := by
    obtain ⟨c, _, h, _⟩ := C55_success_consumes_one suite dbg _ _ _ _ _ _ p hp
    have := h.length_eq
    simp only [List.length_cons, List.length_nil] at this
    omega
  obtain ⟨p', hp'⟩ := (C55_success_iff u32_inj suite dbg ⟨3, key 3⟩ [2] Y
    (sign suite dbg ⟨3, key 3⟩ [1] Y [share 3, share 4, share 5] 0 [⟨3, (share 3).publish⟩]).2 1 (by rw [hl]; simp)
    [⟨3, (share 4).publish⟩]).mpr ⟨by rw [hl]; decide, by simp, by simp, by simp⟩
  exact ⟨p, p', hp, hp', (C117_wrong_pair_used suite dbg ⟨3, key 3⟩ [1] Y (share 3) (share 4) (share 5) [] hn _ p hp
    ⟨3, key 3⟩ [2] Y _ p' hp').1⟩

example (dbg : Bool) := C102_latest_list_partial codec_laws dbg [(true, ⟨⟨3, key 3⟩, [1], Y, 0, signers⟩),
  (false, ⟨⟨3, key 3⟩, [2], Y, 0, signers⟩)] [share 3, share 4] (by simp)

end IceFrost.Cases.Sign
