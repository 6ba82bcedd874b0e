import Verif.Props.SignEndToEnd
import Verif.Toy

/-! # Concrete cases for the theorems on signing and aggregation (C52–C68)

Three participants with threshold 2 share the secret 42 with the polynomial `42 + 7 x`; 1 and 3 sign. -/

set_option linter.unusedSectionVars false

namespace IceFrost.SigningExamples

open Toy

def key (i : U32) : Fp := Spec.polyEval [(42 : Fp), 7] (u32F Fp i)

theorem key_shares (J : List U32) (hJ : J.Nodup) (h : 2 ≤ J.length) : Spec.interpolate J key = Spec.polyEval [(42 : Fp), 7] 0 :=
  interpolate_polyEval u32_inj hJ _ h

/-- A nonce pair for every signer. -/
def share (i : U32) : CommitmentShare Fp Fp :=
  ⟨⟨u32F Fp i + 5, (u32F Fp i + 5) • suite.gen⟩, ⟨u32F Fp i + 9, (u32F Fp i + 9) • suite.gen⟩⟩

/-- Inclusion of 3 and 1, in this order, with one repetition and one inclusion with a mismatched index. -/
def ops : List (AggOp Fp Fp) :=
  [.signer 3 (share 3).publish ⟨3, key 3 • suite.gen⟩, .signer 1 (share 1).publish ⟨1, key 1 • suite.gen⟩,
    .signer 2 (share 2).publish ⟨7, key 2 • suite.gen⟩, .signer 3 (share 3).publish ⟨3, key 3 • suite.gen⟩]

theorem inclusions_ops : Spec.inclusions ops = [(3, (share 3).publish, key 3 • suite.gen),
    (1, (share 1).publish, key 1 • suite.gen), (3, (share 3).publish, key 3 • suite.gen)] := by
  simp [Spec.inclusions, ops]

theorem hinc (e : U32 × (Fp × Fp) × Fp) :
    e ∈ Spec.inclusions ops ↔ ∃ i ∈ [(1 : U32), 3], e = (i, (share i).publish, key i • suite.gen) := by
  rw [inclusions_ops]
  simp only [List.mem_cons, List.not_mem_nil, or_false, exists_eq_or_imp, exists_eq_left]
  tauto

/-- C64, C63, C59: a signature comes out. -/
example : ∃ ops' f sig, (session ⟨3, 2⟩ (Spec.polyEval [(42 : Fp), 7] 0 • suite.gen) (strBytes "hello")
      (ops ++ ops')).finalize suite = .ok f ∧ f.aggregate suite = .ok sig ∧
      sig.verify suite (Spec.polyEval [(42 : Fp), 7] 0 • suite.gen) (Spec.messageHash suite (strBytes "hello")) = .ok () := by
  obtain ⟨p, hp, h⟩ := C64_honest_signing u32_inj suite (fun _ => true) ⟨3, 2⟩ (strBytes "hello") [1, 3] (by decide)
    (by decide) (by decide) (by decide) key _ (key_shares [1, 3] (by decide) (by decide)) (fun i => [share i, share 2])
    (fun _ _ => by simp) (fun _ => 0) share (fun _ _ => rfl) (fun _ _ => ⟨rfl, rfl⟩) ops hinc
  obtain ⟨f, sig, h1, h2, _, h3⟩ := h [.partialSig (p 3), .partialSig (p 1)] (by simp [Spec.inclusions]) (by
    intro i hi
    have e1 := (hp 1 (by simp)).1
    have e3 := (hp 3 (by simp)).1
    simp only [List.mem_cons, List.not_mem_nil, or_false] at hi
    rcases hi with rfl | rfl <;> simp [Spec.partials, ops, Spec.lastOf, Spec.firstOf, e1, e3])
  exact ⟨_, f, sig, h1, h2, h3⟩

/-- C65, C66: signer 3 adds 1 to its partial signature and is reported, alone. -/
example : ∃ ops' f, (session ⟨3, 2⟩ (Spec.polyEval [(42 : Fp), 7] 0 • suite.gen) (strBytes "hello")
      (ops ++ ops')).finalize suite = .ok f ∧ f.aggregate suite = .error (.err (.misbehavingParticipants [3])) := by
  obtain ⟨p, hp, h⟩ := C66_deviators_reported group_laws u32_inj (fun _ => true) ⟨3, 2⟩ (strBytes "hello") [1, 3]
    (by decide) (by decide) (by decide) (by decide) key _ (key_shares [1, 3] (by decide) (by decide))
    (fun i => [share i, share 2]) (fun _ _ => by simp) (fun _ => 0) share (fun _ _ => rfl) (fun _ _ => ⟨rfl, rfl⟩)
    ops hinc
  obtain ⟨f, h1, _, h2⟩ := h [.partialSig ⟨1, (p 1).z⟩, .partialSig ⟨3, (p 3).z + 1⟩]
    (fun i => if i = 3 then (p 3).z + 1 else (p i).z) (by simp [Spec.inclusions]) (by
      intro i hi
      simp only [List.mem_cons, List.not_mem_nil, or_false] at hi
      rcases hi with rfl | rfl <;> simp [Spec.partials, ops, Spec.lastOf, Spec.firstOf])
  obtain ⟨l, h3, h4, h5⟩ := h2 (by
    simp only [List.map_cons, List.map_nil, List.sum_cons, List.sum_nil, if_pos, add_zero]
    rw [if_neg (by decide)]
    intro hc
    have := add_left_cancel hc
    exact one_ne_zero (add_eq_left.mp this))
  refine ⟨_, f, h1, ?_⟩
  have hl : l = [3] := by
    refine eq_of_strict_of_mem h4 (List.pairwise_singleton _ _) fun i => ?_
    rw [h5]
    simp only [List.mem_cons, List.not_mem_nil, or_false]
    constructor
    · rintro ⟨rfl | rfl, hne⟩
      · exact absurd (if_neg (by decide)) hne
      · rfl
    · rintro rfl
      refine ⟨Or.inr rfl, ?_⟩
      rw [if_pos rfl]
      intro hc
      exact one_ne_zero (add_eq_left.mp hc)
  rw [h3, hl]

/-- C55, C56: a signer that is listed with its commitments signs. -/
example : ∃ p, (sign suite true ⟨3, key 3⟩ [1, 2] 42 [share 3] 0 [⟨1, (share 1).publish⟩, ⟨3, (share 3).publish⟩]).1 =
      .ok p ∧ Spec.PartialValid suite 42 [1, 2] [⟨1, (share 1).publish⟩, ⟨3, (share 3).publish⟩]
        ⟨3, (share 3).publish⟩ (key 3 • suite.gen) p.z := by
  obtain ⟨p, hp⟩ := (C55_success_iff u32_inj suite true ⟨3, key 3⟩ [1, 2] 42 [share 3] 0 (by decide)
    [⟨1, (share 1).publish⟩, ⟨3, (share 3).publish⟩]).mpr ⟨by decide, by simp, by simp, by simp⟩
  exact ⟨p, hp, (C56_share_equation suite true ⟨3, key 3⟩ [1, 2] 42 [share 3] 0 _ p hp (share 3) rfl rfl rfl
    (by simp)).2⟩

/-- C54, C55: one successful and one failing call; one share is used. -/
example : (usedShares (signHistory suite true
    [⟨⟨3, key 3⟩, [1], 42, 0, [⟨3, (share 3).publish⟩]⟩, ⟨⟨3, key 3⟩, [1], 42, 5, [⟨3, (share 3).publish⟩]⟩]
    [share 3, share 4]).1).length = 1 := by
  obtain ⟨p, hp⟩ := (C55_success_iff u32_inj suite true ⟨3, key 3⟩ [1] 42 [share 3, share 4] 0 (by decide)
    [⟨3, (share 3).publish⟩]).mpr ⟨by decide, by simp, by simp, by simp⟩
  obtain ⟨c, h1, h2, _⟩ := C55_success_consumes_one suite true _ _ _ _ _ _ p hp
  have hl := h2.length_eq
  have h3 := (C55_missing_iff_partial u32_inj suite true ⟨3, key 3⟩ [1] 42
    (sign suite true ⟨3, key 3⟩ [1] 42 [share 3, share 4] 0 [⟨3, (share 3).publish⟩]).2 5 (by decide)
    [⟨3, (share 3).publish⟩]).mpr (by
      have : (5 : UInt64).toNat = 5 := rfl
      simp only [List.length_cons, List.length_nil] at hl
      omega)
  simp only [signHistory, usedShares, List.filterMap_cons, List.filterMap_nil, hp, h3]
  rfl

/-- C52: the draws of the toy generator differ, and a hash that reads off the drawn bytes separates them. -/
example : (generateCommitmentShareLists { suite with fieldHash := fun _ m => (leNat (m.take 5) : Fp) } 0 ⟨3, key 3⟩
    2).2.Nodup := by
  refine (C52_nodup _ 0 ⟨3, key 3⟩ 2 ?_ ?_).1
  · show (Spec.draws suite 8 4 0).Nodup
    decide
  · have hd : Spec.draws { suite with fieldHash := fun _ m => (leNat (m.take 5) : Fp) } 8 4 0 =
        [leBytes 8 0, leBytes 8 1, leBytes 8 2, leBytes 8 3] := rfl
    have hn : ∀ k : Nat, k < 4 → Spec.nonce { suite with fieldHash := fun _ m => (leNat (m.take 5) : Fp) } ⟨3, key 3⟩
        (leBytes 8 k) = (k : Fp) := by
      intro k hk
      show ((leNat ((leBytes 8 k ++ _).take 5) : Nat) : Fp) = _
      rw [List.take_append_of_le_length (by rw [leBytes_length]; omega)]
      have : leNat ((leBytes 8 k).take 5) = k := by
        interval_cases k <;> rfl
      rw [this]
    have hinj : ∀ k k' : Nat, k < 4 → k' < 4 → (k : Fp) = (k' : Fp) → k = k' := by
      intro k k' hk hk' h
      have := congrArg ZMod.val h
      rwa [ZMod.val_natCast_of_lt (by omega), ZMod.val_natCast_of_lt (by omega)] at this
    intro a ha b hb h
    have e : ∀ a ∈ Spec.draws { suite with fieldHash := fun _ m => (leNat (m.take 5) : Fp) } 8 4 0,
        ∃ k, k < 4 ∧ a = leBytes 8 k := by
      intro a ha
      rw [hd] at ha
      simp only [List.mem_cons, List.not_mem_nil, or_false] at ha
      rcases ha with rfl | rfl | rfl | rfl
      exacts [⟨0, by omega, rfl⟩, ⟨1, by omega, rfl⟩, ⟨2, by omega, rfl⟩, ⟨3, by omega, rfl⟩]
    obtain ⟨k, hk, rfl⟩ := e a ha
    obtain ⟨k', hk', rfl⟩ := e b hb
    rw [hn k hk, hn k' hk'] at h
    rw [hinj k k' hk hk' h]

/-- C61: one signer in a session of one; a second one is rejected and poisons the session. -/
example := C61_rejected_poisons suite ⟨1, 1⟩ (5 : Fp) [] [.signer 1 (1, 2) ⟨1, 5⟩, .partialSig ⟨1, 3⟩] [] 2 (7, 8) 9
  (by simp [Spec.included, Spec.inclusions]) (by simp [Spec.included, Spec.inclusions])

/-- C58: the two orders of including 1 and 3. -/
example := C58_permuted suite ⟨3, 2⟩ (5 : Fp) [1] [.signer 1 (1, 2) ⟨1, 5⟩, .signer 3 (3, 4) ⟨3, 6⟩, .partialSig ⟨1, 3⟩]
  [.partialSig ⟨1, 3⟩, .signer 3 (3, 4) ⟨3, 6⟩, .signer 1 (1, 2) ⟨1, 5⟩] (by
    refine (List.Perm.swap _ _ _).trans ?_
    exact ((List.Perm.swap _ _ _).cons _).trans (List.Perm.swap _ _ _ |>.trans ((List.Perm.refl _)))) (by
    intro i v v' h h'
    simp only [Spec.inclusions, List.filterMap_cons, List.filterMap_nil, if_true, List.mem_cons, List.not_mem_nil,
      or_false, Prod.mk.injEq] at h h'
    rcases h with ⟨rfl, rfl⟩ | ⟨rfl, rfl⟩ <;> rcases h' with ⟨h1, rfl⟩ | ⟨h1, rfl⟩ <;> first | rfl | simp at h1) (by
    intro i z z' h h'
    simp [Spec.partials] at h h'
    rw [h.2, h'.2]) (by simp [Spec.included, Spec.inclusions])

/-- C68: a partial signature of 2 in the session of 1 and 3. -/
example := C68_outsider suite ⟨3, 2⟩ (5 : Fp) [1] ops [] ⟨2, 8⟩ (by simp [Spec.included, inclusions_ops])

end IceFrost.SigningExamples
