import Verif.Cases.RoundOne
import Verif.Props.Degree

/-! # Resharings in which the threshold changes unnoticed (C125) -/

set_option linter.unusedSectionVars false
set_option linter.unusedVariables false

namespace IceFrost.Cases

open Toy


theorem flat_lawful : flat.Lawful :=
  ⟨withFieldHash_group group_laws _, withFieldHash_codec codec_laws _, withFieldHash_cipher cipher_laws _, u32_inj⟩

/-- The record of a single dealer that commits to `4 + 5X + 6X²`. -/
def longDealer : Participant Fp Fp := ⟨1, 5, some ⟨1, [4, 5, 6]⟩, some ⟨3, 8⟩, ⟨3, 8⟩⟩

theorem longDealer_ok : ∀ l ∈ [(1 : U32)], longDealer.index = l ∧
    longDealer.commitments = some ⟨l, [(4 : Fp), 5, 6].map (· • flat.gen)⟩ ∧
    longDealer.dhPublicKey = (5 : Fp) • flat.gen ∧ Spec.DealerValid flat longDealer := by
  intro l hl
  rw [List.mem_singleton.mp hl]
  have hv : ∀ pk, Spec.PokValid flat 1 pk ⟨3, 8⟩ := fun pk => rfl
  refine ⟨rfl, by decide +kernel, by decide +kernel, hv _, _, 4, _, rfl, rfl, rfl, hv 4⟩

theorem longDealer_shares : ∃ E : U32 → U32 → EncShare, ∀ l ∈ [(1 : U32)], ∀ i ∈ [(1 : U32), 2],
    HonestlyDealt flat l i 5 [4, 5, 6] ((7 : Fp) • flat.gen) (E l i) := by
  have h : ∀ l i : U32, ∃ e, HonestlyDealt flat l i 5 [4, 5, 6] ((7 : Fp) • flat.gen) e := by
    intro l i
    obtain ⟨e, r, h, _⟩ := encryptShare_ok flat_lawful.cipher flat_lawful.codec
      (evaluatePolynomial l i [(4 : Fp), 5, 6]) (flat.encG ((5 : Fp) • (7 : Fp) • flat.gen)) 0
    exact ⟨e, 0, r, h⟩
  choose E hE using h
  exact ⟨E, fun l _ i _ => hE l i⟩

/-- One dealer, two new signers, three committed points: both signers finish with the key `4 • gen`, and their two keys
together do not give the secret 4. -/
example (dbg : Bool) : ∃ (E : U32 → U32 → EncShare) (d1 : U32 → RoundOne Fp Fp) (d2 : U32 → RoundTwo Fp Fp) (key : U32 → Fp),
    (∀ i ∈ [(1 : U32), 2], dkgNew flat dbg ⟨1, 1⟩ 7 i [longDealer] 0 = .ok (d1 i, ⟨[longDealer], none⟩) ∧
      (d1 i).toRoundTwo flat dbg [E 1 i] 0 = .ok (d2 i, []) ∧
      (d2 i).finish = .ok (Spec.interpolate [1] (fun _ => (4 : Fp)) • flat.gen, ⟨i, key i⟩)) ∧
    Spec.interpolate [1, 2] key ≠ Spec.interpolate [1] (fun _ => (4 : Fp)) := by
  obtain ⟨E, hE⟩ := longDealer_shares
  obtain ⟨d1, d2, key, h, _, h2⟩ := C125_lockout flat_lawful dbg [1] (by decide) (by decide) ⟨1, 1⟩ rfl (by decide)
    (by decide) (fun _ => longDealer) (fun _ => [4, 5, 6]) (fun _ => 5) longDealer_ok [1, 2] (fun _ => 7) E hE
    (fun _ => [1]) (fun _ => [1]) (fun _ _ => ⟨List.Perm.refl _, List.Perm.refl _⟩) (fun _ => 0) (fun _ => 0)
  exact ⟨E, d1, d2, key, h, h2 [1, 2] (by decide) (by decide) (List.Subset.refl _) 1 (by decide) rfl (by decide +kernel)
    (fun l hl hne => absurd (List.mem_singleton.mp hl) hne)⟩

/-- With three signers the same commitment does no harm. -/
example (dbg : Bool) : ∃ (E : U32 → U32 → EncShare) (gk : U32 → Fp) (key : U32 → Fp) (s : Fp),
    (∀ i ∈ [(1 : U32), 2], gk i = s • flat.gen) ∧ ∀ J : List U32, J.Nodup → J ⊆ [1, 2] → 3 ≤ J.length →
      Spec.interpolate J key = s := by
  obtain ⟨E, hE⟩ := longDealer_shares
  obtain ⟨d1, d2, key, h, _, _⟩ := C125_lockout flat_lawful dbg [1] (by decide) (by decide) ⟨1, 1⟩ rfl (by decide)
    (by decide) (fun _ => longDealer) (fun _ => [4, 5, 6]) (fun _ => 5) longDealer_ok [1, 2] (fun _ => 7) E hE
    (fun _ => [1]) (fun _ => [1]) (fun _ _ => ⟨List.Perm.refl _, List.Perm.refl _⟩) (fun _ => 0) (fun _ => 0)
  obtain ⟨s, hs, hs'⟩ := C125_short_commitments_partial flat_lawful dbg [1] (by decide) (by decide) ⟨1, 1⟩ rfl (by decide)
    (by decide) (fun _ => longDealer) (fun _ => [4, 5, 6]) (fun _ => 5) longDealer_ok 3 (fun _ _ => le_rfl) [1, 2]
    (fun _ => 7) E hE (fun _ => [1]) (fun _ => [1]) (fun _ _ => ⟨List.Perm.refl _, List.Perm.refl _⟩) (fun _ => 0)
    (fun _ => 0) d1 d2 _ key (fun i hi => (h i hi).1) (fun i hi => (h i hi).2.1) (fun i hi => (h i hi).2.2)
  exact ⟨E, _, key, s, hs, hs'⟩

/-- Dealer 3 of a resharing uses threshold 3 instead of 2. Its last committed point is not zero. -/
theorem raised_last (dbg : Bool) (ps : List (Participant Fp Fp)) (p : Participant Fp Fp) (m : BMap EncShare)
    (L : ParticipantList Fp Fp) (h : reshare suite dbg ⟨3, 3⟩ ⟨3, Spec.polyEval [(42 : Fp), 7] (u32F Fp 3)⟩ ps 0 = .ok (p, m, L)) :
    ∀ c, p.commitments = some c → c.points.getLast? ≠ some 0 := by
  have hk : (match newInternal suite ⟨3, 3⟩ false 3 (some (Spec.polyEval [(42 : Fp), 7] (u32F Fp 3))) 0 with
      | .error _ => false
      | .ok ((q, _, _), _) => match q.commitments with
        | none => true
        | some c => decide (c.points.getLast? ≠ some 0)) = true := by
    rw [show Spec.polyEval [(42 : Fp), 7] (u32F Fp 3) = 63 by simp [Spec.polyEval, u32F, Finset.sum_range_succ]; decide]
    decide +kernel
  unfold reshare at h
  cases hn : newInternal suite ⟨3, 3⟩ false 3 (some (Spec.polyEval [(42 : Fp), 7] (u32F Fp 3))) 0 with
  | error f => rw [hn] at hk; simp at hk
  | ok v =>
    obtain ⟨⟨q, cs, dh⟩, r⟩ := v
    rw [hn] at hk
    simp only [hn] at h
    have hq : p = q := by
      cases cs with
      | none => cases h
      | some cs =>
        simp only at h
        split at h
        · cases h
        · split at h
          · cases h
          · cases h; rfl
    intro c hc
    simp only [← hq, hc] at hk
    exact of_decide_eq_true hk

/-- Dealers 1 and 3 reshare, the latter with the wrong threshold. No two of the signers 4, 5, 6 have the secret between them, although threshold 2 was announced. -/
example (dbg : Bool) : ∃ (d2 : U32 → RoundTwo Fp Fp) (key' : U32 → Fp),
    (∀ i ∈ [(4 : U32), 5, 6], (d2 i).finish = .ok (Spec.polyEval [(42 : Fp), 7] 0 • suite.gen, ⟨i, key' i⟩)) ∧
    (∀ J : List U32, J.Nodup → J ⊆ [4, 5, 6] → J.length = 2 → Spec.interpolate J key' ≠ Spec.polyEval [(42 : Fp), 7] 0) ∧
    Spec.interpolate [4, 5, 6] key' = Spec.polyEval [(42 : Fp), 7] 0 := by
  obtain ⟨Q, y, h1, P, m, h2, E, h3, d1, h4, d2, h5, key', h6, h7, h8⟩ := C125_one_dealer_raises lawful dbg [1, 3]
    (fun i => Spec.polyEval [(42 : Fp), 7] (u32F Fp i)) ⟨2, 2⟩ ⟨3, 2⟩ [4, 5, 6]
    ⟨by decide, by decide, by decide, by decide, rfl, rfl, by decide, by decide, by decide, by decide⟩ _
    (interpolate_polyEval u32_inj (by decide) _ (by decide)) 3 (by decide) 3 rfl (by decide) (fun _ => 0) (fun _ => 0)
    (fun _ => 0) (fun _ => 0) (fun _ => [4, 5, 6]) (fun _ => [1, 3]) (fun _ => [1, 3]) (fun _ _ => List.Perm.refl _)
    (fun _ _ => ⟨List.Perm.refl _, List.Perm.refl _⟩)
  exact ⟨d2, key', h6, fun J hJ hs hl => h7 (raised_last dbg _ _ _ _ (h2 3 (by decide))) J hJ hs hl,
    h8 _ (by decide) (List.Subset.refl _) (by decide)⟩

end IceFrost.Cases
