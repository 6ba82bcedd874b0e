import Verif.Props.Withheld
import Verif.Props.Robust

/-! # C127: complaints that do not reach everybody -/

set_option linter.unusedSectionVars false
set_option linter.unusedSimpArgs false

namespace IceFrost

open Finset

attribute [local instance low] Classical.propDecidable

variable {F G R : Type} [Field F] [DecidableEq F] [AddCommGroup G] [Module F G] [DecidableEq G]

/-- What `finish` returns to a participant whose file has lost the dealers in `X`, and has only shares of dealers. -/
theorem finish_without {S : Suite F G R} (hu : Suite.U32Inj F) (D : List U32) (hD : D.Nodup) (h0 : 0 ∉ D)
    (cs : U32 → List F) (hcs : ∀ l ∈ D, cs l ≠ []) (d e : RoundTwo F G) (m : BMap (SecretShare F)) (X : U32 → Prop)
    (hm : ∀ k ∈ m.keys, k ∈ D) (hr : Removed d e (dealerMap S D cs) m X) (D' : List U32)
    (hD' : ∀ k, k ∈ D' ↔ k ∈ D ∧ ¬ X k) :
    ∃ m' : BMap (SecretShare F), (∀ k, m'.get? k = if X k then none else m.get? k) ∧ m'.keys.Nodup ∧
      e.finish = .ok (Spec.interpolate D' (fun k => (cs k).headD 0) • S.gen,
        ⟨d.state.index, Spec.interpolate m'.keys fun k => ((m'.get? k).map (·.eval)).getD 0⟩) := by
  obtain ⟨comms', m', hh, hst, h1, h2⟩ := hr
  have hmem : ∀ k c, comms'.get? k = some c → ¬ X k ∧ k ∈ D ∧ c = ⟨k, commitPoints S (cs k)⟩ := by
    intro k c hk
    rw [h1] at hk
    by_cases hx : X k
    · rw [if_pos hx] at hk; cases hk
    · rw [if_neg hx] at hk
      exact ⟨hx, (dealerMap_get S hD cs k c).mp hk⟩
  have hkeys : ∀ k, k ∈ comms'.keys ↔ k ∈ D' := by
    intro k
    rw [hD']
    constructor
    · intro hk
      obtain ⟨c, hc⟩ := BMap.exists_get? hk
      obtain ⟨a, b, _⟩ := hmem k c hc
      exact ⟨b, a⟩
    · rintro ⟨hk, hx⟩
      refine BMap.mem_keys_of_get? (v := ⟨k, commitPoints S (cs k)⟩) ?_
      rw [h1, if_neg hx]
      exact (dealerMap_get S hD cs k _).mpr ⟨hk, rfl⟩
  have hz : 0 ∉ comms'.keys := fun h => h0 ((hD' 0).mp ((hkeys 0).mp h)).1
  have hz' : 0 ∉ m'.keys := by
    intro h
    obtain ⟨s, hs⟩ := BMap.exists_get? h
    rw [h2] at hs
    by_cases hx : X 0
    · rw [if_pos hx] at hs; cases hs
    · rw [if_neg hx] at hs
      exact h0 (hm 0 (BMap.mem_keys_of_get? hs))
  have hf := finish_ok hu e comms' hh.commits hh.wfc.nodup hz (fun k => (cs k).headD 0 • S.gen) (by
      intro k c hk
      obtain ⟨_, hkD, rfl⟩ := hmem k c hk
      have := hcs k hkD
      unfold commitPoints
      cases hck : cs k with
      | nil => exact absurd hck this
      | cons a as => simp) m' hh.shares hh.wfm.nodup hz' (fun k => ((m'.get? k).map (·.eval)).getD 0)
      (fun k s hs => by simp [hs])
  refine ⟨m', h2, hh.wfm.nodup, ?_⟩
  rw [hf, hst]
  congr 2
  unfold Spec.interpolateG Spec.interpolate
  rw [sum_smul]
  have hset : comms'.keys.toFinset = D'.toFinset := by
    ext k; simp only [List.mem_toFinset, hkeys]
  rw [hset]
  refine sum_congr rfl fun k _ => ?_
  rw [spec_lagrange_congr hkeys, mul_smul]

/-- C127, negation: dealer `l` deals a bad share to one participant only, whose complaint is upheld by those who
receive it; the others never hear of it. Both groups finish. Their group keys are equal only if the secret of `l` happens
to lie on the polynomial through the secrets of the other dealers. -/
theorem C127_undelivered_complaint {S : Suite F G R} (hg : S.GroupLaws) (hu : Suite.U32Inj F) (D : List U32) (hD : D.Nodup)
    (h0 : 0 ∉ D) (cs : U32 → List F) (hcs : ∀ l ∈ D, cs l ≠ [])
    (dbg : Bool) (d1 : RoundOne F G) (es : List EncShare) (rng : R) (made : List (Complaint F G))
    (hmade : MadeBy S dbg d1 es rng made) (hcomms : d1.state.theirCommitments = some (dealerMap S D cs))
    (c : Complaint F G) (hc : c ∈ made) (hl : c.encShare.senderIndex ∈ D)
    (d : RoundTwo F G) (m : BMap (SecretShare F)) (hd : Holds d (dealerMap S D cs) m) (hm : ∀ k ∈ m.keys, k ∈ D)
    (hdh : d.state.theirDhPublicKeys = d1.state.theirDhPublicKeys)
    (hn : c.encShare.senderIndex.toNat ≤ d.state.parameters.n.toNat)
    (d' : RoundTwo F G) (m' : BMap (SecretShare F)) (hd' : Holds d' (dealerMap S D cs) m') (hm' : ∀ k ∈ m'.keys, k ∈ D) :
    ∃ (e e' : RoundTwo F G) (keys : List G) (gk gk' : G) (sk sk' : IndividualSigningKey F),
      d.blame S [c] = .ok (e, keys) ∧ e.finish = .ok (gk, sk) ∧
      d'.blame S [] = .ok (e', []) ∧ e'.finish = .ok (gk', sk') ∧
      (gk = gk' ↔ (cs c.encShare.senderIndex).headD 0 =
        Spec.predicted (D.filter fun k => k ≠ c.encShare.senderIndex) (fun k => (cs k).headD 0) c.encShare.senderIndex) := by
  obtain ⟨e, pk, b1, _, b2⟩ := C39_justified_complaint S dbg d1 es rng made hmade _ hcomms c hc d m hd hdh
    (fun h => h0 (h ▸ hl)) hn
  obtain ⟨m2, _, _, f1⟩ := finish_without hu D hD h0 cs hcs d e m _ hm b2
    (D.filter fun k => k ≠ c.encShare.senderIndex) (fun k => by simp [List.mem_filter])
  obtain ⟨e', keys', c1, c2, l', _, c3, c4⟩ := blame_removed S d' (dealerMap S D cs) m' hd' []
  have hl' : l' = [] := by
    cases l' with
    | nil => rfl
    | cons a as =>
      obtain ⟨x, hx, _⟩ := (c3 a).mp (List.mem_cons_self ..)
      cases hx
  rw [c4, hl'] at c1
  obtain ⟨m3, _, _, f2⟩ := finish_without hu D hD h0 cs hcs d' e' m' _ hm' c2 D (fun k => by simp)
  refine ⟨e, e', _, _, _, _, _, b1, f1, c1, f2, ?_⟩
  have h := C122_one_missing hu D (D.filter fun k => k ≠ c.encShare.senderIndex) h0 _ hl
    (fun k => by simp [List.mem_filter]) (fun k => (cs k).headD 0)
  rw [← h]
  exact ⟨fun hgk => hg.gen_inj _ _ hgk, fun heq => by rw [heq]⟩

/-- C127, what holds: participants whose sets of received complaints lead to the same verdicts agree, even if the
complaints differ. Missing: the crate does not make sure that complaints reach everybody. -/
theorem C127_same_verdicts_partial (S : Suite F G R) (d1 d2 : RoundTwo F G) (comms : BMap (VssCommitment G))
    (m1 m2 : BMap (SecretShare F)) (hd1 : Holds d1 comms m1) (hd2 : Holds d2 comms m2) (all all' : List (Complaint F G))
    (h : ∀ k, (∃ c ∈ all, k = verdict S d1.state comms c) ↔ ∃ c ∈ all', k = verdict S d2.state comms c) :
    ∃ e1 e2 keys keys', d1.blame S all = .ok (e1, keys) ∧ d2.blame S all' = .ok (e2, keys') ∧
      ∀ gk gk' sk sk', e1.finish = .ok (gk, sk) → e2.finish = .ok (gk', sk') → gk = gk' := by
  obtain ⟨e1, keys, a1, ⟨c1, n1, h1, _, k1, _⟩, _⟩ := blame_removed S d1 comms m1 hd1 all
  obtain ⟨e2, keys', a2, ⟨c2, n2, h2, _, k2, _⟩, _⟩ := blame_removed S d2 comms m2 hd2 all'
  refine ⟨e1, e2, keys, keys', a1, a2, fun gk gk' sk sk' f1 f2 => C34_same_group_key e1 e2 ?_ gk gk' sk sk' f1 f2⟩
  rw [h1.commits, h2.commits]
  congr 1
  refine BMap.ext h1.wfc h2.wfc fun k => ?_
  rw [k1, k2]
  by_cases hx : ∃ c ∈ all, k = verdict S d1.state comms c
  · rw [if_pos hx, if_pos ((h k).mp hx)]
  · rw [if_neg hx, if_neg fun hy => hx ((h k).mpr hy)]

end IceFrost
