import Verif.Props.Blame
import Verif.Props.Secrecy

/-!
# Concrete cases for the theorems about round two and `finish`

The hypotheses of C28–C35, C86 and C87 are met by ordinary sessions.
-/

set_option linter.unusedSectionVars false
set_option linter.unusedSimpArgs false

namespace IceFrost

open Finset

variable {F G R : Type} [Field F] [DecidableEq F] [AddCommGroup G] [Module F G] [DecidableEq G]

/-- The round-two state of participant `j` when the dealers `D` with polynomials `cs` have dealt correctly. -/
def honestState (S : Suite F G R) (params : Params) (D : List U32) (cs : U32 → List F) (j : U32) : RoundTwo F G :=
  ⟨{ parameters := params, index := j, dhPrivateKey := 0, dhPublicKey := 0,
     theirCommitments := some (dealerMap S D cs), theirDhPublicKeys := [], theirEncryptedSecretShares := none,
     mySecretShares := some (BMap.ofList (D.map fun l => (l, evaluatePolynomial l j (cs l)))) }⟩

theorem honestState_holds (S : Suite F G R) (params : Params) {D : List U32} (hD : D.Nodup) (cs : U32 → List F)
    (j : U32) : HoldsVerified S (honestState S params D cs j) (dealerMap S D cs)
      (BMap.ofList (D.map fun l => (l, evaluatePolynomial l j (cs l)))) := by
  have hn : ((D.map fun l => (l, evaluatePolynomial l j (cs l))).map Prod.fst).Nodup := by
    rw [List.map_map]
    have : (Prod.fst ∘ fun l : U32 => (l, evaluatePolynomial l j (cs l))) = id := rfl
    rw [this, List.map_id]
    exact hD
  refine ⟨rfl, rfl, BMap.wf_ofList _, fun k => ?_, fun k s c hs hc => ?_⟩
  · rw [BMap.mem_keys_ofList, dealerMap_keys]
    simp
  · rw [BMap.get?_ofList hn] at hs
    obtain ⟨l, hl, he⟩ := List.mem_map.mp hs
    simp only [Prod.mk.injEq] at he
    obtain ⟨rfl, rfl⟩ := he
    obtain ⟨_, rfl⟩ := (dealerMap_get S hD cs l c).mp hc
    rw [evaluatePolynomial_eq]
    exact (pointEval_commitPoints S _ _).symm

namespace FinishExamples

open Toy

/-- The dealers 1, 2, 5 with polynomials `10 l + x`. -/
def D : List U32 := [1, 2, 5]

/-- Their polynomials. -/
def cs (l : U32) : List Fp := [(10 : Fp) * (l.toNat : Fp), 1]

theorem hD : D.Nodup := by decide

theorem dealers : DealersOk (dealerMap suite D cs) := dealerMap_ok suite hD (by decide) cs (by simp [cs])

theorem labels : ∀ k c, (dealerMap suite D cs).get? k = some c → c.index = k := by
  intro k c h
  obtain ⟨_, rfl⟩ := (dealerMap_get suite hD cs k c).mp h
  rfl

/-- C32, C33, C34 -/
example : ∃ gk sk, (honestState suite ⟨3, 2⟩ D cs 7).finish = .ok (gk, sk) ∧ sk.index = 7 ∧
      (generateFromCommitments 7 ((dealerMap suite D cs).map (·.2)) : Out Fp Fp _) = .ok (sk.toPublic suite) ∧
      (sk.toPublic suite).verify Fp ((dealerMap suite D cs).map (·.2)) = .ok () :=
  C33_finish_consistent u32_inj _ _ _ dealers (honestState_holds suite ⟨3, 2⟩ hD cs 7) labels

/-- C35: the participants 3 and 7. -/
example : ∃ key : U32 → Fp, ∃ gk : Fp, (∀ j ∈ [(3 : U32), 7], (honestState suite ⟨3, 2⟩ D cs j).finish = .ok (gk, ⟨j, key j⟩)) ∧
    Spec.interpolate [3, 7] key • suite.gen = gk := by
  have h := fun j => finish_phase group_laws u32_inj D hD (by decide) cs (by simp [cs])
    (honestState suite ⟨3, 2⟩ D cs j) _ (honestState_holds suite ⟨3, 2⟩ hD cs j)
  refine ⟨_, _, fun j _ => h j, ?_⟩
  refine C35_keys_interpolate group_laws u32_inj (dealerMap suite D cs) dealers 2 (fun k c hc => ?_) [3, 7] (by decide)
    le_rfl (honestState suite ⟨3, 2⟩ D cs) _ (fun j _ => ⟨honestState_holds suite ⟨3, 2⟩ hD cs j, rfl⟩) _ _
    (fun j _ => h j) (by simp)
  obtain ⟨_, rfl⟩ := (dealerMap_get suite hD cs k c).mp hc
  simp [commitPoints, cs]

/-- C86: one participant, 7, and the honest dealer 2 in a session with threshold 2. -/
example (δ : Fp) : ∃ (cs' : U32 → List Fp) (s key : Fp), cs' 1 = cs 1 ∧ cs' 5 = cs 5 ∧
    (honestState suite ⟨3, 2⟩ D cs 7).finish = .ok (s • suite.gen, ⟨7, key⟩) ∧
    (honestState suite ⟨3, 2⟩ D cs' 7).finish = .ok ((s + δ) • suite.gen, ⟨7, key⟩) := by
  obtain ⟨f, g, _, h⟩ := C86_group_secrecy group_laws u32_inj 2 D hD (by decide) 2 (by decide) [7] (by decide)
    (by decide) δ
  obtain ⟨s, h⟩ := h cs (fun k => if k = 2 then f (cs 2) else cs k) (by simp [cs]) (by simp [cs]) (by simp)
    (fun k _ hk => by simp [hk])
  obtain ⟨key, h1, h2⟩ := h 7 (by simp) _ _ _ _ rfl (honestState_holds suite ⟨3, 2⟩ hD cs 7) rfl
    (honestState_holds suite ⟨3, 2⟩ hD _ 7)
  exact ⟨_, s, key, by simp, by simp, h1, h2⟩

/-- C87: dealer 2 chooses its secret. -/
example : ∃ gk : Fp → Fp, Function.Bijective gk ∧ ∀ s : Fp, ∃ sk,
    (honestState suite ⟨3, 2⟩ D (fun k => if k = 2 then [s, 1] else cs k) 7).finish = .ok (gk s, sk) := by
  obtain ⟨gk, hb, h⟩ := C87_group_key_bijective group_laws u32_inj (dealerMap suite D cs) dealers 2
    ((dealerMap_keys suite D cs 2).mpr (by decide))
  refine ⟨gk, hb, fun s => ?_⟩
  have hk : (dealerMap suite D (fun k => if k = 2 then [s, 1] else cs k)).keys = (dealerMap suite D cs).keys :=
    BMap.keys_eq_of_mem (BMap.wf_ofList _) (BMap.wf_ofList _) (fun k => by rw [dealerMap_keys, dealerMap_keys])
  have hf := finish_phase group_laws u32_inj D hD (by decide) (fun k => if k = 2 then [s, 1] else cs k)
    (fun l _ => by by_cases h : l = 2 <;> simp [cs, h])
    (honestState suite ⟨3, 2⟩ D (fun k => if k = 2 then [s, 1] else cs k) 7) _ (honestState_holds suite ⟨3, 2⟩ hD _ 7)
  have := (h s (honestState suite ⟨3, 2⟩ D (fun k => if k = 2 then [s, 1] else cs k) 7) _
    [(1 : Fp) • suite.gen] 2 rfl hk ?_ ?_).2 _ hf
  · rw [← this]
    exact ⟨_, hf⟩
  · intro k hk2
    cases hc : (dealerMap suite D cs).get? k with
    | some c =>
      obtain ⟨h1, rfl⟩ := (dealerMap_get suite hD cs k c).mp hc
      exact (dealerMap_get suite hD _ k _).mpr ⟨h1, by simp [hk2]⟩
    | none =>
      cases hc' : (dealerMap suite D (fun k => if k = 2 then [s, 1] else cs k)).get? k with
      | none => rfl
      | some c =>
        obtain ⟨h1, _⟩ := (dealerMap_get suite hD _ k c).mp hc'
        have := (dealerMap_get suite hD cs k _).mpr ⟨h1, rfl⟩
        rw [hc] at this
        cases this
  · exact (dealerMap_get suite hD _ 2 _).mpr ⟨by decide, by simp [commitPoints]⟩

end FinishExamples

end IceFrost
