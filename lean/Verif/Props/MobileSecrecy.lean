import Verif.Props.Secrecy
import Verif.Props.FinishExamples

/-! # C96: secrecy across a refresh or resharing -/

set_option linter.unusedSectionVars false
set_option linter.unusedSimpArgs false

namespace IceFrost

open Finset

attribute [local instance] Classical.propDecidable

variable {F G R : Type} [Field F] [DecidableEq F] [AddCommGroup G] [Module F G] [DecidableEq G]

/-- C96: let the old signing keys be the values of a polynomial with coefficients `cs` (length `t`), let fewer than
`t` old participants `A` be corrupted before the resharing and fewer than `t'` new participants `B` after it. For
every shift `δ` of the group secret there is a permutation `f` of the old polynomials that keeps the keys of `A`, and
for each old polynomial permutations `φ i` of the polynomials that the dealers `i` deal with, such that: corrupted
dealers deal the same polynomials, all dealers deal their own key before and after, no share dealt to `B` changes,
and the participants in `B` finish with the same signing keys, while the group key moves from `s` to `s + δ` times the
generator. So no secret is more compatible than another with the shares and keys that `A` and `B` saw, even together.
(The commitments, which determine the group key, are not part of the view.) -/
theorem C96_reshare_secrecy {S : Suite F G R} (hg : S.GroupLaws) (hu : Suite.U32Inj F) (t t' : Nat)
    (A : List U32) (hA0 : 0 ∉ A) (hA : A.length < t) (B : List U32) (hB0 : 0 ∉ B) (hB : B.length < t')
    (D : List U32) (hD : D.Nodup) (h0 : 0 ∉ D) (htD : t ≤ D.length) (δ : F) :
    ∃ f g : List F → List F, (∀ cs, cs.length = t → (f cs).length = t ∧ (g cs).length = t ∧ g (f cs) = cs ∧
        f (g cs) = cs ∧ (f cs).headD 0 = cs.headD 0 + δ ∧
        ∀ a ∈ A, Spec.polyEval (f cs) (u32F F a) = Spec.polyEval cs (u32F F a)) ∧
      ∀ cs, cs.length = t → ∃ φ ψ : U32 → List F → List F,
        (∀ i, ∀ c : List F, c.length = t' → (φ i c).length = t' ∧ (ψ i c).length = t' ∧ ψ i (φ i c) = c ∧
          φ i (ψ i c) = c ∧ (i ∈ A → φ i c = c) ∧
          (c.headD 0 = Spec.polyEval cs (u32F F i) ↔ (φ i c).headD 0 = Spec.polyEval (f cs) (u32F F i)) ∧
          ∀ b ∈ B, evaluatePolynomial i b (φ i c) = evaluatePolynomial i b c) ∧
        ∀ c : U32 → List F, (∀ i ∈ D, (c i).length = t' ∧ (c i).headD 0 = Spec.polyEval cs (u32F F i)) →
          ∀ b ∈ B, ∀ d d' m m',
          d.state.index = b → HoldsVerified S d (dealerMap S D c) m →
          d'.state.index = b → HoldsVerified S d' (dealerMap S D fun i => φ i (c i)) m' →
          ∃ key, d.finish = .ok (cs.headD 0 • S.gen, ⟨b, key⟩) ∧
            d'.finish = .ok ((cs.headD 0 + δ) • S.gen, ⟨b, key⟩) := by
  obtain ⟨f, g, hfg⟩ := C10_secrecy_bijection hu t A hA0 hA δ
  have hev : ∀ cs : List F, cs.length = t → ∀ a ∈ A,
      Spec.polyEval (f cs) (u32F F a) = Spec.polyEval cs (u32F F a) := by
    intro cs hcs a ha
    have := congrArg SecretShare.eval ((hfg cs hcs).2.2.2.2.2 0 a ha)
    rwa [evaluatePolynomial_eq, evaluatePolynomial_eq] at this
  refine ⟨f, g, fun cs hcs => ?_, fun cs hcs => ?_⟩
  · obtain ⟨h1, h2, h3, h4, h5, _⟩ := hfg cs hcs
    exact ⟨h1, h2, h3, h4, h5, hev cs hcs⟩
  obtain ⟨h1, _, _, _, h5, _⟩ := hfg cs hcs
  choose φ ψ hφ using fun i : U32 => C10_secrecy_bijection hu t' B hB0 hB
    (Spec.polyEval (f cs) (u32F F i) - Spec.polyEval cs (u32F F i))
  have hall : ∀ i, ∀ c : List F, c.length = t' →
      (if i ∈ A then c else φ i c).length = t' ∧ (if i ∈ A then c else ψ i c).length = t' ∧
      (if i ∈ A then c else φ i c).headD 0 =
        c.headD 0 + (Spec.polyEval (f cs) (u32F F i) - Spec.polyEval cs (u32F F i)) ∧
      ∀ b ∈ B, evaluatePolynomial i b (if i ∈ A then c else φ i c) = evaluatePolynomial i b c := by
    intro i c hc
    by_cases hi : i ∈ A
    · simp only [hi, if_true]
      refine ⟨hc, hc, ?_, fun _ _ => trivial⟩
      rw [hev cs hcs i hi]; ring
    · simp only [hi, if_false]
      obtain ⟨k1, k2, k3, k4, k5, k6⟩ := hφ i c hc
      exact ⟨k1, k2, k5, k6 i⟩
  refine ⟨fun i c => if i ∈ A then c else φ i c, fun i c => if i ∈ A then c else ψ i c, ?_, ?_⟩
  · intro i c hc
    obtain ⟨k1, k2, k3, k4⟩ := hall i c hc
    refine ⟨k1, k2, ?_, ?_, fun hi => if_pos hi, ?_, k4⟩
    · by_cases hi : i ∈ A
      · simp only [hi, if_true]
      · simp only [hi, if_false]; exact (hφ i c hc).2.2.1
    · by_cases hi : i ∈ A
      · simp only [hi, if_true]
      · simp only [hi, if_false]; exact (hφ i c hc).2.2.2.1
    · rw [k3]
      constructor
      · intro h; rw [h]; ring
      · intro h; linear_combination h
  · intro c hc b hb d d' m m' hi hV hi' hV'
    set c' : U32 → List F := fun i => if i ∈ A then c i else φ i (c i) with hc'
    have hne : ∀ k ∈ D, c k ≠ [] := by
      intro k hk he
      have := (hc k hk).1
      rw [he, List.length_nil] at this
      omega
    have hne' : ∀ k ∈ D, c' k ≠ [] := by
      intro k hk he
      have := (hall k (c k) (hc k hk).1).1
      rw [show (if k ∈ A then c k else φ k (c k)) = c' k from rfl, he, List.length_nil] at this
      omega
    have e := finish_phase hg hu D hD h0 c hne d m hV
    have e' := finish_phase hg hu D hD h0 c' hne' d' m' hV'
    rw [hi] at e
    rw [hi'] at e'
    have hs : Spec.interpolate D (fun l => (c l).headD 0) = cs.headD 0 := by
      rw [interpolate_congr (g := fun l => Spec.polyEval cs (u32F F l)) (fun i hi => (hc i hi).2),
        interpolate_polyEval hu hD cs (by omega), Spec.polyEval_zero]
    have hs' : Spec.interpolate D (fun l => (c' l).headD 0) = cs.headD 0 + δ := by
      rw [interpolate_congr (g := fun l => Spec.polyEval (f cs) (u32F F l)) (fun i hi => by
          have := (hall i (c i) (hc i hi).1).2.2.1
          rw [(hc i hi).2] at this
          exact this.trans (by ring)),
        interpolate_polyEval hu hD (f cs) (by omega), Spec.polyEval_zero, h5]
    rw [hs] at e
    rw [hs'] at e'
    refine ⟨_, e, ?_⟩
    rw [e']
    congr 3
    refine sum_congr rfl fun k hk => ?_
    have hkD := List.mem_toFinset.mp hk
    have := congrArg SecretShare.eval ((hall k (c k) (hc k hkD).1).2.2.2 b hb)
    rw [evaluatePolynomial_eq, evaluatePolynomial_eq] at this
    congr 1

/-! ### An instance: old threshold 2 over `{1, 2, 5}` with participant 1 corrupted, new threshold 2 with 7 corrupted -/

section Examples

open Toy FinishExamples

/-- Dealers 1, 2, 5 share their keys `10 + i` (values at `i` of `10 + X`) with polynomials of length 2. -/
def newPolys (l : U32) : List Fp := [(10 : Fp) + (l.toNat : Fp), 3]

example (δ : Fp) : ∃ (f : List Fp → List Fp) (c' : U32 → List Fp) (key : Fp),
    (f [10, 1]).headD 0 = 10 + δ ∧ Spec.polyEval (f [10, 1]) (u32F Fp 1) = Spec.polyEval [10, 1] (u32F Fp 1) ∧
    c' 1 = newPolys 1 ∧
    (honestState suite ⟨3, 2⟩ D newPolys 7).finish = .ok ((10 : Fp) • suite.gen, ⟨7, key⟩) ∧
    (honestState suite ⟨3, 2⟩ D c' 7).finish = .ok (((10 : Fp) + δ) • suite.gen, ⟨7, key⟩) := by
  obtain ⟨f, g, h1, h2⟩ := C96_reshare_secrecy (S := suite) group_laws u32_inj 2 2 [1] (by decide) (by decide) [7]
    (by decide) (by decide) D hD (by decide) (by decide) δ
  obtain ⟨φ, ψ, h3, h4⟩ := h2 [10, 1] rfl
  have hnp : ∀ i, (newPolys i).length = 2 ∧ (newPolys i).headD 0 = Spec.polyEval [10, 1] (u32F Fp i) := by
    intro i
    refine ⟨rfl, ?_⟩
    simp [newPolys, Spec.polyEval, u32F, Finset.sum_range_succ]
  have hne : ∀ l ∈ D, newPolys l ≠ [] := by simp [newPolys]
  have hm := honestState_holds suite ⟨3, 2⟩ hD newPolys 7
  have hm' := honestState_holds suite ⟨3, 2⟩ hD (fun i => φ i (newPolys i)) 7
  obtain ⟨key, k1, k2⟩ := h4 newPolys (fun i _ => hnp i) 7 (by decide) _ _ _ _ rfl hm rfl hm'
  exact ⟨f, _, key, (h1 _ rfl).2.2.2.2.1, (h1 _ rfl).2.2.2.2.2 1 (by decide),
    (h3 1 _ (hnp 1).1).2.2.2.2.1 (by decide), k1, k2⟩

end Examples

end IceFrost
