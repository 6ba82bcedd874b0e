import Verif.Toy
import Verif.Lemmas.Suite
import Verif.Model.Nizk
import Mathlib.Tactic.Module

/-! # C12–C15: proofs of knowledge -/

set_option linter.unusedSectionVars false

namespace IceFrost

variable {F G R : Type} [Field F] [DecidableEq F] [AddCommGroup G] [Module F G] [DecidableEq G]

/-- C13: `verify` accepts `(s, r)` for `(index, pk)` exactly when `s` is the hash of
`(index, pk, g^r pk^-s)`; otherwise the error is `InvalidProofOfKnowledge`. -/
theorem C13_verify_iff (S : Suite F G R) (p : Nizk F) (index : U32) (pk : G) :
    nizkVerify S p index pk =
      if p.s = S.fieldHash (S.contextString ++ strBytes "nizkpok")
          (u32le index ++ S.encG pk ++ S.encG (p.r • S.gen - p.s • pk))
      then .ok () else .error .invalidProofOfKnowledge := by
  unfold nizkVerify
  rw [msm_two, neg_smul, ← sub_eq_add_neg]
  rfl

/-- C12: honest proofs verify, whatever the randomness. -/
theorem C12_honest_proofs_verify (S : Suite F G R) (index : U32) (sk : F) (rng : R) :
    nizkVerify S (nizkProve S index sk (sk • S.gen) rng).1 index (sk • S.gen) = .ok () := by
  rw [C13_verify_iff, if_pos]
  simp only [nizkProve, nizkMessage, Suite.h0]
  congr 3
  module

/-- C13, special soundness: if the same first message `g^r pk^-s` is accepted under two hash oracles that give
different challenges (the prover is rewound and the oracle reprogrammed), the two responses reveal the discrete
logarithm of `pk`. -/
theorem C13_special_soundness (S S' : Suite F G R) (hgen : S'.gen = S.gen) (p p' : Nizk F) (index index' : U32)
    (pk : G) (_h : nizkVerify S p index pk = .ok ()) (_h' : nizkVerify S' p' index' pk = .ok ())
    (hm : p.r • S.gen - p.s • pk = p'.r • S'.gen - p'.s • pk) (hs : p.s ≠ p'.s) :
    pk = ((p.r - p'.r) / (p.s - p'.s)) • S.gen := by
  rw [hgen] at hm
  have h1 : (p.s - p'.s) • pk = (p.r - p'.r) • S.gen := by
    rw [sub_smul, sub_smul, sub_eq_sub_iff_add_eq_add]
    rw [sub_eq_sub_iff_add_eq_add] at hm
    rw [add_comm, ← hm, add_comm]
  have hne : p.s - p'.s ≠ 0 := sub_ne_zero.mpr hs
  rw [div_eq_inv_mul, mul_smul, ← h1, smul_smul, inv_mul_cancel₀ hne, one_smul]

/-- C14, simulation: for every statement, challenge `c` and response `r` chosen *without the secret key*, a hash
oracle that answers `c` on the one message determined by them makes `verify` accept. -/
theorem C14_simulated_accepted (S : Suite F G R) (index : U32) (pk : G) (c r : F) :
    let msg := u32le index ++ S.encG pk ++ S.encG (r • S.gen - c • pk)
    let S' : Suite F G R := { S with fieldHash := fun d m =>
      if d = S.contextString ++ strBytes "nizkpok" ∧ m = msg then c else S.fieldHash d m }
    nizkVerify S' ⟨c, r⟩ index pk = .ok () := by
  intro msg S'
  rw [C13_verify_iff]
  rw [if_pos]
  show c = if _ then c else _
  rw [if_pos]
  exact ⟨rfl, rfl⟩

/-- C14, perfect zero knowledge: for each challenge `c`, mapping the prover's randomness `k` to the response
`k + sk·c` is a bijection onto all responses, and the honest first message `g^k` is the simulated one. So the
transcripts (first message, challenge, response) of an honest prover with uniform `k` and those of the simulator
with uniform `r` are the same distribution. -/
theorem C14_transcripts_equal (S : Suite F G R) (sk c : F) :
    Function.Bijective (fun k : F => k + sk * c) ∧
      ∀ k : F, k • S.gen = (k + sk * c) • S.gen - c • (sk • S.gen) := by
  refine ⟨⟨fun a b h => add_right_cancel h, fun r => ⟨r - sk * c, by simp⟩⟩, fun k => ?_⟩
  module

/-- C14: the proof made by `prove` is the transcript of C14_transcripts_equal for the drawn `k`. -/
theorem C14_prove_transcript (S : Suite F G R) (index : U32) (sk : F) (pk : G) (rng : R) :
    let k := (S.randScalar rng).1
    let p := (nizkProve S index sk pk rng).1
    p.r = k + sk * p.s ∧ p.s = S.fieldHash (S.contextString ++ strBytes "nizkpok")
      (u32le index ++ S.encG pk ++ S.encG (k • S.gen)) := ⟨rfl, rfl⟩

/-- C15: the hashed bytes determine index, public key and first message. -/
theorem C15_message_injective {S : Suite F G R} (hd : S.CodecLaws) (i i' : U32) (pk pk' m m' : G)
    (h : nizkMessage S i pk m = nizkMessage S i' pk' m') : i = i' ∧ pk = pk' ∧ m = m' := by
  unfold nizkMessage at h
  rw [List.append_assoc, List.append_assoc] at h
  obtain ⟨h1, h⟩ := u32le_append_inj h
  obtain ⟨h2, h⟩ := hd.encG_append_inj h
  exact ⟨h1, h2, hd.encG_inj h⟩

/-- C15: a proof accepted for two different statements makes two explicitly given different byte strings collide
under `h0`: the ones hashed for the two statements. -/
theorem C15_proof_reuse_is_collision {S : Suite F G R} (hd : S.CodecLaws) (p : Nizk F) (i i' : U32) (pk pk' : G)
    (h : nizkVerify S p i pk = .ok ()) (h' : nizkVerify S p i' pk' = .ok ()) (hne : i ≠ i' ∨ pk ≠ pk') :
    let m := u32le i ++ S.encG pk ++ S.encG (p.r • S.gen - p.s • pk)
    let m' := u32le i' ++ S.encG pk' ++ S.encG (p.r • S.gen - p.s • pk')
    m ≠ m' ∧ S.h0 m = S.h0 m' := by
  rw [C13_verify_iff] at h h'
  intro m m'
  constructor
  · intro he
    obtain ⟨h1, h2, _⟩ := C15_message_injective hd _ _ _ _ _ _ he
    exact hne.elim (· h1) (· h2)
  · split at h
    · next e1 =>
      split at h'
      · next e2 => exact e1.symm.trans e2
      · cases h'
    · cases h

section Examples
open Toy

example : nizkVerify suite (nizkProve suite 3 11 (11 • suite.gen) 5).1 3 (11 • suite.gen) = .ok () :=
  C12_honest_proofs_verify suite 3 (11 : Fp) 5

/-- Two oracles with different challenges for the same first message: the hypotheses of special soundness. -/
example : ∃ (S S' : Suite Fp Fp Nat) (p p' : Nizk Fp), S'.gen = S.gen ∧
    nizkVerify S p 3 (11 • S.gen) = .ok () ∧ nizkVerify S' p' 3 (11 • S.gen) = .ok () ∧
    p.r • S.gen - p.s • (11 • S.gen) = p'.r • S'.gen - p'.s • (11 • S.gen) ∧ p.s ≠ p'.s := by
  refine ⟨{ suite with fieldHash := fun _ _ => 1 }, { suite with fieldHash := fun _ _ => 2 },
    ⟨1, 18⟩, ⟨2, 29⟩, rfl, ?_, ?_, ?_, ?_⟩
  · rw [C13_verify_iff]; rfl
  · rw [C13_verify_iff]; rfl
  · show (18 : Fp) * 1 - (1 : Fp) * (11 • (1 : Fp)) = (29 : Fp) * 1 - 2 * (11 • (1 : Fp))
    simp only [nsmul_eq_mul]; norm_num
  · decide

example : nizkMessage suite 1 5 6 ≠ nizkMessage suite 2 5 6 := fun h =>
  absurd (C15_message_injective codec_laws _ _ _ _ _ _ h).1 (by decide)
end Examples

end IceFrost
