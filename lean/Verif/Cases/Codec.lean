import Verif.Cases.RoundTwo
import Verif.Cases.Sign
import Verif.Props.Restore
import Verif.Props.SignatureForms
import Verif.Props.Transcripts
import Verif.Props.Serialization

/-! # Encodings in a concrete run (C69, C70, C72–C78, C98) -/

set_option linter.unusedSectionVars false
set_option linter.unusedVariables false

namespace IceFrost.Cases

open Toy Codec

variable {dbg : Bool} {p1 p2 p3 : Participant Fp Fp} {cs1 cs2 cs3 : List Fp} {x1 x2 x3 : Fp} {d d' : RoundOne Fp Fp}
variable {e1 e2 : EncShare} {d2 : RoundTwo Fp Fp} {c : Complaint Fp Fp} {m : BMap (SecretShare Fp)}
variable (s : Session dbg p1 p2 p3 cs1 cs2 cs3 x1 x2 x3 d d') (r : Second dbg cs1 cs2 cs3 x1 x2 x3 x1 d e1 e2 d2 c m)

theorem Session.fit (s : Session dbg p1 p2 p3 cs1 cs2 cs3 x1 x2 x3 d d') : ∀ p ∈ [p1, p2, p3, q], p.Fits := by
  have ht : (⟨4, 2⟩ : Params).t ≠ 0 := by simp
  obtain ⟨_, _, l1, c1, k1, _⟩ := newDealer_good ht s.h1
  obtain ⟨_, _, l2, c2, k2, _⟩ := newDealer_good ht s.h2
  obtain ⟨_, _, l3, c3, k3, _⟩ := newDealer_good ht s.h3
  have key : ∀ cs : List Fp, cs.length = (⟨4, 2⟩ : Params).t.toNat → (commitPoints suite cs).length < 2 ^ 64 := by
    intro cs h
    rw [commitPoints_length, h]
    decide
  intro p hp c hc
  simp only [List.mem_cons, List.not_mem_nil, or_false] at hp
  rcases hp with rfl | rfl | rfl | rfl
  · rw [c1] at hc; obtain rfl := Option.some.inj hc; exact key _ l1
  · rw [c2] at hc; obtain rfl := Option.some.inj hc; exact key _ l2
  · rw [c3] at hc; obtain rfl := Option.some.inj hc; exact key _ l3
  · cases hc

example := C77_states_fit short_ciphertexts dbg ⟨4, 2⟩ x1 1 cs1 [p1, p2, p3, q] s.fit 0 d _ (Or.inl s.boot)

theorem Session.state_fits (s : Session dbg p1 p2 p3 cs1 cs2 cs3 x1 x2 x3 d d') : d.state.Fits suite :=
  (C77_states_fit short_ciphertexts dbg ⟨4, 2⟩ x1 1 cs1 [p1, p2, p3, q] s.fit 0 d _ (Or.inl s.boot)).1

/-- Crashes at the start, in the middle of blame, and at the end. -/
example := C77_crashes_invisible codec_laws dbg true true [(true, [c])] [e1, e2, e3] 0 d s.state_fits

example := C78_interchangeable codec_laws d.state s.state_fits

example : ∃ bs d'', toBytes (F := Fp) (G := Fp) (roundOneCodec suite) d = .ok bs ∧
    fromBytes (F := Fp) (G := Fp) (roundTwoCodec suite) bs = .ok d'' ∧ d''.finish = .error (.panic .expectNone) := by
  obtain ⟨bs, h1, _, _, h4⟩ := C78_interchangeable codec_laws d.state s.state_fits
  exact ⟨bs, _, h1, h4, (C78_cannot_finish_partial codec_laws short_ciphertexts dbg ⟨4, 2⟩ x1 1 cs1 [p1, p2, p3, q] s.fit 0 d _
    (Or.inl s.boot) bs _ h1 h4).1⟩

example := C75_no_session_partial (S := Toy.suite) dbg ⟨2, 4⟩ (Or.inr (Or.inr (by decide))) x1 1 cs1 ⟨1, 7⟩ [p1, p2, p3, q] 0
example := C75_zero_threshold_panics suite 4 1 (by decide) 0

/-- The Diffie-Hellman keys of the round-two state, in another order. -/
example : ∃ b b' : Bytes, toBytes (F := Fp) (G := Fp) (roundTwoCodec suite) ⟨d.state⟩ = .ok b ∧ b' ≠ b ∧
    b'.length = b.length ∧ (roundTwoCodec suite).dec b = some (⟨d.state⟩, []) ∧
    (roundTwoCodec suite).dec b' = some (⟨d.state⟩, []) := by
  refine C74_state_two_encodings codec_laws ⟨d.state⟩ s.state_fits d.state.theirDhPublicKeys.reverse
    (List.reverse_perm _) ?_
  show d.state.theirDhPublicKeys.reverse ≠ d.state.theirDhPublicKeys
  rw [s.state.2.1]
  simp

example : ∃ bs, Spec.Survives Fp Fp (roundTwoCodec suite) ⟨d.state⟩ ∧
    fromBytes (F := Fp) (G := Fp) (roundTwoCodec suite) bs = .ok ⟨d.state⟩ := by
  obtain ⟨bs, _, _, _, h4⟩ := C78_interchangeable codec_laws d.state s.state_fits
  exact ⟨bs, (C74_state_stable_partial codec_laws bs ⟨d.state⟩ h4).2, h4⟩

example := C72_round_one (F := Fp) codec_laws d s.state_fits
example := C72_participant codec_laws p1 (s.fit p1 (by simp))
example := C72_participant_list codec_laws ⟨[p1, p2, p3], some [4]⟩
  (C77_states_fit short_ciphertexts dbg ⟨4, 2⟩ x1 1 cs1 [p1, p2, p3, q] s.fit 0 d _ (Or.inl s.boot)).2
example := C72_secret_list codec_laws [SigningExamples.share 1, SigningExamples.share 2] (by simp)
example := C72_vss codec_laws (⟨1, [4, 5]⟩ : VssCommitment Fp) (by show (2 : Nat) < 2 ^ 64; norm_num)
example := C72_encrypted_share (F := Fp) (G := Fp) codec_laws ⟨3, 1, [0, 1], [4]⟩
  ⟨rfl, by show (2 : Nat) < 2 ^ 64; norm_num, by simp⟩
example := C72_coefficients codec_laws [(4 : Fp), 5] (by simp)

/-- A map whose entries come in the wrong order, with a repeated key. -/
example := C74_map_order_accepted (F := Fp) (G := Fp) (scalar_roundTrip codec_laws) [(3, (5 : Fp)), (1, 4), (3, 7)] (by simp)
  (by simp)

example : ∃ z : Fp, ∃ bs, (⟨5, z⟩ : ThresholdSignature Fp Fp).verify suite 7 [1, 2] = .ok () ∧
    toBytes (F := Fp) (G := Fp) (signatureCodec suite) ⟨5, z⟩ = .ok bs ∧
    ∃ bs', bs' ≠ bs ∧ ∃ sig', fromBytes (F := Fp) (G := Fp) (signatureCodec suite) bs' = .ok sig' ∧
      sig'.verify suite 7 [1, 2] = .ok () := by
  obtain ⟨z, hz, _⟩ := C98_one_response group_laws (7 : Fp) 5 [1, 2]
  obtain ⟨bs, h1, h2⟩ := C72_signature codec_laws (⟨5, z⟩ : ThresholdSignature Fp Fp)
  have hl : bs.length = suite.sizeG + suite.sizeF := by
    obtain rfl := Except.ok.inj h1
    show (Toy.enc 5 ++ Toy.enc z).length = 6 + 6
    rw [List.length_append, enc_length, enc_length]
  have := (C98_bytes_partial group_laws codec_laws canonical_dec 7 [1, 2] bs bs ⟨5, z⟩ ⟨5, z⟩ hl hl h2 h2 hz hz rfl).2
  exact ⟨z, bs, hz, this, C98_second_form canonical_dec codec_laws 7 [1, 2] bs ⟨5, z⟩ h2 hz⟩

/-! ## Hash inputs -/

example := C69_input_determines suite (fun _ => leBytes_length _ _) [1] [1] Sign.signers Sign.signers 3 3 rfl

/-- A hash that collides, and a signature valid for two messages. -/
theorem flat_sig (msg : Bytes) : (⟨5, 5 + 3 * 7⟩ : ThresholdSignature Fp Fp).verify flat 7 msg = .ok () := by
  refine (C63_verify_iff flat _ 7 msg).1.mpr ?_
  show (5 + 3 * 7 : Fp) • flat.gen = 5 + (3 : Fp) • (7 : Fp)
  show (5 + 3 * 7 : Fp) * 1 = 5 + (3 : Fp) * (7 : Fp)
  rw [mul_one]

example := C70_signature_reuse (withFieldHash_codec codec_laws _) ⟨5, 5 + 3 * 7⟩ 7 [1] [2] (by decide) (by decide)
  (flat_sig [1]) (flat_sig [2])

example := C70_challenge_binds (withFieldHash_codec codec_laws (fun _ _ => (3 : Fp))) 1 2 3 4 [1] [2] rfl

example := C70_complaint_binds (withFieldHash_codec codec_laws (fun _ _ => (3 : Fp))) 1 2 3 4 5 6 7 8 9 10
  ⟨1, 2, [0, 0], [7]⟩ ⟨1, 3, [0, 0], [7]⟩ (by simp) (by simp) (by simp) (by simp)

end IceFrost.Cases
