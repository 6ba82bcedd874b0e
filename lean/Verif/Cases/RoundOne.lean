import Verif.Cases.Session
import Verif.Props.Nizk
import Verif.Props.Lagrange
import Verif.Props.Shares
import Verif.Props.Attacks
import Verif.Props.Simulation
import Verif.Props.Positions

/-!
# The theorems about round one, applied to the concrete session

`session` shows that the data the examples quantify over exists.
-/

set_option linter.unusedSectionVars false
set_option linter.unusedSimpArgs false
set_option linter.unusedVariables false

namespace IceFrost.Cases

open Toy
attribute [local instance] Classical.propDecidable

/-! ## Shares and proofs -/

example := C02_lagrange_order (F := Fp) (G := Fp) 2 [1, 2, 5] [5, 1, 2] (by decide)
example := C04_zero_index_accepted (F := Fp) (G := Fp) u32_inj [1, 2] (by decide) (by decide)
example := C04_documented_rejection_fails (F := Fp) (G := Fp) u32_inj
example := C07_feldman_unique group_laws ⟨4, [(3 : Fp), 5]⟩ 4 2
example := C09_both_ends cipher_laws codec_laws 1 2 [(3 : Fp), 5] 8 9 0
example := C10_secrecy_bijection (F := Fp) u32_inj 3 [4, 9] (by decide) (by decide) 5
example := C124_shares_uniform (F := Fp) u32_inj 3 [4, 9] (by decide) (by decide) rfl 77 (fun j => u32F Fp j + 1)
example := C124_simulated_accepted group_laws u32_inj 3 [4, 9] (by decide) (by decide) rfl 77 (fun j => u32F Fp j + 1) 8

section
variable {F G R : Type} [Field F] [AddCommGroup G] [Module F G]

theorem withFieldHash_codec {S : Suite F G R} (h : S.CodecLaws) (H : Bytes → Bytes → F) : (S.withFieldHash H).CodecLaws :=
  ⟨h.decG_encG, h.decF_encF, h.encG_length, h.encF_length⟩

theorem withFieldHash_group {S : Suite F G R} (h : S.GroupLaws) (H : Bytes → Bytes → F) : (S.withFieldHash H).GroupLaws :=
  ⟨h.gen_inj, h.gen_surj⟩

theorem withFieldHash_cipher {S : Suite F G R} (h : S.CipherLaws) (H : Bytes → Bytes → F) :
    (S.withFieldHash H).CipherLaws :=
  ⟨h.kdf_ok, h.aead_ok, h.randBytes_length⟩
end

/-- The toy suite with a hash that collides everywhere. -/
def flat : Suite Fp Fp Nat := suite.withFieldHash fun _ _ => 3

/-- Two proofs with the challenge 3 in `flat`. -/
theorem flat_proof (i : U32) (pk r : Fp) : nizkVerify flat ⟨3, r⟩ i pk = .ok () := by rw [C13_verify_iff]; rfl

/-- C15: a proof for two indices, where the hash collides. -/
example := C15_proof_reuse_is_collision (withFieldHash_codec codec_laws _) ⟨3, (8 : Fp)⟩ 1 2 5 5 (flat_proof 1 5 8)
  (flat_proof 2 5 8) (Or.inl (by decide))

/-! ## Opening a session -/

example := C16_index_zero_iff suite ⟨4, 2⟩ (by decide) 0 0
example := C16_zero_threshold_panics suite 4 3 (by decide) 0
example := C17_index_zero_iff suite ⟨4, 2⟩ 0 0
example (x : Fp) := C19_bootstrap suite true ⟨4, 2⟩ x 1 [3, 4] [q] 0 1 4
example (x : Fp) := C19_new suite true ⟨4, 2⟩ x 1 [q] 0 1 4
example := C19_reshare suite true ⟨4, 2⟩ (by decide) ⟨3, (5 : Fp)⟩ (by decide) [q] 0 1 4

variable {dbg : Bool} {p1 p2 p3 : Participant Fp Fp} {cs1 cs2 cs3 : List Fp} {x1 x2 x3 : Fp} {d d' : RoundOne Fp Fp}
variable (s : Session dbg p1 p2 p3 cs1 cs2 cs3 x1 x2 x3 d d')

example := C20_new_classifies dbg _ _ _ _ _ _ _ s.new
example := fun site => C22_no_panic_partial cipher_laws codec_laws dbg ⟨4, 2⟩ (by decide) x1 1 cs1 [p1, p2, p3, q] 0 s.lacks
  site

/-- C22: the record of 1 without the proof of knowledge. -/
example : bootstrap suite dbg ⟨4, 2⟩ x1 1 cs1 [{ p1 with proofOfSecretKey := none }, p2, p3, q] 0 =
    .error (.panic .expectNone) := by
  obtain ⟨p, cs, dh, h, hl⟩ := C22_attack suite ⟨4, 2⟩ (by decide) 1 (by decide) 10
  have h1 := s.h1
  rw [h] at h1
  obtain ⟨rfl, _⟩ := Prod.mk.inj (Except.ok.inj h1)
  exact (C22_missing_proof_panics suite dbg ⟨4, 2⟩ x1 1 cs1 _ 0 rfl ⟨_, by simp, hl⟩).1

theorem Session.nonzero (s : Session dbg p1 p2 p3 cs1 cs2 cs3 x1 x2 x3 d d') : ∀ p ∈ [p1, p2, p3, q], p.index ≠ 0 := by
  intro p hp
  simp only [List.mem_cons, List.not_mem_nil, or_false] at hp
  rcases hp with rfl | rfl | rfl | rfl
  · rw [s.i1]; decide
  · rw [s.i2]; decide
  · rw [s.i3]; decide
  · decide

example := C23_no_secret_dealt_partial cipher_laws codec_laws dbg _ _ _ _ _ _ s.nonzero _ _ s.boot
example := C24_receivers_partial cipher_laws codec_laws dbg _ _ _ _ _ _ _ _ s.boot
example := C24_misbehaving_receives_share cipher_laws codec_laws dbg _ _ _ _ _ _ s.nodup q (by simp) s.bad 6 rfl _ _ s.boot
example := C26_new_checks_partial dbg _ _ _ _ _ _ _ s.new

/-- `bootstrap` of three good records and one without commitments. -/
theorem boots (dbg : Bool) (x : Fp) (i : U32) (cs : List Fp) (a b c q' : Participant Fp Fp)
    (hgood : ∀ p ∈ [a, b, c], GoodDealer suite 2 p) (hq : q'.commitments = none) :
    ∃ d, bootstrap suite dbg ⟨4, 2⟩ x i cs [a, b, c, q'] 0 = .ok (d, ⟨[a, b, c], some [q'.index]⟩) := by
  have g1 := hgood a (by simp)
  have g2 := hgood b (by simp)
  have g3 := hgood c (by simp)
  have hbad : ¬ GoodDealer suite 2 q' := by rintro ⟨⟨_, c, _, _, hc, _⟩, _⟩; rw [hq] at hc; cases hc
  have hl' : ¬ ∃ p ∈ [a, b, c, q'], Spec.LacksProof suite p := by
    rintro ⟨p, hp, h⟩
    simp only [List.mem_cons, List.not_mem_nil, or_false] at hp
    rcases hp with rfl | rfl | rfl | rfl
    · exact dealerValid_not_lacks g1.1 h
    · exact dealerValid_not_lacks g2.1 h
    · exact dealerValid_not_lacks g3.1 h
    · obtain ⟨_, _, c, _, hc, _⟩ := h
      rw [hq] at hc; cases hc
  have f1 : [a, b, c, q'].filter (fun p => decide (GoodDealer suite 2 p)) = [a, b, c] := by
    simp only [List.filter_cons, List.filter_nil, decide_eq_true g1, decide_eq_true g2, decide_eq_true g3,
      decide_eq_false hbad, if_true]
    simp
  have n1 : ([a, b, c, q'].filter fun p => decide (¬ GoodDealer suite 2 p)).map (·.index) = [q'.index] := by
    simp only [List.filter_cons, List.filter_nil, decide_not, decide_eq_true g1, decide_eq_true g2, decide_eq_true g3,
      decide_eq_false hbad]
    simp
  obtain ⟨d, hd⟩ := C116_bootstrap cipher_laws codec_laws dbg ⟨4, 2⟩ x i cs [a, b, c, q'] 0
  rw [if_neg (fun h => h rfl), if_neg hl', if_neg (by decide), f1, if_neg (by simp), n1,
    if_neg (fun h => hbad (h q' (by simp)))] at hd
  exact ⟨d, hd⟩

/-- C23: a record with index 0 is accepted and receives the secret of participant 1. -/
example : ∃ (p0 : Participant Fp Fp) (d : RoundOne Fp Fp) (m : BMap EncShare) (e : EncShare),
    d.theirEncryptedSecretShares = .ok m ∧ m.get? 0 = some e ∧
      decryptShare suite e (suite.encG ((7 : Fp) • (x1 • suite.gen))) = .ok ⟨1, 0, cs1.headD 0⟩ := by
  obtain ⟨p0, h0, hd, hc, hg⟩ := C23_index_zero_is_valid suite 2 [(3 : Fp), 4] (by simp) rfl 7 0
  obtain ⟨d, hb⟩ := boots dbg x1 1 cs1 p0 p2 p3 q (fun p hp => by
    simp only [List.mem_cons, List.not_mem_nil, or_false] at hp
    rcases hp with rfl | rfl | rfl
    · exact hg
    · exact s.good _ (by simp)
    · exact s.good _ (by simp)) rfl
  obtain ⟨m, e, h⟩ := C23_index_zero_receives_secret cipher_laws codec_laws dbg _ _ _ _ _ _
    (by simp [h0, s.i2, s.i3, q]) p0 (by simp) h0 7 hd _ _ hb
  exact ⟨p0, d, m, e, h⟩

/-- C43: with the record of 1 invalid, the number of dealers is 3 and 4 is out of range. -/
example : ∃ (p : Participant Fp Fp) (d : RoundOne Fp Fp), p.index = 4 ∧ d.state.parameters.n.toNat < p.index.toNat := by
  obtain ⟨p4, cs, x, h4, i4, _⟩ := C16_new_dealer suite ⟨4, 2⟩ (by simp) 4 (by simp) 40
  obtain ⟨d, hb⟩ := boots dbg x1 1 cs1 p2 p3 p4 { q with index := 1 } (fun p hp => by
    simp only [List.mem_cons, List.not_mem_nil, or_false] at hp
    rcases hp with rfl | rfl | rfl
    · exact s.good _ (by simp)
    · exact s.good _ (by simp)
    · exact (newDealer_good (params := ⟨4, 2⟩) (by decide) h4).2.2.2.2.2) rfl
  exact ⟨p4, d, i4, (C43_reachable cipher_laws codec_laws dbg _ _ _ _ _ _ _ _ hb p4 (by simp) (by rw [i4])
    (by simp)).1⟩

/-- C26: commitments of degree 4 in a session with threshold 2. -/
example : ∃ (ps : List (Participant Fp Fp)) (d : RoundOne Fp Fp), dkgNew suite true ⟨2, 2⟩ 5 3 ps 0 = .ok (d, ⟨ps, none⟩) ∧
    ps.length = 2 ∧ ∀ p ∈ ps, ∃ c, p.commitments = some c ∧ c.points.length = 5 := by
  obtain ⟨a, ca, xa, ha, _⟩ := C16_new_dealer suite ⟨2, 5⟩ (by simp) 1 (by simp) 40
  obtain ⟨b, cb, xb, hb, _⟩ := C16_new_dealer suite ⟨2, 5⟩ (by simp) 2 (by simp) 50
  obtain ⟨d, h1, h2⟩ := C26_any_degree_accepted dbg ⟨2, 2⟩ (by decide) (by decide) (5 : Fp) 3 [a, b] 0 rfl 5 (by decide)
    (fun p hp => by
      simp only [List.mem_cons, List.not_mem_nil, or_false] at hp
      rcases hp with rfl | rfl
      · exact ⟨1, 40, ca, xa, ha⟩
      · exact ⟨2, 50, cb, xb, hb⟩)
  obtain ⟨d, h1, h2⟩ := C26_any_degree_accepted true ⟨2, 2⟩ (by decide) (by decide) (5 : Fp) 3 [a, b] 0 rfl 5 (by decide)
    (fun p hp => by
      simp only [List.mem_cons, List.not_mem_nil, or_false] at hp
      rcases hp with rfl | rfl
      · exact ⟨1, 40, ca, xa, ha⟩
      · exact ⟨2, 50, cb, xb, hb⟩)
  exact ⟨[a, b], d, h1, rfl, h2⟩

/-- C89: the records in another order. -/
example := C89_new_order dbg _ _ _ [p1, p2, p3, q] [q, p1, p2, p3] _ 0 (by
  exact (List.perm_append_comm (l₁ := [p1, p2, p3]) (l₂ := [q]))) s.nodup _ _ s.new

theorem Session.valid_nodup (s : Session dbg p1 p2 p3 cs1 cs2 cs3 x1 x2 x3 d d') : ([p1, p2, p3].map (·.index)).Nodup := by simp [s.i1, s.i2, s.i3]

example := C90_on_file_partial cipher_laws codec_laws dbg _ _ _ _ _ _ _ _ (Or.inl s.boot) s.valid_nodup
example := C113_bootstrap_nonces suite dbg _ _ _ _ _ s.nodup _ _ _ s.boot
example := C114_new suite dbg _ _ _ _ _ _ _ s.new
example := C101_replay cipher_laws codec_laws dbg dbg _ _ _ _ _ _ _ _ _ _ _ _ _ _ _ _ s.boot s.boot rfl p2 (by simp) (by simp)
example := C101_replay_new cipher_laws codec_laws dbg dbg _ _ _ _ _ _ _ _ _ _ _ _ _ _ _ s.boot s.new p2 (by simp) (by simp)
example (s : Session false p1 p2 p3 cs1 cs2 cs3 x1 x2 x3 d d') := fun es r p =>
  C95_to_round_two_no_panic_release (ReachOne.new _ _ _ _ _ _ _ s.new) es r p

example := C100_identity_accepted suite 2 (by decide) 3 8 9
example := C100_injective_partial (F := Fp) (3 : Fp) (by decide)

end IceFrost.Cases
