import Verif.Cases.RoundTwo
import Verif.Props.Robust
import Verif.Props.Unblamed

/-!
# The theorems about complaints and blame, applied to the concrete session
-/

set_option linter.unusedSectionVars false
set_option linter.unusedSimpArgs false
set_option linter.unusedVariables false

namespace IceFrost.Cases

open Toy
attribute [local instance] Classical.propDecidable

variable {dbg : Bool} {p1 p2 p3 : Participant Fp Fp} {cs1 cs2 cs3 : List Fp} {x1 x2 x3 : Fp} {d d' : RoundOne Fp Fp}
variable {e1 e2 : EncShare} {d2 : RoundTwo Fp Fp} {c : Complaint Fp Fp} {m : BMap (SecretShare Fp)}

/-- What round two leaves alone. -/
theorem Session.kept (s : Session dbg p1 p2 p3 cs1 cs2 cs3 x1 x2 x3 d d')
    (r : Second dbg cs1 cs2 cs3 x1 x2 x3 x1 d e1 e2 d2 c m) :
    d2.state.theirDhPublicKeys = d.state.theirDhPublicKeys ∧ d2.state.parameters = ⟨3, 2⟩ := by
  obtain ⟨k1, _⟩ := roundTwo_stored suite dbg d _ s.state.1 (onFile_wf cs1 cs2 cs3).nodup _ 0 d2 [c] r.round
  rw [k1]
  exact ⟨rfl, s.state.2.2.1⟩

theorem onFile_inv {cs1 cs2 cs3 : List Fp} {k : U32} {v : VssCommitment Fp} (h : (onFile cs1 cs2 cs3).get? k = some v) :
    v.index = k ∧ (v.points = commitPoints suite cs1 ∨ v.points = commitPoints suite cs2 ∨
      v.points = commitPoints suite cs3) := by
  have hk := BMap.mem_keys_of_get? h
  rw [onFile_keys] at hk
  simp only [List.mem_cons, List.not_mem_nil, or_false] at hk
  rcases hk with rfl | rfl | rfl
  · rw [onFile_one] at h; obtain rfl := Option.some.inj h; simp
  · rw [onFile_two] at h; obtain rfl := Option.some.inj h; simp
  · rw [onFile_three] at h; obtain rfl := Option.some.inj h; simp

theorem onFile_labels (cs1 cs2 cs3 : List Fp) : ∀ k c, (onFile cs1 cs2 cs3).get? k = some c → c.index = k :=
  fun _ _ h => (onFile_inv h).1

theorem Session.dealersOk (s : Session dbg p1 p2 p3 cs1 cs2 cs3 x1 x2 x3 d d') : DealersOk (onFile cs1 cs2 cs3) := by
  have ht : (⟨4, 2⟩ : Params).t ≠ 0 := by simp
  have l1 := (newDealer_good ht s.h1).2.2.1
  have l2 := (newDealer_good ht s.h2).2.2.1
  have l3 := (newDealer_good ht s.h3).2.2.1
  refine ⟨onFile_wf _ _ _, by rw [onFile_keys]; decide, fun k v h => ?_⟩
  intro h0
  rcases (onFile_inv h).2 with e | e | e <;>
  · have := congrArg List.length (e.symm.trans h0)
    rw [commitPoints_length] at this
    simp_all

theorem Second.accused (r : Second dbg cs1 cs2 cs3 x1 x2 x3 x1 d e1 e2 d2 c m) : c.encShare.senderIndex = 3 := by
  rw [r.about]; rfl
theorem Second.maker (r : Second dbg cs1 cs2 cs3 x1 x2 x3 x1 d e1 e2 d2 c m) : c.encShare.receiverIndex = 1 := by
  rw [r.about]; rfl

variable (s : Session dbg p1 p2 p3 cs1 cs2 cs3 x1 x2 x3 d d') (r : Second dbg cs1 cs2 cs3 x1 x2 x3 x1 d e1 e2 d2 c m)

example := C39_removed_in_any_list suite dbg d _ _ _ (Or.inl ⟨_, r.round⟩) _ s.state.1 c (by simp) d2 m r.holds (s.kept r).1
  (by rw [r.accused]; decide) (by rw [r.accused, (s.kept r).2]) [c, c] (by simp)
example := C39_justified_list suite _ d2 m r.holds [c] (by
  intro a ha
  obtain rfl : a = c := by simpa using ha
  exact ⟨by rw [r.accused]; decide, by rw [r.accused, (s.kept r).2], dbg, d, _, _, _, Or.inl ⟨_, r.round⟩, by simp,
    s.state.1, (s.kept r).1⟩)

/-- A complaint of 1 about the honest share of 2, with a correct shared key. -/
def unjust (x1 x2 : Fp) (e2 : EncShare) : Complaint Fp Fp :=
  (Complaint.new suite (x2 • suite.gen) x1 (x1 • (x2 • suite.gen)) e2 0).1

example := C40_unjustified_complaint cipher_laws codec_laws d2 _ m r.holds 2 1 x2 x1 cs2 _ (onFile_two _ _ _) rfl
  (unjust x1 x2 e2) r.dealt2 rfl
example := C40_accused_stays cipher_laws codec_laws d2 _ m r.holds 2 1 (by decide) x2 x1 cs2 _ (onFile_two _ _ _) rfl
  (unjust x1 x2 e2) r.dealt2 rfl
example := C41_set_only suite d2 _ m r.holds [c, unjust x1 x2 e2, c] [unjust x1 x2 e2, c] (by simp)
example := C41_perm suite d2 _ m r.holds [c, unjust x1 x2 e2] [unjust x1 x2 e2, c] (List.Perm.swap _ _ _)

/-- C42: another participant with the same view. -/
example := C42_agreement suite d2 ⟨{ d2.state with index := 2, mySecretShares := some [] }⟩ _ m [] r.holds
  ⟨r.holds.1, rfl, r.holds.3, by simp [BMap.WF, BMap.keys]⟩ rfl rfl [c, unjust x1 x2 e2] [unjust x1 x2 e2, c] (by simp; tauto)

example := C43_late_index_partial suite dbg d _ _ _ (Or.inl ⟨_, r.round⟩) _ s.state.1 c (by simp) d2 m r.holds (s.kept r).1
  (by rw [r.accused]; decide) (by rw [r.accused, (s.kept r).2]) (by rw [r.accused, r.maker]; decide)
example := C43_maker_removed suite d2 _ m r.holds { c with encShare := ⟨9, 1, [], []⟩ } (by rw [(s.kept r).2]; show (3 : U32).toNat < (9 : U32).toNat; decide)
example := C44_two_calls suite d2 _ m r.holds [c] [unjust x1 x2 e2]

/-- C44: first the complaint about 3, then one about 2, who is still on file. -/
example : ∃ d1 k1 d3 k3 k, d2.blame suite [c] = .ok (d1, k1) ∧ d1.blame suite [unjust x1 x2 e2] = .ok (d3, k3) ∧
    d2.blame suite ([c] ++ [unjust x1 x2 e2]) = .ok (d3, k) := by
  obtain ⟨d1, k1, comms1, m1, h1, h2, h3, h4⟩ := C39_removed_in_any_list suite dbg d _ _ _ (Or.inl ⟨_, r.round⟩) _ s.state.1 c (by simp) d2 m
    r.holds (s.kept r).1 (by rw [r.accused]; decide) (by rw [r.accused, (s.kept r).2]) [c] (by simp)
  obtain ⟨d1', k1', h1', h5, _⟩ := C39_justified_list suite _ d2 m r.holds [c] (by
    intro a ha
    obtain rfl : a = c := by simpa using ha
    exact ⟨by rw [r.accused]; decide, by rw [r.accused, (s.kept r).2], dbg, d, _, _, _, Or.inl ⟨_, r.round⟩, by simp,
      s.state.1, (s.kept r).1⟩)
  rw [h1] at h1'
  obtain ⟨rfl, rfl⟩ := Prod.mk.inj (Except.ok.inj h1')
  have hs2 : e2.senderIndex = 2 := r.send2
  obtain ⟨d3, k3, k, h6, h7⟩ := C44_sequential_partial suite d2 _ m r.holds [c] [unjust x1 x2 e2] d1 k1 h1 comms1 h2.1 (by
    intro a ha _
    obtain rfl : a = unjust x1 x2 e2 := by simpa using ha
    show e2.senderIndex ∈ comms1.keys
    obtain ⟨comms', m', hh, _, hg, _⟩ := h5
    obtain rfl : comms' = comms1 := Option.some.inj (hh.1.symm.trans h2.1)
    rw [hs2]
    refine BMap.mem_keys_of_get? (v := ⟨2, commitPoints suite cs2⟩) ((hg 2).trans ?_)
    rw [if_neg (by rintro ⟨a, ha, hk⟩
                   obtain rfl : a = c := by simpa using ha
                   rw [r.accused] at hk; simp at hk)]
    exact onFile_two _ _ _)
  exact ⟨d1, k1, d3, k3, k, h1, h6, h7⟩

example := C45_bogus_accusation suite d2 _ m r.holds { c with encShare := ⟨0, 1, [], []⟩ } rfl
example := C45_framed_always lawful d2 _ m r.holds 2 7 _ _ (onFile_two _ _ _) (by rw [(s.kept r).1]; exact s.dh2) (by decide)
  (by rw [(s.kept r).2]; decide) 99 0

/-- C45: the dealer 2 stays when 1 complains about its honest share and about 3. -/
example := C45_honest_dealer_partial cipher_laws codec_laws d2 _ m r.holds 2 x2 cs2 _ (onFile_two _ _ _) rfl (fun _ => x1)
  [c, unjust x1 x2 e2] (by
    intro a ha h
    simp only [List.mem_cons, List.not_mem_nil, or_false] at ha
    rcases ha with rfl | rfl
    · rw [r.accused] at h; simp at h
    · exact ⟨by show HonestlyDealt suite 2 e2.receiverIndex x2 cs2 (x1 • suite.gen) e2
                rw [r.rec2]; exact r.dealt2, rfl⟩) (by
    intro a ha
    simp only [List.mem_cons, List.not_mem_nil, or_false] at ha
    rcases ha with rfl | rfl
    · rw [r.maker]; decide
    · show e2.receiverIndex ≠ 2
      rw [r.rec2]; decide)

/-- A complaint with accused index 0 is not upheld. -/
theorem not_upheld (st : DkgState Fp Fp) (comms : BMap (VssCommitment Fp)) (c : Complaint Fp Fp)
    (h : c.encShare.senderIndex = 0) : ¬ Upheld suite st comms c := by
  rintro ⟨h0, _⟩
  exact h0 h

example := C46_rejected_removes suite d2 _ m r.holds { c with encShare := ⟨0, 1, [], []⟩ } (not_upheld _ _ _ rfl)
example := C47_complaint_complete suite dbg d _ _ _ (Or.inl ⟨_, r.round⟩) _ s.state.1 (onFile_wf cs1 cs2 cs3) c (by simp)
example := C47_new_verifies suite ((4 : Fp) • suite.gen) 8 e3 0
example := C48_verify_iff suite (unjust 3 4 e3) ((4 : Fp) • suite.gen)

/-- C46: with makers that are not on file nobody is removed. -/
example := C46_disjoint_partial suite toyR2 toyComms [] toy_holds (by simp [BMap.keys])
  [⟨0, 0, ⟨0, 9, [], []⟩, ⟨0, 0, 0⟩⟩, ⟨0, 0, ⟨0, 8, [], []⟩, ⟨0, 0, 0⟩⟩] (by
    intro a ha
    simp only [List.mem_cons, List.not_mem_nil, or_false] at ha
    rcases ha with rfl | rfl <;> exact not_upheld _ _ _ rfl) (by
    intro a ha
    simp only [List.mem_cons, List.not_mem_nil, or_false] at ha
    rcases ha with rfl | rfl <;> simp [toyComms, BMap.keys])

/-- C48: a wrong shared key, 13 instead of 12, and a transcript for the challenge 2. -/
theorem cp_wrong : Spec.CpAccepts suite.gen ((3 : Fp) • suite.gen) ((4 : Fp) • suite.gen) ((13 : Fp) • suite.gen)
    ((4 : Fp) • suite.gen) ((14 : Fp) • suite.gen) (2 : Fp) (10 : Fp) := by
  constructor <;>
  · simp only [smul_smul, ← add_smul]
    norm_num

example := C48_wrong_key_one_challenge group_laws 3 ((4 : Fp) • suite.gen) ((13 : Fp) • suite.gen) _ _
  (by rw [smul_smul]; intro h; exact absurd (group_laws.gen_inj _ _ h) (by decide)) 2 2 10 10 cp_wrong cp_wrong

/-- C48: transcripts for the challenges 1 and 2 give the secret. -/
example := C48_special_sound suite.gen ((3 : Fp) • suite.gen) ((4 : Fp) • suite.gen) ((3 : Fp) • (4 : Fp) • suite.gen)
  ((7 : Fp) • suite.gen) ((7 : Fp) • (4 : Fp) • suite.gen) (1 : Fp) 2 10 13
  (by constructor <;> (simp only [smul_smul, ← add_smul]; norm_num))
  (by constructor <;> (simp only [smul_smul, ← add_smul]; norm_num)) (by decide)

/-! ## Bad shares that nobody complains about -/

/-- Participant 7 with an error in the share of dealer 2. -/
def wrong : BMap (SecretShare Fp) :=
  [(1, ⟨1, 7, Spec.polyEval (FinishExamples.cs 1) 7⟩), (2, ⟨2, 7, Spec.polyEval (FinishExamples.cs 2) 7 + 1⟩),
    (5, ⟨5, 7, Spec.polyEval (FinishExamples.cs 5) 7⟩)]

def wrongState : RoundTwo Fp Fp :=
  ⟨{ (honestState suite ⟨3, 2⟩ FinishExamples.D FinishExamples.cs 7).state with mySecretShares := some wrong }⟩

theorem wrong_keys (k : U32) : k ∈ wrong.keys ↔ k ∈ (dealerMap suite FinishExamples.D FinishExamples.cs).keys := by
  rw [dealerMap_keys]
  simp [wrong, BMap.keys, FinishExamples.D]

theorem dealer_get (k : U32) (h : k ∈ FinishExamples.D) : (dealerMap suite FinishExamples.D FinishExamples.cs).get? k =
    some ⟨k, commitPoints suite (FinishExamples.cs k)⟩ :=
  (dealerMap_get suite FinishExamples.hD FinishExamples.cs k _).mpr ⟨h, rfl⟩

theorem wrong_error : shareError suite 7 (dealerMap suite FinishExamples.D FinishExamples.cs) wrong 2 = (1 : Fp) • suite.gen := by
  have h7 : ((7 : U32).toNat : Fp) = 7 := by simp
  rw [shareError, dealer_get 2 (by decide)]
  simp only [Option.map_some, Option.getD_some, wrong, BMap.get?]
  simp only [pointEval_commitPoints, h7]
  simp only [show (2 : U32) ≠ 1 from by decide, if_true, if_false, Option.map_some, Option.getD_some, add_smul, add_sub_cancel_left]

example := C99_matches_iff (S := suite) u32_inj wrongState _ wrong FinishExamples.dealers rfl rfl
  (by simp [wrong, BMap.WF, BMap.keys]) wrong_keys FinishExamples.labels
example := C99_one_bad_share (S := suite) u32_inj wrongState _ wrong FinishExamples.dealers rfl rfl
  (by simp [wrong, BMap.WF, BMap.keys]) wrong_keys FinishExamples.labels 2 ((wrong_keys 2).mp (by simp [wrong, BMap.keys]))
  (by show shareError suite 7 _ wrong 2 ≠ 0
      rw [wrong_error, smul_gen]; decide) (by
    intro k hk h2
    show shareError suite 7 _ wrong k = 0
    rw [dealerMap_keys] at hk
    have h7 : ((7 : U32).toNat : Fp) = 7 := by simp
    rw [shareError, dealer_get k hk]
    simp only [Option.map_some, Option.getD_some, pointEval_commitPoints, h7]
    simp only [FinishExamples.D, List.mem_cons, List.not_mem_nil, or_false] at hk
    rcases hk with rfl | rfl | rfl
    · simp [wrong, BMap.get?]
    · exact absurd rfl h2
    · simp [wrong, BMap.get?])

/-- C99: all complaints of participant 1 are in the list. -/
example := C99_after_blame_partial u32_inj dbg d _ s.state.1 s.dealersOk (onFile_labels _ _ _) (by
    rw [s.state.2.1]; simp [BMap.keys, onFile]) (by rw [s.state.2.2.1, onFile_keys]; simp) _ _
  (s.addressed r) (by
    rw [onFile_keys]
    intro k hk
    simp only [List.mem_cons, List.not_mem_nil, or_false] at hk
    rcases hk with rfl | rfl | rfl
    · exact ⟨e1, by simp, r.send1⟩
    · exact ⟨e2, by simp, r.send2⟩
    · exact ⟨e3, by simp, rfl⟩) _ _ r.round [c, unjust x1 x2 e2] (by simp)

example := C114_blame suite d2 _ m r.holds.1 r.holds.2 r.holds.3 r.holds.4 [c, unjust x1 x2 e2]
example := C105_any_subset (S := suite) (G := Fp) u32_inj [1, 5]

end IceFrost.Cases
