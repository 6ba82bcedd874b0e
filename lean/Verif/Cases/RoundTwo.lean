import Verif.Cases.RoundOne
import Verif.Props.Below

/-!
# The theorems about round two and `finish`, applied to the concrete session

`session` and `View.second` show that the data the examples quantify over exists.
-/

set_option linter.unusedSectionVars false
set_option linter.unusedSimpArgs false
set_option linter.unusedVariables false

namespace IceFrost.Cases

open Toy
attribute [local instance] Classical.propDecidable

variable {dbg : Bool} {p1 p2 p3 : Participant Fp Fp} {cs1 cs2 cs3 : List Fp} {x1 x2 x3 : Fp} {d d' : RoundOne Fp Fp}
variable {e1 e2 : EncShare} {d2 : RoundTwo Fp Fp} {c : Complaint Fp Fp} {m : BMap (SecretShare Fp)}

theorem onFile_one (cs1 cs2 cs3 : List Fp) : (onFile cs1 cs2 cs3).get? 1 = some ⟨1, commitPoints suite cs1⟩ := by
  simp [onFile, BMap.get?]
theorem onFile_two (cs1 cs2 cs3 : List Fp) : (onFile cs1 cs2 cs3).get? 2 = some ⟨2, commitPoints suite cs2⟩ := by
  simp [onFile, BMap.get?]
theorem onFile_three (cs1 cs2 cs3 : List Fp) : (onFile cs1 cs2 cs3).get? 3 = some ⟨3, commitPoints suite cs3⟩ := by
  simp [onFile, BMap.get?]
theorem onFile_keys (cs1 cs2 cs3 : List Fp) : (onFile cs1 cs2 cs3).keys = [1, 2, 3] := rfl

theorem Session.dh1 (s : Session dbg p1 p2 p3 cs1 cs2 cs3 x1 x2 x3 d d') :
    d.state.theirDhPublicKeys.get? 1 = some (x1 • suite.gen) := by rw [s.state.2.1]; simp [BMap.get?]
theorem Session.dh2 (s : Session dbg p1 p2 p3 cs1 cs2 cs3 x1 x2 x3 d d') :
    d.state.theirDhPublicKeys.get? 2 = some (x2 • suite.gen) := by rw [s.state.2.1]; simp [BMap.get?]
theorem Session.dh3 (s : Session dbg p1 p2 p3 cs1 cs2 cs3 x1 x2 x3 d d') :
    d.state.theirDhPublicKeys.get? 3 = some (x3 • suite.gen) := by rw [s.state.2.1]; simp [BMap.get?]

theorem Second.labels {x : Fp} (r : Second dbg cs1 cs2 cs3 x1 x2 x3 x d e1 e2 d2 c m) :
    ∀ e ∈ [e1, e2, e3], e.receiverIndex = 1 := by
  intro e he
  simp only [List.mem_cons, List.not_mem_nil, or_false] at he
  rcases he with rfl | rfl | rfl
  · exact r.rec1
  · exact r.rec2
  · rfl

theorem Session.addressed (s : Session dbg p1 p2 p3 cs1 cs2 cs3 x1 x2 x3 d d')
    (r : Second dbg cs1 cs2 cs3 x1 x2 x3 x1 d e1 e2 d2 c m) : ∀ e ∈ [e1, e2, e3], e.receiverIndex = d.state.index := by
  rw [s.state.2.2.2.1]
  exact r.labels

theorem Session.senders (s : Session dbg p1 p2 p3 cs1 cs2 cs3 x1 x2 x3 d d')
    (r : Second dbg cs1 cs2 cs3 x1 x2 x3 x1 d e1 e2 d2 c m) :
    ∀ e ∈ [e1, e2, e3], e.senderIndex ∈ d.state.theirDhPublicKeys.keys := by
  intro e he
  simp only [List.mem_cons, List.not_mem_nil, or_false] at he
  rcases he with rfl | rfl | rfl
  · rw [r.send1]; exact BMap.mem_keys_of_get? s.dh1
  · rw [r.send2]; exact BMap.mem_keys_of_get? s.dh2
  · exact BMap.mem_keys_of_get? s.dh3

variable (s : Session dbg p1 p2 p3 cs1 cs2 cs3 x1 x2 x3 d d') (r : Second dbg cs1 cs2 cs3 x1 x2 x3 x1 d e1 e2 d2 c m)

example := C28_complaints suite dbg d _ s.state.1 (onFile_wf cs1 cs2 cs3).nodup _ _ _ (Or.inl ⟨_, r.round⟩)
example := C29_missing_shares suite dbg d [e3] 0
example := C29_foreign_share suite false d _ s.state.1 [e1, e2, ⟨9, 1, [], []⟩] 0 (by rw [s.state.2.2.1]; simp) (by simp)

/-- C30: of three shares one is bad; with threshold 2 the participant goes on. -/
example := C30_aborts_iff_partial suite dbg d _ s.state.1 (onFile_wf cs1 cs2 cs3).nodup [e1, e2, e3]
  (by rw [s.state.2.2.1]; simp) (fun e he => ⟨fun _ => s.addressed r e he, s.senders r e he⟩) 0 [e3]
  (by have := s.state.bad_shares r.dealt1 r.dealt2 r.send1 r.send2; convert this) (by rw [s.state.2.2.1]; simp)

example := C30_bound suite d (onFile cs1 cs2 cs3) [e1, e2, e3] (by simp [r.send1, r.send2, e3])
  (by rw [s.state.2.2.1]; simp [onFile])

theorem Session.e3_bad (s : Session dbg p1 p2 p3 cs1 cs2 cs3 x1 x2 x3 d d') :
    ∃ pk c, d.state.theirDhPublicKeys.get? e3.senderIndex = some pk ∧
      (onFile cs1 cs2 cs3).get? e3.senderIndex = some c ∧
        ¬ Spec.GoodShare suite (d.state.dhPrivateKey • pk) c.points e3 :=
  ⟨x3 • suite.gen, ⟨3, commitPoints suite cs3⟩, s.dh3, onFile_three _ _ _, toy_bad _ _ _ _⟩

theorem Session.all_bad (s : Session dbg p1 p2 p3 cs1 cs2 cs3 x1 x2 x3 d d') :
    [e3, e3, e3, e3] = [e3, e3, e3, e3].filter fun e => ∃ pk c, d.state.theirDhPublicKeys.get? e.senderIndex = some pk ∧
      (onFile cs1 cs2 cs3).get? e.senderIndex = some c ∧
        ¬ Spec.GoodShare suite (d.state.dhPrivateKey • pk) c.points e := by
  simp only [List.filter_cons, List.filter_nil, decide_eq_true s.e3_bad, if_true]

/-- C30: the empty ciphertext four times, and three participants. -/
example := C30_overflow suite dbg d _ s.state.1 (onFile_wf cs1 cs2 cs3).nodup [e3, e3, e3, e3]
  (by rw [s.state.2.2.1]; simp) (by
    intro e he
    obtain rfl : e = e3 := by simpa using he
    exact ⟨fun _ => by rw [s.state.2.2.2.1]; rfl, BMap.mem_keys_of_get? s.dh3⟩) 0 [e3, e3, e3, e3]
  (by have := s.all_bad; convert this) (by rw [s.state.2.2.1]; simp) (by rw [s.state.2.2.1]; simp)

example := C31_last_share suite dbg d _ s.state.1 (onFile_wf cs1 cs2 cs3).nodup _ _ _ _ r.round

/-- The share of 2 that participant 1 holds. -/
theorem Session.share2 (s : Session dbg p1 p2 p3 cs1 cs2 cs3 x1 x2 x3 d d')
    (r : Second dbg cs1 cs2 cs3 x1 x2 x3 x1 d e1 e2 d2 c m) : m.get? 2 = some ⟨2, 1, Spec.polyEval cs2 1⟩ := by
  obtain ⟨m', hm', h⟩ := C31_last_share suite dbg d _ s.state.1 (onFile_wf cs1 cs2 cs3).nodup _ _ _ _ r.round
  obtain rfl : m' = m := Option.some.inj (hm'.symm.trans r.shares)
  rw [h]
  obtain ⟨_, _, h3⟩ := honestlyDealt_opens cipher_laws codec_laws r.dealt2
  refine ⟨[e1], e2, [e3], x2 • suite.gen, _, rfl, r.send2, s.dh2, ?_, by rw [r.rec2], ?_⟩
  · rw [s.state.2.2.2.2, smul_comm]
    have h1 : u32F Fp 1 = 1 := by simp [u32F]
    rwa [h1] at h3
  · intro e he hs
    obtain rfl : e = e3 := by simpa using he
    simp [e3] at hs

example := C31_stored_iff suite dbg d _ s.state.1 (onFile_wf cs1 cs2 cs3).nodup _ _ _ _ r.round m r.shares 2 _ (s.share2 r)
  (by intro a ha; obtain rfl : a = c := by simpa using ha
      rw [r.about]; decide) _ (onFile_two _ _ _)
example := C31_stored_share_partial suite dbg d _ s.state.1 (onFile_wf cs1 cs2 cs3).nodup _ _ (Or.inr (s.addressed r)) _ _
  r.round m r.shares 2 _ (s.share2 r)
  (by intro a ha; obtain rfl : a = c := by simpa using ha
      rw [r.about]; decide) _ (onFile_two _ _ _)

/-- A round-one state with threshold 1. -/
def single : RoundOne Fp Fp := ⟨{ toyR1.state with parameters := ⟨2, 1⟩ }⟩

/-- C31: a share that dealer 1 meant for 7 is stored by 3. -/
example : ∃ e d' m, single.toRoundTwo suite false [e] 0 = .ok (d', []) ∧ d'.state.mySecretShares = some m ∧
    m.get? 1 = some ⟨1, 7, Spec.polyEval [(10 : Fp), 11] 7⟩ := by
  obtain ⟨e, he, _⟩ := honest_exists 1 7 101 5 [10, 11] 0
  obtain ⟨d', m, h⟩ := C31_release_misaddressed cipher_laws codec_laws single toyComms rfl toy_holds.wfc.nodup rfl (by decide)
    1 7 101 [10, 11] (by simp [single, toyR1, BMap.get?]) ⟨1, [(10 : Fp) • suite.gen, (11 : Fp) • suite.gen]⟩
    (by simp [toyComms, BMap.get?]) (by simp) e he 0
  exact ⟨e, d', m, by simpa using h⟩

/-- C32: a share of dealer 2 is missing. -/
example : ∃ e, HonestlyDealt suite 1 4 (8 : Fp) [3] ((9 : Fp) • suite.gen) e := by
  obtain ⟨e, he, _⟩ := honest_exists 1 4 8 9 [3] 0
  have := C32_missing_share_accepted lawful dbg 3 5 8 12 9 (by decide) 4 e he 0
  exact ⟨e, he⟩

example := C32_all_shares_partial u32_inj _ _ _ FinishExamples.dealers
  (honestState_holds suite ⟨3, 2⟩ FinishExamples.hD FinishExamples.cs 7) FinishExamples.labels
example := C34_group_key_value u32_inj _ _ _ FinishExamples.dealers
  (honestState_holds suite ⟨3, 2⟩ FinishExamples.hD FinishExamples.cs 7)
example := C82_labelled_partial u32_inj _ _ _ FinishExamples.dealers
  (honestState_holds suite ⟨3, 2⟩ FinishExamples.hD FinishExamples.cs 7) FinishExamples.labels
example := C119_finish group_laws u32_inj FinishExamples.D FinishExamples.hD (by decide) FinishExamples.cs
  (by simp [FinishExamples.cs]) _ _ (honestState_holds suite ⟨3, 2⟩ FinishExamples.hD FinishExamples.cs 7)
example := C119_enough u32_inj 2 FinishExamples.D [3, 7] (by decide) (by decide) FinishExamples.cs
  (by simp [FinishExamples.cs])

/-- C34: participants 3 and 7. -/
example : ∃ gk sk sk', (honestState suite ⟨3, 2⟩ FinishExamples.D FinishExamples.cs 3).finish = .ok (gk, sk) ∧
    (honestState suite ⟨3, 2⟩ FinishExamples.D FinishExamples.cs 7).finish = .ok (gk, sk') := by
  obtain ⟨a, b, h, _⟩ := C32_all_shares_partial u32_inj _ _ _ FinishExamples.dealers
    (honestState_holds suite ⟨3, 2⟩ FinishExamples.hD FinishExamples.cs 3) FinishExamples.labels
  obtain ⟨a', b', h', _⟩ := C32_all_shares_partial u32_inj _ _ _ FinishExamples.dealers
    (honestState_holds suite ⟨3, 2⟩ FinishExamples.hD FinishExamples.cs 7) FinishExamples.labels
  obtain rfl := C34_same_group_key (honestState suite ⟨3, 2⟩ FinishExamples.D FinishExamples.cs 3)
    (honestState suite ⟨3, 2⟩ FinishExamples.D FinishExamples.cs 7) rfl _ _ _ _ h h'
  exact ⟨a, b, b', h, h'⟩

example := C37_own_complaints_partial suite dbg d _ s.state.1 (onFile_wf cs1 cs2 cs3) _ _ _ _ r.round
  (by rw [s.state.2.2.1]; rfl) (by rw [s.state.2.2.1]; simp)
example := C38_generate_perm (F := Fp) u32_inj 7 [⟨1, [(3 : Fp)]⟩, ⟨2, [5, 6]⟩] [⟨2, [5, 6]⟩, ⟨1, [3]⟩] (List.Perm.swap _ _ _)
example := C38_verify_table (F := Fp) u32_inj ⟨7, (9 : Fp)⟩ [⟨1, [3]⟩, ⟨2, [5, 6]⟩]

example := C38_verify_perm (F := Fp) u32_inj ⟨7, (9 : Fp)⟩ [⟨1, [3]⟩, ⟨2, [5, 6]⟩] [⟨2, [5, 6]⟩, ⟨1, [3]⟩] (List.Perm.swap _ _ _)
example := C38_verify_iff_generated (F := Fp) u32_inj ⟨7, (9 : Fp)⟩ [⟨1, [3]⟩, ⟨2, [5, 6]⟩]
example := C38_generated_value (F := Fp) u32_inj 7 [⟨1, [(3 : Fp)]⟩, ⟨2, [5, 6]⟩] (by decide) (by decide)
example := C89_round_two_order suite dbg d _ s.state.1 (onFile_wf cs1 cs2 cs3).nodup [e1, e2, e3] [e2, e1, e3]
  (List.Perm.swap _ _ _) (by simp [r.send1, r.send2, e3]) _ 5 _ _ r.round
example := C93_distinct_dealers_partial suite dbg d _ s.state.1 _ (by simp [r.send1, r.send2, e3]) _ _ r.round

theorem Session.reach (s : Session dbg p1 p2 p3 cs1 cs2 cs3 x1 x2 x3 d d')
    (r : Second dbg cs1 cs2 cs3 x1 x2 x3 x1 d e1 e2 d2 c m) : ReachTwo suite dbg [p1, p2, p3, q] [e1, e2, e3] d2 :=
  .round _ _ _ _ _ _ (.bootstrap _ _ _ _ _ _ _ _ s.boot) r.round

example := C95_finish_no_panic (s.reach r)
example := C95_finish_ok_iff u32_inj (s.reach r) r.holds.1 r.shares
example (s : Session true p1 p2 p3 cs1 cs2 cs3 x1 x2 x3 d d') (r : Second true cs1 cs2 cs3 x1 x2 x3 x1 d e1 e2 d2 c m) :=
  fun p => C95_to_round_two_no_panic_debug (.bootstrap _ _ _ _ _ _ _ _ s.boot) [e1, e2, e3] (s.addressed r)
    (by rw [s.state.2.2.1]; simp) 0 p

end IceFrost.Cases
