import Verif.Props.Exact
import Verif.Props.Tables
import Verif.Props.Fresh
import Verif.Props.Sessions
import Verif.Props.Wire
import Verif.Props.FinishExamples
import Verif.Props.Frame
import Verif.Props.Order

/-!
# A concrete session

Four records for a (4, 2) session of the toy suite: the dealers 1, 2, 3 and a record of 4 without commitments. Participant
1 runs `bootstrap`, and (as in a resharing) `new`. It then receives the share of 2 and an empty ciphertext from 3. The
session meets the hypotheses of the theorems about round one, round two and blame; the examples apply them.
-/

set_option linter.unusedSectionVars false
set_option linter.unusedSimpArgs false

namespace IceFrost.Cases

open Toy
attribute [local instance] Classical.propDecidable

/-- The record of 4. -/
def q : Participant Fp Fp := ⟨4, (6 : Fp) • suite.gen, none, none, ⟨0, 0⟩⟩

structure Session (dbg : Bool) (p1 p2 p3 : Participant Fp Fp) (cs1 cs2 cs3 : List Fp) (x1 x2 x3 : Fp)
    (d d' : RoundOne Fp Fp) : Prop where
  h1 : newDealer suite ⟨4, 2⟩ 1 10 = .ok (p1, cs1, x1)
  h2 : newDealer suite ⟨4, 2⟩ 2 20 = .ok (p2, cs2, x2)
  h3 : newDealer suite ⟨4, 2⟩ 3 30 = .ok (p3, cs3, x3)
  i1 : p1.index = 1
  i2 : p2.index = 2
  i3 : p3.index = 3
  good : ∀ p ∈ [p1, p2, p3], GoodDealer suite 2 p
  bad : ¬ GoodDealer suite 2 q
  lacks : ∀ p ∈ [p1, p2, p3, q], ¬ Spec.LacksProof suite p
  nodup : ([p1, p2, p3, q].map (·.index)).Nodup
  boot : bootstrap suite dbg ⟨4, 2⟩ x1 1 cs1 [p1, p2, p3, q] 0 = .ok (d, ⟨[p1, p2, p3], some [4]⟩)
  new : dkgNew suite dbg ⟨4, 2⟩ 5 1 [p1, p2, p3, q] 0 = .ok (d', ⟨[p1, p2, p3], some [4]⟩)

theorem session (dbg : Bool) : ∃ p1 p2 p3 cs1 cs2 cs3 x1 x2 x3 d d', Session dbg p1 p2 p3 cs1 cs2 cs3 x1 x2 x3 d d' := by
  obtain ⟨p1, cs1, x1, h1, i1, _⟩ := C16_new_dealer suite ⟨4, 2⟩ (by simp) 1 (by simp) 10
  obtain ⟨p2, cs2, x2, h2, i2, _⟩ := C16_new_dealer suite ⟨4, 2⟩ (by simp) 2 (by simp) 20
  obtain ⟨p3, cs3, x3, h3, i3, _⟩ := C16_new_dealer suite ⟨4, 2⟩ (by simp) 3 (by simp) 30
  have ht : (⟨4, 2⟩ : Params).t ≠ 0 := by simp
  have g1 := (newDealer_good ht h1).2.2.2.2.2
  have g2 := (newDealer_good ht h2).2.2.2.2.2
  have g3 := (newDealer_good ht h3).2.2.2.2.2
  have hb : ¬ Spec.DealerValid suite q := by rintro ⟨_, c, _, _, hc, _⟩; cases hc
  have hbad : ¬ GoodDealer suite 2 q := fun h => hb h.1
  have hgood : ∀ p ∈ [p1, p2, p3], GoodDealer suite 2 p := by
    intro p hp
    simp only [List.mem_cons, List.not_mem_nil, or_false] at hp
    rcases hp with rfl | rfl | rfl <;> assumption
  have hl : ∀ p ∈ [p1, p2, p3, q], ¬ Spec.LacksProof suite p := by
    intro p hp
    simp only [List.mem_cons, List.not_mem_nil, or_false] at hp
    rcases hp with rfl | rfl | rfl | rfl
    · exact dealerValid_not_lacks g1.1
    · exact dealerValid_not_lacks g2.1
    · exact dealerValid_not_lacks g3.1
    · rintro ⟨_, _, c, _, hc, _⟩; cases hc
  have hl' : ¬ ∃ p ∈ [p1, p2, p3, q], Spec.LacksProof suite p := fun ⟨p, hp, h⟩ => hl p hp h
  have f1 : [p1, p2, p3, q].filter (fun p => decide (GoodDealer suite 2 p)) = [p1, p2, p3] := by
    simp only [List.filter_cons, List.filter_nil, decide_eq_true g1, decide_eq_true g2, decide_eq_true g3,
      decide_eq_false hbad, if_true]
    simp
  have f2 : [p1, p2, p3, q].filter (fun p => decide (Spec.DealerValid suite p)) = [p1, p2, p3] := by
    simp only [List.filter_cons, List.filter_nil, decide_eq_true g1.1, decide_eq_true g2.1, decide_eq_true g3.1,
      decide_eq_false hb, if_true]
    simp
  have n1 : ([p1, p2, p3, q].filter fun p => decide (¬ GoodDealer suite 2 p)).map (·.index) = [4] := by
    simp only [List.filter_cons, List.filter_nil, decide_not, decide_eq_true g1, decide_eq_true g2, decide_eq_true g3,
      decide_eq_false hbad]
    simp [q]
  have n2 : ([p1, p2, p3, q].filter fun p => decide (¬ Spec.DealerValid suite p)).map (·.index) = [4] := by
    simp only [List.filter_cons, List.filter_nil, decide_not, decide_eq_true g1.1, decide_eq_true g2.1,
      decide_eq_true g3.1, decide_eq_false hb]
    simp [q]
  obtain ⟨d, hd⟩ := C116_bootstrap cipher_laws codec_laws dbg ⟨4, 2⟩ x1 1 cs1 [p1, p2, p3, q] 0
  obtain ⟨d', hd'⟩ := C116_new suite dbg ⟨4, 2⟩ 5 1 [p1, p2, p3, q] 0
  rw [if_neg (fun h => h rfl), if_neg hl', if_neg ht, f1, if_neg (by simp), n1,
    if_neg (fun h => hbad (h q (by simp)))] at hd
  rw [if_neg (fun h => h rfl), if_neg hl', if_neg ht, f2, if_neg (by simp), n2,
    if_neg (fun h => hb (h q (by simp)))] at hd'
  exact ⟨p1, p2, p3, cs1, cs2, cs3, x1, x2, x3, d, d', h1, h2, h3, i1, i2, i3, hgood, hbad, hl,
    by simp [i1, i2, i3, q], hd, hd'⟩

/-- The commitments on file at participant 1. -/
def onFile (cs1 cs2 cs3 : List Fp) : BMap (VssCommitment Fp) :=
  [(1, ⟨1, commitPoints suite cs1⟩), (2, ⟨2, commitPoints suite cs2⟩), (3, ⟨3, commitPoints suite cs3⟩)]

variable {dbg : Bool} {p1 p2 p3 : Participant Fp Fp} {cs1 cs2 cs3 : List Fp} {x1 x2 x3 : Fp} {d d' : RoundOne Fp Fp}

/-- What participant 1 has on file, with `x` as private Diffie-Hellman key. -/
def View (d : RoundOne Fp Fp) (cs1 cs2 cs3 : List Fp) (x1 x2 x3 x : Fp) : Prop :=
  d.state.theirCommitments = some (onFile cs1 cs2 cs3) ∧
    d.state.theirDhPublicKeys = [(1, x1 • suite.gen), (2, x2 • suite.gen), (3, x3 • suite.gen)] ∧
    d.state.parameters = ⟨3, 2⟩ ∧ d.state.index = 1 ∧ d.state.dhPrivateKey = x

/-- What `bootstrap` has on file. -/
theorem Session.state (s : Session dbg p1 p2 p3 cs1 cs2 cs3 x1 x2 x3 d d') :
    View d cs1 cs2 cs3 x1 x2 x3 x1 := by
  have ht : (⟨4, 2⟩ : Params).t ≠ 0 := by simp
  obtain ⟨_, _, _, c1, k1, _⟩ := newDealer_good ht s.h1
  obtain ⟨_, _, _, c2, k2, _⟩ := newDealer_good ht s.h2
  obtain ⟨_, _, _, c3, k3, _⟩ := newDealer_good ht s.h3
  obtain ⟨_, _, a1, a2, a3, a4, a5, a6, _⟩ := C20_bootstrap_classifies cipher_laws codec_laws _ _ _ _ _ _ _ _ _ s.boot
  refine ⟨?_, ?_, ?_, a5, a6⟩
  · rw [a3]
    simp only [List.filterMap_cons, List.filterMap_nil, c1, c2, c3, s.i1, s.i2, s.i3, Option.map_some]
    rfl
  · rw [a4]
    simp only [List.map_cons, List.map_nil, k1, k2, k3, s.i1, s.i2, s.i3]
    rfl
  · have : d.state.parameters.n = 3 := UInt32.toNat_inj.mp a1
    cases hp : d.state.parameters with
    | mk n t => rw [hp] at this a2; cases this; cases a2; rfl

/-- What `new` has on file. -/
theorem Session.state_new (s : Session dbg p1 p2 p3 cs1 cs2 cs3 x1 x2 x3 d d') : View d' cs1 cs2 cs3 x1 x2 x3 5 := by
  have ht : (⟨4, 2⟩ : Params).t ≠ 0 := by simp
  obtain ⟨_, _, _, c1, k1, _⟩ := newDealer_good ht s.h1
  obtain ⟨_, _, _, c2, k2, _⟩ := newDealer_good ht s.h2
  obtain ⟨_, _, _, c3, k3, _⟩ := newDealer_good ht s.h3
  obtain ⟨_, _, a1, a2, a3, a4, a5, a6, _⟩ := C20_new_classifies _ _ _ _ _ _ _ _ s.new
  refine ⟨?_, ?_, ?_, a5, a6⟩
  · rw [a3]
    simp only [List.filterMap_cons, List.filterMap_nil, c1, c2, c3, s.i1, s.i2, s.i3, Option.map_some]
    rfl
  · rw [a4]
    simp only [List.map_cons, List.map_nil, k1, k2, k3, s.i1, s.i2, s.i3]
    rfl
  · have : d'.state.parameters.n = 3 := UInt32.toNat_inj.mp a1
    cases hp : d'.state.parameters with
    | mk n t => rw [hp] at this a2; cases this; cases a2; rfl

theorem onFile_wf (cs1 cs2 cs3 : List Fp) : (onFile cs1 cs2 cs3).WF := by simp [onFile, BMap.WF, BMap.keys]

theorem honest_good {l i : U32} {xl y : Fp} {cs : List Fp} {e : EncShare}
    (h : HonestlyDealt suite l i xl cs (y • suite.gen) e) :
    Spec.GoodShare suite (y • xl • suite.gen) (commitPoints suite cs) e := by
  obtain ⟨_, h2, h3⟩ := honestlyDealt_opens cipher_laws codec_laws h
  refine ⟨_, by rw [smul_comm]; exact h3, ?_⟩
  rw [pointEval_commitPoints, h2]
  rfl

theorem honest_exists (l i : U32) (xl y : Fp) (cs : List Fp) (r : Nat) :
    ∃ e, HonestlyDealt suite l i xl cs (y • suite.gen) e ∧ e.senderIndex = l ∧ e.receiverIndex = i := by
  obtain ⟨e, r', h, _⟩ := encryptShare_ok cipher_laws codec_laws
    (evaluatePolynomial (F := Fp) l i cs) (suite.encG (xl • (y • suite.gen))) r
  have : HonestlyDealt suite l i xl cs (y • suite.gen) e := ⟨r, r', h⟩
  obtain ⟨h1, h2, _⟩ := honestlyDealt_opens cipher_laws codec_laws this
  exact ⟨e, this, h1, h2⟩

/-- The empty ciphertext that 3 sends to 1. -/
def e3 : EncShare := ⟨3, 1, [], []⟩

/-- Round two of participant 1, with the own share, the share of 2 and the empty ciphertext of 3. -/
structure Second (dbg : Bool) (cs1 cs2 cs3 : List Fp) (x1 x2 x3 x : Fp) (d : RoundOne Fp Fp)
    (e1 e2 : EncShare) (d2 : RoundTwo Fp Fp) (c : Complaint Fp Fp) (m : BMap (SecretShare Fp)) : Prop where
  dealt1 : HonestlyDealt suite 1 1 x1 cs1 (x • suite.gen) e1
  dealt2 : HonestlyDealt suite 2 1 x2 cs2 (x • suite.gen) e2
  send1 : e1.senderIndex = 1
  send2 : e2.senderIndex = 2
  rec1 : e1.receiverIndex = 1
  rec2 : e2.receiverIndex = 1
  round : d.toRoundTwo suite dbg [e1, e2, e3] 0 = .ok (d2, [c])
  about : c.encShare = e3
  shares : d2.state.mySecretShares = some m
  holds : Holds d2 (onFile cs1 cs2 cs3) m

theorem View.bad_shares {x : Fp} (v : View d cs1 cs2 cs3 x1 x2 x3 x) {e1 e2 : EncShare}
    (a1 : HonestlyDealt suite 1 1 x1 cs1 (x • suite.gen) e1) (a2 : HonestlyDealt suite 2 1 x2 cs2 (x • suite.gen) e2)
    (b1 : e1.senderIndex = 1) (b2 : e2.senderIndex = 2) :
    [e3] = [e1, e2, e3].filter fun e => ∃ pk c, d.state.theirDhPublicKeys.get? e.senderIndex = some pk ∧
      (onFile cs1 cs2 cs3).get? e.senderIndex = some c ∧
        ¬ Spec.GoodShare suite (d.state.dhPrivateKey • pk) c.points e := by
  obtain ⟨c1, c2, c3, c4, c5⟩ := id v
  have n1 : ¬ ∃ pk c, d.state.theirDhPublicKeys.get? e1.senderIndex = some pk ∧
      (onFile cs1 cs2 cs3).get? e1.senderIndex = some c ∧
        ¬ Spec.GoodShare suite (d.state.dhPrivateKey • pk) c.points e1 := by
    rintro ⟨pk, c, h1, h2, h3⟩
    rw [c2, b1] at h1
    rw [b1] at h2
    simp only [BMap.get?, if_true, Option.some.injEq, onFile] at h1 h2
    rw [← h1, ← h2, c5] at h3
    exact h3 (honest_good a1)
  have n2 : ¬ ∃ pk c, d.state.theirDhPublicKeys.get? e2.senderIndex = some pk ∧
      (onFile cs1 cs2 cs3).get? e2.senderIndex = some c ∧
        ¬ Spec.GoodShare suite (d.state.dhPrivateKey • pk) c.points e2 := by
    rintro ⟨pk, c, h1, h2, h3⟩
    rw [c2, b2] at h1
    rw [b2] at h2
    simp [BMap.get?, onFile] at h1 h2
    rw [← h1, ← h2, c5] at h3
    exact h3 (honest_good a2)
  have n3 : ∃ pk c, d.state.theirDhPublicKeys.get? e3.senderIndex = some pk ∧
      (onFile cs1 cs2 cs3).get? e3.senderIndex = some c ∧
        ¬ Spec.GoodShare suite (d.state.dhPrivateKey • pk) c.points e3 := by
    refine ⟨x3 • suite.gen, ⟨3, commitPoints suite cs3⟩, ?_, ?_, toy_bad _ _ _ _⟩
    · rw [c2]; simp [BMap.get?, e3]
    · simp [BMap.get?, e3, onFile]
  simp only [List.filter_cons, List.filter_nil, decide_eq_false n1, decide_eq_false n2, decide_eq_true n3, if_true]
  simp

theorem View.second {x : Fp} (v : View d cs1 cs2 cs3 x1 x2 x3 x) :
    ∃ e1 e2 d2 c m, Second dbg cs1 cs2 cs3 x1 x2 x3 x d e1 e2 d2 c m := by
  obtain ⟨e1, a1, b1, r1⟩ := honest_exists 1 1 x1 x cs1 0
  obtain ⟨e2, a2, b2, r2⟩ := honest_exists 2 1 x2 x cs2 0
  obtain ⟨c1, c2, c3, c4, c5⟩ := id v
  have hw := onFile_wf cs1 cs2 cs3
  obtain ⟨d2, cs, hcs, h⟩ := C116_to_round_two suite dbg d (onFile cs1 cs2 cs3) c1 hw.nodup [e1, e2, e3] 0 [e3]
    (by have := v.bad_shares a1 a2 b1 b2; convert this)
  have hst : Spec.stopper dbg d.state [e1, e2, e3] = none := by
    unfold Spec.stopper
    rw [List.find?_eq_none]
    intro e he
    simp only [List.mem_cons, List.not_mem_nil, or_false] at he
    rw [c2, c4]
    rcases he with rfl | rfl | rfl
    · simp [r1, b1, BMap.keys]
    · simp [r2, b2, BMap.keys]
    · simp [e3, BMap.keys]
  rw [hst, c3] at h
  simp only [List.length_cons, List.length_nil] at h
  rw [if_neg (by simp), if_neg (by simp), if_neg (by simp)] at h
  obtain ⟨c, rfl⟩ : ∃ c, cs = [c] := List.length_eq_one_iff.mp (by simpa using congrArg List.length hcs)
  have hcs' : c.encShare = e3 := by simpa using hcs
  obtain ⟨k1, _⟩ := roundTwo_stored suite dbg d _ c1 hw.nodup _ 0 d2 [c] h
  obtain ⟨m, hm, _⟩ := C31_last_share suite dbg d _ c1 hw.nodup _ 0 d2 [c] h
  refine ⟨e1, e2, d2, c, m, a1, a2, b1, b2, r1, r2, h, hcs', hm, ⟨?_, hm, hw, ?_⟩⟩
  · rw [k1]; exact c1
  · rw [k1] at hm
    simp only [roundTwoState, Option.some.injEq] at hm
    rw [← hm]
    exact BMap.wf_ofList _

end IceFrost.Cases
