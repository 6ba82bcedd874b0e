import Verif.Cases.Blame
import Verif.Props.Views

/-! # C127 applied to the run of `Cases.Session` -/

set_option linter.unusedSectionVars false

namespace IceFrost.Cases

open IceFrost Toy

variable {dbg : Bool} {p1 p2 p3 : Participant Fp Fp} {cs1 cs2 cs3 : List Fp} {x1 x2 x3 : Fp} {d d' : RoundOne Fp Fp}
  {e1 e2 : EncShare} {d2 : RoundTwo Fp Fp} {c : Complaint Fp Fp} {m : BMap (SecretShare Fp)}

/-- The polynomials of the three dealers. -/
def polys (cs1 cs2 cs3 : List Fp) (k : U32) : List Fp := if k = 1 then cs1 else if k = 2 then cs2 else cs3

theorem onFile_map (cs1 cs2 cs3 : List Fp) : onFile cs1 cs2 cs3 = dealerMap suite [1, 2, 3] (polys cs1 cs2 cs3) := by
  simp [onFile, dealerMap, BMap.ofList, BMap.insert, polys]

theorem Session.known (s : Session dbg p1 p2 p3 cs1 cs2 cs3 x1 x2 x3 d d')
    (r : Second dbg cs1 cs2 cs3 x1 x2 x3 x1 d e1 e2 d2 c m) : ∀ k ∈ m.keys, k ∈ ([1, 2, 3] : List U32) := by
  intro k hk
  obtain ⟨v, hv⟩ := BMap.exists_get? hk
  obtain ⟨m', hm', h⟩ := C31_last_share suite dbg d _ s.state.1 (onFile_wf cs1 cs2 cs3).nodup _ _ _ _ r.round
  obtain rfl : m' = m := Option.some.inj (hm'.symm.trans r.shares)
  obtain ⟨pre, e, post, pk, ev, hsplit, hs, _⟩ := (h k v).mp hv
  have he : e ∈ [e1, e2, e3] := by rw [hsplit]; simp
  simp only [List.mem_cons, List.not_mem_nil, or_false] at he
  rcases he with rfl | rfl | rfl
  · rw [← hs, r.send1]; decide
  · rw [← hs, r.send2]; decide
  · rw [← hs]; decide

variable (s : Session dbg p1 p2 p3 cs1 cs2 cs3 x1 x2 x3 d d') (r : Second dbg cs1 cs2 cs3 x1 x2 x3 x1 d e1 e2 d2 c m)

/-- The complaint of 1 about 3 does not reach 2. -/
example := C127_undelivered_complaint group_laws u32_inj [1, 2, 3] (by decide) (by decide) (polys cs1 cs2 cs3) (by
    have ht : (⟨4, 2⟩ : Params).t ≠ 0 := by simp
    intro k hk h0
    have l1 := (newDealer_good ht s.h1).2.2.1
    have l2 := (newDealer_good ht s.h2).2.2.1
    have l3 := (newDealer_good ht s.h3).2.2.1
    unfold polys at h0
    split at h0
    · rw [h0] at l1; simp at l1
    · split at h0
      · rw [h0] at l2; simp at l2
      · rw [h0] at l3; simp at l3)
  dbg d [e1, e2, e3] 0 [c] (Or.inl ⟨_, r.round⟩) (by rw [← onFile_map]; exact s.state.1) c (by simp)
  (by rw [r.accused]; decide) d2 m (by rw [← onFile_map]; exact r.holds) (s.known r) (s.kept r).1
  (by rw [r.accused, (s.kept r).2])
  ⟨{ d2.state with index := 2, mySecretShares := some [] }⟩ []
  ⟨by rw [← onFile_map]; exact r.holds.1, rfl, by rw [← onFile_map]; exact r.holds.3, by simp [BMap.WF, BMap.keys]⟩
  (by simp [BMap.keys])

/-- The same complaint once and twice. -/
example := C127_same_verdicts_partial suite d2 ⟨{ d2.state with index := 2, mySecretShares := some [] }⟩ _ m [] r.holds
  ⟨r.holds.1, rfl, r.holds.3, by simp [BMap.WF, BMap.keys]⟩ [c] [c, c] (fun k => by simp; rfl)

/-- The two group keys differ for the secrets 5, 7 and 1: the line through 5 at 1 and 7 at 2 has 9 at 3. -/
example : (1 : Fp) ≠ Spec.predicted ([1, 2] : List U32) (fun k => (polys [5, 2] [7, 2] [1, 2] k : List Fp).headD 0) 3 := by
  unfold Spec.predicted polys
  simp [Lagrange.basisDivisor]
  decide +kernel

end IceFrost.Cases
