import Verif.Lemmas.RoundTwo

/-! # `blame` -/

set_option linter.unusedSectionVars false
set_option linter.unusedSimpArgs false

namespace IceFrost

attribute [local instance] Classical.propDecidable

variable {F G R : Type} [Field F] [DecidableEq F] [AddCommGroup G] [Module F G] [DecidableEq G]

/-- The complaint makes `blame` remove the accused: the accused index is in range and belongs to a dealer, the
complaint's proof verifies under that dealer's DH key, and the share is not good under the disclosed shared key. -/
def Upheld (S : Suite F G R) (st : DkgState F G) (comms : BMap (VssCommitment G)) (c : Complaint F G) : Prop :=
  c.encShare.senderIndex ≠ 0 ∧ ¬ st.parameters.n < c.encShare.senderIndex ∧
    ∃ vc, comms.get? c.encShare.senderIndex = some vc ∧
      c.verify S ((st.theirDhPublicKeys.get? c.encShare.senderIndex).getD 0) = .ok () ∧
      ¬ Spec.GoodShare S c.dhSharedKey vc.points c.encShare

theorem not_upheld {S : Suite F G R} {st : DkgState F G} {comms : BMap (VssCommitment G)} {c : Complaint F G}
    {vc : VssCommitment G} (h : comms.get? c.encShare.senderIndex = some vc)
    (hg : Spec.GoodShare S c.dhSharedKey vc.points c.encShare) : ¬ Upheld S st comms c := by
  rintro ⟨_, _, vc', h1, _, h2⟩
  rw [h] at h1; cases h1
  exact h2 hg

/-- The index that `blame` removes because of a complaint. -/
noncomputable def verdict (S : Suite F G R) (st : DkgState F G) (comms : BMap (VssCommitment G)) (c : Complaint F G) :
    U32 :=
  if Upheld S st comms c then c.encShare.senderIndex else c.encShare.receiverIndex

theorem judge_eq (S : Suite F G R) (st : DkgState F G) (comms : BMap (VssCommitment G))
    (hc : st.theirCommitments = some comms) (c : Complaint F G) : judge S st c = .ok (verdict S st comms c) := by
  unfold judge verdict
  simp only [hc]
  by_cases h0 : c.encShare.senderIndex = 0 ∨ c.encShare.senderIndex > st.parameters.n
  · rw [if_pos h0, if_neg]
    rintro ⟨h1, h2, _⟩
    exact h0.elim h1 h2
  · rw [if_neg h0]
    rw [not_or] at h0
    cases hg : comms.get? c.encShare.senderIndex with
    | none =>
      simp only []
      rw [if_neg]
      rintro ⟨_, _, vc, h, _⟩
      rw [hg] at h; cases h
    | some vc =>
      simp only []
      refine Eq.trans (b := match c.verify S ((st.theirDhPublicKeys.get? c.encShare.senderIndex).getD 0) with
        | .error _ => .ok c.encShare.receiverIndex
        | .ok () =>
          match decryptShare S c.encShare (S.encG c.dhSharedKey) with
          | .error _ => .ok c.encShare.senderIndex
          | .ok share =>
            match share.verify S vc with
            | .ok () => .ok c.encShare.receiverIndex
            | .error _ => .ok c.encShare.senderIndex) ?_ ?_
      · cases st.theirDhPublicKeys.get? c.encShare.senderIndex <;> rfl
      cases hv : c.verify S ((st.theirDhPublicKeys.get? c.encShare.senderIndex).getD 0) with
      | error f =>
        simp only []
        rw [if_neg]
        rintro ⟨_, _, vc', _, h, _⟩
        rw [hv] at h; cases h
      | ok u =>
        cases u
        simp only []
        by_cases hgood : Spec.GoodShare S c.dhSharedKey vc.points c.encShare
        · rw [if_neg (not_upheld hg hgood)]
          obtain ⟨s, h1, h2⟩ := (goodShare_iff S c.encShare c.dhSharedKey vc).mp hgood
          rw [h1]; simp only []; rw [h2]
        · rw [if_pos ⟨h0.1, h0.2, vc, hg, hv, hgood⟩]
          cases hd : (decryptShare S c.encShare (S.encG c.dhSharedKey) : Out F G (SecretShare F)) with
          | error f => rfl
          | ok s =>
            simp only []
            cases hs : s.verify S vc with
            | error f => rfl
            | ok u =>
              cases u
              exact absurd ((goodShare_iff S c.encShare c.dhSharedKey vc).mpr ⟨s, hd, hs⟩) hgood

theorem mapM_judge (S : Suite F G R) (st : DkgState F G) (comms : BMap (VssCommitment G))
    (hc : st.theirCommitments = some comms) (cs : List (Complaint F G)) :
    cs.mapM (judge S st) = (.ok (cs.map (verdict S st comms)) : Res F G (List U32)) := by
  induction cs with
  | nil => rfl
  | cons c cs ih => rw [List.mapM_cons, judge_eq S st comms hc, ih]; rfl

/-- The state with the dealers in `l` removed. -/
def without (st : DkgState F G) (comms : BMap (VssCommitment G)) (m : BMap (SecretShare F)) (l : List U32) :
    DkgState F G :=
  { st with theirCommitments := some (comms.filter fun e => e.1 ∉ l)
            mySecretShares := some (m.filter fun e => e.1 ∉ l) }

theorem foldlM_remove (st : DkgState F G) (comms : BMap (VssCommitment G)) (m : BMap (SecretShare F))
    (hc : st.theirCommitments = some comms) (hm : st.mySecretShares = some m) (hcw : comms.WF) (hmw : m.WF)
    (l : List U32) : l.foldlM removeMalicious st = (.ok (without st comms m l) : Res F G (DkgState F G)) := by
  induction l generalizing st comms m with
  | nil =>
    unfold without
    simp only [List.not_mem_nil, not_false_eq_true, decide_true, List.filter_true]
    rw [← hc, ← hm]; rfl
  | cons i l ih =>
    rw [List.foldlM_cons]
    have h1 : removeMalicious st i = .ok { st with
        theirCommitments := some (comms.remove i), mySecretShares := some (m.remove i) } := by
      unfold removeMalicious
      rw [hc]; simp only []; rw [hm]
    rw [h1]
    refine (ih _ _ _ rfl rfl (BMap.wf_remove hcw) (BMap.wf_remove hmw)).trans ?_
    unfold without
    simp only [Except.ok.injEq, DkgState.mk.injEq, Option.some.injEq, true_and, and_true]
    rw [BMap.remove_eq_filter hcw.nodup, BMap.remove_eq_filter hmw.nodup, List.filter_filter, List.filter_filter]
    constructor <;>
    · refine List.filter_congr fun e _ => ?_
      by_cases h : e.1 = i <;> simp [h]

/-- What `blame` does. -/
theorem blame_eq (S : Suite F G R) (d : RoundTwo F G) (comms : BMap (VssCommitment G)) (m : BMap (SecretShare F))
    (hc : d.state.theirCommitments = some comms) (hm : d.state.mySecretShares = some m) (hcw : comms.WF) (hmw : m.WF)
    (cs : List (Complaint F G)) :
    d.blame S cs = .ok (⟨without d.state comms m (cs.map (verdict S d.state comms))⟩,
      (dedupByKey id (sortByKey id (cs.map (verdict S d.state comms)))).filterMap
        fun i => d.state.theirDhPublicKeys.get? i) := by
  unfold RoundTwo.blame
  rw [mapM_judge S d.state comms hc]
  simp only []
  rw [foldlM_remove d.state comms m hc hm hcw hmw]
  simp only []
  have : without d.state comms m (dedupByKey id (sortByKey id (cs.map (verdict S d.state comms)))) =
      without d.state comms m (cs.map (verdict S d.state comms)) := by
    unfold without
    simp only [sortDedup_mem]
  rw [this]
  rfl

theorem get?_filter_not_mem {α : Type} {m : BMap α} (hm : m.WF) (l : List U32) (k : U32) :
    BMap.get? k (m.filter fun e => e.1 ∉ l) = if k ∈ l then none else m.get? k := by
  have hw : BMap.WF (m.filter fun e => e.1 ∉ l) := BMap.wf_filter hm _
  split
  · next h =>
    rw [BMap.get?_eq_none]
    intro hk
    obtain ⟨v, hv⟩ := BMap.exists_get? hk
    have := BMap.mem_of_get? hv
    rw [List.mem_filter] at this
    simp [h] at this
  · next h =>
    cases hg : m.get? k with
    | none =>
      rw [BMap.get?_eq_none] at hg ⊢
      exact fun hk => hg ((BMap.keys_filter_sublist _).subset hk)
    | some v =>
      rw [← BMap.mem_iff_get? hw, List.mem_filter]
      exact ⟨BMap.mem_of_get? hg, by simpa using h⟩

theorem mem_keys_filter_not_mem {α : Type} {m : BMap α} (hm : m.WF) (l : List U32) (k : U32) :
    k ∈ BMap.keys (m.filter fun e => e.1 ∉ l) ↔ k ∈ m.keys ∧ k ∉ l := by
  rw [← BMap.get?_isSome, ← BMap.get?_isSome, get?_filter_not_mem hm]
  by_cases h : k ∈ l <;> simp [h]

end IceFrost
