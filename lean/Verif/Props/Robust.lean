import Verif.Props.Blame
import Verif.Props.Dkg

/-! # C80, C81: key generation and resharing with malicious dealers -/

set_option linter.unusedSectionVars false
set_option linter.unusedSimpArgs false

namespace IceFrost

open Finset

attribute [local instance] Classical.propDecidable

variable {F G R : Type} [Field F] [DecidableEq F] [AddCommGroup G] [Module F G] [DecidableEq G]

/-- A receiver that got some share from every dealer, and a complaint list that contains all of its complaints: after
`blame` it holds a verified share for exactly the dealers that are left. -/
theorem verified_after_blame (S : Suite F G R) (dbg : Bool) (d1 : RoundOne F G) (comms : BMap (VssCommitment G))
    (hcomms : d1.state.theirCommitments = some comms) (hw : comms.WF) (h0 : 0 ∉ comms.keys)
    (hdk : ∀ k ∈ d1.state.theirDhPublicKeys.keys, k ∈ comms.keys)
    (es : List EncShare) (rng : R)
    (hlabel : ∀ e ∈ es, e.receiverIndex = d1.state.index)
    (hall : ∀ k ∈ comms.keys, ∃ e ∈ es, e.senderIndex = k)
    (d2 : RoundTwo F G) (cs : List (Complaint F G)) (h : d1.toRoundTwo S dbg es rng = .ok (d2, cs))
    (hrange : ∀ c ∈ cs, c.encShare.senderIndex ∈ comms.keys →
      c.encShare.senderIndex.toNat ≤ d1.state.parameters.n.toNat)
    (all : List (Complaint F G)) (hsub : ∀ c ∈ cs, c ∈ all) :
    ∃ m', d2.blame S all = .ok (⟨without d2.state comms ((d2.state.mySecretShares).getD [])
        (all.map (verdict S d2.state comms))⟩,
        (dedupByKey id (sortByKey id (all.map (verdict S d2.state comms)))).filterMap
          fun i => d2.state.theirDhPublicKeys.get? i) ∧
      HoldsVerified S ⟨without d2.state comms ((d2.state.mySecretShares).getD []) (all.map (verdict S d2.state comms))⟩
        (comms.filter fun e => e.1 ∉ all.map (verdict S d2.state comms)) m' := by
  obtain ⟨m, hd, hp, hi, hdh⟩ := holds_toRoundTwo S dbg d1 comms hcomms hw es rng d2 cs h
  have hget : (d2.state.mySecretShares).getD [] = m := by rw [hd.shares]; rfl
  rw [hget]
  refine ⟨_, blame_eq S d2 comms m hd.commits hd.shares hd.wfc hd.wfm all, rfl, rfl, BMap.wf_filter hd.wfm _, ?_, ?_⟩
  · intro k
    rw [mem_keys_filter_not_mem hd.wfm, mem_keys_filter_not_mem hd.wfc]
    refine and_congr_left fun hnot => ?_
    obtain ⟨h1, h2, h3⟩ := roundTwo_stored S dbg d1 comms hcomms hw.nodup es rng d2 cs h
    have hm : m = BMap.ofList (es.filterMap (opened S d1.state.dhPrivateKey d1.state.theirDhPublicKeys)) := by
      have := hd.shares
      rw [h1] at this
      cases this; rfl
    constructor
    · intro hk
      rw [hm, BMap.mem_keys_ofList] at hk
      obtain ⟨⟨k', s⟩, hs, rfl⟩ := List.mem_map.mp hk
      obtain ⟨e, he, ho⟩ := List.mem_filterMap.mp hs
      obtain ⟨pk, v, hpk, _, hk', _⟩ := opened_eq_some.mp ho
      exact hdk _ (by rw [hk']; exact BMap.mem_keys_of_get? hpk)
    · intro hk
      obtain ⟨e, he, rfl⟩ := hall k hk
      obtain ⟨pk, hpk⟩ := BMap.exists_get? (h2 e he).2
      obtain ⟨vc, hvc⟩ := BMap.exists_get? hk
      by_cases hg : Spec.GoodShare S (d1.state.dhPrivateKey • pk) vc.points e
      · obtain ⟨v, hv, _⟩ := hg
        rw [hm, BMap.mem_keys_ofList]
        refine List.mem_map.mpr ⟨(e.senderIndex, ⟨e.senderIndex, e.receiverIndex, v⟩), ?_, rfl⟩
        exact List.mem_filterMap.mpr ⟨e, he, opened_eq_some.mpr ⟨pk, v, hpk, hv, rfl, rfl⟩⟩
      · exfalso
        obtain ⟨c, hc, hce, _⟩ := forall₂_mem_right h3 e
          (List.mem_filter.mpr ⟨he, by simpa using ⟨pk, vc, hpk, hvc, hg⟩⟩)
        apply hnot
        refine List.mem_map.mpr ⟨c, hsub c hc, ?_⟩
        rw [← hce]
        refine if_pos (madeBy_upheld S dbg d1 es rng cs (.inl ⟨_, h⟩) comms hcomms hw c hc d2.state hdh ?_ ?_).1
        · rw [hce]; exact fun h => h0 (h ▸ hk)
        · rw [hp]; exact hrange c hc (by rw [hce]; exact hk)
  · intro k s vc hs hvc
    rw [get?_filter_not_mem hd.wfm] at hs
    rw [get?_filter_not_mem hd.wfc] at hvc
    split at hs
    · cases hs
    · next hnot =>
      rw [if_neg hnot] at hvc
      have := (stored_share S dbg d1 comms hcomms hw.nodup es rng hlabel d2 cs h m hd.shares k s hs ?_ vc hvc).2.2
      · show _ = Spec.pointEval _ ((d2.state.index).toNat : F)
        rw [hi]; exact this
      · intro c hc hk
        apply hnot
        refine List.mem_map.mpr ⟨c, hsub c hc, ?_⟩
        refine (if_pos (madeBy_upheld S dbg d1 es rng cs (.inl ⟨_, h⟩) comms hcomms hw c hc d2.state hdh ?_ ?_).1).trans hk
        · rw [hk]; exact fun h => h0 (h ▸ BMap.mem_keys_of_get? hvc)
        · rw [hp]; exact hrange c hc (by rw [hk]; exact BMap.mem_keys_of_get? hvc)

/-- The participants `H` that follow the protocol from a common public view, with arbitrary dealers: the common part of
C80 and C81. -/
theorem robust_core {S : Suite F G R} (hg : S.GroupLaws) (hu : Suite.U32Inj F) (dbg : Bool)
    (comms : BMap (VssCommitment G)) (hD : DealersOk comms) (dhs : BMap G) (n : U32)
    (hdk : ∀ k ∈ dhs.keys, k ∈ comms.keys)
    (t : Nat) (hdeg : ∀ k c, comms.get? k = some c → c.points.length ≤ t) (ht : t ≠ 0)
    (H : List U32) (d1 : U32 → RoundOne F G)
    (hview : ∀ i ∈ H, (d1 i).state.theirCommitments = some comms ∧ (d1 i).state.theirDhPublicKeys = dhs ∧
      (d1 i).state.parameters.n = n ∧ (d1 i).state.index = i)
    (es : U32 → List EncShare) (r : U32 → R) (hlabel : ∀ i ∈ H, ∀ e ∈ es i, e.receiverIndex = i)
    (hall : ∀ i ∈ H, ∀ k ∈ comms.keys, ∃ e ∈ es i, e.senderIndex = k)
    (d2 : U32 → RoundTwo F G) (cs : U32 → List (Complaint F G))
    (h : ∀ i ∈ H, (d1 i).toRoundTwo S dbg (es i) (r i) = .ok (d2 i, cs i))
    (hrange : ∀ i ∈ H, ∀ c ∈ cs i, c.encShare.senderIndex ∈ comms.keys → c.encShare.senderIndex.toNat ≤ n.toNat)
    (all : U32 → List (Complaint F G)) (hsub : ∀ i ∈ H, ∀ j ∈ H, ∀ c ∈ cs j, c ∈ all i)
    (hsame : ∀ i ∈ H, ∀ j ∈ H, ∀ c, c ∈ all i ↔ c ∈ all j) :
    ∃ (comms' : BMap (VssCommitment G)) (s : F) (keys : List G) (key : U32 → F) (d3 : U32 → RoundTwo F G),
      comms'.WF ∧ (∀ k c, comms'.get? k = some c → comms.get? k = some c) ∧
      s • S.gen = Spec.interpolateG F comms'.keys
        (fun l => ((comms'.get? l).map fun c => c.points.headD 0).getD 0) ∧
      (∀ i ∈ H, (d2 i).blame S (all i) = .ok (d3 i, keys) ∧ (d3 i).state.theirCommitments = some comms' ∧
        (d3 i).finish = .ok (s • S.gen, ⟨i, key i⟩) ∧ key i • S.gen = Spec.interpolateG F comms'.keys
          (fun l => ((comms'.get? l).map fun c => Spec.pointEval c.points (i.toNat : F)).getD 0)) ∧
      ∀ J : List U32, J.Nodup → J ⊆ H → t ≤ J.length → Spec.interpolate J key = s := by
  rcases H with _ | ⟨i0, H⟩
  · refine ⟨[], 0, [], fun _ => 0, fun _ => ⟨⟨⟨0, 0⟩, 0, 0, 0, none, [], none, none⟩⟩, by simp [BMap.WF, BMap.keys],
      ?_, by simp [Spec.interpolateG, BMap.keys], by simp, fun J _ hJ hJt => ?_⟩
    · intro k c h; simp [BMap.get?] at h
    · simp [Spec.interpolate, List.subset_nil.mp hJ]
  set H' := i0 :: H with hH'
  have hi0 : i0 ∈ H' := by simp [hH']
  -- everybody's verdicts are those of `i0`
  have hv : ∀ i ∈ H', verdict S (d2 i).state comms = verdict S (d2 i0).state comms := by
    intro i hi
    obtain ⟨k1, k2, k3, k4⟩ := hview i hi
    obtain ⟨l1, l2, l3, l4⟩ := hview i0 hi0
    obtain ⟨_, _, p1, _, q1⟩ := holds_toRoundTwo S dbg _ comms k1 hD.wf _ _ _ _ (h i hi)
    obtain ⟨_, _, p2, _, q2⟩ := holds_toRoundTwo S dbg _ comms l1 hD.wf _ _ _ _ (h i0 hi0)
    funext c
    unfold verdict Upheld
    rw [p1, q1, p2, q2, k2, l2, k3, l3]
  have hva : ∀ i ∈ H', ∀ k, k ∈ (all i).map (verdict S (d2 i).state comms) ↔
      k ∈ (all i0).map (verdict S (d2 i0).state comms) := by
    intro i hi k
    rw [hv i hi]
    simp only [List.mem_map, hsame i hi i0 hi0]
  set rem := (all i0).map (verdict S (d2 i0).state comms) with hrem
  set comms' : BMap (VssCommitment G) := comms.filter fun e => e.1 ∉ rem with hcomms'
  have hD' : DealersOk comms' := by
    refine ⟨BMap.wf_filter hD.wf _, ?_, ?_⟩
    · rw [hcomms', mem_keys_filter_not_mem hD.wf]; exact fun hk => hD.zero hk.1
    · intro k c hc
      rw [hcomms', get?_filter_not_mem hD.wf] at hc
      split at hc
      · cases hc
      · exact hD.points k c hc
  have hdeg' : ∀ k c, comms'.get? k = some c → c.points.length ≤ t := by
    intro k c hc
    rw [hcomms', get?_filter_not_mem hD.wf] at hc
    split at hc
    · cases hc
    · exact hdeg k c hc
  have main : ∀ i ∈ H', ∃ d3 m', (d2 i).blame S (all i) = .ok (d3,
        (dedupByKey id (sortByKey id rem)).filterMap fun i => dhs.get? i) ∧ HoldsVerified S d3 comms' m' ∧
        d3.state.index = i := by
    intro i hi
    obtain ⟨k1, k2, k3, k4⟩ := hview i hi
    obtain ⟨m, hm⟩ := verified_after_blame S dbg (d1 i) comms k1 hD.wf hD.zero (by rw [k2]; exact hdk)
      (es i) (r i) (by rw [k4]; exact hlabel i hi) (hall i hi) (d2 i) (cs i) (h i hi)
      (by rw [k3]; exact hrange i hi) (all i) (hsub i hi i hi)
    obtain ⟨_, _, p1, p2, q1⟩ := holds_toRoundTwo S dbg _ comms k1 hD.wf _ _ _ _ (h i hi)
    have e1 : dedupByKey id (sortByKey id ((all i).map (verdict S (d2 i).state comms))) =
        dedupByKey id (sortByKey id rem) := sortDedup_congr (hva i hi)
    rw [e1, q1, k2] at hm
    refine ⟨_, m, hm.1, ?_, p2.trans k4⟩
    have := hm.2
    convert this using 1
    rw [hcomms']
    refine List.filter_congr fun e _ => ?_
    simp only [decide_eq_decide, not_iff_not]
    exact (hva i hi e.1).symm
  choose! d3 m' hb hV hidx using main
  have hfin : ∀ i ∈ H', ∃ k, (d3 i).finish = .ok (Spec.interpolateG F comms'.keys
      (fun l => ((comms'.get? l).map fun c => c.points.headD 0).getD 0), ⟨i, k⟩) ∧
      k • S.gen = Spec.interpolateG F comms'.keys
        (fun l => ((comms'.get? l).map fun c => Spec.pointEval c.points (i.toNat : F)).getD 0) := by
    intro i hi
    obtain ⟨k, h1, _, h2⟩ := finish_verified hu hD' (hV i hi)
    rw [hidx i hi] at h1 h2
    exact ⟨k, h1, h2⟩
  choose! key hkey using hfin
  obtain ⟨s, hs⟩ := hg.gen_surj (Spec.interpolateG F comms'.keys
      (fun l => ((comms'.get? l).map fun c => c.points.headD 0).getD 0))
  refine ⟨comms', s, _, key, d3, hD'.wf, fun k c hc => ?_, hs.symm,
    fun i hi => ⟨hb i hi, (hV i hi).commits, by rw [← hs]; exact (hkey i hi).1, (hkey i hi).2⟩, fun J hJ hJH hJt => ?_⟩
  · rw [hcomms', get?_filter_not_mem hD.wf] at hc
    split at hc
    · cases hc
    · exact hc
  have hJ0 : J ≠ [] := by
    rintro rfl
    exact ht (by simpa using hJt)
  apply hg.gen_inj
  rw [← hs]
  exact C35_keys_interpolate hg hu comms' hD' t hdeg' J hJ hJt d3 m' (fun j hj => ⟨hV j (hJH hj), hidx j (hJH hj)⟩) _
    key (fun j hj => (hkey j (hJH hj)).1) hJ0

/-- `robust_core` for states made from lists of records: `good` are the accepted dealers. The indices of the accused
dealers have to be at most the number of accepted dealers, see C43. -/
theorem robust_records_accused {S : Suite F G R} (hg : S.GroupLaws) (hu : Suite.U32Inj F) (dbg : Bool)
    (good : Participant F G → Prop) (hgood : ∀ p, good p → Spec.DealerValid S p)
    (ps : List (Participant F G)) (hidx : (ps.map (·.index)).Nodup)
    (hzero : ∀ p ∈ ps, good p → p.index ≠ 0)
    (t : Nat) (ht : t ≠ 0) (hdeg : ∀ p ∈ ps, good p → ∀ c, p.commitments = some c → c.points.length ≤ t)
    (H : List U32) (ord : U32 → List (Participant F G)) (hord : ∀ i ∈ H, (ord i).Perm ps) (d1 : U32 → RoundOne F G)
    (hstate : ∀ i ∈ H, (d1 i).state.parameters.n.toNat = ((ord i).filter (good ·)).length ∧
      (d1 i).state.theirCommitments = some (BMap.ofList (((ord i).filter (good ·)).filterMap
        fun p => p.commitments.map fun c => (p.index, c))) ∧
      (d1 i).state.theirDhPublicKeys = BMap.ofList (((ord i).filter (good ·)).map fun p => (p.index, p.dhPublicKey)) ∧
      (d1 i).state.index = i)
    (es : U32 → List EncShare) (r2 : U32 → R) (hlabel : ∀ i ∈ H, ∀ e ∈ es i, e.receiverIndex = i)
    (hall : ∀ i ∈ H, ∀ p ∈ ps, good p → ∃ e ∈ es i, e.senderIndex = p.index)
    (d2 : U32 → RoundTwo F G) (cs : U32 → List (Complaint F G))
    (hr2 : ∀ i ∈ H, (d1 i).toRoundTwo S dbg (es i) (r2 i) = .ok (d2 i, cs i))
    (hrange : ∀ i ∈ H, ∀ c ∈ cs i, ∀ p ∈ ps, good p → p.index = c.encShare.senderIndex →
      p.index.toNat ≤ (ps.filter (good ·)).length)
    (all : U32 → List (Complaint F G)) (hsub : ∀ i ∈ H, ∀ j ∈ H, ∀ c ∈ cs j, c ∈ all i)
    (hsame : ∀ i ∈ H, ∀ j ∈ H, ∀ c, c ∈ all i ↔ c ∈ all j) :
    ∃ (comms' : BMap (VssCommitment G)) (s : F) (keys : List G) (key : U32 → F) (d3 : U32 → RoundTwo F G),
      comms'.WF ∧
      (∀ k c, comms'.get? k = some c → ∃ p ∈ ps, good p ∧ p.index = k ∧ p.commitments = some c) ∧
      s • S.gen = Spec.interpolateG F comms'.keys
        (fun l => ((comms'.get? l).map fun c => c.points.headD 0).getD 0) ∧
      (∀ i ∈ H, (d2 i).blame S (all i) = .ok (d3 i, keys) ∧ (d3 i).state.theirCommitments = some comms' ∧
        (d3 i).finish = .ok (s • S.gen, ⟨i, key i⟩) ∧ key i • S.gen = Spec.interpolateG F comms'.keys
          (fun l => ((comms'.get? l).map fun c => Spec.pointEval c.points (i.toNat : F)).getD 0)) ∧
      ∀ J : List U32, J.Nodup → J ⊆ H → t ≤ J.length → Spec.interpolate J key = s := by
  set gl := ps.filter (good ·) with hgl'
  set ce : List (U32 × VssCommitment G) := gl.filterMap fun p => p.commitments.map fun c => (p.index, c) with hce
  set de : List (U32 × G) := gl.map fun p => (p.index, p.dhPublicKey) with hde
  have hgn : (gl.map (·.index)).Nodup := hidx.sublist (List.filter_sublist.map _)
  have hce' : ce.map Prod.fst = gl.map (·.index) := by
    rw [hce]
    have : ∀ l : List (Participant F G), (∀ p ∈ l, good p) →
        (l.filterMap fun p => p.commitments.map fun c => (p.index, c)).map Prod.fst = l.map (·.index) := by
      intro l hl
      induction l with
      | nil => rfl
      | cons p l ih =>
        obtain ⟨_, c, _, _, hcm, _⟩ := hgood p (hl p (by simp))
        rw [List.filterMap_cons, hcm, List.map_cons]
        simp only [Option.map_some, List.map_cons]
        rw [ih fun q hq => hl q (List.mem_cons_of_mem _ hq)]
    exact this _ fun p hp => by simpa using (List.mem_filter.mp hp).2
  have hde' : de.map Prod.fst = gl.map (·.index) := by rw [hde, List.map_map]; rfl
  have hview : ∀ i ∈ H, (d1 i).state.theirCommitments = some (BMap.ofList ce) ∧
      (d1 i).state.theirDhPublicKeys = BMap.ofList de ∧ (d1 i).state.parameters.n = UInt32.ofNat gl.length ∧
      (d1 i).state.index = i := by
    intro i hi
    obtain ⟨k3, k5, k6, k7⟩ := hstate i hi
    have hpf := (hord i hi).filter (good ·)
    have hlen := hpf.length_eq
    refine ⟨?_, ?_, ?_, k7⟩
    · rw [k5]
      congr 1
      exact BMap.ofList_congr (by
        have : (((ord i).filter (good ·)).filterMap fun p =>
          p.commitments.map fun c => (p.index, c)).Perm ce := hpf.filterMap _
        rw [(this.map Prod.fst).nodup_iff, hce']; exact hgn) (hpf.filterMap _)
    · rw [k6]
      exact BMap.ofList_congr (by
        have : (((ord i).filter (good ·)).map fun p => (p.index, p.dhPublicKey)).Perm de := hpf.map _
        rw [(this.map Prod.fst).nodup_iff, hde']; exact hgn) (hpf.map _)
    · rw [← hlen, ← k3, UInt32.ofNat_toNat]
  have hkeys : ∀ k, k ∈ (BMap.ofList ce).keys ↔ ∃ p ∈ ps, good p ∧ p.index = k := by
    intro k
    rw [BMap.mem_keys_ofList, hce', hgl']
    simp only [List.mem_map, List.mem_filter, decide_eq_true_eq, and_assoc]
  have hgetc : ∀ k c, (BMap.ofList ce).get? k = some c →
      ∃ p ∈ ps, good p ∧ p.index = k ∧ p.commitments = some c := by
    intro k c hc
    have := BMap.mem_of_get?_ofList hc
    rw [hce] at this
    obtain ⟨p, hp, he⟩ := List.mem_filterMap.mp this
    rw [hgl', List.mem_filter] at hp
    cases hcm : p.commitments with
    | none => rw [hcm] at he; cases he
    | some c' => rw [hcm] at he; cases he; exact ⟨p, hp.1, by simpa using hp.2, rfl, hcm⟩
  have hD : DealersOk (BMap.ofList ce) := by
    refine ⟨BMap.wf_ofList _, ?_, ?_⟩
    · rw [hkeys]
      rintro ⟨p, hp, hg, h0⟩
      exact hzero p hp hg h0
    · intro k c hc
      obtain ⟨p, _, hp, _, h3⟩ := hgetc k c hc
      obtain ⟨_, c', pk, _, h1, h2, _⟩ := hgood p hp
      rw [h3] at h1; cases h1
      intro hnil
      rw [hnil] at h2; cases h2
  have hlen32 : H ≠ [] → (UInt32.ofNat gl.length).toNat = gl.length := by
    intro hH
    obtain ⟨i0, hi0⟩ := List.exists_mem_of_ne_nil H hH
    have hpf := ((hord i0 hi0).filter (good ·)).length_eq
    have k3 := (hstate i0 hi0).1
    rw [hpf] at k3
    rw [← k3, UInt32.ofNat_toNat]
  rcases eq_or_ne H [] with rfl | hH
  · refine ⟨[], 0, [], fun _ => 0, fun _ => ⟨⟨⟨0, 0⟩, 0, 0, 0, none, [], none, none⟩⟩, by simp [BMap.WF, BMap.keys],
      ?_, by simp [Spec.interpolateG, BMap.keys], by simp, fun J _ hJ hJt => ?_⟩
    · intro k c h; simp [BMap.get?] at h
    · simp [Spec.interpolate, List.subset_nil.mp hJ]
  obtain ⟨comms', s, keys, key, d3, w1, w2, w3, w4, w5⟩ := robust_core hg hu dbg (BMap.ofList ce) hD (BMap.ofList de)
    (UInt32.ofNat gl.length)
    (by
      intro k hk
      rw [BMap.mem_keys_ofList, hde', ← hce', ← BMap.mem_keys_ofList] at hk
      exact hk)
    t
    (by
      intro k c hc
      obtain ⟨p, hp, hg, _, hcm⟩ := hgetc k c hc
      exact hdeg p hp hg c hcm) ht H d1 hview es r2 hlabel
    (by
      intro i hi k hk
      obtain ⟨p, hp, hg, rfl⟩ := (hkeys k).mp hk
      exact hall i hi p hp hg) d2 cs hr2
    (by
      intro i hi c hc hk
      obtain ⟨p, hp, hg, he⟩ := (hkeys _).mp hk
      rw [hlen32 hH, ← he]
      exact hrange i hi c hc p hp hg he) all hsub hsame
  exact ⟨comms', s, keys, key, d3, w1, fun k c hc => hgetc k c (w2 k c hc), w3, w4, w5⟩

/-- `robust_records_accused` when the indices of all accepted dealers are in range. -/
theorem robust_records {S : Suite F G R} (hg : S.GroupLaws) (hu : Suite.U32Inj F) (dbg : Bool)
    (good : Participant F G → Prop) (hgood : ∀ p, good p → Spec.DealerValid S p)
    (ps : List (Participant F G)) (hidx : (ps.map (·.index)).Nodup)
    (hrange : ∀ p ∈ ps, good p → p.index ≠ 0 ∧ p.index.toNat ≤ (ps.filter (good ·)).length)
    (t : Nat) (ht : t ≠ 0) (hdeg : ∀ p ∈ ps, good p → ∀ c, p.commitments = some c → c.points.length ≤ t)
    (H : List U32) (ord : U32 → List (Participant F G)) (hord : ∀ i ∈ H, (ord i).Perm ps) (d1 : U32 → RoundOne F G)
    (hstate : ∀ i ∈ H, (d1 i).state.parameters.n.toNat = ((ord i).filter (good ·)).length ∧
      (d1 i).state.theirCommitments = some (BMap.ofList (((ord i).filter (good ·)).filterMap
        fun p => p.commitments.map fun c => (p.index, c))) ∧
      (d1 i).state.theirDhPublicKeys = BMap.ofList (((ord i).filter (good ·)).map fun p => (p.index, p.dhPublicKey)) ∧
      (d1 i).state.index = i)
    (es : U32 → List EncShare) (r2 : U32 → R) (hlabel : ∀ i ∈ H, ∀ e ∈ es i, e.receiverIndex = i)
    (hall : ∀ i ∈ H, ∀ p ∈ ps, good p → ∃ e ∈ es i, e.senderIndex = p.index)
    (d2 : U32 → RoundTwo F G) (cs : U32 → List (Complaint F G))
    (hr2 : ∀ i ∈ H, (d1 i).toRoundTwo S dbg (es i) (r2 i) = .ok (d2 i, cs i))
    (all : U32 → List (Complaint F G)) (hsub : ∀ i ∈ H, ∀ j ∈ H, ∀ c ∈ cs j, c ∈ all i)
    (hsame : ∀ i ∈ H, ∀ j ∈ H, ∀ c, c ∈ all i ↔ c ∈ all j) :
    ∃ (comms' : BMap (VssCommitment G)) (s : F) (keys : List G) (key : U32 → F) (d3 : U32 → RoundTwo F G),
      comms'.WF ∧
      (∀ k c, comms'.get? k = some c → ∃ p ∈ ps, good p ∧ p.index = k ∧ p.commitments = some c) ∧
      s • S.gen = Spec.interpolateG F comms'.keys
        (fun l => ((comms'.get? l).map fun c => c.points.headD 0).getD 0) ∧
      (∀ i ∈ H, (d2 i).blame S (all i) = .ok (d3 i, keys) ∧ (d3 i).state.theirCommitments = some comms' ∧
        (d3 i).finish = .ok (s • S.gen, ⟨i, key i⟩) ∧ key i • S.gen = Spec.interpolateG F comms'.keys
          (fun l => ((comms'.get? l).map fun c => Spec.pointEval c.points (i.toNat : F)).getD 0)) ∧
      ∀ J : List U32, J.Nodup → J ⊆ H → t ≤ J.length → Spec.interpolate J key = s :=
  robust_records_accused hg hu dbg good hgood ps hidx (fun p hp hg => (hrange p hp hg).1) t ht hdeg H ord hord d1 hstate
    es r2 hlabel hall d2 cs hr2 (fun i _ c _ p hp hg _ => (hrange p hp hg).2) all hsub hsame

/-- C80: key generation is robust against malicious dealers. The participants in `H` run `bootstrap` on the same
broadcast records `ps` (in any order; any records), receive arbitrary shares labelled for them, at least one from every
accepted dealer, and do not abort in `to_round_two`. If they then process the same set of complaints, including all of
their own (and any number of complaints made up by others), they return the same blamed keys, are left with the same
dealers, finish with the group key that is the combination of these dealers' commitments and with signing keys that
match these commitments, and any `t` of the signing keys interpolate to the discrete logarithm of the group key.

The accepted dealers' indices have to be distinct and in `1..n'`, with `n'` their number: see C43 for why. -/
theorem C80_robust_dkg {S : Suite F G R} (hS : S.Lawful) (dbg : Bool) (params : Params)
    (ps : List (Participant F G)) (hidx : (ps.map (·.index)).Nodup)
    (hrange : ∀ p ∈ ps, GoodDealer S params.t p →
      p.index ≠ 0 ∧ p.index.toNat ≤ (ps.filter (GoodDealer S params.t)).length)
    (H : List U32) (hH : H ≠ []) (x : U32 → F) (coeffs : U32 → List F) (ord : U32 → List (Participant F G))
    (r1 r2 : U32 → R) (hord : ∀ i ∈ H, (ord i).Perm ps) (d1 : U32 → RoundOne F G) (L : U32 → ParticipantList F G)
    (hboot : ∀ i ∈ H, bootstrap S dbg params (x i) i (coeffs i) (ord i) (r1 i) = .ok (d1 i, L i))
    (es : U32 → List EncShare) (hlabel : ∀ i ∈ H, ∀ e ∈ es i, e.receiverIndex = i)
    (hall : ∀ i ∈ H, ∀ p ∈ ps, GoodDealer S params.t p → ∃ e ∈ es i, e.senderIndex = p.index)
    (d2 : U32 → RoundTwo F G) (cs : U32 → List (Complaint F G))
    (hr2 : ∀ i ∈ H, (d1 i).toRoundTwo S dbg (es i) (r2 i) = .ok (d2 i, cs i))
    (all : U32 → List (Complaint F G)) (hsub : ∀ i ∈ H, ∀ j ∈ H, ∀ c ∈ cs j, c ∈ all i)
    (hsame : ∀ i ∈ H, ∀ j ∈ H, ∀ c, c ∈ all i ↔ c ∈ all j) :
    ∃ (comms' : BMap (VssCommitment G)) (s : F) (keys : List G) (key : U32 → F) (d3 : U32 → RoundTwo F G),
      comms'.WF ∧
      (∀ k c, comms'.get? k = some c → ∃ p ∈ ps, GoodDealer S params.t p ∧ p.index = k ∧ p.commitments = some c) ∧
      s • S.gen = Spec.interpolateG F comms'.keys
        (fun l => ((comms'.get? l).map fun c => c.points.headD 0).getD 0) ∧
      (∀ i ∈ H, (d2 i).blame S (all i) = .ok (d3 i, keys) ∧ (d3 i).state.theirCommitments = some comms' ∧
        (d3 i).finish = .ok (s • S.gen, ⟨i, key i⟩) ∧ key i • S.gen = Spec.interpolateG F comms'.keys
          (fun l => ((comms'.get? l).map fun c => Spec.pointEval c.points (i.toNat : F)).getD 0)) ∧
      ∀ J : List U32, J.Nodup → J ⊆ H → params.t.toNat ≤ J.length → Spec.interpolate J key = s := by
  obtain ⟨i0, hi0⟩ := List.exists_mem_of_ne_nil H hH
  have ht : params.t ≠ 0 := by
    intro ht
    have := hboot i0 hi0
    unfold bootstrap at this
    cases hs : newStateInternal S dbg params (x i0) i0 (some (coeffs i0)) (ord i0) true true (r1 i0) with
    | ok v => exact newState_t_zero S dbg params ht _ _ _ _ _ _ _ v hs
    | error f => rw [hs] at this; cases this
  refine robust_records hS.group hS.u32 dbg (GoodDealer S params.t) (fun p hp => hp.1) ps hidx hrange params.t.toNat
    (fun h => ht (UInt32.toNat_inj.mp (by simpa using h))) (fun p _ hg c hcm => (hg.2 c hcm).le) H ord hord d1 ?_ es r2
    hlabel hall d2 cs hr2 all hsub hsame
  intro i hi
  obtain ⟨k1, _, k3, _, k5, k6, k7, _⟩ := C20_bootstrap_classifies hS.cipher hS.codec dbg params _ _ _ _ _ _ _
    (hboot i hi)
  rw [k1] at k3 k5 k6
  exact ⟨k3, k5, k6, k7⟩

/-- C80, liveness: at least `t` participants `H` follow the protocol; the others published acceptable records but deal
arbitrary shares (labelled with sender and receiver). Then every `to_round_two` of `H` succeeds, complaints name only
dealers outside `H`, and if exactly the complaints of `H` are processed, no member of `H` is removed, everybody in `H`
finishes with the same group key, which is the combination of the remaining dealers' commitments, with keys that match
these commitments, and any `t` of the keys interpolate to the discrete logarithm of the group key. -/
theorem C80_honest_majority {S : Suite F G R} (hS : S.Lawful) (dbg : Bool) (params : Params) (ht : params.t ≠ 0)
    (htn : params.t.toNat ≤ params.n.toNat) (idx : List U32) (hidx : idx.Nodup)
    (hrange : ∀ l ∈ idx, l ≠ 0 ∧ l.toNat ≤ params.n.toNat) (hlen : idx.length = params.n.toNat)
    (H : List U32) (hH : H.Nodup) (hHi : H ⊆ idx) (htH : params.t.toNat ≤ H.length)
    (P : U32 → Participant F G) (hPi : ∀ l ∈ idx, (P l).index = l ∧ GoodDealer S params.t (P l))
    (r1 r2 r3 : U32 → R) (coeffs : U32 → List F) (x : U32 → F)
    (hP : ∀ i ∈ H, newDealer S params i (r1 i) = .ok (P i, coeffs i, x i))
    (ord ord' : U32 → List U32) (ho : ∀ i ∈ H, (ord i).Perm idx) (ho' : ∀ i ∈ H, (ord' i).Perm idx) :
    ∃ d1 : U32 → RoundOne F G, (∀ i ∈ H, bootstrap S dbg params (x i) i (coeffs i) ((ord i).map P) (r2 i) =
        .ok (d1 i, ⟨(ord i).map P, none⟩)) ∧
    ∀ E : U32 → U32 → EncShare,
      (∀ l ∈ idx, ∀ i ∈ H, (E l i).senderIndex = l ∧ (E l i).receiverIndex = i) →
      (∀ l ∈ H, ∃ m, (d1 l).theirEncryptedSecretShares = .ok m ∧ ∀ i ∈ H, m.get? i = some (E l i)) →
    ∃ (d2 : U32 → RoundTwo F G) (cs : U32 → List (Complaint F G)),
      (∀ i ∈ H, (d1 i).toRoundTwo S dbg ((ord' i).map fun l => E l i) (r3 i) = .ok (d2 i, cs i)) ∧
      (∀ i ∈ H, ∀ c ∈ cs i, c.encShare.senderIndex ∉ H) ∧
    ∀ all : U32 → List (Complaint F G), (∀ i ∈ H, ∀ c, c ∈ all i ↔ ∃ j ∈ H, c ∈ cs j) →
    ∃ (comms' : BMap (VssCommitment G)) (s : F) (keys : List G) (key : U32 → F) (d3 : U32 → RoundTwo F G),
      comms'.WF ∧ H ⊆ comms'.keys ∧
      (∀ k c, comms'.get? k = some c → k ∈ idx ∧ (P k).commitments = some c) ∧
      s • S.gen = Spec.interpolateG F comms'.keys
        (fun l => ((comms'.get? l).map fun c => c.points.headD 0).getD 0) ∧
      (∀ i ∈ H, (d2 i).blame S (all i) = .ok (d3 i, keys) ∧ (d3 i).state.theirCommitments = some comms' ∧
        (d3 i).finish = .ok (s • S.gen, ⟨i, key i⟩) ∧ key i • S.gen = Spec.interpolateG F comms'.keys
          (fun l => ((comms'.get? l).map fun c => Spec.pointEval c.points (i.toNat : F)).getD 0)) ∧
      ∀ J : List U32, J.Nodup → J ⊆ H → params.t.toNat ≤ J.length → Spec.interpolate J key = s := by
  have hPg := fun i hi => newDealer_good ht (hP i hi)
  have hboot : ∀ i ∈ H, ∃ m, bootstrap S dbg params (x i) i (coeffs i) ((ord i).map P) (r2 i) =
        .ok (⟨roundOneState S params (x i) i true ((ord i).map P) (some m)⟩, ⟨(ord i).map P, none⟩) ∧
      m.WF ∧ (∀ j, j ∈ m.keys ↔ ∃ p ∈ (ord i).map P, p.index = j) ∧
      (∀ j e, m.get? j = some e → ∃ p ∈ (ord i).map P, p.index = j ∧ DealtTo S (x i) i (coeffs i) p e) := by
    intro i hi
    refine bootstrap_honest hS.cipher hS.codec dbg params ht htn _ ?_ ?_ (x i) i (coeffs i) (r2 i)
    · rw [List.length_map, (ho i hi).length_eq, hlen]
    · intro p hp
      obtain ⟨l, hl, rfl⟩ := List.mem_map.mp hp
      exact (hPi l ((ho i hi).mem_iff.mp hl)).2
  choose! m hm1 hm2 hm3 hm4 using hboot
  refine ⟨_, hm1, fun E hE hEH => ?_⟩
  -- the honest dealers' shares open correctly
  have hopen : ∀ l ∈ H, ∀ i ∈ H, Spec.Opens S (E l i) (x l • (P i).dhPublicKey)
      (Spec.polyEval (coeffs l) (u32F F i)) := by
    intro l hl i hi
    obtain ⟨m', h1, h2⟩ := hEH l hl
    have : m l = m' := by
      unfold RoundOne.theirEncryptedSecretShares at h1
      simp only [roundOneState] at h1
      simpa using h1
    obtain ⟨e, he, _, _, ho⟩ := dealt_get (fun k hk => (hPi k ((ho l hl).mem_iff.mp hk)).1) (hm3 l hl) (hm4 l hl) i
      ((ho l hl).mem_iff.mpr (hHi hi))
    rw [this, h2 i hi] at he
    cases he
    exact ho
  have hstate := fun i hi => C20_bootstrap_classifies hS.cipher hS.codec dbg params _ _ _ _ _ _ _ (hm1 i hi)
  have hnd2 : ∀ i ∈ H, ((((ord i).map P).map fun p => (p.index, p.dhPublicKey)).map Prod.fst).Nodup := by
    intro i hi
    rw [List.map_map, List.map_map]
    have : (Prod.fst ∘ fun p : Participant F G => (p.index, p.dhPublicKey)) ∘ P = fun l => (P l).index := rfl
    rw [this, List.map_congr_left (g := id) fun k hk => (hPi k ((ho i hi).mem_iff.mp hk)).1, List.map_id]
    exact (ho i hi).nodup_iff.mpr hidx
  have hnd1 : ∀ i ∈ H, ((((ord i).map P).filterMap fun p => p.commitments.map fun c => (p.index, c)).map Prod.fst).Nodup := by
    intro i hi
    have : ∀ o : List U32, o ⊆ idx → ((o.map P).filterMap fun p => p.commitments.map fun c => (p.index, c)).map Prod.fst
        = o := by
      intro o hoi
      induction o with
      | nil => rfl
      | cons k o ih =>
        obtain ⟨hk, ⟨_, c, _, _, hc, _⟩, _⟩ := hPi k (hoi (by simp))
        rw [List.map_cons, List.filterMap_cons, hc]
        simp only [Option.map_some, List.map_cons]
        rw [ih fun q hq => hoi (List.mem_cons_of_mem _ hq), hk]
    rw [this _ (ho i hi).subset]
    exact (ho i hi).nodup_iff.mpr hidx
  have hdh : ∀ i ∈ H, ∀ l ∈ idx, (roundOneState S params (x i) i true ((ord i).map P) (some (m i))).theirDhPublicKeys.get? l
      = some (P l).dhPublicKey := by
    intro i hi l hl
    rw [(hstate i hi).2.2.2.2.2.1]
    have hnd := hnd2 i hi
    refine (BMap.get?_ofList hnd _ _).mpr (List.mem_map.mpr ⟨P l, List.mem_map.mpr ⟨l, (ho i hi).mem_iff.mpr hl, rfl⟩, ?_⟩)
    rw [(hPi l hl).1]
  have hcm : ∀ i ∈ H, ∀ l ∈ idx, ∃ c, (P l).commitments = some c ∧ (BMap.ofList (((ord i).map P).filterMap
      fun p => p.commitments.map fun c => (p.index, c))).get? l = some c := by
    intro i hi l hl
    obtain ⟨⟨_, c, _, _, hc, _⟩, _⟩ := (hPi l hl).2
    refine ⟨c, hc, ?_⟩
    have hnd := hnd1 i hi
    refine (BMap.get?_ofList hnd _ _).mpr (List.mem_filterMap.mpr ⟨P l, List.mem_map.mpr ⟨l, (ho i hi).mem_iff.mpr hl, rfl⟩, ?_⟩)
    rw [hc, (hPi l hl).1]; rfl
  have hgood : ∀ i ∈ H, ∀ l ∈ H, ∀ c, (P l).commitments = some c →
      Spec.GoodShare S (x i • (P l).dhPublicKey) c.points (E l i) := by
    intro i hi l hl c hc
    obtain ⟨_, _, _, g4, g5, _⟩ := hPg l hl
    obtain ⟨_, _, _, _, g5', _⟩ := hPg i hi
    rw [g4] at hc; cases hc
    refine ⟨Spec.polyEval (coeffs l) (u32F F i), ?_, ?_⟩
    · have := hopen l hl i hi
      rwa [g5', smul_comm, ← g5] at this
    · rw [(hE l (hHi hl) i hi).2]
      exact (pointEval_commitPoints S _ _).symm
  set d1 : U32 → RoundOne F G := fun i => ⟨roundOneState S params (x i) i true ((ord i).map P) (some (m i))⟩ with hd1
  have hr2 : ∀ i ∈ H, ∃ d2 cs, (d1 i).toRoundTwo S dbg ((ord' i).map fun l => E l i) (r3 i) = .ok (d2, cs) ∧
      ∀ c ∈ cs, c.encShare.senderIndex ∉ H ∧ c.encShare.senderIndex ∈ idx := by
    intro i hi
    obtain ⟨_, _, k3, k4, k5, k6, k7, k8, _⟩ := hstate i hi
    have hn' : (d1 i).state.parameters.n.toNat = idx.length := by
      rw [← (ho i hi).length_eq, ← List.length_map (as := ord i) P]; exact k3
    have key := C30_aborts_iff_partial S dbg (d1 i) _ k5 (BMap.wf_ofList _).nodup ((ord' i).map fun l => E l i)
      (by
        rw [List.length_map, (ho' i hi).length_eq, hlen]
        show (roundOneState S params (x i) i true ((ord i).map P) (some (m i))).parameters.t.toNat ≤ _
        rw [k4]; exact htn)
      (by
        intro e he
        obtain ⟨l, hl, rfl⟩ := List.mem_map.mp he
        have hl' := (ho' i hi).mem_iff.mp hl
        refine ⟨fun _ => (hE l hl' i hi).2, ?_⟩
        rw [(hE l hl' i hi).1]
        exact BMap.mem_keys_of_get? (hdh i hi l hl')) (r3 i) _ rfl
    set bad := ((ord' i).map fun l => E l i).filter _ with hbad
    have hbm : ∀ e ∈ bad, ∃ l ∈ idx, l ∉ H ∧ e = E l i := by
      intro e he
      obtain ⟨he1, he2⟩ := List.mem_filter.mp he
      obtain ⟨l, hl, rfl⟩ := List.mem_map.mp he1
      have hl' := (ho' i hi).mem_iff.mp hl
      refine ⟨l, hl', fun hlH => ?_, rfl⟩
      simp only [decide_eq_true_eq] at he2
      obtain ⟨pk, c, h1, h2, h3⟩ := he2
      rw [(hE l hl' i hi).1] at h1 h2
      obtain ⟨c', hc1, hc2⟩ := hcm i hi l hl'
      have h1' := (hdh i hi l hl').symm.trans h1
      have h2' := hc2.symm.trans h2
      cases h1'; cases h2'
      exact h3 (hgood i hi l hlH _ hc1)
    have hbl : bad.length + H.length ≤ idx.length := by
      have hnd : (bad.map (·.senderIndex) ++ H).Nodup := by
        rw [List.nodup_append]
        refine ⟨?_, hH, ?_⟩
        · have : (((ord' i).map fun l => E l i).map (·.senderIndex)) = ord' i := by
            rw [List.map_map]
            conv_rhs => rw [← List.map_id (ord' i)]
            exact List.map_congr_left fun l hl => (hE l ((ho' i hi).mem_iff.mp hl) i hi).1
          refine List.Nodup.sublist (List.filter_sublist.map _) ?_
          rw [this]
          exact (ho' i hi).nodup_iff.mpr hidx
        · intro k hk k' hk' hkk
          obtain ⟨e, he, rfl⟩ := List.mem_map.mp hk
          obtain ⟨l, hl, hlH, rfl⟩ := hbm e he
          rw [(hE l hl i hi).1] at hkk
          exact hlH (hkk ▸ hk')
      have hsub : (bad.map (·.senderIndex) ++ H) ⊆ idx := by
        intro k hk
        rcases List.mem_append.mp hk with hk | hk
        · obtain ⟨e, he, rfl⟩ := List.mem_map.mp hk
          obtain ⟨l, hl, hlH, rfl⟩ := hbm e he
          rw [(hE l hl i hi).1]; exact hl
        · exact hHi hk
      have := (hnd.subperm hsub).length_le
      rwa [List.length_append, List.length_map] at this
    obtain ⟨key1, _⟩ := key (by rw [hn']; omega)
    cases hres : (d1 i).toRoundTwo S dbg ((ord' i).map fun l => E l i) (r3 i) with
    | error f =>
      have := key1.mp ⟨f, hres⟩
      have ht' : (d1 i).state.parameters.t = params.t := k4
      rw [hn', ht'] at this
      omega
    | ok v =>
      obtain ⟨d2, cs⟩ := v
      refine ⟨d2, cs, rfl, fun c hc => ?_⟩
      have h28 := C28_complaints S dbg (d1 i) _ k5 (BMap.wf_ofList _).nodup _ (r3 i) cs (.inl ⟨d2, hres⟩)
      obtain ⟨e, he, hce, _⟩ := forall₂_mem_left h28 c hc
      obtain ⟨l, hl, hlH, rfl⟩ := hbm e he
      rw [hce, (hE l hl i hi).1]
      exact ⟨hlH, hl⟩
  choose! d2 cs hr2a hr2b using hr2
  refine ⟨d2, cs, hr2a, fun i hi c hc => (hr2b i hi c hc).1, fun all hall => ?_⟩
  have hH0 : H ≠ [] := by
    rintro rfl
    exact ht (UInt32.toNat_inj.mp (by simpa using htH))
  have hfil : (idx.map P).filter (GoodDealer S params.t) = idx.map P := by
    refine List.filter_eq_self.mpr fun p hp => ?_
    obtain ⟨l, hl, rfl⟩ := List.mem_map.mp hp
    simpa using (hPi l hl).2
  obtain ⟨comms', s, keys, key, d3, w1, w2, w3, w4, w5⟩ := C80_robust_dkg hS dbg params (idx.map P)
    (by
      have : (idx.map P).map (·.index) = idx := by
        rw [List.map_map]
        conv_rhs => rw [← List.map_id idx]
        exact List.map_congr_left fun k hk => (hPi k hk).1
      rw [this]; exact hidx)
    (by
      rw [hfil, List.length_map, hlen]
      intro p hp _
      obtain ⟨l, hl, rfl⟩ := List.mem_map.mp hp
      rw [(hPi l hl).1]
      exact hrange l hl)
    H hH0 x coeffs (fun i => (ord i).map P) r2 r3 (fun i hi => (ho i hi).map P) d1 _ hm1
    (fun i => (ord' i).map fun l => E l i)
    (by
      intro i hi e he
      obtain ⟨l, hl, rfl⟩ := List.mem_map.mp he
      exact (hE l ((ho' i hi).mem_iff.mp hl) i hi).2)
    (by
      intro i hi p hp _
      obtain ⟨l, hl, rfl⟩ := List.mem_map.mp hp
      exact ⟨E l i, List.mem_map.mpr ⟨l, (ho' i hi).mem_iff.mpr hl, rfl⟩, by
        rw [(hE l hl i hi).1, (hPi l hl).1]⟩)
    d2 cs hr2a all (fun i hi j hj c hc => (hall i hi c).mpr ⟨j, hj, hc⟩)
    (fun i hi j hj c => (hall i hi c).trans (hall j hj c).symm)
  refine ⟨comms', s, keys, key, d3, w1, ?_, ?_, w3, w4, w5⟩
  · intro h hh
    obtain ⟨_, _, k3, _, k5, k6, _⟩ := hstate h hh
    obtain ⟨mm, hold, hpar, _, hdk⟩ := holds_toRoundTwo S dbg (d1 h) _ k5 (BMap.wf_ofList _) _ _ _ _ (hr2a h hh)
    have hn' : (d1 h).state.parameters.n.toNat = idx.length := by
      rw [← (ho h hh).length_eq, ← List.length_map (as := ord h) P]; exact k3
    obtain ⟨d', keys', b1, b2, _⟩ := C39_justified_list S _ (d2 h) mm hold (all h) (by
      intro c hc
      obtain ⟨j, hj, hcj⟩ := (hall h hh c).mp hc
      obtain ⟨_, _, _, _, q5, q6, _⟩ := hstate j hj
      have hc2 := (hr2b j hj c hcj).2
      refine ⟨(hrange _ hc2).1, by rw [hpar, hn', hlen]; exact (hrange _ hc2).2, dbg, d1 j, _, r3 j, cs j,
        .inl ⟨_, hr2a j hj⟩, hcj, q5.trans ?_, ?_⟩
      · congr 1
        exact BMap.ofList_congr (hnd1 j hj) ((((ho j hj).trans (ho h hh).symm).map P).filterMap _)
      · rw [hdk]
        refine k6.trans (Eq.trans ?_ q6.symm)
        exact BMap.ofList_congr (hnd2 h hh) ((((ho h hh).trans (ho j hj).symm).map P).map _))
    obtain ⟨v1, v2, _⟩ := w4 h hh
    rw [b1] at v1
    simp only [Except.ok.injEq, Prod.mk.injEq] at v1
    rw [← v1.1] at v2
    obtain ⟨comms'', m'', z1, _, z3, _⟩ := b2
    rw [z1.commits] at v2
    cases v2
    obtain ⟨c, _, hc⟩ := hcm h hh h (hHi hh)
    refine BMap.mem_keys_of_get? (v := c) ?_
    rw [z3, if_neg, hc]
    rintro ⟨c', hc', he⟩
    obtain ⟨j, hj, hcj⟩ := (hall h hh c').mp hc'
    exact (hr2b j hj c' hcj).1 (he ▸ hh)
  · intro k c hc
    obtain ⟨p, hp, _, rfl, hpc⟩ := w2 k c hc
    obtain ⟨l, hl, rfl⟩ := List.mem_map.mp hp
    rw [(hPi l hl).1]
    exact ⟨hl, hpc⟩

/-- C81: resharing is robust against dealers that deal bad shares of the right secret. The new signers `H` run `new` on
the same dealer records `ps` (in any order), receive arbitrary shares labelled for them, at least one from every
accepted dealer, and process the same set of complaints, including all of their own. The old keys `key` share `s` among
any `told` of the dealers. If at least `told` dealers are left after `blame`, the new signers keep the group key
`g^s` and any `t` of their keys interpolate to `s`.

Missing for the full C81: that every accepted dealer committed to at most `t` points (`hdeg`) and to its old
verifying share (`hconst`); the code checks neither, see C26 and `C81_wrong_share_changes_key`. -/
theorem C81_robust_reshare_partial {S : Suite F G R} (hS : S.Lawful) (dbg : Bool) (params : Params)
    (ps : List (Participant F G)) (hidx : (ps.map (·.index)).Nodup)
    (hrange : ∀ p ∈ ps, Spec.DealerValid S p →
      p.index ≠ 0 ∧ p.index.toNat ≤ (ps.filter (Spec.DealerValid S)).length)
    (t : Nat) (ht : t ≠ 0)
    (hdeg : ∀ p ∈ ps, Spec.DealerValid S p → ∀ c, p.commitments = some c → c.points.length ≤ t)
    (oldKey : U32 → F) (told : Nat) (s : F)
    (hold : ∀ J : List U32, J.Nodup → (∀ j ∈ J, ∃ p ∈ ps, Spec.DealerValid S p ∧ p.index = j) → told ≤ J.length →
      Spec.interpolate J oldKey = s)
    (hconst : ∀ p ∈ ps, Spec.DealerValid S p → ∀ c, p.commitments = some c →
      c.points.head? = some (oldKey p.index • S.gen))
    (H : List U32) (x : U32 → F) (ord : U32 → List (Participant F G))
    (r1 r2 : U32 → R) (hord : ∀ i ∈ H, (ord i).Perm ps) (d1 : U32 → RoundOne F G) (L : U32 → ParticipantList F G)
    (hnew : ∀ i ∈ H, dkgNew S dbg params (x i) i (ord i) (r1 i) = .ok (d1 i, L i))
    (es : U32 → List EncShare) (hlabel : ∀ i ∈ H, ∀ e ∈ es i, e.receiverIndex = i)
    (hall : ∀ i ∈ H, ∀ p ∈ ps, Spec.DealerValid S p → ∃ e ∈ es i, e.senderIndex = p.index)
    (d2 : U32 → RoundTwo F G) (cs : U32 → List (Complaint F G))
    (hr2 : ∀ i ∈ H, (d1 i).toRoundTwo S dbg (es i) (r2 i) = .ok (d2 i, cs i))
    (all : U32 → List (Complaint F G)) (hsub : ∀ i ∈ H, ∀ j ∈ H, ∀ c ∈ cs j, c ∈ all i)
    (hsame : ∀ i ∈ H, ∀ j ∈ H, ∀ c, c ∈ all i ↔ c ∈ all j) :
    ∃ (left : List U32) (gk : G) (keys : List G) (key : U32 → F) (d3 : U32 → RoundTwo F G),
      (∀ i ∈ H, (d2 i).blame S (all i) = .ok (d3 i, keys) ∧
        (d3 i).state.theirCommitments.map BMap.keys = some left ∧ (d3 i).finish = .ok (gk, ⟨i, key i⟩)) ∧
      (told ≤ left.length → gk = s • S.gen ∧
        ∀ J : List U32, J.Nodup → J ⊆ H → t ≤ J.length → Spec.interpolate J key = s) := by
  obtain ⟨comms', s', keys, key, d3, w1, w2, w3, w4, w5⟩ := robust_records hS.group hS.u32 dbg (Spec.DealerValid S)
    (fun p hp => hp) ps hidx hrange t ht hdeg H ord hord d1
    (by
      intro i hi
      obtain ⟨k1, _, k3, _, k5, k6, k7, _⟩ := C20_new_classifies dbg params _ _ _ _ _ _ (hnew i hi)
      rw [k1] at k3 k5 k6
      exact ⟨k3, k5, k6, k7⟩) es r2 hlabel hall d2 cs hr2 all hsub hsame
  refine ⟨comms'.keys, s' • S.gen, keys, key, d3, fun i hi => ?_, fun hlen => ?_⟩
  · obtain ⟨k1, k2, k3, _⟩ := w4 i hi
    exact ⟨k1, by rw [k2]; rfl, k3⟩
  · have hss : s' = s := by
      apply hS.group.gen_inj
      rw [w3, ← hold comms'.keys w1.nodup ?_ hlen]
      · unfold Spec.interpolateG Spec.interpolate
        rw [sum_smul]
        refine sum_congr rfl fun l hl => ?_
        obtain ⟨c, hc⟩ := BMap.exists_get? (List.mem_toFinset.mp hl)
        obtain ⟨p, hp, hv, rfl, hcm⟩ := w2 l c hc
        have := hconst p hp hv c hcm
        beta_reduce
        rw [hc, mul_smul]
        simp only [Option.map_some, Option.getD_some]
        rw [List.headD_eq_head?_getD, this, Option.getD_some]
      · intro j hj
        obtain ⟨c, hc⟩ := BMap.exists_get? hj
        obtain ⟨p, hp, hv, hpi, _⟩ := w2 j c hc
        exact ⟨p, hp, hv, hpi⟩
    subst hss
    exact ⟨rfl, w5⟩

theorem lagrange_ne_zero (hu : Suite.U32Inj F) (D : List U32) (h0 : 0 ∉ D) (l : U32) :
    (Spec.lagrange D l : F) ≠ 0 := by
  unfold Spec.lagrange
  rw [prod_ne_zero_iff]
  intro j hj
  obtain ⟨hjl, hjD⟩ := mem_erase.mp hj
  refine div_ne_zero ?_ ?_
  · intro h
    exact h0 ((hu j 0 (by simpa [u32F] using h)) ▸ List.mem_toFinset.mp hjD)
  · intro h
    exact hjl (hu _ _ (sub_eq_zero.mp h))

/-- C81, negation: nothing compares a dealer's new commitment with its old verifying share. If one of the dealers of an
otherwise honest resharing reshares any other value than its key, no complaint is raised, everybody finishes and the
group key changes. -/
theorem C81_wrong_share_changes_key {S : Suite F G R} (hS : S.Lawful) (dbg : Bool) (D : List U32) (key : U32 → F)
    (pd pn : Params) (I : List U32) (hok : ReshareOk D pd pn I) (s : F) (hs : Spec.interpolate D key = s)
    (l : U32) (hl : l ∈ D) (δ : F) (hδ : δ ≠ 0) (r : R) :
    (∃ gk key', ReshareRun S dbg D (Function.update key l (key l + δ)) pd pn I gk key') ∧
    ∀ gk key', ReshareRun S dbg D (Function.update key l (key l + δ)) pd pn I gk key' → gk ≠ s • S.gen := by
  constructor
  · obtain ⟨Q, y, k1, P, m, k2, E, k3, d1, k4, d2, k5, gk, key', k6⟩ := C49_reshare_succeeds hS dbg D
      (Function.update key l (key l + δ)) pd pn I hok (fun _ => r) (fun _ => r) (fun _ => r) (fun _ => r) (fun _ => I)
      (fun _ => D) (fun _ => D) (fun _ _ => List.Perm.refl _) (fun _ _ => ⟨List.Perm.refl _, List.Perm.refl _⟩)
    exact ⟨gk, key', ⟨_, _, _, _, _, _, _, Q, y, P, m, E, d1, d2, fun _ _ => List.Perm.refl _,
      fun _ _ => ⟨List.Perm.refl _, List.Perm.refl _⟩, k1, k2, k3, k4, k5, k6⟩⟩
  · intro gk key' hrun hgk
    have h1 := (C49_reshare_preserves hS dbg D _ pd pn I hok _ rfl gk key' hrun).1
    rw [hgk] at h1
    have h2 := hS.group.gen_inj _ _ h1
    rw [← hs] at h2
    unfold Spec.interpolate at h2
    have hl' := List.mem_toFinset.mpr hl
    have h3 : ∑ x ∈ D.toFinset.erase l, Spec.lagrange D x * Function.update key l (key l + δ) x =
        ∑ x ∈ D.toFinset.erase l, Spec.lagrange D x * key x :=
      sum_congr rfl fun i hi => by rw [Function.update_of_ne (ne_of_mem_erase hi)]
    rw [← add_sum_erase _ _ hl', ← add_sum_erase _ _ hl', Function.update_self, h3, add_left_inj, mul_add,
      left_eq_add, mul_eq_zero] at h2
    exact h2.elim (lagrange_ne_zero hS.u32 D hok.zeroD l) hδ

/-! ### C82 -/

/-- The record of `p` with its commitments labelled `k`. -/
def relabel (p : Participant F G) (k : U32) : Participant F G :=
  { p with commitments := p.commitments.map fun c => { c with index := k } }

/-- C82, negation: the label inside the commitments is not checked: a record is accepted with any label. -/
theorem C82_label_unchecked (S : Suite F G R) (t : U32) (p : Participant F G) (k : U32) :
    GoodDealer S t (relabel p k) ↔ GoodDealer S t p := by
  have h1 : Spec.DealerValid S (relabel p k) ↔ Spec.DealerValid S p := by
    unfold Spec.DealerValid relabel
    refine and_congr Iff.rfl ?_
    cases hc : p.commitments with
    | none => simp
    | some c =>
      simp only [Option.map_some, Option.some.injEq]
      constructor
      · rintro ⟨_, pk, pf, rfl, h⟩; exact ⟨_, pk, pf, rfl, h⟩
      · rintro ⟨_, pk, pf, rfl, h⟩; exact ⟨_, pk, pf, rfl, h⟩
  unfold GoodDealer
  rw [h1]
  refine and_congr_right fun _ => ?_
  unfold relabel Spec.DegreeOk
  cases p.commitments with
  | none => simp
  | some c => simp

/-- C82, negation: a dealer that labels its commitments with the index of another dealer does not disturb the key
generation, but afterwards nobody can derive anybody's verifying key from the commitments. -/
theorem C82_derivation_blocked {S : Suite F G R} (hu : Suite.U32Inj F) (d : RoundTwo F G)
    (comms : BMap (VssCommitment G)) (m : BMap (SecretShare F)) (hD : DealersOk comms)
    (hV : HoldsVerified S d comms m) (k k' : U32) (hk : k ≠ k') (c c' : VssCommitment G)
    (hc : comms.get? k = some c) (hc' : comms.get? k' = some c') (hl : c.index = c'.index) :
    (∃ gk sk, d.finish = .ok (gk, sk)) ∧
      ∀ i : U32, ∃ e, (generateFromCommitments i (comms.map (·.2)) : Out F G _) = .error e := by
  obtain ⟨key, h1, _⟩ := finish_verified hu hD hV
  refine ⟨⟨_, _, h1⟩, fun i => ?_⟩
  have hnd : ¬ ((comms.map (·.2)).map (·.index)).Nodup := by
    intro hnd
    rw [List.map_map] at hnd
    have := List.inj_on_of_nodup_map hnd (BMap.mem_of_get? hc) (BMap.mem_of_get? hc') hl
    exact hk (congrArg Prod.fst this)
  cases hg : (generateFromCommitments i (comms.map (·.2)) : Out F G _) with
  | error e => exact ⟨e, rfl⟩
  | ok v =>
    exfalso
    unfold generateFromCommitments at hg
    rw [fromCommitmentsLoop_eq hu, if_neg (fun h => List.ne_nil_of_mem (BMap.mem_of_get? hc) (List.map_eq_nil_iff.mp h)),
      if_pos hnd] at hg
    cases hg

/-- C82 when every label is the index of its dealer: the derived verifying keys are the participants' public keys (C33).

Missing for the full C82: that `bootstrap` and `new` enforce this; they do not (above). -/
theorem C82_labelled_partial {S : Suite F G R} (hu : Suite.U32Inj F) (d : RoundTwo F G)
    (comms : BMap (VssCommitment G)) (m : BMap (SecretShare F)) (hD : DealersOk comms)
    (hV : HoldsVerified S d comms m) (hidx : ∀ k c, comms.get? k = some c → c.index = k) :
    ∃ gk sk, d.finish = .ok (gk, sk) ∧
      (generateFromCommitments d.state.index (comms.map (·.2)) : Out F G _) = .ok (sk.toPublic S) := by
  obtain ⟨gk, sk, h1, _, h2, _⟩ := C33_finish_consistent hu d comms m hD hV hidx
  exact ⟨gk, sk, h1, h2⟩

section Examples
open Toy

/-- C80: a (3, 2) session in which dealer 3 deals empty ciphertexts to 1 and 2. -/
example : ∃ (d2 : U32 → RoundTwo Fp Fp) (cs : U32 → List (Complaint Fp Fp)) (d3 : U32 → RoundTwo Fp Fp) (keys : List Fp)
    (gk : Fp) (key : U32 → Fp), ∀ i ∈ [(1 : U32), 2], (d2 i).blame suite (cs 1 ++ cs 2) = .ok (d3 i, keys) ∧
      (d3 i).finish = .ok (gk, ⟨i, key i⟩) := by
  have hdeal : ∀ i ∈ [(1 : U32), 2, 3], ∃ p cs x, newDealer suite ⟨3, 2⟩ i 0 = .ok (p, cs, x) := fun i hi => by
    obtain ⟨p, cs, x, h, _⟩ := C16_new_dealer suite ⟨3, 2⟩ (by simp) i (by rintro rfl; simp at hi) 0
    exact ⟨p, cs, x, h⟩
  choose! P coeffs x hP using hdeal
  have ht : (2 : U32) ≠ 0 := by simp
  have hPg := fun i hi => newDealer_good (params := ⟨3, 2⟩) ht (hP i hi)
  obtain ⟨d1, h1, h2⟩ := C80_honest_majority lawful true ⟨3, 2⟩ ht (by show (2 : U32).toNat ≤ (3 : U32).toNat; simp)
    [1, 2, 3] (by simp) (by
      intro l hl
      simp only [List.mem_cons, List.not_mem_nil, or_false] at hl
      rcases hl with rfl | rfl | rfl <;> simp) rfl [1, 2] (by simp) (by simp) le_rfl P
    (fun l hl => ⟨(hPg l hl).2.1, (hPg l hl).2.2.2.2.2⟩) (fun _ => 0) (fun _ => 0) (fun _ => 0) coeffs x
    (fun i hi => hP i (by simp at hi ⊢; tauto)) (fun _ => [1, 2, 3]) (fun _ => [1, 2, 3]) (fun _ _ => List.Perm.refl _)
    (fun _ _ => List.Perm.refl _)
  have hm : ∀ l ∈ [(1 : U32), 2], ∃ m, (d1 l).theirEncryptedSecretShares = .ok m ∧ ∀ i ∈ [(1 : U32), 2], ∃ e,
      m.get? i = some e ∧ e.senderIndex = l ∧ e.receiverIndex = i := by
    intro l hl
    obtain ⟨m, k1, _, _, k4⟩ := C25_dealt_shares cipher_laws codec_laws true ⟨3, 2⟩ (x l) l (coeffs l)
      ([1, 2, 3].map P) 0 (by
        simp [(hPg 1 (by simp)).2.1, (hPg 2 (by simp)).2.1, (hPg 3 (by simp)).2.1]) _ _ (h1 l hl)
    refine ⟨m, k1, fun i hi => ?_⟩
    obtain ⟨e, e1, e2, e3, _⟩ := k4 (P i) (List.mem_map.mpr ⟨i, by simp at hi ⊢; tauto, rfl⟩)
    have := (hPg i (by simp at hi ⊢; tauto)).2.1
    rw [this] at e1 e3
    exact ⟨e, e1, e2, e3⟩
  choose! m hm1 E hE1 hE2 hE3 using hm
  obtain ⟨d2, cs, _, _, h5⟩ := h2 (fun l i => if l = 3 then ⟨3, i, [], []⟩ else E l i) (by
      intro l hl i hi
      by_cases h : l = 3
      · subst h; simp
      · have : l ∈ [(1 : U32), 2] := by simp at hl ⊢; tauto
        simp only [h, if_false]
        exact ⟨hE2 l this i hi, hE3 l this i hi⟩) (by
      intro l hl
      refine ⟨m l, hm1 l hl, fun i hi => ?_⟩
      have : l ≠ 3 := by rintro rfl; simp at hl
      simp only [this, if_false]
      exact hE1 l hl i hi)
  obtain ⟨_, s, keys, key, d3, _, _, _, _, h6, _⟩ := h5 (fun _ => cs 1 ++ cs 2) (by simp)
  exact ⟨d2, cs, d3, keys, _, key, fun i hi => ⟨(h6 i hi).1, (h6 i hi).2.2.1⟩⟩

end Examples

end IceFrost
