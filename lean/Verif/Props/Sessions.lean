import Verif.Props.Order
import Verif.Props.Restore
import Verif.Props.FinishExamples

/-! # C95: the states of a key generation session reachable through the public interface -/

set_option linter.unusedSectionVars false
set_option linter.unusedSimpArgs false

namespace IceFrost

open Classical in
attribute [local instance] Classical.propDecidable

variable {F G R : Type} [Field F] [DecidableEq F] [AddCommGroup G] [Module F G] [DecidableEq G]

/-- Sessions in round one, with the records they were given. -/
inductive ReachOne (S : Suite F G R) (dbg : Bool) : List (Participant F G) → RoundOne F G → Prop
  | bootstrap (params x i cs ps rng d l) (h : bootstrap S dbg params x i cs ps rng = .ok (d, l)) : ReachOne S dbg ps d
  | new (params x i ps rng d l) (h : dkgNew S dbg params x i ps rng = .ok (d, l)) : ReachOne S dbg ps d

/-- Sessions in round two, with the records and the encrypted shares they were given. Complaints are arbitrary. -/
inductive ReachTwo (S : Suite F G R) (dbg : Bool) :
    List (Participant F G) → List EncShare → RoundTwo F G → Prop
  | round (ps d es rng d' cs) (hd : ReachOne S dbg ps d) (h : d.toRoundTwo S dbg es rng = .ok (d', cs)) :
      ReachTwo S dbg ps es d'
  | blame (ps es d cs d' l) (hd : ReachTwo S dbg ps es d) (h : d.blame S cs = .ok (d', l)) : ReachTwo S dbg ps es d'

/-- What holds of the part of the state set up in round one. `ps` are the records received. -/
structure SessionSound (S : Suite F G R) (ps : List (Participant F G)) (st : DkgState F G)
    (comms : BMap (VssCommitment G)) : Prop where
  comms_eq : st.theirCommitments = some comms
  comms_sorted : comms.WF
  dhs_sorted : st.theirDhPublicKeys.WF
  own_key : st.dhPublicKey = st.dhPrivateKey • S.gen
  t_pos : 0 < st.parameters.t.toNat
  t_le : st.parameters.t.toNat ≤ st.parameters.n.toNat
  n_le : st.parameters.n.toNat ≤ ps.length
  dealers_le : comms.length ≤ st.parameters.n.toNat
  dealer : ∀ k c, comms.get? k = some c → ∃ p ∈ ps, p.index = k ∧ Spec.DealerValid S p ∧ p.commitments = some c ∧
    st.theirDhPublicKeys.get? k = some p.dhPublicKey
  dhKey : ∀ k pk, st.theirDhPublicKeys.get? k = some pk → ∃ p ∈ ps, p.index = k ∧ Spec.DhValid S p ∧
    p.dhPublicKey = pk

/-- What holds of the shares stored in round two. `es` are the encrypted shares received. -/
structure SharesSound (S : Suite F G R) (dbg : Bool) (es : List EncShare) (st : DkgState F G)
    (m : BMap (SecretShare F)) : Prop where
  shares_eq : st.mySecretShares = some m
  sorted : m.WF
  share : ∀ k s, m.get? k = some s → s.senderIndex = k ∧ (dbg = true → s.receiverIndex = st.index) ∧
    ∃ pk, st.theirDhPublicKeys.get? k = some pk ∧
      ∃ e ∈ es, e.senderIndex = k ∧ e.receiverIndex = s.receiverIndex ∧ Spec.Opens S e (st.dhPrivateKey • pk) s.eval

theorem newState_inv {S : Suite F G R} {dbg : Bool} {params : Params} {x : F} {i : U32} {cs : Option (List F)}
    {ps : List (Participant F G)} {fd : Bool} {rng rng' : R} {d : RoundOne F G} {l : ParticipantList F G}
    (h : newStateInternal S dbg params x i cs ps fd true rng = .ok ((d, l), rng')) :
    ∃ m, d.state = roundOneState S params x i true (ps.filter (Accepts S params fd true)) m ∧ params.t ≠ 0 ∧
      ps.length = params.n.toNat ∧ params.t.toNat ≤ (ps.filter (Accepts S params fd true)).length := by
  have hlen : ps.length = params.n.toNat := by
    by_contra hne
    rw [newState_length S dbg params x i cs ps fd true rng hne] at h
    cases h
  have ht : params.t ≠ 0 := fun ht => newState_t_zero S dbg params ht x i cs ps fd true rng _ h
  have hno : ∀ p ∈ ps, ¬ Spec.LacksProof S p := by
    intro p hp hl
    rw [newState_panic S dbg params x i cs ps fd rng hlen ⟨p, hp, hl⟩] at h
    cases h
  have hf := foldlM_check S dbg params fd true (.inl rfl) ps (fun _ => hno)
  have hl := filter_lengths ps (Accepts S params fd true)
  unfold newStateInternal at h
  simp only [hlen, ne_eq, not_true_eq_false, if_false, hf] at h
  set valid := ps.filter (Accepts S params fd true) with hvalid
  set bad := (ps.filter (fun p => ¬ Accepts S params fd true p)).map (·.index) with hbad
  by_cases hv : valid.length < params.t.toNat
  · rw [if_pos hv] at h; cases h
  have hvn : (UInt32.ofNat valid.length).toNat = valid.length := by
    apply UInt32.toNat_ofNat_of_lt
    have := params.n.toNat_lt
    have : valid.length ≤ ps.length := List.length_filter_le _ _
    simp [UInt32.size]; omega
  have hsub := u32Sub_ok (F := F) (G := G) dbg params.n valid.length bad.length (by rw [← hlen]; exact hl)
  have hp := newParams_ok (F := F) (G := G) dbg ht (n := UInt32.ofNat valid.length) (by rw [hvn]; omega)
  rw [if_neg hv, hsub] at h
  simp only [hp] at h
  split at h
  · cases h
    exact ⟨none, rfl, ht, hlen, by omega⟩
  · split at h
    · cases h
    · next m rng1 _ =>
      cases h
      exact ⟨some m, rfl, ht, hlen, by omega⟩

theorem map_eq_ok {α β : Type} {r : Res F G α} {f : α → β} {v : β} (h : r.map f = .ok v) :
    ∃ a, r = .ok a ∧ f a = v := by
  cases r with
  | error e => cases h
  | ok a => exact ⟨a, rfl, Except.ok.inj h⟩

/-- The two maps of round one hold the same record under each index. -/
theorem entries_agree (l : List (Participant F G)) (hl : ∀ p ∈ l, p.commitments ≠ none) (k : U32)
    (c : VssCommitment G) (h : (BMap.ofList (commEntries l)).get? k = some c) :
    ∃ p ∈ l, p.index = k ∧ p.commitments = some c ∧ (BMap.ofList (dhEntries l)).get? k = some p.dhPublicKey := by
  induction l using List.reverseRecOn with
  | nil => simp [commEntries, BMap.ofList, BMap.get?] at h
  | append_singleton l p ih =>
    obtain ⟨cp, hcp⟩ := Option.ne_none_iff_exists'.mp (hl p (by simp))
    have hce : commEntries (l ++ [p]) = commEntries l ++ [(p.index, cp)] := by
      rw [commEntries_append]; simp [commEntries, hcp]
    have hde : dhEntries (l ++ [p]) = dhEntries l ++ [(p.index, p.dhPublicKey)] := by
      rw [dhEntries_append]; rfl
    rw [hce, BMap.ofList_append_one, BMap.get?_insert] at h
    rw [hde, BMap.ofList_append_one]
    by_cases hk : k = p.index
    · rw [if_pos hk] at h
      cases h
      exact ⟨p, by simp, hk.symm, hcp, by rw [BMap.get?_insert, if_pos hk]⟩
    · rw [if_neg hk] at h
      obtain ⟨q, hq, h1, h2, h3⟩ := ih (fun q hq => hl q (by simp [hq])) h
      exact ⟨q, by simp [hq], h1, h2, by rw [BMap.get?_insert, if_neg hk, h3]⟩

theorem ofList_length_le {α : Type} (l : List (U32 × α)) : (BMap.ofList l).length ≤ l.length := by
  have h1 : (BMap.ofList l).keys.toFinset ⊆ (l.map Prod.fst).toFinset := by
    intro k hk
    rw [List.mem_toFinset] at *
    exact (BMap.mem_keys_ofList l k).mp hk
  have h2 := Finset.card_le_card h1
  rw [List.toFinset_card_of_nodup (BMap.wf_ofList l).nodup] at h2
  have h3 := List.toFinset_card_le (l.map Prod.fst)
  simp only [BMap.keys, List.length_map] at h2 h3
  omega

theorem roundOne_sound {S : Suite F G R} {dbg : Bool} {params : Params} {x : F} {i : U32} {cs : Option (List F)}
    {ps : List (Participant F G)} {fd : Bool} {rng rng' : R} {d : RoundOne F G} {l : ParticipantList F G}
    (h : newStateInternal S dbg params x i cs ps fd true rng = .ok ((d, l), rng')) :
    ∃ comms, SessionSound S ps d.state comms ∧ d.state.mySecretShares = none := by
  obtain ⟨m, hst, ht, hlen, hle⟩ := newState_inv h
  set valid := ps.filter (Accepts S params fd true) with hvalid
  have hacc : ∀ p ∈ valid, p ∈ ps ∧ Spec.DealerValid S p := by
    intro p hp
    rw [hvalid, List.mem_filter] at hp
    refine ⟨hp.1, ?_⟩
    have := hp.2
    simp only [Accepts, if_true, decide_eq_true_eq] at this
    exact this.1
  have hsome : ∀ p ∈ valid, p.commitments ≠ none := by
    intro p hp hn
    obtain ⟨_, c, _, _, h, _⟩ := (hacc p hp).2
    rw [hn] at h; cases h
  have hvl : valid.length ≤ ps.length := List.length_filter_le _ _
  have hvn : (UInt32.ofNat valid.length).toNat = valid.length := by
    apply UInt32.toNat_ofNat_of_lt
    have := params.n.toNat_lt
    simp [UInt32.size]; omega
  have hpar : d.state.parameters = ⟨UInt32.ofNat valid.length, params.t⟩ := by rw [hst]; rfl
  refine ⟨BMap.ofList (commEntries valid), ⟨by rw [hst]; rfl, BMap.wf_ofList _, by rw [hst]; exact BMap.wf_ofList _,
    by rw [hst]; rfl, ?_, ?_, ?_, ?_, ?_, ?_⟩, by rw [hst]; rfl⟩
  · rw [hpar]
    exact Nat.pos_of_ne_zero fun h => ht (UInt32.toNat_inj.mp (by simpa using h))
  · rw [hpar]; simp only []; rw [hvn]; exact hle
  · rw [hpar]; simp only []; rw [hvn]; exact hvl
  · rw [hpar]
    simp only []
    rw [hvn]
    refine (ofList_length_le _).trans ?_
    unfold commEntries
    exact List.length_filterMap_le _ _
  · intro k c hk
    obtain ⟨p, hp, h1, h2, h3⟩ := entries_agree valid hsome k c hk
    exact ⟨p, (hacc p hp).1, h1, (hacc p hp).2, h2, by rw [hst]; exact h3⟩
  · intro k pk hk
    rw [hst] at hk
    have := BMap.mem_of_get?_ofList hk
    unfold dhEntries at this
    rw [List.mem_map] at this
    obtain ⟨p, hp, he⟩ := this
    cases he
    exact ⟨p, (hacc p hp).1, rfl, (hacc p hp).2.1, rfl⟩

/-- C95 (round one): whatever records a session was given, its state is sound: the maps are sorted, each dealer on
file has a valid record among those received, with its DH key on file, and `1 ≤ t ≤ n ≤ records`. No law of the
external parts is assumed. -/
theorem C95_round_one_sound {S : Suite F G R} {dbg : Bool} {ps : List (Participant F G)} {d : RoundOne F G}
    (h : ReachOne S dbg ps d) : ∃ comms, SessionSound S ps d.state comms ∧ d.state.mySecretShares = none := by
  cases h with
  | bootstrap params x i cs _ rng _ l h =>
    unfold IceFrost.bootstrap at h
    obtain ⟨⟨v, rng'⟩, h1, h2⟩ := map_eq_ok h
    cases h2
    exact roundOne_sound h1
  | new params x i _ rng _ l h =>
    unfold dkgNew at h
    obtain ⟨⟨v, rng'⟩, h1, h2⟩ := map_eq_ok h
    cases h2
    exact roundOne_sound h1

theorem toRoundTwo_state {S : Suite F G R} {dbg : Bool} {d : RoundOne F G} {comms : BMap (VssCommitment G)}
    (hcomms : d.state.theirCommitments = some comms) (hn : comms.keys.Nodup) {es : List EncShare} {rng : R}
    {d' : RoundTwo F G} {cs : List (Complaint F G)} (h : d.toRoundTwo S dbg es rng = .ok (d', cs)) :
    KnownShares dbg d.state es ∧ d'.state = roundTwoState S d.state es := by
  obtain ⟨hlen, hk⟩ := toRoundTwo_inv S dbg d comms hcomms es rng (.inl ⟨_, h⟩)
  refine ⟨hk, ?_⟩
  obtain ⟨cs', _, h2⟩ := toRoundTwo_known S dbg d comms hcomms hn es hlen hk rng
  rw [h2] at h
  split at h
  · cases h
  · split at h
    · cases h
    · cases h; rfl

/-- C95 (round two): the same after `to_round_two` with any shares and any number of `blame` calls with any
complaints, and every stored share is filed under its sender, was received, and opens under the sender's DH key. -/
theorem C95_round_two_sound {S : Suite F G R} {dbg : Bool} {ps : List (Participant F G)} {es : List EncShare}
    {d : RoundTwo F G} (h : ReachTwo S dbg ps es d) :
    ∃ comms m, SessionSound S ps d.state comms ∧ SharesSound S dbg es d.state m := by
  induction h with
  | round d es rng d' cs hd h =>
    obtain ⟨comms, hs, _⟩ := C95_round_one_sound hd
    obtain ⟨hk, hst⟩ := toRoundTwo_state hs.comms_eq hs.comms_sorted.nodup h
    refine ⟨comms, BMap.ofList (es.filterMap (opened S d.state.dhPrivateKey d.state.theirDhPublicKeys)), ?_, ?_⟩
    · rw [hst]
      exact ⟨hs.comms_eq, hs.comms_sorted, hs.dhs_sorted, hs.own_key, hs.t_pos, hs.t_le, hs.n_le, hs.dealers_le,
        hs.dealer, hs.dhKey⟩
    · rw [hst]
      refine ⟨rfl, BMap.wf_ofList _, ?_⟩
      intro k s hk'
      have := BMap.mem_of_get?_ofList hk'
      rw [List.mem_filterMap] at this
      obtain ⟨e, he, ho⟩ := this
      obtain ⟨pk, v, h1, h2, rfl, rfl⟩ := opened_eq_some.mp ho
      exact ⟨rfl, (hk e he).1, pk, h1, e, he, rfl, rfl, h2⟩
  | blame es d cs d' l hd h ih =>
    obtain ⟨comms, m, hs, hm⟩ := ih
    rw [blame_eq S d comms m hs.comms_eq hm.shares_eq hs.comms_sorted hm.sorted] at h
    simp only [Except.ok.injEq, Prod.mk.injEq] at h
    obtain ⟨rfl, _⟩ := h
    set rm := cs.map (verdict S d.state comms)
    have hg := fun k => get?_filter_not_mem hs.comms_sorted rm k
    have hgm := fun k => get?_filter_not_mem hm.sorted rm k
    refine ⟨comms.filter fun e => e.1 ∉ rm, m.filter fun e => e.1 ∉ rm,
      ⟨rfl, BMap.wf_filter hs.comms_sorted _, hs.dhs_sorted, hs.own_key, hs.t_pos, hs.t_le, hs.n_le,
        (List.length_filter_le _ _).trans hs.dealers_le, ?_, hs.dhKey⟩, rfl, BMap.wf_filter hm.sorted _, ?_⟩
    · intro k c hk
      rw [hg] at hk
      split at hk
      · cases hk
      · exact hs.dealer k c hk
    · intro k s hk
      rw [hgm] at hk
      split at hk
      · cases hk
      · exact hm.share k s hk

/-- C95: in a reachable session `blame` never fails, whatever the complaints. -/
theorem C95_blame_total {S : Suite F G R} {dbg : Bool} {ps : List (Participant F G)} {es : List EncShare}
    {d : RoundTwo F G} (h : ReachTwo S dbg ps es d) (cs : List (Complaint F G)) : ∃ v, d.blame S cs = .ok v := by
  obtain ⟨comms, m, hs, hm⟩ := C95_round_two_sound h
  exact ⟨_, blame_eq S d comms m hs.comms_eq hm.shares_eq hs.comms_sorted hm.sorted cs⟩

theorem signingKeyLoop_no_panic (l : List U32) (rest : List (U32 × SecretShare F)) (key : F) (p : PanicSite) :
    (signingKeyLoop (G := G) l rest key).1 ≠ .error (.panic p) := by
  induction rest generalizing key with
  | nil => simp [signingKeyLoop]
  | cons e rest ih =>
    obtain ⟨k, s⟩ := e
    unfold signingKeyLoop
    split
    · simp
    · next c _ =>
      have := ih (key + s.eval * c)
      simpa using this

theorem groupKeyLoop_no_panic (l : List U32) (rest : List (U32 × VssCommitment G))
    (hr : ∀ e ∈ rest, e.2.points ≠ []) (acc : G) (p : PanicSite) :
    groupKeyLoop (F := F) l rest acc ≠ .error (.panic p) := by
  induction rest generalizing acc with
  | nil => simp [groupKeyLoop]
  | cons e rest ih =>
    obtain ⟨k, c⟩ := e
    unfold groupKeyLoop
    split
    · simp
    · split
      · next hn =>
        have := hr (k, c) (by simp)
        cases hc : c.points with
        | nil => exact absurd hc this
        | cons a as => simp [VssCommitment.publicKey, hc] at hn
      · exact ih (fun e he => hr e (by simp [he])) _

theorem SessionSound.points {S : Suite F G R} {ps : List (Participant F G)} {st : DkgState F G}
    {comms : BMap (VssCommitment G)} (hs : SessionSound S ps st comms) {k : U32} {c : VssCommitment G}
    (hk : comms.get? k = some c) : ∃ pk, c.points.head? = some pk := by
  obtain ⟨p, _, _, ⟨_, c', pk, _, h1, h2, _⟩, h3, _⟩ := hs.dealer k c hk
  rw [h1] at h3; cases h3
  exact ⟨pk, h2⟩

/-- C95: in a reachable session `finish` never panics. No law is assumed. -/
theorem C95_finish_no_panic {S : Suite F G R} {dbg : Bool} {ps : List (Participant F G)} {es : List EncShare}
    {d : RoundTwo F G} (h : ReachTwo S dbg ps es d) (p : PanicSite) : d.finish ≠ .error (.panic p) := by
  obtain ⟨comms, m, hs, hm⟩ := C95_round_two_sound h
  unfold RoundTwo.finish RoundTwo.calculateSigningKey
  rw [hm.shares_eq]
  simp only []
  have h1 := signingKeyLoop_no_panic (G := G) m.keys m 0 p
  cases hr : (signingKeyLoop (G := G) m.keys m 0).1 with
  | error f =>
    rw [hr] at h1
    simpa [Except.map] using h1
  | ok key =>
    simp only [Except.map, RoundTwo.calculateGroupKey, hs.comms_eq]
    have h2 := groupKeyLoop_no_panic (F := F) comms.keys comms (by
      intro e he hn
      obtain ⟨pk, hpk⟩ := hs.points ((BMap.mem_iff_get? hs.comms_sorted).mp (show (e.1, e.2) ∈ comms from he))
      rw [hn] at hpk; cases hpk) 0 p
    split
    · next f hf =>
      rw [hf] at h2
      intro he
      cases he
      exact h2 rfl
    · simp

/-- C95: in a reachable session `finish` succeeds exactly when no dealer on file and no stored share has index 0. -/
theorem C95_finish_ok_iff (hu : Suite.U32Inj F) {S : Suite F G R} {dbg : Bool} {ps : List (Participant F G)}
    {es : List EncShare} {d : RoundTwo F G} (h : ReachTwo S dbg ps es d) {comms : BMap (VssCommitment G)}
    (hc : d.state.theirCommitments = some comms) {m : BMap (SecretShare F)} (hm' : d.state.mySecretShares = some m) :
    (∃ v, d.finish = .ok v) ↔ 0 ∉ comms.keys ∧ 0 ∉ m.keys := by
  obtain ⟨comms', m', hs, hm⟩ := C95_round_two_sound h
  obtain rfl : comms' = comms := Option.some.inj (hs.comms_eq.symm.trans hc)
  obtain rfl : m' = m := Option.some.inj (hm.shares_eq.symm.trans hm')
  constructor
  · rintro ⟨⟨gk, sk⟩, hv⟩
    constructor
    · intro h0
      have := finish_groupKey d comms' hs.comms_eq hv
      cases hcm : comms' with
      | nil => rw [hcm] at h0; simp at h0
      | cons e rest =>
        obtain ⟨k, c⟩ := e
        conv at this => lhs; arg 2; rw [hcm]
        unfold groupKeyLoop at this
        rw [lagrangeCoeff_uniform hu, if_neg (not_not.mpr hs.comms_sorted.nodup), if_pos h0] at this
        cases this
    · intro h0
      unfold RoundTwo.finish RoundTwo.calculateSigningKey at hv
      rw [hm.shares_eq] at hv
      simp only [] at hv
      cases hcm : m' with
      | nil => rw [hcm] at h0; simp at h0
      | cons e rest =>
        obtain ⟨k, c⟩ := e
        have hl : signingKeyLoop (G := G) m'.keys m' 0 =
            (.error (.err (.custom (Error.display (F := F) (G := G) .indexIsZero))), m') := by
          conv => lhs; arg 2; rw [hcm]
          unfold signingKeyLoop
          rw [lagrangeCoeff_uniform hu, if_neg (not_not.mpr hm.sorted.nodup), if_pos h0]
          simp only []
          rw [hcm]
        rw [hl] at hv
        simp [Except.map] at hv
  · rintro ⟨h0, h0'⟩
    classical
    have := finish_ok hu d comms' hs.comms_eq hs.comms_sorted.nodup h0
      (fun k => ((comms'.get? k).bind (·.points.head?)).getD 0)
      (by
        intro k c hk
        obtain ⟨pk, hpk⟩ := hs.points hk
        simp [hk, hpk])
      m' hm.shares_eq hm.sorted.nodup h0' (fun k => ((m'.get? k).map (·.eval)).getD 0)
      (by intro k s hk; simp [hk])
    exact ⟨_, this⟩

/-- C95: if none of the records received has index 0, `finish` succeeds in every state of the session, with the
interpolation of the keys of the dealers on file as group key. -/
theorem C95_finish_total (hu : Suite.U32Inj F) {S : Suite F G R} {dbg : Bool} {ps : List (Participant F G)}
    {es : List EncShare} {d : RoundTwo F G} (h : ReachTwo S dbg ps es d) (h0 : ∀ p ∈ ps, p.index ≠ 0) :
    ∃ v, d.finish = .ok v := by
  obtain ⟨comms, m, hs, hm⟩ := C95_round_two_sound h
  rw [C95_finish_ok_iff hu h hs.comms_eq hm.shares_eq]
  constructor
  · intro hk
    obtain ⟨c, hc⟩ := BMap.exists_get? hk
    obtain ⟨p, hp, hi, _⟩ := hs.dealer 0 c hc
    exact h0 p hp hi
  · intro hk
    obtain ⟨s, hc⟩ := BMap.exists_get? hk
    obtain ⟨_, _, pk, hpk, _⟩ := hm.share 0 s hc
    obtain ⟨p, hp, hi, _⟩ := hs.dhKey 0 pk hpk
    exact h0 p hp hi

theorem roundTwoLoop_no_panic_release (S : Suite F G R) (st : DkgState F G) (comms : BMap (VssCommitment G))
    (hc : st.theirCommitments = some comms) (es : List EncShare) (m : BMap (SecretShare F))
    (cs : List (Complaint F G)) (rng : R) (p : PanicSite) :
    roundTwoLoop S false st es m cs rng ≠ .error (.panic p) := by
  induction es generalizing m cs rng with
  | nil => simp [roundTwoLoop]
  | cons e es ih =>
    unfold roundTwoLoop
    simp only [Bool.false_and, Bool.false_eq_true, if_false, hc]
    split
    · simp
    · exact ih _ _ _

/-- C95: in a reachable session `to_round_two` never panics in a release build, whatever the shares. -/
theorem C95_to_round_two_no_panic_release {S : Suite F G R} {ps : List (Participant F G)} {d : RoundOne F G}
    (h : ReachOne S false ps d) (es : List EncShare) (rng : R) (p : PanicSite) :
    d.toRoundTwo S false es rng ≠ .error (.panic p) := by
  obtain ⟨comms, hs, _⟩ := C95_round_one_sound h
  unfold RoundOne.toRoundTwo
  simp only []
  split
  · simp
  · have := roundTwoLoop_no_panic_release S { d.state with theirEncryptedSecretShares := none } comms hs.comms_eq es
      [] [] rng p
    split
    · next f hf => rw [hf] at this; intro he; cases he; exact this rfl
    · simp only [u32Sub, Bool.false_and, Bool.false_eq_true, if_false]
      split <;> simp

/-- C95: in a debug build neither does it, provided all shares are labelled for the holder and are at most as many
as there are accepted participants. -/
theorem C95_to_round_two_no_panic_debug {S : Suite F G R} {ps : List (Participant F G)} {d : RoundOne F G}
    (h : ReachOne S true ps d) (es : List EncShare) (hr : ∀ e ∈ es, e.receiverIndex = d.state.index)
    (hle : es.length ≤ d.state.parameters.n.toNat) (rng : R) (p : PanicSite) :
    d.toRoundTwo S true es rng ≠ .error (.panic p) := by
  obtain ⟨comms, hs, _⟩ := C95_round_one_sound h
  by_cases hlen : d.state.parameters.t.toNat ≤ es.length
  · by_cases hk : ∀ e ∈ es, e.senderIndex ∈ d.state.theirDhPublicKeys.keys
    · obtain ⟨cs, h1, h2⟩ := toRoundTwo_le S true d comms hs.comms_eq hs.comms_sorted.nodup es hlen
        (fun e he => ⟨fun _ => hr e he, hk e he⟩) rng ((List.length_filter_le _ _).trans hle)
      rw [h2]
      split <;> simp
    · push Not at hk
      obtain ⟨e, he, hne⟩ := hk
      obtain ⟨f, h1, h2⟩ := roundTwoLoop_error S true { d.state with theirEncryptedSecretShares := none } comms
        hs.comms_eq es ⟨e, he, .inr hne⟩ [] [] rng
      unfold RoundOne.toRoundTwo
      simp only []
      rw [if_neg (by omega), h1]
      rcases h2 with rfl | ⟨rfl, _, e', he', hb⟩
      · simp
      · exact absurd (hr e' he') hb
  · unfold RoundOne.toRoundTwo
    simp only []
    rw [if_pos (by omega)]
    simp

/-! ### A reachable session: three dealers, then `blame` with an arbitrary list of complaints -/

section Examples

open Toy

example (cs : List (Complaint Fp Fp)) : ∃ (ps : List (Participant Fp Fp)) (es : List EncShare) (d d' : RoundTwo Fp Fp),
    ps.length = 3 ∧ es.length = 3 ∧ (∀ p ∈ ps, p.index ≠ 0) ∧ ReachTwo suite true ps es d ∧
      ReachTwo suite true ps es d' ∧ (∃ l, d.blame suite cs = .ok (d', l)) ∧ ∃ v, d'.finish = .ok v := by
  obtain ⟨P, co, x, h0, d1, h1, E, h2, d2, h3, s, key, _⟩ := C36_honest_dkg lawful true ⟨3, 2⟩ (by decide)
    (by decide) [1, 2, 3] (by decide) (by decide) rfl (fun _ => [1, 2, 3]) (fun _ => [3, 1, 2])
    (fun _ _ => List.Perm.refl _) (fun _ _ => by decide) (fun _ => 0) (fun _ => 0) (fun _ => 0)
  have hr : ReachTwo suite true ([1, 2, 3].map P) ([3, 1, 2].map fun l => E l 1) (d2 1) :=
    .round _ _ _ _ _ _ (.bootstrap _ _ _ _ _ _ _ _ (h1 1 (by decide))) (h3 1 (by decide))
  have hi : ∀ p ∈ [1, 2, 3].map P, p.index ≠ 0 := by
    intro p hp
    obtain ⟨i, hi, rfl⟩ := List.mem_map.mp hp
    have := newDealer_good (by decide) (h0 i hi)
    rw [this.2.1]
    exact this.1
  obtain ⟨⟨d', l⟩, hb⟩ := C95_blame_total hr cs
  have hr' := ReachTwo.blame _ _ _ _ _ _ hr hb
  exact ⟨_, _, d2 1, d', rfl, rfl, hi, hr, hr', ⟨l, hb⟩, C95_finish_total u32_inj hr' hi⟩

end Examples

end IceFrost
