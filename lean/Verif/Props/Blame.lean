import Verif.Props.Finish
import Verif.Lemmas.Blame

/-! # C37, C39–C48: complaints and blame -/

set_option linter.unusedSectionVars false
set_option linter.unusedSimpArgs false

namespace IceFrost

attribute [local instance] Classical.propDecidable

variable {F G R : Type} [Field F] [DecidableEq F] [AddCommGroup G] [Module F G] [DecidableEq G]

/-- A round-two state with commitments `comms` and shares `m` (both well-formed maps). -/
structure Holds (d : RoundTwo F G) (comms : BMap (VssCommitment G)) (m : BMap (SecretShare F)) : Prop where
  commits : d.state.theirCommitments = some comms
  shares : d.state.mySecretShares = some m
  wfc : comms.WF
  wfm : m.WF

/-- `d'` is `d` with exactly the indices in `removed` taken out of the commitments and of the shares. -/
def Removed (d d' : RoundTwo F G) (comms : BMap (VssCommitment G)) (m : BMap (SecretShare F)) (removed : U32 → Prop) :
    Prop :=
  ∃ comms' m', Holds d' comms' m' ∧
    d'.state = { d.state with theirCommitments := some comms', mySecretShares := some m' } ∧
    (∀ k, comms'.get? k = if removed k then none else comms.get? k) ∧
    (∀ k, m'.get? k = if removed k then none else m.get? k)

/-- The keys of the removed participants, in increasing index order. -/
def KeysOf (d : RoundTwo F G) (removed : U32 → Prop) (keys : List G) : Prop :=
  ∃ l : List U32, l.Pairwise (· < ·) ∧ (∀ k, k ∈ l ↔ removed k) ∧
    keys = l.filterMap fun k => d.state.theirDhPublicKeys.get? k

/-- `to_round_two` leaves a state to which the theorems of this file apply. -/
theorem holds_toRoundTwo (S : Suite F G R) (dbg : Bool) (d : RoundOne F G) (comms : BMap (VssCommitment G))
    (hcomms : d.state.theirCommitments = some comms) (hw : comms.WF) (es : List EncShare) (rng : R)
    (d' : RoundTwo F G) (cs : List (Complaint F G)) (h : d.toRoundTwo S dbg es rng = .ok (d', cs)) :
    ∃ m, Holds d' comms m ∧ d'.state.parameters = d.state.parameters ∧ d'.state.index = d.state.index ∧
      d'.state.theirDhPublicKeys = d.state.theirDhPublicKeys := by
  obtain ⟨h1, _, _⟩ := roundTwo_stored S dbg d comms hcomms hw.nodup es rng d' cs h
  refine ⟨_, ⟨?_, by rw [h1]; rfl, hw, BMap.wf_ofList _⟩, ?_, ?_, ?_⟩ <;> rw [h1]
  · exact hcomms
  · rfl
  · rfl
  · rfl

/-- What `blame` removes and returns, for any complaint list. -/
theorem blame_removed (S : Suite F G R) (d : RoundTwo F G) (comms : BMap (VssCommitment G)) (m : BMap (SecretShare F))
    (hd : Holds d comms m) (cs : List (Complaint F G)) :
    ∃ d' keys, d.blame S cs = .ok (d', keys) ∧
      Removed d d' comms m (fun k => ∃ c ∈ cs, k = verdict S d.state comms c) ∧
      KeysOf d (fun k => ∃ c ∈ cs, k = verdict S d.state comms c) keys := by
  have hmem : ∀ k, k ∈ cs.map (verdict S d.state comms) ↔ ∃ c ∈ cs, k = verdict S d.state comms c := by
    intro k; simp [List.mem_map, eq_comm]
  refine ⟨_, _, blame_eq S d comms m hd.commits hd.shares hd.wfc hd.wfm cs, ⟨_, _, ⟨rfl, rfl,
    BMap.wf_filter hd.wfc _, BMap.wf_filter hd.wfm _⟩, rfl, fun k => ?_, fun k => ?_⟩,
    _, sortDedup_strict _, fun k => ?_, rfl⟩
  · rw [get?_filter_not_mem hd.wfc]; by_cases h : ∃ c ∈ cs, k = verdict S d.state comms c
    · rw [if_pos ((hmem k).mpr h), if_pos h]
    · rw [if_neg fun h' => h ((hmem k).mp h'), if_neg h]
  · rw [get?_filter_not_mem hd.wfm]; by_cases h : ∃ c ∈ cs, k = verdict S d.state comms c
    · rw [if_pos ((hmem k).mpr h), if_pos h]
    · rw [if_neg fun h' => h ((hmem k).mp h'), if_neg h]
  · rw [sortDedup_mem, hmem]

theorem Removed.congr {d d' : RoundTwo F G} {comms : BMap (VssCommitment G)} {m : BMap (SecretShare F)}
    {p q : U32 → Prop} (h : Removed d d' comms m p) (hpq : ∀ k, p k ↔ q k) : Removed d d' comms m q := by
  have : p = q := funext fun k => propext (hpq k)
  rwa [← this]

theorem KeysOf.congr {d : RoundTwo F G} {keys : List G}
    {p q : U32 → Prop} (h : KeysOf d p keys) (hpq : ∀ k, p k ↔ q k) : KeysOf d q keys := by
  have : p = q := funext fun k => propext (hpq k)
  rwa [← this]

theorem KeysOf.single {d : RoundTwo F G} {keys : List G} {l : U32} (h : KeysOf d (· = l) keys) :
    keys = (d.state.theirDhPublicKeys.get? l).toList := by
  obtain ⟨ls, h1, h2, rfl⟩ := h
  have : ls = [l] := eq_of_strict_of_mem h1 (List.pairwise_singleton _ _) (by simpa using h2)
  rw [this]
  cases h : d.state.theirDhPublicKeys.get? l <;> simp [h]

/-- The effect of a call is determined. -/
theorem Removed.unique {d d' d'' : RoundTwo F G} {comms : BMap (VssCommitment G)} {m : BMap (SecretShare F)}
    {p : U32 → Prop} (h : Removed d d' comms m p) (h' : Removed d d'' comms m p) : d' = d'' := by
  obtain ⟨c1, m1, w1, e1, a1, b1⟩ := h
  obtain ⟨c2, m2, w2, e2, a2, b2⟩ := h'
  have hc : c1 = c2 := BMap.ext w1.wfc w2.wfc fun k => by rw [a1, a2]
  have hm : m1 = m2 := BMap.ext w1.wfm w2.wfm fun k => by rw [b1, b2]
  subst hc hm
  have : d'.state = d''.state := by rw [e1, e2]
  cases d'; cases d''; simp_all

/-- A list with one verdict. -/
theorem blame_single (S : Suite F G R) (d : RoundTwo F G) (comms : BMap (VssCommitment G)) (m : BMap (SecretShare F))
    (hd : Holds d comms m) (c : Complaint F G) :
    ∃ d', d.blame S [c] = .ok (d', (d.state.theirDhPublicKeys.get? (verdict S d.state comms c)).toList) ∧
      Removed d d' comms m (· = verdict S d.state comms c) := by
  obtain ⟨d', keys, h1, h2, h3⟩ := blame_removed S d comms m hd [c]
  have hp : ∀ k, (∃ c' ∈ [c], k = verdict S d.state comms c') ↔ k = verdict S d.state comms c := by simp
  exact ⟨d', by rw [h1, (h3.congr hp).single], h2.congr hp⟩

/-! ### C39 -/

theorem forall₂_mem_left {α β : Type} {r : α → β → Prop} {l : List α} {l' : List β} (h : List.Forall₂ r l l') :
    ∀ a ∈ l, ∃ b ∈ l', r a b := by
  induction h with
  | nil => simp
  | cons h _ ih =>
    intro a ha
    rcases List.mem_cons.mp ha with rfl | ha
    · exact ⟨_, List.mem_cons_self, h⟩
    · obtain ⟨b, hb, hr⟩ := ih a ha
      exact ⟨b, List.mem_cons_of_mem _ hb, hr⟩

theorem forall₂_mem_right {α β : Type} {r : α → β → Prop} {l : List α} {l' : List β} (h : List.Forall₂ r l l') :
    ∀ b ∈ l', ∃ a ∈ l, r a b := by
  induction h with
  | nil => simp
  | cons h _ ih =>
    intro a ha
    rcases List.mem_cons.mp ha with rfl | ha
    · exact ⟨_, List.mem_cons_self, h⟩
    · obtain ⟨b, hb, hr⟩ := ih a ha
      exact ⟨b, List.mem_cons_of_mem _ hb, hr⟩

/-- `cs` are the complaints that a `to_round_two` call returned, with or without error. -/
def MadeBy (S : Suite F G R) (dbg : Bool) (d1 : RoundOne F G) (es : List EncShare) (rng : R)
    (cs : List (Complaint F G)) : Prop :=
  (∃ d', d1.toRoundTwo S dbg es rng = .ok (d', cs)) ∨ d1.toRoundTwo S dbg es rng = .error (.err (.complaint cs))

/-- A complaint made by `to_round_two` is upheld by everybody with the same public view, if the accused's index is
in range. -/
theorem madeBy_upheld (S : Suite F G R) (dbg : Bool) (d1 : RoundOne F G) (es : List EncShare) (rng : R)
    (cs : List (Complaint F G)) (hmade : MadeBy S dbg d1 es rng cs) (comms : BMap (VssCommitment G))
    (hcomms : d1.state.theirCommitments = some comms) (hw : comms.WF) (c : Complaint F G) (hc : c ∈ cs)
    (st : DkgState F G) (hdh : st.theirDhPublicKeys = d1.state.theirDhPublicKeys)
    (h0 : c.encShare.senderIndex ≠ 0) (hn : c.encShare.senderIndex.toNat ≤ st.parameters.n.toNat) :
    Upheld S st comms c ∧ ∃ pk, st.theirDhPublicKeys.get? c.encShare.senderIndex = some pk := by
  obtain ⟨e, he, rfl, _, pk, h2, h3, h4⟩ := forall₂_mem_left
    (C28_complaints S dbg d1 comms hcomms hw.nodup es rng cs hmade) c hc
  have hb := (List.mem_filter.mp he).2
  simp only [decide_eq_true_eq] at hb
  obtain ⟨pk', vc, k1, k2, k3⟩ := hb
  rw [h2] at k1; cases k1
  refine ⟨⟨h0, ?_, vc, k2, ?_, ?_⟩, pk, by rw [hdh]; exact h2⟩
  · rw [UInt32.lt_iff_toNat_lt]; omega
  · rw [hdh, h2]; exact h4
  · rw [h3]; exact k3

/-- C39: a complaint made by `to_round_two` about a share of a dealer with index in `1..n` makes every participant
with the same public data remove exactly that dealer, and return its DH public key. -/
theorem C39_justified_complaint (S : Suite F G R) (dbg : Bool) (d1 : RoundOne F G) (es : List EncShare) (rng : R)
    (cs : List (Complaint F G)) (hmade : MadeBy S dbg d1 es rng cs) (comms : BMap (VssCommitment G))
    (hcomms : d1.state.theirCommitments = some comms) (c : Complaint F G) (hc : c ∈ cs)
    (d : RoundTwo F G) (m : BMap (SecretShare F)) (hd : Holds d comms m)
    (hdh : d.state.theirDhPublicKeys = d1.state.theirDhPublicKeys)
    (h0 : c.encShare.senderIndex ≠ 0) (hn : c.encShare.senderIndex.toNat ≤ d.state.parameters.n.toNat) :
    ∃ d' pk, d.blame S [c] = .ok (d', [pk]) ∧ d.state.theirDhPublicKeys.get? c.encShare.senderIndex = some pk ∧
      Removed d d' comms m (· = c.encShare.senderIndex) := by
  obtain ⟨hu, pk, hpk⟩ := madeBy_upheld S dbg d1 es rng cs hmade comms hcomms hd.wfc c hc d.state hdh h0 hn
  obtain ⟨d', h1, h2⟩ := blame_single S d comms m hd c
  have hv : verdict S d.state comms c = c.encShare.senderIndex := if_pos hu
  rw [hv, hpk] at h1
  rw [hv] at h2
  exact ⟨d', pk, h1, hpk, h2⟩

/-- C39 for a whole list of such complaints, from any number of makers: exactly the accused are removed. -/
theorem C39_justified_list (S : Suite F G R) (comms : BMap (VssCommitment G))
    (d : RoundTwo F G) (m : BMap (SecretShare F)) (hd : Holds d comms m) (cs : List (Complaint F G))
    (hcs : ∀ c ∈ cs, c.encShare.senderIndex ≠ 0 ∧ c.encShare.senderIndex.toNat ≤ d.state.parameters.n.toNat ∧
      ∃ dbg d1 es rng cs', MadeBy S dbg d1 es rng cs' ∧ c ∈ cs' ∧ d1.state.theirCommitments = some comms ∧
        d.state.theirDhPublicKeys = d1.state.theirDhPublicKeys) :
    ∃ d' keys, d.blame S cs = .ok (d', keys) ∧
      Removed d d' comms m (fun k => ∃ c ∈ cs, k = c.encShare.senderIndex) ∧
      KeysOf d (fun k => ∃ c ∈ cs, k = c.encShare.senderIndex) keys := by
  obtain ⟨d', keys, h1, h2, h3⟩ := blame_removed S d comms m hd cs
  have hp : ∀ k, (∃ c ∈ cs, k = verdict S d.state comms c) ↔ ∃ c ∈ cs, k = c.encShare.senderIndex := by
    intro k
    refine exists_congr fun c => and_congr_right fun hc => ?_
    obtain ⟨h0, hn, dbg, d1, es, rng, cs', hm, hc', hcm, hdh⟩ := hcs c hc
    have := (madeBy_upheld S dbg d1 es rng cs' hm comms hcm hd.wfc c hc' d.state hdh h0 hn).1
    rw [verdict, if_pos this]
  exact ⟨d', keys, h1, h2.congr hp, h3.congr hp⟩

/-- C39, whatever else is in the list: the accused is removed. -/
theorem C39_removed_in_any_list (S : Suite F G R) (dbg : Bool) (d1 : RoundOne F G) (es : List EncShare) (rng : R)
    (cs : List (Complaint F G)) (hmade : MadeBy S dbg d1 es rng cs) (comms : BMap (VssCommitment G))
    (hcomms : d1.state.theirCommitments = some comms) (c : Complaint F G) (hc : c ∈ cs)
    (d : RoundTwo F G) (m : BMap (SecretShare F)) (hd : Holds d comms m)
    (hdh : d.state.theirDhPublicKeys = d1.state.theirDhPublicKeys)
    (h0 : c.encShare.senderIndex ≠ 0) (hn : c.encShare.senderIndex.toNat ≤ d.state.parameters.n.toNat)
    (all : List (Complaint F G)) (hall : c ∈ all) :
    ∃ d' keys comms' m', d.blame S all = .ok (d', keys) ∧ Holds d' comms' m' ∧
      c.encShare.senderIndex ∉ comms'.keys ∧ c.encShare.senderIndex ∉ m'.keys := by
  obtain ⟨hu, _⟩ := madeBy_upheld S dbg d1 es rng cs hmade comms hcomms hd.wfc c hc d.state hdh h0 hn
  obtain ⟨d', keys, h1, ⟨comms', m', k1, _, k2, k3⟩, _⟩ := blame_removed S d comms m hd all
  have hr : ∃ c' ∈ all, c.encShare.senderIndex = verdict S d.state comms c' := ⟨c, hall, (if_pos hu).symm⟩
  refine ⟨d', keys, comms', m', h1, k1, ?_, ?_⟩
  · rw [← BMap.get?_eq_none, k2, if_pos hr]
  · rw [← BMap.get?_eq_none, k3, if_pos hr]

/-! ### C40 -/

/-- C40: a complaint about a correctly dealt share that discloses the true shared key removes exactly the maker's
index. -/
theorem C40_unjustified_complaint {S : Suite F G R} (hc : S.CipherLaws) (hdc : S.CodecLaws) (d : RoundTwo F G)
    (comms : BMap (VssCommitment G)) (m : BMap (SecretShare F)) (hd : Holds d comms m)
    (l j : U32) (xl xj : F) (poly : List F) (vc : VssCommitment G) (hvc : comms.get? l = some vc)
    (hpts : vc.points = poly.map (· • S.gen)) (c : Complaint F G)
    (hdealt : HonestlyDealt S l j xl poly (xj • S.gen) c.encShare)
    (hshared : c.dhSharedKey = xj • (xl • S.gen)) :
    ∃ d', d.blame S [c] = .ok (d', (d.state.theirDhPublicKeys.get? j).toList) ∧
      Removed d d' comms m (· = j) := by
  obtain ⟨h1, h2, h3⟩ := honestlyDealt_opens hc hdc hdealt
  have hnu : ¬ Upheld S d.state comms c := by
    refine not_upheld (vc := vc) (by rw [h1]; exact hvc) ⟨_, by rw [hshared, smul_comm]; exact h3, ?_⟩
    rw [hpts, h2]
    exact (pointEval_commitPoints S _ _).symm
  obtain ⟨d', k1, k2⟩ := blame_single S d comms m hd c
  have hv : verdict S d.state comms c = j := (if_neg hnu).trans h2
  rw [hv] at k1 k2
  exact ⟨d', k1, k2⟩

/-- C40: so the accused dealer stays, unless it complained about itself. -/
theorem C40_accused_stays {S : Suite F G R} (hc : S.CipherLaws) (hdc : S.CodecLaws) (d : RoundTwo F G)
    (comms : BMap (VssCommitment G)) (m : BMap (SecretShare F)) (hd : Holds d comms m)
    (l j : U32) (hlj : l ≠ j) (xl xj : F) (poly : List F) (vc : VssCommitment G) (hvc : comms.get? l = some vc)
    (hpts : vc.points = poly.map (· • S.gen)) (c : Complaint F G)
    (hdealt : HonestlyDealt S l j xl poly (xj • S.gen) c.encShare)
    (hshared : c.dhSharedKey = xj • (xl • S.gen)) :
    ∃ d' keys comms', d.blame S [c] = .ok (d', keys) ∧ d'.state.theirCommitments = some comms' ∧
      comms'.get? l = some vc ∧ j ∉ comms'.keys := by
  obtain ⟨d', h, comms', m', k1, k2, k3, k4⟩ := C40_unjustified_complaint hc hdc d comms m hd l j xl xj poly vc hvc
    hpts c hdealt hshared
  refine ⟨d', _, comms', h, k1.commits, by rw [k3, if_neg hlj, hvc], ?_⟩
  rw [← BMap.get?_eq_none, k3, if_pos rfl]

/-! ### C41, C42 -/

/-- C41: permuting or repeating complaints changes nothing. -/
theorem C41_set_only (S : Suite F G R) (d : RoundTwo F G) (comms : BMap (VssCommitment G)) (m : BMap (SecretShare F))
    (hd : Holds d comms m) (cs cs' : List (Complaint F G)) (h : ∀ c, c ∈ cs ↔ c ∈ cs') :
    d.blame S cs = d.blame S cs' := by
  rw [blame_eq S d comms m hd.commits hd.shares hd.wfc hd.wfm, blame_eq S d comms m hd.commits hd.shares hd.wfc hd.wfm]
  have hmem : ∀ k, k ∈ cs.map (verdict S d.state comms) ↔ k ∈ cs'.map (verdict S d.state comms) := by
    intro k; simp [List.mem_map, h]
  rw [sortDedup_congr hmem]
  unfold without
  simp only [hmem]

/-- C41 for permutations. -/
theorem C41_perm (S : Suite F G R) (d : RoundTwo F G) (comms : BMap (VssCommitment G)) (m : BMap (SecretShare F))
    (hd : Holds d comms m) (cs cs' : List (Complaint F G)) (h : cs.Perm cs') : d.blame S cs = d.blame S cs' :=
  C41_set_only S d comms m hd cs cs' fun _ => h.mem_iff

/-- C42: participants with the same public data that process the same set of complaints return the same keys, are
left with the same commitments, and derive the same group key. -/
theorem C42_agreement (S : Suite F G R) (d1 d2 : RoundTwo F G) (comms : BMap (VssCommitment G))
    (m1 m2 : BMap (SecretShare F)) (hd1 : Holds d1 comms m1) (hd2 : Holds d2 comms m2)
    (hp : d1.state.parameters = d2.state.parameters)
    (hdh : d1.state.theirDhPublicKeys = d2.state.theirDhPublicKeys)
    (cs cs' : List (Complaint F G)) (h : ∀ c, c ∈ cs ↔ c ∈ cs') :
    ∃ d1' d2' keys, d1.blame S cs = .ok (d1', keys) ∧ d2.blame S cs' = .ok (d2', keys) ∧
      d1'.state.theirCommitments = d2'.state.theirCommitments ∧
      ∀ gk gk' sk sk', d1'.finish = .ok (gk, sk) → d2'.finish = .ok (gk', sk') → gk = gk' := by
  rw [C41_set_only S d2 comms m2 hd2 cs' cs fun c => (h c).symm,
    blame_eq S d1 comms m1 hd1.commits hd1.shares hd1.wfc hd1.wfm,
    blame_eq S d2 comms m2 hd2.commits hd2.shares hd2.wfc hd2.wfm]
  have hv : verdict S d1.state comms = verdict S d2.state comms := by
    funext c
    unfold verdict Upheld
    rw [hp, hdh]
  rw [hv, hdh]
  refine ⟨_, _, _, rfl, rfl, rfl, fun gk gk' sk sk' h1 h2 => ?_⟩
  refine C34_same_group_key _ _ ?_ gk gk' sk sk' h1 h2
  rfl

/-! ### C43 -/

/-- C43 for indices up to the (reduced) `n`.

Missing for the full C43: dealers with a larger index, for which it is false; see the next theorems. -/
theorem C43_late_index_partial (S : Suite F G R) (dbg : Bool) (d1 : RoundOne F G) (es : List EncShare) (rng : R)
    (cs : List (Complaint F G)) (hmade : MadeBy S dbg d1 es rng cs) (comms : BMap (VssCommitment G))
    (hcomms : d1.state.theirCommitments = some comms) (c : Complaint F G) (hc : c ∈ cs)
    (d : RoundTwo F G) (m : BMap (SecretShare F)) (hd : Holds d comms m)
    (hdh : d.state.theirDhPublicKeys = d1.state.theirDhPublicKeys)
    (h0 : c.encShare.senderIndex ≠ 0) (hn : c.encShare.senderIndex.toNat ≤ d.state.parameters.n.toNat)
    (hne : c.encShare.receiverIndex ≠ c.encShare.senderIndex) :
    ∃ d' keys comms', d.blame S [c] = .ok (d', keys) ∧ d'.state.theirCommitments = some comms' ∧
      c.encShare.senderIndex ∉ comms'.keys ∧
      comms'.get? c.encShare.receiverIndex = comms.get? c.encShare.receiverIndex := by
  obtain ⟨d', pk, h, _, comms', m', k1, k2, k3, k4⟩ := C39_justified_complaint S dbg d1 es rng cs hmade comms hcomms
    c hc d m hd hdh h0 hn
  refine ⟨d', _, comms', h, k1.commits, ?_, by rw [k3, if_neg hne]⟩
  rw [← BMap.get?_eq_none, k3, if_pos rfl]

/-- C43, negation: a justified complaint against a dealer whose index exceeds the current `n` removes the maker and
keeps the dealer, whatever the dealer did. -/
theorem C43_maker_removed (S : Suite F G R) (d : RoundTwo F G) (comms : BMap (VssCommitment G))
    (m : BMap (SecretShare F)) (hd : Holds d comms m) (c : Complaint F G)
    (hn : d.state.parameters.n.toNat < c.encShare.senderIndex.toNat) :
    ∃ d', d.blame S [c] = .ok (d', (d.state.theirDhPublicKeys.get? c.encShare.receiverIndex).toList) ∧
      Removed d d' comms m (· = c.encShare.receiverIndex) := by
  obtain ⟨d', k1, k2⟩ := blame_single S d comms m hd c
  have hv : verdict S d.state comms c = c.encShare.receiverIndex := by
    refine if_neg ?_
    rintro ⟨_, h, _⟩
    exact h (UInt32.lt_iff_toNat_lt.mpr hn)
  rw [hv] at k1 k2
  exact ⟨d', k1, k2⟩

/-- C43, negation: such dealers exist in every session where the participant list had indices up to `n` and somebody
else was discarded by `bootstrap`: the state's `n` is smaller than the index of a remaining valid dealer. -/
theorem C43_reachable {S : Suite F G R} (hc : S.CipherLaws) (hdc : S.CodecLaws) (dbg : Bool) (params : Params)
    (x : F) (i : U32) (cs : List F) (ps : List (Participant F G)) (rng : R) (d : RoundOne F G)
    (L : ParticipantList F G) (h : bootstrap S dbg params x i cs ps rng = .ok (d, L))
    (p : Participant F G) (hp : p ∈ L.valid) (hi : p.index.toNat = params.n.toNat) (hmis : L.misbehaving ≠ none) :
    d.state.parameters.n.toNat < p.index.toNat ∧
      ∃ comms, d.state.theirCommitments = some comms ∧ comms.WF ∧ p.index ∈ comms.keys := by
  unfold bootstrap at h
  have hlen : ps.length = params.n.toNat := by
    by_contra hne
    rw [newState_length S dbg params x i _ ps _ _ rng hne] at h; cases h
  have hlp : ∀ p ∈ ps, ¬ Spec.LacksProof S p := by
    intro p hp hl
    rw [newState_panic S dbg params x i _ ps _ rng hlen ⟨p, hp, hl⟩] at h; cases h
  have ht : params.t ≠ 0 := by
    intro ht
    cases hs : newStateInternal S dbg params x i (some cs) ps true true rng with
    | ok v => exact newState_t_zero S dbg params ht x i _ ps _ _ rng v hs
    | error f => rw [hs] at h; cases h
  obtain ⟨h1, h2⟩ := newState_deal dbg params x i hc hdc cs true ps rng ht hlen (fun _ => hlp)
  by_cases hv : (ps.filter (Accepts S params true true)).length < params.t.toNat
  · rw [h1 hv] at h; cases h
  · obtain ⟨m, rng', h3, _⟩ := h2 (not_lt.mp hv)
    rw [h3] at h
    cases h
    have hl := filter_lengths ps (Accepts S params true true)
    have hbad : (ps.filter (fun p => ¬ Accepts S params true true p)).length ≠ 0 := by
      intro h0
      apply hmis
      have h0' := List.length_eq_zero_iff.mp h0
      unfold participantList
      rw [h0']; rfl
    refine ⟨?_, _, rfl, BMap.wf_ofList _, ?_⟩
    · have hvn : (UInt32.ofNat (ps.filter (Accepts S params true true)).length).toNat =
          (ps.filter (Accepts S params true true)).length := by
        apply UInt32.toNat_ofNat_of_lt
        have := params.n.toNat_lt
        have : (ps.filter (Accepts S params true true)).length ≤ ps.length := List.length_filter_le _ _
        simp [UInt32.size]; omega
      rw [hi, ← hlen]
      show (UInt32.ofNat _).toNat < _
      rw [hvn]
      rw [List.length_map] at hl
      omega
    · have hacc := (List.mem_filter.mp hp).2
      simp only [decide_eq_true_eq] at hacc
      rw [accepts_bootstrap] at hacc
      obtain ⟨⟨_, c, _, _, hcm, _⟩, _⟩ := hacc
      rw [BMap.mem_keys_ofList]
      exact List.mem_map.mpr ⟨(p.index, c), by
        unfold commEntries
        exact List.mem_filterMap.mpr ⟨p, hp, by simp [hcm]⟩, rfl⟩

/-! ### C44 -/

theorem ite_ite {α : Type} {p q r : Prop} {x : Option α} (h : (q ∨ p) ↔ r) :
    (if q then none else if p then none else x) = if r then none else x := by
  by_cases hq : q
  · rw [if_pos hq, if_pos (h.mp (.inl hq))]
  · rw [if_neg hq]
    refine if_congr ⟨fun hp => h.mp (.inr hp), fun hr => (h.mpr hr).resolve_left hq⟩ rfl rfl

/-- C44 when no complaint of the later call accuses somebody removed by the earlier one.

Missing for the full C44: complaints against dealers that are already gone, for which it is false; see the next
theorem. -/
theorem C44_sequential_partial (S : Suite F G R) (d : RoundTwo F G) (comms : BMap (VssCommitment G))
    (m : BMap (SecretShare F)) (hd : Holds d comms m) (cs cs' : List (Complaint F G))
    (d1 : RoundTwo F G) (keys1 : List G) (h1 : d.blame S cs = .ok (d1, keys1))
    (comms1 : BMap (VssCommitment G)) (hc1 : d1.state.theirCommitments = some comms1)
    (hacc : ∀ c ∈ cs', c.encShare.senderIndex ∈ comms.keys → c.encShare.senderIndex ∈ comms1.keys) :
    ∃ d2 keys2 keys, d1.blame S cs' = .ok (d2, keys2) ∧ d.blame S (cs ++ cs') = .ok (d2, keys) := by
  obtain ⟨d1', k1, h1', hr1, _⟩ := blame_removed S d comms m hd cs
  rw [h1] at h1'; cases h1'
  obtain ⟨comms1', m1, hd1, hst, hcg, hmg⟩ := hr1
  rw [hd1.commits] at hc1; cases hc1
  obtain ⟨d2, keys2, h2, hr2, _⟩ := blame_removed S d1 comms1 m1 hd1 cs'
  obtain ⟨d3, keys, h3, hr3, _⟩ := blame_removed S d comms m hd (cs ++ cs')
  refine ⟨d2, keys2, keys, h2, ?_⟩
  rw [h3]
  suffices d3 = d2 by rw [this]
  have hv : ∀ c ∈ cs', verdict S d1.state comms1 c = verdict S d.state comms c := by
    intro c hc
    have : Upheld S d1.state comms1 c ↔ Upheld S d.state comms c := by
      unfold Upheld
      rw [hst]
      simp only []
      refine and_congr_right fun _ => and_congr_right fun _ => exists_congr fun vc => and_congr_left fun _ => ?_
      rw [hcg]
      split
      · next hrem =>
        simp only [reduceCtorEq, false_iff]
        intro hg
        have := hacc c hc (BMap.mem_keys_of_get? hg)
        rw [← BMap.get?_isSome, hcg, if_pos hrem] at this
        cases this
      · rfl
    unfold verdict
    simp only [this]
  have hor : ∀ k, ((∃ c ∈ cs', k = verdict S d1.state comms1 c) ∨ ∃ c ∈ cs, k = verdict S d.state comms c) ↔
      ∃ c ∈ cs ++ cs', k = verdict S d.state comms c := by
    intro k
    constructor
    · rintro (⟨c, hc, h⟩ | ⟨c, hc, h⟩)
      · exact ⟨c, List.mem_append_right _ hc, by rw [h, hv c hc]⟩
      · exact ⟨c, List.mem_append_left _ hc, h⟩
    · rintro ⟨c, hc, h⟩
      rcases List.mem_append.mp hc with hc | hc
      · exact .inr ⟨c, hc, h⟩
      · exact .inl ⟨c, hc, by rw [h, hv c hc]⟩
  refine hr3.unique (?_ : Removed d d2 comms m _)
  obtain ⟨comms2, m2, hd2, hst2, hcg2, hmg2⟩ := hr2
  refine ⟨comms2, m2, hd2, by rw [hst2, hst], fun k => ?_, fun k => ?_⟩
  · rw [hcg2, hcg]; exact ite_ite (hor k)
  · rw [hmg2, hmg]; exact ite_ite (hor k)

/-- C44, negation: processing the same upheld complaint `c` in two calls removes its maker as well, while one call
(with the complaint once or twice) removes only the accused. The same happens with a second complaint `c'` of another
maker against the same dealer. -/
theorem C44_repeated_call (S : Suite F G R) (d : RoundTwo F G) (comms : BMap (VssCommitment G))
    (m : BMap (SecretShare F)) (hd : Holds d comms m) (c c' : Complaint F G) (hu : Upheld S d.state comms c)
    (hu' : Upheld S d.state comms c') (hsame : c'.encShare.senderIndex = c.encShare.senderIndex) :
    ∃ d1 k1 d2 k2 dAll kAll, d.blame S [c] = .ok (d1, k1) ∧ d1.blame S [c'] = .ok (d2, k2) ∧
      d.blame S [c, c'] = .ok (dAll, kAll) ∧
      Removed d dAll comms m (· = c.encShare.senderIndex) ∧
      Removed d d2 comms m (fun k => k = c.encShare.senderIndex ∨ k = c'.encShare.receiverIndex) := by
  obtain ⟨d1, h1, hr1⟩ := blame_single S d comms m hd c
  have hv : verdict S d.state comms c = c.encShare.senderIndex := if_pos hu
  have hv' : verdict S d.state comms c' = c.encShare.senderIndex := (if_pos hu').trans hsame
  rw [hv] at hr1
  obtain ⟨comms1, m1, hd1, hst, hcg, hmg⟩ := hr1
  obtain ⟨d2, h2, hr2⟩ := blame_single S d1 comms1 m1 hd1 c'
  have hv2 : verdict S d1.state comms1 c' = c'.encShare.receiverIndex := by
    refine if_neg ?_
    rintro ⟨_, _, vc, h, _⟩
    rw [hsame, hcg, if_pos rfl] at h
    cases h
  rw [hv2] at hr2
  obtain ⟨dAll, kAll, hA, hrA, _⟩ := blame_removed S d comms m hd [c, c']
  refine ⟨d1, _, d2, _, dAll, kAll, h1, h2, hA, hrA.congr fun k => ?_, ?_⟩
  · simp only [List.mem_cons, List.not_mem_nil, or_false, exists_eq_or_imp, exists_eq_left, hv, hv', or_self]
  · obtain ⟨comms2, m2, hd2, hst2, hcg2, hmg2⟩ := hr2
    refine ⟨comms2, m2, hd2, by rw [hst2, hst], fun k => ?_, fun k => ?_⟩
    · rw [hcg2, hcg]
      by_cases a : k = c'.encShare.receiverIndex <;> by_cases b : k = c.encShare.senderIndex <;> simp [a, b]
    · rw [hmg2, hmg]
      by_cases a : k = c'.encShare.receiverIndex <;> by_cases b : k = c.encShare.senderIndex <;> simp [a, b]

/-! ### C45 -/

/-- C45, negation: a complaint that accuses index 0 removes whatever dealer it names as receiver. Nothing in it has
to be valid. -/
theorem C45_bogus_accusation (S : Suite F G R) (d : RoundTwo F G) (comms : BMap (VssCommitment G))
    (m : BMap (SecretShare F)) (hd : Holds d comms m) (c : Complaint F G) (h0 : c.encShare.senderIndex = 0) :
    ∃ d', d.blame S [c] = .ok (d', (d.state.theirDhPublicKeys.get? c.encShare.receiverIndex).toList) ∧
      Removed d d' comms m (· = c.encShare.receiverIndex) := by
  obtain ⟨d', k1, k2⟩ := blame_single S d comms m hd c
  have hv : verdict S d.state comms c = c.encShare.receiverIndex := if_neg fun h => h.1 h0
  rw [hv] at k1 k2
  exact ⟨d', k1, k2⟩

/-- C45, negation: the complaint's DH public key is not compared with the maker's, so anybody can make a complaint
with a fresh key `y` about the *genuine* share of dealer `l` to `j`: if the share is not good under the unrelated key
`y • pk_l` (authenticated encryption makes sure of that), dealer `l` is removed. -/
theorem C45_framed_by_outsider (S : Suite F G R) (d : RoundTwo F G) (comms : BMap (VssCommitment G))
    (m : BMap (SecretShare F)) (hd : Holds d comms m) (e : EncShare) (vc : VssCommitment G) (pk : G)
    (hvc : comms.get? e.senderIndex = some vc) (hpk : d.state.theirDhPublicKeys.get? e.senderIndex = some pk)
    (h0 : e.senderIndex ≠ 0) (hn : e.senderIndex.toNat ≤ d.state.parameters.n.toNat) (y : F) (rng : R)
    (hbad : ¬ Spec.GoodShare S (y • pk) vc.points e) :
    ∃ d', d.blame S [(Complaint.new S pk y (y • pk) e rng).1] = .ok (d', [pk]) ∧
      Removed d d' comms m (· = e.senderIndex) := by
  obtain ⟨d', k1, k2⟩ := blame_single S d comms m hd (Complaint.new S pk y (y • pk) e rng).1
  have hv : verdict S d.state comms (Complaint.new S pk y (y • pk) e rng).1 = e.senderIndex := by
    refine if_pos ⟨h0, ?_, vc, hvc, ?_, hbad⟩
    · rw [UInt32.lt_iff_toNat_lt]
      show ¬ _ < e.senderIndex.toNat
      omega
    · show Complaint.verify S _ ((d.state.theirDhPublicKeys.get? e.senderIndex).getD 0) = _
      rw [hpk]
      exact complaintNew_verify S pk y e rng
  rw [hv] at k1 k2
  rw [hpk] at k1
  exact ⟨d', k1, k2⟩

/-- C45, negation, without any assumption on the ciphers: for *every* dealer in range there is a complaint, computable
from public data and a fresh key, that removes it. The complaint includes a fabricated share, which nothing binds to
the dealer. -/
theorem C45_framed_always {S : Suite F G R} (hS : S.Lawful) (d : RoundTwo F G) (comms : BMap (VssCommitment G))
    (m : BMap (SecretShare F)) (hd : Holds d comms m) (l j : U32) (vc : VssCommitment G) (pk : G)
    (hvc : comms.get? l = some vc) (hpk : d.state.theirDhPublicKeys.get? l = some pk)
    (h0 : l ≠ 0) (hn : l.toNat ≤ d.state.parameters.n.toNat) (y : F) (rng : R) :
    ∃ e rng' d', (∃ v : F, encryptShare S ⟨l, j, v⟩ (S.encG (y • pk)) rng = (.ok (e, rng') : Out F G _)) ∧
      d.blame S [(Complaint.new S pk y (y • pk) e rng').1] = .ok (d', [pk]) ∧ Removed d d' comms m (· = l) := by
  obtain ⟨v, hv⟩ : ∃ v : F, v • S.gen ≠ Spec.pointEval vc.points (j.toNat : F) := by
    by_cases h : (0 : F) • S.gen = Spec.pointEval vc.points (j.toNat : F)
    · exact ⟨1, fun h' => zero_ne_one (hS.group.gen_inj _ _ (h.trans h'.symm))⟩
    · exact ⟨0, h⟩
  obtain ⟨e, rng', h1, h2, h3, _, h5⟩ := encryptShare_ok hS.cipher hS.codec ⟨l, j, v⟩ (S.encG (y • pk)) rng
  obtain ⟨w, hw, hw'⟩ := (decryptShare_ok_iff S e _ _).mp h5
  simp only [SecretShare.mk.injEq] at hw'
  obtain ⟨_, _, rfl⟩ := hw'
  have h2 : e.senderIndex = l := h2
  have h3 : e.receiverIndex = j := h3
  obtain ⟨d', k1, k2⟩ := C45_framed_by_outsider S d comms m hd e vc pk (by rw [h2]; exact hvc)
    (by rw [h2]; exact hpk) (by rw [h2]; exact h0) (by rw [h2]; exact hn) y rng' (by
      rintro ⟨w, hw2, hw3⟩
      rw [hw.unique hw2] at hv
      rw [h3] at hw3
      exact hv hw3)
  rw [h2] at k2
  exact ⟨e, rng', d', ⟨v, h1⟩, k1, k2⟩

/-- C45 for complaints about genuine shares that disclose the true shared key of their receiver: a dealer whose shares
are all correct is removed only if it is itself named as a maker (receiver) in the list.

Missing for the full C45: complaints with another DH key or a fabricated share, for which it is false (above). -/
theorem C45_honest_dealer_partial {S : Suite F G R} (hc : S.CipherLaws) (hdc : S.CodecLaws) (d : RoundTwo F G)
    (comms : BMap (VssCommitment G)) (m : BMap (SecretShare F)) (hd : Holds d comms m)
    (l : U32) (xl : F) (poly : List F) (vc : VssCommitment G) (hvc : comms.get? l = some vc)
    (hpts : vc.points = poly.map (· • S.gen)) (xs : U32 → F) (cs : List (Complaint F G))
    (hcs : ∀ c ∈ cs, c.encShare.senderIndex = l →
      HonestlyDealt S l c.encShare.receiverIndex xl poly (xs c.encShare.receiverIndex • S.gen) c.encShare ∧
      c.dhSharedKey = xs c.encShare.receiverIndex • (xl • S.gen))
    (hmk : ∀ c ∈ cs, c.encShare.receiverIndex ≠ l) :
    ∃ d' keys comms', d.blame S cs = .ok (d', keys) ∧ d'.state.theirCommitments = some comms' ∧
      comms'.get? l = some vc := by
  obtain ⟨d', keys, h1, ⟨comms', m', k1, _, k2, _⟩, _⟩ := blame_removed S d comms m hd cs
  refine ⟨d', keys, comms', h1, k1.commits, ?_⟩
  rw [k2, if_neg, hvc]
  rintro ⟨c, hcm, hv⟩
  unfold verdict at hv
  split at hv
  · next hu =>
    obtain ⟨hdealt, hsh⟩ := hcs c hcm hv.symm
    obtain ⟨e1, e2, e3⟩ := honestlyDealt_opens hc hdc hdealt
    refine not_upheld (vc := vc) (by rw [e1]; exact hvc) ⟨_, by rw [hsh, smul_comm]; exact e3, ?_⟩ hu
    rw [hpts]
    exact (pointEval_commitPoints S _ _).symm
  · exact hmk c hcm hv.symm

/-! ### C46 -/

/-- C46, negation: during a resharing, the new *signer* `j` complains about a correct share dealt to it by dealer `l`.
The complaint is unjustified and everybody removes *dealer* `j`, an old key holder that only happens to have the same
index as the maker and need not have anything to do with it. -/
theorem C46_index_confusion {S : Suite F G R} (hc : S.CipherLaws) (hdc : S.CodecLaws) (d : RoundTwo F G)
    (comms : BMap (VssCommitment G)) (m : BMap (SecretShare F)) (hd : Holds d comms m)
    (l j : U32) (xl xj : F) (poly : List F) (vc vcj : VssCommitment G) (hvc : comms.get? l = some vc)
    (hpts : vc.points = poly.map (· • S.gen)) (hj : comms.get? j = some vcj) (pkj : G)
    (hpk : d.state.theirDhPublicKeys.get? j = some pkj) (c : Complaint F G)
    (hdealt : HonestlyDealt S l j xl poly (xj • S.gen) c.encShare) (hshared : c.dhSharedKey = xj • (xl • S.gen)) :
    ∃ d' comms', d.blame S [c] = .ok (d', [pkj]) ∧ d'.state.theirCommitments = some comms' ∧ j ∈ comms.keys ∧
      j ∉ comms'.keys := by
  obtain ⟨d', h, comms', m', k1, k2, k3, k4⟩ := C40_unjustified_complaint hc hdc d comms m hd l j xl xj poly vc hvc
    hpts c hdealt hshared
  refine ⟨d', comms', by rw [h, hpk]; rfl, k1.commits, BMap.mem_keys_of_get? hj, ?_⟩
  rw [← BMap.get?_eq_none, k3, if_pos rfl]

/-- C46, the general form: every rejected complaint removes the dealer with the index of its maker. -/
theorem C46_rejected_removes (S : Suite F G R) (d : RoundTwo F G) (comms : BMap (VssCommitment G))
    (m : BMap (SecretShare F)) (hd : Holds d comms m) (c : Complaint F G) (hu : ¬ Upheld S d.state comms c) :
    ∃ d' keys comms', d.blame S [c] = .ok (d', keys) ∧ d'.state.theirCommitments = some comms' ∧
      c.encShare.receiverIndex ∉ comms'.keys := by
  obtain ⟨d', k1, comms', m', k2, _, k3, _⟩ := blame_single S d comms m hd c
  refine ⟨d', _, comms', k1, k2.commits, ?_⟩
  rw [← BMap.get?_eq_none, k3, if_pos]
  rw [verdict, if_neg hu]

/-- C46 when the new signers' indices are not dealer indices: a rejected complaint removes nobody. -/
theorem C46_disjoint_partial (S : Suite F G R) (d : RoundTwo F G) (comms : BMap (VssCommitment G))
    (m : BMap (SecretShare F)) (hd : Holds d comms m) (hkeys : ∀ k ∈ m.keys, k ∈ comms.keys)
    (cs : List (Complaint F G)) (hu : ∀ c ∈ cs, ¬ Upheld S d.state comms c)
    (hj : ∀ c ∈ cs, c.encShare.receiverIndex ∉ comms.keys) : ∃ keys, d.blame S cs = .ok (d, keys) := by
  obtain ⟨d', keys, h1, hr, _⟩ := blame_removed S d comms m hd cs
  refine ⟨keys, ?_⟩
  rw [h1]
  suffices d' = d by rw [this]
  refine hr.unique ⟨comms, m, hd, ?_, fun k => ?_, fun k => ?_⟩
  · rw [← hd.commits, ← hd.shares]
  · split
    · next h =>
      obtain ⟨c, hc, hk⟩ := h
      rw [verdict, if_neg (hu c hc)] at hk
      rw [BMap.get?_eq_none, hk]
      exact hj c hc
    · rfl
  · split
    · next h =>
      obtain ⟨c, hc, hk⟩ := h
      rw [verdict, if_neg (hu c hc)] at hk
      rw [BMap.get?_eq_none, hk]
      exact fun hm => hj c hc (hkeys _ hm)
    · rfl

/-! ### C37 -/

/-- C37, negation: in every state there are complaints (made of public data) after which no dealer is left, and
`finish` nevertheless succeeds: with the identity as group key and 0 as signing key. -/
theorem C37_finish_without_dealers (S : Suite F G R) (d : RoundTwo F G) (comms : BMap (VssCommitment G))
    (m : BMap (SecretShare F)) (hd : Holds d comms m) (hkeys : ∀ k ∈ m.keys, k ∈ comms.keys) :
    ∃ cs d' keys, d.blame S cs = .ok (d', keys) ∧ d'.state.theirCommitments = some [] ∧
      d'.state.parameters = d.state.parameters ∧ d'.finish = .ok (0, ⟨d.state.index, 0⟩) := by
  let bogus : U32 → Complaint F G := fun j => ⟨0, 0, ⟨0, j, [], []⟩, ⟨0, 0, 0⟩⟩
  obtain ⟨d', keys, h1, ⟨comms', m', k1, k2, k3, k4⟩, _⟩ := blame_removed S d comms m hd (comms.keys.map bogus)
  have hrem : ∀ k ∈ comms.keys, ∃ c ∈ comms.keys.map bogus, k = verdict S d.state comms c := by
    intro k hk
    refine ⟨bogus k, List.mem_map_of_mem hk, ?_⟩
    exact (if_neg fun h => h.1 rfl).symm
  have hnil : ∀ {α : Type} (m : BMap α), (∀ k, m.get? k = none) → m = [] := by
    intro α m hm
    cases m with
    | nil => rfl
    | cons e m => have := hm e.1; simp [BMap.get?] at this
  have hc' : comms' = [] := hnil _ fun k => by
    rw [k3]
    split
    · rfl
    · next h => rw [BMap.get?_eq_none]; exact fun hk => h (hrem k hk)
  have hm' : m' = [] := hnil _ fun k => by
    rw [k4]
    split
    · rfl
    · next h => rw [BMap.get?_eq_none]; exact fun hk => h (hrem k (hkeys k hk))
  subst hc' hm'
  refine ⟨_, d', keys, h1, k1.commits, by rw [k2], ?_⟩
  unfold RoundTwo.finish RoundTwo.calculateSigningKey
  rw [k1.shares]
  unfold RoundTwo.calculateGroupKey
  simp only [BMap.keys, List.map_nil, signingKeyLoop, k1.commits, groupKeyLoop]
  rw [k2]
  rfl

/-- C37 for a participant that processes only its own complaints: at least `t` dealers remain.

Missing for the full C37: complaints of others, for which it is false (above). -/
theorem C37_own_complaints_partial (S : Suite F G R) (dbg : Bool) (d1 : RoundOne F G) (comms : BMap (VssCommitment G))
    (hcomms : d1.state.theirCommitments = some comms) (hw : comms.WF) (es : List EncShare) (rng : R)
    (d : RoundTwo F G) (cs : List (Complaint F G)) (h : d1.toRoundTwo S dbg es rng = .ok (d, cs))
    (hlen : comms.length = d1.state.parameters.n.toNat) (hcs : cs.length ≤ d1.state.parameters.n.toNat) :
    ∃ d' keys comms', d.blame S cs = .ok (d', keys) ∧ d'.state.theirCommitments = some comms' ∧
      d1.state.parameters.t.toNat ≤ comms'.length := by
  obtain ⟨m, hd, hp, hi, hdh⟩ := holds_toRoundTwo S dbg d1 comms hcomms hw es rng d cs h
  refine ⟨_, _, _, blame_eq S d comms m hd.commits hd.shares hd.wfc hd.wfm cs, rfl, ?_⟩
  have hrem : d1.state.parameters.t.toNat ≤ d1.state.parameters.n.toNat - cs.length := by
    obtain ⟨hl, hk⟩ := toRoundTwo_inv S dbg d1 comms hcomms es rng (.inl ⟨_, h⟩)
    obtain ⟨cs', h1, h2⟩ := toRoundTwo_known S dbg d1 comms hcomms hw.nodup es hl hk rng
    have : cs' = cs := by
      rw [h] at h2
      split at h2
      · cases h2
      · split at h2
        · cases h2
        · cases h2; rfl
    subst this
    rw [u32Sub_le dbg _ _ hcs] at h2
    simp only [ofNat_lt_iff] at h2
    rw [h] at h2
    split at h2
    · cases h2
    · omega
  refine hrem.trans ?_
  rw [← hlen]
  set l := cs.map (verdict S d.state comms) with hl
  have hll : l.length = cs.length := List.length_map _
  -- removing the entries with keys in `l` removes at most `l.length` of them
  have h3 : (comms.filter fun e => e.1 ∈ l).length ≤ l.length := by
    have hnd : ((comms.filter fun e => e.1 ∈ l).map Prod.fst).Nodup :=
      hw.nodup.sublist (List.filter_sublist.map _)
    have hsub : ((comms.filter fun e => e.1 ∈ l).map Prod.fst) ⊆ l := by
      intro k hk
      obtain ⟨e, he, rfl⟩ := List.mem_map.mp hk
      simpa using (List.mem_filter.mp he).2
    have := (hnd.subperm hsub).length_le
    rwa [List.length_map] at this
  have h4 := List.length_eq_length_filter_add (l := comms) (fun e => decide (e.1 ∈ l))
  have h5 : (comms.filter fun e => !decide (e.1 ∈ l)) = comms.filter fun e => e.1 ∉ l := by
    refine List.filter_congr fun e _ => ?_
    simp
  rw [h5] at h4
  omega

/-! ### C47, C48 -/

/-- C47: every complaint made by `to_round_two` verifies under the accused's DH public key. -/
theorem C47_complaint_complete (S : Suite F G R) (dbg : Bool) (d1 : RoundOne F G) (es : List EncShare) (rng : R)
    (cs : List (Complaint F G)) (hmade : MadeBy S dbg d1 es rng cs) (comms : BMap (VssCommitment G))
    (hcomms : d1.state.theirCommitments = some comms) (hw : comms.WF) (c : Complaint F G) (hc : c ∈ cs) :
    ∃ pk, d1.state.theirDhPublicKeys.get? c.encShare.senderIndex = some pk ∧ c.verify S pk = .ok () := by
  obtain ⟨e, he, rfl, _, pk, h2, _, h4⟩ := forall₂_mem_left
    (C28_complaints S dbg d1 comms hcomms hw.nodup es rng cs hmade) c hc
  exact ⟨pk, h2, h4⟩

/-- C47: a complaint built from a DH private key and the shared key it determines verifies, for every share and random
state. -/
theorem C47_new_verifies (S : Suite F G R) (accusedPk : G) (x : F) (e : EncShare) (rng : R) :
    (Complaint.new S accusedPk x (x • accusedPk) e rng).1.verify S accusedPk = .ok () :=
  complaintNew_verify S accusedPk x e rng

/-- An accepting transcript (first messages `a1`, `a2`, challenge `h`, response `z`) of the complaint proof that
`shared` is the DH key of `dhPk` and `pkL`. -/
def Spec.CpAccepts (g dhPk pkL shared a1 a2 : G) (h z : F) : Prop :=
  a1 + h • dhPk = z • g ∧ a2 + h • shared = z • pkL

/-- C48: `verify` accepts exactly when the included transcript is accepting for the challenge hashed from the
complaint's data. -/
theorem C48_verify_iff (S : Suite F G R) (c : Complaint F G) (pkL : G) :
    c.verify S pkL = .ok () ↔ Spec.CpAccepts S.gen c.dhPublicKey pkL c.dhSharedKey c.proof.a1 c.proof.a2
      (S.sha256FieldHash (strBytes "Complaint Context") (S.encG c.dhPublicKey ++ S.encG pkL ++
        S.encG c.dhSharedKey ++ S.encG c.proof.a1 ++ S.encG c.proof.a2 ++ (encShareCodec S).enc c.encShare))
      c.proof.z :=
  complaintVerify_iff S c pkL

/-- C48: two accepting transcripts with the same first messages and different challenges give the discrete logarithm
of the included public key, and prove that the shared key is the right one. -/
theorem C48_special_sound (g dhPk pkL shared a1 a2 : G) (h h' z z' : F)
    (h1 : Spec.CpAccepts g dhPk pkL shared a1 a2 h z) (h2 : Spec.CpAccepts g dhPk pkL shared a1 a2 h' z')
    (hne : h ≠ h') :
    dhPk = ((z - z') / (h - h')) • g ∧ shared = ((z - z') / (h - h')) • pkL := by
  have hd : h - h' ≠ 0 := sub_ne_zero.mpr hne
  have key : ∀ A P Q : G, A + h • P = z • Q → A + h' • P = z' • Q → P = ((z - z') / (h - h')) • Q := by
    intro A P Q e1 e2
    have : (h - h') • P = (z - z') • Q := by
      rw [sub_smul, sub_smul, ← e1, ← e2]; abel
    rw [div_eq_inv_mul, mul_smul, ← this, smul_smul, inv_mul_cancel₀ hd, one_smul]
  exact ⟨key _ _ _ h1.1 h2.1, key _ _ _ h1.2 h2.2⟩

/-- C48: for a shared key that is not the DH key of the included public key and the accused's key, at most one
challenge can be answered, whatever the first messages. -/
theorem C48_wrong_key_one_challenge {S : Suite F G R} (hg : S.GroupLaws) (x : F) (pkL shared a1 a2 : G)
    (hwrong : shared ≠ x • pkL) (h h' z z' : F)
    (h1 : Spec.CpAccepts S.gen (x • S.gen) pkL shared a1 a2 h z)
    (h2 : Spec.CpAccepts S.gen (x • S.gen) pkL shared a1 a2 h' z') : h = h' := by
  by_contra hne
  obtain ⟨k1, k2⟩ := C48_special_sound _ _ _ _ _ _ _ _ _ _ h1 h2 hne
  exact hwrong (by rw [k2, ← hg.gen_inj _ _ k1])

section Examples
open Toy

/-- The commitments of the dealers of `toyR1`. -/
def toyComms : BMap (VssCommitment Fp) := [(1, ⟨1, [(10 : Fp) • suite.gen, (11 : Fp) • suite.gen]⟩),
    (2, ⟨2, [(20 : Fp) • suite.gen, (21 : Fp) • suite.gen]⟩)]

/-- The round-two state of participant 3 of the session of `toyR1`, without any share. -/
def toyR2 : RoundTwo Fp Fp := ⟨{ toyR1.state with mySecretShares := some [] }⟩

/-- The hypothesis of C41, C44, C45. -/
theorem toy_holds : Holds toyR2 toyComms [] := ⟨rfl, rfl, by simp [BMap.WF, BMap.keys, toyComms], by simp [BMap.WF, BMap.keys]⟩

/-- An empty ciphertext is not good for anybody. -/
theorem toy_bad (l j : U32) (shared : Fp) (pts : List Fp) : ¬ Spec.GoodShare suite shared pts ⟨l, j, [], []⟩ := by
  rintro ⟨v, ⟨key, pt, rest, h1, h2, h3⟩, _⟩
  have h2 : (if (key ++ []) <+: ([] : Bytes) then some (([] : Bytes).drop (key ++ []).length) else none) = some pt := h2
  split at h2
  · cases h2
    rw [List.drop_nil] at h3
    rw [suite_decF] at h3
    simp [dec] at h3
  · cases h2

/-- C45: the hypotheses of `C45_framed_by_outsider` (fresh key 77), and the complaint is upheld as C44 assumes. -/
theorem toy_upheld (j : U32) (y : Fp) :
    Upheld suite toyR2.state toyComms (Complaint.new suite ((101 : Fp) • suite.gen) y
      (y • (101 : Fp) • suite.gen) ⟨1, j, [], []⟩ 0).1 := by
  refine ⟨(by decide : (1 : U32) ≠ 0), (by decide : ¬ (2 : U32) < 1), ⟨1, [(10 : Fp) • suite.gen, (11 : Fp) • suite.gen]⟩, by
    show BMap.get? 1 toyComms = _
    simp [toyComms, BMap.get?], ?_, toy_bad _ _ _ _⟩
  have : (BMap.get? 1 toyR2.state.theirDhPublicKeys).getD 0 = (101 : Fp) • suite.gen := by
    simp [toyR2, toyR1, BMap.get?]
  show Complaint.verify suite _ ((BMap.get? 1 toyR2.state.theirDhPublicKeys).getD 0) = _
  rw [this]
  exact complaintNew_verify suite _ y _ 0

example : ∃ d', toyR2.blame suite [(Complaint.new suite ((101 : Fp) • suite.gen) 77 ((77 : Fp) • (101 : Fp) • suite.gen)
    ⟨1, 3, [], []⟩ 0).1] = .ok (d', [(101 : Fp) • suite.gen]) ∧ Removed toyR2 d' toyComms [] (· = 1) :=
  C45_framed_by_outsider suite toyR2 toyComms [] toy_holds ⟨1, 3, [], []⟩ _ _
    (by simp [toyComms, BMap.get?]; rfl) (by simp [toyR2, toyR1, BMap.get?]) (by decide) (by decide) 77 0
    (toy_bad _ _ _ _)

/-- C44: two complaints of different makers about dealer 1, in one call and in two calls. -/
example := C44_repeated_call suite toyR2 toyComms [] toy_holds _ _ (toy_upheld 3 5) (toy_upheld 2 6) rfl

/-- C39: the complaints that `to_round_two` makes about empty shares of both dealers. They satisfy the hypotheses of
C39 and C47. -/
theorem toy_made : ∃ cs, MadeBy suite true toyR1 [⟨1, 3, [], []⟩, ⟨2, 3, [], []⟩] 0 cs ∧
    cs.map (·.encShare) = [⟨1, 3, [], []⟩, ⟨2, 3, [], []⟩] := by
  have h1 : toyR1.state.theirDhPublicKeys.get? 1 = some ((101 : Fp) • suite.gen) := by simp [toyR1, BMap.get?]
  have h2 : toyR1.state.theirDhPublicKeys.get? 2 = some ((102 : Fp) • suite.gen) := by simp [toyR1, BMap.get?]
  have c1 : toyComms.get? 1 = some ⟨1, [(10 : Fp) • suite.gen, (11 : Fp) • suite.gen]⟩ := by
    simp [toyComms, BMap.get?]
  have c2 : toyComms.get? 2 = some ⟨2, [(20 : Fp) • suite.gen, (21 : Fp) • suite.gen]⟩ := by
    simp [toyComms, BMap.get?]
  have hk : ∀ e ∈ [(⟨1, 3, [], []⟩ : EncShare), ⟨2, 3, [], []⟩], (true = true → e.receiverIndex = toyR1.state.index) ∧
      e.senderIndex ∈ toyR1.state.theirDhPublicKeys.keys := by
    intro e he
    simp only [List.mem_cons, List.not_mem_nil, or_false] at he
    rcases he with rfl | rfl
    · exact ⟨fun _ => rfl, BMap.mem_keys_of_get? h1⟩
    · exact ⟨fun _ => rfl, BMap.mem_keys_of_get? h2⟩
  have key := fun hbad => C30_aborts_iff_partial suite true toyR1 toyComms rfl toy_holds.wfc.nodup
    [(⟨1, 3, [], []⟩ : EncShare), ⟨2, 3, [], []⟩] le_rfl hk 0 [(⟨1, 3, [], []⟩ : EncShare), ⟨2, 3, [], []⟩] hbad le_rfl
  have self : ∀ (l : List EncShare) (P : EncShare → Prop), (∀ e ∈ l, P e) → l = l.filter fun e => decide (P e) :=
    fun l P h => (List.filter_eq_self.mpr fun e he => decide_eq_true (h e he)).symm
  have hbad : ∀ e ∈ [(⟨1, 3, [], []⟩ : EncShare), ⟨2, 3, [], []⟩],
      ∃ pk c, toyR1.state.theirDhPublicKeys.get? e.senderIndex = some pk ∧
        toyComms.get? e.senderIndex = some c ∧
          ¬ Spec.GoodShare suite (toyR1.state.dhPrivateKey • pk) c.points e := by
    intro e he
    simp only [List.mem_cons, List.not_mem_nil, or_false] at he
    rcases he with rfl | rfl
    · exact ⟨_, _, h1, c1, toy_bad _ _ _ _⟩
    · exact ⟨_, _, h2, c2, toy_bad _ _ _ _⟩
  obtain ⟨k1, k2⟩ := key (self _ _ hbad)
  obtain ⟨f, hf⟩ := k1.mpr (by show 2 - 2 < 2; omega)
  obtain ⟨cs, rfl, hcs⟩ := k2 f hf
  exact ⟨cs, .inr hf, hcs⟩

example : ∃ c d' pk, toyR2.blame suite [c] = .ok (d', [pk]) ∧ Removed toyR2 d' toyComms [] (· = c.encShare.senderIndex) ∧
    c.encShare.senderIndex = 1 := by
  obtain ⟨cs, h, hcs⟩ := toy_made
  obtain ⟨c, hc, he⟩ := List.mem_map.mp (by rw [hcs]; simp : (⟨1, 3, [], []⟩ : EncShare) ∈ cs.map (·.encShare))
  obtain ⟨d', pk, k1, _, k2⟩ := C39_justified_complaint suite true toyR1 _ 0 cs h toyComms rfl c hc toyR2 [] toy_holds (by simp only [toyR2])
    (by rw [he]; show (1 : U32) ≠ 0; simp) (by rw [he]; show (1 : U32).toNat ≤ (2 : U32).toNat; simp)
  exact ⟨c, d', pk, k1, k2, by rw [he]⟩

/-- C40, C46: signer 2 complains about an honest share of dealer 1; dealer 2 is removed. -/
example : ∃ c d' comms', toyR2.blame suite [c] = .ok (d', [(102 : Fp) • suite.gen]) ∧
    d'.state.theirCommitments = some comms' ∧ 2 ∈ toyComms.keys ∧ 2 ∉ comms'.keys := by
  obtain ⟨e, r, h, _⟩ := encryptShare_ok cipher_laws codec_laws
    (evaluatePolynomial (F := Fp) 1 2 [10, 11]) (suite.encG ((101 : Fp) • ((9 : Fp) • suite.gen))) 0
  exact ⟨⟨_, 0, e, ⟨0, 0, 0⟩⟩, C46_index_confusion cipher_laws codec_laws toyR2 toyComms [] toy_holds 1 2 101 9 [10, 11] _ _
    (by simp [toyComms, BMap.get?]; rfl) (by simp) (by simp [toyComms, BMap.get?]; rfl) _
    (by simp [toyR2, toyR1, BMap.get?]) ⟨(9 : Fp) • (101 : Fp) • suite.gen, 0, e, ⟨0, 0, 0⟩⟩ ⟨0, r, h⟩ rfl⟩

/-- C43: three dealers, of which the first has no commitments; dealer 3 is then out of range. -/
example : ∃ (ps : List (Participant Fp Fp)) (d : RoundOne Fp Fp) (L : ParticipantList Fp Fp) (p : Participant Fp Fp),
    bootstrap suite true ⟨3, 2⟩ 5 1 [8, 9] ps 0 = .ok (d, L) ∧ p ∈ L.valid ∧ p.index.toNat = 3 ∧
      L.misbehaving ≠ none := by
  obtain ⟨p1, p2, p3, k1, k2, k3, h⟩ := toy_dealers
  have ht : (2 : U32) ≠ 0 := by simp
  have hg : ∀ p ∈ [p1, p2, p3], GoodDealer suite 2 p := fun p hp => by
    obtain ⟨i, rng, cs, dh, h⟩ := h p hp
    exact (newDealer_good (params := ⟨3, 2⟩) ht h).2.2.2.2.2
  let q : Participant Fp Fp := ⟨1, 1, none, none, ⟨0, 0⟩⟩
  have hq : ¬ GoodDealer suite 2 q := by
    rintro ⟨⟨_, c, _, _, hc, _⟩, _⟩; cases hc
  have hl : ∀ p ∈ [q, p2, p3], ¬ Spec.LacksProof suite p := by
    intro p hp
    simp only [List.mem_cons, List.not_mem_nil, or_false] at hp
    rcases hp with rfl | rfl | rfl
    · rintro ⟨_, _, c, _, hc, _⟩; cases hc
    · exact dealerValid_not_lacks (hg _ (by simp)).1
    · exact dealerValid_not_lacks (hg _ (by simp)).1
  have hf : ([q, p2, p3].filter (GoodDealer suite 2)) = [p2, p3] := by
    simp [List.filter_cons, hg p3 (by simp), hg p2 (by simp), hq]
  have hb := (C21_aborts_iff cipher_laws codec_laws true ⟨3, 2⟩ ht (5 : Fp) 1 [8, 9] [q, p2, p3] 0 rfl hl).1
  cases hs : bootstrap suite true ⟨3, 2⟩ 5 1 [8, 9] [q, p2, p3] 0 with
  | error f =>
    have := hb.mp ⟨f, hs⟩
    rw [hf] at this
    simp at this
  | ok v =>
    obtain ⟨d, L⟩ := v
    obtain ⟨e1, e2, _⟩ := C20_bootstrap_classifies cipher_laws codec_laws true _ _ _ _ _ _ d L hs
    refine ⟨[q, p2, p3], d, L, p3, hs, ?_, by rw [k3]; rfl, ?_⟩
    · rw [e1, hf]; simp
    · rw [e2, if_neg (fun hall => hq (hall q (by simp)))]; simp

/-- C45: the hypotheses of the partial theorem, for the (unjustified) complaint about an honest share. -/
example : ∃ e, HonestlyDealt suite 1 2 (101 : Fp) [10, 11] ((9 : Fp) • suite.gen) e := by
  obtain ⟨e, r, h, _⟩ := encryptShare_ok cipher_laws codec_laws
    (evaluatePolynomial (F := Fp) 1 2 [10, 11]) (suite.encG ((101 : Fp) • ((9 : Fp) • suite.gen))) 0
  exact ⟨e, 0, r, h⟩

/-- C37: applies to the toy state. -/
example := C37_finish_without_dealers suite toyR2 toyComms [] toy_holds (by simp [BMap.keys])

/-- C48: accepting transcripts for two challenges. -/
example : Spec.CpAccepts suite.gen ((3 : Fp) • suite.gen) ((4 : Fp) • suite.gen) ((3 : Fp) • (4 : Fp) • suite.gen)
    ((7 : Fp) • suite.gen) ((7 : Fp) • (4 : Fp) • suite.gen) (1 : Fp) (10 : Fp) ∧
    Spec.CpAccepts suite.gen ((3 : Fp) • suite.gen) ((4 : Fp) • suite.gen) ((3 : Fp) • (4 : Fp) • suite.gen)
    ((7 : Fp) • suite.gen) ((7 : Fp) • (4 : Fp) • suite.gen) (2 : Fp) (13 : Fp) := by
  refine ⟨⟨?_, ?_⟩, ?_, ?_⟩ <;>
  · simp only [smul_smul, ← add_smul]
    norm_num

end Examples

end IceFrost
