import Verif.Props.RoundTwo
import Verif.Props.Blame
import Verif.Model.Compare

/-!
# Delivery order, repeated records and shares, comparison operators, erasure

C89, C90, C91, C93, C94.
-/

set_option linter.unusedSectionVars false
set_option linter.unusedSimpArgs false

namespace IceFrost

attribute [local instance] Classical.propDecidable

variable {F G R : Type} [Field F] [DecidableEq F] [AddCommGroup G] [Module F G] [DecidableEq G]

/-! ### C89: round one -/

theorem map_ok_iff {α β : Type} (r : Res F G α) (f : α → β) : (∃ v, r.map f = .ok v) ↔ ∃ v, r = .ok v := by
  cases r with
  | error e => exact ⟨fun ⟨_, h⟩ => (nomatch h), fun ⟨_, h⟩ => (nomatch h)⟩
  | ok v => exact ⟨fun _ => ⟨v, rfl⟩, fun _ => ⟨_, rfl⟩⟩

theorem bootstrap_ok_iff {S : Suite F G R} (hc : S.CipherLaws) (hd : S.CodecLaws) (dbg : Bool) (params : Params)
    (x : F) (i : U32) (cs : List F) (ps : List (Participant F G)) (rng : R) :
    (∃ v, bootstrap S dbg params x i cs ps rng = .ok v) ↔ ps.length = params.n.toNat ∧ params.t ≠ 0 ∧
      (∀ p ∈ ps, ¬ Spec.LacksProof S p) ∧ params.t.toNat ≤ (ps.filter (GoodDealer S params.t)).length := by
  unfold bootstrap
  rw [map_ok_iff]
  by_cases hlen : ps.length = params.n.toNat
  · by_cases ht : params.t = 0
    · exact ⟨fun ⟨v, h⟩ => absurd h (newState_t_zero S dbg params ht x i _ ps _ _ rng v), fun h => absurd ht h.2.1⟩
    · by_cases hlp : ∀ p ∈ ps, ¬ Spec.LacksProof S p
      · obtain ⟨h1, h2⟩ := newState_deal dbg params x i hc hd cs true ps rng ht hlen (fun _ => hlp)
        rw [accepts_bootstrap] at h1 h2
        by_cases hv : (ps.filter (GoodDealer S params.t)).length < params.t.toNat
        · rw [h1 hv]
          exact ⟨fun ⟨v, h⟩ => (nomatch h), fun h => absurd h.2.2.2 (not_le.mpr hv)⟩
        · obtain ⟨m, rng', h3, _⟩ := h2 (not_lt.mp hv)
          exact ⟨fun _ => ⟨hlen, ht, hlp, not_lt.mp hv⟩, fun _ => ⟨_, h3⟩⟩
      · have hex : ∃ p ∈ ps, Spec.LacksProof S p := by
          by_contra hn
          exact hlp fun p hp hl => hn ⟨p, hp, hl⟩
        rw [newState_panic S dbg params x i _ ps _ rng hlen hex]
        exact ⟨fun ⟨v, h⟩ => (nomatch h), fun h => absurd h.2.2.1 hlp⟩
  · rw [newState_length S dbg params x i _ ps _ _ rng hlen]
    exact ⟨fun ⟨v, h⟩ => (nomatch h), fun h => absurd h.1 hlen⟩

theorem dkgNew_ok_iff {S : Suite F G R} (dbg : Bool) (params : Params)
    (x : F) (i : U32) (ps : List (Participant F G)) (rng : R) :
    (∃ v, dkgNew S dbg params x i ps rng = .ok v) ↔ ps.length = params.n.toNat ∧ params.t ≠ 0 ∧
      (∀ p ∈ ps, ¬ Spec.LacksProof S p) ∧ params.t.toNat ≤ (ps.filter (Accepts S params false true)).length := by
  unfold dkgNew
  rw [map_ok_iff]
  by_cases hlen : ps.length = params.n.toNat
  · by_cases ht : params.t = 0
    · exact ⟨fun ⟨v, h⟩ => absurd h (newState_t_zero S dbg params ht x i _ ps _ _ rng v), fun h => absurd ht h.2.1⟩
    · by_cases hlp : ∀ p ∈ ps, ¬ Spec.LacksProof S p
      · obtain ⟨h1, h2⟩ := newState_receive dbg params x i none ps rng ht hlen hlp
        by_cases hv : (ps.filter (Accepts S params false true)).length < params.t.toNat
        · rw [h1 hv]
          exact ⟨fun ⟨v, h⟩ => (nomatch h), fun h => absurd h.2.2.2 (not_le.mpr hv)⟩
        · exact ⟨fun _ => ⟨hlen, ht, hlp, not_lt.mp hv⟩, fun _ => ⟨_, h2 (not_lt.mp hv)⟩⟩
      · have hex : ∃ p ∈ ps, Spec.LacksProof S p := by
          by_contra hn
          exact hlp fun p hp hl => hn ⟨p, hp, hl⟩
        rw [newState_panic S dbg params x i _ ps _ rng hlen hex]
        exact ⟨fun ⟨v, h⟩ => (nomatch h), fun h => absurd h.2.2.1 hlp⟩
  · rw [newState_length S dbg params x i _ ps _ _ rng hlen]
    exact ⟨fun ⟨v, h⟩ => (nomatch h), fun h => absurd h.1 hlen⟩

/-- What a session knows about the others after round one (everything but the shares it deals, which are freshly
encrypted). -/
structure SameView (d d' : RoundOne F G) : Prop where
  parameters : d.state.parameters = d'.state.parameters
  commitments : d.state.theirCommitments = d'.state.theirCommitments
  dhKeys : d.state.theirDhPublicKeys = d'.state.theirDhPublicKeys
  index : d.state.index = d'.state.index
  dhPrivate : d.state.dhPrivateKey = d'.state.dhPrivateKey
  dhPublic : d.state.dhPublicKey = d'.state.dhPublicKey

theorem nodup_entries {ps : List (Participant F G)} (hn : (ps.map (·.index)).Nodup) :
    ((ps.filterMap fun p => p.commitments.map fun c => (p.index, c)).map Prod.fst).Nodup := by
  induction ps with
  | nil => simp
  | cons p ps ih =>
    rw [List.map_cons, List.nodup_cons] at hn
    rw [List.filterMap_cons]
    cases hc : p.commitments with
    | none => exact ih hn.2
    | some c =>
      simp only [Option.map_some, List.map_cons, List.nodup_cons]
      refine ⟨fun hm => hn.1 ?_, ih hn.2⟩
      obtain ⟨e, he, hi⟩ := List.mem_map.mp hm
      obtain ⟨q, hq, hqe⟩ := List.mem_filterMap.mp he
      refine List.mem_map.mpr ⟨q, hq, ?_⟩
      cases hqc : q.commitments with
      | none => rw [hqc] at hqe; cases hqe
      | some c' => rw [hqc] at hqe; cases hqe; exact hi

theorem view_of_perm {t : U32} {d d' : RoundOne F G} {v v' : List (Participant F G)} (hv : v.Perm v')
    (hn : (v.map (·.index)).Nodup)
    (h1 : d.state.parameters.n.toNat = v.length) (h1' : d'.state.parameters.n.toNat = v'.length)
    (h2 : d.state.parameters.t = t) (h2' : d'.state.parameters.t = t)
    (h3 : d.state.theirCommitments = some (BMap.ofList (v.filterMap fun p => p.commitments.map fun c => (p.index, c))))
    (h3' : d'.state.theirCommitments =
      some (BMap.ofList (v'.filterMap fun p => p.commitments.map fun c => (p.index, c))))
    (h4 : d.state.theirDhPublicKeys = BMap.ofList (v.map fun p => (p.index, p.dhPublicKey)))
    (h4' : d'.state.theirDhPublicKeys = BMap.ofList (v'.map fun p => (p.index, p.dhPublicKey))) :
    d.state.parameters = d'.state.parameters ∧ d.state.theirCommitments = d'.state.theirCommitments ∧
      d.state.theirDhPublicKeys = d'.state.theirDhPublicKeys := by
  refine ⟨?_, ?_, ?_⟩
  · have : d.state.parameters.n = d'.state.parameters.n := UInt32.toNat_inj.mp (by rw [h1, h1', hv.length_eq])
    cases h : d.state.parameters
    cases h' : d'.state.parameters
    rw [h, h'] at this
    rw [h] at h2
    rw [h'] at h2'
    simp only at this h2 h2'
    rw [this, h2, h2']
  · rw [h3, h3', BMap.ofList_congr (nodup_entries hn) (hv.filterMap _)]
  · rw [h4, h4', BMap.ofList_congr (by rw [List.map_map]; exact hn) (hv.map _)]

/-- C89 for `bootstrap`: if the records arrive in another order (and with other randomness), the call succeeds too,
with the same view of the others, the same valid participants and the same misbehaving ones. -/
theorem C89_bootstrap_order {S : Suite F G R} (hc : S.CipherLaws) (hd : S.CodecLaws) (dbg : Bool) (params : Params)
    (x : F) (i : U32) (cs : List F) (ps ps' : List (Participant F G)) (rng rng' : R) (hp : ps.Perm ps')
    (hn : (ps.map (·.index)).Nodup) (d : RoundOne F G) (L : ParticipantList F G)
    (h : bootstrap S dbg params x i cs ps rng = .ok (d, L)) :
    ∃ d' L', bootstrap S dbg params x i cs ps' rng' = .ok (d', L') ∧ SameView d d' ∧ L.valid.Perm L'.valid ∧
      (L.misbehaving.getD []).Perm (L'.misbehaving.getD []) := by
  obtain ⟨h1, h2, h3, h4⟩ := (bootstrap_ok_iff hc hd dbg params x i cs ps rng).mp ⟨_, h⟩
  obtain ⟨⟨d', L'⟩, h'⟩ := (bootstrap_ok_iff hc hd dbg params x i cs ps' rng').mpr
    ⟨by rw [← h1, hp.length_eq], h2, fun p hp' => h3 p (hp.mem_iff.mpr hp'),
      by rw [← (hp.filter _).length_eq]; exact h4⟩
  obtain ⟨a1, a2, a3, a4, a5, a6, a7, a8, a9⟩ := C20_bootstrap_classifies hc hd dbg _ _ _ _ _ _ d L h
  obtain ⟨b1, b2, b3, b4, b5, b6, b7, b8, b9⟩ := C20_bootstrap_classifies hc hd dbg _ _ _ _ _ _ d' L' h'
  have hv : L.valid.Perm L'.valid := by rw [a1, b1]; exact hp.filter _
  obtain ⟨k1, k2, k3⟩ := view_of_perm hv
    (by rw [a1]; exact hn.sublist (List.filter_sublist.map _)) a3 b3 a4 b4 a5 b5 a6 b6
  refine ⟨d', L', h', ⟨k1, k2, k3, by rw [a7, b7], by rw [a8, b8], by rw [a9, b9]⟩, hv, ?_⟩
  rw [a2, b2]
  have hall : (∀ p ∈ ps, GoodDealer S params.t p) ↔ ∀ p ∈ ps', GoodDealer S params.t p :=
    ⟨fun h p hp' => h p (hp.mem_iff.mpr hp'), fun h p hp' => h p (hp.mem_iff.mp hp')⟩
  by_cases hg : ∀ p ∈ ps, GoodDealer S params.t p
  · rw [if_pos hg, if_pos (hall.mp hg)]
  · rw [if_neg hg, if_neg (fun h => hg (hall.mpr h))]
    exact (hp.filter _).map _

/-- C89 for `new`. -/
theorem C89_new_order {S : Suite F G R} (dbg : Bool) (params : Params)
    (x : F) (i : U32) (ps ps' : List (Participant F G)) (rng rng' : R) (hp : ps.Perm ps')
    (hn : (ps.map (·.index)).Nodup) (d : RoundOne F G) (L : ParticipantList F G)
    (h : dkgNew S dbg params x i ps rng = .ok (d, L)) :
    ∃ d' L', dkgNew S dbg params x i ps' rng' = .ok (d', L') ∧ SameView d d' ∧ L.valid.Perm L'.valid ∧
      (L.misbehaving.getD []).Perm (L'.misbehaving.getD []) := by
  obtain ⟨h1, h2, h3, h4⟩ := (dkgNew_ok_iff dbg params x i ps rng).mp ⟨_, h⟩
  obtain ⟨⟨d', L'⟩, h'⟩ := (dkgNew_ok_iff dbg params x i ps' rng').mpr
    ⟨by rw [← h1, hp.length_eq], h2, fun p hp' => h3 p (hp.mem_iff.mpr hp'),
      by rw [← (hp.filter _).length_eq]; exact h4⟩
  obtain ⟨a1, a2, a3, a4, a5, a6, a7, a8, a9⟩ := C20_new_classifies dbg _ _ _ _ _ d L h
  obtain ⟨b1, b2, b3, b4, b5, b6, b7, b8, b9⟩ := C20_new_classifies dbg _ _ _ _ _ d' L' h'
  have hv : L.valid.Perm L'.valid := by rw [a1, b1]; exact hp.filter _
  obtain ⟨k1, k2, k3⟩ := view_of_perm hv
    (by rw [a1]; exact hn.sublist (List.filter_sublist.map _)) a3 b3 a4 b4 a5 b5 a6 b6
  refine ⟨d', L', h', ⟨k1, k2, k3, by rw [a7, b7], by rw [a8, b8], by rw [a9, b9]⟩, hv, ?_⟩
  rw [a2, b2]
  have hall : (∀ p ∈ ps, Spec.DealerValid S p) ↔ ∀ p ∈ ps', Spec.DealerValid S p :=
    ⟨fun h p hp' => h p (hp.mem_iff.mpr hp'), fun h p hp' => h p (hp.mem_iff.mp hp')⟩
  by_cases hg : ∀ p ∈ ps, Spec.DealerValid S p
  · rw [if_pos hg, if_pos (hall.mp hg)]
  · rw [if_neg hg, if_neg (fun h => hg (hall.mpr h))]
    exact (hp.filter _).map _

/-! ### C89: round two -/

theorem forall2_map_encShare {S : Suite F G R} {x : F} {dhs : BMap G} {cs : List (Complaint F G)} {l : List EncShare}
    (h : List.Forall₂ (IsComplaint S x dhs) cs l) : cs.map (·.encShare) = l := by
  induction h with
  | nil => rfl
  | cons h _ ih => rw [List.map_cons, ih, h.1]

theorem opened_sender {S : Suite F G R} {x : F} {dhs : BMap G} {e : EncShare} {k : U32} {s : SecretShare F}
    (h : opened S x dhs e = some (k, s)) : k = e.senderIndex := by
  obtain ⟨_, _, _, _, h, _⟩ := opened_eq_some.mp h
  exact h

theorem nodup_opened {S : Suite F G R} {x : F} {dhs : BMap G} {es : List EncShare}
    (hn : (es.map (·.senderIndex)).Nodup) : ((es.filterMap (opened S x dhs)).map Prod.fst).Nodup := by
  induction es with
  | nil => simp
  | cons e es ih =>
    rw [List.map_cons, List.nodup_cons] at hn
    rw [List.filterMap_cons]
    cases ho : opened S x dhs e with
    | none => exact ih hn.2
    | some v =>
      obtain ⟨k, s⟩ := v
      simp only [List.map_cons, List.nodup_cons]
      refine ⟨fun hm => hn.1 ?_, ih hn.2⟩
      obtain ⟨⟨k', s'⟩, hv, hi⟩ := List.mem_map.mp hm
      obtain ⟨e', he', hoe⟩ := List.mem_filterMap.mp hv
      simp only at hi
      refine List.mem_map.mpr ⟨e', he', ?_⟩
      rw [← opened_sender ho, ← opened_sender hoe, hi]

/-- C89 for `to_round_two`: shares of distinct dealers may arrive in any order (and with any randomness): the call
succeeds with the same state, and complains about the same shares. -/
theorem C89_round_two_order (S : Suite F G R) (dbg : Bool) (d : RoundOne F G) (comms : BMap (VssCommitment G))
    (hcomms : d.state.theirCommitments = some comms) (hn : comms.keys.Nodup) (es es' : List EncShare)
    (hp : es.Perm es') (hs : (es.map (·.senderIndex)).Nodup) (rng rng' : R) (d' : RoundTwo F G)
    (cs : List (Complaint F G)) (h : d.toRoundTwo S dbg es rng = .ok (d', cs)) :
    ∃ cs', d.toRoundTwo S dbg es' rng' = .ok (d', cs') ∧ (cs.map (·.encShare)).Perm (cs'.map (·.encShare)) := by
  obtain ⟨hlen, hk⟩ := toRoundTwo_inv S dbg d comms hcomms es rng (.inl ⟨_, h⟩)
  obtain ⟨c1, a1, a2⟩ := toRoundTwo_known S dbg d comms hcomms hn es hlen hk rng
  obtain ⟨c2, b1, b2⟩ := toRoundTwo_known S dbg d comms hcomms hn es' (by rw [← hp.length_eq]; exact hlen)
    (fun e he => hk e (hp.mem_iff.mpr he)) rng'
  have hst : roundTwoState S d.state es = roundTwoState S d.state es' := by
    unfold roundTwoState
    rw [BMap.ofList_congr (nodup_opened hs) (hp.filterMap _)]
  have hl : c1.length = c2.length := by rw [a1.length_eq, b1.length_eq, (hp.filter _).length_eq]
  have hperm : (c1.map (·.encShare)).Perm (c2.map (·.encShare)) := by
    rw [forall2_map_encShare a1, forall2_map_encShare b1]
    exact hp.filter _
  rw [b2, ← hl, ← hst]
  rw [a2] at h
  cases hu : (u32Sub dbg d.state.parameters.n (UInt32.ofNat c1.length) : Res F G U32) with
  | error f => rw [hu] at h; cases h
  | ok r =>
    rw [hu] at h
    simp only [] at h ⊢
    by_cases hr : r < d.state.parameters.t
    · rw [if_pos hr] at h; cases h
    · rw [if_neg hr] at h ⊢
      simp only [Except.ok.injEq, Prod.mk.injEq] at h
      obtain ⟨rfl, rfl⟩ := h
      exact ⟨c2, rfl, hperm⟩

/-! ### C90 -/

/-- C90, what is true: when the accepted records have distinct indices, the commitments and DH key on file for an
index are those of the accepted participant with that index, in `bootstrap` and in `new`.

Missing for the full C90: nothing rejects records with equal indices; see the next theorem. -/
theorem C90_on_file_partial {S : Suite F G R} (hc : S.CipherLaws) (hd : S.CodecLaws) (dbg : Bool) (params : Params)
    (x : F) (i : U32) (cs : List F) (ps : List (Participant F G)) (rng : R) (d : RoundOne F G)
    (L : ParticipantList F G)
    (h : bootstrap S dbg params x i cs ps rng = .ok (d, L) ∨ dkgNew S dbg params x i ps rng = .ok (d, L))
    (hn : (L.valid.map (·.index)).Nodup) :
    ∃ comms, d.state.theirCommitments = some comms ∧
      (∀ k c, comms.get? k = some c ↔ ∃ p ∈ L.valid, p.index = k ∧ p.commitments = some c) ∧
      ∀ k y, d.state.theirDhPublicKeys.get? k = some y ↔ ∃ p ∈ L.valid, p.index = k ∧ p.dhPublicKey = y := by
  have key : d.state.theirCommitments =
        some (BMap.ofList (L.valid.filterMap fun p => p.commitments.map fun c => (p.index, c))) ∧
      d.state.theirDhPublicKeys = BMap.ofList (L.valid.map fun p => (p.index, p.dhPublicKey)) := by
    rcases h with h | h
    · obtain ⟨_, _, _, _, h5, h6, _⟩ := C20_bootstrap_classifies hc hd dbg _ _ _ _ _ _ d L h
      exact ⟨h5, h6⟩
    · obtain ⟨_, _, _, _, h5, h6, _⟩ := C20_new_classifies dbg _ _ _ _ _ d L h
      exact ⟨h5, h6⟩
  refine ⟨_, key.1, fun k c => ?_, fun k y => ?_⟩
  · rw [BMap.get?_ofList (nodup_entries hn), List.mem_filterMap]
    constructor
    · rintro ⟨p, hp, he⟩
      cases hpc : p.commitments with
      | none => rw [hpc] at he; cases he
      | some c' => rw [hpc] at he; cases he; exact ⟨p, hp, rfl, hpc⟩
    · rintro ⟨p, hp, rfl, hpc⟩
      exact ⟨p, hp, by rw [hpc]; rfl⟩
  · rw [key.2, BMap.get?_ofList (by rw [List.map_map]; exact hn), List.mem_map]
    constructor
    · rintro ⟨p, hp, he⟩
      cases he; exact ⟨p, hp, rfl, rfl⟩
    · rintro ⟨p, hp, rfl, rfl⟩
      exact ⟨p, hp, rfl⟩

/-- C90, negation: two dealer records `p`, `q` with valid proofs and the *same* index are both accepted, and counted
as two participants, but only the later one's commitments and DH key are kept. So a session with `n = t = 2` runs
with a single dealer, and whoever can append a record replaces another participant's. -/
theorem C90_duplicate_accepted {S : Suite F G R} (hc : S.CipherLaws) (hd : S.CodecLaws) (dbg : Bool)
    (x : F) (i : U32) (cs : List F) (p q : Participant F G) (hp : GoodDealer S 2 p) (hq : GoodDealer S 2 q)
    (hpq : p.index = q.index) (rng : R) :
    ∃ d L c, bootstrap S dbg ⟨2, 2⟩ x i cs [p, q] rng = .ok (d, L) ∧ L.valid = [p, q] ∧ L.misbehaving = none ∧
      d.state.parameters = ⟨2, 2⟩ ∧ q.commitments = some c ∧ d.state.theirCommitments = some [(q.index, c)] ∧
      d.state.theirDhPublicKeys = [(q.index, q.dhPublicKey)] := by
  have hf : [p, q].filter (GoodDealer S 2) = [p, q] := by simp [List.filter_cons, hp, hq]
  obtain ⟨⟨d, L⟩, h⟩ := (bootstrap_ok_iff hc hd dbg ⟨2, 2⟩ x i cs [p, q] rng).mpr
    ⟨rfl, (by simp : (2 : U32) ≠ 0), fun r hr => by
      simp only [List.mem_cons, List.not_mem_nil, or_false] at hr
      rcases hr with rfl | rfl
      · exact dealerValid_not_lacks hp.1
      · exact dealerValid_not_lacks hq.1, by show 2 ≤ _; rw [hf]; exact le_rfl⟩
  obtain ⟨a1, a2, a3, a4, a5, a6, _⟩ := C20_bootstrap_classifies hc hd dbg _ _ _ _ _ _ d L h
  have a1 : L.valid = [p, q] := a1.trans hf
  obtain ⟨_, cp, _, _, hcp, _⟩ := hp.1
  obtain ⟨_, c, _, _, hcq, _⟩ := hq.1
  refine ⟨d, L, c, h, a1, ?_, ?_, hcq, ?_, ?_⟩
  · rw [a2, if_pos]
    intro r hr
    simp only [List.mem_cons, List.not_mem_nil, or_false] at hr
    rcases hr with rfl | rfl
    · exact hp
    · exact hq
  · rw [a1] at a3
    have h2 : d.state.parameters.n = 2 := UInt32.toNat_inj.mp a3
    have h3 : d.state.parameters.t = 2 := a4
    cases hpar : d.state.parameters
    rw [hpar] at h2 h3
    simp only at h2 h3
    rw [h2, h3]
  · rw [a5, a1]
    simp [hcp, hcq, hpq, BMap.ofList, BMap.insert]
  · rw [a6, a1]
    simp [hpq, BMap.ofList, BMap.insert]

/-! ### C93 -/

/-- C93, what is true: with distinct senders, a successful `to_round_two` has received shares from at least `t`
dealers whose records were accepted.

Missing for the full C93: only the length of the share list is checked; see the next theorem. -/
theorem C93_distinct_dealers_partial (S : Suite F G R) (dbg : Bool) (d : RoundOne F G)
    (comms : BMap (VssCommitment G)) (hcomms : d.state.theirCommitments = some comms) (es : List EncShare)
    (hs : (es.map (·.senderIndex)).Nodup) (rng : R) (v) (h : d.toRoundTwo S dbg es rng = .ok v) :
    ∃ D : Finset U32, d.state.parameters.t.toNat ≤ D.card ∧ ∀ l ∈ D, (∃ e ∈ es, e.senderIndex = l) ∧
      ∃ pk, d.state.theirDhPublicKeys.get? l = some pk := by
  obtain ⟨hlen, hk⟩ := toRoundTwo_inv S dbg d comms hcomms es rng (.inl ⟨_, h⟩)
  refine ⟨(es.map (·.senderIndex)).toFinset, ?_, fun l hl => ?_⟩
  · rw [List.toFinset_card_of_nodup hs, List.length_map]
    exact hlen
  · obtain ⟨e, he, rfl⟩ := List.mem_map.mp (List.mem_toFinset.mp hl)
    exact ⟨⟨e, he, rfl⟩, BMap.exists_get? (hk e he).2⟩

/-- C93, negation: `t` copies of a single good share pass, without complaint, whatever the threshold: the state then
holds the share of one dealer only. -/
theorem C93_copies_accepted (S : Suite F G R) (dbg : Bool) (d : RoundOne F G) (comms : BMap (VssCommitment G))
    (hcomms : d.state.theirCommitments = some comms) (hn : comms.keys.Nodup)
    (htn : d.state.parameters.t.toNat ≤ d.state.parameters.n.toNat) (ht : d.state.parameters.t ≠ 0) (e : EncShare)
    (pk : G) (c : VssCommitment G) (hpk : d.state.theirDhPublicKeys.get? e.senderIndex = some pk)
    (hc : comms.get? e.senderIndex = some c) (he : e.receiverIndex = d.state.index)
    (hgood : Spec.GoodShare S (d.state.dhPrivateKey • pk) c.points e) (rng : R) :
    ∃ d' s, d.toRoundTwo S dbg (List.replicate d.state.parameters.t.toNat e) rng = .ok (d', []) ∧
      d'.state.mySecretShares = some [(e.senderIndex, s)] := by
  have hbad : (List.replicate d.state.parameters.t.toNat e).filter
      (BadFor S d.state.dhPrivateKey d.state.theirDhPublicKeys comms) = [] := by
    refine List.filter_eq_nil_iff.mpr fun e' he' => ?_
    rw [List.eq_of_mem_replicate he']
    simp only [decide_eq_true_eq]
    rintro ⟨pk', c', h1, h2, h3⟩
    rw [hpk] at h1; cases h1
    rw [hc] at h2; cases h2
    exact h3 hgood
  obtain ⟨cs, h1, h2⟩ := toRoundTwo_le S dbg d comms hcomms hn (List.replicate d.state.parameters.t.toNat e)
    (by simp) (fun e' he' => by
      rw [List.eq_of_mem_replicate he']
      exact ⟨fun _ => he, BMap.mem_keys_of_get? hpk⟩) rng (by rw [hbad]; simp)
  rw [hbad] at h1
  cases h1
  obtain ⟨v, hv, _⟩ := hgood
  have ho : opened S d.state.dhPrivateKey d.state.theirDhPublicKeys e =
      some (e.senderIndex, ⟨e.senderIndex, e.receiverIndex, v⟩) :=
    opened_eq_some.mpr ⟨pk, v, hpk, hv, rfl, rfl⟩
  refine ⟨_, ⟨e.senderIndex, e.receiverIndex, v⟩, h2.trans (if_neg (by simpa using htn)), ?_⟩
  show some (BMap.ofList _) = _
  obtain ⟨k, hk⟩ := Nat.exists_eq_succ_of_ne_zero
    (fun h => ht (UInt32.toNat_inj.mp (by simpa using h)) : d.state.parameters.t.toNat ≠ 0)
  rw [hk]
  have hrep : ∀ k, BMap.ofList (List.filterMap (opened S d.state.dhPrivateKey d.state.theirDhPublicKeys)
      (List.replicate (k + 1) e)) = [(e.senderIndex, ⟨e.senderIndex, e.receiverIndex, v⟩)] := by
    intro k
    induction k with
    | zero => simp [ho, BMap.ofList, BMap.insert]
    | succ k ih =>
      rw [List.replicate_succ', List.filterMap_append]
      unfold BMap.ofList at ih ⊢
      rw [List.foldl_append, ih]
      simp [ho, BMap.insert]
  rw [hrep k]

/-! ### C91 -/

theorem u32Cmp_eq (a b : U32) : u32Cmp a b = compare a.toNat b.toNat := by
  unfold u32Cmp
  simp only [UInt32.lt_iff_toNat_lt, ← UInt32.toNat_inj]
  rcases lt_trichotomy a.toNat b.toNat with h | h | h
  · rw [if_pos h, compare_lt_iff_lt.mpr h]
  · rw [if_neg (by omega), if_pos h, compare_eq_iff_eq.mpr h]
  · rw [if_neg (by omega), if_neg (by omega), compare_gt_iff_gt.mpr h]

theorem signerCmp_eq (s s' : Signer G) :
    s.cmp s' = compare s.participantIndex.toNat s'.participantIndex.toNat := by
  unfold Signer.cmp
  rw [u32Cmp_eq]
  cases compare s.participantIndex.toNat s'.participantIndex.toNat <;> rfl

/-- C91 for `Signer`: `cmp` is the comparison of the indices — antisymmetric, transitive, total — `partial_cmp`
agrees with it, and `Equal` means `==`. -/
theorem C91_signer_order (a b c : Signer G) :
    (a.cmp b = .eq ↔ a.eq b = true) ∧ a.partialCmp b = some (a.cmp b) ∧ (a.cmp b = .lt ↔ b.cmp a = .gt) ∧
      (a.cmp b = .lt → b.cmp c = .lt → a.cmp c = .lt) ∧ (a.cmp b = .eq → a.cmp c = b.cmp c) ∧
      (a.cmp b = .lt ↔ a.participantIndex.toNat < b.participantIndex.toNat) := by
  simp only [signerCmp_eq, Signer.partialCmp, Signer.eq, beq_iff_eq, compare_eq_iff_eq, compare_lt_iff_lt,
    compare_gt_iff_gt, UInt32.toNat_inj, true_and, and_true]
  exact ⟨fun h h' => lt_trans h h', fun h => by rw [h]⟩

/-- C91: the equalities that decide on secrets and shares are equality of all components. -/
theorem C91_fieldwise_eq (c c' : CommitmentShare F G) (e e' : EncShare) :
    (c.eq c' = true ↔ c = c') ∧ (e.eq e' = true ↔ e = e') := by
  constructor
  · obtain ⟨⟨a, A⟩, ⟨b, B⟩⟩ := c
    obtain ⟨⟨a', A'⟩, ⟨b', B'⟩⟩ := c'
    simp [CommitmentShare.eq, Commitment.eq]
  · obtain ⟨a, b, n, ct⟩ := e
    obtain ⟨a', b', n', ct'⟩ := e'
    simp [EncShare.eq, and_assoc]

/-- C91 for `Participant`, what is true: `partial_cmp` is the strict order of the indices; it is transitive and never
says `Equal`.

Missing for the full C91: the contract of `PartialOrd`, `a == b` exactly when `partial_cmp` is `Some(Equal)`; see the
next theorem. -/
theorem C91_participant_order_partial (a b c : Participant F G) :
    (a.partialCmp b = some .lt ↔ a.index.toNat < b.index.toNat) ∧
      (a.partialCmp b = some .gt ↔ b.index.toNat < a.index.toNat) ∧ (a.partialCmp b = none ↔ a.eq b = true) ∧
      (a.partialCmp b = some .lt → b.partialCmp c = some .lt → a.partialCmp c = some .lt) := by
  have h : ∀ a b : Participant F G, a.partialCmp b = some .lt ↔ a.index.toNat < b.index.toNat := by
    intro a b
    unfold Participant.partialCmp
    rw [u32Cmp_eq, ← compare_lt_iff_lt]
    cases compare a.index.toNat b.index.toNat <;> simp
  refine ⟨h a b, ?_, ?_, ?_⟩
  · unfold Participant.partialCmp
    rw [u32Cmp_eq, ← compare_gt_iff_gt]
    cases compare a.index.toNat b.index.toNat <;> simp
  · unfold Participant.partialCmp Participant.eq
    rw [u32Cmp_eq, beq_iff_eq, ← UInt32.toNat_inj, ← compare_eq_iff_eq (a := a.index.toNat)]
    cases compare a.index.toNat b.index.toNat <;> simp
  · rw [h, h, h]
    exact lt_trans

/-- C91, negation: a participant equals itself (`==`) but is incomparable to itself, against the contract of
`PartialOrd`. -/
theorem C91_participant_incomparable (p : Participant F G) : p.eq p = true ∧ p.partialCmp p ≠ some .eq := by
  constructor
  · simp [Participant.eq]
  · unfold Participant.partialCmp
    rw [u32Cmp_eq, compare_eq_iff_eq.mpr rfl]
    simp

/-! ### C94 -/

/-- C94: what `Drop` leaves behind does not depend on the secrets. -/
theorem C94_erased (c c' : CommitmentShare F G) (s s' : SecretShare F) (k k' : IndividualSigningKey F)
    (cs cs' : List F) (hlen : cs.length = cs'.length) :
    c.zeroize = c'.zeroize ∧ s.zeroize = s'.zeroize ∧ k.zeroize = k'.zeroize ∧
      dropCoefficients cs = dropCoefficients cs' :=
  ⟨rfl, rfl, rfl, by simp [dropCoefficients, List.map_const', hlen]⟩

theorem signingKeyLoop_zero (l : List U32) (es : List (U32 × SecretShare F)) (key : F) :
    ∀ r es', signingKeyLoop (G := G) l es key = (.ok r, es') →
      es' = es.map fun e => (e.1, e.2.zeroize) := by
  induction es generalizing key with
  | nil =>
    intro r es' h
    unfold signingKeyLoop at h
    simp only [Prod.mk.injEq] at h
    rw [← h.2]; rfl
  | cons e es ih =>
    obtain ⟨k, s⟩ := e
    intro r es' h
    unfold signingKeyLoop at h
    split at h
    · cases h
    · next co _ =>
      cases hr : signingKeyLoop (G := G) l es (key + s.eval * co) with
      | mk r' rest' =>
        rw [hr] at h
        simp only [Prod.mk.injEq] at h
        rw [← h.2, List.map_cons, ih _ r rest' (by rw [hr, h.1])]
        rfl

/-- C94: a successful `calculate_signing_key` has overwritten every received share. -/
theorem C94_shares_consumed (d d' : RoundTwo F G) (sk : IndividualSigningKey F)
    (h : d.calculateSigningKey = (.ok sk, d')) (m' : BMap (SecretShare F))
    (hm : d'.state.mySecretShares = some m') : ∀ k s, m'.get? k = some s → s = ⟨0, 0, 0⟩ := by
  unfold RoundTwo.calculateSigningKey at h
  cases hs : d.state.mySecretShares with
  | none => rw [hs] at h; cases h
  | some m =>
    rw [hs] at h
    simp only [] at h
    cases hr : signingKeyLoop (G := G) m.keys m 0 with
    | mk r es' =>
      rw [hr] at h
      simp only [Prod.mk.injEq] at h
      obtain ⟨h1, rfl⟩ := h
      simp only [Option.some.injEq] at hm
      subst hm
      cases r with
      | error f => cases h1
      | ok key =>
        have := signingKeyLoop_zero m.keys m 0 key es' hr
        subst this
        intro k s hk
        have := BMap.mem_of_get? hk
        obtain ⟨e, _, he⟩ := List.mem_map.mp this
        cases he
        rfl

/-! ### Concrete cases -/

section Examples
open Toy

/-- C89 (`bootstrap`): three honest dealers, delivered in the order 3, 1, 2. -/
example : ∃ p1 p2 p3 d d' L L', bootstrap suite true ⟨3, 2⟩ (5 : Fp) 1 [8, 9] [p1, p2, p3] 0 = .ok (d, L) ∧
    bootstrap suite true ⟨3, 2⟩ (5 : Fp) 1 [8, 9] [p3, p1, p2] 4 = .ok (d', L') ∧ SameView d d' := by
  obtain ⟨p1, p2, p3, k1, k2, k3, h⟩ := toy_dealers
  have ht : (2 : U32) ≠ 0 := by simp
  have hg : ∀ p ∈ [p1, p2, p3], GoodDealer suite 2 p := fun p hp => by
    obtain ⟨i, rng, cs, dh, h⟩ := h p hp
    exact (newDealer_good (params := ⟨3, 2⟩) ht h).2.2.2.2.2
  have hf : [p1, p2, p3].filter (GoodDealer suite 2) = [p1, p2, p3] :=
    List.filter_eq_self.mpr fun p hp => by simpa using hg p hp
  obtain ⟨⟨d, L⟩, hb⟩ := (bootstrap_ok_iff cipher_laws codec_laws true ⟨3, 2⟩ (5 : Fp) 1 [8, 9] [p1, p2, p3] 0).mpr
    ⟨rfl, ht, fun p hp => dealerValid_not_lacks (hg p hp).1, by rw [hf]; show 2 ≤ 3; omega⟩
  obtain ⟨d', L', h1, h2, _⟩ := C89_bootstrap_order cipher_laws codec_laws true ⟨3, 2⟩ (5 : Fp) 1 [8, 9] [p1, p2, p3]
    [p3, p1, p2] 0 4 (List.perm_append_comm (l₁ := [p1, p2]) (l₂ := [p3])) (by simp [k1, k2, k3]) d L hb
  exact ⟨p1, p2, p3, d, d', L, L', hb, h1, h2⟩

/-- C90: a dealer and an impostor, both with index 1. -/
example : ∃ (p q : Participant Fp Fp) (d : RoundOne Fp Fp) (L : ParticipantList Fp Fp), p ≠ q ∧
    bootstrap suite true ⟨2, 2⟩ 5 2 [8, 9] [p, q] 0 = .ok (d, L) ∧ L.valid = [p, q] := by
  have ht : (2 : U32) ≠ 0 := by simp
  have h1 : (1 : U32) ≠ 0 := by simp
  obtain ⟨p, cs, dh, hp⟩ : ∃ p cs dh, newDealer suite ⟨2, 2⟩ 1 3 = .ok (p, cs, dh) := by
    obtain ⟨p, cs, dh, hp, _⟩ := C22_attack suite ⟨2, 2⟩ ht 1 h1 3
    exact ⟨p, cs, dh, hp⟩
  have gp := (newDealer_good (params := ⟨2, 2⟩) ht hp)
  obtain ⟨q, hq, gq, hne⟩ : ∃ q : Participant Fp Fp, q.index = 1 ∧ GoodDealer suite 2 q ∧ q ≠ p := by
    let q : Fp → Participant Fp Fp := fun y => ⟨1, y • suite.gen, some ⟨1, commitPoints suite [7, 8]⟩,
      some (nizkProve suite 1 (7 : Fp) ((7 : Fp) • suite.gen) 0).1, (nizkProve suite 1 y (y • suite.gen) 0).1⟩
    have good : ∀ y, GoodDealer suite 2 (q y) := fun y => by
      refine ⟨⟨nizkProve_valid suite 1 y 0, _, (7 : Fp) • suite.gen, _, rfl, rfl, rfl, nizkProve_valid suite 1 7 0⟩, ?_⟩
      intro c hc
      cases hc
      rfl
    by_cases he : q 0 = p
    · refine ⟨q 1, rfl, good 1, fun h => ?_⟩
      have := congrArg Participant.dhPublicKey (he.trans h.symm)
      have h' : (0 : Fp) • suite.gen = (1 : Fp) • suite.gen := this
      exact zero_ne_one (group_laws.gen_inj _ _ h')
    · exact ⟨q 0, rfl, good 0, he⟩
  obtain ⟨d, L, c, h, hv, _⟩ := C90_duplicate_accepted cipher_laws codec_laws true (5 : Fp) 2 [8, 9] p q
    gp.2.2.2.2.2 gq (by rw [hq]; exact gp.2.1) 0
  exact ⟨p, q, d, L, hne.symm, h, hv⟩

/-- C93: two copies of the share of dealer 1 where the threshold is 2. C89 (`to_round_two`) applies to the shares of
C27. -/
example : ∃ e d' s, toyR1.toRoundTwo suite true [e, e] 0 = .ok (d', []) ∧
    d'.state.mySecretShares = some [(1, s)] := by
  obtain ⟨e, r, h, k1, k2, _⟩ := encryptShare_ok cipher_laws codec_laws
    (evaluatePolynomial (F := Fp) 1 3 [10, 11]) (suite.encG ((101 : Fp) • ((5 : Fp) • suite.gen))) 0
  obtain ⟨_, _, hop⟩ := honestlyDealt_opens cipher_laws codec_laws (l := 1) (i := 3) (xl := (101 : Fp)) (cs := [10, 11])
    (pk := (5 : Fp) • suite.gen) ⟨0, r, h⟩
  have k1 : e.senderIndex = 1 := k1
  have k2 : e.receiverIndex = 3 := k2
  rw [smul_comm] at hop
  obtain ⟨d', s, h1, h2⟩ := C93_copies_accepted suite true toyR1 toyComms rfl toy_holds.wfc.nodup le_rfl
    (by simp [toyR1]) e ((101 : Fp) • suite.gen) ⟨1, commitPoints suite [10, 11]⟩
    (by rw [k1]; simp [toyR1, BMap.get?]) (by rw [k1]; simp [toyComms, BMap.get?, commitPoints]) k2
    ⟨_, hop, by rw [k2]; exact (pointEval_commitPoints suite _ _).symm⟩ 0
  exact ⟨e, d', s, h1, by rw [h2, k1]⟩

/-- C91: two signers with different commitments compare equal, as intended; two participants do not compare. -/
example : (⟨3, 1, 2⟩ : Signer Fp).cmp ⟨3, 5, 6⟩ = .eq ∧ (⟨3, 1, 2⟩ : Signer Fp).cmp ⟨4, 1, 2⟩ = .lt := by
  constructor <;> simp [Signer.cmp, u32Cmp]

end Examples

end IceFrost
