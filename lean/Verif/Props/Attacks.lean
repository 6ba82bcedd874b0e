import Verif.Props.Unblamed
import Verif.Props.Wire
import Verif.Props.Secrecy
import Verif.Props.Robust
import Verif.Props.Sessions

/-! # C104, C105, C106, C110, C112: what dishonest participants can still do -/

set_option linter.unusedSectionVars false
set_option linter.unusedSimpArgs false

namespace IceFrost

open Finset

variable {F G R : Type} [Field F] [DecidableEq F] [AddCommGroup G] [Module F G] [DecidableEq G]

/-! ### C104 -/

/-- C104, negation: nothing in the protocol compares the records that different participants received. Everybody but
dealer `l` is honest (one record each: the same randomness `r1` for both values of the view); dealer `l` makes two
records, sends the one for view `V i` to participant `i`, runs `bootstrap` once per view and sends participant `i` the
share of the session of its view. Then every other participant gets through `bootstrap` with all records valid, through
`to_round_two` without a complaint and finishes, with the group key of its own view. The two group keys differ if (and
only if) the two constant coefficients of `l` differ. -/
theorem C104_equivocation {S : Suite F G R} (hS : S.Lawful) (dbg : Bool) (params : Params) (ht : params.t ≠ 0)
    (htn : params.t.toNat ≤ params.n.toNat) (idx : List U32) (hidx : idx.Nodup) (h0 : 0 ∉ idx)
    (hlen : idx.length = params.n.toNat) (l : U32) (hl : l ∈ idx) (V : U32 → Bool)
    (r1 : Bool → U32 → R) (hr1 : ∀ i, i ≠ l → r1 true i = r1 false i) (r2 : Bool → U32 → R) (r3 : U32 → R) :
    ∃ (P : Bool → U32 → Participant F G) (cs : Bool → U32 → List F) (x : Bool → U32 → F),
      (∀ b, ∀ i ∈ idx, newDealer S params i (r1 b i) = .ok (P b i, cs b i, x b i)) ∧
      (∀ i ∈ idx, i ≠ l → P true i = P false i ∧ cs true i = cs false i ∧ x true i = x false i) ∧
    ∃ d1 : Bool → U32 → RoundOne F G,
      (∀ b, ∀ i ∈ idx, bootstrap S dbg params (x b i) i (cs b i) (idx.map (P b)) (r2 b i) =
        .ok (d1 b i, ⟨idx.map (P b), none⟩)) ∧
    ∃ E : U32 → U32 → EncShare,
      (∀ k ∈ idx, ∀ i ∈ idx, i ≠ l → ∃ m, (d1 (if k = l then V i else V k) k).theirEncryptedSecretShares = .ok m ∧
        m.get? i = some (E k i)) ∧
    ∃ d2 : U32 → RoundTwo F G,
      (∀ i ∈ idx, i ≠ l → (d1 (V i) i).toRoundTwo S dbg (idx.map fun k => E k i) (r3 i) = .ok (d2 i, [])) ∧
    ∃ (s : Bool → F) (key : U32 → F),
      (∀ b, s b = Spec.interpolate idx (fun k => (cs b k).headD 0)) ∧
      (∀ i ∈ idx, i ≠ l → (d2 i).finish = .ok (s (V i) • S.gen, ⟨i, key i⟩)) ∧
      (s true • S.gen = s false • S.gen ↔ (cs true l).headD 0 = (cs false l).headD 0) := by
  have hne : ∀ i ∈ idx, i ≠ 0 := fun i hi h => h0 (h ▸ hi)
  have hdeal : ∀ b, ∀ i ∈ idx, ∃ p cs x, newDealer S params i (r1 b i) = .ok (p, cs, x) := fun b i hi => by
    obtain ⟨p, cs, x, h, _⟩ := C16_new_dealer S params ht i (hne i hi) (r1 b i)
    exact ⟨p, cs, x, h⟩
  choose! P cs x hP using hdeal
  have hPg := fun b i hi => newDealer_good ht (hP b i hi)
  have hsame : ∀ i ∈ idx, i ≠ l → P true i = P false i ∧ cs true i = cs false i ∧ x true i = x false i := by
    intro i hi hil
    have h1 := hP true i hi
    rw [hr1 i hil, hP false i hi] at h1
    simp only [Except.ok.injEq, Prod.mk.injEq] at h1
    exact ⟨h1.1.symm, h1.2.1.symm, h1.2.2.symm⟩
  have hany : ∀ b b' : Bool, ∀ i ∈ idx, i ≠ l → P b i = P b' i ∧ cs b i = cs b' i ∧ x b i = x b' i := by
    intro b b' i hi hil
    obtain ⟨h1, h2, h3⟩ := hsame i hi hil
    cases b <;> cases b' <;> simp [h1, h2, h3]
  have hboot : ∀ b, ∀ i ∈ idx, ∃ m, bootstrap S dbg params (x b i) i (cs b i) (idx.map (P b)) (r2 b i) =
        .ok (⟨roundOneState S params (x b i) i true (idx.map (P b)) (some m)⟩, ⟨idx.map (P b), none⟩) ∧
      m.WF ∧ (∀ j, j ∈ m.keys ↔ ∃ p ∈ idx.map (P b), p.index = j) ∧
      (∀ j e, m.get? j = some e → ∃ p ∈ idx.map (P b), p.index = j ∧ DealtTo S (x b i) i (cs b i) p e) := by
    intro b i hi
    refine bootstrap_honest hS.cipher hS.codec dbg params ht htn _ ?_ ?_ (x b i) i (cs b i) (r2 b i)
    · rw [List.length_map, hlen]
    · intro p hp
      obtain ⟨k, hk, rfl⟩ := List.mem_map.mp hp
      exact (hPg b k hk).2.2.2.2.2
  choose! m hm1 hm2 hm3 hm4 using hboot
  have hE : ∀ k ∈ idx, ∀ i ∈ idx, ∃ e, (m (if k = l then V i else V k) k).get? i = some e ∧ e.senderIndex = k ∧
      e.receiverIndex = i ∧ Spec.Opens S e (x (if k = l then V i else V k) k •
        (P (if k = l then V i else V k) i).dhPublicKey)
        (Spec.polyEval (cs (if k = l then V i else V k) k) (u32F F i)) := by
    intro k hk i hi
    exact dealt_get (fun j hj => (hPg _ j hj).2.1) (hm3 _ k hk) (hm4 _ k hk) i hi
  choose! E hE1 hE2 hE3 hE4 using hE
  have hn : idx.length < 2 ^ 32 := by rw [hlen]; exact params.n.toNat_lt
  have hR : ∀ i ∈ idx, i ≠ l → ∃ d2 m', RoundOne.toRoundTwo S dbg
      ⟨roundOneState S params (x (V i) i) i true (idx.map (P (V i))) (some (m (V i) i))⟩ (idx.map fun k => E k i)
        (r3 i) = .ok (d2, []) ∧ d2.state.index = i ∧ HoldsVerified S d2 (dealerMap S idx (cs (V i))) m' := by
    intro i hi hil
    refine receive_phase dbg idx hidx (P (V i)) (cs (V i)) (fun k => x (V i) k • S.gen) (fun k hk => ?_) params hn
      (by omega) (x (V i) i) i _ idx idx (List.Perm.refl _) (List.Perm.refl _) (fun k => E k i)
      (fun k hk => ⟨hE2 k hk i hi, hE3 k hk i hi, ?_⟩) (r3 i)
    · obtain ⟨_, k1, _, k2, k3, _⟩ := hPg (V i) k hk
      exact ⟨k1, k2, k3⟩
    · have h1 := hE4 k hk i hi
      rw [(hany _ (V i) i hi hil).1, (hPg (V i) i hi).2.2.2.2.1] at h1
      by_cases hkl : k = l
      · rw [if_pos hkl, smul_comm] at h1
        exact h1
      · rw [(hany _ (V i) k hk hkl).2.1, (hany _ (V i) k hk hkl).2.2, smul_comm] at h1
        exact h1
  choose! d2 m' hd1 hd2 hd3 using hR
  have hcs : ∀ b, ∀ k ∈ idx, cs b k ≠ [] := by
    intro b k hk h
    have := (hPg b k hk).2.2.1
    rw [h] at this
    exact ht (UInt32.toNat_inj.mp (by simpa using this.symm))
  have hf := fun i hi hil =>
    finish_phase hS.group hS.u32 idx hidx h0 (cs (V i)) (hcs (V i)) (d2 i) (m' i) (hd3 i hi hil)
  refine ⟨P, cs, x, hP, hsame, fun b i => ⟨roundOneState S params (x b i) i true (idx.map (P b)) (some (m b i))⟩, hm1,
    E, fun k hk i hi _ => ⟨_, rfl, hE1 k hk i hi⟩, d2, hd1, fun b => Spec.interpolate idx (fun k => (cs b k).headD 0),
    fun i => ∑ k ∈ idx.toFinset, Spec.lagrange idx k * Spec.polyEval (cs (V i) k) (u32F F i), fun _ => rfl,
    fun i hi hil => ?_, ?_⟩
  · rw [hf i hi hil, hd2 i hi hil]
  · have hup := interpolate_update hl (fun k => (cs false k).headD 0) (fun k => (cs true k).headD 0)
      ((cs true l).headD 0 - (cs false l).headD 0) (fun k hk hkl => by simp only [(hsame k hk hkl).2.1]) (by ring)
    constructor
    · intro h
      have h1 := hS.group.gen_inj _ _ h
      simp only [hup] at h1
      have h2 := add_eq_left.mp h1
      rcases mul_eq_zero.mp h2 with h3 | h3
      · exact absurd h3 (lagrange_ne_zero hS.u32 idx h0 l)
      · exact sub_eq_zero.mp h3
    · intro h
      rw [h, sub_self, mul_zero, add_zero] at hup
      simp only [hup]

/-- C104 for participants that were given the same records, in any order (the broadcast channel that the protocol
presupposes), and process complaints with the same members in any order: if both finish, the group keys are the same.
The dealers and the shares are arbitrary.

Missing for the full C104: participants given different records, for which it is false (above). -/
theorem C104_same_records_partial {S : Suite F G R} (hc : S.CipherLaws) (hd : S.CodecLaws) (dbg dbg' : Bool)
    (params : Params) (x x' : F) (i i' : U32) (cs cs' : List F) (ps ps' : List (Participant F G)) (hp : ps.Perm ps')
    (hn : (ps.map (·.index)).Nodup) (r r' : R) (d1 d1' : RoundOne F G) (L L' : ParticipantList F G)
    (h : bootstrap S dbg params x i cs ps r = .ok (d1, L)) (h' : bootstrap S dbg' params x' i' cs' ps' r' = .ok (d1', L'))
    (es es' : List EncShare) (r2 r2' : R) (d2 d2' : RoundTwo F G) (c c' : List (Complaint F G))
    (hr : d1.toRoundTwo S dbg es r2 = .ok (d2, c)) (hr' : d1'.toRoundTwo S dbg' es' r2' = .ok (d2', c'))
    (all all' : List (Complaint F G)) (hall : ∀ a, a ∈ all ↔ a ∈ all') :
    ∃ d3 d3' keys, d2.blame S all = .ok (d3, keys) ∧ d2'.blame S all' = .ok (d3', keys) ∧
      ∀ gk gk' sk sk', d3.finish = .ok (gk, sk) → d3'.finish = .ok (gk', sk') → gk = gk' := by
  obtain ⟨a1, a2, a3, a4, a5, a6, a7, a8, a9⟩ := C20_bootstrap_classifies hc hd dbg _ _ _ _ _ _ d1 L h
  obtain ⟨b1, b2, b3, b4, b5, b6, b7, b8, b9⟩ := C20_bootstrap_classifies hc hd dbg' _ _ _ _ _ _ d1' L' h'
  have hv : L.valid.Perm L'.valid := by rw [a1, b1]; exact hp.filter _
  obtain ⟨k1, k2, k3⟩ := view_of_perm hv
    (by rw [a1]; exact hn.sublist (List.filter_sublist.map _)) a3 b3 a4 b4 a5 b5 a6 b6
  obtain ⟨m, w1, w2, w3, w4⟩ := holds_toRoundTwo S dbg d1 _ a5 (BMap.wf_ofList _) es r2 d2 c hr
  obtain ⟨m', v1, v2, v3, v4⟩ := holds_toRoundTwo S dbg' d1' _ (k2 ▸ a5) (BMap.wf_ofList _) es' r2' d2' c' hr'
  obtain ⟨d3, d3', keys, e1, e2, _, e3⟩ := C42_agreement S d2 d2' _ m m' w1 v1 (by rw [w2, v2, k1])
    (by rw [w4, v4, k3]) all all' hall
  exact ⟨d3, d3', keys, e1, e2, e3⟩

/-! ### C105 -/

/-- A complaint made of nothing, with index 0 as accused and `j` as maker. -/
def bogus (j : U32) : Complaint F G := ⟨0, 0, ⟨0, j, [], []⟩, ⟨0, 0, 0⟩⟩

theorem keys_filter {α : Type} (m : BMap α) (l : List U32) :
    BMap.keys (m.filter fun e => e.1 ∉ l) = (BMap.keys m).filter (· ∉ l) := by
  unfold BMap.keys
  rw [List.filter_map]
  rfl

theorem interpolateG_congr (l : List U32) (f g : U32 → G) (h : ∀ k ∈ l, f k = g k) :
    Spec.interpolateG F l f = Spec.interpolateG F l g := by
  unfold Spec.interpolateG
  exact sum_congr rfl fun k hk => by rw [h k (List.mem_toFinset.mp hk)]

/-- After any complaints, a participant that holds verified shares finishes with the key of the remaining dealers. -/
theorem finish_after_blame {S : Suite F G R} (hu : Suite.U32Inj F) (d : RoundTwo F G) (comms : BMap (VssCommitment G))
    (m : BMap (SecretShare F)) (hD : DealersOk comms) (hV : HoldsVerified S d comms m) (cs : List (Complaint F G)) :
    ∃ d' keys sk, d.blame S cs = .ok (d', keys) ∧
      d'.finish = .ok (Spec.interpolateG F (comms.keys.filter (· ∉ cs.map (verdict S d.state comms)))
        (fun l => ((comms.get? l).map fun c => c.points.headD 0).getD 0), sk) := by
  set rm := cs.map (verdict S d.state comms) with hrm
  have hg := fun k => get?_filter_not_mem hD.wf rm k
  have hgm := fun k => get?_filter_not_mem hV.wf rm k
  have hV' : HoldsVerified S ⟨without d.state comms m rm⟩ (comms.filter fun e => e.1 ∉ rm)
      (m.filter fun e => e.1 ∉ rm) := by
    refine ⟨rfl, rfl, BMap.wf_filter hV.wf _, fun k => ?_, fun k s c hs hc => ?_⟩
    · rw [mem_keys_filter_not_mem hV.wf, mem_keys_filter_not_mem hD.wf, hV.keys]
    · rw [hgm] at hs
      rw [hg] at hc
      split at hs
      · cases hs
      · next hn =>
        rw [if_neg hn] at hc
        exact hV.verified k s c hs hc
  have hD' : DealersOk (comms.filter fun e => e.1 ∉ rm) := by
    refine ⟨BMap.wf_filter hD.wf _, fun h => ?_, fun k c hc => ?_⟩
    · exact hD.zero ((mem_keys_filter_not_mem hD.wf rm 0).mp h).1
    · rw [hg] at hc
      split at hc
      · cases hc
      · exact hD.points k c hc
  obtain ⟨key, h1, _⟩ := finish_verified hu hD' hV'
  rw [keys_filter, interpolateG_congr (F := F) (comms.keys.filter (· ∉ rm)) _
    (fun l => ((comms.get? l).map fun c => c.points.headD 0).getD 0)] at h1
  · exact ⟨_, _, _, blame_eq S d comms m hV.commits hV.shares hD.wf hV.wf cs, h1⟩
  intro k hk
  have hk' : k ∉ rm := by simpa using (List.mem_filter.mp hk).2
  rw [hg, if_neg hk']

/-- C105, negation: whatever set `T` of dealers somebody wants to have removed, there are complaints, made of nothing,
after which everybody finishes with the key interpolated over the other dealers only. So after all commitments are
public (and with the knowledge of all of them) the group key can be moved to that of any subset of the dealers. -/
theorem C105_any_subset {S : Suite F G R} (hu : Suite.U32Inj F) (T : List U32) :
    ∃ cs : List (Complaint F G), cs.length = T.length ∧
      ∀ (d : RoundTwo F G) (comms : BMap (VssCommitment G)) (m : BMap (SecretShare F)), DealersOk comms →
        HoldsVerified S d comms m → ∃ d' keys sk, d.blame S cs = .ok (d', keys) ∧
          d'.finish = .ok (Spec.interpolateG F (comms.keys.filter (· ∉ T))
            (fun l => ((comms.get? l).map fun c => c.points.headD 0).getD 0), sk) := by
  refine ⟨T.map bogus, by simp, fun d comms m hD hV => ?_⟩
  obtain ⟨d', keys, sk, h1, h2⟩ := finish_after_blame hu d comms m hD hV (T.map bogus)
  have : (T.map bogus).map (verdict S d.state comms) = T := by
    rw [List.map_map]
    conv_rhs => rw [← List.map_id T]
    refine List.map_congr_left fun j _ => ?_
    exact if_neg fun h => h.1 rfl
  rw [this] at h2
  exact ⟨d', keys, sk, h1, h2⟩

/-- C105, negation: the key really changes. For a dealer `l` of a session there is exactly one value `s₀` of its
constant coefficient for which removing it leaves the group key as it is; for all others the participants that process
the complaint (made of nothing) finish with another key. -/
theorem C105_removal_changes_key {S : Suite F G R} (hg : S.GroupLaws) (hu : Suite.U32Inj F)
    (comms : BMap (VssCommitment G)) (hD : DealersOk comms) (l : U32) (hl : l ∈ comms.keys) :
    ∃ s₀ : F, ∀ (s : F) (d : RoundTwo F G) (comms' : BMap (VssCommitment G)) (m : BMap (SecretShare F)) (rest : List G)
      (i : U32), HoldsVerified S d comms' m → comms'.WF → comms'.keys = comms.keys →
      (∀ k, k ≠ l → comms'.get? k = comms.get? k) → comms'.get? l = some ⟨i, s • S.gen :: rest⟩ →
      ∃ d' keys gk gk' sk sk', d.finish = .ok (gk, sk) ∧ d.blame S [bogus l] = .ok (d', keys) ∧
        d'.finish = .ok (gk', sk') ∧ (gk' = gk ↔ s = s₀) := by
  obtain ⟨gk, hb, hgk⟩ := C87_group_key_bijective hg hu comms hD l hl
  obtain ⟨s₀, hs₀⟩ := hb.2 (Spec.interpolateG F (comms.keys.filter (· ∉ [l]))
    (fun k => ((comms.get? k).map fun c => c.points.headD 0).getD 0))
  refine ⟨s₀, fun s d comms' m rest i hV hw hk hne hcl => ?_⟩
  have hD' : DealersOk comms' := by
    refine ⟨hw, by rw [hk]; exact hD.zero, fun k c hc => ?_⟩
    by_cases hkl : k = l
    · rw [hkl, hcl] at hc
      cases hc
      simp
    · rw [hne k hkl] at hc
      exact hD.points k c hc
  obtain ⟨d', keys, sk', h1, h2⟩ := finish_after_blame hu d comms' m hD' hV [bogus l]
  obtain ⟨key, h3, _⟩ := finish_verified hu hD' hV
  have hv : [(bogus l : Complaint F G)].map (verdict S d.state comms') = [l] := by
    rw [List.map_cons, List.map_nil]
    congr 1
    exact if_neg fun h => h.1 rfl
  rw [hv, hk, interpolateG_congr (F := F) (comms.keys.filter (· ∉ [l])) _
    (fun k => ((comms.get? k).map fun c => c.points.headD 0).getD 0), ← hs₀] at h2
  · refine ⟨d', keys, _, _, _, _, h3, h1, h2, ?_⟩
    have := (hgk s d comms' rest i hV.commits hk hne hcl).2 _ h3
    simp only at this
    rw [this]
    exact ⟨fun h => (hb.1 h).symm, fun h => by rw [h]⟩
  · intro k hk'
    rw [hne k]
    simpa using (List.mem_filter.mp hk').2

/-- C105, what remains true: whatever the complaints, the key after `blame` is interpolated from constant commitments
that were on file before, over the dealers that no complaint names as accused or as maker and possibly some others; if
the complaints remove no dealer, the key is unchanged.

Missing for the full C105: that the complaints have no influence at all, which is false (above). -/
theorem C105_complaints_partial {S : Suite F G R} (hu : Suite.U32Inj F) (d : RoundTwo F G)
    (comms : BMap (VssCommitment G)) (m : BMap (SecretShare F)) (hD : DealersOk comms) (hV : HoldsVerified S d comms m)
    (cs : List (Complaint F G)) :
    ∃ (T : List U32) (d' : RoundTwo F G) (keys : List G) (gk gk' : G) (sk sk' : IndividualSigningKey F),
      d.finish = .ok (gk, sk) ∧ d.blame S cs = .ok (d', keys) ∧ d'.finish = .ok (gk', sk') ∧
      gk' = Spec.interpolateG F (comms.keys.filter (· ∉ T))
        (fun l => ((comms.get? l).map fun c => c.points.headD 0).getD 0) ∧
      (∀ k ∈ T, ∃ c ∈ cs, k = c.encShare.senderIndex ∨ k = c.encShare.receiverIndex) ∧
      (d'.state.theirCommitments = some comms → gk' = gk) := by
  obtain ⟨d', keys, sk', h1, h2⟩ := finish_after_blame hu d comms m hD hV cs
  obtain ⟨key, h3, _⟩ := finish_verified hu hD hV
  refine ⟨cs.map (verdict S d.state comms), d', keys, _, _, _, _, h3, h1, h2, rfl, fun k hk => ?_, fun hc => ?_⟩
  · obtain ⟨c, hc, rfl⟩ := List.mem_map.mp hk
    refine ⟨c, hc, ?_⟩
    unfold verdict
    split
    · exact .inl rfl
    · exact .inr rfl
  · have h4 := C34_same_group_key d' d (by rw [hc, hV.commits]) _ _ _ _ h2 h3
    exact h4

/-! ### C106 -/

attribute [local instance] Classical.propDecidable

theorem roundOne_keys {S : Suite F G R} {dbg : Bool} {params : Params} {x : F} {i : U32} {cs : Option (List F)}
    {ps : List (Participant F G)} {fd : Bool} {rng rng' : R} {d : RoundOne F G} {l : ParticipantList F G}
    (h : newStateInternal S dbg params x i cs ps fd true rng = .ok ((d, l), rng')) {comms : BMap (VssCommitment G)}
    (hc : d.state.theirCommitments = some comms) : ∀ k ∈ d.state.theirDhPublicKeys.keys, k ∈ comms.keys := by
  obtain ⟨m, hst, -, -, -⟩ := newState_inv h
  intro k hk
  rw [hst] at hk hc
  cases hc
  have hk' := (BMap.mem_keys_ofList _ k).mp hk
  rw [BMap.mem_keys_ofList]
  obtain ⟨e, he, rfl⟩ := List.mem_map.mp hk'
  unfold dhEntries at he
  obtain ⟨p, hp, rfl⟩ := List.mem_map.mp he
  have hacc : Accepts S params fd true p := of_decide_eq_true (List.mem_filter.mp hp).2
  simp only [Accepts, if_true] at hacc
  obtain ⟨_, c, _, _, h, _⟩ := hacc.1
  refine List.mem_map.mpr ⟨(p.index, c), List.mem_filterMap.mpr ⟨p, hp, ?_⟩, rfl⟩
  rw [h]
  rfl

/-- In every reachable session the stored shares are those of dealers on file. -/
theorem reach_keys {S : Suite F G R} {dbg : Bool} {ps : List (Participant F G)} {es : List EncShare}
    {d : RoundTwo F G} (h : ReachTwo S dbg ps es d) : ∃ comms m, Holds d comms m ∧ ∀ k ∈ m.keys, k ∈ comms.keys := by
  induction h with
  | round d es rng d' cs hd h =>
    obtain ⟨comms, hs, _⟩ := C95_round_one_sound hd
    have hkk : ∀ k ∈ d.state.theirDhPublicKeys.keys, k ∈ comms.keys := by
      cases hd with
      | bootstrap params x i cs _ rng _ l h =>
        unfold IceFrost.bootstrap at h
        obtain ⟨⟨v, rng'⟩, h1, h2⟩ := map_eq_ok h
        cases h2
        exact roundOne_keys h1 hs.comms_eq
      | new params x i _ rng _ l h =>
        unfold dkgNew at h
        obtain ⟨⟨v, rng'⟩, h1, h2⟩ := map_eq_ok h
        cases h2
        exact roundOne_keys h1 hs.comms_eq
    obtain ⟨hk, hst⟩ := toRoundTwo_state hs.comms_eq hs.comms_sorted.nodup h
    refine ⟨comms, BMap.ofList (es.filterMap (opened S d.state.dhPrivateKey d.state.theirDhPublicKeys)),
      ⟨by rw [hst]; exact hs.comms_eq, by rw [hst]; rfl, hs.comms_sorted, BMap.wf_ofList _⟩, fun k hk' => ?_⟩
    rw [BMap.mem_keys_ofList] at hk'
    obtain ⟨⟨k', s⟩, hs', rfl⟩ := List.mem_map.mp hk'
    obtain ⟨e, he, ho⟩ := List.mem_filterMap.mp hs'
    obtain ⟨pk, v, hpk, _, hk1, _⟩ := opened_eq_some.mp ho
    exact hkk _ (by rw [hk1]; exact BMap.mem_keys_of_get? hpk)
  | blame es d cs d' l hd h ih =>
    obtain ⟨comms, m, hh, hk⟩ := ih
    obtain ⟨d1, keys, h1, ⟨comms', m', k1, _, k3, k4⟩, _⟩ := blame_removed S d comms m hh cs
    rw [h] at h1
    cases h1
    refine ⟨comms', m', k1, fun k hk' => ?_⟩
    obtain ⟨s, hs⟩ := BMap.exists_get? hk'
    rw [k4] at hs
    split at hs
    · cases hs
    · next hn =>
      obtain ⟨c, hc⟩ := BMap.exists_get? (hk k (BMap.mem_keys_of_get? hs))
      exact BMap.mem_keys_of_get? ((k3 k).trans ((if_neg hn).trans hc))

/-- C106, negation: in every session that reaches round two there are complaints, made of public data, after which
`finish` succeeds with the identity as group key; and for the identity anybody makes signatures on every message. -/
theorem C106_forgeable {S : Suite F G R} {dbg : Bool} {ps : List (Participant F G)} {es : List EncShare}
    {d : RoundTwo F G} (h : ReachTwo S dbg ps es d) :
    ∃ (cs : List (Complaint F G)) (d' : RoundTwo F G) (keys : List G) (gk : G) (sk : IndividualSigningKey F),
      d.blame S cs = .ok (d', keys) ∧ d'.finish = .ok (gk, sk) ∧
      ∀ (r : F) (msg : Bytes), verifySignature S gk ⟨r • S.gen, r⟩ msg = .ok () ∧
        (⟨r • S.gen, r⟩ : ThresholdSignature F G).verify S gk msg = .ok () := by
  obtain ⟨comms, m, hh, hk⟩ := reach_keys h
  obtain ⟨cs, d', keys, h1, _, _, h2⟩ := C37_finish_without_dealers S d comms m hh hk
  refine ⟨cs, d', keys, _, _, h1, h2, fun r msg => ?_⟩
  have hv : (⟨r • S.gen, r⟩ : ThresholdSignature F G).verify S (0 : G) msg = .ok () := by
    rw [verify_iff]
    show r • S.gen = _
    simp
  exact ⟨hv, hv⟩

/-- C106 for keys other than the identity: no signature is accepted for two messages unless the messages have the
same challenge (for the identity every signature above is accepted for every message), and every accepted signature is
the Schnorr signature with the secret key and some nonce.

Missing for the full C106: that `finish` never returns the identity, which is false (above). -/
theorem C106_other_keys_partial {S : Suite F G R} (hg : S.GroupLaws) (Y : G) (hY : Y ≠ 0)
    (sig : ThresholdSignature F G) (msg : Bytes) (h : verifySignature S Y sig msg = .ok ()) :
    (∃ s r : F, Y = s • S.gen ∧ s ≠ 0 ∧ sig = Spec.schnorrSign S s r msg) ∧
    ∀ msg', verifySignature S Y sig msg' = .ok () ↔
      Spec.challenge S sig.groupCommitment Y msg' = Spec.challenge S sig.groupCommitment Y msg := by
  have h' : sig.verify S Y msg = .ok () := h
  refine ⟨?_, fun msg' => ?_⟩
  · obtain ⟨s, r, hs, hr⟩ := (C84_accepted_is_schnorr hg Y msg sig).mp h'
    exact ⟨s, r, hs, fun h0 => hY (by rw [hs, h0, zero_smul]), hr⟩
  · have h2 : verifySignature S Y sig msg' = .ok () ↔ sig.verify S Y msg' = .ok () := Iff.rfl
    rw [h2, verify_iff]
    rw [verify_iff] at h'
    unfold Spec.SigValid Spec.Schnorr at h' ⊢
    constructor
    · intro h3
      obtain ⟨s, hs⟩ := hg.gen_surj Y
      have h4 : Spec.challenge S sig.groupCommitment Y msg' • Y = Spec.challenge S sig.groupCommitment Y msg • Y := by
        have := h3.symm.trans h'
        simpa using this
      by_contra hne
      apply hY
      have h5 := sub_ne_zero.mpr hne
      rw [← one_smul F Y, ← inv_mul_cancel₀ h5, mul_smul, sub_smul, h4, sub_self, smul_zero]
    · intro h3
      rw [h3]
      exact h'

/-! ### C110 -/

/-- C110, negation: `bootstrap` looks only at the records. For any list of good records and any private key, index and
coefficients whatever (an index that nobody has, a key and coefficients that belong to no record, no coefficients at
all) it succeeds and deals shares of the coefficients given. -/
theorem C110_unchecked {S : Suite F G R} (hc : S.CipherLaws) (hd : S.CodecLaws) (dbg : Bool) (params : Params)
    (ht : params.t ≠ 0) (htn : params.t.toNat ≤ params.n.toNat) (ps : List (Participant F G))
    (hlen : ps.length = params.n.toNat) (hgood : ∀ p ∈ ps, GoodDealer S params.t p)
    (x : F) (i : U32) (cs : List F) (rng : R) :
    ∃ d1 m, bootstrap S dbg params x i cs ps rng = .ok (d1, ⟨ps, none⟩) ∧
      d1.theirEncryptedSecretShares = .ok m ∧ (∀ p ∈ ps, ∃ e, m.get? p.index = some e) ∧
      ∀ j e, m.get? j = some e → ∃ p ∈ ps, p.index = j ∧ e.senderIndex = i ∧ e.receiverIndex = j ∧
        Spec.Opens S e (x • p.dhPublicKey) (Spec.polyEval cs (j.toNat : F)) := by
  obtain ⟨m, h1, h2, h3, h4⟩ := bootstrap_honest hc hd dbg params ht htn ps hlen hgood x i cs rng
  refine ⟨_, m, h1, rfl, fun p hp => BMap.exists_get? ((h3 p.index).mpr ⟨p, hp, rfl⟩), fun j e he => ?_⟩
  obtain ⟨p, hp, rfl, k1, k2, _, k4⟩ := h4 j e he
  obtain ⟨v, hv, hv'⟩ := (decryptShare_ok_iff S e _ _).mp k4
  simp only [SecretShare.mk.injEq] at hv'
  rw [← hv'.2.2] at hv
  exact ⟨p, hp, rfl, k1, k2, hv⟩

/-- C110: what goes wrong. A caller whose record in the list has DH key `x • g` and commits to coefficients `cs'` deals
with coefficients `cs`: the share for a receiver with DH key `y • g` is good for this receiver exactly if the two
polynomials agree at its index. Otherwise the receiver complains and the caller is removed (C28, C39). -/
theorem C110_mismatch {S : Suite F G R} (hg : S.GroupLaws) (x y : F) (j : U32) (cs cs' : List F) (e : EncShare)
    (hj : e.receiverIndex = j) (he : Spec.Opens S e (x • (y • S.gen)) (Spec.polyEval cs (j.toNat : F))) :
    Spec.GoodShare S (y • (x • S.gen)) (commitPoints S cs') e ↔
      Spec.polyEval cs (j.toNat : F) = Spec.polyEval cs' (j.toNat : F) := by
  rw [smul_comm] at he
  constructor
  · rintro ⟨v, hv, hv'⟩
    rw [hj, pointEval_commitPoints] at hv'
    rw [← hg.gen_inj _ _ hv', hv.unique he]
  · intro h
    exact ⟨_, he, by rw [hj, pointEval_commitPoints, h]⟩

/-- C110, what remains true: a caller whose record, private key and coefficients match deals shares that are good for
every receiver, whatever the other records are.

Missing for the full C110: that `bootstrap` checks that they match, which it does not do (above). -/
theorem C110_matching_partial {S : Suite F G R} (hc : S.CipherLaws) (hd : S.CodecLaws) (dbg : Bool) (params : Params)
    (ht : params.t ≠ 0) (htn : params.t.toNat ≤ params.n.toNat) (ps : List (Participant F G))
    (hlen : ps.length = params.n.toNat) (hgood : ∀ p ∈ ps, GoodDealer S params.t p)
    (x : F) (i : U32) (cs : List F) (rng : R) (own : Participant F G) (hpk : own.dhPublicKey = x • S.gen)
    (hcm : own.commitments = some ⟨i, commitPoints S cs⟩) :
    ∃ d1 m, bootstrap S dbg params x i cs ps rng = .ok (d1, ⟨ps, none⟩) ∧
      d1.theirEncryptedSecretShares = .ok m ∧
      ∀ j e, m.get? j = some e → ∃ p ∈ ps, p.index = j ∧ ∀ y : F, p.dhPublicKey = y • S.gen →
        ∀ c, own.commitments = some c → Spec.GoodShare S (y • own.dhPublicKey) c.points e := by
  obtain ⟨d1, m, h1, h2, _, h4⟩ := C110_unchecked hc hd dbg params ht htn ps hlen hgood x i cs rng
  refine ⟨d1, m, h1, h2, fun j e he => ?_⟩
  obtain ⟨p, hp, hpj, _, k2, k3⟩ := h4 j e he
  refine ⟨p, hp, hpj, fun y hy c hc' => ?_⟩
  rw [hcm] at hc'
  cases hc'
  rw [hy, smul_comm] at k3
  rw [hpk]
  exact ⟨_, k3, by rw [k2]; exact (pointEval_commitPoints S _ _).symm⟩

/-! ### C112 -/

/-- C112, negation (release builds): somebody changes the receiver label of a correct share of dealer `l` from the
receiver's index to `j`, where the dealer's polynomial has another value. All other shares are good. The receiver
complains, and everybody with the same public view who processes the complaint removes the honest dealer. -/
theorem C112_relabelled_receiver {S : Suite F G R} (hg : S.GroupLaws) (hc : S.CipherLaws) (hd : S.CodecLaws)
    (d : RoundOne F G) (comms : BMap (VssCommitment G)) (hcomms : d.state.theirCommitments = some comms)
    (hw : comms.WF) (htn : d.state.parameters.t.toNat < d.state.parameters.n.toNat)
    (l j : U32) (hl0 : l ≠ 0) (hln : l.toNat ≤ d.state.parameters.n.toNat) (xl : F) (poly : List F)
    (hdh : d.state.theirDhPublicKeys.get? l = some (xl • S.gen))
    (c : VssCommitment G) (hcl : comms.get? l = some c) (hpts : c.points = poly.map (· • S.gen)) (e : EncShare)
    (he : HonestlyDealt S l d.state.index xl poly (d.state.dhPrivateKey • S.gen) e)
    (hj : Spec.polyEval poly (j.toNat : F) ≠ Spec.polyEval poly (d.state.index.toNat : F))
    (rest : List EncShare) (hlen : d.state.parameters.t.toNat ≤ rest.length + 1)
    (hrest : ∀ e' ∈ rest, ∃ pk c', d.state.theirDhPublicKeys.get? e'.senderIndex = some pk ∧
      comms.get? e'.senderIndex = some c' ∧ Spec.GoodShare S (d.state.dhPrivateKey • pk) c'.points e') (rng : R) :
    ∃ d' a, d.toRoundTwo S false ({ e with receiverIndex := j } :: rest) rng = .ok (d', [a]) ∧
      ∀ (dv : RoundTwo F G) (m : BMap (SecretShare F)), Holds dv comms m →
        dv.state.theirDhPublicKeys = d.state.theirDhPublicKeys → dv.state.parameters = d.state.parameters →
        ∃ dv', dv.blame S [a] = .ok (dv', [xl • S.gen]) ∧ Removed dv dv' comms m (· = l) := by
  obtain ⟨rfl, _, h3⟩ := honestlyDealt_opens hc hd he
  rw [smul_comm] at h3
  set e' : EncShare := { e with receiverIndex := j } with he'
  have hopen : Spec.Opens S e' (d.state.dhPrivateKey • (xl • S.gen)) (Spec.polyEval poly (u32F F d.state.index)) := h3
  have hbad1 : BadFor S d.state.dhPrivateKey d.state.theirDhPublicKeys comms e' := by
    refine ⟨_, c, hdh, hcl, ?_⟩
    rintro ⟨v, hv, hv'⟩
    rw [hv.unique hopen, hpts] at hv'
    have h4 := hv'.trans (pointEval_commitPoints S poly (e'.receiverIndex.toNat : F))
    exact hj (hg.gen_inj _ _ h4).symm
  have hbad : (e' :: rest).filter (BadFor S d.state.dhPrivateKey d.state.theirDhPublicKeys comms) = [e'] := by
    rw [List.filter_cons, if_pos (decide_eq_true hbad1), List.filter_eq_nil_iff.mpr]
    intro a ha
    simp only [decide_eq_true_eq]
    rintro ⟨pk, c', k1, k2, k3⟩
    obtain ⟨pk', c'', w1, w2, w3⟩ := hrest a ha
    rw [w1] at k1; cases k1
    rw [w2] at k2; cases k2
    exact k3 w3
  obtain ⟨cs, h1, h2⟩ := toRoundTwo_le S false d comms hcomms hw.nodup (e' :: rest) (by simpa using hlen)
    (fun a ha => by
      refine ⟨by simp, ?_⟩
      rcases List.mem_cons.mp ha with rfl | ha
      · exact BMap.mem_keys_of_get? hdh
      · obtain ⟨pk', _, w1, _⟩ := hrest a ha
        exact BMap.mem_keys_of_get? w1) rng (by rw [hbad]; simp; omega)
  rw [hbad] at h1
  cases h1 with
  | @cons a _ _ _ ha htl =>
    cases htl
    have h5 := h2.trans (if_neg (by simp; omega))
    refine ⟨_, a, h5, fun dv m hh hdk hpar => ?_⟩
    obtain ⟨ha1, ha2, pk, ha3, ha4, ha5⟩ := ha
    obtain ⟨dv', k1, k2⟩ := blame_single S dv comms m hh a
    have hs : a.encShare.senderIndex = e.senderIndex := by rw [ha1]
    have hv : verdict S dv.state comms a = e.senderIndex := by
      unfold verdict
      rw [if_pos, hs]
      refine (madeBy_upheld S false d _ rng _ (.inl ⟨_, h5⟩) comms hcomms hw a (by simp) dv.state hdk ?_ ?_).1
      · rw [hs]; exact hl0
      · rw [hs, hpar]; exact hln
    rw [hv] at k1 k2
    rw [hdk, hdh] at k1
    exact ⟨dv', k1, k2⟩

/-- C112: a debug build does not complain, it panics. -/
theorem C112_debug_panics (S : Suite F G R) (d : RoundOne F G) (e : EncShare) (j : U32) (hj : j ≠ d.state.index)
    (rest : List EncShare) (hlen : d.state.parameters.t.toNat ≤ rest.length + 1) (rng : R) :
    d.toRoundTwo S true ({ e with receiverIndex := j } :: rest) rng = .error (.panic .debugAssert) := by
  unfold RoundOne.toRoundTwo
  rw [if_neg (by simp; omega)]
  simp [roundTwoLoop, hj]

/-- C112, what remains true: if only the sender label is changed. Every share that participant `d` processes under the
name of the honest dealer `l` is one that `l` dealt to it, and no share names `l` as receiver; all others are arbitrary
(shares of `l` under another name among them). Then the complaints of `d` do not remove `l`, and they remove `l`
neither together with other complaints about other dealers made by participants other than `l`.

Missing for the full C112: other receiver labels, for which it is false (above). -/
theorem C112_relabelled_sender_partial {S : Suite F G R} (hc : S.CipherLaws) (hd : S.CodecLaws) (dbg : Bool)
    (d : RoundOne F G) (comms : BMap (VssCommitment G)) (hcomms : d.state.theirCommitments = some comms)
    (hw : comms.WF) (l : U32) (xl : F) (poly : List F)
    (hdh : d.state.theirDhPublicKeys.get? l = some (xl • S.gen))
    (c : VssCommitment G) (hcl : comms.get? l = some c) (hpts : c.points = poly.map (· • S.gen)) (es : List EncShare)
    (hes : ∀ e ∈ es, e.receiverIndex ≠ l ∧ (e.senderIndex = l →
      HonestlyDealt S l e.receiverIndex xl poly (d.state.dhPrivateKey • S.gen) e))
    (rng : R) (cs : List (Complaint F G)) (hmade : MadeBy S dbg d es rng cs) (all : List (Complaint F G))
    (hall : ∀ a ∈ all, a ∈ cs ∨ (a.encShare.senderIndex ≠ l ∧ a.encShare.receiverIndex ≠ l))
    (dv : RoundTwo F G) (m : BMap (SecretShare F)) (hh : Holds dv comms m) :
    ∃ dv' keys comms', dv.blame S all = .ok (dv', keys) ∧ dv'.state.theirCommitments = some comms' ∧
      comms'.get? l = some c := by
  obtain ⟨d', keys, h1, ⟨comms', m', k1, _, k2, _⟩, _⟩ := blame_removed S dv comms m hh all
  refine ⟨d', keys, comms', h1, k1.commits, ?_⟩
  rw [k2, if_neg, hcl]
  rintro ⟨a, ha, hv⟩
  have hboth : a.encShare.senderIndex ≠ l ∧ a.encShare.receiverIndex ≠ l := by
    rcases hall a ha with hcs | h
    · obtain ⟨e, he, hae, _, _⟩ := forall₂_mem_left (C28_complaints S dbg d comms hcomms hw.nodup es rng cs hmade) a hcs
      obtain ⟨he1, he2⟩ := List.mem_filter.mp he
      obtain ⟨pk, c', w1, w2, w3⟩ := of_decide_eq_true he2
      rw [hae]
      refine ⟨fun hs => w3 ?_, (hes e he1).1⟩
      obtain ⟨q1, q2, q3⟩ := honestlyDealt_opens hc hd ((hes e he1).2 hs)
      rw [hs, hdh] at w1; cases w1
      rw [hs, hcl] at w2; cases w2
      rw [smul_comm] at q3
      exact ⟨_, q3, by rw [hpts]; exact (pointEval_commitPoints S _ _).symm⟩
    · exact h
  unfold verdict at hv
  split at hv
  · exact hboth.1 hv.symm
  · exact hboth.2 hv.symm

/-! ### Concrete cases -/

section Examples

open Toy

/-- The constant coefficient that `newDealer` draws. -/
theorem toy_constant (i : U32) (r : Nat) (p : Participant Fp Fp) (cs : List Fp) (x : Fp)
    (h : newDealer suite ⟨3, 2⟩ i r = .ok (p, cs, x)) :
    cs.headD 0 = (((r + 2) * (r + 2) + 3 * (r + 2) + 7 : Nat) : Fp) := by
  by_cases hi : i = 0
  · exact absurd hi (newDealer_good (by decide) h).1
  · unfold newDealer newInternal at h
    rw [if_neg hi] at h
    simp only [Except.ok.injEq, Prod.mk.injEq] at h
    obtain ⟨-, rfl, -⟩ := h
    rfl

/-- C104: dealer 3 sends participant 1 another record than participant 2; both finish, with different keys. -/
example : ∃ (d2 : U32 → RoundTwo Fp Fp) (s s' k k' : Fp), (d2 1).finish = .ok (s • suite.gen, ⟨1, k⟩) ∧
    (d2 2).finish = .ok (s' • suite.gen, ⟨2, k'⟩) ∧ s • suite.gen ≠ s' • suite.gen := by
  obtain ⟨P, cs, x, h1, _, d1, _, E, _, d2, _, s, key, _, h2, h3⟩ := C104_equivocation lawful true ⟨3, 2⟩ (by decide)
    (by decide) [1, 2, 3] (by decide) (by decide) rfl 3 (by decide) (fun i => decide (i = 1))
    (fun b i => if b = true ∧ i = 3 then 10 else 0) (fun i hi => by simp [hi]) (fun _ _ => 0) (fun _ => 0)
  refine ⟨d2, s true, s false, _, _, by simpa using h2 1 (by decide) (by decide),
    by simpa using h2 2 (by decide) (by decide), fun h => ?_⟩
  have h4 := h3.mp h
  rw [toy_constant 3 10 _ _ _ (by simpa using h1 true 3 (by decide)),
    toy_constant 3 0 _ _ _ (by simpa using h1 false 3 (by decide))] at h4
  revert h4
  decide

/-- C104 (participants 1 and 2 with the same records in different orders) and C106 (participant 1), in a session where
1, 2 and 3 are honest. -/
example : ∃ (ps ps' : List (Participant Fp Fp)) (es es' : List EncShare) (d d' : RoundTwo Fp Fp),
    ps.length = 3 ∧ ps.Perm ps' ∧ ReachTwo suite true ps es d ∧ ReachTwo suite true ps' es' d' ∧
    (∀ all : List (Complaint Fp Fp), ∃ d3 d3' keys, d.blame suite all = .ok (d3, keys) ∧
      d'.blame suite all.reverse = .ok (d3', keys) ∧
      ∀ gk gk' sk sk', d3.finish = .ok (gk, sk) → d3'.finish = .ok (gk', sk') → gk = gk') ∧
    ∃ (cs : List (Complaint Fp Fp)) (d3 : RoundTwo Fp Fp) (keys : List Fp) (gk : Fp) (sk : IndividualSigningKey Fp),
      d.blame suite cs = .ok (d3, keys) ∧ d3.finish = .ok (gk, sk) ∧
        ∀ (r : Fp) (msg : Bytes), verifySignature suite gk ⟨r • suite.gen, r⟩ msg = .ok () := by
  obtain ⟨P, co, x, h0, d1, h1, E, h2, d2, h3, s, key, _⟩ := C36_honest_dkg lawful true ⟨3, 2⟩ (by decide)
    (by decide) [1, 2, 3] (by decide) (by decide) rfl (fun i => if i = 1 then [1, 2, 3] else [3, 2, 1])
    (fun _ => [3, 1, 2]) (fun i _ => by by_cases h : i = 1 <;> simp [h] <;> decide) (fun _ _ => by decide)
    (fun _ => 0) (fun _ => 0) (fun _ => 0)
  have b1 := h1 1 (by decide)
  have b2 := h1 2 (by decide)
  rw [if_pos rfl] at b1
  rw [if_neg (by decide)] at b2
  have hr : ReachTwo suite true ([1, 2, 3].map P) ([3, 1, 2].map fun l => E l 1) (d2 1) :=
    .round _ _ _ _ _ _ (.bootstrap _ _ _ _ _ _ _ _ b1) (h3 1 (by decide))
  have hr' : ReachTwo suite true ([3, 2, 1].map P) ([3, 1, 2].map fun l => E l 2) (d2 2) :=
    .round _ _ _ _ _ _ (.bootstrap _ _ _ _ _ _ _ _ b2) (h3 2 (by decide))
  have hp : ([1, 2, 3].map P).Perm ([3, 2, 1].map P) := List.Perm.map P (by decide)
  have hn : (([1, 2, 3].map P).map (·.index)).Nodup := by
    simp only [List.map_cons, List.map_nil]
    rw [(newDealer_good (by decide) (h0 1 (by decide))).2.1, (newDealer_good (by decide) (h0 2 (by decide))).2.1,
      (newDealer_good (by decide) (h0 3 (by decide))).2.1]
    decide
  refine ⟨_, _, _, _, d2 1, d2 2, rfl, hp, hr, hr', fun all => ?_, ?_⟩
  · exact C104_same_records_partial cipher_laws codec_laws true true _ _ _ _ _ _ _ _ _ hp hn _ _ _ _ _ _ b1 b2 _ _ _ _
      _ _ _ _ (h3 1 (by decide)) (h3 2 (by decide)) all all.reverse (fun a => by simp)
  · obtain ⟨cs, d3, keys, gk, sk, k1, k2, k3⟩ := C106_forgeable hr
    exact ⟨cs, d3, keys, gk, sk, k1, k2, fun r msg => (k3 r msg).1⟩

/-- C105: the dealers 1, 2 and 5 of `FinishExamples`; a complaint made of nothing removes dealer 2 and changes the key,
for all but one value of its secret. -/
example : ∃ s₀ : Fp, ∀ s : Fp, ∃ d' keys gk gk' sk sk',
    (honestState suite ⟨3, 2⟩ FinishExamples.D (fun k => if k = 2 then [s, 1] else FinishExamples.cs k) 7).finish =
      .ok (gk, sk) ∧
    (honestState suite ⟨3, 2⟩ FinishExamples.D (fun k => if k = 2 then [s, 1] else FinishExamples.cs k) 7).blame suite
      [bogus 2] = .ok (d', keys) ∧ d'.finish = .ok (gk', sk') ∧ (gk' = gk ↔ s = s₀) := by
  obtain ⟨s₀, h⟩ := C105_removal_changes_key group_laws u32_inj (dealerMap suite FinishExamples.D FinishExamples.cs)
    FinishExamples.dealers 2 ((dealerMap_keys suite _ _ 2).mpr (by decide))
  refine ⟨s₀, fun s => ?_⟩
  have hk : (dealerMap suite FinishExamples.D (fun k => if k = 2 then [s, 1] else FinishExamples.cs k)).keys =
      (dealerMap suite FinishExamples.D FinishExamples.cs).keys :=
    BMap.keys_eq_of_mem (BMap.wf_ofList _) (BMap.wf_ofList _) (fun k => by rw [dealerMap_keys, dealerMap_keys])
  refine h s _ _ _ [(1 : Fp) • suite.gen] 2 (honestState_holds suite ⟨3, 2⟩ FinishExamples.hD _ 7) (BMap.wf_ofList _) hk
    ?_ ?_
  · intro k hk2
    cases hc : (dealerMap suite FinishExamples.D FinishExamples.cs).get? k with
    | some c =>
      obtain ⟨h1, rfl⟩ := (dealerMap_get suite FinishExamples.hD FinishExamples.cs k c).mp hc
      exact (dealerMap_get suite FinishExamples.hD _ k _).mpr ⟨h1, by simp [hk2]⟩
    | none =>
      cases hc' : (dealerMap suite FinishExamples.D (fun k => if k = 2 then [s, 1] else FinishExamples.cs k)).get? k with
      | none => rfl
      | some c =>
        obtain ⟨h1, _⟩ := (dealerMap_get suite FinishExamples.hD _ k c).mp hc'
        have := (dealerMap_get suite FinishExamples.hD FinishExamples.cs k _).mpr ⟨h1, rfl⟩
        rw [hc] at this
        cases this
  · exact (dealerMap_get suite FinishExamples.hD _ 2 _).mpr ⟨by decide, rfl⟩

/-- C105: the two other theorems, for the same dealers. -/
example := C105_complaints_partial u32_inj _ _ _ FinishExamples.dealers
  (honestState_holds suite ⟨3, 2⟩ FinishExamples.hD FinishExamples.cs 7) [bogus 5, bogus 9]

/-- C106: a key other than the identity with an accepted signature. -/
example : verifySignature suite ((3 : Fp) • suite.gen) (Spec.schnorrSign suite 3 5 []) [] = .ok () ∧
    (3 : Fp) • suite.gen ≠ 0 := by
  refine ⟨(C84_accepted_is_schnorr group_laws _ _ _).mpr ⟨3, 5, rfl, rfl⟩, ?_⟩
  rw [smul_gen]
  decide

/-- C110: three good records, and a caller that is none of them. -/
example : ∃ (ps : List (Participant Fp Fp)) (d1 : RoundOne Fp Fp), ps.map (·.index) = [1, 2, 3] ∧
    bootstrap suite true ⟨3, 2⟩ 77 9 [] ps 0 = .ok (d1, ⟨ps, none⟩) := by
  obtain ⟨p1, p2, p3, k1, k2, k3, h⟩ := toy_dealers
  obtain ⟨d1, m, h1, _⟩ := C110_unchecked cipher_laws codec_laws true ⟨3, 2⟩ (by decide) (by decide) [p1, p2, p3] rfl
    (fun p hp => by
      obtain ⟨i, rng, cs, dh, h⟩ := h p hp
      exact (newDealer_good (params := ⟨3, 2⟩) (by decide) h).2.2.2.2.2) 77 9 [] 0
  exact ⟨_, d1, by simp [k1, k2, k3], h1⟩

/-- C112: in a session with `n = 3` and `t = 2`, the share of dealer 1 for participant 3 is relabelled as one for 4. -/
example : ∃ (e e2 : EncShare) (d' : RoundTwo Fp Fp) (a : Complaint Fp Fp), e.senderIndex = 1 ∧ e.receiverIndex = 3 ∧
    (⟨{ toyR1.state with parameters := ⟨3, 2⟩ }⟩ : RoundOne Fp Fp).toRoundTwo suite false
      [{ e with receiverIndex := 4 }, e2] 0 = .ok (d', [a]) ∧
    ∃ dv', (⟨{ toyR2.state with parameters := ⟨3, 2⟩ }⟩ : RoundTwo Fp Fp).blame suite [a] =
      .ok (dv', [(101 : Fp) • suite.gen]) := by
  obtain ⟨e1, r1, h1, k1, j1, _⟩ := encryptShare_ok cipher_laws codec_laws
    (evaluatePolynomial (F := Fp) 1 3 [10, 11]) (suite.encG ((101 : Fp) • ((5 : Fp) • suite.gen))) 0
  obtain ⟨e2, r2, h2, k2, j2, _⟩ := encryptShare_ok cipher_laws codec_laws
    (evaluatePolynomial (F := Fp) 2 3 [20, 21]) (suite.encG ((102 : Fp) • ((5 : Fp) • suite.gen))) 0
  obtain ⟨q1, q2, q3⟩ := honestlyDealt_opens cipher_laws codec_laws
    (show HonestlyDealt suite 2 3 (102 : Fp) [20, 21] ((5 : Fp) • suite.gen) e2 from ⟨0, r2, h2⟩)
  obtain ⟨d', a, w1, w2⟩ := C112_relabelled_receiver group_laws cipher_laws codec_laws
    (⟨{ toyR1.state with parameters := ⟨3, 2⟩ }⟩ : RoundOne Fp Fp) toyComms rfl toy_holds.wfc (by decide) 1 4 (by decide)
    (by decide) 101 [10, 11] (by simp [toyR1, BMap.get?]) ⟨1, [(10 : Fp) • suite.gen, (11 : Fp) • suite.gen]⟩
    (by simp [toyComms, BMap.get?]) rfl e1 ⟨0, r1, h1⟩
    (by simp [Spec.polyEval, sum_range_succ, toyR1]; decide) [e2] le_rfl
    (by
      intro e he
      rw [List.mem_singleton] at he
      subst he
      rw [q1]
      refine ⟨(102 : Fp) • suite.gen, ⟨2, [(20 : Fp) • suite.gen, (21 : Fp) • suite.gen]⟩, by simp [toyR1, BMap.get?],
        by simp [toyComms, BMap.get?], _, by rw [smul_comm]; exact q3, ?_⟩
      rw [q2]
      exact (pointEval_commitPoints suite [(20 : Fp), 21] _).symm) 0
  obtain ⟨dv', w3, _⟩ := w2 ⟨{ toyR2.state with parameters := ⟨3, 2⟩ }⟩ [] ⟨rfl, rfl, toy_holds.wfc, toy_holds.wfm⟩ rfl rfl
  exact ⟨e1, e2, d', a, k1, j1, w1, dv', w3⟩

end Examples

end IceFrost
