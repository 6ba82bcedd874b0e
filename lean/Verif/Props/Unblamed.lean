import Verif.Props.Sessions
import Verif.Props.Robust

/-! # C99: `finish` when complaints are not processed -/

set_option linter.unusedSectionVars false
set_option linter.unusedSimpArgs false

namespace IceFrost

open Finset

attribute [local instance] Classical.propDecidable

variable {F G R : Type} [Field F] [DecidableEq F] [AddCommGroup G] [Module F G] [DecidableEq G]

/-- The error of a stored share: how far its public value is from the dealer's commitments. -/
def shareError (S : Suite F G R) (i : U32) (comms : BMap (VssCommitment G)) (m : BMap (SecretShare F)) (l : U32) : G :=
  ((m.get? l).map (·.eval)).getD 0 • S.gen -
    ((comms.get? l).map fun c => Spec.pointEval c.points (i.toNat : F)).getD 0

/-- C99, exactly when `finish` returns a matching key: for a session that holds a share of each dealer on file, the
key returned matches the commitments if and only if the Lagrange-weighted errors of the stored shares cancel. -/
theorem C99_matches_iff {S : Suite F G R} (hu : Suite.U32Inj F) (d : RoundTwo F G)
    (comms : BMap (VssCommitment G)) (m : BMap (SecretShare F)) (hD : DealersOk comms)
    (hc : d.state.theirCommitments = some comms) (hm : d.state.mySecretShares = some m) (hw : m.WF)
    (hk : ∀ k, k ∈ m.keys ↔ k ∈ comms.keys) (hidx : ∀ k c, comms.get? k = some c → c.index = k) :
    ∃ gk sk, d.finish = .ok (gk, sk) ∧
      ((sk.toPublic S).verify F (comms.map (·.2)) = .ok () ↔
        ∑ l ∈ comms.keys.toFinset, Spec.lagrange (F := F) comms.keys l • shareError S d.state.index comms m l = 0) := by
  have hke : m.keys = comms.keys := BMap.keys_eq_of_mem hw hD.wf hk
  have h := finish_ok hu d comms hc hD.wf.nodup hD.zero
    (fun l => ((comms.get? l).map fun c => c.points.headD 0).getD 0)
    (by
      intro k c hc
      rw [hc]
      have := hD.points k c hc
      cases hp : c.points with
      | nil => exact absurd hp this
      | cons p ps => simp [hp]) m hm hw.nodup (by rw [hke]; exact hD.zero)
    (fun l => ((m.get? l).map (·.eval)).getD 0) (by intro k s hs; rw [hs]; rfl)
  refine ⟨_, _, h, ?_⟩
  have hvi := values_index hD.wf.nodup hidx
  rw [verifyKey_iff hu]
  simp only [IndividualSigningKey.toPublic]
  rw [generateFromCommitments_ok hu _ _ (by rw [hvi]; exact hD.wf.nodup) (by rw [hvi]; exact hD.zero), hvi,
    sum_values_eq hD.wf.nodup hidx, hke]
  simp only [Except.ok.injEq, IndividualVerifyingKey.mk.injEq, true_and]
  unfold shareError Spec.interpolate
  simp only [smul_sub, sum_sub_distrib, sub_eq_zero, sum_smul, mul_smul]
  exact eq_comm

/-- C99 is false: with one bad share on file, `finish` succeeds and returns a key that does not match. -/
theorem C99_one_bad_share {S : Suite F G R} (hu : Suite.U32Inj F) (d : RoundTwo F G)
    (comms : BMap (VssCommitment G)) (m : BMap (SecretShare F)) (hD : DealersOk comms)
    (hc : d.state.theirCommitments = some comms) (hm : d.state.mySecretShares = some m) (hw : m.WF)
    (hk : ∀ k, k ∈ m.keys ↔ k ∈ comms.keys) (hidx : ∀ k c, comms.get? k = some c → c.index = k) (l : U32)
    (hl : l ∈ comms.keys) (hbad : shareError S d.state.index comms m l ≠ 0)
    (hgood : ∀ k ∈ comms.keys, k ≠ l → shareError S d.state.index comms m k = 0) :
    ∃ gk sk, d.finish = .ok (gk, sk) ∧ (sk.toPublic S).verify F (comms.map (·.2)) ≠ .ok () := by
  obtain ⟨gk, sk, h1, h2⟩ := C99_matches_iff (S := S) hu d comms m hD hc hm hw hk hidx
  refine ⟨gk, sk, h1, fun h => ?_⟩
  have := h2.mp h
  rw [sum_eq_single_of_mem l (List.mem_toFinset.mpr hl) (fun k hk' hne => by
    rw [hgood k (List.mem_toFinset.mp hk') hne, smul_zero])] at this
  exact hbad ((smul_eq_zero.mp this).resolve_left (lagrange_ne_zero hu _ hD.zero l))

/-- A receiver of shares from all dealers, with arbitrary values. -/
theorem receive_any {S : Suite F G R} (hg : S.GroupLaws) (dbg : Bool) (D : List U32) (hD : D.Nodup)
    (P : U32 → Participant F G) (cs : U32 → List F) (pk : U32 → G)
    (hP : ∀ l ∈ D, (P l).index = l ∧ (P l).commitments = some ⟨l, commitPoints S (cs l)⟩ ∧ (P l).dhPublicKey = pk l)
    (params : Params) (hn : D.length < 2 ^ 32) (ht : params.t.toNat ≤ D.length) (y : F) (i : U32)
    (sh : Option (BMap EncShare)) (E : U32 → EncShare) (val : U32 → F)
    (hE : ∀ l ∈ D, (E l).senderIndex = l ∧ (E l).receiverIndex = i ∧ Spec.Opens S (E l) (y • pk l) (val l))
    (hbad : params.t.toNat ≤ D.length - (D.filter fun l => val l ≠ Spec.polyEval (cs l) (u32F F i)).length)
    (rng : R) :
    ∃ d2 m comp, RoundOne.toRoundTwo S dbg ⟨roundOneState S params y i true (D.map P) sh⟩ (D.map E) rng =
        .ok (d2, comp) ∧
      comp.map (·.encShare) = (D.filter fun l => val l ≠ Spec.polyEval (cs l) (u32F F i)).map E ∧
      d2.state.index = i ∧ d2.state.theirCommitments = some (dealerMap S D cs) ∧ d2.state.mySecretShares = some m ∧
      m.WF ∧ (∀ k, k ∈ m.keys ↔ k ∈ D) ∧ ∀ l ∈ D, m.get? l = some ⟨l, i, val l⟩ := by
  set d1 : RoundOne F G := ⟨roundOneState S params y i true (D.map P) sh⟩ with hd1
  have hcomms : BMap.ofList (commEntries (D.map P)) = dealerMap S D cs := by
    unfold dealerMap
    congr 1
    unfold commEntries
    rw [List.filterMap_map, ← List.filterMap_eq_map]
    refine List.filterMap_congr fun l hl => ?_
    obtain ⟨h1, h2, _⟩ := hP l hl
    simp only [Function.comp, h1, h2, Option.map_some]
  have hnod : ∀ {α : Type} (f : U32 → α), ((D.map fun l => (l, f l)).map Prod.fst).Nodup := by
    intro α f
    rw [List.map_map]
    have : (Prod.fst ∘ fun l : U32 => (l, f l)) = id := rfl
    rw [this, List.map_id]
    exact hD
  have hde : dhEntries (D.map P) = D.map fun l => (l, pk l) := by
    unfold dhEntries
    rw [List.map_map]
    refine List.map_congr_left fun l hl => ?_
    obtain ⟨h1, _, h3⟩ := hP l hl
    simp only [Function.comp, h1, h3]
  have hdh : ∀ l ∈ D, d1.state.theirDhPublicKeys.get? l = some (pk l) := by
    intro l hl
    show (BMap.ofList (dhEntries (D.map P))).get? l = some (pk l)
    rw [hde, BMap.get?_ofList (hnod _)]
    exact List.mem_map.mpr ⟨l, hl, rfl⟩
  have hlen : d1.state.parameters.n.toNat = D.length := by
    show (UInt32.ofNat (D.map P).length).toNat = D.length
    rw [List.length_map]
    exact UInt32.toNat_ofNat_of_lt (by simpa [UInt32.size] using hn)
  have hc1 : d1.state.theirCommitments = some (dealerMap S D cs) := by
    show some (BMap.ofList (commEntries (D.map P))) = _
    rw [hcomms]
  have hbf : (D.map E).filter (BadFor S d1.state.dhPrivateKey d1.state.theirDhPublicKeys (dealerMap S D cs)) =
      (D.filter fun l => val l ≠ Spec.polyEval (cs l) (u32F F i)).map E := by
    rw [List.filter_map]
    congr 1
    refine List.filter_congr fun l hl => ?_
    obtain ⟨k1, k2, k3⟩ := hE l hl
    simp only [Function.comp, decide_eq_decide]
    unfold BadFor
    rw [k1, hdh l hl]
    constructor
    · rintro ⟨pk', c, hpk, hcm, hng⟩ hv
      cases hpk
      obtain ⟨_, rfl⟩ := (dealerMap_get S hD cs l c).mp hcm
      refine hng ⟨val l, k3, ?_⟩
      rw [k2, hv, pointEval_commitPoints]
      rfl
    · intro hne
      refine ⟨_, _, rfl, (dealerMap_get S hD cs l _).mpr ⟨hl, rfl⟩, ?_⟩
      rintro ⟨v, hv, he⟩
      rw [hv.unique k3, k2, pointEval_commitPoints] at he
      exact hne (hg.gen_inj _ _ he)
  obtain ⟨comp, h1, h2⟩ := toRoundTwo_le S dbg d1 (dealerMap S D cs) hc1 (BMap.wf_ofList _).nodup (D.map E)
    (by rw [List.length_map]; exact ht)
    (by
      intro e he
      obtain ⟨l, hl, rfl⟩ := List.mem_map.mp he
      obtain ⟨k1, k2, _⟩ := hE l hl
      exact ⟨fun _ => k2, by rw [k1]; exact BMap.mem_keys_of_get? (hdh l hl)⟩) rng
    (by rw [hlen]; exact (List.length_filter_le _ _).trans (by rw [List.length_map]))
  rw [hbf] at h1
  have hcl := h1.length_eq
  rw [List.length_map] at hcl
  have hop : (D.map E).filterMap (opened S d1.state.dhPrivateKey d1.state.theirDhPublicKeys) =
      D.map fun l => (l, (⟨l, i, val l⟩ : SecretShare F)) := by
    rw [List.filterMap_map, ← List.filterMap_eq_map]
    refine List.filterMap_congr fun l hl => ?_
    obtain ⟨k1, k2, k3⟩ := hE l hl
    exact opened_eq_some.mpr ⟨pk l, val l, by rw [k1]; exact hdh l hl, k3, k1.symm, by rw [k1, k2]⟩
  refine ⟨⟨roundTwoState S d1.state (D.map E)⟩, BMap.ofList (D.map fun l => (l, (⟨l, i, val l⟩ : SecretShare F))), comp,
    ?_, ?_, rfl, hc1, ?_, BMap.wf_ofList _, ?_, ?_⟩
  · rw [h2, if_neg]
    rw [hlen, hcl, not_lt]
    exact hbad
  · clear hcl h2
    generalize (D.filter fun l => val l ≠ Spec.polyEval (cs l) (u32F F i)).map E = bs at h1
    induction h1 with
    | nil => rfl
    | cons h _ ih => rw [List.map_cons, h.1, ih]
  · show some (BMap.ofList _) = _
    rw [hop]
  · intro k
    rw [BMap.mem_keys_ofList]
    simp
  · intro l hl
    rw [BMap.get?_ofList (hnod _)]
    exact List.mem_map.mpr ⟨l, hl, rfl⟩

/-- C99 is false, a run through the interface: `n > t` participants make honest records; dealer `l` sends participant
`i` a share with a wrong value, all other shares are right. Then `bootstrap` and `to_round_two` of `i` succeed, the
latter with one complaint, and if `i` calls `finish` without processing it, it gets a signing key that does not match
the commitments of the dealers. -/
theorem C99_unblamed_run {S : Suite F G R} (hS : S.Lawful) (dbg : Bool) (params : Params) (ht : params.t ≠ 0)
    (htn : params.t.toNat < params.n.toNat) (idx : List U32) (hidx : idx.Nodup) (hlen : idx.length = params.n.toNat)
    (P : U32 → Participant F G) (cs : U32 → List F) (x : U32 → F) (r1 : U32 → R)
    (hP : ∀ l ∈ idx, newDealer S params l (r1 l) = .ok (P l, cs l, x l)) (i : U32) (hi : i ∈ idx) (l : U32)
    (hl : l ∈ idx) (val : U32 → F) (hval : ∀ k ∈ idx, k ≠ l → val k = Spec.polyEval (cs k) (u32F F i))
    (hwrong : val l ≠ Spec.polyEval (cs l) (u32F F i)) (E : U32 → EncShare) (re re' : U32 → R)
    (hE : ∀ k ∈ idx, encryptShare S ⟨k, i, val k⟩ (S.encG (x k • (P i).dhPublicKey)) (re k) = .ok (E k, re' k))
    (rb rng : R) :
    ∃ d1 d2 c gk sk, bootstrap S dbg params (x i) i (cs i) (idx.map P) rb = .ok (d1, ⟨idx.map P, none⟩) ∧
      d1.toRoundTwo S dbg (idx.map E) rng = .ok (d2, [c]) ∧ c.encShare = E l ∧
      d2.finish = .ok (gk, sk) ∧
      (sk.toPublic S).verify F ((dealerMap S idx cs).map (·.2)) ≠ .ok () ∧
      d2.state.theirCommitments = some (dealerMap S idx cs) := by
  have hg := fun k hk => newDealer_good ht (hP k hk)
  have h0 : 0 ∉ idx := fun h => (hg 0 h).1 rfl
  obtain ⟨m, hb, _⟩ := bootstrap_honest hS.cipher hS.codec dbg params ht htn.le (idx.map P)
    (by rw [List.length_map, hlen]) (by
      intro p hp
      obtain ⟨k, hk, rfl⟩ := List.mem_map.mp hp
      exact (hg k hk).2.2.2.2.2) (x i) i (cs i) rb
  have hfil : (idx.filter fun k => val k ≠ Spec.polyEval (cs k) (u32F F i)) = [l] := by
    have : (idx.filter fun k => val k ≠ Spec.polyEval (cs k) (u32F F i)) = idx.filter fun k => k = l := by
      refine List.filter_congr fun k hk => ?_
      rw [decide_eq_decide]
      constructor
      · intro h
        by_contra hne
        exact h (hval k hk hne)
      · rintro rfl; exact hwrong
    rw [this]
    have hc : idx.count l = 1 := List.count_eq_one_of_mem hidx hl
    have he : ∀ y ∈ idx.filter fun k => k = l, y = l := fun y hy => by simpa using (List.mem_filter.mp hy).2
    rw [List.eq_replicate_of_mem he]
    have hlen : (idx.filter fun k => k = l).length = 1 := by
      rw [← hc, List.count, List.countP_eq_length_filter]
      congr 1
    rw [hlen]
    rfl
  have hopens : ∀ k ∈ idx, (E k).senderIndex = k ∧ (E k).receiverIndex = i ∧
      Spec.Opens S (E k) (x i • (P k).dhPublicKey) (val k) := by
    intro k hk
    obtain ⟨e, r, h1, h2, h3, _, h5⟩ := encryptShare_ok hS.cipher hS.codec ⟨k, i, val k⟩
      (S.encG (x k • (P i).dhPublicKey)) (re k)
    have := h1.symm.trans (hE k hk)
    simp only [Except.ok.injEq, Prod.mk.injEq] at this
    obtain ⟨rfl, _⟩ := this
    refine ⟨h2, h3, ?_⟩
    obtain ⟨v, hv, he⟩ := (decryptShare_ok_iff S _ _ _).mp h5
    have hsh : x i • (P k).dhPublicKey = x k • (P i).dhPublicKey := by
      rw [(hg k hk).2.2.2.2.1, (hg i hi).2.2.2.2.1, smul_comm]
    rw [hsh]
    simp only [SecretShare.mk.injEq] at he
    rw [he.2.2]
    exact hv
  obtain ⟨d2, m2, comp, k1, k2, k3, k4, k5, k6, k7, k8⟩ := receive_any hS.group dbg idx hidx P cs
    (fun k => (P k).dhPublicKey) (fun k hk => ⟨(hg k hk).2.1, (hg k hk).2.2.2.1, rfl⟩) params
    (by rw [hlen]; exact params.n.toNat_lt) (by omega) (x i) i (some m) E val hopens
    (by rw [hfil]; simp; omega) rng
  rw [hfil] at k2
  have : ∃ c, comp = [c] ∧ c.encShare = E l := by
    cases comp with
    | nil => simp at k2
    | cons c cs' =>
      simp only [List.map_cons, List.map_nil, List.cons.injEq, List.map_eq_nil_iff] at k2
      exact ⟨c, by rw [k2.2], k2.1⟩
  obtain ⟨c, rfl, hce⟩ := this
  have hDok := dealerMap_ok S hidx h0 cs (fun k hk he => by
    have := (hg k hk).2.2.1
    rw [he, List.length_nil] at this
    exact ht (UInt32.toNat_inj.mp (by simpa using this.symm)))
  have herr : ∀ k ∈ idx, shareError S d2.state.index (dealerMap S idx cs) m2 k =
      (val k - Spec.polyEval (cs k) (u32F F i)) • S.gen := by
    intro k hk
    unfold shareError
    rw [k8 k hk, (dealerMap_get S hidx cs k _).mpr ⟨hk, rfl⟩, k3]
    simp only [Option.map_some, Option.getD_some]
    rw [pointEval_commitPoints, sub_smul]
    rfl
  obtain ⟨gk, sk, f1, f2⟩ := C99_one_bad_share (S := S) hS.u32 d2 (dealerMap S idx cs) m2 hDok k4 k5 k6
    (fun k => (k7 k).trans (dealerMap_keys S idx cs k).symm)
    (fun k c hc => by obtain ⟨_, rfl⟩ := (dealerMap_get S hidx cs k c).mp hc; rfl) l ((dealerMap_keys S idx cs l).mpr hl)
    (by
      rw [herr l hl]
      intro h
      exact hwrong (sub_eq_zero.mp (hS.group.gen_inj _ 0 (by rw [h, zero_smul]))))
    (fun k hk hne => by
      have hk := (dealerMap_keys S idx cs k).mp hk
      rw [herr k hk, hval k hk hne, sub_self, zero_smul])
  exact ⟨_, d2, c, gk, sk, hb, k1, hce, f1, f2, k4⟩

/-- C99, what holds: a participant that got at least one share labelled for it from every dealer and then processes a
complaint list containing all of its own complaints finishes with a matching key.

Missing for the full C99: that `finish` checks this itself (`C99_unblamed_run`). The index range is needed because of
C43, the labels because of C82. -/
theorem C99_after_blame_partial {S : Suite F G R} (hu : Suite.U32Inj F) (dbg : Bool) (d1 : RoundOne F G)
    (comms : BMap (VssCommitment G)) (hcomms : d1.state.theirCommitments = some comms) (hD : DealersOk comms)
    (hidx : ∀ k c, comms.get? k = some c → c.index = k)
    (hdk : ∀ k ∈ d1.state.theirDhPublicKeys.keys, k ∈ comms.keys)
    (hrange : ∀ k ∈ comms.keys, k.toNat ≤ d1.state.parameters.n.toNat) (es : List EncShare) (rng : R)
    (hlabel : ∀ e ∈ es, e.receiverIndex = d1.state.index)
    (hall : ∀ k ∈ comms.keys, ∃ e ∈ es, e.senderIndex = k)
    (d2 : RoundTwo F G) (cs : List (Complaint F G)) (h : d1.toRoundTwo S dbg es rng = .ok (d2, cs))
    (all : List (Complaint F G)) (hsub : ∀ c ∈ cs, c ∈ all) :
    ∃ d3 keys comms' gk sk, d2.blame S all = .ok (d3, keys) ∧ d3.state.theirCommitments = some comms' ∧
      d3.finish = .ok (gk, sk) ∧ (sk.toPublic S).verify F (comms'.map (·.2)) = .ok () := by
  obtain ⟨m', h1, h2⟩ := verified_after_blame S dbg d1 comms hcomms hD.wf hD.zero hdk es rng hlabel hall d2 cs h
    (fun _ _ hk => hrange _ hk) all hsub
  set rem := all.map (verdict S d2.state comms)
  have hD' : DealersOk (comms.filter fun e => e.1 ∉ rem) := by
    refine ⟨BMap.wf_filter hD.wf _, ?_, ?_⟩
    · rw [mem_keys_filter_not_mem hD.wf]; exact fun hk => hD.zero hk.1
    · intro k c hc
      rw [get?_filter_not_mem hD.wf] at hc
      split at hc
      · cases hc
      · exact hD.points k c hc
  obtain ⟨gk, sk, k1, _, _, k4⟩ := C33_finish_consistent hu _ _ m' hD' h2 (by
    intro k c hc
    rw [get?_filter_not_mem hD.wf] at hc
    split at hc
    · cases hc
    · exact hidx k c hc)
  exact ⟨_, _, _, gk, sk, h1, rfl, k1, k4⟩

/-! ### The run with three participants and threshold 2, dealer 3 sending participant 1 a share that is off by one -/

section Examples

open Toy

example : ∃ (d1 : RoundOne Fp Fp) (es : List EncShare) (d2 : RoundTwo Fp Fp) (c : Complaint Fp Fp) (gk : Fp)
    (sk : IndividualSigningKey Fp) (comms : BMap (VssCommitment Fp)) (ps : List (Participant Fp Fp)),
    ReachTwo suite true ps es d2 ∧ d1.toRoundTwo suite true es 0 = .ok (d2, [c]) ∧ d2.finish = .ok (gk, sk) ∧
      d2.state.theirCommitments = some comms ∧ (sk.toPublic suite).verify Fp (comms.map (·.2)) ≠ .ok () := by
  obtain ⟨P, cs, x, h0, _⟩ := C36_honest_dkg lawful true ⟨3, 2⟩ (by decide)
    (by decide) [1, 2, 3] (by decide) (by decide) rfl (fun _ => [1, 2, 3]) (fun _ => [3, 1, 2])
    (fun _ _ => List.Perm.refl _) (fun _ _ => by decide) (fun _ => 0) (fun _ => 0) (fun _ => 0)
  set val : U32 → Fp := fun k => Spec.polyEval (cs k) (u32F Fp 1) + if k = 3 then 1 else 0 with hval
  have hE : ∀ k : U32, ∃ e r, encryptShare suite ⟨k, 1, val k⟩ (suite.encG (x k • (P 1).dhPublicKey)) 0 = .ok (e, r) :=
    fun k => by
      obtain ⟨e, r, h, _⟩ := encryptShare_ok cipher_laws codec_laws ⟨k, 1, val k⟩ _ 0
      exact ⟨e, r, h⟩
  choose E r hE using hE
  obtain ⟨d1, d2, c, gk, sk, k1, k2, _, k4, k5, k6⟩ := C99_unblamed_run lawful true ⟨3, 2⟩ (by decide) (by decide)
    [1, 2, 3] (by decide) rfl P cs x (fun _ => 0) h0 1 (by decide) 3 (by decide) val
    (fun k _ hk => by simp [hval, hk]) (by simp [hval]) E (fun _ => 0) r (fun k _ => hE k) 0 0
  exact ⟨d1, _, d2, c, gk, sk, _, _, .round _ _ _ _ _ _ (.bootstrap _ _ _ _ _ _ _ _ k1) k2, k2, k4, k6, k5⟩

end Examples

end IceFrost
