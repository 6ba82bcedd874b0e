import Verif.Props.Takeover

/-! # C133: the robustness of resharing -/

set_option linter.unusedSectionVars false
set_option linter.unusedSimpArgs false
set_option linter.unusedVariables false

namespace IceFrost

open Finset

attribute [local instance] Classical.propDecidable

variable {F G R : Type} [Field F] [DecidableEq F] [AddCommGroup G] [Module F G] [DecidableEq G]

/-- C133, negation: one dealer takes over a resharing. The old signers `D`, at least `t` of them, reshare their keys
honestly to the new signers `I`, whose indices include those of `D` but not `b`; a further old signer `b` publishes an
acceptable record. If `b` is larger than the number of dealers, as it may be in any resharing by a part of the old signers,
it can deal any wrong shares `v i`. Every new signer complains about `b`; when these complaints are processed, `blame`
removes the honest dealers, whose indices are those of makers of complaints, and keeps `b`. The new group key is the
constant that `b` committed to, whatever the old one was, and the signing key of `i` is `v i`. -/
theorem C133_reshare_takeover {S : Suite F G R} (hS : S.Lawful) (dbg : Bool) (pd pn : Params) (ht : pd.t ≠ 0)
    (D I : List U32) (hD : D.Nodup) (hI0 : 0 ∉ I) (hDI : D ⊆ I) (b : U32) (hbI : b ∉ I)
    (hlen : D.length + 1 = pd.n.toNat) (htD : pd.t.toNat ≤ D.length) (hlate : pd.n.toNat < b.toNat)
    (key : U32 → F) (r1 r2 r3 r4 : U32 → R) (Q : U32 → Participant F G) (y : U32 → F)
    (hQ : ∀ i ∈ I, newSigner S pn i (r1 i) = .ok (Q i, y i)) (ordI : U32 → List U32) (hoI : ∀ l ∈ D, (ordI l).Perm I)
    (P : U32 → Participant F G) (m : U32 → BMap EncShare) (LI : U32 → ParticipantList F G)
    (hP : ∀ l ∈ D, reshare S dbg pn ⟨l, key l⟩ ((ordI l).map Q) (r2 l) = .ok (P l, m l, LI l))
    (hbi : (P b).index = b) (hbv : Spec.DealerValid S (P b)) (cb : VssCommitment G) (hcb : (P b).commitments = some cb)
    (ord ord' : U32 → List U32) (ho : ∀ i ∈ I, (ord i).Perm (b :: D)) (ho' : ∀ i ∈ I, (ord' i).Perm (b :: D))
    (E : U32 → U32 → EncShare) (v : U32 → F) (hE : ∀ l ∈ D, ∀ i ∈ I, (m l).get? i = some (E l i))
    (hEb : ∀ i ∈ I, (E b i).senderIndex = b ∧ (E b i).receiverIndex = i ∧
        Spec.Opens S (E b i) (y i • (P b).dhPublicKey) (v i) ∧ v i • S.gen ≠ Spec.pointEval cb.points (i.toNat : F)) :
    ∃ d1 : U32 → RoundOne F G, (∀ i ∈ I, dkgNew S dbg pd (y i) i ((ord i).map P) (r3 i) =
        .ok (d1 i, ⟨(ord i).map P, none⟩)) ∧
    ∃ (d2 : U32 → RoundTwo F G) (cs : U32 → List (Complaint F G)),
      (∀ i ∈ I, (d1 i).toRoundTwo S dbg ((ord' i).map fun l => E l i) (r4 i) = .ok (d2 i, cs i) ∧ cs i ≠ [] ∧
        ∀ c ∈ cs i, c.encShare.senderIndex = b) ∧
    ∀ all : U32 → List (Complaint F G), (∀ i ∈ I, ∀ c, c ∈ all i ↔ ∃ j ∈ I, c ∈ cs j) →
    ∃ (d3 : U32 → RoundTwo F G) (keys : U32 → List G), ∀ i ∈ I, (d2 i).blame S (all i) = .ok (d3 i, keys i) ∧
      (∀ j ∈ D, (P j).dhPublicKey ∈ keys i) ∧ (d3 i).finish = .ok (cb.points.headD 0, ⟨i, v i⟩) := by
  have hQi : ∀ i ∈ I, (Q i).index = i ∧ (Q i).dhPublicKey = y i • S.gen ∧ Spec.DhValid S (Q i) := by
    intro i hi
    obtain ⟨p, dh, rng', h, h1, _, _, h4, h5⟩ := newInternal_signer S pn i (fun h => hI0 (h ▸ hi)) none (r1 i)
    have := hQ i hi
    unfold newSigner at this
    rw [h] at this
    cases this
    exact ⟨h1, h4, h5⟩
  have hfacts := fun l hl => reshare_facts hS.cipher hS.codec dbg
    (fun i hi => (hQi i ((hoI l hl).mem_iff.mp hi)).1) (hP l hl)
  choose! cs x f1 f2 f3 f4 f5 f6 f7 using hfacts
  have hA : (b :: D).Nodup := List.nodup_cons.mpr ⟨fun h => hbI (hDI h), hD⟩
  have hAv : ∀ l ∈ b :: D, (P l).index = l ∧ Spec.DealerValid S (P l) := by
    intro l hl
    rcases List.mem_cons.mp hl with rfl | hl
    · exact ⟨hbi, hbv⟩
    · exact ⟨f1 l hl, f6 l hl⟩
  have hnew := fun i (hi : i ∈ I) => new_honest (S := S) dbg pd ht (by omega) ((ord i).map P)
      (by rw [List.length_map, (ho i hi).length_eq, List.length_cons, hlen])
      (fun p hp => by
        obtain ⟨l, hl, rfl⟩ := List.mem_map.mp hp
        exact (hAv l ((ho i hi).mem_iff.mp hl)).2) (y i) i (r3 i)
  have hview : ∀ i ∈ I, ∃ comms, PublicView S pd P (b :: D) i (y i)
      ⟨roundOneState S pd (y i) i true ((ord i).map P) none⟩ comms := by
    intro i hi
    obtain ⟨k1, _, k3, k4, k5, k6, k7, k8, _⟩ := C20_new_classifies dbg pd _ _ _ _ _ _ (hnew i hi)
    exact publicView_of_records pd P _ hA (fun l hl => (hAv l hl).1) (ord i) (ho i hi) i (y i) _ k3 k4 k5 k6 k7 k8
  choose! comms hv using hview
  refine ⟨_, hnew, takeover_core hS.u32 dbg pd P D hD htD b I hDI hbI (by rw [hlen]; exact hlate) r4 y ?_ cb hcb ?_ ord' ho' _
    comms hv E v ?_ hEb⟩
  · intro l hl
    obtain ⟨_, c, _, _, hc, _⟩ := (hAv l hl).2
    exact ⟨c, hc⟩
  · obtain ⟨_, c, pk, _, hc, h2, _⟩ := hbv
    rw [hcb] at hc; cases hc
    exact ⟨pk, h2⟩
  · intro i hi l hl
    obtain ⟨e, he, k1, k2, k3⟩ := f7 l hl i ((hoI l hl).mem_iff.mpr hi)
    rw [hE l hl i hi] at he
    cases he
    refine ⟨k1, k2, fun c hc => ?_⟩
    rw [f4 l hl] at hc; cases hc
    rw [(hQi i hi).2.1, smul_comm, ← f5 l hl] at k3
    refine ⟨_, k3, ?_⟩
    rw [k2]
    exact (pointEval_commitPoints S _ _).symm

/-- With at least `t` acceptable dealer records and none that lacks its proof, `new` succeeds. -/
theorem new_view {S : Suite F G R} (dbg : Bool) (params : Params) (ht : params.t ≠ 0)
    (idx : List U32) (hidx : idx.Nodup) (hlen : idx.length = params.n.toNat) (P : U32 → Participant F G)
    (hPi : ∀ l ∈ idx, (P l).index = l ∧ ¬ Spec.LacksProof S (P l)) (A : List U32) (hA : A.Nodup)
    (hAm : ∀ l, l ∈ A ↔ l ∈ idx ∧ Spec.DealerValid S (P l)) (htA : params.t.toNat ≤ A.length)
    (x : F) (i : U32) (ord : List U32) (ho : ord.Perm idx) (rng : R) :
    ∃ d L comms, dkgNew S dbg params x i (ord.map P) rng = .ok (d, L) ∧ PublicView S params P A i x d comms := by
  have hfil : ((ord.map P).filter (Spec.DealerValid S)) = (ord.filter fun l => Spec.DealerValid S (P l)).map P := by
    rw [List.filter_map]; rfl
  have hperm : (ord.filter fun l => Spec.DealerValid S (P l)).Perm A := by
    rw [List.perm_ext_iff_of_nodup ((ho.nodup_iff.mpr hidx).filter _) hA]
    intro l
    simp [hAm, ho.mem_iff]
  obtain ⟨_, h2⟩ := newState_receive (S := S) dbg params x i none (ord.map P) rng ht
    (by rw [List.length_map, ho.length_eq, hlen])
    (by
      intro p hp
      obtain ⟨l, hl, rfl⟩ := List.mem_map.mp hp
      exact (hPi l (ho.mem_iff.mp hl)).2)
  have hok : ∃ d L, dkgNew S dbg params x i (ord.map P) rng = .ok (d, L) := by
    unfold dkgNew
    rw [h2 (by rw [accepts_new, hfil, List.length_map, hperm.length_eq]; exact htA)]
    exact ⟨_, _, rfl⟩
  obtain ⟨d, L, hres⟩ := hok
  obtain ⟨k1, _, k3, k4, k5, k6, k7, k8, _⟩ := C20_new_classifies dbg params _ _ _ _ _ _ hres
  rw [k1, hfil] at k3 k5 k6
  obtain ⟨comms, hv⟩ := publicView_of_records (S := S) params P A hA (fun l hl => (hPi l ((hAm l).mp hl).1).1) _ hperm i x d
    k3 k4 k5 k6 k7 k8
  exact ⟨d, L, comms, hres, hv⟩

/-- C133, what holds: at least `t` old signers `D` reshare honestly to the new signers `N`, of whom those in `I` follow the
protocol; the other dealers publish arbitrary records under their own indices, except records without a proof of knowledge,
and deal arbitrary shares (labelled with sender and receiver), one to each new signer in `I` from every accepted dealer;
accepted dealers outside `D` have indices between 1 and the number of accepted dealers and committed to their old verifying
share and to at most as many points as the new threshold. All complaints of `I` are processed, and any others that pass the
checks of `C135_screened_partial`, by new signers whose indices are not those of dealers in `D`. Then nobody in `I` aborts,
no dealer in `D` is removed, and the new signers keep the group key, with keys of which any `t` of the new threshold
interpolate to the old secret.

Missing for the full C133: records without proof (C22), larger indices (`C133_reshare_takeover`), dealers that commit to
another constant or to more points (`C81_wrong_share_changes_key`, C26), shares that are not sent (C122) and complaints that
fail the checks (C45, C46, C135). -/
theorem C133_key_kept_partial {S : Suite F G R} (hS : S.Lawful) (dbg : Bool) (pd pn : Params) (ht : pd.t ≠ 0)
    (idx : List U32) (hidx : idx.Nodup) (hlen : idx.length = pd.n.toNat) (P : U32 → Participant F G)
    (hPi : ∀ l ∈ idx, (P l).index = l ∧ ¬ Spec.LacksProof S (P l)) (A : List U32) (hA : A.Nodup)
    (hAm : ∀ l, l ∈ A ↔ l ∈ idx ∧ Spec.DealerValid S (P l))
    (D : List U32) (hD : D.Nodup) (hDi : D ⊆ idx) (htD : pd.t.toNat ≤ D.length) (key : U32 → F) (s : F)
    (hkey : ∀ J : List U32, J.Nodup → J ⊆ idx → pd.t.toNat ≤ J.length → Spec.interpolate J key = s)
    (hrange : ∀ l ∈ A, l ∉ D → l ≠ 0 ∧ l.toNat ≤ A.length)
    (hcommit : ∀ l ∈ A, l ∉ D → ∀ c, (P l).commitments = some c → c.points.length ≤ pn.t.toNat ∧
      c.points.head? = some (key l • S.gen))
    (N I : List U32) (hIN : I ⊆ N) (hI0 : 0 ∉ I) (hIe : I ≠ []) (r1 r2 r3 r4 : U32 → R) (Q : U32 → Participant F G)
    (y : U32 → F) (hQ : ∀ i ∈ I, newSigner S pn i (r1 i) = .ok (Q i, y i)) (hQN : ∀ j ∈ N, (Q j).index = j)
    (ordI : U32 → List U32) (hoI : ∀ l ∈ D, (ordI l).Perm N)
    (m : U32 → BMap EncShare) (LI : U32 → ParticipantList F G)
    (hP : ∀ l ∈ D, reshare S dbg pn ⟨l, key l⟩ ((ordI l).map Q) (r2 l) = .ok (P l, m l, LI l))
    (ord ord' : U32 → List U32) (ho : ∀ i ∈ I, (ord i).Perm idx) (ho' : ∀ i ∈ I, (ord' i).Perm A) (E : U32 → U32 → EncShare)
    (hE : ∀ l ∈ A, ∀ i ∈ I, (E l i).senderIndex = l ∧ (E l i).receiverIndex = i)
    (hED : ∀ l ∈ D, ∀ i ∈ N, (m l).get? i = some (E l i)) :
    ∃ (d1 : U32 → RoundOne F G) (L : U32 → ParticipantList F G) (d2 : U32 → RoundTwo F G) (cs : U32 → List (Complaint F G)),
      (∀ i ∈ I, dkgNew S dbg pd (y i) i ((ord i).map P) (r3 i) = .ok (d1 i, L i)) ∧
      (∀ i ∈ I, (d1 i).toRoundTwo S dbg ((ord' i).map fun l => E l i) (r4 i) = .ok (d2 i, cs i)) ∧
    ∀ all : U32 → List (Complaint F G), (∀ i ∈ I, ∀ j ∈ I, ∀ c ∈ cs j, c ∈ all i) →
      (∀ i ∈ I, ∀ j ∈ I, ∀ c, c ∈ all i ↔ c ∈ all j) →
      (∀ i ∈ I, ∀ c ∈ all i, (∃ j ∈ I, c ∈ cs j) ∨ ∃ l, ∃ j ∈ N, j ∉ D ∧
        c.encShare.senderIndex = l ∧ c.encShare.receiverIndex = j ∧ (l ∈ D → c.encShare = E l j ∧
          c.dhPublicKey = (Q j).dhPublicKey ∧ (c.verify S (P l).dhPublicKey = .ok () →
            ∃ y : F, c.dhPublicKey = y • S.gen ∧ c.dhSharedKey = y • (P l).dhPublicKey))) →
    ∃ (left : List U32) (keys : List G) (key' : U32 → F) (d3 : U32 → RoundTwo F G), D ⊆ left ∧
      (∀ i ∈ I, (d2 i).blame S (all i) = .ok (d3 i, keys) ∧
        (d3 i).state.theirCommitments.map BMap.keys = some left ∧ (d3 i).finish = .ok (s • S.gen, ⟨i, key' i⟩)) ∧
      ∀ J : List U32, J.Nodup → J ⊆ I → pn.t.toNat ≤ J.length → Spec.interpolate J key' = s := by
  have hQi : ∀ i ∈ I, (Q i).index = i ∧ (Q i).dhPublicKey = y i • S.gen ∧ Spec.DhValid S (Q i) := by
    intro i hi
    obtain ⟨p, dh, rng', h, h1, _, _, h4, h5⟩ := newInternal_signer S pn i (fun h => hI0 (h ▸ hi)) none (r1 i)
    have := hQ i hi
    unfold newSigner at this
    rw [h] at this
    cases this
    exact ⟨h1, h4, h5⟩
  have hfacts := fun l hl => reshare_facts hS.cipher hS.codec dbg
    (fun i hi => hQN i ((hoI l hl).mem_iff.mp hi)) (hP l hl)
  choose! cs x f1 f2 f3 f4 f5 f6 f7 using hfacts
  have hD0 : ∀ l ∈ D, l ≠ 0 := by
    intro l hl
    obtain ⟨_, _, _, h, _⟩ := reshare_shares hS.cipher hS.codec dbg pn _ _ _ _ _ _ (hP l hl)
    exact h
  have hDA : D ⊆ A := fun l hl => (hAm l).mpr ⟨hDi hl, f6 l hl⟩
  obtain ⟨l0, hl0⟩ : ∃ l, l ∈ D := by
    refine List.exists_mem_of_ne_nil D fun h => ht (UInt32.toNat_inj.mp ?_)
    rw [h] at htD
    simpa using htD
  have htn : pn.t.toNat ≠ 0 := by
    intro h
    have h3 := f3 l0 hl0
    have h2 := f2 l0 hl0
    rw [h] at h2
    rw [List.length_eq_zero_iff.mp h2] at h3
    cases h3
  have hcon : ∀ l ∈ A, ∀ c, (P l).commitments = some c → c.points.length ≤ pn.t.toNat ∧
      c.points.head? = some (key l • S.gen) := by
    intro l hl c hc
    by_cases h : l ∈ D
    · rw [f4 l h] at hc; cases hc
      refine ⟨by rw [commitPoints_length, f2 l h], ?_⟩
      have := f3 l h
      unfold commitPoints
      rw [List.head?_map, this]; rfl
    · exact hcommit l hl h c hc
  have hgood : ∀ l ∈ D, ∀ j ∈ N, ∀ w : F, (Q j).dhPublicKey = w • S.gen → ∀ c, (P l).commitments = some c →
      Spec.GoodShare S (w • (P l).dhPublicKey) c.points (E l j) := by
    intro l hl j hj w hw c hc
    rw [f4 l hl] at hc; cases hc
    obtain ⟨e, he, k1, k2, k3⟩ := f7 l hl j ((hoI l hl).mem_iff.mpr hj)
    rw [hED l hl j hj] at he
    cases he
    rw [hw, smul_comm, ← f5 l hl] at k3
    refine ⟨_, k3, ?_⟩
    rw [k2]
    exact (pointEval_commitPoints S _ _).symm
  have hview := fun i (hi : i ∈ I) => new_view dbg pd ht idx hidx hlen P hPi A hA hAm
    (htD.trans (hD.subperm hDA).length_le) (y i) i (ord i) (ho i hi) (r3 i)
  haveI : Nonempty (ParticipantList F G) := ⟨⟨[], none⟩⟩
  choose! d1 L comms hnew hv using hview
  obtain ⟨d2, cs2, h1, _, h3⟩ := uninterrupted_core hS dbg pd (Spec.DealerValid S) (fun p hp => hp) pn.t.toNat
    htn idx hidx P (fun l hl => (hPi l hl).1) A hA hAm (fun l hl c hc => (hcon l hl c hc).1) D hD hDA htD
    (by
      intro l hl
      by_cases h : l ∈ D
      · exact hD0 l h
      · exact (hrange l hl h).1)
    (fun l hl h => (hrange l hl h).2) I r4 y ord ord' ho ho' d1 comms hv
    (by
      intro i hi
      obtain ⟨k1, _, k3, _, k5, k6, k7, _⟩ := C20_new_classifies dbg pd _ _ _ _ _ _ (hnew i hi)
      rw [k1] at k3 k5 k6
      exact ⟨k3, k5, k6, k7⟩) E hE
    (fun l hl i hi => hgood l hl i (hIN hi) (y i) (hQi i hi).2.1)
  refine ⟨d1, L, d2, cs2, hnew, h1, fun all hsub hsame hscr => ?_⟩
  obtain ⟨comms', s', keys, key', d3, w1, w2, w3, w4, w5, w6⟩ := h3 all hsub hsame (by
    intro i hi c hc
    rcases hscr i hi c hc with h | ⟨l, j, hj, hjD, hs, hr, hl⟩
    · exact .inl h
    · refine .inr ⟨by rw [hr]; exact hjD, fun hsD vc hvc hver => ?_⟩
      rw [hs] at hsD hvc hver
      obtain ⟨he, hk, hy⟩ := hl hsD
      obtain ⟨w, hw1, hw2⟩ := hy hver
      rw [hw2, he]
      exact hgood l hsD j hj w (hk.symm.trans hw1) vc hvc)
  obtain ⟨i0, hi0⟩ := List.exists_mem_of_ne_nil I hIe
  have hDl := w2 i0 hi0
  have hkA : comms'.keys ⊆ A := by
    intro k hk
    obtain ⟨c, hc⟩ := BMap.exists_get? hk
    exact (w3 k c hc).1
  have hs : s' = s := by
    apply hS.group.gen_inj
    rw [w4, ← hkey comms'.keys w1.nodup (fun k hk => ((hAm k).mp (hkA hk)).1)
      (htD.trans (hD.subperm hDl).length_le)]
    unfold Spec.interpolateG Spec.interpolate
    rw [sum_smul]
    refine sum_congr rfl fun l hl => ?_
    obtain ⟨c, hc⟩ := BMap.exists_get? (List.mem_toFinset.mp hl)
    obtain ⟨hlA, hcm⟩ := w3 l c hc
    have := (hcon l hlA c hcm).2
    beta_reduce
    rw [hc, mul_smul]
    simp only [Option.map_some, Option.getD_some]
    rw [List.headD_eq_head?_getD, this, Option.getD_some]
  subst hs
  refine ⟨comms'.keys, keys, key', d3, hDl, fun i hi => ?_, w6⟩
  obtain ⟨k1, k2, k3, _⟩ := w5 i hi
  exact ⟨k1, by rw [k2]; rfl, k3⟩

section Examples
open Toy

/-- The old keys: shares of 42 with threshold 2. -/
private def oldKey (i : U32) : Fp := Spec.polyEval [(42 : Fp), 7] (u32F Fp i)

/-- The signers 1, 2, 3 of a resharing with threshold 2 and what each dealer `l` sends them. -/
private theorem toy_reshare : ∃ (Q : U32 → Participant Fp Fp) (y : U32 → Fp), (∀ i ∈ [(1 : U32), 2, 3],
    newSigner suite ⟨3, 2⟩ i 0 = .ok (Q i, y i) ∧ (Q i).index = i ∧ (Q i).dhPublicKey = y i • suite.gen) ∧ ∃ (P : U32 → Participant Fp Fp) (m : U32 → BMap EncShare)
    (E : U32 → U32 → EncShare), ∀ l : U32, l ≠ 0 →
      reshare suite true ⟨3, 2⟩ ⟨l, oldKey l⟩ ([1, 2, 3].map Q) 0 = .ok (P l, m l, ⟨[1, 2, 3].map Q, none⟩) ∧
      (P l).index = l ∧ Spec.DealerValid suite (P l) ∧
      (∃ cs : List Fp, cs.length = 2 ∧ cs.head? = some (oldKey l) ∧ (P l).commitments = some ⟨l, commitPoints suite cs⟩) ∧
      ∀ i ∈ [(1 : U32), 2, 3], (m l).get? i = some (E l i) ∧ (E l i).senderIndex = l ∧ (E l i).receiverIndex = i := by
  have hs : ∀ i ∈ [(1 : U32), 2, 3], ∃ q y, newSigner suite ⟨3, 2⟩ i 0 = .ok (q, y) ∧ q.index = i ∧
      Spec.DhValid suite q ∧ q.dhPublicKey = y • suite.gen := by
    intro i hi
    obtain ⟨p, dh, rng', h, h1, _, _, h4, h5⟩ := newInternal_signer suite ⟨3, 2⟩ i (by rintro rfl; simp at hi) none 0
    exact ⟨p, dh, by unfold newSigner; rw [h], h1, h5, h4⟩
  choose! Q y hQ hQi hQv hQy using hs
  have hr : ∀ l : U32, l ≠ 0 → ∃ (p : Participant Fp Fp) (m : BMap EncShare) (E : U32 → EncShare),
      reshare suite true ⟨3, 2⟩ ⟨l, oldKey l⟩ ([1, 2, 3].map Q) 0 = .ok (p, m, ⟨[1, 2, 3].map Q, none⟩) ∧
      p.index = l ∧ Spec.DealerValid suite p ∧
      (∃ cs : List Fp, cs.length = 2 ∧ cs.head? = some (oldKey l) ∧ p.commitments = some ⟨l, commitPoints suite cs⟩) ∧
      ∀ i ∈ [(1 : U32), 2, 3], m.get? i = some (E i) ∧ (E i).senderIndex = l ∧ (E i).receiverIndex = i := by
    intro l hl
    obtain ⟨p, m, h⟩ := reshare_honest cipher_laws codec_laws true ⟨3, 2⟩ (by simp) (by decide) ([1, 2, 3].map Q)
      (by rfl) (by
        intro p hp
        obtain ⟨i, hi, rfl⟩ := List.mem_map.mp hp
        exact hQv i hi) ⟨l, oldKey l⟩ hl 0
    obtain ⟨cs, x, f1, f2, f3, f4, f5, f6, f7⟩ := reshare_facts cipher_laws codec_laws true hQi h
    choose! E e1 e2 e3 e4 using f7
    exact ⟨p, m, E, h, f1, f6, ⟨cs, f2, f3, f4⟩, fun i hi => ⟨e1 i hi, e2 i hi, e3 i hi⟩⟩
  haveI : Nonempty (Participant Fp Fp) := ⟨⟨0, 0, none, none, ⟨0, 0⟩⟩⟩
  choose! P m E h using hr
  exact ⟨Q, y, fun i hi => ⟨hQ i hi, hQi i hi, hQy i hi⟩, P, m, E, h⟩

/-- C133: signers 1 and 2 of a group key that shares 42 reshare it honestly to 1, 2, 3 together with signer 4. The new group
key is the public key of a secret of signer 4. -/
example : ∃ (d2 d3 : U32 → RoundTwo Fp Fp) (cs : U32 → List (Complaint Fp Fp)) (keys : U32 → List Fp) (sec : Fp)
    (key : U32 → Fp), (∀ i ∈ [(1 : U32), 2, 3], (d2 i).blame suite (cs 1 ++ (cs 2 ++ cs 3)) = .ok (d3 i, keys i) ∧
      (d3 i).finish = .ok (sec • suite.gen, ⟨i, key i⟩)) ∧ Spec.interpolate [1, 2] key = sec := by
  obtain ⟨Q, y, hQ', P, m, E, h⟩ := toy_reshare
  have hQ := fun i hi => (hQ' i hi).1
  have hQi := fun i hi => (hQ' i hi).2.1
  obtain ⟨pb, coeffs, xb, hpb, _⟩ := C16_new_dealer suite ⟨3, 2⟩ (by simp) 4 (by simp) 0
  have hpg := newDealer_good (params := ⟨3, 2⟩) (by simp) hpb
  obtain ⟨hk1, hk2⟩ := C132_takeover_keys group_laws u32_inj coeffs 2 le_rfl hpg.2.2.1.le (1 : Fp) one_ne_zero
  set v : U32 → Fp := fun i => Spec.polyEval coeffs (i.toNat : Fp) + 1 * (i.toNat : Fp) with hv
  have hb := fun i : U32 => encryptShare_ok cipher_laws codec_laws ⟨4, i, v i⟩ (suite.encG (y i • pb.dhPublicKey)) 0
  choose Eb _ _ hb1 hb2 _ hb3 using hb
  have hne : ∀ l ∈ [(1 : U32), 2], l ≠ 0 ∧ l ≠ 4 := by
    intro l hl
    constructor <;> (rintro rfl; simp at hl)
  have hup : ∀ l ∈ [(1 : U32), 2], Function.update P 4 pb l = P l := fun l hl => Function.update_of_ne (hne l hl).2 _ _
  have hu4 : Function.update P 4 pb 4 = pb := Function.update_self ..
  obtain ⟨d1, _, d2, cs, _, h5⟩ := C133_reshare_takeover lawful true ⟨3, 2⟩ ⟨3, 2⟩ (by simp) [1, 2] [1, 2, 3] (by simp)
    (by simp) (by simp) 4 (by simp) rfl (by decide) (by decide) oldKey (fun _ => 0) (fun _ => 0) (fun _ => 0) (fun _ => 0)
    Q y hQ (fun _ => [1, 2, 3]) (fun _ _ => List.Perm.refl _) (Function.update P 4 pb) m (fun _ => ⟨[1, 2, 3].map Q, none⟩)
    (fun l hl => by rw [hup l hl]; exact (h l (hne l hl).1).1)
    (by rw [hu4]; exact hpg.2.1) (by rw [hu4]; exact hpg.2.2.2.2.2.1) ⟨4, commitPoints suite coeffs⟩
    (by rw [hu4]; exact hpg.2.2.2.1) (fun _ => [1, 2, 4]) (fun _ => [4, 1, 2]) (fun _ _ => by decide)
    (fun _ _ => List.Perm.refl _) (fun l i => if l = 4 then Eb i else E l i) v
    (fun l hl i hi => by
      simp only [(hne l hl).2, if_false]
      exact ((h l (hne l hl).1).2.2.2.2 i hi).1)
    (fun i hi => by
      simp only [if_true]
      refine ⟨hb1 i, hb2 i, ?_, hk1 i (by rintro rfl; simp at hi)⟩
      obtain ⟨w, hw, he⟩ := (decryptShare_ok_iff suite _ _ _).mp (hb3 i)
      have := congrArg SecretShare.eval he
      simp only at this
      rw [this, hu4]; exact hw)
  obtain ⟨d3, keys, h6⟩ := h5 (fun _ => cs 1 ++ (cs 2 ++ cs 3)) (by simp)
  refine ⟨d2, d3, cs, keys, coeffs.headD 0, v, fun i hi => ⟨(h6 i hi).1, ?_⟩, hk2 _ (by simp) le_rfl⟩
  rw [(h6 i hi).2.2]
  have hl := hpg.2.2.1
  cases hc : coeffs with
  | nil => rw [hc] at hl; cases hl
  | cons a l => rfl

/-- C133: signers 1 and 2 reshare honestly, signer 3 publishes a right record but deals empty ciphertexts; the new signers
1, 2, 3 keep the key. -/
example : ∃ (d2 : U32 → RoundTwo Fp Fp) (cs : U32 → List (Complaint Fp Fp)) (d3 : U32 → RoundTwo Fp Fp) (keys : List Fp)
    (key : U32 → Fp), ∀ i ∈ [(1 : U32), 2, 3], (d2 i).blame suite (cs 1 ++ (cs 2 ++ cs 3)) = .ok (d3 i, keys) ∧
      (d3 i).finish = .ok (Spec.polyEval [(42 : Fp), 7] 0 • suite.gen, ⟨i, key i⟩) := by
  obtain ⟨Q, y, hQ', P, m, E, h⟩ := toy_reshare
  have hQ := fun i hi => (hQ' i hi).1
  have hQi := fun i hi => (hQ' i hi).2.1
  have hne : ∀ l ∈ [(1 : U32), 2, 3], l ≠ 0 := by rintro _ hl rfl; simp at hl
  have h3 : ∀ l ∈ [(1 : U32), 2], l ≠ 0 ∧ l ≠ 3 := by
    intro l hl
    constructor <;> (rintro rfl; simp at hl)
  obtain ⟨d1, L, d2, cs, _, _, h5⟩ := C133_key_kept_partial lawful true ⟨3, 2⟩ ⟨3, 2⟩ (by simp) [1, 2, 3] (by simp) rfl P
    (fun l hl => ⟨(h l (hne l hl)).2.1, by
      rintro ⟨_, hnone, _⟩
      obtain ⟨_, _, _, _, _, _, hp, _⟩ := (h l (hne l hl)).2.2.1
      rw [hnone] at hp; cases hp⟩)
    [1, 2, 3] (by simp) (fun l => ⟨fun hl => ⟨hl, (h l (hne l hl)).2.2.1⟩, fun hl => hl.1⟩) [1, 2] (by simp) (by simp) le_rfl
    oldKey _ (fun J hJ _ hl => interpolate_polyEval u32_inj hJ _ hl)
    (by
      intro l hl hn
      obtain rfl : l = 3 := by simp at hl hn; tauto
      decide)
    (by
      intro l hl _ c hc
      obtain ⟨cs, h1, h2, h3⟩ := (h l (hne l hl)).2.2.2.1
      rw [h3] at hc; cases hc
      refine ⟨by rw [commitPoints_length, h1]; rfl, ?_⟩
      unfold commitPoints
      rw [List.head?_map, h2]; rfl)
    [1, 2, 3] [1, 2, 3] (fun _ h => h) (by simp) (by simp) (fun _ => 0) (fun _ => 0) (fun _ => 0) (fun _ => 0) Q y hQ hQi
    (fun _ => [1, 2, 3]) (fun _ _ => List.Perm.refl _) m (fun _ => ⟨[1, 2, 3].map Q, none⟩) (fun l hl => (h l (h3 l hl).1).1)
    (fun _ => [1, 2, 3]) (fun _ => [3, 1, 2]) (fun _ _ => List.Perm.refl _) (fun _ _ => by decide)
    (fun l i => if l = 3 then ⟨3, i, [], []⟩ else E l i)
    (by
      intro l hl i hi
      by_cases h' : l = 3
      · subst h'; simp
      · simp only [h', if_false]
        exact ((h l (hne l hl)).2.2.2.2 i hi).2)
    (by
      intro l hl i hi
      simp only [(h3 l hl).2, if_false]
      exact ((h l (h3 l hl).1).2.2.2.2 i hi).1)
  obtain ⟨_, keys, key, d3, _, h6, _⟩ := h5 (fun _ => cs 1 ++ (cs 2 ++ cs 3))
    (by
      intro i _ j hj c hc
      simp only [List.mem_cons, List.not_mem_nil, or_false] at hj
      rcases hj with rfl | rfl | rfl <;> simp [hc]) (fun _ _ _ _ _ => Iff.rfl)
    (by
      intro i _ c hc
      simp only [List.mem_append] at hc
      rcases hc with hc | hc | hc
      exacts [.inl ⟨1, by simp, hc⟩, .inl ⟨2, by simp, hc⟩, .inl ⟨3, by simp, hc⟩])
  exact ⟨d2, cs, d3, keys, key, fun i hi => ⟨(h6 i hi).1, (h6 i hi).2.2⟩⟩

/-- C133: dealers 1 and 2 reshare honestly to 1, 2, 3. Signer 3 complains about the good share of dealer 1; the complaint
verifies, but dealer 1 stays and 1 and 2 keep the key. -/
example : ∃ (d2 : U32 → RoundTwo Fp Fp) (c : Complaint Fp Fp) (d3 : U32 → RoundTwo Fp Fp) (keys : List Fp)
    (key : U32 → Fp) (pk : Fp), c.verify suite pk = .ok () ∧ c.encShare.senderIndex = 1 ∧
      ∀ i ∈ [(1 : U32), 2], ∃ cs, (d2 i).blame suite (c :: cs) = .ok (d3 i, keys) ∧
      (d3 i).finish = .ok (Spec.polyEval [(42 : Fp), 7] 0 • suite.gen, ⟨i, key i⟩) := by
  obtain ⟨Q, y, hQ', P, m, E, h⟩ := toy_reshare
  have hne : ∀ l ∈ [(1 : U32), 2], l ≠ 0 := by rintro _ hl rfl; simp at hl
  have hin : ∀ i ∈ [(1 : U32), 2], i ∈ [(1 : U32), 2, 3] := by intro i hi; simp at hi ⊢; tauto
  obtain ⟨d1, L, d2, cs, _, _, h5⟩ := C133_key_kept_partial lawful true ⟨2, 2⟩ ⟨3, 2⟩ (by simp) [1, 2] (by simp) rfl P
    (fun l hl => ⟨(h l (hne l hl)).2.1, by
      rintro ⟨_, hnone, _⟩
      obtain ⟨_, _, _, _, _, _, hp, _⟩ := (h l (hne l hl)).2.2.1
      rw [hnone] at hp; cases hp⟩)
    [1, 2] (by simp) (fun l => ⟨fun hl => ⟨hl, (h l (hne l hl)).2.2.1⟩, fun hl => hl.1⟩) [1, 2] (by simp) (by simp) le_rfl
    oldKey _ (fun J hJ _ hl => interpolate_polyEval u32_inj hJ _ hl) (fun l hl hn => absurd hl hn)
    (fun l hl hn => absurd hl hn)
    [1, 2, 3] [1, 2] hin (by simp) (by simp) (fun _ => 0) (fun _ => 0) (fun _ => 0) (fun _ => 0) Q y
    (fun i hi => (hQ' i (hin i hi)).1) (fun i hi => (hQ' i hi).2.1) (fun _ => [1, 2, 3])
    (fun _ _ => List.Perm.refl _) m (fun _ => ⟨[1, 2, 3].map Q, none⟩) (fun l hl => (h l (hne l hl)).1)
    (fun _ => [1, 2]) (fun _ => [2, 1]) (fun _ _ => List.Perm.refl _) (fun _ _ => by decide) E
    (fun l hl i hi => ((h l (hne l hl)).2.2.2.2 i (hin i hi)).2)
    (fun l hl i hi => ((h l (hne l hl)).2.2.2.2 i hi).1)
  have hE : (E 1 3).senderIndex = 1 ∧ (E 1 3).receiverIndex = 3 := ((h 1 (by decide)).2.2.2.2 3 (by simp)).2
  set c := (Complaint.new suite (P 1).dhPublicKey (y 3) (y 3 • (P 1).dhPublicKey) (E 1 3) 0).1 with hc
  obtain ⟨_, keys, key, d3, _, h6, _⟩ := h5 (fun _ => c :: (cs 1 ++ cs 2))
    (by
      intro i _ j hj c hc
      simp only [List.mem_cons, List.not_mem_nil, or_false] at hj
      rcases hj with rfl | rfl <;> simp [hc]) (fun _ _ _ _ _ => Iff.rfl)
    (by
      intro i _ c' hc'
      simp only [List.mem_cons, List.mem_append] at hc'
      rcases hc' with rfl | hc' | hc'
      · exact .inr ⟨1, 3, by simp, by simp, hE.1, hE.2, fun _ => ⟨rfl, (hQ' 3 (by simp)).2.2.symm, fun _ => ⟨y 3, rfl, rfl⟩⟩⟩
      exacts [.inl ⟨1, by simp, hc'⟩, .inl ⟨2, by simp, hc'⟩])
  exact ⟨d2, c, d3, keys, key, (P 1).dhPublicKey, C47_new_verifies suite _ (y 3) (E 1 3) 0, hE.1,
    fun i hi => ⟨_, (h6 i hi).1, (h6 i hi).2.2⟩⟩

end Examples

end IceFrost
