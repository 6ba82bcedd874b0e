import Verif.Lemmas.Protocol

/-! # C36, C49–C51: complete runs of key generation and resharing -/

set_option linter.unusedSectionVars false
set_option linter.unusedSimpArgs false

namespace IceFrost

open Finset

variable {F G R : Type} [Field F] [DecidableEq F] [AddCommGroup G] [Module F G] [DecidableEq G]

instance : Nonempty (Participant F G) := ⟨⟨0, 0, none, none, ⟨0, 0⟩⟩⟩
instance : Nonempty EncShare := ⟨⟨0, 0, [], []⟩⟩
instance : Nonempty (RoundTwo F G) := ⟨⟨⟨⟨0, 0⟩, 0, 0, 0, none, [], none, none⟩⟩⟩
instance : Nonempty (RoundOne F G) := ⟨⟨⟨⟨0, 0⟩, 0, 0, 0, none, [], none, none⟩⟩⟩
instance {α : Type} : Nonempty (BMap α) := ⟨[]⟩

/-- C36: every step of an honest key generation succeeds without complaint, everybody obtains the same group key,
which is `g` to the Lagrange combination of the dealers' secrets, and any `t` signing keys interpolate to that
secret. The parties' indices, the order in which each party lists participants and received shares, and all random
states are arbitrary. -/
theorem C36_honest_dkg {S : Suite F G R} (hS : S.Lawful) (dbg : Bool) (params : Params) (ht : params.t ≠ 0)
    (htn : params.t.toNat ≤ params.n.toNat) (idx : List U32) (hidx : idx.Nodup) (h0 : 0 ∉ idx)
    (hlen : idx.length = params.n.toNat) (ord ord' : U32 → List U32) (ho : ∀ i ∈ idx, (ord i).Perm idx)
    (ho' : ∀ i ∈ idx, (ord' i).Perm idx) (r1 r2 r3 : U32 → R) :
    ∃ (P : U32 → Participant F G) (cs : U32 → List F) (x : U32 → F),
      (∀ i ∈ idx, newDealer S params i (r1 i) = .ok (P i, cs i, x i)) ∧
    ∃ d1 : U32 → RoundOne F G,
      (∀ i ∈ idx, bootstrap S dbg params (x i) i (cs i) ((ord i).map P) (r2 i) =
        .ok (d1 i, ⟨(ord i).map P, none⟩)) ∧
    ∃ E : U32 → U32 → EncShare,
      (∀ l ∈ idx, ∃ m, (d1 l).theirEncryptedSecretShares = .ok m ∧ ∀ i ∈ idx, m.get? i = some (E l i)) ∧
    ∃ d2 : U32 → RoundTwo F G,
      (∀ i ∈ idx, (d1 i).toRoundTwo S dbg ((ord' i).map fun l => E l i) (r3 i) = .ok (d2 i, [])) ∧
    ∃ (s : F) (key : U32 → F),
      s = Spec.interpolate idx (fun l => (cs l).headD 0) ∧
      (∀ i ∈ idx, (d2 i).finish = .ok (s • S.gen, ⟨i, key i⟩)) ∧
      (∀ J : List U32, J.Nodup → J ⊆ idx → params.t.toNat ≤ J.length → Spec.interpolate J key = s) := by
  have hne : ∀ i ∈ idx, i ≠ 0 := fun i hi h => h0 (h ▸ hi)
  have hdeal : ∀ i ∈ idx, ∃ p cs x, newDealer S params i (r1 i) = .ok (p, cs, x) := fun i hi => by
    obtain ⟨p, cs, x, h, _⟩ := C16_new_dealer S params ht i (hne i hi) (r1 i)
    exact ⟨p, cs, x, h⟩
  choose! P cs x hP using hdeal
  have hPg := fun i hi => newDealer_good ht (hP i hi)
  have hboot : ∀ i ∈ idx, ∃ m, bootstrap S dbg params (x i) i (cs i) ((ord i).map P) (r2 i) =
        .ok (⟨roundOneState S params (x i) i true ((ord i).map P) (some m)⟩, ⟨(ord i).map P, none⟩) ∧
      m.WF ∧ (∀ j, j ∈ m.keys ↔ ∃ p ∈ (ord i).map P, p.index = j) ∧
      (∀ j e, m.get? j = some e → ∃ p ∈ (ord i).map P, p.index = j ∧ DealtTo S (x i) i (cs i) p e) := by
    intro i hi
    refine bootstrap_honest hS.cipher hS.codec dbg params ht htn _ ?_ ?_ (x i) i (cs i) (r2 i)
    · rw [List.length_map, (ho i hi).length_eq, hlen]
    · intro p hp
      obtain ⟨l, hl, rfl⟩ := List.mem_map.mp hp
      exact (hPg l ((ho i hi).mem_iff.mp hl)).2.2.2.2.2
  choose! m hm1 hm2 hm3 hm4 using hboot
  have hE : ∀ l ∈ idx, ∀ i ∈ idx, ∃ e, (m l).get? i = some e ∧ e.senderIndex = l ∧ e.receiverIndex = i ∧
      Spec.Opens S e (x l • (P i).dhPublicKey) (Spec.polyEval (cs l) (u32F F i)) := by
    intro l hl i hi
    exact dealt_get (fun k hk => (hPg k ((ho l hl).mem_iff.mp hk)).2.1) (hm3 l hl) (hm4 l hl) i
      ((ho l hl).mem_iff.mpr hi)
  choose! E hE1 hE2 hE3 hE4 using hE
  have hn : idx.length < 2 ^ 32 := by rw [hlen]; exact params.n.toNat_lt
  have hR : ∀ i ∈ idx, ∃ d2 m', RoundOne.toRoundTwo S dbg
      ⟨roundOneState S params (x i) i true ((ord i).map P) (some (m i))⟩ ((ord' i).map fun l => E l i) (r3 i) =
        .ok (d2, []) ∧ d2.state.index = i ∧ HoldsVerified S d2 (dealerMap S idx cs) m' := by
    intro i hi
    refine receive_phase dbg idx hidx P cs (fun l => x l • S.gen) (fun l hl => ?_) params hn (by omega) (x i) i _
      (ord i) (ord' i) (ho i hi) (ho' i hi) (fun l => E l i) (fun l hl => ⟨hE2 l hl i hi, hE3 l hl i hi, ?_⟩) (r3 i)
    · obtain ⟨_, k1, _, k2, k3, _⟩ := hPg l hl
      exact ⟨k1, k2, k3⟩
    · have := hE4 l hl i hi
      rwa [(hPg i hi).2.2.2.2.1, smul_comm] at this
  choose! d2 m' hd1 hd2 hd3 using hR
  have hcs : ∀ l ∈ idx, cs l ≠ [] := by
    intro l hl h
    have := (hPg l hl).2.2.1
    rw [h] at this
    exact ht (UInt32.toNat_inj.mp (by simpa using this.symm))
  have hf := fun i hi => finish_phase hS.group hS.u32 idx hidx h0 cs hcs (d2 i) (m' i) (hd3 i hi)
  refine ⟨P, cs, x, hP, fun i => ⟨roundOneState S params (x i) i true ((ord i).map P) (some (m i))⟩, hm1, E,
    fun l hl => ⟨m l, rfl, fun i hi => hE1 l hl i hi⟩, d2, hd1, _,
    fun i => ∑ l ∈ idx.toFinset, Spec.lagrange idx l * Spec.polyEval (cs l) (u32F F i), rfl, fun i hi => ?_,
    fun J hJ hJi hJt => ?_⟩
  · rw [hf i hi, hd2 i hi]
  · refine keys_interpolate hS.u32 idx cs J hJ (fun l hl => ?_) _ (fun j _ => rfl)
    rw [(hPg l hl).2.2.1]; exact hJt

/-! ### Resharing -/

/-- A complete honest resharing from dealers `D` holding the keys `key` to signers `I`, call by call, as documented:
the signers create themselves (`new_signer`), every dealer runs `reshare` with the new parameters, every signer runs
`new` with parameters for the dealers, `to_round_two` and `finish`. All messages are delivered; orders and random
states are arbitrary. `out` is what the signers obtain. -/
structure ReshareRun (S : Suite F G R) (dbg : Bool) (D : List U32) (key : U32 → F) (pd pn : Params) (I : List U32)
    (gk : G) (key' : U32 → F) : Prop where
  run : ∃ (r1 r2 r3 r4 : U32 → R) (ordI ordD ordE : U32 → List U32)
    (Q : U32 → Participant F G) (y : U32 → F) (P : U32 → Participant F G) (m : U32 → BMap EncShare)
    (E : U32 → U32 → EncShare) (d1 : U32 → RoundOne F G) (d2 : U32 → RoundTwo F G),
    (∀ l ∈ D, (ordI l).Perm I) ∧ (∀ i ∈ I, (ordD i).Perm D ∧ (ordE i).Perm D) ∧
    (∀ i ∈ I, newSigner S pn i (r1 i) = .ok (Q i, y i)) ∧
    (∀ l ∈ D, reshare S dbg pn ⟨l, key l⟩ ((ordI l).map Q) (r2 l) = .ok (P l, m l, ⟨(ordI l).map Q, none⟩)) ∧
    (∀ l ∈ D, ∀ i ∈ I, (m l).get? i = some (E l i)) ∧
    (∀ i ∈ I, dkgNew S dbg pd (y i) i ((ordD i).map P) (r3 i) = .ok (d1 i, ⟨(ordD i).map P, none⟩)) ∧
    (∀ i ∈ I, (d1 i).toRoundTwo S dbg ((ordE i).map fun l => E l i) (r4 i) = .ok (d2 i, [])) ∧
    (∀ i ∈ I, (d2 i).finish = .ok (gk, ⟨i, key' i⟩))

/-- Assumptions on the parameters of a resharing: sizes and thresholds fit, indices are distinct and non-zero. -/
structure ReshareOk (D : List U32) (pd pn : Params) (I : List U32) : Prop where
  nodupD : D.Nodup
  zeroD : 0 ∉ D
  nodupI : I.Nodup
  zeroI : 0 ∉ I
  lenD : D.length = pd.n.toNat
  lenI : I.length = pn.n.toNat
  td : pd.t ≠ 0
  tdn : pd.t.toNat ≤ pd.n.toNat
  tn : pn.t ≠ 0
  tnn : pn.t.toNat ≤ pn.n.toNat

theorem reshare_honest {S : Suite F G R} (hc : S.CipherLaws) (hd : S.CodecLaws) (dbg : Bool)
    (params : Params) (ht : params.t ≠ 0) (htn : params.t.toNat ≤ params.n.toNat) (ps : List (Participant F G))
    (hlen : ps.length = params.n.toNat) (hgood : ∀ p ∈ ps, Spec.DhValid S p) (sk : IndividualSigningKey F)
    (hsk : sk.index ≠ 0) (rng : R) :
    ∃ (p : Participant F G) (m : BMap EncShare), reshare S dbg params sk ps rng = .ok (p, m, ⟨ps, none⟩) := by
  classical
  obtain ⟨p, cs, x, rng', h', _⟩ := newInternal_dealer S params ht sk.index hsk (some sk.key) rng
  have hf : ps.filter (Accepts S params true false) = ps := by
    rw [accepts_reshare]
    exact List.filter_eq_self.mpr fun p hp => by simpa using hgood p hp
  have hf' : ps.filter (fun p => ¬ Accepts S params true false p) = [] := by
    rw [accepts_reshare]
    exact List.filter_eq_nil_iff.mpr fun p hp => by simpa using hgood p hp
  obtain ⟨m, rng'', k, _⟩ := (newState_deal dbg params x sk.index hc hd cs false ps rng' ht hlen
    (fun h => absurd h (by simp))).2 (by convert htn using 1; rw [← hlen]; congr 1)
  have e1 : ∀ inst : DecidablePred (Accepts S params true false),
      (@List.filter _ (fun p => @decide _ (inst p)) ps) = ps := by
    intro inst; convert hf
  have e2 : ∀ inst : DecidablePred (fun p => ¬ Accepts S params true false p),
      (@List.filter _ (fun p => @decide _ (inst p)) ps) = [] := by
    intro inst; convert hf'
  rw [e1, e2] at k
  refine ⟨p, m, ?_⟩
  unfold reshare
  rw [h']
  simp only []
  rw [k]
  rfl

theorem new_honest {S : Suite F G R} (dbg : Bool)
    (params : Params) (ht : params.t ≠ 0) (htn : params.t.toNat ≤ params.n.toNat) (ps : List (Participant F G))
    (hlen : ps.length = params.n.toNat) (hgood : ∀ p ∈ ps, Spec.DealerValid S p) (x : F) (i : U32) (rng : R) :
    dkgNew S dbg params x i ps rng = .ok (⟨roundOneState S params x i true ps none⟩, ⟨ps, none⟩) := by
  classical
  have hf : ps.filter (Accepts S params false true) = ps := by
    rw [accepts_new]
    exact List.filter_eq_self.mpr fun p hp => by simpa using hgood p hp
  have hf' : ps.filter (fun p => ¬ Accepts S params false true p) = [] := by
    rw [accepts_new]
    exact List.filter_eq_nil_iff.mpr fun p hp => by simpa using hgood p hp
  have e1 : ∀ inst : DecidablePred (Accepts S params false true),
      (@List.filter _ (fun p => @decide _ (inst p)) ps) = ps := by
    intro inst; convert hf
  have e2 : ∀ inst : DecidablePred (fun p => ¬ Accepts S params false true p),
      (@List.filter _ (fun p => @decide _ (inst p)) ps) = [] := by
    intro inst; convert hf'
  have h := (newState_receive dbg params x i none ps rng ht hlen
    (fun p hp => dealerValid_not_lacks (hgood p hp))).2 (by rw [e1, hlen]; exact htn)
  rw [e1, e2] at h
  unfold dkgNew
  rw [h]
  rfl

/-- The facts about a `reshare` call that the receivers use. -/
theorem reshare_facts {S : Suite F G R} (hc : S.CipherLaws) (hd : S.CodecLaws) (dbg : Bool) {pn : Params}
    {sk : IndividualSigningKey F} {ord : List U32} {Q : U32 → Participant F G} (hQ : ∀ i ∈ ord, (Q i).index = i)
    {rng : R} {p : Participant F G} {m : BMap EncShare} {L : ParticipantList F G}
    (h : reshare S dbg pn sk (ord.map Q) rng = .ok (p, m, L)) :
    ∃ (cs : List F) (x : F), p.index = sk.index ∧ cs.length = pn.t.toNat ∧ cs.head? = some sk.key ∧
      p.commitments = some ⟨sk.index, commitPoints S cs⟩ ∧ p.dhPublicKey = x • S.gen ∧ Spec.DealerValid S p ∧
      ∀ i ∈ ord, ∃ e, m.get? i = some e ∧ e.senderIndex = sk.index ∧ e.receiverIndex = i ∧
        Spec.Opens S e (x • (Q i).dhPublicKey) (Spec.polyEval cs (u32F F i)) := by
  obtain ⟨cs, x, h1, _, h3, h4, h5, h6, h7, h8, h9, h10⟩ := reshare_shares hc hd dbg pn sk _ rng p m L h
  exact ⟨cs, x, h1, h3, h4, h5, h6, h7, fun i hi => dealt_get hQ h9 h10 i hi⟩

/-- The outcome of any honest resharing run. -/
theorem reshareRun_outcome {S : Suite F G R} (hS : S.Lawful) (dbg : Bool) (D : List U32) (key : U32 → F)
    (pd pn : Params) (I : List U32) (hok : ReshareOk D pd pn I) (hI : I ≠ []) (gk : G) (key' : U32 → F)
    (hrun : ReshareRun S dbg D key pd pn I gk key') :
    gk = Spec.interpolate D key • S.gen ∧
      ∀ J : List U32, J.Nodup → J ⊆ I → pn.t.toNat ≤ J.length → Spec.interpolate J key' = Spec.interpolate D key := by
  obtain ⟨r1, r2, r3, r4, ordI, ordD, ordE, Q, y, P, m, E, d1, d2, hoI, hoD, hQ, hP, hE, hd1, hd2, hfin⟩ := hrun
  have hI0 : ∀ i ∈ I, i ≠ 0 := fun i hi h => hok.zeroI (h ▸ hi)
  have hQi : ∀ i ∈ I, (Q i).index = i ∧ (Q i).dhPublicKey = y i • S.gen ∧ Spec.DhValid S (Q i) := by
    intro i hi
    obtain ⟨p, dh, rng', h, h1, _, _, h4, h5⟩ := newInternal_signer S pn i (hI0 i hi) none (r1 i)
    have := hQ i hi
    unfold newSigner at this
    rw [h] at this
    cases this
    exact ⟨h1, h4, h5⟩
  have hfacts := fun l hl => reshare_facts hS.cipher hS.codec dbg
    (fun i hi => (hQi i ((hoI l hl).mem_iff.mp hi)).1) (hP l hl)
  choose! cs x f1 f2 f3 f4 f5 f6 f7 using hfacts
  have hd1' : ∀ i ∈ I, d1 i = ⟨roundOneState S pd (y i) i true ((ordD i).map P) none⟩ := by
    intro i hi
    have := new_honest (S := S) dbg pd hok.td hok.tdn ((ordD i).map P)
      (by rw [List.length_map, (hoD i hi).1.length_eq, hok.lenD])
      (fun p hp => by
        obtain ⟨l, hl, rfl⟩ := List.mem_map.mp hp
        exact f6 l ((hoD i hi).1.mem_iff.mp hl)) (y i) i (r3 i)
    rw [hd1 i hi] at this
    simp only [Except.ok.injEq, Prod.mk.injEq, and_true] at this
    exact this
  have hn : D.length < 2 ^ 32 := by rw [hok.lenD]; exact pd.n.toNat_lt
  have hV : ∀ i ∈ I, ∃ m', (d2 i).state.index = i ∧ HoldsVerified S (d2 i) (dealerMap S D cs) m' := by
    intro i hi
    obtain ⟨d2', m', k1, k2, k3⟩ := receive_phase dbg D hok.nodupD P cs (fun l => x l • S.gen)
      (fun l hl => ⟨f1 l hl, f4 l hl, f5 l hl⟩) pd hn (by rw [hok.lenD]; exact hok.tdn) (y i) i none
      (ordD i) (ordE i) (hoD i hi).1 (hoD i hi).2 (fun l => E l i)
      (fun l hl => by
        obtain ⟨e, he, k1, k2, k3⟩ := f7 l hl i ((hoI l hl).mem_iff.mpr hi)
        rw [hE l hl i hi] at he
        cases he
        rw [(hQi i hi).2.1, smul_comm] at k3
        exact ⟨k1, k2, k3⟩) (r4 i)
    rw [← hd1' i hi, hd2 i hi] at k1
    cases k1
    exact ⟨m', k2, k3⟩
  have hcs : ∀ l ∈ D, cs l ≠ [] := by
    intro l hl h
    have := f3 l hl
    rw [h] at this; cases this
  have hsec : Spec.interpolate D (fun l => (cs l).headD 0) = Spec.interpolate D key := by
    refine interpolate_congr fun l hl => ?_
    have := f3 l hl
    cases h : cs l with
    | nil => exact absurd h (hcs l hl)
    | cons a as => rw [h] at this; cases this; rfl
  have hout : ∀ i ∈ I, gk = Spec.interpolate D key • S.gen ∧
      key' i = ∑ l ∈ D.toFinset, Spec.lagrange D l * Spec.polyEval (cs l) (u32F F i) := by
    intro i hi
    obtain ⟨m', k1, k2⟩ := hV i hi
    have := finish_phase hS.group hS.u32 D hok.nodupD hok.zeroD cs hcs (d2 i) m' k2
    rw [hfin i hi, hsec, k1] at this
    simp only [Except.ok.injEq, Prod.mk.injEq, IndividualSigningKey.mk.injEq, true_and] at this
    exact this
  obtain ⟨i0, hi0⟩ := List.exists_mem_of_ne_nil I hI
  refine ⟨(hout i0 hi0).1, fun J hJ hJI hJt => ?_⟩
  rw [← hsec]
  refine keys_interpolate hS.u32 D cs J hJ (fun l hl => ?_) key' (fun j hj => (hout j (hJI hj)).2)
  rw [f2 l hl]; exact hJt

/-- C49: the resharing runs to completion: every call succeeds, whatever the random states and orders. -/
theorem C49_reshare_succeeds {S : Suite F G R} (hS : S.Lawful) (dbg : Bool) (D : List U32) (key : U32 → F)
    (pd pn : Params) (I : List U32) (hok : ReshareOk D pd pn I) (r1 r2 r3 r4 : U32 → R)
    (ordI ordD ordE : U32 → List U32) (hoI : ∀ l ∈ D, (ordI l).Perm I)
    (hoD : ∀ i ∈ I, (ordD i).Perm D ∧ (ordE i).Perm D) :
    ∃ (Q : U32 → Participant F G) (y : U32 → F), (∀ i ∈ I, newSigner S pn i (r1 i) = .ok (Q i, y i)) ∧
    ∃ (P : U32 → Participant F G) (m : U32 → BMap EncShare), (∀ l ∈ D, reshare S dbg pn ⟨l, key l⟩ ((ordI l).map Q)
        (r2 l) = .ok (P l, m l, ⟨(ordI l).map Q, none⟩)) ∧
    ∃ E : U32 → U32 → EncShare, (∀ l ∈ D, ∀ i ∈ I, (m l).get? i = some (E l i)) ∧
    ∃ d1 : U32 → RoundOne F G, (∀ i ∈ I, dkgNew S dbg pd (y i) i ((ordD i).map P) (r3 i) =
        .ok (d1 i, ⟨(ordD i).map P, none⟩)) ∧
    ∃ d2 : U32 → RoundTwo F G, (∀ i ∈ I, (d1 i).toRoundTwo S dbg ((ordE i).map fun l => E l i) (r4 i) =
        .ok (d2 i, [])) ∧
    ∃ (gk : G) (key' : U32 → F), ∀ i ∈ I, (d2 i).finish = .ok (gk, ⟨i, key' i⟩) := by
  have hI0 : ∀ i ∈ I, i ≠ 0 := fun i hi h => hok.zeroI (h ▸ hi)
  have hsig : ∀ i ∈ I, ∃ (q : Participant F G) (y : F), newSigner S pn i (r1 i) = .ok (q, y) ∧ q.index = i ∧
      q.dhPublicKey = y • S.gen ∧ Spec.DhValid S q := by
    intro i hi
    obtain ⟨p, dh, rng', h, h1, _, _, h4, h5⟩ := newInternal_signer S pn i (hI0 i hi) none (r1 i)
    exact ⟨p, dh, by unfold newSigner; rw [h], h1, h4, h5⟩
  choose! Q y hQ1 hQ2 hQ3 hQ4 using hsig
  have hresh : ∀ l ∈ D, ∃ (p : Participant F G) (m : BMap EncShare), reshare S dbg pn ⟨l, key l⟩ ((ordI l).map Q)
      (r2 l) = .ok (p, m, ⟨(ordI l).map Q, none⟩) := by
    intro l hl
    refine reshare_honest hS.cipher hS.codec dbg pn hok.tn hok.tnn _ ?_ ?_ ⟨l, key l⟩ ?_ (r2 l)
    · rw [List.length_map, (hoI l hl).length_eq, hok.lenI]
    · intro p hp
      obtain ⟨i, hi, rfl⟩ := List.mem_map.mp hp
      exact hQ4 i ((hoI l hl).mem_iff.mp hi)
    · exact fun h => hok.zeroD (h ▸ hl)
  choose! P m hP using hresh
  have hfacts := fun l hl => reshare_facts hS.cipher hS.codec dbg
    (fun i hi => hQ2 i ((hoI l hl).mem_iff.mp hi)) (hP l hl)
  choose! cs x f1 f2 f3 f4 f5 f6 f7 using hfacts
  have hE : ∀ l ∈ D, ∀ i ∈ I, ∃ e, (m l).get? i = some e ∧ e.senderIndex = l ∧ e.receiverIndex = i ∧
      Spec.Opens S e (x l • (Q i).dhPublicKey) (Spec.polyEval (cs l) (u32F F i)) :=
    fun l hl i hi => f7 l hl i ((hoI l hl).mem_iff.mpr hi)
  choose! E hE1 hE2 hE3 hE4 using hE
  have hnew : ∀ i ∈ I, dkgNew S dbg pd (y i) i ((ordD i).map P) (r3 i) =
      .ok (⟨roundOneState S pd (y i) i true ((ordD i).map P) none⟩, ⟨(ordD i).map P, none⟩) := by
    intro i hi
    refine new_honest dbg pd hok.td hok.tdn _ ?_ ?_ (y i) i (r3 i)
    · rw [List.length_map, (hoD i hi).1.length_eq, hok.lenD]
    · intro p hp
      obtain ⟨l, hl, rfl⟩ := List.mem_map.mp hp
      exact f6 l ((hoD i hi).1.mem_iff.mp hl)
  have hn : D.length < 2 ^ 32 := by rw [hok.lenD]; exact pd.n.toNat_lt
  have hR : ∀ i ∈ I, ∃ d2 m', RoundOne.toRoundTwo S dbg
      ⟨roundOneState S pd (y i) i true ((ordD i).map P) none⟩ ((ordE i).map fun l => E l i) (r4 i) =
        .ok (d2, []) ∧ d2.state.index = i ∧ HoldsVerified S d2 (dealerMap S D cs) m' := by
    intro i hi
    refine receive_phase dbg D hok.nodupD P cs (fun l => x l • S.gen)
      (fun l hl => ⟨f1 l hl, f4 l hl, f5 l hl⟩) pd hn (by rw [hok.lenD]; exact hok.tdn) (y i) i none
      (ordD i) (ordE i) (hoD i hi).1 (hoD i hi).2 (fun l => E l i)
      (fun l hl => ⟨hE2 l hl i hi, hE3 l hl i hi, ?_⟩) (r4 i)
    have := hE4 l hl i hi
    rwa [hQ3 i hi, smul_comm] at this
  choose! d2 m' hd1 hd2 hd3 using hR
  have hcs : ∀ l ∈ D, cs l ≠ [] := by
    intro l hl h
    have := f3 l hl
    rw [h] at this; cases this
  refine ⟨Q, y, hQ1, P, m, hP, E, hE1,
    fun i => ⟨roundOneState S pd (y i) i true ((ordD i).map P) none⟩, hnew, d2, hd1,
    Spec.interpolate D (fun l => (cs l).headD 0) • S.gen,
    fun i => ∑ l ∈ D.toFinset, Spec.lagrange D l * Spec.polyEval (cs l) (u32F F i), fun i hi => ?_⟩
  rw [finish_phase hS.group hS.u32 D hok.nodupD hok.zeroD cs hcs (d2 i) (m' i) (hd3 i hi), hd2 i hi]

/-- C49: the outcome of a resharing of keys that interpolate to the discrete logarithm `s` of the group key: every new
signer derives the same group key `g^s`, and any `t'` new keys interpolate to the same secret. -/
theorem C49_reshare_preserves {S : Suite F G R} (hS : S.Lawful) (dbg : Bool) (D : List U32) (key : U32 → F)
    (pd pn : Params) (I : List U32) (hok : ReshareOk D pd pn I) (s : F) (hs : Spec.interpolate D key = s)
    (gk : G) (key' : U32 → F) (hrun : ReshareRun S dbg D key pd pn I gk key') :
    gk = s • S.gen ∧
      ∀ J : List U32, J.Nodup → J ⊆ I → pn.t.toNat ≤ J.length → Spec.interpolate J key' = s := by
  subst hs
  refine reshareRun_outcome hS dbg D key pd pn I hok ?_ gk key' hrun
  intro h
  have h1 := hok.lenI
  have h2 := hok.tnn
  rw [h, List.length_nil] at h1
  exact hok.tn (UInt32.toNat_inj.mp (by rw [← h1] at h2; simpa using h2))

/-- The holders of an epoch: indices, threshold and keys. -/
structure Epoch (F : Type) where
  holders : List U32
  t : Nat
  key : U32 → F

/-- The holders of an epoch share the secret `s`. -/
def Epoch.Shares (e : Epoch F) (s : F) : Prop :=
  ∀ J : List U32, J.Nodup → J ⊆ e.holders → e.t ≤ J.length → Spec.interpolate J e.key = s

/-- One resharing: at least `t` holders `D` of the old epoch run the protocol with the new holders, which obtain the
group key `gk`. -/
def Epoch.Step (S : Suite F G R) (dbg : Bool) (e e' : Epoch F) (gk : G) : Prop :=
  ∃ (D : List U32) (pd pn : Params), ReshareOk D pd pn e'.holders ∧ D ⊆ e.holders ∧ e.t ≤ D.length ∧
    e'.t = pn.t.toNat ∧ ReshareRun S dbg D e.key pd pn e'.holders gk e'.key

/-- A chain of resharings; `gks` are the group keys obtained along the way. -/
inductive Epoch.Chain (S : Suite F G R) (dbg : Bool) : Epoch F → List G → Epoch F → Prop
  | nil (e : Epoch F) : Chain S dbg e [] e
  | cons {e e' e'' : Epoch F} {gk : G} {gks : List G} : e.Step S dbg e' gk → Chain S dbg e' gks e'' →
      Chain S dbg e (gk :: gks) e''

/-- C50: through any chain of resharings the group key never changes, and the last holders share the original
secret. -/
theorem C50_chain {S : Suite F G R} (hS : S.Lawful) (dbg : Bool) (s : F) (e e' : Epoch F) (gks : List G)
    (h : Epoch.Chain S dbg e gks e') (he : e.Shares s) : (∀ gk ∈ gks, gk = s • S.gen) ∧ e'.Shares s := by
  induction h with
  | nil e => exact ⟨by simp, he⟩
  | cons hstep _ ih =>
    obtain ⟨D, pd, pn, hok, hD, ht, ht', hrun⟩ := hstep
    obtain ⟨h1, h2⟩ := C49_reshare_preserves hS dbg D _ pd pn _ hok s (he D hok.nodupD hD ht) _ _ hrun
    obtain ⟨k1, k2⟩ := ih (fun J hJ hJI hJt => h2 J hJ hJI (by rw [← ht']; exact hJt))
    refine ⟨fun gk hgk => ?_, k2⟩
    rcases List.mem_cons.mp hgk with rfl | hgk
    · exact h1
    · exact k1 gk hgk

/-- C50 starts from a key generation: its holders share the discrete logarithm of its group key. -/
theorem C50_from_dkg {S : Suite F G R} (hS : S.Lawful) (dbg : Bool) (params : Params) (ht : params.t ≠ 0)
    (htn : params.t.toNat ≤ params.n.toNat) (idx : List U32) (hidx : idx.Nodup) (h0 : 0 ∉ idx)
    (hlen : idx.length = params.n.toNat) (ord ord' : U32 → List U32) (ho : ∀ i ∈ idx, (ord i).Perm idx)
    (ho' : ∀ i ∈ idx, (ord' i).Perm idx) (r1 r2 r3 : U32 → R) :
    ∃ (d2 : U32 → RoundTwo F G) (s : F) (key : U32 → F),
      (∀ i ∈ idx, (d2 i).finish = .ok (s • S.gen, ⟨i, key i⟩)) ∧
      (⟨idx, params.t.toNat, key⟩ : Epoch F).Shares s ∧
      ∀ gks e', Epoch.Chain S dbg ⟨idx, params.t.toNat, key⟩ gks e' →
        (∀ gk ∈ gks, gk = s • S.gen) ∧ e'.Shares s := by
  obtain ⟨P, cs, x, _, d1, _, E, _, d2, _, s, key, _, h1, h2⟩ := C36_honest_dkg hS dbg params ht htn idx hidx h0 hlen
    ord ord' ho ho' r1 r2 r3
  exact ⟨d2, s, key, h1, h2, fun gks e' hc => C50_chain hS dbg s _ e' gks hc h2⟩

/-- C51: resharing a single key `s` (as made by `from_single_key`) gives the group key `g^s` and shares of `s`. The
dealers' parameters are those of a lone dealer. -/
theorem C51_single_key {S : Suite F G R} (hS : S.Lawful) (dbg : Bool) (s : F) (pn : Params) (I : List U32)
    (hI : I.Nodup) (hI0 : 0 ∉ I) (hlen : I.length = pn.n.toNat) (htn : pn.t ≠ 0) (htn' : pn.t.toNat ≤ pn.n.toNat)
    (gk : G) (key' : U32 → F)
    (hrun : ReshareRun S dbg [(IndividualSigningKey.fromSingleKey s).index]
      (fun _ => (IndividualSigningKey.fromSingleKey s).key) ⟨1, 1⟩ pn I gk key') :
    gk = s • S.gen ∧
      ∀ J : List U32, J.Nodup → J ⊆ I → pn.t.toNat ≤ J.length → Spec.interpolate J key' = s := by
  refine C49_reshare_preserves hS dbg _ _ ⟨1, 1⟩ pn I
    ⟨by simp, by simp [IndividualSigningKey.fromSingleKey], hI, hI0, rfl, hlen, by decide, le_rfl, htn, htn'⟩ s ?_
    gk key' hrun
  simp [Spec.interpolate, Spec.lagrange, IndividualSigningKey.fromSingleKey]

section Examples
open Toy

/-- A 2-of-3 key generation, whose holders 1 and 3 reshare to 2-of-2 new holders 4 and 5. -/
example : ∃ (key key' : U32 → Fp) (gk gk' : Fp),
    (⟨[1, 2, 3], 2, key⟩ : Epoch Fp).Step suite true ⟨[4, 5], 2, key'⟩ gk' ∧ gk = gk' := by
  obtain ⟨P, cs, x, _, d1, _, E, _, d2, _, s, key, _, h1, h2⟩ := C36_honest_dkg lawful true ⟨3, 2⟩ (by decide)
    (by decide) [1, 2, 3] (by decide) (by decide) rfl (fun _ => [1, 2, 3]) (fun _ => [3, 1, 2])
    (fun _ _ => List.Perm.refl _) (fun _ _ => by decide) (fun _ => 0) (fun _ => 0) (fun _ => 0)
  have hok : ReshareOk [1, 3] ⟨2, 2⟩ ⟨2, 2⟩ [4, 5] :=
    ⟨by decide, by decide, by decide, by decide, rfl, rfl, by decide, by decide, by decide, by decide⟩
  obtain ⟨Q, y, k1, P', m, k2, E', k3, d1', k4, d2', k5, gk', key', k6⟩ := C49_reshare_succeeds lawful true [1, 3] key
    ⟨2, 2⟩ ⟨2, 2⟩ [4, 5] hok (fun _ => 0) (fun _ => 0) (fun _ => 0) (fun _ => 0) (fun _ => [4, 5])
    (fun _ => [1, 3]) (fun _ => [3, 1]) (fun _ _ => List.Perm.refl _)
    (fun _ _ => ⟨List.Perm.refl _, by decide⟩)
  have hrun : ReshareRun suite true [1, 3] key ⟨2, 2⟩ ⟨2, 2⟩ [4, 5] gk' key' :=
    ⟨_, _, _, _, _, _, _, Q, y, P', m, E', d1', d2', fun _ _ => List.Perm.refl _,
      fun _ _ => ⟨List.Perm.refl _, by decide⟩, k1, k2, k3, k4, k5, k6⟩
  refine ⟨key, key', s • suite.gen, gk', ⟨[1, 3], ⟨2, 2⟩, ⟨2, 2⟩, hok,
    (by decide : [(1 : U32), 3] ⊆ [1, 2, 3]), le_rfl, rfl, hrun⟩, ?_⟩
  exact (C49_reshare_preserves lawful true _ _ _ _ _ hok s (h2 _ hok.nodupD (by decide) le_rfl) _ _ hrun).1.symm

end Examples

end IceFrost
