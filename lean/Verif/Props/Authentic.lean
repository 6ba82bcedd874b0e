import Verif.Props.Takeover
import Verif.Props.Attacks

/-! # C135: complaints on an authenticated channel -/

set_option linter.unusedSectionVars false
set_option linter.unusedSimpArgs false
set_option linter.unusedVariables false

namespace IceFrost

open Finset

attribute [local instance] Classical.propDecidable

variable {F G R : Type} [Field F] [DecidableEq F] [AddCommGroup G] [Module F G] [DecidableEq G]

/-- Participant `d` processes the complaint `c`: the participant with DH public key `pk` is declared malicious and the key
generation ends with the group key `gk`. -/
def FramedBy (S : Suite F G R) (d : RoundTwo F G) (c : Complaint F G) (pk gk : G) : Prop :=
  ∃ d' sk, d.blame S [c] = .ok (d', [pk]) ∧ d'.finish = .ok (gk, sk)

/-- A participant of an honest session processes a complaint that verifies, about a share that is not good. -/
theorem honest_session_framed {S : Suite F G R} (hS : S.Lawful) (dbg : Bool) (params : Params) (ht : params.t ≠ 0)
    (idx : List U32) (hidx : idx.Nodup) (r1 : U32 → R) (P : U32 → Participant F G) (coeffs : U32 → List F) (x : U32 → F)
    (hP : ∀ i ∈ idx, newDealer S params i (r1 i) = .ok (P i, coeffs i, x i)) (i : U32) (hi : i ∈ idx)
    (d1 : RoundOne F G) (comms : BMap (VssCommitment G)) (hv : PublicView S params P idx i (x i) d1 comms)
    (es : List EncShare) (hlab : ∀ e ∈ es, e.receiverIndex = i) (hall : ∀ k ∈ idx, ∃ e ∈ es, e.senderIndex = k)
    (rng : R) (d2 : RoundTwo F G) (h2 : d1.toRoundTwo S dbg es rng = .ok (d2, [])) (l : U32) (hl : l ∈ idx)
    (hn : l.toNat ≤ idx.length) (c : Complaint F G) (hcl : c.encShare.senderIndex = l)
    (hver : c.verify S (P l).dhPublicKey = .ok ())
    (hbad : ¬ Spec.GoodShare S c.dhSharedKey (commitPoints S (coeffs l)) c.encShare) :
    FramedBy S d2 c (P l).dhPublicKey
      (Spec.interpolate (idx.filter (· ≠ l)) (fun k => (coeffs k).headD 0) • S.gen) := by
  have hPg := fun i hi => newDealer_good ht (hP i hi)
  have hkeys : ∀ k, k ∈ comms.keys ↔ k ∈ idx := by
    intro k
    constructor
    · intro hk
      obtain ⟨vc, hvc⟩ := BMap.exists_get? hk
      exact ((hv.get k vc).mp hvc).1
    · intro hk
      exact BMap.mem_keys_of_get? ((hv.get k _).mpr ⟨hk, (hPg k hk).2.2.2.1⟩)
  have h0 : 0 ∉ comms.keys := fun h => (hPg 0 ((hkeys 0).mp h)).1 rfl
  have hD : DealersOk comms := by
    refine ⟨hv.wf, h0, fun k vc hvc => ?_⟩
    obtain ⟨hk, hc⟩ := (hv.get k vc).mp hvc
    rw [(hPg k hk).2.2.2.1] at hc
    cases hc
    intro h
    have h' := congrArg List.length h
    simp only [commitPoints_length, (hPg k hk).2.2.1, List.length_nil] at h'
    exact ht (UInt32.toNat_inj.mp (by simpa using h'))
  have hdk : ∀ k ∈ d1.state.theirDhPublicKeys.keys, k ∈ comms.keys := by
    intro k hk
    obtain ⟨pk, hpk⟩ := BMap.exists_get? hk
    exact (hkeys k).mpr ((hv.dhs k pk).mp hpk).1
  obtain ⟨m', hb, hV⟩ := verified_after_blame S dbg d1 comms hv.commits hv.wf h0 hdk es rng
    (by rw [hv.index]; exact hlab) (fun k hk => hall k ((hkeys k).mp hk)) d2 [] h2 (by simp) [] (by simp)
  obtain ⟨m, hold, hpar, _, hdh⟩ := holds_toRoundTwo S dbg d1 comms hv.commits hv.wf es rng d2 [] h2
  have hV2 : HoldsVerified S d2 comms m := by
    have e1 : (comms.filter fun e => e.1 ∉ ([] : List (Complaint F G)).map (verdict S d2.state comms)) = comms := by simp
    have e2 : (⟨without d2.state comms ((d2.state.mySecretShares).getD [])
        (([] : List (Complaint F G)).map (verdict S d2.state comms))⟩ : RoundTwo F G) = d2 := by
      have hs := hold.shares
      have hc := hold.commits
      obtain ⟨st⟩ := d2
      cases st
      simp only at hs hc
      subst hs hc
      simp [without]
    rw [e1, e2] at hV
    have := hV.shares
    rw [hold.shares] at this
    cases this
    exact hV
  have hvc : comms.get? l = some ⟨l, commitPoints S (coeffs l)⟩ := (hv.get l _).mpr ⟨hl, (hPg l hl).2.2.2.1⟩
  have hpk : d2.state.theirDhPublicKeys.get? l = some (P l).dhPublicKey := by
    rw [hdh]; exact (hv.dhs l _).mpr ⟨hl, rfl⟩
  have hup : Upheld S d2.state comms c := by
    refine ⟨by rw [hcl]; exact (hPg l hl).1, ?_, _, by rw [hcl]; exact hvc, ?_, hbad⟩
    · rw [hcl, hpar, UInt32.lt_iff_toNat_lt, hv.n]
      omega
    · rw [hcl, hpk]; exact hver
  have hverd : verdict S d2.state comms c = l := by rw [verdict, if_pos hup, hcl]
  obtain ⟨d', keys, sk, k1, k2⟩ := finish_after_blame hS.u32 d2 comms m hD hV2 [c]
  obtain ⟨d'', k3, _⟩ := blame_single S d2 comms m hold c
  rw [k1, hverd, hpk] at k3
  simp only [List.map_cons, List.map_nil, hverd, Except.ok.injEq, Prod.mk.injEq] at k2 k3
  refine ⟨d', sk, ?_, ?_⟩
  · rw [k1, k3.2]; rfl
  · rw [k2]
    have hf : ∀ k, k ∈ comms.keys.filter (fun x => decide (x ∉ [l])) ↔ k ∈ idx.filter (· ≠ l) := by
      intro k; simp [hkeys]
    rw [interpolateG_congr (F := F) _ _ (fun k => (coeffs k).headD 0 • S.gen)]
    · rw [← interpolate_list_congr hf]
      unfold Spec.interpolateG Spec.interpolate
      simp only [sum_smul, mul_smul]
    · intro k hk
      have hk' : k ∈ idx := (List.mem_filter.mp ((hf k).mp hk)).1
      rw [(hv.get k _).mpr ⟨hk', (hPg k hk').2.2.2.1⟩]
      cases hc : coeffs k with
      | nil => simp [commitPoints]
      | cons a t => simp [commitPoints]

/-- C135, negation: authentication does not protect a dealer. All participants `idx` follow the protocol and all of their
messages are delivered. Then participant `j`, under its own name, makes a complaint about dealer `l`, whose shares are all
correct, in one of two ways. Everybody who processes it declares `l` malicious and finishes with the group key of the
other dealers.

First: the complaint is about the *genuine* share that `l` dealt to `j`, with a fresh DH key `y` instead of that of `j`
(provided the share is not good under the unrelated key `y • pk_l`, which authenticated encryption makes sure of). Second,
without any provision: the complaint has the DH public key of `j` and discloses the true shared key, but includes a share
that `l` never sent. -/
theorem C135_authenticated_framing {S : Suite F G R} (hS : S.Lawful) (dbg : Bool) (params : Params) (ht : params.t ≠ 0)
    (htn : params.t.toNat ≤ params.n.toNat) (idx : List U32) (hidx : idx.Nodup) (hlen : idx.length = params.n.toNat)
    (r1 r2 r3 : U32 → R) (P : U32 → Participant F G) (coeffs : U32 → List F) (x : U32 → F)
    (hP : ∀ i ∈ idx, newDealer S params i (r1 i) = .ok (P i, coeffs i, x i))
    (ord ord' : U32 → List U32) (ho : ∀ i ∈ idx, (ord i).Perm idx) (ho' : ∀ i ∈ idx, (ord' i).Perm idx) :
    ∃ (d1 : U32 → RoundOne F G) (L : U32 → ParticipantList F G),
      (∀ i ∈ idx, bootstrap S dbg params (x i) i (coeffs i) ((ord i).map P) (r2 i) = .ok (d1 i, L i)) ∧
    ∀ E : U32 → U32 → EncShare,
      (∀ l ∈ idx, ∃ m, (d1 l).theirEncryptedSecretShares = .ok m ∧ ∀ i ∈ idx, m.get? i = some (E l i)) →
    ∃ d2 : U32 → RoundTwo F G,
      (∀ i ∈ idx, (d1 i).toRoundTwo S dbg ((ord' i).map fun l => E l i) (r3 i) = .ok (d2 i, [])) ∧
    ∀ l ∈ idx, l.toNat ≤ params.n.toNat → ∀ j ∈ idx, ∀ rng : R,
      (∀ y : F, ¬ Spec.GoodShare S (y • (P l).dhPublicKey) (commitPoints S (coeffs l)) (E l j) →
        ∃ c : Complaint F G, c = (Complaint.new S (P l).dhPublicKey y (y • (P l).dhPublicKey) (E l j) rng).1 ∧
          c.encShare = E l j ∧ c.encShare.receiverIndex = j ∧
          ∀ i ∈ idx, FramedBy S (d2 i) c (P l).dhPublicKey
            (Spec.interpolate (idx.filter (· ≠ l)) (fun k => (coeffs k).headD 0) • S.gen)) ∧
      (∃ c : Complaint F G, c.encShare.senderIndex = l ∧ c.encShare.receiverIndex = j ∧
          c.dhPublicKey = (P j).dhPublicKey ∧ c.dhSharedKey = x j • (P l).dhPublicKey ∧
          ∀ i ∈ idx, FramedBy S (d2 i) c (P l).dhPublicKey
            (Spec.interpolate (idx.filter (· ≠ l)) (fun k => (coeffs k).headD 0) • S.gen)) := by
  have hPg := fun i hi => newDealer_good ht (hP i hi)
  have hPi : ∀ l ∈ idx, (P l).index = l ∧ ¬ Spec.LacksProof S (P l) := by
    intro l hl
    refine ⟨(hPg l hl).2.1, ?_⟩
    rintro ⟨_, hnone, _⟩
    obtain ⟨⟨_, _, _, _, _, _, hp, _⟩, _⟩ := (hPg l hl).2.2.2.2.2
    rw [hnone] at hp; cases hp
  have hview := fun i (hi : i ∈ idx) => accepted_view hS dbg params ht idx hidx hlen P hPi idx hidx
    (fun l => ⟨fun h => ⟨h, (hPg l h).2.2.2.2.2⟩, fun h => h.1⟩) (by rw [hlen]; exact htn) (x i) i (coeffs i) (ord i)
    (ho i hi) (r2 i)
  haveI : Nonempty (ParticipantList F G) := ⟨⟨[], none⟩⟩
  choose! d1 L comms hb hv using hview
  refine ⟨d1, L, hb, fun E hE => ?_⟩
  have hEd : ∀ l ∈ idx, ∀ i ∈ idx, (E l i).senderIndex = l ∧ (E l i).receiverIndex = i ∧
      Spec.Opens S (E l i) (x i • (P l).dhPublicKey) (Spec.polyEval (coeffs l) (u32F F i)) := by
    intro l hl i hi
    obtain ⟨m, h1, h2⟩ := (hv l hl).dealt
    obtain ⟨m', h1', h3⟩ := hE l hl
    rw [h1] at h1'; cases h1'
    obtain ⟨e, he, h4, h5, h6⟩ := h2 i hi
    rw [h3 i hi] at he; cases he
    refine ⟨h4, h5, ?_⟩
    have := h6 (x i) (hPg i hi).2.2.2.2.1
    rwa [(hPg l hl).2.2.2.2.1]
  have hround : ∀ i ∈ idx, ∃ d2, (d1 i).toRoundTwo S dbg ((ord' i).map fun l => E l i) (r3 i) = .ok (d2, []) := by
    intro i hi
    obtain ⟨d2, cs, k1, k2, _⟩ := round_two_accepted dbg params P idx hidx i (x i) (d1 i) (comms i) (hv i hi).toPublicView
      (fun l hl => ⟨_, (hPg l hl).2.2.2.1⟩) idx hidx (fun _ h => h) (by rw [hlen]; exact htn) (fun l => E l i)
      (fun l hl => ⟨(hEd l hl i hi).1, (hEd l hl i hi).2.1⟩)
      (by
        intro l hl c hc
        rw [(hPg l hl).2.2.2.1] at hc; cases hc
        refine ⟨_, (hEd l hl i hi).2.2, ?_⟩
        rw [(hEd l hl i hi).2.1]
        exact (pointEval_commitPoints S _ _).symm) (ord' i) (ho' i hi) (r3 i)
    have : cs = [] := by
      rw [List.eq_nil_iff_forall_not_mem]
      intro c hc
      obtain ⟨l, hl, hl', _⟩ := k2 c hc
      exact hl' hl
    subst this
    exact ⟨d2, k1⟩
  choose! d2 hd2 using hround
  refine ⟨d2, hd2, fun l hl hln j hj rng => ?_⟩
  have key : ∀ c : Complaint F G, c.encShare.senderIndex = l → c.verify S (P l).dhPublicKey = .ok () →
      ¬ Spec.GoodShare S c.dhSharedKey (commitPoints S (coeffs l)) c.encShare →
      ∀ i ∈ idx, FramedBy S (d2 i) c (P l).dhPublicKey
        (Spec.interpolate (idx.filter (· ≠ l)) (fun k => (coeffs k).headD 0) • S.gen) := by
    intro c h1 h2 h3 i hi
    refine honest_session_framed hS dbg params ht idx hidx r1 P coeffs x hP i hi (d1 i) (comms i) (hv i hi).toPublicView
      ((ord' i).map fun l => E l i) ?_ ?_ (r3 i) (d2 i) (hd2 i hi) l hl (by rw [hlen]; exact hln) c h1 h2 h3
    · intro e he
      obtain ⟨k, hk, rfl⟩ := List.mem_map.mp he
      exact (hEd k ((ho' i hi).mem_iff.mp hk) i hi).2.1
    · intro k hk
      exact ⟨_, List.mem_map.mpr ⟨k, (ho' i hi).mem_iff.mpr hk, rfl⟩, (hEd k hk i hi).1⟩
  constructor
  · intro y hy
    exact ⟨_, rfl, rfl, (hEd l hl j hj).2.1, key _ (hEd l hl j hj).1 (C47_new_verifies S _ y (E l j) rng) hy⟩
  · obtain ⟨v, hvv⟩ : ∃ v : F, v • S.gen ≠ Spec.pointEval (commitPoints S (coeffs l)) (j.toNat : F) := by
      by_cases h : (0 : F) • S.gen = Spec.pointEval (commitPoints S (coeffs l)) (j.toNat : F)
      · exact ⟨1, fun h' => zero_ne_one (hS.group.gen_inj _ _ (h.trans h'.symm))⟩
      · exact ⟨0, h⟩
    obtain ⟨e, rng', h1, h2, h3, _, h5⟩ := encryptShare_ok hS.cipher hS.codec ⟨l, j, v⟩
      (S.encG (x j • (P l).dhPublicKey)) rng
    obtain ⟨w, hw, hw'⟩ := (decryptShare_ok_iff S e _ _).mp h5
    simp only [SecretShare.mk.injEq] at hw'
    obtain ⟨_, _, rfl⟩ := hw'
    have h2 : e.senderIndex = l := h2
    have h3 : e.receiverIndex = j := h3
    refine ⟨(Complaint.new S (P l).dhPublicKey (x j) (x j • (P l).dhPublicKey) e rng').1, h2, h3,
      (hPg j hj).2.2.2.2.1.symm, rfl, key _ h2 (C47_new_verifies S _ (x j) e rng') ?_⟩
    rintro ⟨w, hw2, hw3⟩
    rw [hw.unique hw2] at hvv
    refine hvv ?_
    have hw3 : w • S.gen = Spec.pointEval (commitPoints S (coeffs l)) ((e.receiverIndex).toNat : F) := hw3
    rw [h3] at hw3
    exact hw3

/-- C135, what holds: the setting is that of `C132_uninterrupted_partial`, but besides the complaints of `H` any others
are processed that pass these checks, none of which the crate does: the maker `j` outside `H` is named as the receiver, the
included share is the one that the accused dealer published for `j`, the DH public key is the one in the record of `j`, and
if the proof verifies, the disclosed key is the DH key of the two (up to forged proofs, see `C135_forgery`). Then nobody in
`H` is removed and everybody in `H` finishes with the same group key and shares of its secret.

Missing for the full C135: the same for what the crate checks, which is false (`C135_authenticated_framing`). -/
theorem C135_screened_partial {S : Suite F G R} (hS : S.Lawful) (dbg : Bool) (params : Params) (ht : params.t ≠ 0)
    (idx : List U32) (hidx : idx.Nodup) (hlen : idx.length = params.n.toNat) (P : U32 → Participant F G)
    (hPi : ∀ l ∈ idx, (P l).index = l ∧ ¬ Spec.LacksProof S (P l)) (A : List U32) (hA : A.Nodup)
    (hAm : ∀ l, l ∈ A ↔ l ∈ idx ∧ GoodDealer S params.t (P l))
    (H : List U32) (hH : H.Nodup) (hHi : H ⊆ idx) (htH : params.t.toNat ≤ H.length)
    (hrange : ∀ l ∈ A, l ∉ H → l ≠ 0 ∧ l.toNat ≤ A.length)
    (r1 r2 r3 : U32 → R) (coeffs : U32 → List F) (x : U32 → F)
    (hP : ∀ i ∈ H, newDealer S params i (r1 i) = .ok (P i, coeffs i, x i))
    (ord ord' : U32 → List U32) (ho : ∀ i ∈ H, (ord i).Perm idx) (ho' : ∀ i ∈ H, (ord' i).Perm A) :
    ∃ (d1 : U32 → RoundOne F G) (L : U32 → ParticipantList F G),
      (∀ i ∈ H, bootstrap S dbg params (x i) i (coeffs i) ((ord i).map P) (r2 i) = .ok (d1 i, L i)) ∧
    ∀ E : U32 → U32 → EncShare,
      (∀ l ∈ A, ∀ i ∈ H, (E l i).senderIndex = l ∧ (E l i).receiverIndex = i) →
      (∀ l ∈ H, ∃ m, (d1 l).theirEncryptedSecretShares = .ok m ∧ ∀ i ∈ idx, m.get? i = some (E l i)) →
    ∃ (d2 : U32 → RoundTwo F G) (cs : U32 → List (Complaint F G)),
      (∀ i ∈ H, (d1 i).toRoundTwo S dbg ((ord' i).map fun l => E l i) (r3 i) = .ok (d2 i, cs i)) ∧
    ∀ all : U32 → List (Complaint F G), (∀ i ∈ H, ∀ j ∈ H, ∀ c ∈ cs j, c ∈ all i) →
      (∀ i ∈ H, ∀ j ∈ H, ∀ c, c ∈ all i ↔ c ∈ all j) →
      (∀ i ∈ H, ∀ c ∈ all i, (∃ j ∈ H, c ∈ cs j) ∨ ∃ l, ∃ j ∈ idx, j ∉ H ∧
        c.encShare.senderIndex = l ∧ c.encShare.receiverIndex = j ∧ (l ∈ H → c.encShare = E l j ∧
          c.dhPublicKey = (P j).dhPublicKey ∧ (c.verify S (P l).dhPublicKey = .ok () →
            ∃ y : F, c.dhPublicKey = y • S.gen ∧ c.dhSharedKey = y • (P l).dhPublicKey))) →
    ∃ (comms' : BMap (VssCommitment G)) (s : F) (keys : List G) (key : U32 → F) (d3 : U32 → RoundTwo F G),
      comms'.WF ∧ H ⊆ comms'.keys ∧
      (∀ k c, comms'.get? k = some c → k ∈ A ∧ (P k).commitments = some c) ∧
      s • S.gen = Spec.interpolateG F comms'.keys
        (fun l => ((comms'.get? l).map fun c => c.points.headD 0).getD 0) ∧
      (∀ i ∈ H, (d2 i).blame S (all i) = .ok (d3 i, keys) ∧ (d3 i).state.theirCommitments = some comms' ∧
        (d3 i).finish = .ok (s • S.gen, ⟨i, key i⟩)) ∧
      ∀ J : List U32, J.Nodup → J ⊆ H → params.t.toNat ≤ J.length → Spec.interpolate J key = s := by
  have hPg := fun i hi => newDealer_good ht (hP i hi)
  have hHA : H ⊆ A := fun l hl => (hAm l).mpr ⟨hHi hl, (hPg l hl).2.2.2.2.2⟩
  have hview := fun i (hi : i ∈ H) => accepted_view hS dbg params ht idx hidx hlen P hPi A hA hAm
    (htH.trans (hH.subperm hHA).length_le) (x i) i (coeffs i) (ord i) (ho i hi) (r2 i)
  haveI : Nonempty (ParticipantList F G) := ⟨⟨[], none⟩⟩
  choose! d1 L comms hb hv using hview
  refine ⟨d1, L, hb, fun E hE hEH => ?_⟩
  have hEd : ∀ l ∈ H, ∀ i ∈ idx, (E l i).senderIndex = l ∧ (E l i).receiverIndex = i ∧ ∀ y : F,
      (P i).dhPublicKey = y • S.gen → Spec.Opens S (E l i) (y • (P l).dhPublicKey)
        (Spec.polyEval (coeffs l) (u32F F i)) := by
    intro l hl i hi
    obtain ⟨m, h1, h2⟩ := (hv l hl).dealt
    obtain ⟨m', h1', h3⟩ := hEH l hl
    rw [h1] at h1'; cases h1'
    obtain ⟨e, he, h4, h5, h6⟩ := h2 i hi
    rw [h3 i hi] at he; cases he
    refine ⟨h4, h5, fun y hy => ?_⟩
    rw [(hPg l hl).2.2.2.2.1]
    exact h6 y hy
  have hgood : ∀ l ∈ H, ∀ i ∈ idx, ∀ y : F, (P i).dhPublicKey = y • S.gen → ∀ c, (P l).commitments = some c →
      Spec.GoodShare S (y • (P l).dhPublicKey) c.points (E l i) := by
    intro l hl i hi y hy c hc
    rw [(hPg l hl).2.2.2.1] at hc; cases hc
    refine ⟨_, (hEd l hl i hi).2.2 y hy, ?_⟩
    rw [(hEd l hl i hi).2.1]
    exact (pointEval_commitPoints S _ _).symm
  have hPi' : ∀ l ∈ idx, (P l).index = l := fun l hl => (hPi l hl).1
  obtain ⟨d2, cs, h1, h2, h3⟩ := uninterrupted_core hS dbg params (GoodDealer S params.t) (fun p hp => hp.1) params.t.toNat
    (fun h => ht (UInt32.toNat_inj.mp (by simpa using h))) idx hidx P hPi' A hA hAm
    (fun l hl c hc => (((hAm l).mp hl).2.2 c hc).le) H hH hHA htH
    (by
      intro l hl
      by_cases h : l ∈ H
      · exact (hPg l h).1
      · exact (hrange l hl h).1)
    (fun l hl h => (hrange l hl h).2) H r3 x ord ord' ho ho' d1 comms (fun i hi => (hv i hi).toPublicView)
    (by
      intro i hi
      obtain ⟨k1, _, k3, _, k5, k6, k7, _⟩ := C20_bootstrap_classifies hS.cipher hS.codec dbg params _ _ _ _ _ _ _
        (hb i hi)
      rw [k1] at k3 k5 k6
      exact ⟨k3, k5, k6, k7⟩) E hE
    (fun l hl i hi => hgood l hl i (hHi hi) (x i) (hPg i hi).2.2.2.2.1)
  refine ⟨d2, cs, h1, fun all hsub hsame hscr => ?_⟩
  obtain ⟨comms', s, keys, key, d3, w1, w2, w3, w4, w5, w6⟩ := h3 all hsub hsame (by
    intro i hi c hc
    rcases hscr i hi c hc with h | ⟨l, j, hj, hjH, hs, hr, hl⟩
    · exact .inl h
    · refine .inr ⟨by rw [hr]; exact hjH, fun hsH vc hvc hver => ?_⟩
      rw [hs] at hsH hvc hver
      obtain ⟨he, hk, hy⟩ := hl hsH
      obtain ⟨y, hy1, hy2⟩ := hy hver
      rw [hy2, he]
      exact hgood l hsH j hj y (hk.symm.trans hy1) vc hvc)
  exact ⟨comms', s, keys, key, d3, w1, fun h hh => w2 h hh hh, w3, w4,
    fun i hi => ⟨(w5 i hi).1, (w5 i hi).2.1, (w5 i hi).2.2.1⟩, w6⟩

/-- C135: a complaint with a DH public key of the right form whose proof verifies although the disclosed key is another one
is a forgery: its challenge, a hash of everything in the complaint but the response, is the only one that any response
answers. -/
theorem C135_forgery {S : Suite F G R} (hg : S.GroupLaws) (c : Complaint F G) (pk : G) (hver : c.verify S pk = .ok ())
    (hno : ¬ ∃ y : F, c.dhPublicKey = y • S.gen ∧ c.dhSharedKey = y • pk) (h z : F) :
    Spec.CpAccepts S.gen c.dhPublicKey pk c.dhSharedKey c.proof.a1 c.proof.a2 h z →
    h = S.sha256FieldHash (strBytes "Complaint Context") (S.encG c.dhPublicKey ++ S.encG pk ++
        S.encG c.dhSharedKey ++ S.encG c.proof.a1 ++ S.encG c.proof.a2 ++ (encShareCodec S).enc c.encShare) := by
  intro h1
  have h2 := (C48_verify_iff S c pk).mp hver
  obtain ⟨y, hy⟩ := hg.gen_surj c.dhPublicKey
  rw [hy] at h1
  refine C48_wrong_key_one_challenge hg y pk c.dhSharedKey c.proof.a1 c.proof.a2 ?_ _ _ z c.proof.z h1 ?_
  · exact fun h => hno ⟨y, hy, h⟩
  · rw [← hy]; exact h2

section Examples
open Toy

/-- In the toy suite a ciphertext opens under one key only. -/
theorem toy_opens_key {e : EncShare} {k k' v v' : Fp} (h : Spec.Opens suite e k v) (h' : Spec.Opens suite e k' v') :
    k = k' := by
  obtain ⟨key, pt, rest, h1, h2, _⟩ := h
  obtain ⟨key', pt', rest', h1', h2', _⟩ := h'
  have e1 : key = enc k := (Option.some.inj h1).symm
  have e2 : key' = enc k' := (Option.some.inj h1').symm
  subst e1 e2
  have h2 : (if (enc k ++ e.nonce) <+: e.ct then some (e.ct.drop (enc k ++ e.nonce).length) else none) = some pt := h2
  have h2' : (if (enc k' ++ e.nonce) <+: e.ct then some (e.ct.drop (enc k' ++ e.nonce).length) else none) = some pt' := h2'
  split at h2
  · next p1 =>
    split at h2'
    · next p2 =>
      have := List.prefix_of_prefix_length_le p1 p2 (by simp [enc_length])
      have := this.eq_of_length (by simp [enc_length])
      have := (List.append_inj this (by simp [enc_length])).1
      have h := congrArg dec this
      have a := dec_enc k []
      have b := dec_enc k' []
      rw [List.append_nil] at a b
      rw [a, b] at h
      exact (Prod.mk.inj (Option.some.inj h)).1
    · cases h2'
  · cases h2

/-- C135: in a (3, 2) session that everybody follows, participant 1 has dealer 2 removed with a complaint about the genuine
share that 2 dealt to it, and also with a complaint that has its own DH key. -/
example : ∃ (d2 : U32 → RoundTwo Fp Fp) (c c' : Complaint Fp Fp) (pk pk1 gk : Fp), c'.dhPublicKey = pk1 ∧
    c.encShare.senderIndex = 2 ∧ c.encShare.receiverIndex = 1 ∧
    ∀ i ∈ [(1 : U32), 2, 3], FramedBy suite (d2 i) c pk gk ∧ FramedBy suite (d2 i) c' pk gk := by
  have hdeal : ∀ i ∈ [(1 : U32), 2, 3], ∃ p cs x, newDealer suite ⟨3, 2⟩ i 0 = .ok (p, cs, x) := fun i hi => by
    obtain ⟨p, cs, x, h, _⟩ := C16_new_dealer suite ⟨3, 2⟩ (by simp) i (by rintro rfl; simp at hi) 0
    exact ⟨p, cs, x, h⟩
  choose! P coeffs x hP using hdeal
  have ht : (2 : U32) ≠ 0 := by simp
  have hPg := fun i hi => newDealer_good (params := ⟨3, 2⟩) ht (hP i hi)
  have hx2 : x 2 ≠ 0 := by
    have h : (newDealer suite ⟨3, 2⟩ 2 0).toOption.map (·.2.2) ≠ some 0 := by decide +kernel
    rw [hP 2 (by simp)] at h
    exact fun h0 => h (by simp [Except.toOption, h0])
  obtain ⟨d1, L, h1, h2⟩ := C135_authenticated_framing lawful true ⟨3, 2⟩ ht (by decide) [1, 2, 3] (by simp) rfl
    (fun _ => 0) (fun _ => 0) (fun _ => 0) P coeffs x hP (fun _ => [1, 2, 3]) (fun _ => [3, 1, 2])
    (fun _ _ => List.Perm.refl _) (fun _ _ => by decide)
  have hm : ∀ l ∈ [(1 : U32), 2, 3], ∃ m, (d1 l).theirEncryptedSecretShares = .ok m ∧ ∀ i ∈ [(1 : U32), 2, 3], ∃ e,
      m.get? i = some e ∧ e.senderIndex = l ∧ e.receiverIndex = i ∧ ∃ v, Spec.Opens suite e (x i • (x l • suite.gen)) v := by
    intro l hl
    obtain ⟨m, k1, _, _, k4⟩ := C25_dealt_shares cipher_laws codec_laws true ⟨3, 2⟩ (x l) l (coeffs l)
      ([1, 2, 3].map P) 0 (by
        simp [(hPg 1 (by simp)).2.1, (hPg 2 (by simp)).2.1, (hPg 3 (by simp)).2.1]) _ _ (h1 l hl)
    refine ⟨m, k1, fun i hi => ?_⟩
    obtain ⟨e, e1, e2, e3, e4⟩ := k4 (P i) (List.mem_map.mpr ⟨i, hi, rfl⟩)
    have := (hPg i hi).2.1
    rw [this] at e1 e3
    obtain ⟨v, hv, _⟩ := (decryptShare_ok_iff suite e _ _).mp (e4 (x i) (hPg i hi).2.2.2.2.1)
    exact ⟨e, e1, e2, e3, v, hv⟩
  choose! m hm1 E hE1 hE2 hE3 v hv using hm
  obtain ⟨d2, _, h3⟩ := h2 E (fun l hl => ⟨m l, hm1 l hl, fun i hi => hE1 l hl i hi⟩)
  obtain ⟨k1, c', k2, k3, k4, k5, k6⟩ := h3 2 (by simp) (by decide) 1 (by simp) 0
  obtain ⟨c, _, c1, c2, c3⟩ := k1 (x 1 + 1) (by
    rintro ⟨w, hw, _⟩
    have := toy_opens_key hw (hv 2 (by simp) 1 (by simp))
    rw [(hPg 2 (by simp)).2.2.2.2.1, add_smul, one_smul] at this
    have h' : x 2 = 0 ∨ suite.gen = 0 := by simpa using this
    exact h'.elim hx2 (by show (1 : Fp) ≠ 0; exact one_ne_zero))
  exact ⟨d2, c, c', _, _, _, k4, by rw [c1]; exact hE2 2 (by simp) 1 (by simp), c2, fun i hi => ⟨c3 i hi, k6 i hi⟩⟩

/-- C135: a forged complaint: the ciphertext is chosen such that the (toy) hash is the challenge 2, for which 11 is the
response, and the disclosed key is 16 instead of 15. -/
example := C135_forgery group_laws (⟨16, 5, ⟨2, 1, [0, 0], [112, 81, 120, 140, 7, 4]⟩, ⟨1, 1, 11⟩⟩ : Complaint Fp Fp) 3
  (by decide +kernel)
  (by
    rintro ⟨y, h1, h2⟩
    have h1 : (5 : Fp) = y • suite.gen := h1
    have h2 : (16 : Fp) = y * 3 := h2
    rw [smul_gen] at h1
    subst h1
    revert h2
    decide +kernel) 2 11

/-- C135: in a (3, 2) session 1 and 2 follow the protocol, and 3 makes an unjustified complaint with its own key about the
genuine share that 1 dealt to it. Nobody else is removed. -/
example : ∃ (d2 : U32 → RoundTwo Fp Fp) (cs : U32 → List (Complaint Fp Fp)) (c : Complaint Fp Fp)
    (d3 : U32 → RoundTwo Fp Fp) (keys : List Fp) (gk : Fp) (key : U32 → Fp), c.encShare.senderIndex = 1 ∧
    ∀ i ∈ [(1 : U32), 2], (d2 i).blame suite (c :: (cs 1 ++ cs 2)) = .ok (d3 i, keys) ∧
      (d3 i).finish = .ok (gk, ⟨i, key i⟩) := by
  have hdeal : ∀ i ∈ [(1 : U32), 2, 3], ∃ p cs x, newDealer suite ⟨3, 2⟩ i 0 = .ok (p, cs, x) := fun i hi => by
    obtain ⟨p, cs, x, h, _⟩ := C16_new_dealer suite ⟨3, 2⟩ (by simp) i (by rintro rfl; simp at hi) 0
    exact ⟨p, cs, x, h⟩
  choose! P coeffs x hP using hdeal
  have ht : (2 : U32) ≠ 0 := by simp
  have hPg := fun i hi => newDealer_good (params := ⟨3, 2⟩) ht (hP i hi)
  obtain ⟨d1, L, h1, h2⟩ := C135_screened_partial lawful true ⟨3, 2⟩ ht [1, 2, 3] (by simp) rfl P
    (fun l hl => ⟨(hPg l hl).2.1, by
      rintro ⟨_, hnone, _⟩
      obtain ⟨⟨_, _, _, _, _, _, hp, _⟩, _⟩ := (hPg l hl).2.2.2.2.2
      rw [hnone] at hp; cases hp⟩)
    [1, 2, 3] (by simp) (fun l => ⟨fun h => ⟨h, (hPg l h).2.2.2.2.2⟩, fun h => h.1⟩) [1, 2] (by simp) (by simp) le_rfl
    (by
      intro l hl hn
      obtain rfl : l = 3 := by simp at hl hn; tauto
      decide)
    (fun _ => 0) (fun _ => 0) (fun _ => 0) coeffs x (fun i hi => hP i (by simp at hi ⊢; tauto)) (fun _ => [1, 2, 3])
    (fun _ => [3, 1, 2]) (fun _ _ => List.Perm.refl _) (fun _ _ => by decide)
  have hm : ∀ l ∈ [(1 : U32), 2], ∃ m, (d1 l).theirEncryptedSecretShares = .ok m ∧ ∀ i ∈ [(1 : U32), 2, 3], ∃ e,
      m.get? i = some e ∧ e.senderIndex = l ∧ e.receiverIndex = i := by
    intro l hl
    obtain ⟨m, k1, _, _, k4⟩ := C25_dealt_shares cipher_laws codec_laws true ⟨3, 2⟩ (x l) l (coeffs l)
      ([1, 2, 3].map P) 0 (by
        simp [(hPg 1 (by simp)).2.1, (hPg 2 (by simp)).2.1, (hPg 3 (by simp)).2.1]) _ _ (h1 l hl)
    refine ⟨m, k1, fun i hi => ?_⟩
    obtain ⟨e, e1, e2, e3, _⟩ := k4 (P i) (List.mem_map.mpr ⟨i, hi, rfl⟩)
    have := (hPg i hi).2.1
    rw [this] at e1 e3
    exact ⟨e, e1, e2, e3⟩
  choose! m hm1 E hE1 hE2 hE3 using hm
  obtain ⟨d2, cs, _, h5⟩ := h2 (fun l i => if l = 3 then ⟨3, i, [], []⟩ else E l i) (by
      intro l hl i hi
      by_cases h : l = 3
      · subst h; simp
      · have : l ∈ [(1 : U32), 2] := by simp at hl ⊢; tauto
        simp only [h, if_false]
        have hi' : i ∈ [(1 : U32), 2, 3] := by simp at hi ⊢; tauto
        exact ⟨hE2 l this i hi', hE3 l this i hi'⟩) (by
      intro l hl
      refine ⟨m l, hm1 l hl, fun i hi => ?_⟩
      have : l ≠ 3 := by rintro rfl; simp at hl
      simp only [this, if_false]
      exact hE1 l hl i hi)
  set c := (Complaint.new suite (P 1).dhPublicKey (x 3) (x 3 • (P 1).dhPublicKey) (E 1 3) 0).1 with hc
  have c1 : c.encShare.senderIndex = 1 := hE2 1 (by simp) 3 (by simp)
  obtain ⟨_, s, keys, key, d3, _, _, _, _, h6, _⟩ := h5 (fun _ => c :: (cs 1 ++ cs 2))
    (by
      intro i _ j hj c' hc'
      simp at hj ⊢
      rcases hj with rfl | rfl <;> simp [hc']) (fun _ _ _ _ _ => Iff.rfl)
    (by
      intro i hi c' hc'
      rcases List.mem_cons.mp hc' with rfl | h
      · refine .inr ⟨1, 3, by simp, by simp, c1, hE3 1 (by simp) 3 (by simp), fun _ => ⟨?_, ?_, fun _ => ⟨x 3, rfl, rfl⟩⟩⟩
        · simp [hc, Complaint.new]
        · exact (hPg 3 (by simp)).2.2.2.2.1.symm
      · rcases List.mem_append.mp h with h | h
        · exact .inl ⟨1, by simp, h⟩
        · exact .inl ⟨2, by simp, h⟩)
  exact ⟨d2, cs, c, d3, keys, _, key, c1, fun i hi => ⟨(h6 i hi).1, (h6 i hi).2.2⟩⟩

end Examples

end IceFrost
