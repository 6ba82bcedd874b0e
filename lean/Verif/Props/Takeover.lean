import Verif.Props.Robust

/-! # C132: the documented robustness of the key generation -/

set_option linter.unusedSectionVars false
set_option linter.unusedSimpArgs false
set_option linter.unusedVariables false

namespace IceFrost

open Finset

attribute [local instance] Classical.propDecidable

variable {F G R : Type} [Field F] [DecidableEq F] [AddCommGroup G] [Module F G] [DecidableEq G]

/-- What participant `i` knows about the dealers `A` with records `P l` after round one. -/
structure PublicView (S : Suite F G R) (params : Params) (P : U32 → Participant F G) (A : List U32) (i : U32)
    (x : F) (d : RoundOne F G) (comms : BMap (VssCommitment G)) : Prop where
  n : d.state.parameters.n.toNat = A.length
  t : d.state.parameters.t = params.t
  index : d.state.index = i
  dh : d.state.dhPrivateKey = x
  commits : d.state.theirCommitments = some comms
  wf : comms.WF
  get : ∀ l c, comms.get? l = some c ↔ l ∈ A ∧ (P l).commitments = some c
  dhs : ∀ l pk, d.state.theirDhPublicKeys.get? l = some pk ↔ l ∈ A ∧ (P l).dhPublicKey = pk
  wfd : d.state.theirDhPublicKeys.WF

/-- What participant `i` knows after `bootstrap`, where `P l` is the record of `l` and `A` are the accepted ones. -/
structure AcceptedView (S : Suite F G R) (params : Params) (P : U32 → Participant F G) (idx A : List U32) (i : U32)
    (x : F) (cs : List F) (d : RoundOne F G) (comms : BMap (VssCommitment G)) : Prop extends
    PublicView S params P A i x d comms where
  dealt : ∃ m, d.theirEncryptedSecretShares = .ok m ∧ ∀ j ∈ idx, ∃ e, m.get? j = some e ∧ e.senderIndex = i ∧
    e.receiverIndex = j ∧ ∀ y : F, (P j).dhPublicKey = y • S.gen →
      Spec.Opens S e (y • (x • S.gen)) (Spec.polyEval cs (u32F F j))

/-- The view of a state made from the records of `A`. -/
theorem publicView_of_records {S : Suite F G R} (params : Params) (P : U32 → Participant F G) (A : List U32) (hA : A.Nodup)
    (hi : ∀ l ∈ A, (P l).index = l) (ord : List U32) (ho : ord.Perm A) (i : U32) (x : F) (d : RoundOne F G)
    (k3 : d.state.parameters.n.toNat = (ord.map P).length) (k4 : d.state.parameters.t = params.t)
    (k5 : d.state.theirCommitments =
      some (BMap.ofList ((ord.map P).filterMap fun p => p.commitments.map fun c => (p.index, c))))
    (k6 : d.state.theirDhPublicKeys = BMap.ofList ((ord.map P).map fun p => (p.index, p.dhPublicKey)))
    (k7 : d.state.index = i) (k8 : d.state.dhPrivateKey = x) : ∃ comms, PublicView S params P A i x d comms := by
  have hidx' : ((ord.map P).map (·.index)).Nodup := by
    have : (ord.map P).map (·.index) = ord := by
      rw [List.map_map]
      conv_rhs => rw [← List.map_id ord]
      exact List.map_congr_left fun l hl => hi l (ho.mem_iff.mp hl)
    rw [this]; exact ho.nodup_iff.mpr hA
  have hmem : ∀ p, p ∈ ord.map P ↔ ∃ l ∈ A, P l = p := by
    intro p
    rw [List.mem_map]
    simp only [ho.mem_iff]
  have hnd : (((ord.map P).map fun p => (p.index, p.dhPublicKey)).map Prod.fst).Nodup := by
    rw [List.map_map]
    exact hidx'
  have hnc : (((ord.map P).filterMap fun p => p.commitments.map fun c => (p.index, c)).map Prod.fst).Nodup := by
    have hsl : ∀ l : List (Participant F G), ((l.filterMap fun p => p.commitments.map fun c => (p.index, c)).map
        Prod.fst).Sublist (l.map (·.index)) := by
      intro l
      induction l with
      | nil => simp
      | cons p l ih =>
        rw [List.filterMap_cons]
        cases p.commitments with
        | none => exact ih.cons _
        | some c => exact ih.cons_cons _
    exact hidx'.sublist (hsl _)
  refine ⟨_, ?_, k4, k7, k8, k5, BMap.wf_ofList _, ?_, ?_, by rw [k6]; exact BMap.wf_ofList _⟩
  · rw [k3, List.length_map, ho.length_eq]
  · intro l c
    rw [BMap.get?_ofList hnc, List.mem_filterMap]
    constructor
    · rintro ⟨p, hp, he⟩
      obtain ⟨l', hl', rfl⟩ := (hmem p).mp hp
      cases hc : (P l').commitments with
      | none => rw [hc] at he; cases he
      | some c' =>
        rw [hc] at he; cases he
        rw [hi l' hl']
        exact ⟨hl', hc⟩
    · rintro ⟨hl, hc⟩
      exact ⟨P l, (hmem _).mpr ⟨l, hl, rfl⟩, by rw [hc, hi l hl]; rfl⟩
  · intro l pk
    rw [k6, BMap.get?_ofList hnd, List.mem_map]
    constructor
    · rintro ⟨p, hp, he⟩
      obtain ⟨l', hl', rfl⟩ := (hmem p).mp hp
      cases he
      rw [hi l' hl']
      exact ⟨hl', rfl⟩
    · rintro ⟨hl, rfl⟩
      exact ⟨P l, (hmem _).mpr ⟨l, hl, rfl⟩, by rw [hi l hl]⟩

/-- With at least `t` acceptable records and none that lacks its proof, `bootstrap` succeeds. -/
theorem accepted_view {S : Suite F G R} (hS : S.Lawful) (dbg : Bool) (params : Params) (ht : params.t ≠ 0)
    (idx : List U32) (hidx : idx.Nodup) (hlen : idx.length = params.n.toNat) (P : U32 → Participant F G)
    (hPi : ∀ l ∈ idx, (P l).index = l ∧ ¬ Spec.LacksProof S (P l)) (A : List U32) (hA : A.Nodup)
    (hAm : ∀ l, l ∈ A ↔ l ∈ idx ∧ GoodDealer S params.t (P l)) (htA : params.t.toNat ≤ A.length)
    (x : F) (i : U32) (cs : List F) (ord : List U32) (ho : ord.Perm idx) (rng : R) :
    ∃ d L comms, bootstrap S dbg params x i cs (ord.map P) rng = .ok (d, L) ∧
      AcceptedView S params P idx A i x cs d comms := by
  have hfil : ((ord.map P).filter (GoodDealer S params.t)) = (ord.filter fun l => GoodDealer S params.t (P l)).map P := by
    rw [List.filter_map]; rfl
  have hperm : (ord.filter fun l => GoodDealer S params.t (P l)).Perm A := by
    rw [List.perm_ext_iff_of_nodup ((ho.nodup_iff.mpr hidx).filter _) hA]
    intro l
    simp [hAm, ho.mem_iff]
  have hfl : ((ord.map P).filter (GoodDealer S params.t)).length = A.length := by
    rw [hfil, List.length_map, hperm.length_eq]
  have hidx' : ((ord.map P).map (·.index)).Nodup := by
    have : (ord.map P).map (·.index) = ord := by
      rw [List.map_map]
      conv_rhs => rw [← List.map_id ord]
      exact List.map_congr_left fun l hl => (hPi l (ho.mem_iff.mp hl)).1
    rw [this]; exact ho.nodup_iff.mpr hidx
  have h21 := C21_aborts_iff hS.cipher hS.codec dbg params ht x i cs (ord.map P) rng
    (by rw [List.length_map, ho.length_eq, hlen])
    (by
      intro p hp
      obtain ⟨l, hl, rfl⟩ := List.mem_map.mp hp
      exact (hPi l (ho.mem_iff.mp hl)).2)
  cases hres : bootstrap S dbg params x i cs (ord.map P) rng with
  | error f =>
    have := h21.1.mp ⟨f, hres⟩
    rw [hfl] at this
    omega
  | ok v =>
    obtain ⟨d, L⟩ := v
    obtain ⟨k1, _, k3, k4, k5, k6, k7, k8, _⟩ := C20_bootstrap_classifies hS.cipher hS.codec dbg params _ _ _ _ _ _ _ hres
    rw [k1] at k3 k5 k6
    obtain ⟨m, q1, _, _, q4⟩ := C25_dealt_shares hS.cipher hS.codec dbg params x i cs _ rng hidx' d L hres
    have hi : ∀ l ∈ A, (P l).index = l := fun l hl => (hPi l ((hAm l).mp hl).1).1
    rw [hfil] at k3 k5 k6
    obtain ⟨comms, hv⟩ := publicView_of_records (S := S) params P A hA hi _ hperm i x d k3 k4 k5 k6 k7 k8
    refine ⟨d, L, comms, rfl, hv, m, q1, ?_⟩
    · intro j hj
      obtain ⟨e, h1, h2, h3, h4⟩ := q4 (P j) (List.mem_map.mpr ⟨j, ho.mem_iff.mpr hj, rfl⟩)
      rw [(hPi j hj).1] at h1 h3 h4
      refine ⟨e, h1, h2, h3, fun y hy => ?_⟩
      obtain ⟨v, hv, he⟩ := (decryptShare_ok_iff S e _ _).mp (h4 y hy)
      have := congrArg SecretShare.eval he
      simp only at this
      rw [← this] at hv
      exact hv

/-- `to_round_two` of a participant that received good shares from `H`, at least `t` of the accepted dealers, and
arbitrary shares (with the right labels) from the other accepted dealers. -/
theorem round_two_accepted {S : Suite F G R} (dbg : Bool) (params : Params)
    (P : U32 → Participant F G) (A : List U32) (hA : A.Nodup) (i : U32)
    (x : F) (d : RoundOne F G) (comms : BMap (VssCommitment G))
    (hv : PublicView S params P A i x d comms) (hcm : ∀ l ∈ A, ∃ c, (P l).commitments = some c)
    (H : List U32) (hH : H.Nodup) (hHA : H ⊆ A) (htH : params.t.toNat ≤ H.length) (E : U32 → EncShare)
    (hE : ∀ l ∈ A, (E l).senderIndex = l ∧ (E l).receiverIndex = i)
    (hgood : ∀ l ∈ H, ∀ c, (P l).commitments = some c → Spec.GoodShare S (x • (P l).dhPublicKey) c.points (E l))
    (ord : List U32) (ho : ord.Perm A) (rng : R) :
    ∃ d2 cs', d.toRoundTwo S dbg (ord.map E) rng = .ok (d2, cs') ∧
      (∀ c ∈ cs', ∃ l ∈ A, l ∉ H ∧ c.encShare = E l) ∧
      ∀ l ∈ A, ∀ c, (P l).commitments = some c → ¬ Spec.GoodShare S (x • (P l).dhPublicKey) c.points (E l) →
        ∃ c' ∈ cs', c'.encShare = E l := by
  have hHl := (hH.subperm hHA).length_le
  have key := C30_aborts_iff_partial S dbg d comms hv.commits hv.wf.nodup (ord.map E)
    (by rw [List.length_map, ho.length_eq, hv.t]; omega)
    (by
      intro e he
      obtain ⟨l, hl, rfl⟩ := List.mem_map.mp he
      have hl' := ho.mem_iff.mp hl
      refine ⟨fun _ => by rw [(hE l hl').2, hv.index], ?_⟩
      rw [(hE l hl').1]
      exact BMap.mem_keys_of_get? ((hv.dhs l _).mpr ⟨hl', rfl⟩)) rng _ rfl
  set bad := (ord.map E).filter _ with hbad
  have hbm : ∀ e, e ∈ bad ↔ ∃ l ∈ A, e = E l ∧ ∃ c, (P l).commitments = some c ∧
      ¬ Spec.GoodShare S (x • (P l).dhPublicKey) c.points (E l) := by
    intro e
    rw [hbad, List.mem_filter, List.mem_map, decide_eq_true_eq]
    constructor
    · rintro ⟨⟨l, hl, rfl⟩, pk, c, h1, h2, h3⟩
      have hl' := ho.mem_iff.mp hl
      rw [(hE l hl').1] at h1 h2
      rw [hv.dh, ← ((hv.dhs l pk).mp h1).2] at h3
      exact ⟨l, hl', rfl, c, ((hv.get l c).mp h2).2, h3⟩
    · rintro ⟨l, hl, rfl, c, hc, h3⟩
      refine ⟨⟨l, ho.mem_iff.mpr hl, rfl⟩, (P l).dhPublicKey, c, ?_, ?_, by rw [hv.dh]; exact h3⟩
      · rw [(hE l hl).1]; exact (hv.dhs l _).mpr ⟨hl, rfl⟩
      · rw [(hE l hl).1]; exact (hv.get l _).mpr ⟨hl, hc⟩
  have hbH : ∀ e ∈ bad, ∃ l ∈ A, l ∉ H ∧ e = E l := by
    intro e he
    obtain ⟨l, hl, rfl, c, hc, h3⟩ := (hbm e).mp he
    exact ⟨l, hl, fun h => h3 (hgood l h c hc), rfl⟩
  have hbl : bad.length + H.length ≤ A.length := by
    have hnd : (bad.map (·.senderIndex) ++ H).Nodup := by
      rw [List.nodup_append]
      refine ⟨?_, hH, ?_⟩
      · have : ((ord.map E).map (·.senderIndex)) = ord := by
          rw [List.map_map]
          conv_rhs => rw [← List.map_id ord]
          exact List.map_congr_left fun l hl => (hE l (ho.mem_iff.mp hl)).1
        refine List.Nodup.sublist (List.filter_sublist.map _) ?_
        rw [this]
        exact ho.nodup_iff.mpr hA
      · intro k hk k' hk' hkk
        obtain ⟨e, he, rfl⟩ := List.mem_map.mp hk
        obtain ⟨l, hl, hlH, rfl⟩ := hbH e he
        rw [(hE l hl).1] at hkk
        exact hlH (hkk ▸ hk')
    have hsub : (bad.map (·.senderIndex) ++ H) ⊆ A := by
      intro k hk
      rcases List.mem_append.mp hk with hk | hk
      · obtain ⟨e, he, rfl⟩ := List.mem_map.mp hk
        obtain ⟨l, hl, hlH, rfl⟩ := hbH e he
        rw [(hE l hl).1]; exact hl
      · exact hHA hk
    have := (hnd.subperm hsub).length_le
    rwa [List.length_append, List.length_map] at this
  obtain ⟨key1, _⟩ := key (by rw [hv.n]; omega)
  cases hres : d.toRoundTwo S dbg (ord.map E) rng with
  | error f =>
    have := key1.mp ⟨f, hres⟩
    rw [hv.n, hv.t] at this
    omega
  | ok v =>
    obtain ⟨d2, cs'⟩ := v
    have h28 := C28_complaints S dbg d comms hv.commits hv.wf.nodup _ rng cs' (.inl ⟨d2, hres⟩)
    refine ⟨d2, cs', rfl, fun c hc => ?_, fun l hl c hc hb => ?_⟩
    · obtain ⟨e, he, hce, _⟩ := forall₂_mem_left h28 c hc
      rw [hce]
      exact hbH e he
    · obtain ⟨c', hc', hce, _⟩ := forall₂_mem_right h28 (E l) ((hbm _).mpr ⟨l, hl, rfl, c, hc, hb⟩)
      exact ⟨c', hc', hce⟩

/-- One late dealer `b` and the honest dealers `D`, seen by the receivers `H`, whose indices include `D`. -/
theorem takeover_core {S : Suite F G R} (hu : Suite.U32Inj F) (dbg : Bool) (params : Params)
    (P : U32 → Participant F G) (D : List U32) (hD : D.Nodup) (htD : params.t.toNat ≤ D.length) (b : U32)
    (H : List U32) (hDH : D ⊆ H) (hbH : b ∉ H) (hlate : D.length + 1 < b.toNat)
    (r3 : U32 → R) (x : U32 → F) (hcm : ∀ l ∈ b :: D, ∃ c, (P l).commitments = some c)
    (cb : VssCommitment G) (hcb : (P b).commitments = some cb) (hhead : ∃ pk, cb.points.head? = some pk)
    (ord' : U32 → List U32) (ho' : ∀ i ∈ H, (ord' i).Perm (b :: D)) (d1 : U32 → RoundOne F G)
    (comms : U32 → BMap (VssCommitment G)) (hv : ∀ i ∈ H, PublicView S params P (b :: D) i (x i) (d1 i) (comms i))
    (E : U32 → U32 → EncShare) (v : U32 → F)
    (hEd : ∀ i ∈ H, ∀ l ∈ D, (E l i).senderIndex = l ∧ (E l i).receiverIndex = i ∧ ∀ c, (P l).commitments = some c →
      Spec.GoodShare S (x i • (P l).dhPublicKey) c.points (E l i))
    (hEb : ∀ i ∈ H, (E b i).senderIndex = b ∧ (E b i).receiverIndex = i ∧
        Spec.Opens S (E b i) (x i • (P b).dhPublicKey) (v i) ∧ v i • S.gen ≠ Spec.pointEval cb.points (i.toNat : F)) :
    ∃ (d2 : U32 → RoundTwo F G) (cs : U32 → List (Complaint F G)),
      (∀ i ∈ H, (d1 i).toRoundTwo S dbg ((ord' i).map fun l => E l i) (r3 i) = .ok (d2 i, cs i) ∧ cs i ≠ [] ∧
        ∀ c ∈ cs i, c.encShare.senderIndex = b) ∧
    ∀ all : U32 → List (Complaint F G), (∀ i ∈ H, ∀ c, c ∈ all i ↔ ∃ j ∈ H, c ∈ cs j) →
    ∃ (d3 : U32 → RoundTwo F G) (keys : U32 → List G), ∀ i ∈ H, (d2 i).blame S (all i) = .ok (d3 i, keys i) ∧
      (∀ j ∈ D, (P j).dhPublicKey ∈ keys i) ∧ (d3 i).finish = .ok (cb.points.headD 0, ⟨i, v i⟩) := by
  set A := b :: D with hAdef
  have hA : A.Nodup := List.nodup_cons.mpr ⟨fun h => hbH (hDH h), hD⟩
  have hDA : D ⊆ A := fun l hl => List.mem_cons_of_mem _ hl
  have hbA : b ∈ A := List.mem_cons_self ..
  have hbD : b ∉ D := fun h => hbH (hDH h)
  have hEl : ∀ i ∈ H, ∀ l ∈ A, (E l i).senderIndex = l ∧ (E l i).receiverIndex = i := by
    intro i hi l hl
    rcases List.mem_cons.mp hl with rfl | hl
    · exact ⟨(hEb i hi).1, (hEb i hi).2.1⟩
    · exact ⟨(hEd i hi l hl).1, (hEd i hi l hl).2.1⟩
  have hround := fun i (hi : i ∈ H) => round_two_accepted dbg params P A hA i (x i) (d1 i) (comms i)
    (hv i hi) hcm D hD hDA htD (fun l => E l i) (hEl i hi) (fun l hl => (hEd i hi l hl).2.2) (ord' i) (ho' i hi) (r3 i)
  choose! d2 cs hr2 hca hcb' using hround
  have hacb : ∀ i ∈ H, ∀ c ∈ cs i, c.encShare = E b i := by
    intro i hi c hc
    obtain ⟨l, hl, hlH, he⟩ := hca i hi c hc
    rcases List.mem_cons.mp hl with rfl | hl
    · exact he
    · exact absurd hl hlH
  have hbad : ∀ i ∈ H, ∃ c ∈ cs i, c.encShare = E b i := by
    intro i hi
    refine hcb' i hi b hbA cb hcb ?_
    rintro ⟨w, hw1, hw2⟩
    obtain ⟨e1, e2, e3, e4⟩ := hEb i hi
    have : w = v i := by
      obtain ⟨k, pt, rest, a1, a2, a3⟩ := hw1
      obtain ⟨k', pt', rest', b1, b2, b3⟩ := e3
      rw [a1] at b1; cases b1
      rw [a2] at b2; cases b2
      rw [a3] at b3; cases b3
      rfl
    rw [this, e2] at hw2
    exact e4 hw2
  refine ⟨d2, cs, fun i hi => ⟨hr2 i hi, ?_, fun c hc => by rw [hacb i hi c hc]; exact (hEb i hi).1⟩, fun all hall => ?_⟩
  · obtain ⟨c, hc, _⟩ := hbad i hi
    exact List.ne_nil_of_mem hc
  have main : ∀ i ∈ H, ∃ d3 keys, (d2 i).blame S (all i) = .ok (d3, keys) ∧
      (∀ j ∈ D, (P j).dhPublicKey ∈ keys) ∧ d3.finish = .ok (cb.points.headD 0, ⟨i, v i⟩) := by
    intro i hi
    obtain ⟨m, hold, hpar, hix, hdk⟩ := holds_toRoundTwo S dbg (d1 i) (comms i) (hv i hi).commits (hv i hi).wf _ _ _ _
      (hr2 i hi)
    have hstored := (roundTwo_stored S dbg (d1 i) (comms i) (hv i hi).commits (hv i hi).wf.nodup _ _ _ _ (hr2 i hi)).1
    have hm : m = BMap.ofList (((ord' i).map fun l => E l i).filterMap (opened S (x i) (d1 i).state.theirDhPublicKeys)) := by
      have := hold.shares
      rw [hstored] at this
      rw [← (hv i hi).dh]
      cases this; rfl
    obtain ⟨d3, keys, k1, ⟨comms', m', z1, z2, z3, z4⟩, ⟨lk, _, lk2, lk3⟩⟩ := blame_removed S (d2 i) (comms i) m hold (all i)
    have hrem : ∀ k, (∃ c ∈ all i, k = verdict S (d2 i).state (comms i) c) ↔ k ∈ H := by
      intro k
      have hver : ∀ j ∈ H, ∀ c ∈ cs j, verdict S (d2 i).state (comms i) c = j := by
        intro j hj c hc
        have hce := hacb j hj c hc
        rw [verdict, if_neg, hce, (hEb j hj).2.1]
        rintro ⟨_, h2, _⟩
        apply h2
        rw [hce, (hEb j hj).1, hpar, UInt32.lt_iff_toNat_lt, (hv i hi).n, hAdef, List.length_cons]
        exact hlate
      constructor
      · rintro ⟨c, hc, rfl⟩
        obtain ⟨j, hj, hcj⟩ := (hall i hi c).mp hc
        rw [hver j hj c hcj]; exact hj
      · intro hk
        obtain ⟨c, hc, _⟩ := hbad k hk
        exact ⟨c, (hall i hi c).mpr ⟨k, hk, hc⟩, (hver k hk c hc).symm⟩
    refine ⟨d3, keys, k1, ?_, ?_⟩
    · intro j hj
      rw [lk3, List.mem_filterMap]
      refine ⟨j, (lk2 j).mpr ((hrem j).mpr (hDH hj)), ?_⟩
      rw [hdk]
      exact ((hv i hi).dhs j _).mpr ⟨hDA hj, rfl⟩
    have hdb : (d1 i).state.theirDhPublicKeys.get? b = some (P b).dhPublicKey := ((hv i hi).dhs b _).mpr ⟨hbA, rfl⟩
    have hops : ∀ e ∈ ((ord' i).map fun l => E l i), ∀ k s, opened S (x i) (d1 i).state.theirDhPublicKeys e = some (k, s) →
        k ∈ A ∧ (k = b → s.eval = v i) := by
      intro e he k s hop
      obtain ⟨l, hl, rfl⟩ := List.mem_map.mp he
      have hl' := (ho' i hi).mem_iff.mp hl
      obtain ⟨pk, w, h1, h2, h3, h4⟩ := opened_eq_some.mp hop
      have hs := (hEl i hi l hl').1
      rw [hs] at h1 h3
      subst h3
      refine ⟨hl', fun hkb => ?_⟩
      subst hkb
      rw [hdb] at h1; cases h1
      obtain ⟨kk, pt, rest, a1, a2, a3⟩ := h2
      obtain ⟨k', pt', rest', b1, b2, b3⟩ := (hEb i hi).2.2.1
      rw [a1] at b1; cases b1
      rw [a2] at b2; cases b2
      rw [a3] at b3; cases b3
      rw [h4]
    have hmk : ∀ k, k ∈ m'.keys ↔ k = b := by
      intro k
      constructor
      · intro hk
        obtain ⟨s, hs⟩ := BMap.exists_get? hk
        rw [z4] at hs
        split at hs
        · cases hs
        · next hn =>
          rw [hm] at hs
          obtain ⟨e, he, hop⟩ := List.mem_filterMap.mp (BMap.mem_of_get?_ofList hs)
          have := (hops e he k s hop).1
          rcases List.mem_cons.mp this with h | h
          · exact h
          · exact absurd ((hrem k).mpr (hDH h)) hn
      · rintro rfl
        have : k ∈ m.keys := by
          rw [hm, BMap.mem_keys_ofList]
          refine List.mem_map.mpr ⟨(k, ⟨k, i, v i⟩), List.mem_filterMap.mpr ⟨E k i, List.mem_map.mpr
            ⟨k, (ho' i hi).mem_iff.mpr hbA, rfl⟩, opened_eq_some.mpr ⟨_, v i, ?_, (hEb i hi).2.2.1, ?_, ?_⟩⟩, rfl⟩
          · rw [(hEb i hi).1]; exact hdb
          · rw [(hEb i hi).1]
          · rw [(hEb i hi).1, (hEb i hi).2.1]
        obtain ⟨s, hs⟩ := BMap.exists_get? this
        refine BMap.mem_keys_of_get? (v := s) ?_
        rw [z4, if_neg fun h => hbH ((hrem k).mp h)]
        exact hs
    have hck : ∀ k c, comms'.get? k = some c ↔ k = b ∧ c = cb := by
      intro k c
      rw [z3]
      by_cases hk : k ∈ H
      · rw [if_pos ((hrem k).mpr hk)]
        constructor
        · intro h; cases h
        · rintro ⟨rfl, _⟩; exact absurd hk hbH
      · rw [if_neg fun h => hk ((hrem k).mp h), (hv i hi).get]
        constructor
        · rintro ⟨h1, h2⟩
          rcases List.mem_cons.mp h1 with rfl | h
          · rw [hcb] at h2; cases h2; exact ⟨rfl, rfl⟩
          · exact absurd (hDH h) hk
        · rintro ⟨rfl, rfl⟩
          exact ⟨hbA, hcb⟩
    have hckeys : ∀ k, k ∈ comms'.keys ↔ k = b := by
      intro k
      constructor
      · intro hk
        obtain ⟨c, hc⟩ := BMap.exists_get? hk
        exact ((hck k c).mp hc).1
      · rintro rfl
        exact BMap.mem_keys_of_get? ((hck k cb).mpr ⟨rfl, rfl⟩)
    have hb0 : b ≠ 0 := by rintro rfl; simp at hlate
    obtain ⟨pk, hpk⟩ := hhead
    have hfin := finish_ok hu d3 comms' z1.commits z1.wfc.nodup (fun h => hb0 ((hckeys 0).mp h).symm) (fun _ => pk)
      (by
        intro k c hc
        rw [((hck k c).mp hc).2]; exact hpk) m' z1.shares z1.wfm.nodup (fun h => hb0 ((hmk 0).mp h).symm) (fun _ => v i)
      (by
        intro k s hs
        have hkb := (hmk k).mp (BMap.mem_keys_of_get? hs)
        rw [z4, if_neg (fun h => hbH (hkb ▸ (hrem k).mp h)), hm] at hs
        obtain ⟨e, he, hop⟩ := List.mem_filterMap.mp (BMap.mem_of_get?_ofList hs)
        exact ((hops e he k s hop).2 hkb).symm)
    rw [hfin]
    have e1 : comms'.keys.toFinset = {b} := by ext k; simp [hckeys]
    have e2 : m'.keys.toFinset = {b} := by ext k; simp [hmk]
    have hd3 : d3.state.index = i := by rw [z2]; exact hix.trans (hv i hi).index
    have hh : cb.points.headD 0 = pk := by
      rw [List.headD_eq_head?_getD, hpk]; rfl
    unfold Spec.interpolateG Spec.interpolate Spec.lagrange
    rw [e1, e2, hd3, hh]
    simp
  choose! d3 keys hmain using main
  exact ⟨d3, keys, hmain⟩

/-- C132, negation: one participant takes over a key generation. The participants `H`, at least `t` of them, follow the
protocol; `b` publishes an acceptable record; the other records, if any, are rejected by everybody. If `b` is larger
than the number of accepted records (because others are rejected, or because `b` calls itself so), it can deal any wrong
shares `v i` to `H`. Everybody complains about `b` in `to_round_two`, but when the complaints of `H` are processed,
`blame` removes the makers of the complaints, that is, all of `H`. What `finish` returns is the choice of `b` alone: the
group key is the constant that `b` committed to and the signing key of `i` is the share `v i`. -/
theorem C132_takeover {S : Suite F G R} (hS : S.Lawful) (dbg : Bool) (params : Params) (ht : params.t ≠ 0)
    (idx : List U32) (hidx : idx.Nodup) (hlen : idx.length = params.n.toNat) (P : U32 → Participant F G)
    (hPi : ∀ l ∈ idx, (P l).index = l ∧ ¬ Spec.LacksProof S (P l))
    (H : List U32) (hH : H.Nodup) (htH : params.t.toNat ≤ H.length) (b : U32) (hbH : b ∉ H)
    (hacc : ∀ l, l ∈ H ∨ l = b ↔ l ∈ idx ∧ GoodDealer S params.t (P l)) (hlate : H.length + 1 < b.toNat)
    (r1 r2 r3 : U32 → R) (coeffs : U32 → List F) (x : U32 → F)
    (hP : ∀ i ∈ H, newDealer S params i (r1 i) = .ok (P i, coeffs i, x i))
    (cb : VssCommitment G) (hcb : (P b).commitments = some cb)
    (ord ord' : U32 → List U32) (ho : ∀ i ∈ H, (ord i).Perm idx) (ho' : ∀ i ∈ H, (ord' i).Perm (b :: H)) :
    ∃ (d1 : U32 → RoundOne F G) (L : U32 → ParticipantList F G),
      (∀ i ∈ H, bootstrap S dbg params (x i) i (coeffs i) ((ord i).map P) (r2 i) = .ok (d1 i, L i)) ∧
    ∀ (E : U32 → U32 → EncShare) (v : U32 → F),
      (∀ l ∈ H, ∃ m, (d1 l).theirEncryptedSecretShares = .ok m ∧ ∀ i ∈ H, m.get? i = some (E l i)) →
      (∀ i ∈ H, (E b i).senderIndex = b ∧ (E b i).receiverIndex = i ∧
        Spec.Opens S (E b i) (x i • (P b).dhPublicKey) (v i) ∧ v i • S.gen ≠ Spec.pointEval cb.points (i.toNat : F)) →
    ∃ (d2 : U32 → RoundTwo F G) (cs : U32 → List (Complaint F G)),
      (∀ i ∈ H, (d1 i).toRoundTwo S dbg ((ord' i).map fun l => E l i) (r3 i) = .ok (d2 i, cs i) ∧ cs i ≠ [] ∧
        ∀ c ∈ cs i, c.encShare.senderIndex = b) ∧
    ∀ all : U32 → List (Complaint F G), (∀ i ∈ H, ∀ c, c ∈ all i ↔ ∃ j ∈ H, c ∈ cs j) →
    ∃ (d3 : U32 → RoundTwo F G) (keys : U32 → List G), ∀ i ∈ H, (d2 i).blame S (all i) = .ok (d3 i, keys i) ∧
      (∀ j ∈ H, (P j).dhPublicKey ∈ keys i) ∧ (d3 i).finish = .ok (cb.points.headD 0, ⟨i, v i⟩) := by
  set A := b :: H with hAdef
  have hA : A.Nodup := List.nodup_cons.mpr ⟨hbH, hH⟩
  have hAm : ∀ l, l ∈ A ↔ l ∈ idx ∧ GoodDealer S params.t (P l) := by
    intro l
    rw [← hacc, hAdef, List.mem_cons, or_comm]
  have hHA : H ⊆ A := fun l hl => List.mem_cons_of_mem _ hl
  have hbA : b ∈ A := List.mem_cons_self ..
  have hAi : ∀ l ∈ A, l ∈ idx := fun l hl => ((hAm l).mp hl).1
  have hPg := fun i hi => newDealer_good ht (hP i hi)
  have hcm : ∀ l ∈ A, ∃ c, (P l).commitments = some c := by
    intro l hl
    obtain ⟨⟨_, c, _, _, hc, _⟩, _⟩ := ((hAm l).mp hl).2
    exact ⟨c, hc⟩
  have hview := fun i (hi : i ∈ H) => accepted_view hS dbg params ht idx hidx hlen P hPi A hA hAm
    (htH.trans (hH.subperm hHA).length_le) (x i) i (coeffs i) (ord i) (ho i hi) (r2 i)
  haveI : Nonempty (ParticipantList F G) := ⟨⟨[], none⟩⟩
  choose! d1 L comms hb hv using hview
  refine ⟨d1, L, hb, fun E v hEH hEb => ?_⟩
  have hEd : ∀ l ∈ H, ∀ i ∈ H, (E l i).senderIndex = l ∧ (E l i).receiverIndex = i ∧
      Spec.Opens S (E l i) (x i • (P l).dhPublicKey) (Spec.polyEval (coeffs l) (u32F F i)) := by
    intro l hl i hi
    obtain ⟨m, h1, h2⟩ := (hv l hl).dealt
    obtain ⟨m', h1', h3⟩ := hEH l hl
    rw [h1] at h1'; cases h1'
    obtain ⟨e, he, h4, h5, h6⟩ := h2 i (hAi i (hHA hi))
    rw [h3 i hi] at he; cases he
    refine ⟨h4, h5, ?_⟩
    have := h6 (x i) (hPg i hi).2.2.2.2.1
    rwa [(hPg l hl).2.2.2.2.1]
  refine takeover_core hS.u32 dbg params P H hH htH b H (List.Subset.refl _) hbH hlate r3 x hcm cb hcb ?_ ord' ho' d1 comms
    (fun i hi => (hv i hi).toPublicView) E v ?_ hEb
  · obtain ⟨⟨_, c, pk, _, hc, h2, _⟩, _⟩ := ((hAm b).mp hbA).2
    rw [hcb] at hc; cases hc
    exact ⟨pk, h2⟩
  · intro i hi l hl
    refine ⟨(hEd l hl i hi).1, (hEd l hl i hi).2.1, fun c hc => ?_⟩
    rw [(hPg l hl).2.2.2.1] at hc; cases hc
    refine ⟨_, (hEd l hl i hi).2.2, ?_⟩
    rw [(hEd l hl i hi).2.1]
    exact (pointEval_commitPoints S _ _).symm

/-- C132, negation: the shares that `b` deals in `C132_takeover` can be chosen such that nothing looks wrong afterwards:
they differ from the committed polynomial everywhere, but any `t` of the signing keys interpolate to the secret of `b`,
which is the group secret. -/
theorem C132_takeover_keys {S : Suite F G R} (hg : S.GroupLaws) (hu : Suite.U32Inj F) (cb : List F) (t : Nat)
    (h2 : 2 ≤ t) (hcb : cb.length ≤ t) (δ : F) (hδ : δ ≠ 0) :
    (∀ i : U32, i ≠ 0 → (Spec.polyEval cb (i.toNat : F) + δ * (i.toNat : F)) • S.gen ≠
      Spec.pointEval (commitPoints S cb) (i.toNat : F)) ∧
    ∀ J : List U32, J.Nodup → t ≤ J.length →
      Spec.interpolate J (fun i => Spec.polyEval cb (i.toNat : F) + δ * (i.toNat : F)) = cb.headD 0 := by
  constructor
  · intro i hi h
    rw [pointEval_commitPoints] at h
    have := hg.gen_inj _ _ h
    have h0 : δ * (i.toNat : F) = 0 := by linear_combination this
    rcases mul_eq_zero.mp h0 with h | h
    · exact hδ h
    · refine hi (hu _ _ ?_)
      simpa [u32F] using h
  · intro J hJ hJt
    have h1 := interpolate_polyEval hu hJ cb (by omega)
    have h2 := interpolate_polyEval hu hJ [0, δ] (by simp; omega)
    have e : (fun i : U32 => Spec.polyEval cb (i.toNat : F) + δ * (i.toNat : F)) =
        fun i => Spec.polyEval cb (u32F F i) + Spec.polyEval [0, δ] (u32F F i) := by
      funext i
      simp [Spec.polyEval, u32F, Finset.sum_range_succ]
    have e' : Spec.interpolate J (fun i => Spec.polyEval cb (u32F F i) + Spec.polyEval [0, δ] (u32F F i)) =
        Spec.interpolate J (fun i => Spec.polyEval cb (u32F F i)) +
          Spec.interpolate J (fun i => Spec.polyEval [0, δ] (u32F F i)) := by
      unfold Spec.interpolate
      rw [← Finset.sum_add_distrib]
      exact Finset.sum_congr rfl fun i _ => by ring
    rw [e, e', h1, h2]
    have z1 : Spec.polyEval [0, δ] (0 : F) = 0 := by simp [Spec.polyEval, Finset.sum_range_succ]
    have z2 : Spec.polyEval cb (0 : F) = cb.headD 0 := by
      cases cb with
      | nil => simp [Spec.polyEval]
      | cons a l => simp [Spec.polyEval, Finset.sum_range_succ']
    rw [z1, z2, add_zero]

/-- C132, negation: one participant interrupts a key generation. All others follow the protocol; `b` publishes a record
without the proof of knowledge. Everybody panics in `bootstrap`. -/
theorem C132_one_record_interrupts (S : Suite F G R) (dbg : Bool) (params : Params) (ht : params.t ≠ 0)
    (idx : List U32) (hlen : idx.length = params.n.toNat) (b : U32) (hb : b ∈ idx) (hb0 : b ≠ 0) (r1 r2 : U32 → R)
    (P : U32 → Participant F G) (coeffs : U32 → List F) (x : U32 → F)
    (hP : ∀ i ∈ idx, i ≠ b → newDealer S params i (r1 i) = .ok (P i, coeffs i, x i)) :
    ∃ q : Participant F G, q.index = b ∧ ∀ i ∈ idx, i ≠ b → ∀ ord : List U32, ord.Perm idx →
      bootstrap S dbg params (x i) i (coeffs i) (ord.map (Function.update P b q)) (r2 i) =
        .error (.panic .expectNone) := by
  obtain ⟨p, cs, dh, h1, h2⟩ := C22_attack S params ht b hb0 (r1 b)
  refine ⟨{ p with proofOfSecretKey := none }, (newDealer_good ht h1).2.1, fun i hi hib ord ho => ?_⟩
  refine (C22_missing_proof_panics S dbg params _ _ _ _ _ (by rw [List.length_map, ho.length_eq, hlen])
    ⟨_, List.mem_map.mpr ⟨b, ho.mem_iff.mpr hb, rfl⟩, ?_⟩).1
  rw [Function.update_self]
  exact h2

/-- Receivers `H` that saw the same dealers `A`, of which the honest ones `D` dealt good shares, and that process all of
their own complaints and possibly others, which do not name a member of `D` as maker and, if they accuse one and verify,
disclose a key under which the share is good. -/
theorem uninterrupted_core {S : Suite F G R} (hS : S.Lawful) (dbg : Bool) (params : Params)
    (good : Participant F G → Prop) (hgood : ∀ p, good p → Spec.DealerValid S p) (t : Nat) (ht : t ≠ 0)
    (idx : List U32) (hidx : idx.Nodup) (P : U32 → Participant F G) (hPi : ∀ l ∈ idx, (P l).index = l)
    (A : List U32) (hA : A.Nodup) (hAm : ∀ l, l ∈ A ↔ l ∈ idx ∧ good (P l))
    (hdeg : ∀ l ∈ A, ∀ c, (P l).commitments = some c → c.points.length ≤ t)
    (D : List U32) (hD : D.Nodup) (hDA : D ⊆ A) (htD : params.t.toNat ≤ D.length) (hA0 : ∀ l ∈ A, l ≠ 0)
    (hrange : ∀ l ∈ A, l ∉ D → l.toNat ≤ A.length)
    (H : List U32) (r3 : U32 → R) (x : U32 → F) (ord ord' : U32 → List U32) (ho : ∀ i ∈ H, (ord i).Perm idx)
    (ho' : ∀ i ∈ H, (ord' i).Perm A) (d1 : U32 → RoundOne F G) (comms : U32 → BMap (VssCommitment G))
    (hv : ∀ i ∈ H, PublicView S params P A i (x i) (d1 i) (comms i))
    (hstate : ∀ i ∈ H, (d1 i).state.parameters.n.toNat = (((ord i).map P).filter (good ·)).length ∧
      (d1 i).state.theirCommitments = some (BMap.ofList ((((ord i).map P).filter (good ·)).filterMap
        fun p => p.commitments.map fun c => (p.index, c))) ∧
      (d1 i).state.theirDhPublicKeys = BMap.ofList ((((ord i).map P).filter (good ·)).map
        fun p => (p.index, p.dhPublicKey)) ∧
      (d1 i).state.index = i)
    (E : U32 → U32 → EncShare) (hE : ∀ l ∈ A, ∀ i ∈ H, (E l i).senderIndex = l ∧ (E l i).receiverIndex = i)
    (hEd : ∀ l ∈ D, ∀ i ∈ H, ∀ c, (P l).commitments = some c →
      Spec.GoodShare S (x i • (P l).dhPublicKey) c.points (E l i)) :
    ∃ (d2 : U32 → RoundTwo F G) (cs : U32 → List (Complaint F G)),
      (∀ i ∈ H, (d1 i).toRoundTwo S dbg ((ord' i).map fun l => E l i) (r3 i) = .ok (d2 i, cs i)) ∧
      (∀ i ∈ H, ∀ c ∈ cs i, c.encShare.senderIndex ∉ D) ∧
    ∀ all : U32 → List (Complaint F G), (∀ i ∈ H, ∀ j ∈ H, ∀ c ∈ cs j, c ∈ all i) →
      (∀ i ∈ H, ∀ j ∈ H, ∀ c, c ∈ all i ↔ c ∈ all j) →
      (∀ i ∈ H, ∀ c ∈ all i, (∃ j ∈ H, c ∈ cs j) ∨ c.encShare.receiverIndex ∉ D ∧ (c.encShare.senderIndex ∈ D →
        ∀ vc, (P c.encShare.senderIndex).commitments = some vc →
          c.verify S (P c.encShare.senderIndex).dhPublicKey = .ok () →
          Spec.GoodShare S c.dhSharedKey vc.points c.encShare)) →
    ∃ (comms' : BMap (VssCommitment G)) (s : F) (keys : List G) (key : U32 → F) (d3 : U32 → RoundTwo F G),
      comms'.WF ∧ (∀ h ∈ H, D ⊆ comms'.keys) ∧
      (∀ k c, comms'.get? k = some c → k ∈ A ∧ (P k).commitments = some c) ∧
      s • S.gen = Spec.interpolateG F comms'.keys
        (fun l => ((comms'.get? l).map fun c => c.points.headD 0).getD 0) ∧
      (∀ i ∈ H, (d2 i).blame S (all i) = .ok (d3 i, keys) ∧ (d3 i).state.theirCommitments = some comms' ∧
        (d3 i).finish = .ok (s • S.gen, ⟨i, key i⟩) ∧ key i • S.gen = Spec.interpolateG F comms'.keys
          (fun l => ((comms'.get? l).map fun c => Spec.pointEval c.points (i.toNat : F)).getD 0)) ∧
      ∀ J : List U32, J.Nodup → J ⊆ H → t ≤ J.length → Spec.interpolate J key = s := by
  have hcm : ∀ l ∈ A, ∃ c, (P l).commitments = some c := by
    intro l hl
    obtain ⟨_, c, _, _, hc, _⟩ := hgood _ ((hAm l).mp hl).2
    exact ⟨c, hc⟩
  have hround := fun i (hi : i ∈ H) => round_two_accepted dbg params P A hA i (x i) (d1 i) (comms i)
    (hv i hi) hcm D hD hDA htD (fun l => E l i) (fun l hl => hE l hl i hi) (fun l hl => hEd l hl i hi) (ord' i) (ho' i hi)
    (r3 i)
  choose! d2 cs hr2 hca hcb' using hround
  have hacc : ∀ i ∈ H, ∀ c ∈ cs i, c.encShare.senderIndex ∈ A ∧ c.encShare.senderIndex ∉ D := by
    intro i hi c hc
    obtain ⟨l, hl, hlD, he⟩ := hca i hi c hc
    rw [he, (hE l hl i hi).1]
    exact ⟨hl, hlD⟩
  refine ⟨d2, cs, hr2, fun i hi c hc => (hacc i hi c hc).2, fun all hsub hsame hfree => ?_⟩
  have hperm : (idx.filter fun l => good (P l)).Perm A := by
    rw [List.perm_ext_iff_of_nodup (hidx.filter _) hA]
    intro l
    simp [hAm]
  have hfl : ((idx.map P).filter (good)).length = A.length := by
    have : ((idx.map P).filter (good)) = (idx.filter fun l => good (P l)).map P := by
      rw [List.filter_map]; rfl
    rw [this, List.length_map, hperm.length_eq]
  have hmemP : ∀ p ∈ idx.map P, good p → p.index ∈ A ∧ P p.index = p := by
    intro p hp hg
    obtain ⟨l, hl, rfl⟩ := List.mem_map.mp hp
    rw [hPi l hl]
    exact ⟨(hAm l).mpr ⟨hl, hg⟩, rfl⟩
  obtain ⟨comms', s, keys, key, d3, w1, w2, w3, w4, w5⟩ := robust_records_accused hS.group hS.u32 dbg
    good hgood (idx.map P)
    (by
      have : (idx.map P).map (·.index) = idx := by
        rw [List.map_map]
        conv_rhs => rw [← List.map_id idx]
        exact List.map_congr_left fun k hk => hPi k hk
      rw [this]; exact hidx)
    (fun p hp hg => hA0 _ (hmemP p hp hg).1) t ht
    (by
      intro p hp hg c hc
      obtain ⟨h1, h2⟩ := hmemP p hp hg
      exact hdeg _ h1 c (by rw [h2]; exact hc)) H (fun i => (ord i).map P) (fun i hi => (ho i hi).map P) d1 hstate
    (fun i => (ord' i).map fun l => E l i) r3
    (by
      intro i hi e he
      obtain ⟨l, hl, rfl⟩ := List.mem_map.mp he
      exact (hE l ((ho' i hi).mem_iff.mp hl) i hi).2)
    (by
      intro i hi p hp hg
      have hp' := (hmemP p hp hg).1
      exact ⟨E p.index i, List.mem_map.mpr ⟨_, (ho' i hi).mem_iff.mpr hp', rfl⟩, (hE _ hp' i hi).1⟩)
    d2 cs hr2
    (by
      intro i hi c hc p hp hg he
      rw [hfl, he]
      exact hrange _ (hacc i hi c hc).1 (hacc i hi c hc).2)
    all hsub hsame
  refine ⟨comms', s, keys, key, d3, w1, ?_, ?_, w3, w4, w5⟩
  · intro h hh q hq
    obtain ⟨mm, hold, hpar, _, hdk⟩ := holds_toRoundTwo S dbg (d1 h) _ (hv h hh).commits (hv h hh).wf _ _ _ _ (hr2 h hh)
    have b1 := blame_eq S (d2 h) _ mm hold.commits hold.shares hold.wfc hold.wfm (all h)
    obtain ⟨v1, v2, _⟩ := w4 h hh
    rw [b1] at v1
    simp only [Except.ok.injEq, Prod.mk.injEq] at v1
    rw [← v1.1] at v2
    have hc' : comms' = (comms h).filter fun e => e.1 ∉ (all h).map (verdict S (d2 h).state (comms h)) :=
      (Option.some.inj v2).symm
    rw [hc', mem_keys_filter_not_mem hold.wfc]
    obtain ⟨cq, hcq⟩ := hcm q (hDA hq)
    refine ⟨BMap.mem_keys_of_get? (((hv h hh).get q cq).mpr ⟨hDA hq, hcq⟩), ?_⟩
    intro hmem
    obtain ⟨c, hc, hver⟩ := List.mem_map.mp hmem
    rcases hfree h hh c hc with ⟨j, hj, hcj⟩ | ⟨hr, hgs⟩
    · have hc2 := hacc j hj c hcj
      have hup := (madeBy_upheld S dbg (d1 j) _ (r3 j) (cs j) (.inl ⟨_, hr2 j hj⟩) (comms h)
        ((hv j hj).commits.trans (by
          congr 1
          refine BMap.ext (hv j hj).wf (hv h hh).wf fun k => ?_
          refine Option.ext fun c => ?_
          exact ((hv j hj).get k c).trans ((hv h hh).get k c).symm)) (hv h hh).wf c hcj (d2 h).state
        (by
          rw [hdk]
          refine BMap.ext (hv h hh).wfd (hv j hj).wfd fun k => ?_
          refine Option.ext fun c => ?_
          exact ((hv h hh).dhs k c).trans ((hv j hj).dhs k c).symm) (hA0 _ hc2.1)
        (by rw [hpar, (hv h hh).n]; exact hrange _ hc2.1 hc2.2)).1
      rw [verdict, if_pos hup] at hver
      exact hc2.2 (hver ▸ hq)
    · by_cases hup : Upheld S (d2 h).state (comms h) c
      · rw [verdict, if_pos hup] at hver
        obtain ⟨_, _, vc, u1, u2, u3⟩ := hup
        have hs : c.encShare.senderIndex ∈ D := hver ▸ hq
        rw [hdk, ((hv h hh).dhs _ _).mpr ⟨hDA hs, rfl⟩] at u2
        exact u3 (hgs hs vc (((hv h hh).get _ _).mp u1).2 u2)
      · rw [verdict, if_neg hup] at hver
        exact hr (hver ▸ hq)
  · intro k c hc
    obtain ⟨p, hp, hg, rfl, hpc⟩ := w2 k c hc
    refine ⟨(hmemP p hp hg).1, ?_⟩
    rw [(hmemP p hp hg).2]
    exact hpc

/-- C132, what holds: at least `t` participants `H` follow the protocol; the others publish arbitrary records under their
own indices, except records without a proof of knowledge, and deal arbitrary shares (labelled with sender and receiver),
one for each member of `H` from every accepted dealer; accepted dealers outside `H` have indices between 1 and the
number of accepted dealers; and exactly the complaints of `H` are processed. Then nobody in `H` aborts, no member of `H`
is removed, and everybody in `H` finishes with the same group key, to which the remaining dealers contribute, and with
keys of which any `t` interpolate to its discrete logarithm.

Missing for the full C132: records without proof (`C132_one_record_interrupts`), larger indices (`C132_takeover`), shares
that are not sent (C122) and complaints made up by others (C45). -/
theorem C132_uninterrupted_partial {S : Suite F G R} (hS : S.Lawful) (dbg : Bool) (params : Params) (ht : params.t ≠ 0)
    (idx : List U32) (hidx : idx.Nodup) (hlen : idx.length = params.n.toNat) (P : U32 → Participant F G)
    (hPi : ∀ l ∈ idx, (P l).index = l ∧ ¬ Spec.LacksProof S (P l)) (A : List U32) (hA : A.Nodup)
    (hAm : ∀ l, l ∈ A ↔ l ∈ idx ∧ GoodDealer S params.t (P l))
    (H : List U32) (hH : H.Nodup) (hHi : H ⊆ idx) (htH : params.t.toNat ≤ H.length)
    (hrange : ∀ l ∈ A, l ∉ H → l ≠ 0 ∧ l.toNat ≤ A.length)
    (r1 r2 r3 : U32 → R) (coeffs : U32 → List F) (x : U32 → F)
    (hP : ∀ i ∈ H, newDealer S params i (r1 i) = .ok (P i, coeffs i, x i))
    (ord ord' : U32 → List U32) (ho : ∀ i ∈ H, (ord i).Perm idx) (ho' : ∀ i ∈ H, (ord' i).Perm A) :
    ∃ (d1 : U32 → RoundOne F G) (L : U32 → ParticipantList F G),
      (∀ i ∈ H, bootstrap S dbg params (x i) i (coeffs i) ((ord i).map P) (r2 i) = .ok (d1 i, L i)) ∧
    ∀ E : U32 → U32 → EncShare,
      (∀ l ∈ A, ∀ i ∈ H, (E l i).senderIndex = l ∧ (E l i).receiverIndex = i) →
      (∀ l ∈ H, ∃ m, (d1 l).theirEncryptedSecretShares = .ok m ∧ ∀ i ∈ H, m.get? i = some (E l i)) →
    ∃ (d2 : U32 → RoundTwo F G) (cs : U32 → List (Complaint F G)),
      (∀ i ∈ H, (d1 i).toRoundTwo S dbg ((ord' i).map fun l => E l i) (r3 i) = .ok (d2 i, cs i)) ∧
      (∀ i ∈ H, ∀ c ∈ cs i, c.encShare.senderIndex ∉ H) ∧
    ∀ all : U32 → List (Complaint F G), (∀ i ∈ H, ∀ c, c ∈ all i ↔ ∃ j ∈ H, c ∈ cs j) →
    ∃ (comms' : BMap (VssCommitment G)) (s : F) (keys : List G) (key : U32 → F) (d3 : U32 → RoundTwo F G),
      comms'.WF ∧ H ⊆ comms'.keys ∧
      (∀ k c, comms'.get? k = some c → k ∈ A ∧ (P k).commitments = some c) ∧
      s • S.gen = Spec.interpolateG F comms'.keys
        (fun l => ((comms'.get? l).map fun c => c.points.headD 0).getD 0) ∧
      (∀ i ∈ H, (d2 i).blame S (all i) = .ok (d3 i, keys) ∧ (d3 i).state.theirCommitments = some comms' ∧
        (d3 i).finish = .ok (s • S.gen, ⟨i, key i⟩) ∧ key i • S.gen = Spec.interpolateG F comms'.keys
          (fun l => ((comms'.get? l).map fun c => Spec.pointEval c.points (i.toNat : F)).getD 0)) ∧
      ∀ J : List U32, J.Nodup → J ⊆ H → params.t.toNat ≤ J.length → Spec.interpolate J key = s := by
  have hPg := fun i hi => newDealer_good ht (hP i hi)
  have hHA : H ⊆ A := fun l hl => (hAm l).mpr ⟨hHi hl, (hPg l hl).2.2.2.2.2⟩
  have hAi : ∀ l ∈ A, l ∈ idx := fun l hl => ((hAm l).mp hl).1
  have hview := fun i (hi : i ∈ H) => accepted_view hS dbg params ht idx hidx hlen P hPi A hA hAm
    (htH.trans (hH.subperm hHA).length_le) (x i) i (coeffs i) (ord i) (ho i hi) (r2 i)
  haveI : Nonempty (ParticipantList F G) := ⟨⟨[], none⟩⟩
  choose! d1 L comms hb hv using hview
  refine ⟨d1, L, hb, fun E hE hEH => ?_⟩
  have hEd : ∀ l ∈ H, ∀ i ∈ H,
      Spec.Opens S (E l i) (x i • (P l).dhPublicKey) (Spec.polyEval (coeffs l) (u32F F i)) := by
    intro l hl i hi
    obtain ⟨m, h1, h2⟩ := (hv l hl).dealt
    obtain ⟨m', h1', h3⟩ := hEH l hl
    rw [h1] at h1'; cases h1'
    obtain ⟨e, he, h4, h5, h6⟩ := h2 i (hAi i (hHA hi))
    rw [h3 i hi] at he; cases he
    have := h6 (x i) (hPg i hi).2.2.2.2.1
    rwa [(hPg l hl).2.2.2.2.1]
  have hPi' : ∀ l ∈ idx, (P l).index = l := fun l hl => (hPi l hl).1
  obtain ⟨d2, cs, h1, h2, h3⟩ := uninterrupted_core hS dbg params (GoodDealer S params.t) (fun p hp => hp.1) params.t.toNat
    (fun h => ht (UInt32.toNat_inj.mp (by simpa using h))) idx hidx P hPi' A hA hAm
    (fun l hl c hc => (((hAm l).mp hl).2.2 c hc).le) H hH hHA htH
    (by
      intro l hl
      by_cases h : l ∈ H
      · exact (hPg l h).1
      · exact (hrange l hl h).1)
    (fun l hl h => (hrange l hl h).2) H r3 x ord ord' ho ho' d1 comms (fun i hi => (hv i hi).toPublicView)
    (by
      intro i hi
      obtain ⟨k1, _, k3, _, k5, k6, k7, _⟩ := C20_bootstrap_classifies hS.cipher hS.codec dbg params _ _ _ _ _ _ _
        (hb i hi)
      rw [k1] at k3 k5 k6
      exact ⟨k3, k5, k6, k7⟩) E hE
    (by
      intro l hl i hi c hc
      have hg := hPg l hl
      rw [hg.2.2.2.1] at hc; cases hc
      refine ⟨_, hEd l hl i hi, ?_⟩
      rw [(hE l (hHA hl) i hi).2]
      exact (pointEval_commitPoints S _ _).symm)
  refine ⟨d2, cs, h1, h2, fun all hall => ?_⟩
  obtain ⟨comms', s, keys, key, d3, w1, w2, w3⟩ := h3 all (fun i hi j hj c hc => (hall i hi c).mpr ⟨j, hj, hc⟩)
    (fun i hi j hj c => (hall i hi c).trans (hall j hj c).symm) (fun i hi c hc => .inl ((hall i hi c).mp hc))
  exact ⟨comms', s, keys, key, d3, w1, fun h hh => w2 h hh hh, w3⟩

section Examples
open Toy

/-- C132: in a (3, 2) session participants 1 and 2 follow the protocol, and the third calls itself 4. It obtains the group
secret: the group key is its own public key, and the keys of 1 and 2 interpolate to its secret. -/
example : ∃ (d2 d3 : U32 → RoundTwo Fp Fp) (cs : U32 → List (Complaint Fp Fp)) (keys : U32 → List Fp) (sec : Fp)
    (key : U32 → Fp), (∀ i ∈ [(1 : U32), 2], (d2 i).blame suite (cs 1 ++ cs 2) = .ok (d3 i, keys i) ∧
      (d3 i).finish = .ok (sec • suite.gen, ⟨i, key i⟩)) ∧ Spec.interpolate [1, 2] key = sec := by
  have hdeal : ∀ i ∈ [(1 : U32), 2, 4], ∃ p cs x, newDealer suite ⟨3, 2⟩ i 0 = .ok (p, cs, x) := fun i hi => by
    obtain ⟨p, cs, x, h, _⟩ := C16_new_dealer suite ⟨3, 2⟩ (by simp) i (by rintro rfl; simp at hi) 0
    exact ⟨p, cs, x, h⟩
  choose! P coeffs x hP using hdeal
  have ht : (2 : U32) ≠ 0 := by simp
  have hPg := fun i hi => newDealer_good (params := ⟨3, 2⟩) ht (hP i hi)
  obtain ⟨hk1, hk2⟩ := C132_takeover_keys group_laws u32_inj (coeffs 4) 2 le_rfl (hPg 4 (by simp)).2.2.1.le (1 : Fp)
    one_ne_zero
  set v : U32 → Fp := fun i => Spec.polyEval (coeffs 4) (i.toNat : Fp) + 1 * (i.toNat : Fp) with hv
  obtain ⟨d1, L, h1, h2⟩ := C132_takeover lawful true ⟨3, 2⟩ ht [1, 2, 4] (by simp) rfl P
    (fun l hl => ⟨(hPg l hl).2.1, by
      rintro ⟨_, hnone, _⟩
      obtain ⟨⟨_, _, _, _, _, _, hp, _⟩, _⟩ := (hPg l hl).2.2.2.2.2
      rw [hnone] at hp; cases hp⟩)
    [1, 2] (by simp) le_rfl 4 (by simp)
    (by
      intro l
      constructor
      · intro h
        have hl : l ∈ [(1 : U32), 2, 4] := by simp at h ⊢; tauto
        exact ⟨hl, (hPg l hl).2.2.2.2.2⟩
      · rintro ⟨h, _⟩
        simp at h ⊢; tauto)
    (by decide) (fun _ => 0) (fun _ => 0) (fun _ => 0) coeffs x
    (fun i hi => hP i (by simp at hi ⊢; tauto)) _ (hPg 4 (by simp)).2.2.2.1 (fun _ => [1, 2, 4]) (fun _ => [4, 1, 2])
    (fun _ _ => List.Perm.refl _) (fun _ _ => List.Perm.refl _)
  have hm : ∀ l ∈ [(1 : U32), 2], ∃ m, (d1 l).theirEncryptedSecretShares = .ok m ∧ ∀ i ∈ [(1 : U32), 2], ∃ e,
      m.get? i = some e := by
    intro l hl
    obtain ⟨m, k1, _, _, k4⟩ := C25_dealt_shares cipher_laws codec_laws true ⟨3, 2⟩ (x l) l (coeffs l)
      ([1, 2, 4].map P) 0 (by
        simp [(hPg 1 (by simp)).2.1, (hPg 2 (by simp)).2.1, (hPg 4 (by simp)).2.1]) _ _ (h1 l hl)
    refine ⟨m, k1, fun i hi => ?_⟩
    obtain ⟨e, e1, _⟩ := k4 (P i) (List.mem_map.mpr ⟨i, by simp at hi ⊢; tauto, rfl⟩)
    have := (hPg i (by simp at hi ⊢; tauto)).2.1
    rw [this] at e1
    exact ⟨e, e1⟩
  choose! m hm1 E hE1 using hm
  have hb := fun i : U32 => encryptShare_ok cipher_laws codec_laws ⟨4, i, v i⟩ (suite.encG (x i • (P 4).dhPublicKey)) 0
  choose Eb _ _ hb1 hb2 _ hb3 using hb
  obtain ⟨d2, cs, _, h5⟩ := h2 (fun l i => if l = 4 then Eb i else E l i) v (by
      intro l hl
      refine ⟨m l, hm1 l hl, fun i hi => ?_⟩
      have : l ≠ 4 := by rintro rfl; simp at hl
      simp only [this, if_false]
      exact hE1 l hl i hi) (by
      intro i hi
      simp only [if_true]
      refine ⟨hb1 i, hb2 i, ?_, hk1 i (by rintro rfl; simp at hi)⟩
      obtain ⟨w, hw, he⟩ := (decryptShare_ok_iff suite _ _ _).mp (hb3 i)
      have := congrArg SecretShare.eval he
      simp only at this
      rw [this]; exact hw)
  obtain ⟨d3, keys, h6⟩ := h5 (fun _ => cs 1 ++ cs 2) (by simp)
  refine ⟨d2, d3, cs, keys, (coeffs 4).headD 0, v, fun i hi => ⟨(h6 i hi).1, ?_⟩, hk2 _ (by simp) le_rfl⟩
  rw [(h6 i hi).2.2]
  have hl := (hPg 4 (by simp)).2.2.1
  cases hc : coeffs 4 with
  | nil => rw [hc] at hl; cases hl
  | cons a l => rfl

/-- C132: in a (4, 2) session participants 1 and 2 follow the protocol, 3 deals empty ciphertexts and 4 publishes an empty
record. -/
example : ∃ (d2 : U32 → RoundTwo Fp Fp) (cs : U32 → List (Complaint Fp Fp)) (d3 : U32 → RoundTwo Fp Fp) (keys : List Fp)
    (gk : Fp) (key : U32 → Fp), ∀ i ∈ [(1 : U32), 2], (d2 i).blame suite (cs 1 ++ cs 2) = .ok (d3 i, keys) ∧
      (d3 i).finish = .ok (gk, ⟨i, key i⟩) := by
  have hdeal : ∀ i ∈ [(1 : U32), 2, 3], ∃ p cs x, newDealer suite ⟨4, 2⟩ i 0 = .ok (p, cs, x) := fun i hi => by
    obtain ⟨p, cs, x, h, _⟩ := C16_new_dealer suite ⟨4, 2⟩ (by simp) i (by rintro rfl; simp at hi) 0
    exact ⟨p, cs, x, h⟩
  choose! P' coeffs x hP using hdeal
  have ht : (2 : U32) ≠ 0 := by simp
  have hPg := fun i hi => newDealer_good (params := ⟨4, 2⟩) ht (hP i hi)
  set P : U32 → Participant Fp Fp := fun l => if l = 4 then ⟨4, 0, none, none, ⟨0, 0⟩⟩ else P' l with hPdef
  have h4 : P 4 = ⟨4, 0, none, none, ⟨0, 0⟩⟩ := by simp [hPdef]
  have hne : ∀ l ∈ [(1 : U32), 2, 3], P l = P' l := by
    intro l hl
    have : l ≠ 4 := by rintro rfl; simp at hl
    simp [hPdef, this]
  have hidx : ∀ l ∈ [(1 : U32), 2, 3, 4], (P l).index = l := by
    intro l hl
    by_cases h : l = 4
    · subst h; rw [h4]
    · have hl' : l ∈ [(1 : U32), 2, 3] := by simp at hl ⊢; tauto
      rw [hne l hl']; exact (hPg l hl').2.1
  obtain ⟨d1, L, h1, h2⟩ := C132_uninterrupted_partial lawful true ⟨4, 2⟩ ht [1, 2, 3, 4] (by simp) rfl P
    (fun l hl => ⟨hidx l hl, by
      rintro ⟨_, hnone, c, pk, hc, _⟩
      by_cases h : l = 4
      · subst h; rw [h4] at hc; cases hc
      · have hl' : l ∈ [(1 : U32), 2, 3] := by simp at hl ⊢; tauto
        obtain ⟨⟨_, _, _, _, _, _, hp, _⟩, _⟩ := (hPg l hl').2.2.2.2.2
        rw [hne l hl'] at hnone
        rw [hnone] at hp; cases hp⟩)
    [1, 2, 3] (by simp)
    (by
      intro l
      constructor
      · intro hl
        exact ⟨by simp at hl ⊢; tauto, by rw [hne l hl]; exact (hPg l hl).2.2.2.2.2⟩
      · rintro ⟨h, hgd⟩
        have : l ≠ 4 := by
          rintro rfl
          obtain ⟨⟨_, _, _, _, hc, _⟩, _⟩ := hgd
          rw [h4] at hc; cases hc
        simp at h ⊢; tauto)
    [1, 2] (by simp) (by simp) le_rfl
    (by
      intro l hl hn
      obtain rfl : l = 3 := by simp at hl hn; tauto
      decide)
    (fun _ => 0) (fun _ => 0) (fun _ => 0) coeffs x
    (fun i hi => by
      have hi' : i ∈ [(1 : U32), 2, 3] := by simp at hi ⊢; tauto
      rw [hne i hi']; exact hP i hi') (fun _ => [1, 2, 3, 4]) (fun _ => [3, 1, 2])
    (fun _ _ => List.Perm.refl _) (fun _ _ => by decide)
  have hm : ∀ l ∈ [(1 : U32), 2], ∃ m, (d1 l).theirEncryptedSecretShares = .ok m ∧ ∀ i ∈ [(1 : U32), 2], ∃ e,
      m.get? i = some e ∧ e.senderIndex = l ∧ e.receiverIndex = i := by
    intro l hl
    obtain ⟨m, k1, _, _, k4⟩ := C25_dealt_shares cipher_laws codec_laws true ⟨4, 2⟩ (x l) l (coeffs l)
      ([1, 2, 3, 4].map P) 0 (by
        simp [hidx 1 (by simp), hidx 2 (by simp), hidx 3 (by simp), hidx 4 (by simp)]) _ _ (h1 l hl)
    refine ⟨m, k1, fun i hi => ?_⟩
    obtain ⟨e, e1, e2, e3, _⟩ := k4 (P i) (List.mem_map.mpr ⟨i, by simp at hi ⊢; tauto, rfl⟩)
    have := hidx i (by simp at hi ⊢; tauto)
    rw [this] at e1 e3
    exact ⟨e, e1, e2, e3⟩
  choose! m hm1 E hE1 hE2 hE3 using hm
  obtain ⟨d2, cs, _, _, h5⟩ := h2 (fun l i => if l = 3 then ⟨3, i, [], []⟩ else E l i) (by
      intro l hl i hi
      by_cases h : l = 3
      · subst h; simp
      · have : l ∈ [(1 : U32), 2] := by simp at hl ⊢; tauto
        simp only [h, if_false]
        exact ⟨hE2 l this i hi, hE3 l this i hi⟩) (by
      intro l hl
      refine ⟨m l, hm1 l hl, fun i hi => ?_⟩
      have : l ≠ 3 := by rintro rfl; simp at hl
      simp only [this, if_false]
      exact hE1 l hl i hi)
  obtain ⟨_, s, keys, key, d3, _, _, _, _, h6, _⟩ := h5 (fun _ => cs 1 ++ cs 2) (by simp)
  exact ⟨d2, cs, d3, keys, _, key, fun i hi => ⟨(h6 i hi).1, (h6 i hi).2.2.1⟩⟩

example (S : Suite F G R) (r : R) := C132_one_record_interrupts S true ⟨3, 2⟩ (by simp) [1, 2, 3] rfl 2 (by simp) (by simp)
  (fun _ => r) (fun _ => r)

end Examples

end IceFrost
