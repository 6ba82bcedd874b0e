import Verif.Props.Finish

/-! # Common part of key generation and resharing: receiving and finishing -/

set_option linter.unusedSectionVars false
set_option linter.unusedSimpArgs false

namespace IceFrost

open Finset

attribute [local instance] Classical.propDecidable

variable {F G R : Type} [Field F] [DecidableEq F] [AddCommGroup G] [Module F G] [DecidableEq G]

/-- The commitment map of honest dealers `D` with polynomials `cs`. -/
def dealerMap (S : Suite F G R) (D : List U32) (cs : U32 → List F) : BMap (VssCommitment G) :=
  BMap.ofList (D.map fun l => (l, ⟨l, commitPoints S (cs l)⟩))

theorem dealerMap_nodup {D : List U32} (hD : D.Nodup) (f : U32 → VssCommitment G) :
    ((D.map fun l => (l, f l)).map Prod.fst).Nodup := by
  rw [List.map_map]
  have : (Prod.fst ∘ fun l : U32 => (l, f l)) = id := rfl
  rw [this, List.map_id]
  exact hD

theorem dealerMap_get (S : Suite F G R) {D : List U32} (hD : D.Nodup) (cs : U32 → List F) (l : U32)
    (c : VssCommitment G) : (dealerMap S D cs).get? l = some c ↔ l ∈ D ∧ c = ⟨l, commitPoints S (cs l)⟩ := by
  unfold dealerMap
  rw [BMap.get?_ofList (dealerMap_nodup hD _)]
  simp only [List.mem_map, Prod.mk.injEq]
  constructor
  · rintro ⟨k, hk, rfl, rfl⟩; exact ⟨hk, rfl⟩
  · rintro ⟨h, rfl⟩; exact ⟨l, h, rfl, rfl⟩

theorem dealerMap_keys (S : Suite F G R) (D : List U32) (cs : U32 → List F) (l : U32) :
    l ∈ (dealerMap S D cs).keys ↔ l ∈ D := by
  unfold dealerMap
  rw [BMap.mem_keys_ofList]
  simp

theorem dealerMap_ok (S : Suite F G R) {D : List U32} (hD : D.Nodup) (h0 : 0 ∉ D) (cs : U32 → List F)
    (hcs : ∀ l ∈ D, cs l ≠ []) : DealersOk (dealerMap S D cs) := by
  refine ⟨BMap.wf_ofList _, by rw [dealerMap_keys]; exact h0, fun l c hc => ?_⟩
  obtain ⟨hl, rfl⟩ := (dealerMap_get S hD cs l c).mp hc
  simpa [commitPoints] using hcs l hl

/-- A receiver of good shares from all dealers gets through `to_round_two` without complaint. -/
theorem receive_phase {S : Suite F G R} (dbg : Bool) (D : List U32) (hD : D.Nodup)
    (P : U32 → Participant F G) (cs : U32 → List F) (pk : U32 → G)
    (hP : ∀ l ∈ D, (P l).index = l ∧ (P l).commitments = some ⟨l, commitPoints S (cs l)⟩ ∧ (P l).dhPublicKey = pk l)
    (params : Params) (hn : D.length < 2 ^ 32) (ht : params.t.toNat ≤ D.length) (y : F) (i : U32)
    (sh : Option (BMap EncShare)) (ord ord' : List U32) (ho : ord.Perm D) (ho' : ord'.Perm D) (E : U32 → EncShare)
    (hE : ∀ l ∈ D, (E l).senderIndex = l ∧ (E l).receiverIndex = i ∧
      Spec.Opens S (E l) (y • pk l) (Spec.polyEval (cs l) (u32F F i))) (rng : R) :
    ∃ d2 m, RoundOne.toRoundTwo S dbg ⟨roundOneState S params y i true (ord.map P) sh⟩ (ord'.map E) rng =
        .ok (d2, []) ∧ d2.state.index = i ∧ HoldsVerified S d2 (dealerMap S D cs) m := by
  have hce : ∀ o : List U32, (∀ l ∈ o, l ∈ D) →
      commEntries (o.map P) = o.map fun l => (l, ⟨l, commitPoints S (cs l)⟩) := by
    intro o hoD
    unfold commEntries
    rw [List.filterMap_map, ← List.filterMap_eq_map]
    refine List.filterMap_congr fun l hl => ?_
    obtain ⟨h1, h2, _⟩ := hP l (hoD l hl)
    simp only [Function.comp, h1, h2, Option.map_some]
  have hcomms : BMap.ofList (commEntries (ord.map P)) = dealerMap S D cs := by
    rw [hce ord (fun l hl => ho.mem_iff.mp hl)]
    exact BMap.ofList_congr (dealerMap_nodup (ho.nodup_iff.mpr hD) _) (ho.map _)
  have hde : dhEntries (ord.map P) = ord.map fun l => (l, pk l) := by
    unfold dhEntries
    rw [List.map_map]
    refine List.map_congr_left fun l hl => ?_
    obtain ⟨h1, _, h3⟩ := hP l (ho.mem_iff.mp hl)
    simp only [Function.comp, h1, h3]
  have hdh : ∀ l ∈ D, (BMap.ofList (dhEntries (ord.map P))).get? l = some (pk l) := by
    intro l hl
    rw [hde, BMap.get?_ofList]
    · exact List.mem_map.mpr ⟨l, ho.mem_iff.mpr hl, rfl⟩
    · rw [List.map_map]
      have : (Prod.fst ∘ fun l : U32 => (l, pk l)) = id := rfl
      rw [this, List.map_id]
      exact ho.nodup_iff.mpr hD
  have hlen : (UInt32.ofNat (ord.map P).length).toNat = D.length := by
    rw [List.length_map, ho.length_eq]
    exact UInt32.toNat_ofNat_of_lt (by simpa [UInt32.size] using hn)
  have hEs : (ord'.map E).map (·.senderIndex) = ord' := by
    rw [List.map_map]
    conv_rhs => rw [← List.map_id ord']
    exact List.map_congr_left fun l hl => (hE l (ho'.mem_iff.mp hl)).1
  obtain ⟨h1, m, h2, h3, h4, h5⟩ := roundTwo_good (S := S) dbg
    ⟨roundOneState S params y i true (ord.map P) sh⟩ (dealerMap S D cs)
    (by simp only [roundOneState, if_true, hcomms]) (BMap.wf_ofList _).nodup (ord'.map E)
    (by simpa [roundOneState, ho'.length_eq] using ht)
    (by simp only [roundOneState]; rw [hlen]; exact ht)
    (by rw [hEs]; exact ho'.nodup_iff.mpr hD) pk cs
    (by
      intro e he
      obtain ⟨l, hl, rfl⟩ := List.mem_map.mp he
      have hl := ho'.mem_iff.mp hl
      obtain ⟨k1, k2, k3⟩ := hE l hl
      rw [k1]
      refine ⟨hdh l hl, ⟨_, (dealerMap_get S hD cs l _).mpr ⟨hl, rfl⟩, rfl⟩, k2, k3⟩) rng
  refine ⟨_, m, h1, rfl, ?_, h2, h3, ?_, ?_⟩
  · simp only [roundTwoState, roundOneState, if_true, hcomms]
  · intro k
    rw [h4, hEs, dealerMap_keys]
    exact ho'.mem_iff
  · intro l s c hs hc
    obtain ⟨hl, rfl⟩ := (dealerMap_get S hD cs l c).mp hc
    have := h5 (E l) (List.mem_map.mpr ⟨l, ho'.mem_iff.mpr hl, rfl⟩)
    rw [(hE l hl).1, hs] at this
    cases this
    exact (pointEval_commitPoints S _ _).symm

/-- `finish` after receiving good shares from all dealers `D` with polynomials `cs`. -/
theorem finish_phase {S : Suite F G R} (hg : S.GroupLaws) (hu : Suite.U32Inj F) (D : List U32) (hD : D.Nodup)
    (h0 : 0 ∉ D) (cs : U32 → List F) (hcs : ∀ l ∈ D, cs l ≠ []) (d2 : RoundTwo F G) (m : BMap (SecretShare F))
    (hV : HoldsVerified S d2 (dealerMap S D cs) m) :
    d2.finish = .ok (Spec.interpolate D (fun l => (cs l).headD 0) • S.gen,
      ⟨d2.state.index, ∑ l ∈ D.toFinset, Spec.lagrange D l * Spec.polyEval (cs l) (u32F F d2.state.index)⟩) := by
  obtain ⟨key, h1, _, h2⟩ := finish_verified hu (dealerMap_ok S hD h0 cs hcs) hV
  have hk : (dealerMap S D cs).keys.toFinset = D.toFinset := by ext l; simp [dealerMap_keys]
  have hL : ∀ l, Spec.lagrange (F := F) (dealerMap S D cs).keys l = Spec.lagrange D l :=
    fun l => spec_lagrange_congr (dealerMap_keys S D cs) l
  rw [h1]
  congr 2
  · unfold Spec.interpolateG Spec.interpolate
    rw [hk, sum_smul]
    refine sum_congr rfl fun l hl => ?_
    rw [List.mem_toFinset] at hl
    beta_reduce
    rw [(dealerMap_get S hD cs l _).mpr ⟨hl, rfl⟩, hL, mul_smul]
    simp only [Option.map_some, Option.getD_some]
    cases h : cs l with
    | nil => exact absurd h (hcs l hl)
    | cons a as => simp [commitPoints]
  · congr 1
    apply hg.gen_inj
    rw [h2, hk, sum_smul]
    refine sum_congr rfl fun l hl => ?_
    rw [List.mem_toFinset] at hl
    rw [(dealerMap_get S hD cs l _).mpr ⟨hl, rfl⟩, hL, mul_smul]
    simp only [Option.map_some, Option.getD_some]
    rw [pointEval_commitPoints]
    rfl

/-- Keys dealt by polynomials of length at most `|J|` interpolate to the combined constant terms. -/
theorem keys_interpolate (hu : Suite.U32Inj F) (D : List U32) (cs : U32 → List F) (J : List U32) (hJ : J.Nodup)
    (hlen : ∀ l ∈ D, (cs l).length ≤ J.length) (key : U32 → F)
    (hkey : ∀ j ∈ J, key j = ∑ l ∈ D.toFinset, Spec.lagrange D l * Spec.polyEval (cs l) (u32F F j)) :
    Spec.interpolate J key = Spec.interpolate D (fun l => (cs l).headD 0) := by
  rw [interpolate_congr hkey, interpolate_sum hu hJ _ _ _ (fun l hl => hlen l (List.mem_toFinset.mp hl))]
  unfold Spec.interpolate
  refine sum_congr rfl fun l _ => ?_
  rw [Spec.polyEval_zero]

/-- `bootstrap` on honest dealers, with everything about the resulting state. -/
theorem bootstrap_honest {S : Suite F G R} (hc : S.CipherLaws) (hd : S.CodecLaws) (dbg : Bool)
    (params : Params) (ht : params.t ≠ 0) (htn : params.t.toNat ≤ params.n.toNat) (ps : List (Participant F G))
    (hlen : ps.length = params.n.toNat) (hgood : ∀ p ∈ ps, GoodDealer S params.t p)
    (x : F) (i : U32) (cs : List F) (rng : R) :
    ∃ m, bootstrap S dbg params x i cs ps rng =
        .ok (⟨roundOneState S params x i true ps (some m)⟩, ⟨ps, none⟩) ∧
      m.WF ∧ (∀ j, j ∈ m.keys ↔ ∃ p ∈ ps, p.index = j) ∧
      (∀ j e, m.get? j = some e → ∃ p ∈ ps, p.index = j ∧ DealtTo S x i cs p e) := by
  have hf : ps.filter (Accepts S params true true) = ps := by
    rw [accepts_bootstrap]
    exact List.filter_eq_self.mpr fun p hp => by simpa using hgood p hp
  have hf' : ps.filter (fun p => ¬ Accepts S params true true p) = [] := by
    rw [accepts_bootstrap]
    exact List.filter_eq_nil_iff.mpr fun p hp => by simpa using hgood p hp
  obtain ⟨m, rng', h, h2⟩ := (newState_deal dbg params x i hc hd cs true ps rng ht hlen
    (fun _ p hp => dealerValid_not_lacks (hgood p hp).1)).2 (by rw [hf, hlen]; exact htn)
  rw [hf, hf'] at h
  exact ⟨m, by unfold bootstrap; rw [h]; rfl, h2⟩

/-- The share dealt to participant `P j` in a list of participants with distinct indices. -/
theorem dealt_get {S : Suite F G R} {x : F} {i : U32} {cs : List F} {ord : List U32} {P : U32 → Participant F G}
    (hP : ∀ l ∈ ord, (P l).index = l) {m : BMap EncShare}
    (h1 : ∀ j, j ∈ m.keys ↔ ∃ p ∈ ord.map P, p.index = j)
    (h2 : ∀ j e, m.get? j = some e → ∃ p ∈ ord.map P, p.index = j ∧ DealtTo S x i cs p e) (j : U32) (hj : j ∈ ord) :
    ∃ e, m.get? j = some e ∧ e.senderIndex = i ∧ e.receiverIndex = j ∧
      Spec.Opens S e (x • (P j).dhPublicKey) (Spec.polyEval cs (u32F F j)) := by
  obtain ⟨e, he⟩ := BMap.exists_get? ((h1 j).mpr ⟨P j, List.mem_map.mpr ⟨j, hj, rfl⟩, hP j hj⟩)
  obtain ⟨p, hp, hpi, hdt⟩ := h2 j e he
  obtain ⟨k, hk, rfl⟩ := List.mem_map.mp hp
  rw [hP k hk] at hpi
  subst hpi
  obtain ⟨k1, k2, _, k4⟩ := hdt
  rw [hP k hk] at k2 k4
  refine ⟨e, he, k1, k2, ?_⟩
  obtain ⟨v, hv, hv'⟩ := (decryptShare_ok_iff S e _ _).mp k4
  cases hv'
  exact hv

end IceFrost
