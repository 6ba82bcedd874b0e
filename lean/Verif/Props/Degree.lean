import Verif.Props.SignAny
import Verif.Props.Robust

/-! # C125: the threshold that the new signers of a resharing end up with -/

set_option linter.unusedSectionVars false
set_option linter.unusedSimpArgs false

namespace IceFrost

open Finset

attribute [local instance low] Classical.propDecidable

variable {F G R : Type} [Field F] [DecidableEq F] [AddCommGroup G] [Module F G] [DecidableEq G]

/-- Interpolation is linear in the keys. -/
theorem interpolate_swap (J : List U32) {ι : Type} (s : Finset ι) (w : ι → F) (f : ι → U32 → F) :
    Spec.interpolate J (fun j => ∑ k ∈ s, w k * f k j) = ∑ k ∈ s, w k * Spec.interpolate J (f k) := by
  unfold Spec.interpolate
  simp only [mul_sum]
  rw [sum_comm]
  exact sum_congr rfl fun k _ => sum_congr rfl fun j _ => by ring

/-- Keys dealt by polynomials of which exactly one has `|J| + 1` coefficients, the others fewer, do not interpolate to
the combined constant terms over `J`. -/
theorem keys_miss (hu : Suite.U32Inj F) (D : List U32) (h0D : 0 ∉ D) (cs : U32 → List F) (J : List U32) (hJ : J.Nodup)
    (h0J : 0 ∉ J) (l0 : U32) (hl0 : l0 ∈ D) (hlen0 : (cs l0).length = J.length + 1)
    (hlead : (cs l0).getLast? ≠ some 0) (hlen : ∀ l ∈ D, l ≠ l0 → (cs l).length ≤ J.length) (key : U32 → F)
    (hkey : ∀ j ∈ J, key j = ∑ l ∈ D.toFinset, Spec.lagrange D l * Spec.polyEval (cs l) (u32F F j)) :
    Spec.interpolate J key ≠ Spec.interpolate D (fun l => (cs l).headD 0) := by
  rw [interpolate_congr hkey, interpolate_swap]
  unfold Spec.interpolate
  rw [← add_sum_erase _ _ (List.mem_toFinset.mpr hl0), ← add_sum_erase _ _ (List.mem_toFinset.mpr hl0)]
  have hrest : ∀ l ∈ D.toFinset.erase l0, Spec.lagrange D l *
      (∑ i ∈ J.toFinset, Spec.lagrange J i * Spec.polyEval (cs l) (u32F F i)) =
      Spec.lagrange D l * (cs l).headD 0 := by
    intro l hl
    have := interpolate_polyEval hu hJ (cs l)
      (hlen l (List.mem_toFinset.mp (mem_of_mem_erase hl)) (ne_of_mem_erase hl))
    rw [Spec.polyEval_zero] at this
    rw [← this]
    rfl
  rw [sum_congr rfl hrest]
  intro h
  have h1 := mul_left_cancel₀ (lagrange_ne_zero hu D h0D l0) (add_right_cancel h)
  have h2 := C107_one_short hu J hJ h0J (cs l0) hlen0 (by
    intro h
    apply hlead
    have hlt : J.length < (cs l0).length := by omega
    rw [List.getLast?_eq_getElem?, hlen0, Nat.add_sub_cancel, List.getElem?_eq_getElem hlt]
    rw [List.getD_eq_getElem _ _ hlt] at h
    rw [h])
  rw [Spec.polyEval_zero] at h2
  exact h2 h1

/-- C125, negation, in full generality: dealers `D` of a resharing deal with polynomials of any length, each share
consistent with its commitments. Whatever the lengths, every new signer accepts all records, raises no complaint and
finishes with the group key of the committed constants. Every set of signers at least as large as the longest commitment
interpolates to that key's secret; but a set that is one smaller than one dealer's commitment (with nonzero last
coefficient, the others being shorter) does not. In particular a dealer with `n' + 1` points leaves the whole new group
of `n'` signers without the secret. -/
theorem C125_lockout {S : Suite F G R} (hS : S.Lawful) (dbg : Bool) (D : List U32) (hD : D.Nodup) (h0D : 0 ∉ D)
    (pd : Params) (hlenD : D.length = pd.n.toNat) (htd : pd.t ≠ 0) (htdn : pd.t.toNat ≤ pd.n.toNat)
    (P : U32 → Participant F G) (cs : U32 → List F) (x : U32 → F)
    (hP : ∀ l ∈ D, (P l).index = l ∧ (P l).commitments = some ⟨l, (cs l).map (· • S.gen)⟩ ∧
      (P l).dhPublicKey = x l • S.gen ∧ Spec.DealerValid S (P l))
    (I : List U32) (y : U32 → F) (E : U32 → U32 → EncShare)
    (hE : ∀ l ∈ D, ∀ i ∈ I, HonestlyDealt S l i (x l) (cs l) (y i • S.gen) (E l i))
    (ordD ordE : U32 → List U32) (ho : ∀ i ∈ I, (ordD i).Perm D ∧ (ordE i).Perm D) (r1 r2 : U32 → R) :
    ∃ (d1 : U32 → RoundOne F G) (d2 : U32 → RoundTwo F G) (key : U32 → F),
      (∀ i ∈ I, dkgNew S dbg pd (y i) i ((ordD i).map P) (r1 i) = .ok (d1 i, ⟨(ordD i).map P, none⟩) ∧
        (d1 i).toRoundTwo S dbg ((ordE i).map fun l => E l i) (r2 i) = .ok (d2 i, []) ∧
        (d2 i).finish = .ok (Spec.interpolate D (fun l => (cs l).headD 0) • S.gen, ⟨i, key i⟩)) ∧
      (∀ J : List U32, J.Nodup → J ⊆ I → (∀ l ∈ D, (cs l).length ≤ J.length) →
        Spec.interpolate J key = Spec.interpolate D (fun l => (cs l).headD 0)) ∧
      (∀ J : List U32, J.Nodup → 0 ∉ J → J ⊆ I → ∀ l0 ∈ D, (cs l0).length = J.length + 1 →
        (cs l0).getLast? ≠ some 0 → (∀ l ∈ D, l ≠ l0 → (cs l).length ≤ J.length) →
        Spec.interpolate J key ≠ Spec.interpolate D (fun l => (cs l).headD 0)) := by
  have hcs : ∀ l ∈ D, cs l ≠ [] := by
    intro l hl h
    obtain ⟨_, h2, _, _, c, pk, pf, h5, h6, _⟩ := hP l hl
    rw [h2, h] at h5
    cases h5
    cases h6
  have hn : D.length < 2 ^ 32 := by rw [hlenD]; exact pd.n.toNat_lt
  have hnew : ∀ i ∈ I, dkgNew S dbg pd (y i) i ((ordD i).map P) (r1 i) =
      .ok (⟨roundOneState S pd (y i) i true ((ordD i).map P) none⟩, ⟨(ordD i).map P, none⟩) := by
    intro i hi
    refine new_honest dbg pd htd htdn _ ?_ ?_ (y i) i (r1 i)
    · rw [List.length_map, (ho i hi).1.length_eq, hlenD]
    · intro p hp
      obtain ⟨l, hl, rfl⟩ := List.mem_map.mp hp
      exact (hP l ((ho i hi).1.mem_iff.mp hl)).2.2.2
  have hR : ∀ i ∈ I, ∃ d2 m', RoundOne.toRoundTwo S dbg
      ⟨roundOneState S pd (y i) i true ((ordD i).map P) none⟩ ((ordE i).map fun l => E l i) (r2 i) =
        .ok (d2, []) ∧ d2.state.index = i ∧ HoldsVerified S d2 (dealerMap S D cs) m' := by
    intro i hi
    refine receive_phase dbg D hD P cs (fun l => x l • S.gen) (fun l hl => ?_) pd hn (by omega) (y i) i none
      (ordD i) (ordE i) (ho i hi).1 (ho i hi).2 (fun l => E l i) (fun l hl => ?_) (r2 i)
    · obtain ⟨k1, k2, k3, _⟩ := hP l hl
      exact ⟨k1, k2, k3⟩
    · have := honestlyDealt_opens hS.cipher hS.codec (hE l hl i hi)
      rwa [smul_comm] at this
  choose! d2 m' hd1 hd2 hd3 using hR
  refine ⟨fun i => ⟨roundOneState S pd (y i) i true ((ordD i).map P) none⟩, d2,
    fun i => ∑ l ∈ D.toFinset, Spec.lagrange D l * Spec.polyEval (cs l) (u32F F i),
    fun i hi => ⟨hnew i hi, hd1 i hi, ?_⟩, fun J hJ _ hlen => ?_, fun J hJ h0J _ l0 hl0 hlen0 hlead hlen => ?_⟩
  · rw [finish_phase hS.group hS.u32 D hD h0D cs hcs (d2 i) (m' i) (hd3 i hi), hd2 i hi]
  · exact keys_interpolate hS.u32 D cs J hJ hlen _ fun j _ => rfl
  · exact keys_miss hS.u32 D h0D cs J hJ h0J l0 hl0 hlen0 hlead hlen _ fun j _ => rfl

/-- C125, negation, through the interface: one dealer calls `reshare` with a threshold that is one too large, the others
with the announced parameters. Nobody notices: all calls succeed, no complaint is raised, everybody derives the old group
key. But no set of `t'` signers has keys that interpolate to the group secret (unless the dealer's last coefficient
happened to be zero). -/
theorem C125_one_dealer_raises {S : Suite F G R} (hS : S.Lawful) (dbg : Bool) (D : List U32) (key : U32 → F)
    (pd pn : Params) (I : List U32) (hok : ReshareOk D pd pn I) (s : F) (hs : Spec.interpolate D key = s)
    (l0 : U32) (hl0 : l0 ∈ D) (t' : U32) (ht' : t'.toNat = pn.t.toNat + 1) (htn' : t'.toNat ≤ pn.n.toNat)
    (r1 r2 r3 r4 : U32 → R) (ordI ordD ordE : U32 → List U32) (hoI : ∀ l ∈ D, (ordI l).Perm I)
    (hoD : ∀ i ∈ I, (ordD i).Perm D ∧ (ordE i).Perm D) :
    ∃ (Q : U32 → Participant F G) (y : U32 → F), (∀ i ∈ I, newSigner S pn i (r1 i) = .ok (Q i, y i)) ∧
    ∃ (P : U32 → Participant F G) (m : U32 → BMap EncShare),
      (∀ l ∈ D, reshare S dbg ⟨pn.n, if l = l0 then t' else pn.t⟩ ⟨l, key l⟩ ((ordI l).map Q)
        (r2 l) = .ok (P l, m l, ⟨(ordI l).map Q, none⟩)) ∧
    ∃ E : U32 → U32 → EncShare, (∀ l ∈ D, ∀ i ∈ I, (m l).get? i = some (E l i)) ∧
    ∃ d1 : U32 → RoundOne F G, (∀ i ∈ I, dkgNew S dbg pd (y i) i ((ordD i).map P) (r3 i) =
        .ok (d1 i, ⟨(ordD i).map P, none⟩)) ∧
    ∃ d2 : U32 → RoundTwo F G, (∀ i ∈ I, (d1 i).toRoundTwo S dbg ((ordE i).map fun l => E l i) (r4 i) =
        .ok (d2 i, [])) ∧
    ∃ key' : U32 → F, (∀ i ∈ I, (d2 i).finish = .ok (s • S.gen, ⟨i, key' i⟩)) ∧
      ((∀ c, (P l0).commitments = some c → c.points.getLast? ≠ some 0) →
        ∀ J : List U32, J.Nodup → J ⊆ I → J.length = pn.t.toNat → Spec.interpolate J key' ≠ s) ∧
      ∀ J : List U32, J.Nodup → J ⊆ I → t'.toNat ≤ J.length → Spec.interpolate J key' = s := by
  have hI0 : ∀ i ∈ I, i ≠ 0 := fun i hi h => hok.zeroI (h ▸ hi)
  have hsig : ∀ i ∈ I, ∃ (q : Participant F G) (y : F), newSigner S pn i (r1 i) = .ok (q, y) ∧ q.index = i ∧
      q.dhPublicKey = y • S.gen ∧ Spec.DhValid S q := by
    intro i hi
    obtain ⟨p, dh, rng', h, h1, _, _, h4, h5⟩ := newInternal_signer S pn i (hI0 i hi) none (r1 i)
    exact ⟨p, dh, by unfold newSigner; rw [h], h1, h4, h5⟩
  choose! Q y hQ1 hQ2 hQ3 hQ4 using hsig
  have hresh : ∀ l ∈ D, ∃ (p : Participant F G) (m : BMap EncShare),
      reshare S dbg ⟨pn.n, if l = l0 then t' else pn.t⟩ ⟨l, key l⟩ ((ordI l).map Q)
      (r2 l) = .ok (p, m, ⟨(ordI l).map Q, none⟩) := by
    intro l hl
    refine reshare_honest hS.cipher hS.codec dbg _ ?_ ?_ _ ?_ ?_ ⟨l, key l⟩ ?_ (r2 l)
    · show (if l = l0 then t' else pn.t) ≠ 0
      split
      · intro h; rw [h] at ht'; simp at ht'
      · exact hok.tn
    · show (if l = l0 then t' else pn.t).toNat ≤ pn.n.toNat
      split
      · exact htn'
      · exact hok.tnn
    · show _ = pn.n.toNat
      rw [List.length_map, (hoI l hl).length_eq, hok.lenI]
    · intro p hp
      obtain ⟨i, hi, rfl⟩ := List.mem_map.mp hp
      exact hQ4 i ((hoI l hl).mem_iff.mp hi)
    · exact fun h => hok.zeroD (h ▸ hl)
  choose! P m hP using hresh
  have hfacts := fun l hl => reshare_facts hS.cipher hS.codec dbg
    (fun i hi => hQ2 i ((hoI l hl).mem_iff.mp hi)) (hP l hl)
  choose! cs x f1 f2 f3 f4 f5 f6 f7 using hfacts
  have hE : ∀ l ∈ D, ∀ i ∈ I, ∃ e, (m l).get? i = some e ∧ e.senderIndex = l ∧ e.receiverIndex = i ∧
      Spec.Opens S e (x l • (Q i).dhPublicKey) (Spec.polyEval (cs l) (u32F F i)) :=
    fun l hl i hi => f7 l hl i ((hoI l hl).mem_iff.mpr hi)
  choose! E hE1 hE2 hE3 hE4 using hE
  have hnew : ∀ i ∈ I, dkgNew S dbg pd (y i) i ((ordD i).map P) (r3 i) =
      .ok (⟨roundOneState S pd (y i) i true ((ordD i).map P) none⟩, ⟨(ordD i).map P, none⟩) := by
    intro i hi
    refine new_honest dbg pd hok.td hok.tdn _ ?_ ?_ (y i) i (r3 i)
    · rw [List.length_map, (hoD i hi).1.length_eq, hok.lenD]
    · intro p hp
      obtain ⟨l, hl, rfl⟩ := List.mem_map.mp hp
      exact f6 l ((hoD i hi).1.mem_iff.mp hl)
  have hn : D.length < 2 ^ 32 := by rw [hok.lenD]; exact pd.n.toNat_lt
  have hR : ∀ i ∈ I, ∃ d2 m', RoundOne.toRoundTwo S dbg
      ⟨roundOneState S pd (y i) i true ((ordD i).map P) none⟩ ((ordE i).map fun l => E l i) (r4 i) =
        .ok (d2, []) ∧ d2.state.index = i ∧ HoldsVerified S d2 (dealerMap S D cs) m' := by
    intro i hi
    refine receive_phase dbg D hok.nodupD P cs (fun l => x l • S.gen)
      (fun l hl => ⟨f1 l hl, f4 l hl, f5 l hl⟩) pd hn (by rw [hok.lenD]; exact hok.tdn) (y i) i none
      (ordD i) (ordE i) (hoD i hi).1 (hoD i hi).2 (fun l => E l i)
      (fun l hl => ⟨hE2 l hl i hi, hE3 l hl i hi, ?_⟩) (r4 i)
    have := hE4 l hl i hi
    rwa [hQ3 i hi, smul_comm] at this
  choose! d2 m' hd1 hd2 hd3 using hR
  have hcs : ∀ l ∈ D, cs l ≠ [] := by
    intro l hl h
    have := f3 l hl
    rw [h] at this; cases this
  have hsec : Spec.interpolate D (fun l => (cs l).headD 0) = s := by
    rw [← hs]
    refine interpolate_congr fun l hl => ?_
    have := f3 l hl
    cases h : cs l with
    | nil => exact absurd h (hcs l hl)
    | cons a as => rw [h] at this; cases this; rfl
  refine ⟨Q, y, hQ1, P, m, hP, E, hE1,
    fun i => ⟨roundOneState S pd (y i) i true ((ordD i).map P) none⟩, hnew, d2, hd1,
    fun i => ∑ l ∈ D.toFinset, Spec.lagrange D l * Spec.polyEval (cs l) (u32F F i), fun i hi => ?_,
    fun hlast J hJ hJI hlen => ?_, fun J hJ hJI hlen => ?_⟩
  · rw [finish_phase hS.group hS.u32 D hok.nodupD hok.zeroD cs hcs (d2 i) (m' i) (hd3 i hi), hd2 i hi, hsec]
  · rw [← hsec]
    refine keys_miss hS.u32 D hok.zeroD cs J hJ (fun h => hok.zeroI (hJI h)) l0 hl0 ?_ ?_ (fun l hl hne => ?_) _
      fun j _ => rfl
    · rw [f2 l0 hl0]
      show (if l0 = l0 then t' else pn.t).toNat = _
      rw [if_pos rfl, ht', hlen]
    · intro h
      refine hlast _ (f4 l0 hl0) ?_
      show (commitPoints S (cs l0)).getLast? = some 0
      unfold commitPoints
      rw [List.getLast?_map, h, Option.map_some, zero_smul]
    · rw [f2 l hl]
      show (if l = l0 then t' else pn.t).toNat ≤ _
      rw [if_neg hne, hlen]
  · rw [← hsec]
    refine keys_interpolate hS.u32 D cs J hJ (fun l hl => ?_) _ fun j _ => rfl
    rw [f2 l hl]
    show (if l = l0 then t' else pn.t).toNat ≤ _
    split
    · exact hlen
    · omega

/-- C125, what holds: if no accepted dealer's commitment has more than `t'` points, every `t'` new signers hold keys
that interpolate to the secret of the group key. Missing for the full claim: the code does not check the number of
points (`C26_any_degree_accepted`). -/
theorem C125_short_commitments_partial {S : Suite F G R} (hS : S.Lawful) (dbg : Bool) (D : List U32) (hD : D.Nodup)
    (h0D : 0 ∉ D) (pd : Params) (hlenD : D.length = pd.n.toNat) (htd : pd.t ≠ 0) (htdn : pd.t.toNat ≤ pd.n.toNat)
    (P : U32 → Participant F G) (cs : U32 → List F) (x : U32 → F)
    (hP : ∀ l ∈ D, (P l).index = l ∧ (P l).commitments = some ⟨l, (cs l).map (· • S.gen)⟩ ∧
      (P l).dhPublicKey = x l • S.gen ∧ Spec.DealerValid S (P l))
    (t : Nat) (hshort : ∀ l ∈ D, (cs l).length ≤ t)
    (I : List U32) (y : U32 → F) (E : U32 → U32 → EncShare)
    (hE : ∀ l ∈ D, ∀ i ∈ I, HonestlyDealt S l i (x l) (cs l) (y i • S.gen) (E l i))
    (ordD ordE : U32 → List U32) (ho : ∀ i ∈ I, (ordD i).Perm D ∧ (ordE i).Perm D) (r1 r2 : U32 → R)
    (d1 : U32 → RoundOne F G) (d2 : U32 → RoundTwo F G) (gk : U32 → G) (key : U32 → F)
    (h1 : ∀ i ∈ I, dkgNew S dbg pd (y i) i ((ordD i).map P) (r1 i) = .ok (d1 i, ⟨(ordD i).map P, none⟩))
    (h2 : ∀ i ∈ I, (d1 i).toRoundTwo S dbg ((ordE i).map fun l => E l i) (r2 i) = .ok (d2 i, []))
    (h3 : ∀ i ∈ I, (d2 i).finish = .ok (gk i, ⟨i, key i⟩)) :
    ∃ s : F, (∀ i ∈ I, gk i = s • S.gen) ∧
      ∀ J : List U32, J.Nodup → J ⊆ I → t ≤ J.length → Spec.interpolate J key = s := by
  obtain ⟨e1, e2, k, hrun, hok, _⟩ := C125_lockout hS dbg D hD h0D pd hlenD htd htdn P cs x hP I y E hE ordD ordE ho r1 r2
  have hkey : ∀ i ∈ I, gk i = Spec.interpolate D (fun l => (cs l).headD 0) • S.gen ∧ key i = k i := by
    intro i hi
    obtain ⟨k1, k2, k3⟩ := hrun i hi
    rw [h1 i hi] at k1
    have := (Prod.mk.inj (Except.ok.inj k1)).1
    rw [← this, h2 i hi] at k2
    have := (Prod.mk.inj (Except.ok.inj k2)).1
    rw [← this, h3 i hi] at k3
    simp only [Except.ok.injEq, Prod.mk.injEq, IndividualSigningKey.mk.injEq, true_and] at k3
    exact k3
  refine ⟨_, fun i hi => (hkey i hi).1, fun J hJ hJI hlen => ?_⟩
  rw [interpolate_congr fun j hj => (hkey j (hJI hj)).2]
  exact hok J hJ hJI fun l hl => (hshort l hl).trans hlen

end IceFrost
