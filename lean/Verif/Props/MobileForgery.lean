import Verif.Props.DealerRecord

/-! # C147: forging after a resharing

In C140, C143 and C145 the colluders are the same in the key generation and afterwards. Here fewer than the threshold of
the old participants and fewer than the new threshold of the new participants collude: the first know their old keys and
deal in the resharing, the second get shares in it. -/

set_option linter.unusedSectionVars false
set_option linter.unusedSimpArgs false
set_option linter.unusedVariables false

namespace IceFrost

open Finset

variable {F G R : Type} [Field F] [DecidableEq F] [AddCommGroup G] [Module F G] [DecidableEq G]
variable {Ω : Type}

/-- The polynomial of an honest dealer `e` of a resharing: the constant term is the old key of `e`, a value of the old
polynomial `w`; the other coefficients `g e` are random. -/
def Spec.reshared {t m : ℕ} {E : List U32} (w : Fin t → F) (g : {e // e ∈ E} → Fin m → F) (e : {e // e ∈ E}) :
    Fin (m + 1) → F :=
  Fin.cons (Spec.polyEval (List.ofFn w) (e.1.toNat : F)) (g e)

/-- What the colluders see: of the old polynomial the public points and the keys of `J`, and of the polynomial of each
honest dealer in `E` the commitments and the shares of `J'`. -/
abbrev Spec.MobileView (F G : Type) (J E J' : List U32) : Type :=
  (List G × ({j // j ∈ J} → F)) × ({e // e ∈ E} → List G × ({j // j ∈ J'} → F))

/-- The view in the protocol. -/
def Spec.mobileView (S : Suite F G R) (J E J' : List U32) {t m : ℕ} (w : Fin t → F) (g : {e // e ∈ E} → Fin m → F) :
    Spec.MobileView F G J E J' :=
  (Spec.dealerView S J 0 w, fun e => Spec.dealerView S J' e.1 (Spec.reshared w g e))

/-- The same, computed from the old group key `X` and arbitrary keys and shares. -/
noncomputable def Spec.simulatedMobile (S : Suite F G R) (J E J' : List U32) (t m : ℕ) (X : G) (y : {j // j ∈ J} → F)
    (y' : {e // e ∈ E} → {j // j ∈ J'} → F) : Spec.MobileView F G J E J' :=
  (Spec.simulatedDealerView S J t X y, fun e => Spec.simulatedDealerView S J' (m + 1)
    (Spec.pointEval (Spec.simulatedDealerView S J t X y).1 (e.1.toNat : F)) (y' e))

/-- The old secret, and all that the colluders know in the clear. -/
def Spec.mobileValues (J E J' : List U32) {t m : ℕ} (x : (Fin t → F) × ({e // e ∈ E} → Fin m → F)) :
    (F × ({j // j ∈ J} → F)) × ({e // e ∈ E} → {j // j ∈ J'} → F) :=
  (Spec.secretAndValues J x.1, fun e => (Spec.secretAndValues J' (Spec.reshared x.1 x.2 e)).2)

/-- The dealings of the colluding dealers pass the checks of the honest new participants `H`. -/
def Spec.ReshareAccepted (S : Suite F G R) (D E H : List U32) (t : ℕ) (deal : U32 → Spec.Dealing F G) : Prop :=
  ∀ k ∈ D, k ∉ E → (deal k).points.length = t ∧
    ∀ i ∈ H, (deal k).shares i • S.gen = Spec.pointEval (deal k).points (i.toNat : F)

/-- The commitments of dealer `k`. -/
def Spec.pointsOf {J E J' : List U32} (view : Spec.MobileView F G J E J') (deal : U32 → Spec.Dealing F G) (k : U32) :
    List G :=
  if h : k ∈ E then (view.2 ⟨k, h⟩).1 else (deal k).points

/-- The new group key. -/
def Spec.mobileKey (D : List U32) {J E J' : List U32} (deal : U32 → Spec.Dealing F G) (view : Spec.MobileView F G J E J') : G :=
  ∑ k ∈ D.toFinset, Spec.lagrange (F := F) D k • (Spec.pointsOf view deal k).headD 0

/-- The new key of participant `i`. -/
def Spec.mobileShare (D : List U32) {E : List U32} (deal : U32 → Spec.Dealing F G) {t m : ℕ} (w : Fin t → F)
    (g : {e // e ∈ E} → Fin m → F) (i : U32) : F :=
  ∑ k ∈ D.toFinset, Spec.lagrange D k *
    (if h : k ∈ E then Spec.polyEval (List.ofFn (Spec.reshared w g ⟨k, h⟩)) (i.toNat : F) else (deal k).shares i)

/-- By how much the colluding dealers move the secret of the group: each deals some secret instead of its old key. -/
def Spec.moved (D : List U32) {J : List U32} (E : List U32) (others : U32 → List F) (y : {j // j ∈ J} → F) : F :=
  ∑ k ∈ D.toFinset, Spec.lagrange D k *
    (if k ∈ E then 0 else (others k).headD 0 - if h : k ∈ J then y ⟨k, h⟩ else 0)

/-- How the new keys depend on the old secret. -/
noncomputable def Spec.mobileKit (D : List U32) {J E J' : List U32} (others : U32 → List F) (y : {j // j ∈ J} → F)
    (y' : {e // e ∈ E} → {j // j ∈ J'} → F) : Spec.Kit F where
  scale := 1
  shift := Spec.moved D E others y
  keyScale i := ∑ k ∈ D.toFinset, Spec.lagrange D k *
    (if k ∈ E then Spec.basisAt (0 :: J') 0 (i.toNat : F) * Spec.basisAt (0 :: J) 0 (k.toNat : F) else 0)
  keyShift i := ∑ k ∈ D.toFinset, Spec.lagrange D k *
    (if h : k ∈ E then Spec.basisAt (0 :: J') 0 (i.toNat : F) * (∑ j ∈ J.toFinset, Spec.basisAt (0 :: J) j (k.toNat : F) *
        (if h : j ∈ J then y ⟨j, h⟩ else 0)) +
      ∑ j ∈ J'.toFinset, Spec.basisAt (0 :: J') j (i.toNat : F) * (if h' : j ∈ J' then y' ⟨k, h⟩ ⟨j, h'⟩ else 0)
    else Spec.polyEval (others k) (i.toNat : F))

theorem reshared_zero {t m : ℕ} {E : List U32} (w : Fin t → F) (g : {e // e ∈ E} → Fin m → F) (e : {e // e ∈ E}) :
    Spec.polyEval (List.ofFn (Spec.reshared w g e)) 0 = Spec.polyEval (List.ofFn w) (e.1.toNat : F) := by
  rw [Spec.polyEval_zero, List.ofFn_succ]
  rfl

theorem mobileValues_bijective [Fintype F] (hu : Suite.U32Inj F) (J : List U32) (hJ : J.Nodup) (hJ0 : 0 ∉ J) (t : ℕ)
    (ht : J.length + 1 = t) (E : List U32) (J' : List U32) (hJ' : J'.Nodup) (hJ0' : 0 ∉ J') (m : ℕ) (hm : J'.length = m) :
    Function.Bijective (Spec.mobileValues (F := F) (t := t) (m := m) J E J') := by
  have hb := secretAndValues_bijective (F := F) hu J hJ hJ0 t ht
  have hb' := secretAndValues_bijective (F := F) hu J' hJ' hJ0' (m + 1) (by omega)
  constructor
  · rintro ⟨w, g⟩ ⟨w', g'⟩ h
    obtain ⟨h1, h2⟩ := Prod.mk.inj h
    obtain rfl := hb.1 h1
    refine Prod.ext rfl (funext fun e => ?_)
    have h3 : Spec.secretAndValues J' (Spec.reshared w g e) = Spec.secretAndValues J' (Spec.reshared w g' e) := by
      refine Prod.ext ?_ (congrFun h2 e)
      show Spec.polyEval (List.ofFn (Spec.reshared w g e)) 0 = Spec.polyEval (List.ofFn (Spec.reshared w g' e)) 0
      rw [reshared_zero, reshared_zero]
    exact (Fin.cons_injective2 (hb'.1 h3)).2
  · rintro ⟨xy, y'⟩
    obtain ⟨w, rfl⟩ := hb.2 xy
    choose v hv using fun e : {e // e ∈ E} => hb'.2 (Spec.polyEval (List.ofFn w) (e.1.toNat : F), y' e)
    have hr : ∀ e, Spec.reshared w (fun e => Fin.tail (v e)) e = v e := by
      intro e
      unfold Spec.reshared
      have h0 : v e 0 = Spec.polyEval (List.ofFn w) (e.1.toNat : F) := by
        have := congrArg Prod.fst (hv e)
        unfold Spec.secretAndValues at this
        simp only at this
        rw [Spec.polyEval_zero, List.ofFn_succ] at this
        exact this
      rw [← h0]
      exact Fin.cons_self_tail (v e)
    refine ⟨(w, fun e => Fin.tail (v e)), ?_⟩
    unfold Spec.mobileValues
    refine Prod.ext rfl (funext fun e => ?_)
    simp only
    rw [hr, hv]

/-- The simulated view is the real one. -/
theorem simulatedMobile_eq (hu : Suite.U32Inj F) (S : Suite F G R) (J : List U32) (hJ : J.Nodup) (hJ0 : 0 ∉ J) (t : ℕ)
    (ht : J.length + 1 = t) (E : List U32) (J' : List U32) (hJ' : J'.Nodup) (hJ0' : 0 ∉ J') (m : ℕ) (hm : J'.length = m)
    (w : Fin t → F) (g : {e // e ∈ E} → Fin m → F) :
    Spec.simulatedMobile S J E J' t m ((Spec.mobileValues J E J' (w, g)).1.1 • S.gen) (Spec.mobileValues J E J' (w, g)).1.2
      (Spec.mobileValues J E J' (w, g)).2 = Spec.mobileView S J E J' w g := by
  have h1 : Spec.simulatedDealerView S J t ((Spec.mobileValues J E J' (w, g)).1.1 • S.gen)
      (Spec.mobileValues J E J' (w, g)).1.2 = Spec.dealerView S J 0 w := simulatedDealerView_eq hu S J hJ hJ0 t ht 0 w
  unfold Spec.simulatedMobile Spec.mobileView
  rw [h1]
  refine Prod.ext rfl (funext fun e => ?_)
  have h2 := simulatedDealerView_eq hu S J' hJ' hJ0' (m + 1) (by omega) e.1 (Spec.reshared w g e)
  rw [reshared_zero] at h2
  simp only
  rw [← h2]
  show Spec.simulatedDealerView S J' (m + 1) (Spec.pointEval (commitPoints S (List.ofFn w)) _) _ = _
  rw [pointEval_commitPoints]
  rfl

/-- Honest dealers deal their old keys, so the new secret is the old one, moved by the colluding dealers. -/
theorem sum_reshared (hu : Suite.U32Inj F) (D : List U32) (hD : D.Nodup) (J E : List U32)
    (hE : ∀ k, k ∈ E ↔ k ∈ D ∧ k ∉ J) (t : ℕ) (htD : t ≤ D.length) (w : Fin t → F) (c : U32 → F) :
    ∑ k ∈ D.toFinset, Spec.lagrange D k * (if k ∈ E then Spec.polyEval (List.ofFn w) (k.toNat : F) else c k) =
      Spec.polyEval (List.ofFn w) 0 + ∑ k ∈ D.toFinset, Spec.lagrange D k *
        (if k ∈ E then 0 else c k - if h : k ∈ J then (Spec.secretAndValues J w).2 ⟨k, h⟩ else 0) := by
  have h := interpolate_polyEval hu hD (List.ofFn w) (by simpa using htD)
  rw [← h]
  unfold Spec.interpolate
  rw [← sum_add_distrib]
  refine sum_congr rfl fun k hk => ?_
  rw [← mul_add]
  congr 1
  show _ = Spec.polyEval (List.ofFn w) (k.toNat : F) + _
  by_cases hkE : k ∈ E
  · rw [if_pos hkE, if_pos hkE, add_zero]
  · have hkJ : k ∈ J := by
      by_contra hn
      exact hkE ((hE k).mpr ⟨List.mem_toFinset.mp hk, hn⟩)
    rw [if_neg hkE, if_neg hkE, dif_pos hkJ]
    show _ = Spec.polyEval (List.ofFn w) (k.toNat : F) + (c k - Spec.polyEval (List.ofFn w) (k.toNat : F))
    ring

/-- The new group key, for dealings that contain the polynomials `others`. -/
theorem mobileKey_eq (hu : Suite.U32Inj F) (S : Suite F G R) (D : List U32) (hD : D.Nodup) (J E : List U32)
    (hE : ∀ k, k ∈ E ↔ k ∈ D ∧ k ∉ J) (J' : List U32) (t m : ℕ) (htD : t ≤ D.length) (deal : U32 → Spec.Dealing F G)
    (others : U32 → List F) (ho : ∀ k ∈ D, k ∉ E → (deal k).points = commitPoints S (others k)) (w : Fin t → F)
    (g : {e // e ∈ E} → Fin m → F) :
    Spec.mobileKey D deal (Spec.mobileView S J E J' w g) =
      (Spec.polyEval (List.ofFn w) 0 + Spec.moved D E others (Spec.secretAndValues J w).2) • S.gen := by
  unfold Spec.moved
  rw [← sum_reshared hu D hD J E hE t htD w fun k => (others k).headD 0, sum_smul]
  unfold Spec.mobileKey
  refine sum_congr rfl fun k hk => ?_
  rw [mul_smul]
  congr 1
  unfold Spec.pointsOf
  by_cases hkE : k ∈ E
  · rw [dif_pos hkE, if_pos hkE]
    show (commitPoints S (List.ofFn (Spec.reshared w g ⟨k, hkE⟩))).headD 0 = _
    rw [List.ofFn_succ]
    rfl
  · rw [dif_neg hkE, if_neg hkE, ho k (List.mem_toFinset.mp hk) hkE]
    cases others k with
    | nil => simp [commitPoints]
    | cons a cs => rfl

/-- The new keys of the honest participants. -/
theorem mobileKit_key (hu : Suite.U32Inj F) (D : List U32) (J : List U32)
    (hJ : J.Nodup) (hJ0 : 0 ∉ J) (t : ℕ) (ht : J.length + 1 = t) (E : List U32) (J' : List U32) (hJ' : J'.Nodup)
    (hJ0' : 0 ∉ J') (m : ℕ) (hm : J'.length = m) (deal : U32 → Spec.Dealing F G) (others : U32 → List F) (i : U32)
    (ho : ∀ k ∈ D, k ∉ E → (deal k).shares i = Spec.polyEval (others k) (i.toNat : F)) (w : Fin t → F)
    (g : {e // e ∈ E} → Fin m → F) :
    (Spec.mobileKit D others (Spec.mobileValues J E J' (w, g)).1.2 (Spec.mobileValues J E J' (w, g)).2).key
      (Spec.mobileValues J E J' (w, g)).1.1 i = Spec.mobileShare D deal w g i := by
  unfold Spec.Kit.key Spec.mobileKit Spec.mobileShare
  simp only
  rw [sum_mul, ← sum_add_distrib]
  refine sum_congr rfl fun k hk => ?_
  rw [mul_assoc, ← mul_add]
  congr 1
  by_cases hkE : k ∈ E
  · rw [if_pos hkE, dif_pos hkE, dif_pos hkE, polyEval_basis hu (m + 1) J' hJ' hJ0' (by omega) (Spec.reshared w g ⟨k, hkE⟩),
      reshared_zero, polyEval_basis hu t J hJ hJ0 ht w (k.toNat : F)]
    have e1 : ∀ j ∈ J.toFinset, Spec.basisAt (0 :: J) j (k.toNat : F) *
        (if h : j ∈ J then (Spec.mobileValues J E J' (w, g)).1.2 ⟨j, h⟩ else 0) =
        Spec.basisAt (0 :: J) j (k.toNat : F) * Spec.polyEval (List.ofFn w) (j.toNat : F) := by
      intro j hj
      rw [dif_pos (List.mem_toFinset.mp hj)]
      rfl
    have e2 : ∀ j ∈ J'.toFinset, Spec.basisAt (0 :: J') j (i.toNat : F) *
        (if h : j ∈ J' then (Spec.mobileValues J E J' (w, g)).2 ⟨k, hkE⟩ ⟨j, h⟩ else 0) =
        Spec.basisAt (0 :: J') j (i.toNat : F) * Spec.polyEval (List.ofFn (Spec.reshared w g ⟨k, hkE⟩)) (j.toNat : F) := by
      intro j hj
      rw [dif_pos (List.mem_toFinset.mp hj)]
      rfl
    rw [sum_congr rfl e1, sum_congr rfl e2]
    show _ * Spec.polyEval (List.ofFn w) 0 + _ = _
    ring
  · rw [if_neg hkE, dif_neg hkE, dif_neg hkE, zero_mul, zero_add, ho k (List.mem_toFinset.mp hk) hkE]

/-- C147: the commitments that `reshare` publishes for the key `w(e)` are those of the game, and the other coefficients are
the scalars drawn for them. -/
theorem C147_reshare {S : Suite F G R} (dbg : Bool) (params : Params) {t m : ℕ} (hm : params.t.toNat = m + 1) {E : List U32}
    (w : Fin t → F) (g : {e // e ∈ E} → Fin m → F) (e : {e // e ∈ E}) (ps : List (Participant F G))
    (hnd : (ps.map (·.index)).Nodup) (rng : R) (hr : ∀ k : Fin m, Spec.scalar S rng (2 + k) = g e k) (p : Participant F G)
    (sh : BMap EncShare) (l : ParticipantList F G)
    (h : reshare S dbg params ⟨e.1, Spec.polyEval (List.ofFn w) (e.1.toNat : F)⟩ ps rng = .ok (p, sh, l)) (J J' : List U32) :
    p.commitments = some ⟨e.1, ((Spec.mobileView S J E J' w g).2 e).1⟩ := by
  rw [(C113_reshare S dbg params _ ps hnd rng p sh l h).2.2.1]
  congr 2
  show _ = commitPoints S (List.ofFn (Spec.reshared w g e))
  unfold Spec.reshared commitPoints
  rw [List.ofFn_succ, Fin.cons_zero]
  simp only [Fin.cons_succ]
  congr 2
  rw [hm, Nat.add_sub_cancel]
  refine List.ext_getElem (by simp) fun k h1 h2 => ?_
  simp only [List.getElem_map, List.getElem_range, List.getElem_ofFn]
  exact hr ⟨k, by simpa using h1⟩

/-- The commitments on file. -/
def Spec.mobileMap (S : Suite F G R) (D : List U32) {J E J' : List U32} (deal : U32 → Spec.Dealing F G)
    (view : Spec.MobileView F G J E J') : BMap (VssCommitment G) :=
  BMap.ofList (D.map fun k => (k, ⟨k, Spec.pointsOf view deal k⟩))

/-- C147: an honest new participant that holds verified shares for these commitments gets these keys from `finish`. -/
theorem C147_keys {S : Suite F G R} (hg : S.GroupLaws) (hu : Suite.U32Inj F) (D : List U32) (hD : D.Nodup) (h0 : 0 ∉ D)
    (J E J' : List U32) {t m : ℕ} (H : List U32) (hH : H.Nodup) (hmH : m + 1 ≤ H.length) (deal : U32 → Spec.Dealing F G)
    (ha : Spec.ReshareAccepted S D E H (m + 1) deal) (w : Fin t → F) (g : {e // e ∈ E} → Fin m → F) (d : RoundTwo F G)
    (hi : d.state.index ∈ H) (sh : BMap (SecretShare F))
    (hV : HoldsVerified S d (Spec.mobileMap S D deal (Spec.mobileView S J E J' w g)) sh) :
    d.finish = .ok (Spec.mobileKey D deal (Spec.mobileView S J E J' w g),
      ⟨d.state.index, Spec.mobileShare D deal w g d.state.index⟩) := by
  let cs : U32 → List F := fun k => if h : k ∈ E then List.ofFn (Spec.reshared w g ⟨k, h⟩) else (deal k).poly H (m + 1)
  have hp : ∀ k ∈ D, Spec.pointsOf (Spec.mobileView S J E J' w g) deal k = commitPoints S (cs k) := by
    intro k hk
    simp only [cs, Spec.pointsOf]
    by_cases hkE : k ∈ E
    · rw [dif_pos hkE, dif_pos hkE]
      rfl
    · rw [dif_neg hkE, dif_neg hkE]
      obtain ⟨h1, h2⟩ := ha k hk hkE
      exact (dealing_poly hg hu H hH (m + 1) hmH _ h1 h2).1
  have hcs : ∀ k ∈ D, cs k ≠ [] := by
    intro k hk h
    have := congrArg List.length h
    simp only [cs] at this
    split_ifs at this
    · simp at this
    · unfold Spec.Dealing.poly at this
      rw [ofPoly_length] at this
      simp at this
  have hmap : dealerMap S D cs = Spec.mobileMap S D deal (Spec.mobileView S J E J' w g) := by
    unfold dealerMap Spec.mobileMap
    congr 1
    exact List.map_congr_left fun k hk => by rw [hp k hk]
  rw [← hmap] at hV
  rw [finish_phase hg hu D hD h0 cs hcs d sh hV]
  congr 2
  · unfold Spec.interpolate Spec.mobileKey
    rw [sum_smul]
    refine sum_congr rfl fun k hk => ?_
    rw [mul_smul, hp k (List.mem_toFinset.mp hk)]
    congr 1
    beta_reduce
    cases cs k with
    | nil => simp [commitPoints]
    | cons a l => rfl
  · unfold Spec.mobileShare
    congr 1
    refine sum_congr rfl fun k hk => ?_
    congr 1
    simp only [cs]
    by_cases hkE : k ∈ E
    · rw [dif_pos hkE, dif_pos hkE]
      rfl
    · rw [dif_neg hkE, dif_neg hkE]
      obtain ⟨h1, h2⟩ := ha k (List.mem_toFinset.mp hk) hkE
      exact ((dealing_poly hg hu H hH (m + 1) hmH _ h1 h2).2 _ hi).symm

/-- Dealings that come from polynomials, with the commitments of these and no shares. -/
def Spec.ofPolys (S : Suite F G R) (others : U32 → List F) (k : U32) : Spec.Dealing F G :=
  ⟨commitPoints S (others k), fun _ => 0⟩

/-- The polynomials that the dealings contain. -/
noncomputable def Spec.polysOf (H : List U32) (t : ℕ) (deal : U32 → Spec.Dealing F G) (k : U32) : List F := (deal k).poly H t

theorem reshare_polys {S : Suite F G R} (hg : S.GroupLaws) (hu : Suite.U32Inj F) (D E H : List U32) (hH : H.Nodup) (t : ℕ)
    (htH : t ≤ H.length) (deal : U32 → Spec.Dealing F G) (ha : Spec.ReshareAccepted S D E H t deal) :
    ∀ k ∈ D, k ∉ E → (deal k).points = commitPoints S (Spec.polysOf H t deal k) ∧
      ∀ i ∈ H, (deal k).shares i = Spec.polyEval (Spec.polysOf H t deal k) (i.toNat : F) := by
  intro k hk hkE
  obtain ⟨h1, h2⟩ := ha k hk hkE
  exact dealing_poly hg hu H hH t htH _ h1 h2

/-- The solver: given a point, it plays the old honest participants with the old group key `P` towards the attacker,
rewinds it and computes a logarithm of `P`. -/
noncomputable def Spec.mobileSolve (S : Suite F G R) (D J E J' H : List U32) (t m : ℕ)
    (deal : Ω × Spec.MobileView F G J E J' → U32 → Spec.Dealing F G) (q : ℕ)
    (A : Spec.Attacker (Ω × Spec.MobileView F G J E J') F (Bytes × ThresholdSignature F G)) (P : G) (ω : Ω)
    (y : {j // j ∈ J} → F) (y' : {e // e ∈ E} → {j // j ∈ J'} → F) (h h' : Fin (q + 1) → F) : F :=
  let v := (ω, Spec.simulatedMobile S J E J' t m P y y')
  A.rewind q (Spec.signatureQuestion S fun x => Spec.mobileKey D (Spec.ofPolys S (Spec.polysOf H (m + 1) (deal x))) x.2)
      Spec.extractKey v h h' -
    Spec.moved D E (Spec.polysOf H (m + 1) (deal v)) y

/-- C147: a resharing from threshold `t` to threshold `m + 1`. Of the dealers `D`, the old participants `J` (fewer than
`t`) collude and the others, `E`, are honest; of the new participants, `J'` (at most `m`) collude and `H` (at least
`m + 1`) are honest. The colluders see the old keys of `J`, all public points, all commitments of `E` and the shares for
`J'`, and deal after seeing them. If their dealings pass the checks of `H` and they forge a signature for the new group
key with chance `ε`, then `mobileSolve` computes discrete logarithms of random points with chance at least
`ε (ε / (q + 1) - 1 / |F|)`. -/
theorem C147_forgery [Fintype F] [Fintype Ω] [Nonempty Ω] {S : Suite F G R} (hS : S.Lawful) (D : List U32) (hD : D.Nodup)
    (J : List U32) (hJ : J.Nodup) (hJ0 : 0 ∉ J) (t : ℕ) (ht : J.length + 1 = t) (htD : t ≤ D.length)
    (E : List U32) (hE : ∀ k, k ∈ E ↔ k ∈ D ∧ k ∉ J) (J' : List U32) (hJ' : J'.Nodup) (hJ0' : 0 ∉ J') (m : ℕ)
    (hm : J'.length = m) (H : List U32) (hH : H.Nodup) (hmH : m + 1 ≤ H.length)
    (deal : Ω × Spec.MobileView F G J E J' → U32 → Spec.Dealing F G) (q : ℕ)
    (A : Spec.Attacker (Ω × Spec.MobileView F G J E J') F (Bytes × ThresholdSignature F G)) :
    let key : Ω × Spec.MobileView F G J E J' → G := fun x => Spec.mobileKey D (deal x) x.2
    let final := Spec.signatureQuestion S key
    let forged : ℚ := Spec.chance fun x : (Ω × (Fin t → F) × ({e // e ∈ E} → Fin m → F)) × (Fin (q + 1) → F) =>
      let v := (x.1.1, Spec.mobileView S J E J' x.1.2.1 x.1.2.2)
      Spec.ReshareAccepted S D E H (m + 1) (deal v) ∧
      (A.output q final v x.2).2.verify (Spec.withTable S (A.table q final v x.2)) (key v) (A.output q final v x.2).1 =
        .ok ()
    forged * (forged / ((q + 1 : ℕ) : ℚ) - 1 / (Fintype.card F : ℚ)) ≤
      Spec.chance fun x : (Ω × (F × ({j // j ∈ J} → F)) × ({e // e ∈ E} → {j // j ∈ J'} → F)) ×
          (Fin (q + 1) → F) × (Fin (q + 1) → F) =>
        Spec.mobileSolve S D J E J' H t m deal q A (x.1.2.1.1 • S.gen) x.1.1 x.1.2.1.2 x.1.2.2 x.2.1 x.2.2 =
          x.1.2.1.1 := by
  intro key final forged
  let key' : Ω × Spec.MobileView F G J E J' → G := fun x =>
    Spec.mobileKey D (Spec.ofPolys S (Spec.polysOf H (m + 1) (deal x))) x.2
  let A' : Spec.Attacker (Ω × (Fin t → F) × ({e // e ∈ E} → Fin m → F)) F (Bytes × ThresholdSignature F G) :=
    ⟨fun x => A.ask (x.1, Spec.mobileView S J E J' x.2.1 x.2.2), fun x => A.result (x.1, Spec.mobileView S J E J' x.2.1 x.2.2)⟩
  have h := C140_forgery hS.codec q (fun x : Ω × (Fin t → F) × ({e // e ∈ E} → Fin m → F) =>
    key' (x.1, Spec.mobileView S J E J' x.2.1 x.2.2)) A'
  simp only at h
  rw [← sub_zero (_ * _)] at h ⊢
  refine fork_bound_mono (by positivity) (by positivity) le_rfl (chance_nonneg _) (chance_mono ?_) (chance_nonneg _)
    (h.trans ?_)
  · rintro ⟨⟨ω, w, g⟩, u⟩ ⟨hacc, hv⟩
    simp only at hacc hv ⊢
    have hpol := reshare_polys hS.group hS.u32 D E H hH (m + 1) hmH _ hacc
    have hk : key (ω, Spec.mobileView S J E J' w g) = key' (ω, Spec.mobileView S J E J' w g) := by
      simp only [key, key']
      rw [mobileKey_eq hS.u32 S D hD J E hE J' t m htD _ _ (fun k hk hkE => (hpol k hk hkE).1),
        mobileKey_eq hS.u32 S D hD J E hE J' t m htD _ _ (fun k hk hkE => rfl)]
    have hf : final (ω, Spec.mobileView S J E J' w g) =
        Spec.signatureQuestion S key' (ω, Spec.mobileView S J E J' w g) := by
      funext o
      show Spec.Question.field _ (_ ++ S.encG (key _) ++ _) = _
      rw [hk]
      rfl
    have htab := A.table_congr q hf u
    unfold Spec.Attacker.output at hv ⊢
    rw [htab, hk] at hv
    exact hv
  have hbij := mobileValues_bijective (F := F) hS.u32 J hJ hJ0 t ht E J' hJ' hJ0' m hm
  let φ : (Ω × (Fin t → F) × ({e // e ∈ E} → Fin m → F)) × (Fin (q + 1) → F) × (Fin (q + 1) → F) →
      (Ω × (F × ({j // j ∈ J} → F)) × ({e // e ∈ E} → {j // j ∈ J'} → F)) × (Fin (q + 1) → F) × (Fin (q + 1) → F) :=
    Prod.map (Prod.map id (Spec.mobileValues J E J')) id
  have hφ : Function.Bijective φ := (Function.bijective_id.prodMap hbij).prodMap Function.bijective_id
  rw [← chance_bijective φ hφ]
  refine chance_mono ?_
  rintro ⟨⟨ω, w, g⟩, h1, h2⟩ hx
  have hview := simulatedMobile_eq hS.u32 S J hJ hJ0 t ht E J' hJ' hJ0' m hm w g
  have hx' : A.rewind q (Spec.signatureQuestion S key') Spec.extractKey (ω, Spec.mobileView S J E J' w g) h1 h2 • S.gen =
      key' (ω, Spec.mobileView S J E J' w g) := hx
  show Spec.mobileSolve S D J E J' H t m deal q A ((Spec.mobileValues J E J' (w, g)).1.1 • S.gen) ω
    (Spec.mobileValues J E J' (w, g)).1.2 (Spec.mobileValues J E J' (w, g)).2 h1 h2 = Spec.polyEval (List.ofFn w) 0
  unfold Spec.mobileSolve
  rw [hview]
  simp only [key'] at hx'
  rw [mobileKey_eq hS.u32 S D hD J E hE J' t m htD _ _ (fun k hk hkE => rfl)] at hx'
  have := hS.group.gen_inj _ _ hx'
  simp only
  rw [this]
  exact add_sub_cancel_right _ _

/-- The insider that first gets a view of the resharing, computed from a point, keys and shares. -/
noncomputable def Spec.Insider.afterReshare {J E J' : List U32} (B : Spec.Insider (Ω × Spec.MobileView F G J E J') F G)
    (S : Suite F G R) (t m : ℕ) (X : G) :
    Spec.Insider (Ω × ({j // j ∈ J} → F) × ({e // e ∈ E} → {j // j ∈ J'} → F)) F G where
  move ω := B.move (ω.1, Spec.simulatedMobile S J E J' t m X ω.2.1 ω.2.2)
  result ω := B.result (ω.1, Spec.simulatedMobile S J E J' t m X ω.2.1 ω.2.2)

/-- C147: the same for colluders who take part in concurrent signing sessions with the new honest participants, as in
C143. -/
theorem C147_concurrent_sessions [Fintype F] [Fintype U32] [Fintype Ω] [Nonempty Ω] {S : Suite F G R} (hS : S.Lawful)
    (D : List U32) (hD : D.Nodup) (J : List U32) (hJ : J.Nodup) (hJ0 : 0 ∉ J) (t : ℕ) (ht : J.length + 1 = t)
    (htD : t ≤ D.length) (E : List U32) (hE : ∀ k, k ∈ E ↔ k ∈ D ∧ k ∉ J) (J' : List U32) (hJ' : J'.Nodup) (hJ0' : 0 ∉ J')
    (m : ℕ) (hm : J'.length = m) (H : List U32) (hH : H.Nodup) (hmH : m + 1 ≤ H.length)
    (deal : Ω × Spec.MobileView F G J E J' → U32 → Spec.Dealing F G) (dbg : Bool) (n : ℕ) (hn : n ≤ 2 ^ 63)
    (B : Spec.Insider (Ω × Spec.MobileView F G J E J') F G) :
    let forged : ℚ := Spec.chance fun z : (Ω × ((Fin t → F) × ({e // e ∈ E} → Fin m → F)) × Spec.Draw F (F × F)) ×
        (Fin (n + 1) → Spec.Cell F (F × F)) =>
      let v := (z.1.1, Spec.mobileView S J E J' z.1.2.1.1 z.1.2.1.2)
      Spec.ReshareAccepted S D E H (m + 1) (deal v) ∧
      B.Succeeds S dbg H n (Spec.mobileShare D (deal v) z.1.2.1.1 z.1.2.1.2) (Spec.mobileKey D (deal v) v.2) v z.1.2.2 z.2
    forged * (forged / ((n + 1 : ℕ) : ℚ) - 1 / (Fintype.card F : ℚ)) -
        2 * (n : ℚ) ^ 2 * (H.length : ℚ) / (Fintype.card F : ℚ) ≤
      Spec.chance fun y : ((Ω × ({j // j ∈ J} → F) × ({e // e ∈ E} → {j // j ∈ J'} → F)) × F × Spec.Draw F (F × F)) ×
          (Fin (n + 1) → Spec.Cell F (F × F)) × (Fin (n + 1) → Spec.Cell F (F × F)) =>
        Spec.Insider.Solves (B.afterReshare S t m) S dbg H n
          (fun ω X => Spec.mobileKit D (Spec.polysOf H (m + 1)
            (deal (ω.1, Spec.simulatedMobile S J E J' t m X ω.2.1 ω.2.2))) ω.2.1 ω.2.2)
          y.1.1 y.1.2.1 y.1.2.2 y.2.1 y.2.2 := by
  intro forged
  have h := C143_concurrent_sessions (Ω := Ω × ({j // j ∈ J} → F) × ({e // e ∈ E} → {j // j ∈ J'} → F)) hS.codec hS.group
    hS.u32 dbg H n hn (fun ω X => Spec.mobileKit D (Spec.polysOf H (m + 1)
      (deal (ω.1, Spec.simulatedMobile S J E J' t m X ω.2.1 ω.2.2))) ω.2.1 ω.2.2)
    (fun ω X => one_ne_zero) (B.afterReshare S t m)
  simp only at h
  have hbij := mobileValues_bijective (F := F) hS.u32 J hJ hJ0 t ht E J' hJ' hJ0' m hm
  let e := Equiv.ofBijective _ hbij
  let φ : (Ω × ((Fin t → F) × ({e // e ∈ E} → Fin m → F)) × Spec.Draw F (F × F)) × (Fin (n + 1) → Spec.Cell F (F × F)) ≃
      ((Ω × ({j // j ∈ J} → F) × ({e // e ∈ E} → {j // j ∈ J'} → F)) × F × Spec.Draw F (F × F)) ×
        (Fin (n + 1) → Spec.Cell F (F × F)) :=
    { toFun := fun z => (((z.1.1, (e z.1.2.1).1.2, (e z.1.2.1).2), (e z.1.2.1).1.1, z.1.2.2), z.2)
      invFun := fun z => ((z.1.1.1, e.symm ((z.1.2.1, z.1.1.2.1), z.1.1.2.2), z.1.2.2), z.2)
      left_inv := fun z => by simp
      right_inv := fun z => by simp }
  rw [← chance_bijective φ φ.bijective] at h
  refine fork_bound_mono (by positivity) (by positivity) (by positivity) (chance_nonneg _) (chance_mono ?_)
    (chance_nonneg _) h
  rintro ⟨⟨ω, ⟨w, g⟩, d⟩, u⟩ ⟨hacc, hv⟩
  simp only at hacc hv
  have hpol := reshare_polys hS.group hS.u32 D E H hH (m + 1) hmH _ hacc
  have hview := simulatedMobile_eq hS.u32 S J hJ hJ0 t ht E J' hJ' hJ0' m hm w g
  show Spec.Insider.Wins (B.afterReshare S t m) S dbg H n _ (ω, (Spec.mobileValues J E J' (w, g)).1.2,
    (Spec.mobileValues J E J' (w, g)).2) (Spec.mobileValues J E J' (w, g)).1.1 d u
  unfold Spec.Insider.Wins
  beta_reduce
  simp only
  rw [hview]
  have hgk : (Spec.mobileKit D (Spec.polysOf H (m + 1) (deal (ω, Spec.mobileView S J E J' w g)))
      (Spec.mobileValues J E J' (w, g)).1.2 (Spec.mobileValues J E J' (w, g)).2).groupKey S
        ((Spec.mobileValues J E J' (w, g)).1.1 • S.gen) =
      Spec.mobileKey D (deal (ω, Spec.mobileView S J E J' w g)) (Spec.mobileView S J E J' w g) := by
    rw [Spec.Kit.groupKey_eq, mobileKey_eq hS.u32 S D hD J E hE J' t m htD _ _ (fun k hk hkE => (hpol k hk hkE).1)]
    unfold Spec.Kit.secret
    show ((1 : F) * _ + _) • S.gen = _
    rw [one_mul]
    rfl
  have hplay : ∀ key Y c r u k, (B.afterReshare S t m ((Spec.mobileValues J E J' (w, g)).1.1 • S.gen)).play S dbg H key Y
      (ω, (Spec.mobileValues J E J' (w, g)).1.2, (Spec.mobileValues J E J' (w, g)).2) c r u k =
      B.play S dbg H key Y (ω, Spec.mobileView S J E J' w g) c r u k := by
    intro key Y c r u k
    induction k with
    | zero => rfl
    | succ k ih =>
      rw [Spec.Insider.play_succ, Spec.Insider.play_succ, ih]
      show Spec.gameStep S dbg H key Y (B.move (ω, Spec.simulatedMobile S J E J' t m _ _ _) _) _ _ _ _ = _
      rw [hview]
  have hres : ∀ l', (B.afterReshare S t m ((Spec.mobileValues J E J' (w, g)).1.1 • S.gen)).result
      (ω, (Spec.mobileValues J E J' (w, g)).1.2, (Spec.mobileValues J E J' (w, g)).2) l' =
      B.result (ω, Spec.mobileView S J E J' w g) l' := by
    intro l'
    show B.result (ω, Spec.simulatedMobile S J E J' t m _ _ _) l' = _
    rw [hview]
  rw [hgk]
  unfold Spec.Insider.Succeeds at hv ⊢
  simp only [hplay, hres]
  rw [B.play_keys S dbg H fun i hi => mobileKit_key hS.u32 D J hJ hJ0 t ht E J' hJ' hJ0' m hm
    (deal (ω, Spec.mobileView S J E J' w g)) _ i (fun k hk hkE => (hpol k hk hkE).2 i hi) w g]
  exact hv

section Examples
open Toy

/-- The participants of a resharing: dealers 1 to 4, of which 2 and 4 collude, from threshold 3 to threshold 2; new
participant 6 colludes and the new participants 1 and 3 are honest. -/
abbrev reshareView : Type := Spec.MobileView Fp Fp colluders [1, 3] [6]

/-- The polynomials of the dealers 2 and 4; that of dealer 2 depends on the commitments of dealer 1. -/
def colluderPoly (x : Unit × reshareView) (k : U32) : List Fp :=
  if k = 2 then [7 - (x.2.2 ⟨1, by decide⟩).1.headD 0, 1] else [4, 9]

def resharingDeal (x : Unit × reshareView) (k : U32) : Spec.Dealing Fp Fp :=
  ⟨commitPoints suite (colluderPoly x k), fun i => Spec.polyEval (colluderPoly x k) (i.toNat : Fp)⟩

theorem resharingDeal_accepted (x : Unit × reshareView) :
    Spec.ReshareAccepted suite [1, 2, 3, 4] [1, 3] [1, 3] 2 (resharingDeal x) := by
  intro k _ _
  unfold resharingDeal
  refine ⟨?_, fun i _ => (pointEval_commitPoints suite _ _).symm⟩
  simp only [commitPoints_length]
  unfold colluderPoly
  split <;> rfl

theorem resharing_dealers (k : U32) : k ∈ ([1, 3] : List U32) ↔ k ∈ ([1, 2, 3, 4] : List U32) ∧ k ∉ colluders := by
  unfold colluders
  constructor
  · intro h
    rcases List.mem_cons.mp h with rfl | h
    · decide
    · obtain rfl := List.mem_singleton.mp h
      decide
  · rintro ⟨h, h'⟩
    simp only [List.mem_cons, List.not_mem_nil, or_false] at h h' ⊢
    tauto

/-- In the toy group the group key is the secret. -/
def resharedSecret (x : Unit × reshareView) : Fp := Spec.mobileKey [1, 2, 3, 4] (resharingDeal x) x.2

example [Fintype Fp] : 1 * (1 / ((1 + 1 : ℕ) : ℚ) - 1 / (Fintype.card Fp : ℚ)) ≤
    Spec.chance fun x : (Unit × (Fp × ({j // j ∈ colluders} → Fp)) × ({e // e ∈ ([1, 3] : List U32)} →
        {j // j ∈ ([6] : List U32)} → Fp)) × (Fin (1 + 1) → Fp) × (Fin (1 + 1) → Fp) =>
      Spec.mobileSolve suite [1, 2, 3, 4] colluders [1, 3] [6] [1, 3] 3 1 resharingDeal 1 (openReaders resharedSecret)
        (x.1.2.1.1 • suite.gen) x.1.1 x.1.2.1.2 x.1.2.2 x.2.1 x.2.2 = x.1.2.1.1 := by
  have h := C147_forgery (Ω := Unit) lawful [1, 2, 3, 4] (by decide) colluders (by decide) (by decide) 3 rfl (by decide)
    [1, 3] resharing_dealers [6] (by decide) (by decide) 1 rfl [1, 3] (by decide) (by decide) resharingDeal 1
    (openReaders resharedSecret)
  exact of_chance_one (P := fun f => f * (f / ((1 + 1 : ℕ) : ℚ) - 1 / (Fintype.card Fp : ℚ)) ≤ _) (fun x =>
    ⟨resharingDeal_accepted _, openReaders_win resharedSecret
      (x.1.1, Spec.mobileView suite colluders [1, 3] [6] x.1.2.1 x.1.2.2) x.2⟩) h

example [Fintype Fp] [Fintype U32] :
    1 * (1 / ((3 + 1 : ℕ) : ℚ) - 1 / (Fintype.card Fp : ℚ)) - 2 * ((3 : ℕ) : ℚ) ^ 2 * (([1, 3] : List U32).length : ℚ) /
        (Fintype.card Fp : ℚ) ≤
      Spec.chance fun y : ((Unit × ({j // j ∈ colluders} → Fp) × ({e // e ∈ ([1, 3] : List U32)} →
          {j // j ∈ ([6] : List U32)} → Fp)) × Fp × Spec.Draw Fp (Fp × Fp)) ×
          (Fin (3 + 1) → Spec.Cell Fp (Fp × Fp)) × (Fin (3 + 1) → Spec.Cell Fp (Fp × Fp)) =>
        Spec.Insider.Solves ((moonlighter resharedSecret).afterReshare suite 3 1) suite true [1, 3] 3
          (fun ω X => Spec.mobileKit [1, 2, 3, 4] (Spec.polysOf [1, 3] 2
            (resharingDeal (ω.1, Spec.simulatedMobile suite colluders [1, 3] [6] 3 1 X ω.2.1 ω.2.2))) ω.2.1 ω.2.2)
          y.1.1 y.1.2.1 y.1.2.2 y.2.1 y.2.2 := by
  have h := C147_concurrent_sessions (Ω := Unit) lawful [1, 2, 3, 4] (by decide) colluders (by decide) (by decide) 3 rfl
    (by decide) [1, 3] resharing_dealers [6] (by decide) (by decide) 1 rfl [1, 3] (by decide) (by decide) resharingDeal true 3
    (by norm_num) (moonlighter resharedSecret)
  exact of_chance_one (P := fun f => f * (f / ((3 + 1 : ℕ) : ℚ) - 1 / (Fintype.card Fp : ℚ)) - _ ≤ _) (fun z =>
    ⟨resharingDeal_accepted _, moonlighter_succeeds [1, 3] (by decide) resharedSecret
      (Spec.mobileShare [1, 2, 3, 4] (resharingDeal (z.1.1, Spec.mobileView suite colluders [1, 3] [6] z.1.2.1.1
        z.1.2.1.2)) z.1.2.1.1 z.1.2.1.2)
      (z.1.1, Spec.mobileView suite colluders [1, 3] [6] z.1.2.1.1 z.1.2.1.2) z.1.2.2 z.2⟩) h

/-- Dealer 1 of this resharing, with old key 11. -/
example : ∃ p sh l, reshare suite true ⟨3, 2⟩ ⟨1, Spec.polyEval (List.ofFn ![(2 : Fp), 4, 5]) ((1 : U32).toNat : Fp)⟩
      ([1, 3, 6].map fun i => (⟨i, (5 : Fp) • suite.gen, none, none,
        (nizkProve suite i 5 ((5 : Fp) • suite.gen) 0).1⟩ : Participant Fp Fp)) 4 = .ok (p, sh, l) ∧
    p.commitments = some ⟨1, ((Spec.mobileView suite colluders [1, 3] [6] ![(2 : Fp), 4, 5]
      (fun _ (k : Fin 1) => Spec.scalar suite 4 (2 + k))).2 ⟨1, by decide⟩).1⟩ := by
  have h : (reshare suite true ⟨3, 2⟩ ⟨1, Spec.polyEval (List.ofFn ![(2 : Fp), 4, 5]) ((1 : U32).toNat : Fp)⟩
      ([1, 3, 6].map fun i => (⟨i, (5 : Fp) • suite.gen, none, none,
        (nizkProve suite i 5 ((5 : Fp) • suite.gen) 0).1⟩ : Participant Fp Fp)) 4).isOk = true := by decide +kernel
  cases hr : reshare suite true ⟨3, 2⟩ ⟨1, Spec.polyEval (List.ofFn ![(2 : Fp), 4, 5]) ((1 : U32).toNat : Fp)⟩
      ([1, 3, 6].map fun i => (⟨i, (5 : Fp) • suite.gen, none, none,
        (nizkProve suite i 5 ((5 : Fp) • suite.gen) 0).1⟩ : Participant Fp Fp)) 4 with
  | error e => rw [hr] at h; cases h
  | ok v =>
    obtain ⟨p, sh, l⟩ := v
    exact ⟨p, sh, l, rfl, C147_reshare (E := [1, 3]) true ⟨3, 2⟩ rfl ![(2 : Fp), 4, 5]
      (fun _ (k : Fin 1) => Spec.scalar suite 4 (2 + k)) ⟨1, by decide⟩ _ (by decide) 4 (fun _ => rfl) p sh l hr colluders [6]⟩

/-- The keys of this game are those that the new participant 3 gets. -/
example (w : Fin 3 → Fp) (g : {e // e ∈ ([1, 3] : List U32)} → Fin 1 → Fp) :
    let view := Spec.mobileView suite colluders [1, 3] [6] w g
    (honestState suite ⟨5, 2⟩ [1, 2, 3, 4] (fun k => if h : k ∈ ([1, 3] : List U32) then
      List.ofFn (Spec.reshared w g ⟨k, h⟩) else colluderPoly ((), view) k) 3).finish =
      .ok (Spec.mobileKey [1, 2, 3, 4] (resharingDeal ((), view)) view,
        ⟨3, Spec.mobileShare [1, 2, 3, 4] (resharingDeal ((), view)) w g 3⟩) :=
  C147_keys group_laws u32_inj [1, 2, 3, 4] (by decide) (by decide) colluders [1, 3] [6] [1, 3] (by decide) (by decide)
    _ (resharingDeal_accepted _) w g _ (by show (3 : U32) ∈ [1, 3]; decide) _ (by
      have h := honestState_holds suite ⟨5, 2⟩ (D := [1, 2, 3, 4]) (by decide) (fun k => if h : k ∈ ([1, 3] : List U32) then
        List.ofFn (Spec.reshared w g ⟨k, h⟩) else
          colluderPoly ((), Spec.mobileView suite colluders [1, 3] [6] w g) k) 3
      have e : dealerMap suite [1, 2, 3, 4] (fun k => if h : k ∈ ([1, 3] : List U32) then
        List.ofFn (Spec.reshared w g ⟨k, h⟩) else colluderPoly ((), Spec.mobileView suite colluders [1, 3] [6] w g) k) =
          Spec.mobileMap suite [1, 2, 3, 4] (resharingDeal ((), Spec.mobileView suite colluders [1, 3] [6] w g))
            (Spec.mobileView suite colluders [1, 3] [6] w g) := by
        unfold dealerMap Spec.mobileMap
        congr 1
      rw [e] at h
      exact h)

end Examples

end IceFrost
