import Verif.Props.Documented

/-! # C145: forgers who deal commitments and shares

In C140 and C143 the colluders hand over the polynomials of the other dealers. Here they only do what the protocol lets them
do: publish commitments and send shares to the honest participants, who check them. -/

set_option linter.unusedSectionVars false
set_option linter.unusedSimpArgs false
set_option linter.unusedVariables false

namespace IceFrost

open Finset

variable {F G R : Type} [Field F] [DecidableEq F] [AddCommGroup G] [Module F G] [DecidableEq G]
variable {Ω : Type}

/-- What a dealer publishes and sends: commitments, and a share for every participant. -/
structure Spec.Dealing (F G : Type) where
  points : List G
  shares : U32 → F

/-- The dealings of all dealers but `l` pass the checks of the honest participants `H`: `t` commitments (checked by
`bootstrap`), and shares that agree with them (checked by `to_round_two`). -/
def Spec.Accepted (S : Suite F G R) (D : List U32) (l : U32) (H : List U32) (t : ℕ) (deal : U32 → Spec.Dealing F G) : Prop :=
  ∀ k ∈ D, k ≠ l → (deal k).points.length = t ∧
    ∀ i ∈ H, (deal k).shares i • S.gen = Spec.pointEval (deal k).points (i.toNat : F)

/-- The group key for a view of dealer `l` and the commitments of the other dealers. -/
def Spec.dealtKey (D : List U32) (l : U32) (deal : U32 → Spec.Dealing F G) {V : Type} (view : List G × V) : G :=
  Spec.lagrange (F := F) D l • view.1.headD 0 +
    ∑ k ∈ D.toFinset.erase l, Spec.lagrange (F := F) D k • (deal k).points.headD 0

/-- The key of participant `i` from the polynomial `w` of dealer `l` and the shares from the other dealers. -/
def Spec.dealtShare (D : List U32) (l : U32) (deal : U32 → Spec.Dealing F G) {t : ℕ} (w : Fin t → F) (i : U32) : F :=
  Spec.lagrange D l * Spec.polyEval (List.ofFn w) (i.toNat : F) +
    ∑ k ∈ D.toFinset.erase l, Spec.lagrange D k * (deal k).shares i

/-- The polynomial that a dealing contains, if the shares for `H` are values of one. -/
noncomputable def Spec.Dealing.poly (H : List U32) (t : ℕ) (e : Spec.Dealing F G) : List F :=
  ofPoly t (Lagrange.interpolate H.toFinset (fun i : U32 => (i.toNat : F)) e.shares)

/-- A dealing that passes the checks of `t` participants contains a polynomial. -/
theorem dealing_poly {S : Suite F G R} (hg : S.GroupLaws) (hu : Suite.U32Inj F) (H : List U32) (hH : H.Nodup) (t : ℕ)
    (htH : t ≤ H.length) (e : Spec.Dealing F G) (hl : e.points.length = t)
    (hs : ∀ i ∈ H, e.shares i • S.gen = Spec.pointEval e.points (i.toNat : F)) :
    e.points = commitPoints S (e.poly H t) ∧ ∀ i ∈ H, e.shares i = Spec.polyEval (e.poly H t) (i.toNat : F) := by
  obtain ⟨cs, hcs⟩ : ∃ cs : List F, e.points = commitPoints S cs := by
    obtain ⟨P, sh⟩ := e
    simp only
    clear hl hs
    induction P with
    | nil => exact ⟨[], rfl⟩
    | cons P Ps ih =>
      obtain ⟨cs, h⟩ := ih
      obtain ⟨y, hy⟩ := hg.gen_surj P
      exact ⟨y :: cs, by rw [h, hy]; rfl⟩
  have hlen : cs.length = t := by rw [← hl, hcs, commitPoints_length]
  have hsh : ∀ i ∈ H, e.shares i = Spec.polyEval cs (i.toNat : F) := by
    intro i hi
    have := hs i hi
    rw [hcs, pointEval_commitPoints] at this
    exact hg.gen_inj _ _ this
  have hp : e.poly H t = cs := by
    show ofPoly t (Lagrange.interpolate H.toFinset (u32F F) e.shares) = cs
    rw [← Lagrange.eq_interpolate_of_eval_eq (f := toPoly cs) e.shares (u32F_injOn hu H.toFinset), ← hlen, ofPoly_toPoly]
    · rw [List.toFinset_card_of_nodup hH]
      refine lt_of_lt_of_le (toPoly_degree cs) ?_
      rw [hlen]
      exact_mod_cast htH
    · intro i hi
      rw [toPoly_eval, hsh i (List.mem_toFinset.mp hi)]
      rfl
  rw [hp]
  exact ⟨hcs, hsh⟩

/-- The keys from dealings that pass the checks are those from polynomials. -/
theorem accepted_keys {S : Suite F G R} (hg : S.GroupLaws) (hu : Suite.U32Inj F) (D : List U32) (l : U32) (H : List U32)
    (hH : H.Nodup) (t : ℕ) (htH : t ≤ H.length) (deal : U32 → Spec.Dealing F G) (ha : Spec.Accepted S D l H t deal) :
    (∀ {V : Type} (view : List G × V),
      Spec.dealtKey D l deal view = Spec.keyOfView S D l (fun k => (deal k).poly H t) view) ∧
    ∀ (w : Fin t → F), ∀ i ∈ H, Spec.dealtShare D l deal w i = Spec.shareOfView D l (fun k => (deal k).poly H t) w i := by
  have h : ∀ k ∈ D.toFinset.erase l, (deal k).points = commitPoints S ((deal k).poly H t) ∧
      ∀ i ∈ H, (deal k).shares i = Spec.polyEval ((deal k).poly H t) (i.toNat : F) := by
    intro k hk
    obtain ⟨h1, h2⟩ := ha k (List.mem_toFinset.mp (Finset.mem_of_mem_erase hk)) (Finset.ne_of_mem_erase hk)
    exact dealing_poly hg hu H hH t htH _ h1 h2
  constructor
  · intro V view
    unfold Spec.dealtKey Spec.keyOfView Spec.othersSecret
    rw [sum_smul]
    congr 1
    refine sum_congr rfl fun k hk => ?_
    rw [(h k hk).1, mul_smul]
    congr 1
    beta_reduce
    cases (deal k).poly H t with
    | nil => simp [commitPoints]
    | cons a cs => rfl
  · intro w i hi
    unfold Spec.dealtShare Spec.shareOfView Spec.othersShare
    congr 1
    exact sum_congr rfl fun k hk => by rw [(h k hk).2 i hi]

/-- The commitments on file. -/
def Spec.dealtMap (S : Suite F G R) (D : List U32) (l : U32) {t : ℕ} (w : Fin t → F) (deal : U32 → Spec.Dealing F G) :
    BMap (VssCommitment G) :=
  BMap.ofList (D.map fun k => (k, ⟨k, if k = l then commitPoints S (List.ofFn w) else (deal k).points⟩))

/-- C145: an honest participant that holds verified shares for these commitments gets these keys from `finish`. -/
theorem C145_keys {S : Suite F G R} (hg : S.GroupLaws) (hu : Suite.U32Inj F) {t : ℕ} (ht : t ≠ 0) (D : List U32)
    (hD : D.Nodup) (h0 : 0 ∉ D) (l : U32) (hl : l ∈ D) (H : List U32) (hH : H.Nodup) (htH : t ≤ H.length)
    (deal : U32 → Spec.Dealing F G) (ha : Spec.Accepted S D l H t deal) (J : List U32) (w : Fin t → F) (d : RoundTwo F G)
    (hi : d.state.index ∈ H) (m : BMap (SecretShare F)) (hV : HoldsVerified S d (Spec.dealtMap S D l w deal) m) :
    d.finish = .ok (Spec.dealtKey D l deal (Spec.dealerView S J l w),
      ⟨d.state.index, Spec.dealtShare D l deal w d.state.index⟩) := by
  obtain ⟨h1, h2⟩ := accepted_keys hg hu D l H hH t htH deal ha
  rw [h1, h2 w _ hi]
  refine C143_keys hg hu ht D hD h0 l hl _ (fun k hk hkl h => ht ?_) J w d m ?_
  · have := congrArg List.length h
    unfold Spec.Dealing.poly at this
    rwa [ofPoly_length] at this
  · have : dealerMap S D (Spec.dealtBy l (List.ofFn w) fun k => (deal k).poly H t) = Spec.dealtMap S D l w deal := by
      unfold dealerMap Spec.dealtMap
      congr 1
      refine List.map_congr_left fun k hk => ?_
      unfold Spec.dealtBy
      split_ifs with hkl
      · rfl
      · obtain ⟨h1, h2⟩ := ha k hk hkl
        rw [(dealing_poly hg hu H hH t htH _ h1 h2).1]
    rw [this]
    exact hV

theorem Spec.Attacker.table_congr {Out : Type} (A : Spec.Attacker Ω F Out) (q : ℕ) {final final' : Ω → Out → Spec.Question}
    {ω : Ω} (h : final ω = final' ω) (t : Fin (q + 1) → F) : A.table q final ω t = A.table q final' ω t := by
  unfold Spec.Attacker.table
  have : A.questions q final ω = A.questions q final' ω := by
    funext answers
    unfold Spec.Attacker.questions
    rw [h]
  rw [this]

theorem Spec.Insider.play_keys (B : Spec.Insider Ω F G) (S : Suite F G R) (dbg : Bool) (H : List U32) {key key' : U32 → F}
    (h : ∀ i ∈ H, key i = key' i) (Y : G) (ω : Ω) (c : ℕ → F) (r : ℕ → U32 → F) (u : ℕ → F × F) (k : ℕ) :
    B.play S dbg H key Y ω c r u k = B.play S dbg H key' Y ω c r u k := by
  induction k with
  | zero => rfl
  | succ k ih =>
    rw [Spec.Insider.play_succ, Spec.Insider.play_succ, ih]
    unfold Spec.gameStep
    split
    · rfl
    · rfl
    · rfl
    · split_ifs with hi
      · rw [h _ hi]
      · rfl

/-- The bound of the forking lemma holds for all smaller chances, too. -/
theorem fork_bound_mono {a b N p e X : ℚ} (hN : 0 < N) (hp : 0 ≤ p) (he : 0 ≤ e) (ha : 0 ≤ a) (hab : a ≤ b) (hX : 0 ≤ X)
    (h : b * (b / N - p) - e ≤ X) : a * (a / N - p) - e ≤ X := by
  by_cases hc : a / N - p ≤ 0
  · have := mul_nonpos_of_nonneg_of_nonpos ha hc
    linarith
  · push_neg at hc
    have h1 : a / N ≤ b / N := (div_le_div_iff_of_pos_right hN).mpr hab
    have h2 : a * (a / N - p) ≤ b * (b / N - p) := by
      refine mul_le_mul hab (by linarith) hc.le (ha.trans hab)
    linarith

theorem chance_nonneg {A : Type} [Fintype A] (E : A → Prop) : 0 ≤ Spec.chance E := by
  unfold Spec.chance
  positivity

/-- C145: `t - 1` colluders `J` in a key generation with one honest dealer `l` and at least `t` honest participants `H`.
After seeing the commitments of `l` and their shares they publish commitments for all other dealers and send shares to `H`.
If these pass the checks and the colluders forge a signature for the group key with chance `ε`, then `solve` of C140
computes discrete logarithms of random points with chance at least `ε (ε / (q + 1) - 1 / |F|)`. -/
theorem C145_forgery [Fintype F] [Fintype Ω] [Nonempty Ω] {S : Suite F G R} (hS : S.Lawful) (D : List U32)
    (h0 : 0 ∉ D) (l : U32) (J : List U32) (hJ : J.Nodup) (hJ0 : 0 ∉ J) (t : ℕ) (ht : J.length + 1 = t)
    (H : List U32) (hH : H.Nodup) (htH : t ≤ H.length)
    (deal : Ω × (List G × ({j // j ∈ J} → F)) → U32 → Spec.Dealing F G) (q : ℕ)
    (A : Spec.Attacker (Ω × (List G × ({j // j ∈ J} → F))) F (Bytes × ThresholdSignature F G)) :
    let key : Ω × (List G × ({j // j ∈ J} → F)) → G := fun x => Spec.dealtKey D l (deal x) x.2
    let final := Spec.signatureQuestion S key
    let forged : ℚ := Spec.chance fun x : (Ω × (Fin t → F)) × (Fin (q + 1) → F) =>
      let y := (x.1.1, Spec.dealerView S J l x.1.2)
      Spec.Accepted S D l H t (deal y) ∧
      (A.output q final y x.2).2.verify (Spec.withTable S (A.table q final y x.2)) (key y) (A.output q final y x.2).1 =
        .ok ()
    forged * (forged / ((q + 1 : ℕ) : ℚ) - 1 / (Fintype.card F : ℚ)) ≤
      Spec.chance fun x : (Ω × (F × ({j // j ∈ J} → F))) × (Fin (q + 1) → F) × (Fin (q + 1) → F) =>
        Spec.solve S D l J (fun y k => (deal y k).poly H t) t q A (x.1.2.1 • S.gen) x.1.1 x.1.2.2 x.2.1 x.2.2 =
          x.1.2.1 := by
  intro key final forged
  have h := C140_below_threshold hS D h0 l J hJ hJ0 t ht (fun y k => (deal y k).poly H t) q A
  simp only at h
  rw [← sub_zero (_ * _)] at h ⊢
  refine fork_bound_mono (by positivity) (by positivity) le_rfl (chance_nonneg _) (chance_mono ?_) (chance_nonneg _) h
  rintro ⟨⟨ω, w⟩, g⟩ ⟨hacc, hv⟩
  simp only at hacc hv ⊢
  have hk := (accepted_keys hS.group hS.u32 D l H hH t htH _ hacc).1 (Spec.dealerView S J l w)
  have hf : final (ω, Spec.dealerView S J l w) = Spec.signatureQuestion S (fun x : Ω × (List G × ({j // j ∈ J} → F)) =>
      Spec.keyOfView S D l (fun k => (deal x k).poly H t) x.2) (ω, Spec.dealerView S J l w) := by
    funext o
    show Spec.Question.field _ (_ ++ S.encG (Spec.dealtKey D l _ _) ++ _) = _
    rw [hk]
    rfl
  have htab := A.table_congr q hf g
  unfold Spec.Attacker.output at hv ⊢
  rw [htab] at hv
  have hk' : key (ω, Spec.dealerView S J l w) = _ := hk
  rw [hk'] at hv
  exact hv

/-- C145: the same for colluders who take part in concurrent signing sessions with the honest participants, as in C143. -/
theorem C145_concurrent_sessions [Fintype F] [Fintype U32] [Fintype Ω] [Nonempty Ω] {S : Suite F G R} (hS : S.Lawful)
    (D : List U32) (h0 : 0 ∉ D) (l : U32) (J : List U32) (hJ : J.Nodup) (hJ0 : 0 ∉ J) (t : ℕ) (ht : J.length + 1 = t)
    (H : List U32) (hH : H.Nodup) (htH : t ≤ H.length)
    (deal : Ω × (List G × ({j // j ∈ J} → F)) → U32 → Spec.Dealing F G) (dbg : Bool) (n : ℕ) (hn : n ≤ 2 ^ 63)
    (B : Spec.Insider (Ω × (List G × ({j // j ∈ J} → F))) F G) :
    let forged : ℚ := Spec.chance fun z : (Ω × (Fin t → F) × Spec.Draw F (F × F)) × (Fin (n + 1) → Spec.Cell F (F × F)) =>
      let v := (z.1.1, Spec.dealerView S J l z.1.2.1)
      Spec.Accepted S D l H t (deal v) ∧
      B.Succeeds S dbg H n (Spec.dealtShare D l (deal v) z.1.2.1) (Spec.dealtKey D l (deal v) v.2) v z.1.2.2 z.2
    forged * (forged / ((n + 1 : ℕ) : ℚ) - 1 / (Fintype.card F : ℚ)) -
        2 * (n : ℚ) ^ 2 * (H.length : ℚ) / (Fintype.card F : ℚ) ≤
      Spec.chance fun y : ((Ω × ({j // j ∈ J} → F)) × F × Spec.Draw F (F × F)) × (Fin (n + 1) → Spec.Cell F (F × F)) ×
          (Fin (n + 1) → Spec.Cell F (F × F)) =>
        Spec.Insider.Solves (B.afterView S t) S dbg H n
          (fun ω X => Spec.kitOfView D l J (fun k => (deal (ω.1, Spec.simulatedDealerView S J t X ω.2) k).poly H t) ω.2)
          y.1.1 y.1.2.1 y.1.2.2 y.2.1 y.2.2 := by
  intro forged
  have h := C143_below_threshold hS D h0 l J hJ hJ0 t ht (fun y k => (deal y k).poly H t) dbg H n hn B
  simp only at h
  refine fork_bound_mono (by positivity) (by positivity) (by positivity) (chance_nonneg _) (chance_mono ?_)
    (chance_nonneg _) h
  rintro ⟨⟨ω, w, d⟩, g⟩ ⟨hacc, hv⟩
  simp only at hacc hv ⊢
  obtain ⟨hk, hs⟩ := accepted_keys hS.group hS.u32 D l H hH t htH _ hacc
  unfold Spec.Insider.Succeeds at hv ⊢
  rw [hk, B.play_keys S dbg H (hs w)] at hv
  exact hv

section Examples
open Toy

theorem of_chance_one {A : Type} [Fintype A] [Nonempty A] {E : A → Prop} (hE : ∀ a, E a) {P : ℚ → Prop}
    (h : P (Spec.chance E)) : P 1 := by
  rwa [chance_one hE] at h

/-- Dealings of the dealers other than dealer 1; that of dealer 2 depends on the commitments of dealer 1. -/
def colluderDeal (x : Unit × (List Fp × ({j // j ∈ colluders} → Fp))) (k : U32) : Spec.Dealing Fp Fp :=
  let cs : List Fp := if k = 2 then [7 - x.2.1.headD 0, 1, 2] else [4, 0, 9]
  ⟨commitPoints suite cs, fun i => Spec.polyEval cs (i.toNat : Fp)⟩

theorem colluderDeal_accepted (x : Unit × (List Fp × ({j // j ∈ colluders} → Fp))) :
    Spec.Accepted suite [1, 2, 3] 1 [1, 3, 5] 3 (colluderDeal x) := by
  intro k _ _
  unfold colluderDeal
  refine ⟨?_, fun i _ => (pointEval_commitPoints suite _ _).symm⟩
  simp only [commitPoints_length]
  split <;> rfl

/-- In the toy group they read the group secret off the commitments. -/
def dealtSecret (x : Unit × (List Fp × ({j // j ∈ colluders} → Fp))) : Fp := Spec.dealtKey [1, 2, 3] 1 (colluderDeal x) x.2

/-- Attackers that sign with a key that they know. -/
def openReaders {Ω : Type} (Y : Ω → Fp) : Spec.Attacker Ω Fp (Bytes × ThresholdSignature Fp Fp) where
  ask x _ := .field (suite.contextString ++ strBytes "challenge")
    (suite.encG ((5 : Fp) • suite.gen) ++ suite.encG (Y x) ++ [1, 2])
  result x answers := ([1, 2], ⟨(5 : Fp) • suite.gen, 5 + answers.headD 0 * Y x⟩)

theorem openReaders_win {Ω : Type} (key : Ω → Fp) (x : Ω) (h : Fin (1 + 1) → Fp) :
    let final := Spec.signatureQuestion suite key
    ((openReaders key).output 1 final x h).2.verify (Spec.withTable suite ((openReaders key).table 1 final x h)) (key x)
      ((openReaders key).output 1 final x h).1 = .ok () := by
  intro final
  have hv := verify_experiment suite key 1 (openReaders key) x h
  refine hv.mpr ?_
  have h1 : (openReaders key).output 1 final x h = ([1, 2], ⟨(5 : Fp) • suite.gen, 5 + h 0 * key x⟩) := rfl
  have h2 : (openReaders key).challenge 1 final x h = h 0 := by
    have hm : final x ((openReaders key).output 1 final x h) ∈
        (Spec.oracle ((openReaders key).questions 1 final x) (Spec.tape h) 1).map Prod.fst := by
      rw [h1]
      exact List.mem_singleton.mpr rfl
    unfold Spec.Attacker.challenge
    rw [Spec.Attacker.table_prefix, lookup_append_left hm]
    obtain ⟨k1, k2, -⟩ := oracle_lookup _ _ _ _ hm
    rw [k2, show List.idxOf _ _ = 0 from Nat.lt_one_iff.mp k1]
    rfl
  show Spec.Schnorr suite.gen ((openReaders key).output 1 final x h).2.groupCommitment (key x)
    ((openReaders key).challenge 1 final x h) ((openReaders key).output 1 final x h).2.z
  rw [h1, h2]
  show (5 + h 0 * key x) • suite.gen = (5 : Fp) • suite.gen + h 0 • key x
  rw [add_smul, smul_gen (h 0 * key x)]
  rfl

example [Fintype Fp] : 1 * (1 / ((1 + 1 : ℕ) : ℚ) - 1 / (Fintype.card Fp : ℚ)) ≤
    Spec.chance fun x : (Unit × (Fp × ({j // j ∈ colluders} → Fp))) × (Fin (1 + 1) → Fp) × (Fin (1 + 1) → Fp) =>
      Spec.solve suite [1, 2, 3] 1 colluders (fun y k => (colluderDeal y k).poly [1, 3, 5] 3) 3 1 (openReaders dealtSecret)
        (x.1.2.1 • suite.gen) x.1.1 x.1.2.2 x.2.1 x.2.2 = x.1.2.1 := by
  have h := C145_forgery (Ω := Unit) lawful [1, 2, 3] (by decide) 1 colluders (by decide) (by decide) 3 rfl [1, 3, 5]
    (by decide) (by decide) colluderDeal 1 (openReaders dealtSecret)
  exact of_chance_one (P := fun f => f * (f / ((1 + 1 : ℕ) : ℚ) - 1 / (Fintype.card Fp : ℚ)) ≤ _) (fun x =>
    ⟨colluderDeal_accepted _, openReaders_win dealtSecret (x.1.1, Spec.dealerView suite colluders 1 x.1.2) x.2⟩) h

example [Fintype Fp] [Fintype U32] :
    1 * (1 / ((3 + 1 : ℕ) : ℚ) - 1 / (Fintype.card Fp : ℚ)) - 2 * ((3 : ℕ) : ℚ) ^ 2 * (([1, 3, 5] : List U32).length : ℚ) /
        (Fintype.card Fp : ℚ) ≤
      Spec.chance fun y : ((Unit × ({j // j ∈ colluders} → Fp)) × Fp × Spec.Draw Fp (Fp × Fp)) ×
          (Fin (3 + 1) → Spec.Cell Fp (Fp × Fp)) × (Fin (3 + 1) → Spec.Cell Fp (Fp × Fp)) =>
        Spec.Insider.Solves ((moonlighter dealtSecret).afterView suite 3) suite true [1, 3, 5] 3
          (fun ω X => Spec.kitOfView [1, 2, 3] 1 colluders (fun k => (colluderDeal (ω.1, Spec.simulatedDealerView suite
            colluders 3 X ω.2) k).poly [1, 3, 5] 3) ω.2) y.1.1 y.1.2.1 y.1.2.2 y.2.1 y.2.2 := by
  have h := C145_concurrent_sessions (Ω := Unit) lawful [1, 2, 3] (by decide) 1 colluders (by decide) (by decide) 3 rfl
    [1, 3, 5] (by decide) (by decide) colluderDeal true 3 (by norm_num) (moonlighter dealtSecret)
  exact of_chance_one (P := fun f => f * (f / ((3 + 1 : ℕ) : ℚ) - 1 / (Fintype.card Fp : ℚ)) - _ ≤ _) (fun z =>
    ⟨colluderDeal_accepted _, moonlighter_succeeds [1, 3, 5] (by decide) dealtSecret
      (Spec.dealtShare [1, 2, 3] 1 (colluderDeal (z.1.1, Spec.dealerView suite colluders 1 z.1.2.1)) z.1.2.1)
      (z.1.1, Spec.dealerView suite colluders 1 z.1.2.1) z.1.2.2 z.2⟩) h

/-- The keys of this game are those that participant 5 gets. -/
example (w : Fin 3 → Fp) :
    let view := Spec.dealerView suite colluders 1 w
    (honestState suite ⟨5, 3⟩ [1, 2, 3] (Spec.dealtBy 1 (List.ofFn w) fun k => if k = 2 then [7 - view.1.headD 0, 1, 2]
      else [4, 0, 9]) 5).finish = .ok (Spec.dealtKey [1, 2, 3] 1 (colluderDeal ((), view)) view,
        ⟨5, Spec.dealtShare [1, 2, 3] 1 (colluderDeal ((), view)) w 5⟩) :=
  C145_keys group_laws u32_inj (by decide) [1, 2, 3] (by decide) (by decide) 1 (by decide) [1, 3, 5] (by decide) (by decide)
    _ (colluderDeal_accepted _) colluders w _ (by show (5 : U32) ∈ [1, 3, 5]; decide) _ (by
      have h := honestState_holds suite ⟨5, 3⟩ (D := [1, 2, 3]) (by decide) (Spec.dealtBy 1 (List.ofFn w) fun k => if k = 2
        then [7 - (Spec.dealerView suite colluders 1 w).1.headD 0, 1, 2] else [4, 0, 9]) 5
      have e : dealerMap suite [1, 2, 3] (Spec.dealtBy 1 (List.ofFn w) fun k => if k = 2 then
          [7 - (Spec.dealerView suite colluders 1 w).1.headD 0, 1, 2] else [4, 0, 9]) =
          Spec.dealtMap suite [1, 2, 3] 1 w (colluderDeal ((), Spec.dealerView suite colluders 1 w)) := by
        unfold dealerMap Spec.dealtMap
        congr 1
      rw [e] at h
      exact h)

end Examples

end IceFrost
