import Verif.Cases.RealSize
import Mathlib.AlgebraicGeometry.EllipticCurve.Affine.Point
import Mathlib.GroupTheory.Perm.Cycle.Type
import Mathlib.Algebra.Module.ZMod
import Mathlib.FieldTheory.Finite.Basic

/-!
# The group of secp256k1

The suite that the crate ships (`src/lib.rs:1637-1666`) is over `ark_secp256k1::Projective`. The curve is not written in
`/repo`; its constants are those of the standard SEC 2. Here it is shown, for the curve `y² = x³ + 7` over the integers
modulo `p` with the group law of Mathlib, that it has exactly the prime number `n` of points of `RealSize`.
-/

set_option linter.unusedSectionVars false
set_option linter.unusedSimpArgs false
set_option linter.unusedVariables false

namespace IceFrost.Secp

open Cases (powMod powMod_eq pratt)

/-- The modulus of the base field. -/
def fieldOrder : ℕ := 0xFFFFFFFFFFFFFFFFFFFFFFFFFFFFFFFFFFFFFFFFFFFFFFFFFFFFFFFEFFFFFC2F

theorem prime_24809 : Nat.Prime 24809 :=
  pratt 6 [2, 2, 2, 7, 443] (by decide +kernel)
    (by simp only [List.forall_mem_cons]; exact ⟨by norm_num, by norm_num, by norm_num, by norm_num, by norm_num, by simp⟩)

theorem prime_13331831 : Nat.Prime 13331831 :=
  pratt 13 [2, 5, 971, 1373] (by decide +kernel)
    (by simp only [List.forall_mem_cons]; exact ⟨by norm_num, by norm_num, by norm_num, by norm_num, by simp⟩)

theorem prime_173378833005251801 : Nat.Prime 173378833005251801 :=
  pratt 6 [2, 2, 2, 5, 5, 2621, 24809, 13331831] (by decide +kernel)
    (by simp only [List.forall_mem_cons]; exact ⟨by norm_num, by norm_num, by norm_num, by norm_num, by norm_num, by norm_num, prime_24809, prime_13331831, by simp⟩)

theorem prime_22149492674086928081353 : Nat.Prime 22149492674086928081353 :=
  pratt 5 [2, 2, 2, 3, 5323, 173378833005251801] (by decide +kernel)
    (by simp only [List.forall_mem_cons]; exact ⟨by norm_num, by norm_num, by norm_num, by norm_num, by norm_num, prime_173378833005251801, by simp⟩)

theorem prime_132896956044521568488119 : Nat.Prime 132896956044521568488119 :=
  pratt 6 [2, 3, 22149492674086928081353] (by decide +kernel)
    (by simp only [List.forall_mem_cons]; exact ⟨by norm_num, by norm_num, prime_22149492674086928081353, by simp⟩)

theorem prime_96557 : Nat.Prime 96557 :=
  pratt 2 [2, 2, 101, 239] (by decide +kernel)
    (by simp only [List.forall_mem_cons]; exact ⟨by norm_num, by norm_num, by norm_num, by norm_num, by simp⟩)

theorem prime_20113 : Nat.Prime 20113 :=
  pratt 10 [2, 2, 2, 2, 3, 419] (by decide +kernel)
    (by simp only [List.forall_mem_cons]; exact ⟨by norm_num, by norm_num, by norm_num, by norm_num, by norm_num, by norm_num, by simp⟩)

theorem prime_1206781 : Nat.Prime 1206781 :=
  pratt 10 [2, 2, 3, 5, 20113] (by decide +kernel)
    (by simp only [List.forall_mem_cons]; exact ⟨by norm_num, by norm_num, by norm_num, by norm_num, prime_20113, by simp⟩)

theorem prime_7240687 : Nat.Prime 7240687 :=
  pratt 3 [2, 3, 1206781] (by decide +kernel)
    (by simp only [List.forall_mem_cons]; exact ⟨by norm_num, by norm_num, prime_1206781, by simp⟩)

theorem prime_41201 : Nat.Prime 41201 :=
  pratt 3 [2, 2, 2, 2, 5, 5, 103] (by decide +kernel)
    (by simp only [List.forall_mem_cons]; exact ⟨by norm_num, by norm_num, by norm_num, by norm_num, by norm_num, by norm_num, by norm_num, by simp⟩)

theorem prime_107590001 : Nat.Prime 107590001 :=
  pratt 3 [2, 2, 2, 2, 5, 5, 5, 5, 7, 29, 53] (by decide +kernel)
    (by simp only [List.forall_mem_cons]; exact ⟨by norm_num, by norm_num, by norm_num, by norm_num, by norm_num, by norm_num, by norm_num, by norm_num, by norm_num, by norm_num, by norm_num, by simp⟩)

theorem prime_255515944373312847190720520512484175977 : Nat.Prime 255515944373312847190720520512484175977 :=
  pratt 3 [2, 2, 2, 7, 7, 11, 1627, 2657, 4423, 41201, 96557, 7240687, 107590001] (by decide +kernel)
    (by simp only [List.forall_mem_cons]; exact ⟨by norm_num, by norm_num, by norm_num, by norm_num, by norm_num, by norm_num, by norm_num, by norm_num, by norm_num, prime_41201, prime_96557, prime_7240687, prime_107590001, by simp⟩)

theorem prime_205115282021455665897114700593932402728804164701536103180137503955397371 :
    Nat.Prime 205115282021455665897114700593932402728804164701536103180137503955397371 :=
  pratt 10 [2, 3, 5, 29, 29, 31, 7723, 132896956044521568488119, 255515944373312847190720520512484175977] (by decide +kernel)
    (by simp only [List.forall_mem_cons]; exact ⟨by norm_num, by norm_num, by norm_num, by norm_num, by norm_num, by norm_num, by norm_num, prime_132896956044521568488119, prime_255515944373312847190720520512484175977, by simp⟩)

theorem fieldOrder_prime : Nat.Prime fieldOrder :=
  pratt 3 [2, 3, 7, 13441, 205115282021455665897114700593932402728804164701536103180137503955397371] (by decide +kernel)
    (by simp only [List.forall_mem_cons]; exact ⟨by norm_num, by norm_num, by norm_num, by norm_num, prime_205115282021455665897114700593932402728804164701536103180137503955397371, by simp⟩)

instance : Fact fieldOrder.Prime := ⟨fieldOrder_prime⟩

/-- The base field. -/
abbrev Fq : Type := ZMod fieldOrder

/-- The curve `y² = x³ + 7`. -/
def curve : WeierstrassCurve.Affine Fq := ⟨0, 0, 0, 0, 7⟩

/-- Its points, with the point at infinity. -/
abbrev Point : Type := curve.Point

theorem natCast_ne_zero (k : ℕ) (h : k % fieldOrder ≠ 0) : ((k : ℕ) : Fq) ≠ 0 := by
  intro e
  rw [ZMod.natCast_eq_zero_iff] at e
  exact h (Nat.mod_eq_zero_of_dvd e)

theorem curve_Δ : curve.Δ ≠ 0 := by
  have : curve.Δ = -((21168 : ℕ) : Fq) := by
    unfold WeierstrassCurve.Δ WeierstrassCurve.b₂ WeierstrassCurve.b₄ WeierstrassCurve.b₆ WeierstrassCurve.b₈ curve
    push_cast
    ring
  rw [this, neg_ne_zero]
  exact natCast_ne_zero _ (by decide +kernel)

theorem on_curve (x y : Fq) : curve.Nonsingular x y ↔ y ^ 2 = x ^ 3 + 7 := by
  rw [← WeierstrassCurve.Affine.equation_iff_nonsingular_of_Δ_ne_zero curve_Δ, WeierstrassCurve.Affine.equation_iff]
  simp [curve]

theorem neg_point (x y : Fq) (h : curve.Nonsingular x y) :
    -(WeierstrassCurve.Affine.Point.some x y h : Point) = .some x (-y) (by rw [on_curve] at h ⊢; rw [neg_sq, h]) := by
  rw [WeierstrassCurve.Affine.Point.neg_some]
  congr 1
  simp [WeierstrassCurve.Affine.negY, curve]

/-! ### Computing with coordinates -/

/-- `-a`. -/
def neg (a : ℕ) : ℕ := fieldOrder - a % fieldOrder

theorem cast_neg (a : ℕ) : ((neg a : ℕ) : Fq) = -(a : Fq) := by
  unfold neg
  rw [Nat.cast_sub (Nat.mod_lt _ fieldOrder_prime.pos).le, CharP.cast_eq_zero, ZMod.natCast_mod, zero_sub]

/-- `1 / a`, by Fermat. -/
def inv (a : ℕ) : ℕ := powMod fieldOrder 256 a (fieldOrder - 2) 1

/-- Doubling of a point that is not of order 2. -/
def dbl (P : ℕ × ℕ) : Option (ℕ × ℕ) :=
  let d := 2 * P.2
  let i := inv (d % fieldOrder)
  if d * i % fieldOrder = 1 then
    let l := 3 * P.1 * P.1 * i % fieldOrder
    let x := (l * l + 2 * neg P.1) % fieldOrder
    some (x, (l * (P.1 + neg x) + neg P.2) % fieldOrder)
  else none

/-- Addition of points with different first coordinates. -/
def add (P Q : ℕ × ℕ) : Option (ℕ × ℕ) :=
  let d := P.1 + neg Q.1
  let i := inv (d % fieldOrder)
  if d * i % fieldOrder = 1 then
    let l := (P.2 + neg Q.2) * i % fieldOrder
    let x := (l * l + neg P.1 + neg Q.1) % fieldOrder
    some (x, (l * (P.1 + neg x) + neg P.2) % fieldOrder)
  else none

/-- Multiples of a point by doubling and adding. -/
def mul (P : ℕ × ℕ) : ℕ → ℕ → Option (ℕ × ℕ)
  | 0, _ => none
  | fuel + 1, e => if e = 1 then some P else
    match mul P fuel (e / 2) with
    | none => none
    | some Q => match dbl Q with
      | none => none
      | some Q2 => if e % 2 = 1 then add Q2 P else some Q2

/-- `P` has the coordinates `a`. -/
def Rep (a : ℕ × ℕ) (P : Point) : Prop :=
  ∃ h : curve.Nonsingular (a.1 : Fq) (a.2 : Fq), P = .some _ _ h

theorem cast_inverse {d i : ℕ} (h : d * i % fieldOrder = 1) : (d : Fq) ≠ 0 ∧ (i : Fq) = (d : Fq)⁻¹ := by
  have e : (d : Fq) * (i : Fq) = 1 := by
    rw [← Nat.cast_mul, ← ZMod.natCast_mod, h, Nat.cast_one]
  have hd : (d : Fq) ≠ 0 := by
    intro h0
    rw [h0, zero_mul] at e
    exact zero_ne_one e
  exact ⟨hd, eq_inv_of_mul_eq_one_right e⟩

theorem point_congr {x x' y y' : Fq} (hx : x = x') (hy : y = y') (h : curve.Nonsingular x y) :
    ∃ h' : curve.Nonsingular x' y', (WeierstrassCurve.Affine.Point.some x y h : Point) = .some x' y' h' := by
  subst hx hy
  exact ⟨h, rfl⟩

theorem dbl_rep {a b : ℕ × ℕ} {P : Point} (hP : Rep a P) (h : dbl a = some b) : Rep b (P + P) := by
  obtain ⟨hn, rfl⟩ := hP
  unfold dbl at h
  simp only at h
  split_ifs at h with hi
  obtain ⟨hd, hinv⟩ := cast_inverse hi
  rw [← Option.some.inj h]
  have hy : (a.2 : Fq) ≠ curve.negY (a.1 : Fq) (a.2 : Fq) := by
    intro e
    apply hd
    have : (a.2 : Fq) = -(a.2 : Fq) := by simpa [WeierstrassCurve.Affine.negY, curve] using e
    push_cast
    linear_combination this
  rw [WeierstrassCurve.Affine.Point.add_self_of_Y_ne hy]
  have hs : curve.slope (a.1 : Fq) (a.1 : Fq) (a.2 : Fq) (a.2 : Fq) = 3 * (a.1 : Fq) * (a.1 : Fq) * (inv (2 * a.2 % fieldOrder) : ℕ) := by
    rw [WeierstrassCurve.Affine.slope_of_Y_ne rfl hy, hinv]
    simp only [WeierstrassCurve.Affine.negY, curve]
    have e1 : 3 * (a.1 : Fq) ^ 2 + 2 * 0 * (a.1 : Fq) + 0 - 0 * (a.2 : Fq) = 3 * (a.1 : Fq) * (a.1 : Fq) := by ring
    have e2 : (a.2 : Fq) - (-(a.2 : Fq) - 0 * (a.1 : Fq) - 0) = ((2 * a.2 : ℕ) : Fq) := by push_cast; ring
    rw [e1, e2, div_eq_mul_inv]
  unfold Rep
  refine point_congr ?_ ?_ _
  · simp only [WeierstrassCurve.Affine.addX, curve]
    rw [show (WeierstrassCurve.Affine.slope (⟨0, 0, 0, 0, 7⟩ : WeierstrassCurve.Affine Fq) _ _ _ _) = _ from hs]
    rw [ZMod.natCast_mod]
    push_cast
    rw [cast_neg, ZMod.natCast_mod]
    push_cast
    ring
  · simp only [WeierstrassCurve.Affine.addY, WeierstrassCurve.Affine.negAddY, WeierstrassCurve.Affine.addX,
      WeierstrassCurve.Affine.negY, curve]
    rw [show (WeierstrassCurve.Affine.slope (⟨0, 0, 0, 0, 7⟩ : WeierstrassCurve.Affine Fq) _ _ _ _) = _ from hs]
    rw [ZMod.natCast_mod]
    push_cast
    rw [cast_neg, cast_neg, ZMod.natCast_mod, ZMod.natCast_mod]
    push_cast
    rw [cast_neg, ZMod.natCast_mod]
    push_cast
    ring

theorem add_rep {a b c : ℕ × ℕ} {P Q : Point} (hP : Rep a P) (hQ : Rep b Q) (h : add a b = some c) : Rep c (P + Q) := by
  obtain ⟨hn, rfl⟩ := hP
  obtain ⟨hn', rfl⟩ := hQ
  unfold add at h
  simp only at h
  split_ifs at h with hi
  obtain ⟨hd, hinv⟩ := cast_inverse hi
  rw [← Option.some.inj h]
  have hx : (a.1 : Fq) ≠ (b.1 : Fq) := by
    intro e
    apply hd
    push_cast
    rw [cast_neg, e, add_neg_cancel]
  rw [WeierstrassCurve.Affine.Point.add_of_X_ne hx]
  have hs : curve.slope (a.1 : Fq) (b.1 : Fq) (a.2 : Fq) (b.2 : Fq) =
      ((a.2 : Fq) - (b.2 : Fq)) * (inv ((a.1 + neg b.1) % fieldOrder) : ℕ) := by
    rw [WeierstrassCurve.Affine.slope_of_X_ne hx, hinv, div_eq_mul_inv]
    push_cast
    rw [cast_neg, sub_eq_add_neg (a.1 : Fq)]
  unfold Rep
  refine point_congr ?_ ?_ _
  · simp only [WeierstrassCurve.Affine.addX, curve]
    rw [show (WeierstrassCurve.Affine.slope (⟨0, 0, 0, 0, 7⟩ : WeierstrassCurve.Affine Fq) _ _ _ _) = _ from hs]
    rw [ZMod.natCast_mod]
    push_cast
    rw [cast_neg, cast_neg, ZMod.natCast_mod]
    push_cast
    rw [cast_neg]
    ring
  · simp only [WeierstrassCurve.Affine.addY, WeierstrassCurve.Affine.negAddY, WeierstrassCurve.Affine.addX,
      WeierstrassCurve.Affine.negY, curve]
    rw [show (WeierstrassCurve.Affine.slope (⟨0, 0, 0, 0, 7⟩ : WeierstrassCurve.Affine Fq) _ _ _ _) = _ from hs]
    rw [ZMod.natCast_mod]
    push_cast
    rw [cast_neg, cast_neg, ZMod.natCast_mod, ZMod.natCast_mod]
    push_cast
    rw [cast_neg, cast_neg, cast_neg, ZMod.natCast_mod]
    push_cast
    rw [cast_neg]
    ring

theorem mul_rep {a : ℕ × ℕ} {P : Point} (hP : Rep a P) (fuel e : ℕ) (b : ℕ × ℕ) (h : mul a fuel e = some b) :
    Rep b (e • P) := by
  induction fuel generalizing e b with
  | zero => cases h
  | succ k ih =>
    rw [mul] at h
    by_cases h1 : e = 1
    · rw [if_pos h1] at h
      rw [h1, one_smul, ← Option.some.inj h]
      exact hP
    · rw [if_neg h1] at h
      split at h
      · cases h
      · next Q hQ =>
        split at h
        · cases h
        · next Q2 hQ2 =>
          have r1 := dbl_rep (ih _ _ hQ) hQ2
          rw [← add_smul] at r1
          by_cases h2 : e % 2 = 1
          · rw [if_pos h2] at h
            have := add_rep r1 hP h
            rw [← succ_nsmul] at this
            rwa [show e / 2 + e / 2 + 1 = e by omega] at this
          · rw [if_neg h2] at h
            rw [← Option.some.inj h]
            rwa [show e / 2 + e / 2 = e by omega] at r1

/-- The coordinates of the generator. -/
def genX : ℕ := 0x79BE667EF9DCBBAC55A06295CE870B07029BFCDB2DCE28D959F2815B16F81798
def genY : ℕ := 0x483ADA7726A3C4655DA4FBFC0E1108A8FD17B448A68554199C47D08FFB10D4B8

theorem gen_on_curve : curve.Nonsingular (genX : Fq) (genY : Fq) := by
  rw [on_curve]
  have : ((genY ^ 2 : ℕ) : Fq) = ((genX ^ 3 + 7 : ℕ) : Fq) := by
    rw [ZMod.natCast_eq_natCast_iff']
    decide +kernel
  push_cast at this
  exact this

/-- The generator. -/
def generator : Point := .some _ _ gen_on_curve

theorem mul_order : mul (genX, genY) 257 (Cases.secp256k1Order - 1) = some (genX, fieldOrder - genY) := by decide +kernel

/-- The generator times the order is the point at infinity. -/
theorem order_smul_gen : Cases.secp256k1Order • generator = 0 := by
  obtain ⟨h, e⟩ := mul_rep (a := (genX, genY)) (P := generator) ⟨gen_on_curve, rfl⟩ _ _ _ mul_order
  have hn : Cases.secp256k1Order = (Cases.secp256k1Order - 1) + 1 := by decide +kernel
  rw [hn, succ_nsmul, e, generator]
  refine WeierstrassCurve.Affine.Point.add_of_Y_eq rfl ?_
  simp only [WeierstrassCurve.Affine.negY, curve]
  rw [Nat.cast_sub (by decide +kernel), CharP.cast_eq_zero]
  ring

theorem addOrderOf_gen : addOrderOf generator = Cases.secp256k1Order :=
  addOrderOf_eq_prime order_smul_gen (by
    intro h
    cases h)

/-! ### The number of points -/

/-- The first coordinate of a point and which of the two roots its second coordinate is: the smaller one or the larger
one as a number. -/
def compress : Point → Option (Fq × Bool)
  | .zero => none
  | .some x y _ => some (x, decide (y.val ≤ (-y).val))

theorem compress_injective : Function.Injective compress := by
  intro P Q h
  match P, Q with
  | .zero, .zero => rfl
  | .zero, .some _ _ _ => cases h
  | .some _ _ _, .zero => cases h
  | .some x y hP, .some x' y' hQ =>
    obtain ⟨hx, hs⟩ := Prod.mk.inj (Option.some.inj h)
    subst hx
    have hy : y = y' ∨ y = -y' := by
      have h1 := (on_curve _ _).mp hP
      have h2 := (on_curve _ _).mp hQ
      exact sq_eq_sq_iff_eq_or_eq_neg.mp (h1.trans h2.symm)
    rcases hy with rfl | rfl
    · rfl
    · rw [neg_neg, decide_eq_decide] at hs
      have e : (-y').val = y'.val := by
        rcases le_total (-y').val y'.val with h | h
        · exact le_antisymm h (hs.mp h)
        · exact le_antisymm (hs.mpr h) h
      have := ZMod.val_injective _ e
      congr 1

noncomputable instance : Fintype Point := Fintype.ofInjective _ compress_injective

theorem card_le : Fintype.card Point ≤ 2 * fieldOrder + 1 := by
  refine (Fintype.card_le_of_injective _ compress_injective).trans (le_of_eq ?_)
  rw [Fintype.card_option, Fintype.card_prod, ZMod.card, Fintype.card_bool, mul_comm]

theorem powMod_one (m fuel a e : ℕ) (h : e < 2 ^ fuel) : powMod m fuel a e 1 = a ^ e % m := by
  rw [powMod_eq m fuel a e 1 h, one_mul]

/-- There is no point of order 2: `-7` is not a cube. -/
theorem no_order_two (P : Point) (h : P + P = 0) : P = 0 := by
  match P with
  | .zero => rfl
  | .some x y hP =>
    exfalso
    have hy : y = 0 := by
      have e : (WeierstrassCurve.Affine.Point.some x y hP : Point) = -.some x y hP := eq_neg_of_add_eq_zero_left h
      rw [neg_point] at e
      have e' : y = -y := (WeierstrassCurve.Affine.Point.some.inj e).2
      have : ((2 : ℕ) : Fq) * y = 0 := by push_cast; linear_combination e'
      exact (mul_eq_zero.mp this).resolve_left (natCast_ne_zero _ (by decide +kernel))
    have hx : x ^ 3 = -((7 : ℕ) : Fq) := by
      have := (on_curve _ _).mp hP
      rw [hy] at this
      push_cast
      linear_combination -this
    have hx0 : x ≠ 0 := by
      rintro rfl
      rw [zero_pow (by norm_num), eq_comm, neg_eq_zero] at hx
      exact natCast_ne_zero _ (by decide +kernel) hx
    have h1 : x ^ (fieldOrder - 1) = 1 := ZMod.pow_card_sub_one_eq_one hx0
    have hd : fieldOrder - 1 = 3 * ((fieldOrder - 1) / 3) := by decide +kernel
    have h1' : ((neg 7 ^ ((fieldOrder - 1) / 3) : ℕ) : Fq) = ((1 : ℕ) : Fq) := by
      have h3 : (x ^ 3) ^ ((fieldOrder - 1) / 3) = 1 := by
        rw [← pow_mul]
        exact (congrArg (fun k => x ^ k) hd).symm.trans h1
      rw [Nat.cast_pow, cast_neg, ← hx]
      exact h3.trans Nat.cast_one.symm
    rw [ZMod.natCast_eq_natCast_iff'] at h1'
    have h2 : powMod fieldOrder 256 (neg 7) ((fieldOrder - 1) / 3) 1 ≠ 1 % fieldOrder := by decide +kernel
    have hlt : (fieldOrder - 1) / 3 < 2 ^ 256 := by decide +kernel
    exact h2 ((powMod_one fieldOrder 256 (neg 7) ((fieldOrder - 1) / 3) hlt).trans h1')

/-- The curve has exactly `n` points. -/
theorem card_points : Fintype.card Point = Cases.secp256k1Order := by
  have hdvd : Cases.secp256k1Order ∣ Fintype.card Point := by
    rw [← addOrderOf_gen]
    exact addOrderOf_dvd_card
  obtain ⟨k, hk⟩ := hdvd
  have hk2 : ¬ 2 ∣ k := by
    intro h
    have : 2 ∣ Fintype.card Point := by rw [hk]; exact h.mul_left _
    obtain ⟨P, hP⟩ := exists_prime_addOrderOf_dvd_card 2 this
    have h2 : P + P = 0 := by
      have := addOrderOf_nsmul_eq_zero P
      rwa [hP, two_nsmul] at this
    rw [no_order_two P h2, addOrderOf_zero] at hP
    cases hP
  have hle := card_le
  rw [hk] at hle
  have hk3 : k < 3 := by
    by_contra h
    push_neg at h
    have h1 : Cases.secp256k1Order * 3 ≤ Cases.secp256k1Order * k := Nat.mul_le_mul_left _ h
    have h2 : 2 * fieldOrder + 1 < Cases.secp256k1Order * 3 := by decide +kernel
    omega
  have hk1 : k = 1 := by
    interval_cases k
    · exact absurd (dvd_zero 2) hk2
    · rfl
    · exact absurd (dvd_refl 2) hk2
  rw [hk, hk1, mul_one]

end IceFrost.Secp
