import Mathlib.Data.Int.CardIntervalMod
import Mathlib.Data.Fintype.Pi
import Mathlib.Algebra.BigOperators.Fin
import Verif.Props.RealSuite
import Verif.Props.Concrete

/-! # C164: hashing to the field is nearly uniform

The theorems on forgeries (C140 and those after it) take the scalars that `hash_to_field` returns as uniform. The code asks
the expander for 128 bits more than a scalar has (`HASH_SEC_PARAM`, `src/lib.rs:1608`, `src/utils.rs:79-85`) and reduces the
bytes modulo the group order. The result is not exactly uniform. Here is how far it is from uniform, for one call and for any
number of calls, and what it means for a forger. -/

set_option linter.unusedSectionVars false
set_option linter.unusedSimpArgs false
set_option linter.unusedVariables false

namespace IceFrost

open Finset

/-! ### Distance of a distribution from the uniform one -/

section
variable {A B : Type} [Fintype A] [Fintype B] [Nonempty A] [Nonempty B]

attribute [local instance] Classical.propDecidable

/-- How far the image of a uniform element of `A` under `f` is from a uniform element of `B`: the sum of the differences of
the chances of all elements. -/
noncomputable def Spec.bias (f : A → B) : ℚ :=
  ∑ b, |Spec.chance (fun a => f a = b) - 1 / (Fintype.card B : ℚ)|

theorem chance_as_average {A : Type} [Fintype A] (E : A → Prop) :
    Spec.chance E = (∑ a, if E a then (1 : ℚ) else 0) / Fintype.card A := by
  unfold Spec.chance
  congr 1
  rw [Finset.sum_boole]

/-- The average of a function with values between 0 and 1 changes by no more than the bias. -/
theorem average_le_bias (f : A → B) (g : B → ℚ) (h0 : ∀ b, 0 ≤ g b) (h1 : ∀ b, g b ≤ 1) :
    |(∑ a, g (f a)) / Fintype.card A - (∑ b, g b) / Fintype.card B| ≤ Spec.bias f := by
  have e1 : (∑ a, g (f a)) / (Fintype.card A : ℚ) = ∑ b, g b * Spec.chance (fun a => f a = b) := by
    have : ∀ a, g (f a) = ∑ b, g b * (if f a = b then (1 : ℚ) else 0) := by
      intro a
      simp only [mul_ite, mul_one, mul_zero, Finset.sum_ite_eq, Finset.mem_univ, if_true]
    rw [Finset.sum_congr rfl fun a _ => this a, Finset.sum_comm, Finset.sum_div]
    refine Finset.sum_congr rfl fun b _ => ?_
    rw [chance_as_average, ← Finset.mul_sum, mul_div_assoc]
  have e2 : (∑ b, g b) / (Fintype.card B : ℚ) = ∑ b, g b * (1 / (Fintype.card B : ℚ)) := by
    rw [← Finset.sum_mul, mul_one_div]
  rw [e1, e2, ← Finset.sum_sub_distrib]
  refine le_trans (Finset.abs_sum_le_sum_abs _ _) (Finset.sum_le_sum fun b _ => ?_)
  rw [← mul_sub, abs_mul, abs_of_nonneg (h0 b)]
  exact mul_le_of_le_one_left (abs_nonneg _) (h1 b)

/-- The chance of a property of a pair is the average over the first component. -/
theorem chance_prod {A X : Type} [Fintype A] [Fintype X] [Nonempty A] [Nonempty X] (E : A × X → Prop) :
    Spec.chance E = (∑ a, Spec.chance fun x => E (a, x)) / Fintype.card A := by
  rw [chance_as_average, Fintype.sum_prod_type, Fintype.card_prod]
  have : ∀ a, (Spec.chance fun x => E (a, x)) = (∑ x, if E (a, x) then (1 : ℚ) else 0) / Fintype.card X :=
    fun a => chance_as_average _
  rw [Finset.sum_congr rfl fun a _ => this a, ← Finset.sum_div, div_div, Nat.cast_mul, mul_comm]

theorem chance_unit {A : Type} [Fintype A] (E : A → Prop) (u : A) (h : ∀ a, a = u) :
    Spec.chance E = if E u then 1 else 0 := by
  have : Unique A := ⟨⟨u⟩, h⟩
  rw [chance_as_average, Fintype.card_unique, Fintype.sum_unique, Nat.cast_one, div_one]
  rw [h default]

/-- Several independent images: the chance of any event changes by no more than the sum of the biases. -/
theorem bias_many (f : A → B) (Q : ℕ) (E : (Fin Q → B) → Prop) :
    |Spec.chance (fun c : Fin Q → A => E fun k => f (c k)) - Spec.chance E| ≤ Q * Spec.bias f := by
  induction Q with
  | zero =>
    rw [chance_unit (fun c : Fin 0 → A => E fun k => f (c k)) Fin.elim0 (fun a => funext fun k => k.elim0),
      chance_unit E Fin.elim0 (fun a => funext fun k => k.elim0)]
    have : (fun k => f ((Fin.elim0 : Fin 0 → A) k)) = Fin.elim0 := funext fun k => k.elim0
    rw [this, sub_self, abs_zero, Nat.cast_zero, zero_mul]
  | succ Q ih =>
    have hA : Spec.chance (fun c : Fin (Q + 1) → A => E fun k => f (c k)) =
        (∑ a, Spec.chance fun c : Fin Q → A => E (Fin.cons (f a) fun k => f (c k))) / Fintype.card A := by
      rw [← chance_equiv (Fin.consEquiv fun _ => A), chance_prod]
      congr 1
      refine Finset.sum_congr rfl fun a _ => chance_congr fun c => ?_
      have : (fun k => f ((Fin.consEquiv fun _ => A) (a, c) k)) = Fin.cons (f a) fun k => f (c k) := by
        funext k
        refine Fin.cases ?_ (fun k => ?_) k <;> rfl
      rw [this]
    have hB : Spec.chance E = (∑ b, Spec.chance fun d : Fin Q → B => E (Fin.cons b d)) / Fintype.card B := by
      rw [← chance_equiv (Fin.consEquiv fun _ => B), chance_prod]
      rfl
    have hM : |(∑ a, Spec.chance fun c : Fin Q → A => E (Fin.cons (f a) fun k => f (c k))) / (Fintype.card A : ℚ) -
        (∑ a, Spec.chance fun d : Fin Q → B => E (Fin.cons (f a) d)) / (Fintype.card A : ℚ)| ≤ Q * Spec.bias f := by
      rw [← sub_div, ← Finset.sum_sub_distrib, abs_div, abs_of_pos (show (0 : ℚ) < Fintype.card A by
        exact_mod_cast Fintype.card_pos), div_le_iff₀ (by exact_mod_cast Fintype.card_pos)]
      refine le_trans (Finset.abs_sum_le_sum_abs _ _) ?_
      refine le_trans (Finset.sum_le_sum fun a _ => ih fun d => E (Fin.cons (f a) d)) ?_
      rw [Finset.sum_const, Finset.card_univ, nsmul_eq_mul, mul_comm]
    have hN := average_le_bias f (fun b => Spec.chance fun d : Fin Q → B => E (Fin.cons b d))
      (fun _ => chance_nonneg _) (fun _ => chance_le_one _)
    rw [hA, hB]
    refine le_trans (abs_sub_le _ _ _) (le_trans (add_le_add hM hN) (le_of_eq ?_))
    rw [Nat.cast_succ, add_mul, one_mul]

/-- The same with further randomness that does not change. -/
theorem bias_with {Ω : Type} [Fintype Ω] [Nonempty Ω] (f : A → B) (Q : ℕ) (E : Ω × (Fin Q → B) → Prop) :
    |Spec.chance (fun x : Ω × (Fin Q → A) => E (x.1, fun k => f (x.2 k))) - Spec.chance E| ≤ Q * Spec.bias f := by
  rw [chance_prod, chance_prod E, ← sub_div, ← Finset.sum_sub_distrib, abs_div, abs_of_pos
    (show (0 : ℚ) < Fintype.card Ω by exact_mod_cast Fintype.card_pos), div_le_iff₀ (by exact_mod_cast Fintype.card_pos)]
  refine le_trans (Finset.abs_sum_le_sum_abs _ _) ?_
  refine le_trans (Finset.sum_le_sum fun ω _ => bias_many f Q fun d => E (ω, d)) ?_
  rw [Finset.sum_const, Finset.card_univ, nsmul_eq_mul, mul_comm]

end

/-! ### Reduction of bytes -/

/-- The bytes of the expander, and the scalar that they are reduced to. -/
def Spec.reduced (q : ℕ) {L : ℕ} (c : Fin L → Fin 256) : ZMod q := (beNat (List.ofFn fun k => UInt8.ofFin (c k)) : ZMod q)

/-- Byte strings of a length and numbers below a power of 256 are the same. -/
theorem beNat_bijective (L : ℕ) : Function.Bijective fun c : Fin L → Fin 256 =>
    (⟨beNat (List.ofFn fun k => UInt8.ofFin (c k)), by
      have := leNat_lt (List.ofFn fun k => UInt8.ofFin (c k)).reverse
      rwa [List.length_reverse, List.length_ofFn] at this⟩ : Fin (256 ^ L)) := by
  rw [Fintype.bijective_iff_injective_and_card]
  refine ⟨fun c c' h => ?_, by rw [Fintype.card_fun, Fintype.card_fin, Fintype.card_fin, Fintype.card_fin]⟩
  have h1 : beNat (List.ofFn fun k => UInt8.ofFin (c k)) = beNat (List.ofFn fun k => UInt8.ofFin (c' k)) :=
    congrArg Fin.val h
  have h2 := congrArg (leBytes L) h1
  unfold beNat at h2
  have h3 : ∀ c : Fin L → Fin 256, leBytes L (leNat (List.ofFn fun k => UInt8.ofFin (c k)).reverse) =
      (List.ofFn fun k => UInt8.ofFin (c k)).reverse := by
    intro c
    have := leBytes_leNat (List.ofFn fun k => UInt8.ofFin (c k)).reverse
    rwa [List.length_reverse, List.length_ofFn] at this
  rw [h3, h3] at h2
  have h4 := List.ofFn_injective (List.reverse_injective h2)
  funext k
  simpa using congrArg UInt8.toFin (congrFun h4 k)

/-- C164: the chance of every scalar differs from that under a uniform choice by at most one part in `256 ^ L`. -/
theorem C164_scalar (q L : ℕ) [NeZero q] (a : ZMod q) :
    |Spec.chance (fun c : Fin L → Fin 256 => Spec.reduced q c = a) - 1 / (q : ℚ)| ≤ 1 / 256 ^ L := by
  have h1 : Spec.chance (fun c : Fin L → Fin 256 => Spec.reduced q c = a) =
      Spec.chance (fun x : Fin (256 ^ L) => ((x.val : ℕ) : ZMod q) = a) :=
    chance_bijective _ (beNat_bijective L) fun x : Fin (256 ^ L) => ((x.val : ℕ) : ZMod q) = a
  have hN : (0 : ℚ) < 256 ^ L := by positivity
  have hq : (0 : ℚ) < q := by exact_mod_cast Nat.pos_of_ne_zero (NeZero.ne q)
  have hcard : ((univ.filter fun x : Fin (256 ^ L) => ((x.val : ℕ) : ZMod q) = a).card) =
      256 ^ L / q + if a.val % q < 256 ^ L % q then 1 else 0 := by
    rw [← Nat.count_modEq_card (256 ^ L) (Nat.pos_of_ne_zero (NeZero.ne q)) a.val, Nat.count_eq_card_filter_range]
    refine Finset.card_bij (fun x _ => x.val) (fun x hx => ?_) (fun x _ y _ h => Fin.ext h) (fun y hy => ?_)
    · rw [Finset.mem_filter] at hx ⊢
      refine ⟨Finset.mem_range.mpr x.isLt, ?_⟩
      rw [← ZMod.natCast_eq_natCast_iff, ZMod.natCast_zmod_val]
      exact hx.2
    · rw [Finset.mem_filter] at hy
      refine ⟨⟨y, Finset.mem_range.mp hy.1⟩, ?_, rfl⟩
      rw [Finset.mem_filter]
      refine ⟨Finset.mem_univ _, ?_⟩
      have := (ZMod.natCast_eq_natCast_iff _ _ _).mpr hy.2
      rwa [ZMod.natCast_zmod_val] at this
  have hval : Spec.chance (fun x : Fin (256 ^ L) => ((x.val : ℕ) : ZMod q) = a) =
      ((256 ^ L / q + if a.val % q < 256 ^ L % q then 1 else 0 : ℕ) : ℚ) / 256 ^ L := by
    rw [← hcard]
    unfold Spec.chance
    rw [Fintype.card_fin, Nat.cast_pow]
    congr!
  rw [h1, hval]
  have hdm : (256 : ℚ) ^ L = q * (256 ^ L / q : ℕ) + (256 ^ L % q : ℕ) := by
    have := Nat.div_add_mod (256 ^ L) q
    exact_mod_cast this.symm
  have hlt : ((256 ^ L % q : ℕ) : ℚ) < q := by exact_mod_cast Nat.mod_lt _ (Nat.pos_of_ne_zero (NeZero.ne q))
  have hge : (0 : ℚ) ≤ ((256 ^ L % q : ℕ) : ℚ) := Nat.cast_nonneg _
  generalize ((256 ^ L % q : ℕ) : ℚ) = r at hdm hlt hge
  have key : ∀ e : ℚ, 0 ≤ e → e ≤ 1 → |(((256 ^ L / q : ℕ) : ℚ) + e) / 256 ^ L - 1 / q| ≤ 1 / 256 ^ L := by
    intro e he0 he1
    generalize ((256 ^ L / q : ℕ) : ℚ) = d at hdm
    generalize (256 : ℚ) ^ L = N at hdm hN
    have : (d + e) / N - 1 / q = (e * q - r) / (N * q) := by
      rw [div_sub_div _ _ hN.ne' hq.ne']
      congr 1
      rw [hdm]
      ring
    rw [this, abs_div, abs_of_pos (mul_pos hN hq), div_le_div_iff₀ (mul_pos hN hq) hN]
    have : |e * q - r| ≤ q := by
      rw [abs_le]
      constructor
      · nlinarith
      · nlinarith
    nlinarith
  split_ifs with hc
  · have := key 1 zero_le_one le_rfl
    exact_mod_cast this
  · have := key 0 le_rfl zero_le_one
    exact_mod_cast this

/-- C164: the bias is there, unless the order divides the number of byte strings: some scalar is not hit with the chance
`1 / q`. -/
theorem C164_not_uniform (q L : ℕ) [NeZero q] (h : ¬ q ∣ 256 ^ L) :
    ∃ a : ZMod q, Spec.chance (fun c : Fin L → Fin 256 => Spec.reduced q c = a) ≠ 1 / (q : ℚ) := by
  by_contra hall
  have h0 := not_not.mp (not_exists.mp hall 0)
  unfold Spec.chance at h0
  have hq : (q : ℚ) ≠ 0 := Nat.cast_ne_zero.mpr (NeZero.ne q)
  rw [Fintype.card_fun, Fintype.card_fin, Fintype.card_fin, Nat.cast_pow, div_eq_div_iff (by positivity) hq, one_mul] at h0
  exact h (Dvd.intro_left _ (by exact_mod_cast h0))

/-- The sum of the differences over all scalars. -/
theorem reduced_bias (q L : ℕ) [NeZero q] : Spec.bias (Spec.reduced q : (Fin L → Fin 256) → ZMod q) ≤ (q : ℚ) / 256 ^ L := by
  unfold Spec.bias
  refine le_trans (Finset.sum_le_sum (g := fun _ => (1 : ℚ) / 256 ^ L) fun a _ => ?_) ?_
  · rw [ZMod.card]
    exact C164_scalar q L a
  · rw [Finset.sum_const, Finset.card_univ, ZMod.card, nsmul_eq_mul, mul_one_div]

/-- C164: `Q` calls on `L` bytes each. Whatever is done with the scalars, in whatever order and together with whatever other
random choices, the chance of any event differs from that under uniform scalars by at most `Q q / 256 ^ L`. -/
theorem C164_calls {Ω : Type} [Fintype Ω] [Nonempty Ω] (q L Q : ℕ) [NeZero q] (E : Ω × (Fin Q → ZMod q) → Prop) :
    |Spec.chance (fun x : Ω × (Fin Q → Fin L → Fin 256) => E (x.1, fun k => Spec.reduced q (x.2 k))) - Spec.chance E| ≤
      Q * (q / 256 ^ L) :=
  le_trans (bias_with _ Q E) (mul_le_mul_of_nonneg_left (reduced_bias q L) (Nat.cast_nonneg _))

/-- C164: with the number of bytes that the hasher of the code takes for a prime field whose order has `b` bits, which is
`(b + 128) / 8` rounded up, the difference is at most `Q / 2 ^ 128`. -/
theorem C164_code {Ω : Type} [Fintype Ω] [Nonempty Ω] (q b Q : ℕ) [NeZero q] (hb : q ≤ 2 ^ b)
    (E : Ω × (Fin Q → ZMod q) → Prop) :
    |Spec.chance (fun x : Ω × (Fin Q → Fin ((b + 128 + 7) / 8) → Fin 256) => E (x.1, fun k => Spec.reduced q (x.2 k))) -
      Spec.chance E| ≤ Q / 2 ^ 128 := by
  refine le_trans (C164_calls q _ Q E) ?_
  rw [div_eq_mul_one_div (Q : ℚ)]
  refine mul_le_mul_of_nonneg_left ?_ (Nat.cast_nonneg _)
  rw [div_le_div_iff₀ (by positivity) (by positivity), one_mul]
  have h : q * 2 ^ 128 ≤ 256 ^ ((b + 128 + 7) / 8) := by
    calc q * 2 ^ 128 ≤ 2 ^ b * 2 ^ 128 := Nat.mul_le_mul_right _ hb
      _ = 2 ^ (b + 128) := (pow_add _ _ _).symm
      _ ≤ 2 ^ (8 * ((b + 128 + 7) / 8)) := Nat.pow_le_pow_right (by norm_num) (by omega)
      _ = 256 ^ ((b + 128 + 7) / 8) := by rw [pow_mul]; norm_num
  exact_mod_cast h

/-- The scalars of the shipped suite come from 48 bytes in this way. -/
theorem C164_shipped (dst m : Bytes) : ∃ c : Fin 48 → Fin 256,
    expandXmd sha256 32 48 48 dst m = some (List.ofFn fun k => UInt8.ofFin (c k)) ∧
    Secp.realField dst m = Spec.reduced Cases.secp256k1Order c := by
  obtain ⟨bs, h, hl⟩ := expand_real dst m
  have hbs : bs = List.ofFn fun k : Fin 48 => UInt8.ofFin ((bs.get (k.cast hl.symm)).toFin) := by
    refine List.ext_get (by simp only [List.length_ofFn]; exact hl) fun n h1 h2 => ?_
    rw [List.get_ofFn]
    rfl
  refine ⟨fun k => (bs.get (k.cast hl.symm)).toFin, ?_, ?_⟩
  · rw [h, ← hbs]
  · unfold Secp.realField Spec.reduced Secp.scalarOf
    rw [← hbs, h]
    rfl

/-- C164: what this means for a forger. In the game of C140 over secp256k1, let the answers of the random oracle be reduced
from 48 uniform bytes instead of being uniform scalars. A chance of forging above `ε + (n + 1) / 2 ^ 128` still yields the
discrete logarithm with the chance that C140 gives for `ε`. -/
theorem C164_forgery {R Ω : Type} [Fintype Ω] [Nonempty Ω] (X : Secp.Parts R) (n : ℕ) (Y : Ω → Secp.Point)
    (A : Spec.Attacker Ω Secp.Fn (Bytes × ThresholdSignature Secp.Fn Secp.Point)) (ε : ℚ) (hε : 0 ≤ ε) :
    let S := Secp.suite X
    let final := Spec.signatureQuestion S Y
    ε + ((n + 1 : ℕ) : ℚ) / 2 ^ 128 ≤ (Spec.chance fun x : Ω × (Fin (n + 1) → Fin 48 → Fin 256) =>
      let ans : Fin (n + 1) → Secp.Fn := fun k => Spec.reduced Cases.secp256k1Order (x.2 k)
      (A.output n final x.1 ans).2.verify (Spec.withTable S (A.table n final x.1 ans)) (Y x.1)
        (A.output n final x.1 ans).1 = .ok ()) →
    ε * (ε / ((n + 1 : ℕ) : ℚ) - 1 / (Fintype.card Secp.Fn : ℚ)) ≤
      Spec.chance fun x : Ω × (Fin (n + 1) → Secp.Fn) × (Fin (n + 1) → Secp.Fn) =>
        A.rewind n final Spec.extractKey x.1 x.2.1 x.2.2 • S.gen = Y x.1 := by
  intro S final hf
  have hcode := C164_code Cases.secp256k1Order 256 (n + 1) (by norm_num [Cases.secp256k1Order])
    (fun x : Ω × (Fin (n + 1) → Secp.Fn) =>
      (A.output n final x.1 x.2).2.verify (Spec.withTable S (A.table n final x.1 x.2)) (Y x.1)
        (A.output n final x.1 x.2).1 = .ok ())
  have hle := (abs_le.mp hcode).2
  have hforge := C140_forgery (C148_codec X) n Y A
  simp only at hforge hf
  generalize hF : (Spec.chance fun x : Ω × (Fin (n + 1) → Secp.Fn) =>
      (A.output n final x.1 x.2).2.verify (Spec.withTable S (A.table n final x.1 x.2)) (Y x.1)
        (A.output n final x.1 x.2).1 = .ok ()) = forged at hle
  have hεf : ε ≤ forged := by
    have h2 := le_trans hf (sub_le_iff_le_add.mp hle)
    linarith
  have hforge' : forged * (forged / ((n + 1 : ℕ) : ℚ) - 1 / (Fintype.card Secp.Fn : ℚ)) ≤
      Spec.chance fun x : Ω × (Fin (n + 1) → Secp.Fn) × (Fin (n + 1) → Secp.Fn) =>
        A.rewind n final Spec.extractKey x.1 x.2.1 x.2.2 • S.gen = Y x.1 := by
    rw [← hF]
    exact hforge
  have hm : (0 : ℚ) < ((n + 1 : ℕ) : ℚ) := by exact_mod_cast Nat.succ_pos n
  by_cases hpos : ε / ((n + 1 : ℕ) : ℚ) - 1 / (Fintype.card Secp.Fn : ℚ) ≤ 0
  · exact le_trans (mul_nonpos_of_nonneg_of_nonpos hε hpos) (chance_nonneg _)
  · refine le_trans ?_ hforge'
    have h1 : ε / ((n + 1 : ℕ) : ℚ) ≤ forged / ((n + 1 : ℕ) : ℚ) := div_le_div_of_nonneg_right hεf hm.le
    exact mul_le_mul hεf (by linarith) (by linarith [not_le.mp hpos]) (le_trans hε hεf)

namespace Examples
open Secp

/-- The order of secp256k1 does not divide a power of 256, so that its scalars are not hit equally often. -/
example : ∃ a : Fn, Spec.chance (fun c : Fin 48 → Fin 256 => Spec.reduced Cases.secp256k1Order c = a) ≠
    1 / (Cases.secp256k1Order : ℚ) :=
  C164_not_uniform _ _ (by norm_num [Cases.secp256k1Order])

/-- Without the 128 extra bits the bound would be worthless: with 32 bytes it is above one half. -/
example : (1 / 2 : ℚ) < (Cases.secp256k1Order : ℚ) / 256 ^ 32 := by norm_num [Cases.secp256k1Order]

/-- Fields of 256 bits: 48 bytes. -/
example : Cases.secp256k1Order ≤ 2 ^ 256 ∧ (256 + 128 + 7) / 8 = 48 := by norm_num [Cases.secp256k1Order]

/-- An attacker on secp256k1 that knows the secret key 9. -/
noncomputable def knowing {R : Type} (X : Parts R) : Spec.Attacker Unit Fn (Bytes × ThresholdSignature Fn Point) where
  ask _ _ := .field ((suite X).contextString ++ strBytes "challenge")
    ((suite X).encG ((5 : Fn) • (suite X).gen) ++ (suite X).encG ((9 : Fn) • (suite X).gen) ++ [1, 2])
  result _ answers := ([1, 2], ⟨(5 : Fn) • (suite X).gen, 5 + answers.headD 0 * 9⟩)

theorem knowing_wins {R : Type} (X : Parts R) (ω : Unit) (h : Fin (1 + 1) → Fn) :
    let final := Spec.signatureQuestion (suite X) fun _ => (9 : Fn) • (suite X).gen
    ((knowing X).output 1 final ω h).2.verify (Spec.withTable (suite X) ((knowing X).table 1 final ω h))
      ((9 : Fn) • (suite X).gen) ((knowing X).output 1 final ω h).1 = .ok () := by
  intro final
  have hv := verify_experiment (suite X) (fun _ : Unit => (9 : Fn) • (suite X).gen) 1 (knowing X) ω h
  refine hv.mpr ?_
  have h1 : (knowing X).output 1 final ω h = ([1, 2], ⟨(5 : Fn) • (suite X).gen, 5 + h 0 * 9⟩) := rfl
  have h2 : (knowing X).challenge 1 final ω h = h 0 := by
    have hm : final ω ((knowing X).output 1 final ω h) ∈
        (Spec.oracle ((knowing X).questions 1 final ω) (Spec.tape h) 1).map Prod.fst := by
      rw [h1]
      exact List.mem_singleton.mpr rfl
    unfold Spec.Attacker.challenge
    rw [Spec.Attacker.table_prefix, lookup_append_left hm]
    obtain ⟨k1, k2, -⟩ := oracle_lookup _ _ _ _ hm
    rw [k2, show List.idxOf _ _ = 0 from Nat.lt_one_iff.mp k1]
    rfl
  show Spec.Schnorr (suite X).gen ((knowing X).output 1 final ω h).2.groupCommitment ((9 : Fn) • (suite X).gen)
    ((knowing X).challenge 1 final ω h) ((knowing X).output 1 final ω h).2.z
  rw [h1, h2]
  unfold Spec.Schnorr
  rw [add_smul, mul_smul]

/-- It wins with reduced bytes as well, and C164 applies to it. -/
example {R : Type} (X : Parts R) :
    (1 / 2 : ℚ) * (1 / 2 / ((1 + 1 : ℕ) : ℚ) - 1 / (Fintype.card Fn : ℚ)) ≤
      Spec.chance fun x : Unit × (Fin (1 + 1) → Fn) × (Fin (1 + 1) → Fn) =>
        (knowing X).rewind 1 (Spec.signatureQuestion (suite X) fun _ => (9 : Fn) • (suite X).gen) Spec.extractKey
          x.1 x.2.1 x.2.2 • (suite X).gen = (9 : Fn) • (suite X).gen := by
  refine C164_forgery (Ω := Unit) X 1 (fun _ => (9 : Fn) • (suite X).gen) (knowing X) (1 / 2) (by norm_num) ?_
  refine le_trans (show _ ≤ (1 : ℚ) by norm_num) (le_of_eq (Eq.symm ?_))
  exact chance_one (A := Unit × (Fin (1 + 1) → Fin 48 → Fin 256)) fun x => knowing_wins X x.1 _

end Examples

end IceFrost
