import Verif.Lemmas.PrimeOrder
import Mathlib.NumberTheory.LucasPrimality
import Mathlib.Tactic.NormNum.Prime

/-!
# The hypotheses at real size: the order of secp256k1

The suite used in the documentation and the tests of the crate is secp256k1 (`src/lib.rs:1591-1666`). The order of this
group is not written in `/repo` (it comes from `ark-secp256k1`); it is the constant of the standard SEC 2. It is proved
to be prime by certificates of Pratt, so that scalars modulo it are a field in which the indices differ.
-/

namespace IceFrost.Cases

/-- `acc * a ^ e` modulo `m` by repeated squaring, for `e < 2 ^ fuel`. -/
def powMod (m : Nat) : Nat → Nat → Nat → Nat → Nat
  | 0, _, _, acc => acc % m
  | fuel + 1, a, e, acc => powMod m fuel (a * a % m) (e / 2) (if e % 2 = 1 then acc * a % m else acc)

theorem powMod_eq (m fuel a e acc : Nat) (h : e < 2 ^ fuel) : powMod m fuel a e acc = acc * a ^ e % m := by
  induction fuel generalizing a e acc with
  | zero =>
    have : e = 0 := by simpa using h
    simp [powMod, this]
  | succ k ih =>
    rw [powMod, ih _ _ _ (by rw [pow_succ] at h; omega)]
    have he : e = 2 * (e / 2) + e % 2 := (Nat.div_add_mod e 2).symm
    have hsq : ∀ x, x * (a * a % m) ^ (e / 2) % m = x * a ^ (2 * (e / 2)) % m := fun x => by
      rw [Nat.mul_mod, ← Nat.pow_mod, ← Nat.mul_mod, pow_mul, pow_two]
    rw [hsq]
    split
    · next h1 =>
      conv_rhs => rw [he, h1, pow_succ]
      rw [Nat.mul_mod, Nat.mod_mod, ← Nat.mul_mod]
      congr 1
      ring
    · next h1 =>
      have : e % 2 = 0 := by omega
      conv_rhs => rw [he, this, Nat.add_zero]

/-- A certificate of Pratt: the factors of `p - 1`, which are prime, and a number of multiplicative order `p - 1`. -/
theorem pratt {p : Nat} (g : Nat) (fs : List Nat)
    (h : 1 < p ∧ p < 2 ^ 256 ∧ fs.prod = p - 1 ∧ powMod p 256 g (p - 1) 1 = 1 ∧
      fs.all fun q => powMod p 256 g ((p - 1) / q) 1 != 1)
    (hf : ∀ q ∈ fs, q.Prime) : p.Prime := by
  obtain ⟨h1, hlt, hprod, hone, hall⟩ := h
  have key : ∀ e, e < 2 ^ 256 → ((g : ZMod p) ^ e = 1 ↔ powMod p 256 g e 1 = 1) := by
    intro e he
    rw [powMod_eq _ _ _ _ _ he, one_mul]
    have h2 : ((g ^ e : ℕ) : ZMod p) = ((1 : ℕ) : ZMod p) ↔ g ^ e % p = 1 % p := ZMod.natCast_eq_natCast_iff' _ _ _
    rw [Nat.mod_eq_of_lt h1] at h2
    rw [← h2]
    push_cast
    exact Iff.rfl
  refine lucas_primality p (g : ZMod p) ((key _ (by omega)).mpr hone) fun q hq hd hbad => ?_
  rw [← hprod] at hd
  obtain ⟨a, ha, hqa⟩ := (Prime.dvd_prod_iff hq.prime).mp hd
  have hqe : q = a := (Nat.prime_dvd_prime_iff_eq hq (hf a ha)).mp hqa
  subst hqe
  have h3 := (key _ (lt_of_le_of_lt (Nat.div_le_self _ _) (by omega))).mp hbad
  have h4 := List.all_eq_true.mp hall q ha
  rw [h3] at h4
  exact absurd h4 (by decide)

/-- The number of points of secp256k1. -/
def secp256k1Order : Nat := 0xFFFFFFFFFFFFFFFFFFFFFFFFFFFFFFFEBAAEDCE6AF48A03BBFD25E8CD0364141

theorem prime_4681609 : Nat.Prime 4681609 :=
  pratt 23 [2, 2, 2, 3, 97, 2011] (by decide +kernel)
    (by simp only [List.forall_mem_cons]; exact ⟨by norm_num, by norm_num, by norm_num, by norm_num, by norm_num, by norm_num, by simp⟩)

theorem prime_107361793816595537 : Nat.Prime 107361793816595537 :=
  pratt 3 [2, 2, 2, 2, 16699, 85831, 4681609] (by decide +kernel)
    (by simp only [List.forall_mem_cons]; exact ⟨by norm_num, by norm_num, by norm_num, by norm_num, by norm_num, by norm_num, prime_4681609, by simp⟩)

theorem prime_120233 : Nat.Prime 120233 :=
  pratt 3 [2, 2, 2, 7, 19, 113] (by decide +kernel)
    (by simp only [List.forall_mem_cons]; exact ⟨by norm_num, by norm_num, by norm_num, by norm_num, by norm_num, by norm_num, by simp⟩)

theorem prime_44706919 : Nat.Prime 44706919 :=
  pratt 6 [2, 3, 797, 9349] (by decide +kernel)
    (by simp only [List.forall_mem_cons]; exact ⟨by norm_num, by norm_num, by norm_num, by norm_num, by simp⟩)

theorem prime_174723607534414371449 : Nat.Prime 174723607534414371449 :=
  pratt 3 [2, 2, 2, 17, 59, 4051, 120233, 44706919] (by decide +kernel)
    (by simp only [List.forall_mem_cons]; exact ⟨by norm_num, by norm_num, by norm_num, by norm_num, by norm_num, by norm_num, prime_120233, prime_44706919, by simp⟩)

theorem prime_305873 : Nat.Prime 305873 :=
  pratt 3 [2, 2, 2, 2, 7, 2731] (by decide +kernel)
    (by simp only [List.forall_mem_cons]; exact ⟨by norm_num, by norm_num, by norm_num, by norm_num, by norm_num, by norm_num, by simp⟩)

theorem prime_545358713 : Nat.Prime 545358713 :=
  pratt 5 [2, 2, 2, 41, 59, 28181] (by decide +kernel)
    (by simp only [List.forall_mem_cons]; exact ⟨by norm_num, by norm_num, by norm_num, by norm_num, by norm_num, by norm_num, by simp⟩)

theorem prime_1627771 : Nat.Prime 1627771 :=
  pratt 3 [2, 3, 5, 29, 1871] (by decide +kernel)
    (by simp only [List.forall_mem_cons]; exact ⟨by norm_num, by norm_num, by norm_num, by norm_num, by norm_num, by simp⟩)

theorem prime_297159362677 : Nat.Prime 297159362677 :=
  pratt 2 [2, 2, 3, 3, 11, 461, 1627771] (by decide +kernel)
    (by simp only [List.forall_mem_cons]; exact ⟨by norm_num, by norm_num, by norm_num, by norm_num, by norm_num, by norm_num, prime_1627771, by simp⟩)

theorem prime_29047611873442575647497758179 : Nat.Prime 29047611873442575647497758179 :=
  pratt 2 [2, 293, 305873, 545358713, 297159362677] (by decide +kernel)
    (by simp only [List.forall_mem_cons]; exact ⟨by norm_num, by norm_num, prime_305873, prime_545358713, prime_297159362677, by simp⟩)

theorem prime_341948486974166000522343609283189 : Nat.Prime 341948486974166000522343609283189 :=
  pratt 2 [2, 2, 3, 3, 3, 109, 29047611873442575647497758179] (by decide +kernel)
    (by simp only [List.forall_mem_cons]; exact ⟨by norm_num, by norm_num, by norm_num, by norm_num, by norm_num, by norm_num, prime_29047611873442575647497758179, by simp⟩)

theorem secp256k1_order_prime : Nat.Prime secp256k1Order :=
  pratt 7 [2, 2, 2, 2, 2, 2, 3, 149, 631, 107361793816595537, 174723607534414371449, 341948486974166000522343609283189] (by decide +kernel)
    (by simp only [List.forall_mem_cons]; exact ⟨by norm_num, by norm_num, by norm_num, by norm_num, by norm_num, by norm_num, by norm_num, by norm_num, by norm_num, prime_107361793816595537, prime_174723607534414371449, prime_341948486974166000522343609283189, by simp⟩)

instance : Fact secp256k1Order.Prime := ⟨secp256k1_order_prime⟩

/-- All indices are different scalars of secp256k1. -/
theorem secp256k1_u32 : Suite.U32Inj (ZMod secp256k1Order) := u32Inj_of_large_prime (by decide +kernel)

/-- Any suite over any group of this order satisfies the group laws. -/
theorem secp256k1_group {G R : Type} [AddCommGroup G] [Module (ZMod secp256k1Order) G]
    (hcard : Nat.card G = secp256k1Order) (S : Suite (ZMod secp256k1Order) G R) (hgen : S.gen ≠ 0) : S.GroupLaws :=
  groupLaws_of_prime_order hcard S hgen

end IceFrost.Cases
