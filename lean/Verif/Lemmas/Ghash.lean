import Verif.Lemmas.Gf128
import Verif.Lemmas.Base

/-! # The hash of the authentication tag is a polynomial in the subkey -/

set_option linter.unusedSectionVars false
set_option linter.unusedSimpArgs false
set_option linter.unusedVariables false
set_option maxRecDepth 8000

namespace IceFrost

open Polynomial Finset

/-! ### Bytes and numbers -/

theorem beNat_beBytes (k n : ℕ) : beNat (beBytes k n) = n % 256 ^ k := by
  unfold beNat beBytes
  rw [List.reverse_reverse, leNat_leBytes]

theorem beBytes_beNat (bs : Bytes) : beBytes bs.length (beNat bs) = bs := by
  unfold beNat beBytes
  have := leBytes_leNat bs.reverse
  rw [List.length_reverse] at this
  rw [this, List.reverse_reverse]

theorem beNat_lt (bs : Bytes) : beNat bs < 256 ^ bs.length := by
  have := leNat_lt bs.reverse
  rwa [List.length_reverse] at this

theorem beNat_inj {a b : Bytes} (hl : a.length = b.length) (h : beNat a = beNat b) : a = b := by
  rw [← beBytes_beNat a, ← beBytes_beNat b, hl, h]

theorem leNat_append (a b : Bytes) : leNat (a ++ b) = leNat a + 256 ^ a.length * leNat b := by
  induction a with
  | nil => simp [leNat]
  | cons x a ih =>
    rw [List.cons_append]
    simp only [leNat, ih, List.length_cons, pow_succ]
    ring

theorem beNat_append (a b : Bytes) : beNat (a ++ b) = beNat a * 256 ^ b.length + beNat b := by
  unfold beNat
  rw [List.reverse_append, leNat_append, List.length_reverse]
  ring

theorem leNat_xor (a b : Bytes) (h : a.length = b.length) : leNat (xorBytes a b) = leNat a ^^^ leNat b := by
  induction a generalizing b with
  | nil =>
    cases b with
    | nil => rfl
    | cons y b => cases h
  | cons x a ih =>
    cases b with
    | nil => cases h
    | cons y b =>
      have hx := x.toNat_lt
      have hy := y.toNat_lt
      show (x ^^^ y).toNat + 256 * leNat (xorBytes a b) = (x.toNat + 256 * leNat a) ^^^ (y.toNat + 256 * leNat b)
      rw [ih b (Nat.succ.inj h), UInt8.toNat_xor]
      have hxy : x.toNat ^^^ y.toNat < 2 ^ 8 := Nat.xor_lt_two_pow hx hy
      refine Nat.eq_of_testBit_eq fun i => ?_
      rw [Nat.testBit_xor, add_comm (x.toNat ^^^ y.toNat), add_comm x.toNat, add_comm y.toNat, show (256 : ℕ) = 2 ^ 8 from rfl,
        Nat.testBit_two_pow_mul_add _ hxy, Nat.testBit_two_pow_mul_add _ hx, Nat.testBit_two_pow_mul_add _ hy]
      split
      · rw [Nat.testBit_xor]
      · rw [Nat.testBit_xor]

theorem beNat_xor (a b : Bytes) (h : a.length = b.length) : beNat (xorBytes a b) = beNat a ^^^ beNat b := by
  unfold beNat
  rw [← leNat_xor _ _ (by rw [List.length_reverse, List.length_reverse, h])]
  unfold xorBytes
  rw [List.reverse_zipWith h]

theorem addKey_eq (s k : Bytes) (hs : s.length = 16) (hk : k.length = 16) : Aes.addKey s k = xorBytes s k := by
  unfold Aes.addKey xorBytes
  refine List.ext_getElem (by simp [hs, hk]) fun i h1 h2 => ?_
  simp only [List.length_map, List.length_range] at h1
  rw [List.getElem_map, List.getElem_range, List.getElem_zipWith, List.getD_eq_getElem?_getD,
    List.getD_eq_getElem?_getD, List.getElem?_eq_getElem (by omega), List.getElem?_eq_getElem (by omega)]
  rfl

/-- A block of 16 bytes is a number below `2 ^ 128`. -/
theorem block_lt {bs : Bytes} (h : bs.length = 16) : beNat bs < 2 ^ 128 := by
  have := beNat_lt bs
  rw [h] at this
  exact lt_of_lt_of_le this (by norm_num)

theorem beNat_block {n : ℕ} (h : n < 2 ^ 128) : beNat (beBytes 16 n) = n := by
  rw [beNat_beBytes, Nat.mod_eq_of_lt (lt_of_lt_of_le h (by norm_num))]

theorem beBytes16_length (n : ℕ) : (beBytes 16 n).length = 16 := by
  unfold beBytes
  rw [List.length_reverse, leBytes_length]

/-! ### The polynomial of a ciphertext -/

namespace Gf

/-- The block with number `i` of a byte string, filled up with zeros. -/
def blockAt (bs : Bytes) (i : ℕ) : Bytes :=
  (bs.drop (16 * i)).take 16 ++ List.replicate (16 - ((bs.drop (16 * i)).take 16).length) 0

theorem blockAt_length (bs : Bytes) (i : ℕ) : (blockAt bs i).length = 16 := by
  unfold blockAt
  have : ((bs.drop (16 * i)).take 16).length ≤ 16 := List.length_take_le _ _
  rw [List.length_append, List.length_replicate]
  omega

theorem blockAt_drop (bs : Bytes) (i : ℕ) : blockAt (bs.drop 16) i = blockAt bs (i + 1) := by
  unfold blockAt
  rw [List.drop_drop, show 16 + 16 * i = 16 * (i + 1) by ring]

theorem ghashLoop_lt {h : ℕ} (hh : h < 2 ^ 128) (k : ℕ) (bs : Bytes) (y : ℕ) (hy : y < 2 ^ 128) :
    Gcm.ghashLoop h k bs y < 2 ^ 128 := by
  induction k generalizing bs y with
  | zero => exact hy
  | succ k ih => exact ih _ _ (mul_lt _ hh)

theorem element_ghashLoop {h : ℕ} (hh : h < 2 ^ 128) (k : ℕ) (bs : Bytes) (y : ℕ) :
    Spec.element (Gcm.ghashLoop h k bs y) = Spec.element y * Spec.element h ^ k +
      ∑ i ∈ range k, Spec.element (beNat (blockAt bs i)) * Spec.element h ^ (k - i) := by
  induction k generalizing bs y with
  | zero => simp [Gcm.ghashLoop]
  | succ k ih =>
    have hs : Gcm.ghashLoop h (k + 1) bs y = Gcm.ghashLoop h k (bs.drop 16) (Gcm.mul (y ^^^ beNat (blockAt bs 0)) h) := by
      unfold blockAt
      rw [Nat.mul_zero, List.drop_zero]
      rfl
    rw [hs, ih, element_mul _ hh, element_xor, Finset.sum_range_succ']
    have hsum : ∀ i ∈ range k, Spec.element (beNat (blockAt (bs.drop 16) i)) * Spec.element h ^ (k - i) =
        Spec.element (beNat (blockAt bs (i + 1))) * Spec.element h ^ (k + 1 - (i + 1)) := by
      intro i _
      rw [blockAt_drop, Nat.add_sub_add_right]
    rw [Finset.sum_congr rfl hsum, Nat.sub_zero]
    ring

/-- The last block: the length in bits. -/
def lengthBlock (n : ℕ) : ℕ := beNat (beBytes 8 0 ++ beBytes 8 (8 * n))

theorem lengthBlock_eq {n : ℕ} (h : n < 2 ^ 61) : lengthBlock n = 8 * n := by
  unfold lengthBlock
  rw [beNat_append, beNat_beBytes, beNat_beBytes, Nat.zero_mod, Nat.zero_mul, Nat.zero_add, Nat.mod_eq_of_lt]
  exact lt_of_lt_of_le (show 8 * n < 2 ^ 64 by omega) (by norm_num)

/-- The polynomial of a ciphertext. -/
noncomputable def ctPoly (ct : Bytes) : Spec.Gf[X] :=
  (∑ i ∈ range ((ct.length + 15) / 16), C (Spec.element (beNat (blockAt ct i))) * X ^ ((ct.length + 15) / 16 - i + 1)) +
    C (Spec.element (lengthBlock ct.length)) * X

/-- The hash is the value of that polynomial at the subkey. -/
theorem element_ghash {h : ℕ} (hh : h < 2 ^ 128) (ct : Bytes) :
    Spec.element (Gcm.ghash h ct) = (ctPoly ct).eval (Spec.element h) := by
  unfold Gcm.ghash ctPoly
  rw [element_mul _ hh, element_xor, element_ghashLoop hh, element_zero, zero_mul, zero_add, eval_add, eval_finsetSum, eval_mul,
    eval_C, eval_X, add_mul, Finset.sum_mul]
  congr 1
  refine Finset.sum_congr rfl fun i _ => ?_
  rw [eval_mul, eval_C, eval_pow, eval_X, pow_succ, mul_assoc]

theorem ghash_lt {h : ℕ} (hh : h < 2 ^ 128) (ct : Bytes) : Gcm.ghash h ct < 2 ^ 128 := mul_lt _ hh

theorem ctPoly_degree {ct : Bytes} {L : ℕ} (h : ct.length ≤ 16 * L) : (ctPoly ct).natDegree ≤ L + 1 := by
  unfold ctPoly
  refine (natDegree_add_le _ _).trans (max_le ?_ ?_)
  · refine natDegree_sum_le_of_forall_le _ _ fun i _ => ?_
    refine (natDegree_C_mul_X_pow_le _ _).trans ?_
    omega
  · have := natDegree_C_mul_X_pow_le (Spec.element (lengthBlock ct.length)) 1
    rw [pow_one] at this
    omega

theorem ctPoly_coeff (ct : Bytes) (j : ℕ) : (ctPoly ct).coeff j =
    (∑ i ∈ range ((ct.length + 15) / 16), if j = (ct.length + 15) / 16 - i + 1 then Spec.element (beNat (blockAt ct i)) else 0) +
      if j = 1 then Spec.element (lengthBlock ct.length) else 0 := by
  unfold ctPoly
  rw [coeff_add, finsetSum_coeff]
  congr 1
  · refine Finset.sum_congr rfl fun i _ => ?_
    rw [coeff_C_mul_X_pow]
  · rw [coeff_C_mul_X]

theorem ctPoly_coeff_one (ct : Bytes) : (ctPoly ct).coeff 1 = Spec.element (lengthBlock ct.length) := by
  rw [ctPoly_coeff, if_pos rfl, Finset.sum_eq_zero, zero_add]
  intro i hi
  have := Finset.mem_range.mp hi
  rw [if_neg]
  omega

theorem ctPoly_coeff_block (ct : Bytes) (i : ℕ) (hi : i < (ct.length + 15) / 16) :
    (ctPoly ct).coeff ((ct.length + 15) / 16 - i + 1) = Spec.element (beNat (blockAt ct i)) := by
  rw [ctPoly_coeff, if_neg (by omega), add_zero, Finset.sum_eq_single i]
  · rw [if_pos rfl]
  · intro j hj hne
    have := Finset.mem_range.mp hj
    rw [if_neg]
    omega
  · intro h
    exact absurd (Finset.mem_range.mpr hi) h

theorem getElem_blockAt (bs : Bytes) (j : ℕ) (hj : j < bs.length) :
    (blockAt bs (j / 16))[j % 16]'(by rw [blockAt_length]; omega) = bs[j] := by
  unfold blockAt
  have h1 : j % 16 < ((bs.drop (16 * (j / 16))).take 16).length := by
    rw [List.length_take, List.length_drop]
    omega
  rw [List.getElem_append_left h1, List.getElem_take, List.getElem_drop]
  congr 1
  omega

/-- Different ciphertexts have polynomials that differ in more than the constant coefficient. -/
theorem ctPoly_inj {a b : Bytes} (ha : a.length < 2 ^ 61) (hb : b.length < 2 ^ 61)
    (h : ∀ j, 1 ≤ j → (ctPoly a).coeff j = (ctPoly b).coeff j) : a = b := by
  have h1 := h 1 le_rfl
  rw [ctPoly_coeff_one, ctPoly_coeff_one, lengthBlock_eq ha, lengthBlock_eq hb] at h1
  have hl : a.length = b.length := by
    have := element_injective (by omega) (by omega) h1
    omega
  refine List.ext_getElem hl fun j hja hjb => ?_
  have hi : j / 16 < (a.length + 15) / 16 := by omega
  have h2 := h ((a.length + 15) / 16 - j / 16 + 1) (by omega)
  rw [ctPoly_coeff_block a _ hi] at h2
  have h3 := ctPoly_coeff_block b (j / 16) (by omega)
  rw [← hl] at h3
  rw [h3] at h2
  have h4 := element_injective (block_lt (blockAt_length _ _)) (block_lt (blockAt_length _ _)) h2
  have h5 := beNat_inj (by rw [blockAt_length, blockAt_length]) h4
  rw [← getElem_blockAt a j hja, ← getElem_blockAt b j hjb]
  simp only [h5]

end Gf

end IceFrost
