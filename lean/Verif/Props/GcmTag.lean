import Verif.Lemmas.Ghash
import Verif.Model.AesGcm
import Verif.Props.RealSuite

/-! # C167: the authentication tag, from the bits of the blocks

SP 800-38D: a block of 16 bytes stands for the polynomial whose coefficients are its bits from left to right, the most
significant bit of the first byte being the constant coefficient (section 6.3). The tag is the encrypted first counter
block plus the hash of the ciphertext (sections 6.4 and 7.1). Stated without the numbers that the model computes with. -/

set_option linter.unusedVariables false

namespace IceFrost

open Finset

namespace Spec

/-- Bit `i` of a byte string, counted from the left. -/
def bitAt (bs : Bytes) (i : ℕ) : Bool := (bs.getD (i / 8) 0).toNat.testBit (7 - i % 8)

/-- The element of the field that a block of 16 bytes stands for. -/
noncomputable def blockElement (bs : Bytes) : Gf :=
  ∑ i ∈ range 128, if bitAt bs i then AdjoinRoot.root gcmPoly ^ i else 0

/-- Sixteen bytes of the ciphertext from byte `16 i` on, with zeros behind its end. -/
def ctBlock (ct : Bytes) (i : ℕ) : Bytes := (List.range 16).map fun j => ct.getD (16 * i + j) 0

end Spec

theorem leNat_testBit (bs : Bytes) (q r : ℕ) (hr : r < 8) :
    (leNat bs).testBit (8 * q + r) = (bs.getD q 0).toNat.testBit r := by
  induction bs generalizing q with
  | nil => simp [leNat]
  | cons b bs ih =>
    have hb : b.toNat < 2 ^ 8 := b.toNat_lt
    rw [leNat, add_comm b.toNat, show (256 : ℕ) = 2 ^ 8 from rfl, Nat.testBit_two_pow_mul_add _ hb]
    cases q with
    | zero => rw [if_pos (by omega), Nat.mul_zero, Nat.zero_add]; rfl
    | succ q =>
      rw [if_neg (by omega), show 8 * (q + 1) + r - 8 = 8 * q + r by omega, ih]
      rfl

theorem beNat_testBit (bs : Bytes) (hl : bs.length = 16) (i : ℕ) (hi : i < 128) :
    (beNat bs).testBit (127 - i) = Spec.bitAt bs i := by
  unfold beNat Spec.bitAt
  rw [show 127 - i = 8 * (15 - i / 8) + (7 - i % 8) by omega, leNat_testBit _ _ _ (by omega)]
  congr 2
  rw [List.getD_eq_getElem?_getD, List.getD_eq_getElem?_getD, List.getElem?_reverse (by omega)]
  congr 2
  omega

theorem element_block {bs : Bytes} (hl : bs.length = 16) : Spec.element (beNat bs) = Spec.blockElement bs := by
  rw [Gf.element_sum]
  unfold Spec.blockElement
  refine Finset.sum_congr rfl fun i hi => ?_
  rw [beNat_testBit bs hl i (Finset.mem_range.mp hi)]

theorem blockAt_eq (ct : Bytes) (i : ℕ) : Gf.blockAt ct i = Spec.ctBlock ct i := by
  refine List.ext_getElem (by rw [Gf.blockAt_length]; simp [Spec.ctBlock]) fun j h1 h2 => ?_
  rw [Gf.blockAt_length] at h1
  have : (Gf.blockAt ct i)[j]? = some (ct.getD (16 * i + j) 0) := by
    unfold Gf.blockAt
    rw [List.getElem?_append]
    split
    · next h =>
      rw [List.getElem?_take_of_lt h1, List.getElem?_drop, List.getD_eq_getElem?_getD]
      rw [List.length_take, List.length_drop] at h
      rw [List.getElem?_eq_getElem (by omega)]
      rfl
    · next h =>
      rw [List.length_take, List.length_drop] at h
      rw [List.getElem?_replicate, List.length_take, List.length_drop, if_pos (by omega), List.getD_eq_getElem?_getD,
        List.getElem?_eq_none (by omega)]
      rfl
  rw [List.getElem?_eq_getElem (by rw [Gf.blockAt_length]; exact h1)] at this
  rw [Option.some.inj this]
  simp [Spec.ctBlock]

/-- C167: the tag of AES-GCM (without associated data) as SP 800-38D defines it, for every block cipher `E`. With `H` the
encrypted zero block and `m` the number of blocks, the last one filled up with zeros, the tag stands for the encrypted
block of counter 1, plus the sum over the blocks of the ciphertext times descending powers of `H`, plus `H` times the block
that holds the length in bits in its last eight bytes. -/
theorem C167_tag (E : Bytes → Bytes) (hE : ∀ b, (E b).length = 16) (nonce ct : Bytes) :
    (Gcm.tagWith E nonce ct).length = 16 ∧
    Spec.blockElement (Gcm.tagWith E nonce ct) =
      Spec.blockElement (E (nonce ++ [0, 0, 0, 1])) +
      ((∑ i ∈ range ((ct.length + 15) / 16), Spec.blockElement (Spec.ctBlock ct i) *
          Spec.blockElement (E (List.replicate 16 0)) ^ ((ct.length + 15) / 16 - i + 1)) +
        Spec.blockElement (List.replicate 8 0 ++ (List.range 8).map fun j => UInt8.ofNat (8 * ct.length / 256 ^ (7 - j))) *
          Spec.blockElement (E (List.replicate 16 0))) := by
  have hH := block_lt (hE (List.replicate 16 0))
  have hlen : (Gcm.tagWith E nonce ct).length = 16 := by simp [Gcm.tagWith, Aes.addKey]
  refine ⟨hlen, ?_⟩
  have h1 : beBytes 4 1 = [0, 0, 0, 1] := by decide
  have h2 : beBytes 8 0 ++ beBytes 8 (8 * ct.length) =
      List.replicate 8 0 ++ (List.range 8).map fun j => UInt8.ofNat (8 * ct.length / 256 ^ (7 - j)) := by
    generalize 8 * ct.length = n
    have h0 : beBytes 8 0 = List.replicate 8 0 := by decide
    have h8 : beBytes 8 n = [UInt8.ofNat (n / 256 / 256 / 256 / 256 / 256 / 256 / 256), UInt8.ofNat (n / 256 / 256 / 256 / 256 / 256 / 256),
      UInt8.ofNat (n / 256 / 256 / 256 / 256 / 256), UInt8.ofNat (n / 256 / 256 / 256 / 256), UInt8.ofNat (n / 256 / 256 / 256),
      UInt8.ofNat (n / 256 / 256), UInt8.ofNat (n / 256), UInt8.ofNat n] := rfl
    rw [h0, h8]
    simp only [List.range, List.range.loop, List.map_cons, List.map_nil, Nat.div_div_eq_div_mul]
    norm_num
  have hlb : (beBytes 8 0 ++ beBytes 8 (8 * ct.length)).length = 16 := by simp [beBytes, leBytes_length]
  have htag : Gcm.tagWith E nonce ct = xorBytes (E (nonce ++ beBytes 4 1))
      (beBytes 16 (Gcm.ghash (beNat (E (List.replicate 16 0))) ct)) := addKey_eq _ _ (hE _) (beBytes16_length _)
  rw [← element_block hlen, htag, beNat_xor _ _ (by rw [hE, beBytes16_length]), beNat_block (Gf.ghash_lt hH ct),
    Gf.element_xor, element_block (hE _), h1]
  congr 1
  unfold Gcm.ghash
  rw [Gf.element_mul _ hH, Gf.element_xor, Gf.element_ghashLoop hH, Gf.element_zero, zero_mul, zero_add, add_mul,
    Finset.sum_mul, element_block hlb, element_block (hE _), h2]
  congr 1
  refine Finset.sum_congr rfl fun i _ => ?_
  rw [element_block (Gf.blockAt_length ct i), blockAt_eq, pow_succ, mul_assoc]

/-- C167: different blocks stand for different elements, so that `C167_tag` fixes the tag. -/
theorem C167_tag_fixed (a b : Bytes) (ha : a.length = 16) (hb : b.length = 16)
    (h : Spec.blockElement a = Spec.blockElement b) : a = b := by
  rw [← element_block ha, ← element_block hb] at h
  exact beNat_inj (ha.trans hb.symm) (Gf.element_injective (block_lt ha) (block_lt hb) h)

theorem flatten_getElem {l : List Bytes} (h : ∀ b ∈ l, b.length = 16) (j : ℕ) :
    l.flatten[j]? = l[j / 16]?.bind fun b => b[j % 16]? := by
  induction l generalizing j with
  | nil => simp
  | cons b l ih =>
    have hb : b.length = 16 := h b (List.mem_cons_self ..)
    rw [List.flatten_cons, List.getElem?_append, hb]
    split
    · next hj => rw [Nat.div_eq_of_lt hj, Nat.mod_eq_of_lt hj]; rfl
    · next hj =>
      rw [ih (fun c hc => h c (List.mem_cons_of_mem _ hc)), show j / 16 = (j - 16) / 16 + 1 by omega,
        show j % 16 = (j - 16) % 16 by omega]
      rfl

/-- C167: the key stream of AES-GCM. Byte `j` comes from block `j / 16`, which is the encryption of the nonce followed by
the number of the block plus 2, in four bytes with the most significant one first (sections 6.5 and 7.1). -/
theorem C167_stream (E : Bytes → Bytes) (hE : ∀ b, (E b).length = 16) (nonce : Bytes) (k : ℕ) :
    (Gcm.streamWith E nonce k).length = k ∧ ∀ j < k, (Gcm.streamWith E nonce k)[j]? =
      (E (nonce ++ (List.range 4).map fun r => UInt8.ofNat ((j / 16 + 2) / 256 ^ (3 - r))))[j % 16]? := by
  have hbe : ∀ n, beBytes 4 n = (List.range 4).map fun r => UInt8.ofNat (n / 256 ^ (3 - r)) := by
    intro n
    have h4 : beBytes 4 n = [UInt8.ofNat (n / 256 / 256 / 256), UInt8.ofNat (n / 256 / 256), UInt8.ofNat (n / 256),
      UInt8.ofNat n] := rfl
    rw [h4]
    simp only [List.range, List.range.loop, List.map_cons, List.map_nil, Nat.div_div_eq_div_mul]
    norm_num
  have hl : ∀ b ∈ (List.range ((k + 15) / 16)).map fun i => E (nonce ++ beBytes 4 (i + 2)), b.length = 16 := by
    intro b hb
    obtain ⟨i, -, rfl⟩ := List.mem_map.mp hb
    exact hE _
  have key : ∀ j < k, (Gcm.streamWith E nonce k)[j]? = (E (nonce ++ beBytes 4 (j / 16 + 2)))[j % 16]? := by
    intro j hj
    unfold Gcm.streamWith
    rw [List.getElem?_take_of_lt hj, flatten_getElem hl, List.getElem?_map, List.getElem?_range (by omega)]
    rfl
  refine ⟨?_, fun j hj => by rw [key j hj, hbe]⟩
  by_contra hne
  have hle : (Gcm.streamWith E nonce k).length ≤ k := List.length_take_le _ _
  have := key (Gcm.streamWith E nonce k).length (by omega)
  rw [List.getElem?_eq_none (le_refl _)] at this
  have h16 := List.getElem?_eq_none_iff.mp this.symm
  rw [hE] at h16
  omega

/-- AES-128 with any key, as the suite uses it, is such a cipher. -/
example (key nonce ct : Bytes) := C167_tag (Aes.encrypt key) (aes_length key) nonce ct
example (key nonce : Bytes) := C167_stream (Aes.encrypt key) (aes_length key) nonce 32

/-- A ciphertext of 20 bytes has two blocks, the second one filled up; bits are counted from the left. -/
example : (20 + 15) / 16 = 2 ∧
    Spec.ctBlock (List.replicate 20 7) 1 = [7, 7, 7, 7, 0, 0, 0, 0, 0, 0, 0, 0, 0, 0, 0, 0] ∧
    Spec.bitAt [0x80, 1] 0 = true ∧ Spec.bitAt [0x80, 1] 15 = true ∧ Spec.bitAt [0x80, 1] 7 = false := by decide

end IceFrost
