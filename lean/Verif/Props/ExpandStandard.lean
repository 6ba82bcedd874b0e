import Verif.Props.RealSuite

/-! # C167, continued: the message expander and the key derivation are those of RFC 9380, RFC 2104 and RFC 5869

The standards define sequences of blocks by their equations; the model computes them in loops. -/

namespace IceFrost

/-- RFC 9380, section 5.3.3: the tag that is hashed, `DST_prime`. -/
def Spec.TagOf (H : Bytes → Bytes) (dst d : Bytes) : Prop :=
  ∃ tag : Bytes, d = tag ++ [UInt8.ofNat tag.length] ∧
    (dst.length ≤ 255 → tag = dst) ∧ (256 ≤ dst.length → tag = H (strBytes "H2C-OVERSIZE-DST-" ++ dst))

theorem xmd_blocks_at (H : Bytes → Bytes) (b0 dst : Bytes) (k : ℕ) : ∀ (i : ℕ) (prev : Bytes) (b : ℕ → Bytes),
    b i = prev → (∀ j, i ≤ j → b (j + 1) = H (xmdNext H b0 (b j) (j + 1) dst)) →
    xmdBlocks H b0 dst k (i + 1) prev = (List.range k).map fun j => b (i + 1 + j) := by
  induction k with
  | zero => intros; rfl
  | succ k ih =>
    intro i prev b hb hs
    have h1 : H (xmdNext H b0 prev (i + 1) dst) = b (i + 1) := by rw [hs i le_rfl, hb]
    show H (xmdNext H b0 prev (i + 1) dst) :: xmdBlocks H b0 dst k (i + 1 + 1) (H (xmdNext H b0 prev (i + 1) dst)) = _
    rw [h1, ih (i + 1) (b (i + 1)) b rfl (fun j hj => hs j (by omega)), List.range_succ_eq_map, List.map_cons, List.map_map]
    congr 1
    refine List.map_congr_left fun j _ => ?_
    show b (i + 1 + 1 + j) = b (i + 1 + (j + 1))
    congr 1
    omega

/-- C167: the message expander is `expand_message_xmd` (RFC 9380, section 5.3.1) with `z` zero bytes in front. `b 0` is the
hash of the zeros, the message, the length, a zero byte and the tag; `b 1` that of `b 0`, 1 and the tag; each further block
that of the sum of `b 0` and the last block, its number and the tag. The result is the beginning of `b 1`, `b 2`, ... -/
theorem C167_expander (H : Bytes → Bytes) (len z n : ℕ) (dst msg : Bytes) (hn : n < 2 ^ 16)
    (hl : (n + (len - 1)) / len ≤ 255) :
    ∃ (d : Bytes) (b : ℕ → Bytes), Spec.TagOf H dst d ∧
      b 0 = H (List.replicate z 0 ++ msg ++ [UInt8.ofNat (n / 256), UInt8.ofNat n] ++ [0] ++ d) ∧
      b 1 = H (b 0 ++ [1] ++ d) ∧
      (∀ i, 2 ≤ i → b i = H (List.zipWith (· ^^^ ·) (b 0) (b (i - 1)) ++ [UInt8.ofNat i] ++ d)) ∧
      expandXmd H len z n dst msg = some ((((List.range ((n + (len - 1)) / len)).map fun j => b (j + 1)).flatten).take n) := by
  let b0 := H (xmdFirst H z n dst msg)
  let b : ℕ → Bytes := fun i => Nat.rec b0 (fun j x => H (xmdNext H b0 x (j + 1) dst)) i
  have hb : ∀ j, b (j + 1) = H (xmdNext H b0 (b j) (j + 1) dst) := fun _ => rfl
  refine ⟨dstPrime H dst, b, ?_, ?_, ?_, ?_, ?_⟩
  · unfold dstPrime
    by_cases h : 255 < dst.length
    · rw [if_pos h]
      exact ⟨_, rfl, fun h' => by omega, fun _ => rfl⟩
    · rw [if_neg h]
      exact ⟨_, rfl, fun _ => rfl, fun h' => by omega⟩
  · rfl
  · rfl
  · intro i hi
    obtain ⟨j, rfl⟩ : ∃ j, i = j + 1 := ⟨i - 1, by omega⟩
    rw [hb, xmdNext, if_neg (by omega)]
    rfl
  · unfold expandXmd
    rw [if_neg (by omega)]
    congr 3
    cases hk : (n + (len - 1)) / len with
    | zero => rfl
    | succ k =>
      have hfirst : H (xmdNext H b0 [] 1 dst) = b 1 := rfl
      show H (xmdNext H b0 [] 1 dst) :: xmdBlocks H b0 dst k (1 + 1) (H (xmdNext H b0 [] 1 dst)) = _
      rw [hfirst, xmd_blocks_at H b0 dst k 1 (b 1) b rfl (fun j _ => hb j), List.range_succ_eq_map, List.map_cons, List.map_map]
      congr 1
      refine List.map_congr_left fun j _ => ?_
      show b (1 + 1 + j) = b (j + 1 + 1)
      rw [show 1 + 1 + j = j + 1 + 1 by omega]

/-- C167: `HMAC` (RFC 2104): the key is filled up with zeros to a block of 64 bytes, and added to `0x36` and `0x5c`. -/
theorem C167_hmac (H : Bytes → Bytes) (key msg : Bytes) (hk : key.length ≤ 64) :
    ∃ ipad opad : Bytes, hmac H key msg = H (opad ++ H (ipad ++ msg)) ∧ ipad.length = 64 ∧ opad.length = 64 ∧
      ∀ i < 64, ipad.getD i 0 = key.getD i 0 ^^^ 0x36 ∧ opad.getD i 0 = key.getD i 0 ^^^ 0x5c := by
  have hlen : ∀ c, (hmacPad key c).length = 64 := by
    intro c
    unfold hmacPad
    rw [List.length_map, List.length_append, List.length_replicate]
    omega
  have hat : ∀ (c : UInt8) i, i < 64 → (hmacPad key c).getD i 0 = key.getD i 0 ^^^ c := by
    intro c i hi
    unfold hmacPad
    rw [List.getD_eq_getElem?_getD, List.getElem?_map, List.getD_eq_getElem?_getD]
    by_cases h : i < key.length
    · rw [List.getElem?_append_left h, List.getElem?_eq_getElem h]
      rfl
    · rw [List.getElem?_append_right (by omega), List.getElem?_replicate, if_pos (by omega),
        List.getElem?_eq_none (by omega)]
      rfl
  exact ⟨hmacPad key 0x36, hmacPad key 0x5c, rfl, hlen _, hlen _, fun i hi => ⟨hat _ i hi, hat _ i hi⟩⟩

theorem hkdf_blocks_at (H : Bytes → Bytes) (prk info : Bytes) (k : ℕ) : ∀ (i : ℕ) (T : ℕ → Bytes),
    (∀ j, T (j + 1) = hmac H prk (T j ++ info ++ [UInt8.ofNat (j + 1)])) →
    hkdfBlocks H prk info k (i + 1) (T i) = (List.range k).map fun j => T (i + 1 + j) := by
  induction k with
  | zero => intros; rfl
  | succ k ih =>
    intro i T hT
    show hmac H prk (T i ++ info ++ [UInt8.ofNat (i + 1)]) ::
      hkdfBlocks H prk info k (i + 1 + 1) (hmac H prk (T i ++ info ++ [UInt8.ofNat (i + 1)])) = _
    rw [← hT i, ih (i + 1) T hT, List.range_succ_eq_map, List.map_cons, List.map_map]
    congr 1
    refine List.map_congr_left fun j _ => ?_
    show T (i + 1 + 1 + j) = T (i + 1 + (j + 1))
    congr 1
    omega

/-- C167: `HKDF` (RFC 5869) without salt: the pseudorandom key is the `HMAC` of the key material under 32 zero bytes; each
block is the `HMAC` of the last block, the information and its number; the output is the beginning of the blocks. At most 255
blocks of 32 bytes are given out. -/
theorem C167_hkdf (H : Bytes → Bytes) (ikm info : Bytes) (n : ℕ) :
    (255 * 32 < n → hkdfExpand H (hkdfExtract H ikm) info n = none) ∧
    (n ≤ 255 * 32 → ∃ T : ℕ → Bytes, T 0 = [] ∧
      (∀ i, T (i + 1) = hmac H (hmac H (List.replicate 32 0) ikm) (T i ++ info ++ [UInt8.ofNat (i + 1)])) ∧
      hkdfExpand H (hkdfExtract H ikm) info n =
        some ((((List.range ((n + 31) / 32)).map fun j => T (j + 1)).flatten).take n)) := by
  refine ⟨fun h => if_pos h, fun h => ?_⟩
  let prk := hmac H (List.replicate 32 0) ikm
  let T : ℕ → Bytes := fun i => Nat.rec [] (fun j x => hmac H prk (x ++ info ++ [UInt8.ofNat (j + 1)])) i
  have hT : ∀ j, T (j + 1) = hmac H prk (T j ++ info ++ [UInt8.ofNat (j + 1)]) := fun _ => rfl
  refine ⟨T, rfl, hT, ?_⟩
  unfold hkdfExpand
  rw [if_neg (by omega)]
  congr 3
  have := hkdf_blocks_at H prk info ((n + 31) / 32) 0 T hT
  refine Eq.trans this (List.map_congr_left fun j _ => ?_)
  show T (0 + 1 + j) = T (j + 1)
  rw [show 0 + 1 + j = j + 1 by omega]

/-- The calls of the shipped suite meet the conditions: scalars are made from 48 bytes, keys from 16, and `HMAC` is called
with keys of 32 bytes. -/
example (H : Bytes → Bytes) (hH : ∀ x, (H x).length = 32) (ikm : Bytes) :
    (48 < 2 ^ 16 ∧ (48 + (32 - 1)) / 32 ≤ 255) ∧ 16 ≤ 255 * 32 ∧ (List.replicate 32 (0 : UInt8)).length ≤ 64 ∧
      (hkdfExtract H ikm).length ≤ 64 := by
  refine ⟨by norm_num, by norm_num, by simp, ?_⟩
  show (H _).length ≤ 64
  rw [hH]
  norm_num

end IceFrost
