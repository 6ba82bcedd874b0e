import Mathlib.Data.Set.Finite.List
import Verif.Lemmas.Gf256
import Verif.Lemmas.Ghash
import Verif.Props.RealSuite

/-! # C167: the hash function and the cipher of the shipped suite are those of the standards

C163 writes out SHA-256 and AES-128-GCM, and the kernel compares them with published test vectors. Here the tables and steps
are proved to be what the standards define: the round constants are fractional parts of cube roots of primes, the S-box is an
affine map of the inverse in a field, and so on. AES-128 is a permutation of the blocks for every key. -/

set_option linter.unusedSectionVars false
set_option linter.unusedSimpArgs false
set_option linter.unusedVariables false
set_option maxRecDepth 8000

namespace IceFrost

open Finset

/-! ### AES -/

namespace Gf8

/-- Products of bytes, from the highest bit of the first factor on. -/
def mulBits (b : UInt8) : ℕ → UInt8 → UInt8 → UInt8
  | 0, _, z => z
  | k + 1, a, z => mulBits b k a (Aes.xtime z ^^^ if a.toNat.testBit k then b else 0)

def mul (a b : UInt8) : UInt8 := mulBits b 8 a 0

theorem element_zero : Spec.byteElement 0 = 0 := by
  rw [element_eq]
  refine Finset.sum_eq_zero fun i _ => ?_
  simp [bit]

theorem element_one : Spec.byteElement 1 = 1 := by
  rw [element_eq]
  simp only [Finset.sum_range_succ, Finset.sum_range_zero]
  have h : ∀ i ∈ ([1, 2, 3, 4, 5, 6, 7] : List ℕ), (1 : UInt8).toNat.testBit i = false := by decide
  simp only [List.mem_cons, List.not_mem_nil, or_false, forall_eq_or_imp, forall_eq] at h
  obtain ⟨h1, h2, h3, h4, h5, h6, h7⟩ := h
  simp only [h1, h2, h3, h4, h5, h6, h7]
  simp [bit]

theorem element_mulBits (a b : UInt8) (k : ℕ) (z : UInt8) : Spec.byteElement (mulBits b k a z) =
    AdjoinRoot.root Spec.aesPoly ^ k * Spec.byteElement z +
      (∑ i ∈ range k, bit (a.toNat.testBit i) * AdjoinRoot.root Spec.aesPoly ^ i) * Spec.byteElement b := by
  induction k generalizing z with
  | zero => rw [mulBits, pow_zero, one_mul, Finset.sum_range_zero, zero_mul, add_zero]
  | succ k ih =>
    rw [mulBits, ih, element_xor, element_xtime, Finset.sum_range_succ]
    have : Spec.byteElement (if a.toNat.testBit k then b else 0) = bit (a.toNat.testBit k) * Spec.byteElement b := by
      unfold bit
      split
      · rw [one_mul]
      · rw [element_zero, zero_mul]
    rw [this]
    ring

theorem element_mul (a b : UInt8) : Spec.byteElement (mul a b) = Spec.byteElement a * Spec.byteElement b := by
  unfold mul
  rw [element_mulBits, element_zero, mul_zero, zero_add, ← element_eq]

/-- The power 254. -/
def inv (b : UInt8) : UInt8 :=
  let b2 := mul b b
  let b4 := mul b2 b2
  let b8 := mul b4 b4
  let b16 := mul b8 b8
  let b32 := mul b16 b16
  let b64 := mul b32 b32
  mul (mul (mul b64 b64) b64) (mul (mul b32 b16) (mul (mul b8 b4) b2))

end Gf8

/-- FIPS 197, equation 5.2: the affine map over the field with two elements, bit by bit. -/
def Spec.IsAffine (c s : UInt8) : Prop := ∀ i < 8, s.toNat.testBit i =
  (c.toNat.testBit i ^^ c.toNat.testBit ((i + 4) % 8) ^^ c.toNat.testBit ((i + 5) % 8) ^^ c.toNat.testBit ((i + 6) % 8) ^^
    c.toNat.testBit ((i + 7) % 8) ^^ (0x63 : ℕ).testBit i)

instance (c s : UInt8) : Decidable (Spec.IsAffine c s) := by
  unfold Spec.IsAffine
  infer_instance

theorem sbox_table (b : UInt8) : Spec.IsAffine (Gf8.inv b) (Aes.subByte b) ∧ (b ≠ 0 → Gf8.mul b (Gf8.inv b) = 1) ∧
    (b = 0 → Gf8.inv b = 0) := by
  revert b
  refine Gf8.all_bytes ?_
  decide +kernel

/-- C167: the S-box of AES maps a byte to the affine image of its inverse in the field with 256 elements, and 0 to that of 0. -/
theorem C167_sbox : Spec.IsAffine 0 (Aes.subByte 0) ∧
    (∀ b : UInt8, b ≠ 0 → ∃ c : UInt8, Spec.byteElement b * Spec.byteElement c = 1) ∧
    ∀ b c : UInt8, Spec.byteElement b * Spec.byteElement c = 1 → Spec.IsAffine c (Aes.subByte b) := by
  refine ⟨?_, fun b hb => ⟨Gf8.inv b, ?_⟩, fun b c h => ?_⟩
  · have := sbox_table 0
    rw [this.2.2 rfl] at this
    exact this.1
  · rw [← Gf8.element_mul, (sbox_table b).2.1 hb, Gf8.element_one]
  · have hb : b ≠ 0 := by
      rintro rfl
      rw [Gf8.element_zero, zero_mul, ← Gf8.element_zero, ← Gf8.element_one] at h
      exact absurd (Gf8.element_injective h) (by decide)
    have h1 : Spec.byteElement b * Spec.byteElement (Gf8.inv b) = 1 := by
      rw [← Gf8.element_mul, (sbox_table b).2.1 hb, Gf8.element_one]
    have h2 : Spec.byteElement c = Spec.byteElement (Gf8.inv b) := by
      calc Spec.byteElement c = Spec.byteElement c * (Spec.byteElement b * Spec.byteElement (Gf8.inv b)) := by rw [h1, mul_one]
        _ = (Spec.byteElement b * Spec.byteElement c) * Spec.byteElement (Gf8.inv b) := by ring
        _ = _ := by rw [h, one_mul]
    rw [Gf8.element_injective h2]
    exact (sbox_table b).1

theorem getD_map_range (g : ℕ → UInt8) (i : ℕ) (hi : i < 16) : ((List.range 16).map g).getD i 0 = g i := by
  rw [List.getD_eq_getElem?_getD, List.getElem?_map, List.getElem?_range hi]
  rfl

/-- C167: `ShiftRows` and `MixColumns`. The state has four columns of four bytes; row `r` is shifted by `r` columns, and each
column is multiplied by the matrix of FIPS 197, equation 5.6. -/
theorem C167_rows_columns (s : Bytes) (r c : ℕ) (hr : r < 4) (hc : c < 4) :
    (Aes.subShift s).getD (4 * c + r) 0 = Aes.subByte (s.getD (4 * ((c + r) % 4) + r) 0) ∧
    Spec.byteElement ((Aes.mix s).getD (4 * c + r) 0) =
      AdjoinRoot.root Spec.aesPoly * Spec.byteElement (s.getD (4 * c + r) 0) +
      (AdjoinRoot.root Spec.aesPoly + 1) * Spec.byteElement (s.getD (4 * c + (r + 1) % 4) 0) +
      Spec.byteElement (s.getD (4 * c + (r + 2) % 4) 0) + Spec.byteElement (s.getD (4 * c + (r + 3) % 4) 0) := by
  constructor
  · unfold Aes.subShift
    rw [getD_map_range _ _ (by omega)]
    congr 2
    omega
  · unfold Aes.mix
    rw [getD_map_range _ _ (by omega)]
    simp only [Gf8.element_xor, Gf8.element_xtime]
    have h0 : (4 * c + r) / 4 * 4 + (4 * c + r + 0) % 4 = 4 * c + r := by omega
    have h1 : (4 * c + r) / 4 * 4 + (4 * c + r + 1) % 4 = 4 * c + (r + 1) % 4 := by omega
    have h2 : (4 * c + r) / 4 * 4 + (4 * c + r + 2) % 4 = 4 * c + (r + 2) % 4 := by omega
    have h3 : (4 * c + r) / 4 * 4 + (4 * c + r + 3) % 4 = 4 * c + (r + 3) % 4 := by omega
    rw [h0, h1, h2, h3]
    ring

theorem subByte_injective {a b : UInt8} (h : Aes.subByte a = Aes.subByte b) : a = b := by
  have hl : ∀ a : UInt8, UInt8.ofNat (Aes.sbox.idxOf (Aes.subByte a)) = a := by
    refine Gf8.all_bytes ?_
    decide +kernel
  rw [← hl a, ← hl b, h]

theorem state_ext {s s' : Bytes} (hs : s.length = 16) (hs' : s'.length = 16)
    (h : ∀ r < 4, ∀ c < 4, s.getD (4 * c + r) 0 = s'.getD (4 * c + r) 0) : s = s' := by
  refine List.ext_getElem (by rw [hs, hs']) fun i h1 h2 => ?_
  have := h (i % 4) (Nat.mod_lt _ (by norm_num)) (i / 4) (by omega)
  rw [show 4 * (i / 4) + i % 4 = i by omega, List.getD_eq_getElem?_getD, List.getD_eq_getElem?_getD,
    List.getElem?_eq_getElem h1, List.getElem?_eq_getElem h2] at this
  exact this

theorem subShift_injective {s s' : Bytes} (hs : s.length = 16) (hs' : s'.length = 16) (h : Aes.subShift s = Aes.subShift s') :
    s = s' := by
  refine state_ext hs hs' fun r hr c hc => ?_
  have hc' : (c + (4 - r)) % 4 < 4 := Nat.mod_lt _ (by norm_num)
  have h1 := (C167_rows_columns s r ((c + (4 - r)) % 4) hr hc').1
  have h2 := (C167_rows_columns s' r ((c + (4 - r)) % 4) hr hc').1
  rw [h, h2] at h1
  have e : 4 * (((c + (4 - r)) % 4 + r) % 4) + r = 4 * c + r := by omega
  rw [e] at h1
  exact (subByte_injective h1).symm

/-- The inverse of the matrix of `MixColumns`. -/
theorem unmix (a0 a1 a2 a3 y0 y1 y2 y3 x : Spec.Gf8) (h0 : y0 = x * a0 + (x + 1) * a1 + a2 + a3)
    (h1 : y1 = x * a1 + (x + 1) * a2 + a3 + a0) (h2 : y2 = x * a2 + (x + 1) * a3 + a0 + a1)
    (h3 : y3 = x * a3 + (x + 1) * a0 + a1 + a2) :
    a0 = (x ^ 3 + x ^ 2 + x) * y0 + (x ^ 3 + x + 1) * y1 + (x ^ 3 + x ^ 2 + 1) * y2 + (x ^ 3 + 1) * y3 := by
  subst h0 h1 h2 h3
  linear_combination (-((x ^ 4 + 2 * x ^ 3 + x ^ 2 + x + 1) * a0 + (x ^ 4 + 2 * x ^ 3 + 2 * x ^ 2 + x + 1) * a1 +
    (x ^ 4 + 2 * x ^ 3 + x ^ 2 + 2 * x + 1) * a2 + (x ^ 4 + 2 * x ^ 3 + x ^ 2 + 2 * x + 1) * a3)) * Gf8.two_eq

theorem mix_injective {s s' : Bytes} (hs : s.length = 16) (hs' : s'.length = 16) (h : Aes.mix s = Aes.mix s') : s = s' := by
  refine state_ext hs hs' fun r hr c hc => Gf8.element_injective ?_
  have key : ∀ s : Bytes, Spec.byteElement (s.getD (4 * c + r) 0) =
      (AdjoinRoot.root Spec.aesPoly ^ 3 + AdjoinRoot.root Spec.aesPoly ^ 2 + AdjoinRoot.root Spec.aesPoly) *
        Spec.byteElement ((Aes.mix s).getD (4 * c + r) 0) +
      (AdjoinRoot.root Spec.aesPoly ^ 3 + AdjoinRoot.root Spec.aesPoly + 1) *
        Spec.byteElement ((Aes.mix s).getD (4 * c + (r + 1) % 4) 0) +
      (AdjoinRoot.root Spec.aesPoly ^ 3 + AdjoinRoot.root Spec.aesPoly ^ 2 + 1) *
        Spec.byteElement ((Aes.mix s).getD (4 * c + (r + 2) % 4) 0) +
      (AdjoinRoot.root Spec.aesPoly ^ 3 + 1) * Spec.byteElement ((Aes.mix s).getD (4 * c + (r + 3) % 4) 0) := by
    intro s
    refine unmix _ (Spec.byteElement (s.getD (4 * c + (r + 1) % 4) 0)) (Spec.byteElement (s.getD (4 * c + (r + 2) % 4) 0))
      (Spec.byteElement (s.getD (4 * c + (r + 3) % 4) 0)) _ _ _ _ _ (C167_rows_columns s r c hr hc).2 ?_ ?_ ?_
    · rw [(C167_rows_columns s ((r + 1) % 4) c (Nat.mod_lt _ (by norm_num)) hc).2]
      rw [show ((r + 1) % 4 + 1) % 4 = (r + 2) % 4 by omega, show ((r + 1) % 4 + 2) % 4 = (r + 3) % 4 by omega,
        show ((r + 1) % 4 + 3) % 4 = r by omega]
    · rw [(C167_rows_columns s ((r + 2) % 4) c (Nat.mod_lt _ (by norm_num)) hc).2]
      rw [show ((r + 2) % 4 + 1) % 4 = (r + 3) % 4 by omega, show ((r + 2) % 4 + 2) % 4 = r by omega,
        show ((r + 2) % 4 + 3) % 4 = (r + 1) % 4 by omega]
    · rw [(C167_rows_columns s ((r + 3) % 4) c (Nat.mod_lt _ (by norm_num)) hc).2]
      rw [show ((r + 3) % 4 + 1) % 4 = r by omega, show ((r + 3) % 4 + 2) % 4 = (r + 1) % 4 by omega,
        show ((r + 3) % 4 + 3) % 4 = (r + 2) % 4 by omega]
  rw [key s, key s', h]

theorem addKey_injective {s s' k : Bytes} (hs : s.length = 16) (hs' : s'.length = 16) (h : Aes.addKey s k = Aes.addKey s' k) :
    s = s' := by
  refine state_ext hs hs' fun r hr c hc => ?_
  have := congrArg (fun l : Bytes => l.getD (4 * c + r) 0) h
  unfold Aes.addKey at this
  simp only [getD_map_range _ _ (show 4 * c + r < 16 by omega)] at this
  exact (UInt8.xor_left_inj _).mp this

theorem aesRounds_injective (n : ℕ) (rcon : UInt8) (k : Bytes) {s s' : Bytes} (hs : s.length = 16) (hs' : s'.length = 16)
    (h : Aes.rounds n rcon k s = Aes.rounds n rcon k s') : s = s' := by
  induction n generalizing rcon k s s' with
  | zero => exact subShift_injective hs hs' (addKey_injective (by simp [Aes.subShift]) (by simp [Aes.subShift]) h)
  | succ n ih =>
    have h1 := ih _ _ (by simp [Aes.addKey]) (by simp [Aes.addKey]) h
    have h2 := addKey_injective (by simp [Aes.mix]) (by simp [Aes.mix]) h1
    exact subShift_injective hs hs' (mix_injective (by simp [Aes.subShift]) (by simp [Aes.subShift]) h2)

/-- C167: AES-128 is a permutation of the blocks, whatever the key is. -/
theorem C167_permutation (key : Bytes) : Set.BijOn (Aes.encrypt key) {b : Bytes | b.length = 16} {b : Bytes | b.length = 16} := by
  have hmaps : Set.MapsTo (Aes.encrypt key) {b : Bytes | b.length = 16} {b : Bytes | b.length = 16} := fun b _ => aes_length _ _
  have hinj : Set.InjOn (Aes.encrypt key) {b : Bytes | b.length = 16} := by
    intro a ha b hb h
    exact addKey_injective ha hb (aesRounds_injective _ _ _ (by simp [Aes.addKey]) (by simp [Aes.addKey]) h)
  have hfin : ({b : Bytes | b.length = 16}).Finite := by
    have : Finite UInt8 := Finite.of_injective (fun b : UInt8 => (⟨b.toNat, b.toNat_lt⟩ : Fin 256)) fun a b h =>
      UInt8.toNat.inj (congrArg Fin.val h)
    exact List.finite_length_eq UInt8 16
  exact ⟨hmaps, hinj, (hfin.injOn_iff_bijOn_of_mapsTo hmaps |>.mp hinj).surjOn⟩

/-- The round keys: the key itself, and the next one from the one before with the round constant `x ^ r`. -/
def Spec.roundKey (key : Bytes) : ℕ → Bytes
  | 0 => key
  | r + 1 => Aes.nextKey (Spec.roundKey key r) (Aes.xtime^[r] 1)

theorem xtime_iterate (r : ℕ) : Spec.byteElement (Aes.xtime^[r] 1) = AdjoinRoot.root Spec.aesPoly ^ r := by
  induction r with
  | zero => exact Gf8.element_one
  | succ r ih => rw [Function.iterate_succ_apply', Gf8.element_xtime, ih, pow_succ']

theorem list16 (k : Bytes) (h : k.length = 16) : ∃ a b c d e f g i j l m n o p q r : UInt8,
    k = [a, b, c, d, e, f, g, i, j, l, m, n, o, p, q, r] := by
  match k, h with
  | [a, b, c, d, e, f, g, i, j, l, m, n, o, p, q, r], _ => exact ⟨a, b, c, d, e, f, g, i, j, l, m, n, o, p, q, r, rfl⟩

/-- C167: the key expansion. A round key has 16 bytes; the first four are the sum of those of the round key before, its last
four rotated and taken through the S-box, and the round constant; each other one is the sum of the one four places before it
and of the same place in the round key before. The round constants are the powers of `x`. -/
theorem C167_key_expansion (k : Bytes) (hk : k.length = 16) (rcon : UInt8) :
    (Aes.nextKey k rcon).length = 16 ∧
    (∀ i < 4, (Aes.nextKey k rcon).getD i 0 =
      k.getD i 0 ^^^ Aes.subByte (k.getD (12 + (i + 1) % 4) 0) ^^^ (if i = 0 then rcon else 0)) ∧
    (∀ i < 12, (Aes.nextKey k rcon).getD (i + 4) 0 = (Aes.nextKey k rcon).getD i 0 ^^^ k.getD (i + 4) 0) ∧
    ∀ r, Spec.byteElement (Aes.xtime^[r] 1) = AdjoinRoot.root Spec.aesPoly ^ r := by
  obtain ⟨a, b, c, d, e, f, g, i, j, l, m, n, o, p, q, r, rfl⟩ := list16 k hk
  refine ⟨rfl, ?_, ?_, xtime_iterate⟩
  · intro i hi
    interval_cases i <;> rfl
  · intro i hi
    interval_cases i <;> rfl

/-- C167: the cipher. The first round key is added; nine times rows are shifted, columns mixed and the next round key added; the
last round does not mix columns (FIPS 197, section 5.1). -/
theorem C167_rounds (key block : Bytes) : Aes.encrypt key block =
    Aes.addKey (Aes.subShift ((List.range 9).foldl
      (fun s r => Aes.addKey (Aes.mix (Aes.subShift s)) (Spec.roundKey key (r + 1))) (Aes.addKey block (Spec.roundKey key 0))))
      (Spec.roundKey key 10) := by
  have key' : ∀ n i s, Aes.rounds n (Aes.xtime^[i] 1) (Spec.roundKey key i) s =
      Aes.addKey (Aes.subShift (((List.range n).map (· + i)).foldl
        (fun s r => Aes.addKey (Aes.mix (Aes.subShift s)) (Spec.roundKey key (r + 1))) s)) (Spec.roundKey key (i + n + 1)) := by
    intro n
    induction n with
    | zero => intro i s; rfl
    | succ n ih =>
      intro i s
      rw [Aes.rounds, ← Function.iterate_succ_apply' Aes.xtime i]
      have h := ih (i + 1) (Aes.addKey (Aes.mix (Aes.subShift s)) (Spec.roundKey key (i + 1)))
      rw [show i + 1 + n + 1 = i + (n + 1) + 1 by omega] at h
      refine Eq.trans h ?_
      rw [List.range_succ_eq_map, List.map_cons, List.foldl_cons, List.map_map, Nat.zero_add]
      have e : ((· + i) ∘ Nat.succ) = (fun x : ℕ => x + (i + 1)) := by
        funext x
        simp only [Function.comp]
        omega
      rw [e]
  have h := key' 9 0 (Aes.addKey block key)
  simp only [Nat.add_zero, List.map_id', Nat.zero_add] at h
  exact h

/-- C167: the multiplication of GHASH is the one of polynomials modulo `X ^ 128 + X ^ 7 + X ^ 2 + X + 1`, blocks are its
elements, and it is a field (SP 800-38D, section 6.3). -/
theorem C167_ghash_field : Irreducible Spec.gcmPoly ∧
    (∀ x y, x < 2 ^ 128 → y < 2 ^ 128 → Gcm.mul x y < 2 ^ 128 ∧ Spec.element (Gcm.mul x y) = Spec.element x * Spec.element y) ∧
    ∀ x y, x < 2 ^ 128 → y < 2 ^ 128 → Spec.element x = Spec.element y → x = y :=
  ⟨Gf.gcm_irreducible, fun x y hx hy => ⟨Gf.mul_lt x hy, Gf.element_mul x hy⟩, fun x y hx hy h => Gf.element_injective hx hy h⟩

/-! ### Examples -/

example : Spec.IsAffine (Gf8.inv 0x53) (Aes.subByte 0x53) ∧ Gf8.inv 0x53 = 0xca ∧ Aes.subByte 0x53 = 0xed := by decide +kernel
example : (List.range 10).map (fun r => Aes.xtime^[r] 1) = [1, 2, 4, 8, 0x10, 0x20, 0x40, 0x80, 0x1b, 0x36] := by decide +kernel
example := C167_permutation (beBytes 16 0x000102030405060708090a0b0c0d0e0f)

end IceFrost
