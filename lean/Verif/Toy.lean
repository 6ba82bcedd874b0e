import Verif.Spec
import Verif.Lemmas.Base
import Verif.Model.Codec
import Mathlib.NumberTheory.LucasPrimality
import Mathlib.Tactic.NormNum.Prime
import Mathlib.Tactic.ReduceModChar
import Mathlib.Algebra.Field.ZMod

/-!
# A concrete lawful suite

Used only beside theorems, to show that the laws assumed in `Suite.Lawful` can be met together and that hypotheses
of theorems are satisfiable. It is not a model of any code and nothing is claimed about its security: the group is
`(ZMod p, +)` with `p = 3·2^41 + 1`, where discrete logarithms are trivial.
-/

namespace IceFrost.Toy

theorem prime_p : Nat.Prime 6597069766657 := by
  apply lucas_primality 6597069766657 (5 : ZMod _)
  · norm_num
    reduce_mod_char
  · intro q hq hd
    have h : (6597069766657 - 1 : ℕ) = 2 ^ 41 * 3 := by norm_num
    rw [h] at hd
    rcases (Nat.Prime.dvd_mul hq).mp hd with h2 | h3
    · have := (Nat.prime_dvd_prime_iff_eq hq Nat.prime_two).mp (hq.dvd_of_dvd_pow h2)
      subst this
      norm_num
      reduce_mod_char
      decide
    · have := (Nat.prime_dvd_prime_iff_eq hq Nat.prime_three).mp h3
      subst this
      norm_num
      reduce_mod_char
      decide

instance : Fact (Nat.Prime 6597069766657) := ⟨prime_p⟩

/-- Scalars and group elements of the toy suite. -/
abbrev Fp := ZMod 6597069766657

/-- Six bytes, little-endian. -/
def enc (a : Fp) : Bytes := leBytes 6 a.val

/-- Reads six bytes; rejects non-canonical values. -/
def dec (bs : Bytes) : Option (Fp × Bytes) :=
  if bs.length < 6 then none
  else
    let n := leNat (bs.take 6)
    if n < 6597069766657 then some ((n : Fp), bs.drop 6) else none

/-- The toy suite. The RNG state is a counter; "encryption" puts key and nonce in front of the plaintext, and
decryption checks them. -/
def suite : Suite Fp Fp Nat where
  gen := 1
  contextString := strBytes "toy"
  fieldHash dst msg := (leNat (dst ++ msg) : Fp)
  sha256FieldHash dst msg := (leNat (dst ++ msg) : Fp)
  digest bs := leBytes 8 (leNat bs)
  hashLen := 8
  encG := enc
  decG := dec
  sizeG := 6
  encF := enc
  decF := dec
  sizeF := 6
  kdf ikm := some ikm
  nonceSize := 2
  aeadEnc key nonce pt := some (key ++ nonce ++ pt)
  aeadDec key nonce ct := if (key ++ nonce) <+: ct then some (ct.drop (key ++ nonce).length) else none
  randScalar r := ((r * r + 3 * r + 7 : Nat), r + 1)
  randBytes k r := (leBytes k r, r + 1)

theorem val_lt (a : Fp) : a.val < 256 ^ 6 :=
  lt_trans (ZMod.val_lt a) (by norm_num)

theorem enc_length (a : Fp) : (enc a).length = 6 := leBytes_length _ _

theorem dec_enc (a : Fp) (rest : Bytes) : dec (enc a ++ rest) = some (a, rest) := by
  have hl : (enc a).length = 6 := leBytes_length _ _
  unfold dec
  rw [if_neg (by rw [List.length_append, hl]; omega), List.take_left' hl, List.drop_left' hl]
  have : leNat (enc a) = a.val := by
    rw [enc, leNat_leBytes]; exact Nat.mod_eq_of_lt (val_lt a)
  simp only [this]
  rw [if_pos (ZMod.val_lt a), ZMod.natCast_zmod_val]

theorem smul_gen (a : Fp) : a • suite.gen = a := mul_one a

theorem group_laws : suite.GroupLaws where
  gen_inj a b h := by rwa [smul_gen, smul_gen] at h
  gen_surj P := ⟨P, (smul_gen P).symm⟩

theorem suite_decG : suite.decG = dec := rfl
theorem suite_decF : suite.decF = dec := rfl
theorem suite_encG : suite.encG = enc := rfl
theorem suite_encF : suite.encF = enc := rfl

theorem codec_laws : suite.CodecLaws := by
  refine ⟨?_, ?_, ?_, ?_⟩
  · rw [suite_decG, suite_encG]; exact dec_enc
  · rw [suite_decF, suite_encF]; exact dec_enc
  · rw [suite_encG]; exact enc_length
  · rw [suite_encF]; exact enc_length

theorem cipher_laws : suite.CipherLaws where
  kdf_ok ikm := ⟨ikm, rfl⟩
  aead_ok ikm key nonce pt _ _ := by
    refine ⟨_, rfl, ?_⟩
    show (if (key ++ nonce) <+: (key ++ nonce ++ pt) then _ else _) = _
    rw [if_pos (List.prefix_append _ _), List.drop_left]
  randBytes_length k rng := leBytes_length _ _

theorem u32_inj : Suite.U32Inj Fp := by
  intro a b h
  unfold u32F at h
  have ha : a.toNat < 6597069766657 := lt_trans a.toNat_lt (by norm_num)
  have hb : b.toNat < 6597069766657 := lt_trans b.toNat_lt (by norm_num)
  have := congrArg ZMod.val h
  rw [ZMod.val_natCast_of_lt ha, ZMod.val_natCast_of_lt hb] at this
  exact UInt32.toNat_inj.mp this

theorem lawful : suite.Lawful := ⟨group_laws, codec_laws, cipher_laws, u32_inj⟩

end IceFrost.Toy
