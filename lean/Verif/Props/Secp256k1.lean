import Verif.Lemmas.Secp256k1
import Verif.Model.Hashing
import Verif.Lemmas.Codec
import Verif.Props.Restore
import Verif.Props.Dkg

/-! # C148: the suite that the crate ships satisfies the laws

`testing::Secp256k1Sha256` (`src/lib.rs:1637-1666`): the group is secp256k1, the hash is SHA-256 and the cipher is
AES-128-GCM. The laws that the theorems assume of a suite are shown for it. The group and the encodings are concrete; of
the hash functions, the key derivation, the key stream and the authentication tag only the types and lengths are used. -/

set_option linter.unusedSectionVars false
set_option linter.unusedSimpArgs false
set_option linter.unusedVariables false

namespace IceFrost.Secp

/-- The scalar field. -/
abbrev Fn : Type := ZMod Cases.secp256k1Order

theorem order_smul (P : Point) : Cases.secp256k1Order • P = 0 := by
  rw [← card_points]
  exact card_nsmul_eq_zero

instance : Module Fn Point := AddCommGroup.zmodModule order_smul

/-! ### Encodings -/

/-- A scalar: 32 bytes, little-endian. -/
def encScalar (a : Fn) : Bytes := leBytes 32 a.val

/-- Reads 32 bytes; numbers that are not below the order are rejected. -/
def decScalar (bs : Bytes) : Option (Fn × Bytes) :=
  if bs.length < 32 then none
  else if leNat (bs.take 32) < Cases.secp256k1Order then some ((leNat (bs.take 32) : Fn), bs.drop 32) else none

/-- A point in compressed form: 32 bytes for the first coordinate, little-endian, and a byte that tells which of the two
roots the second coordinate is (0 for the smaller one, 128 for the larger one), or 64 for the point at infinity. This is
the form of arkworks, where flags do not fit into the 256 bits of the coordinate. -/
def encPoint (P : Point) : Bytes :=
  match compress P with
  | none => leBytes 32 0 ++ [64]
  | some (x, small) => leBytes 32 x.val ++ [if small then 0 else 128]

/-- A root of `a`, if `a` is a square: the modulus is 3 modulo 4. -/
@[irreducible] def root (a : Fq) : Fq := a ^ ((fieldOrder + 1) / 4)

/-- The smaller or the larger of `r` and `-r` as numbers. -/
def pick (r : Fq) (small : Bool) : Fq := if decide (r.val ≤ (-r).val) = small then r else -r

theorem pick_sq (r : Fq) (small : Bool) : pick r small ^ 2 = r ^ 2 := by
  unfold pick
  split
  · rfl
  · rw [neg_sq]

theorem pick_eq (r y : Fq) (h : r = y ∨ r = -y) : pick r (decide (y.val ≤ (-y).val)) = y := by
  unfold pick
  rcases h with rfl | rfl
  · rw [if_pos rfl]
  · rw [neg_neg]
    by_cases hs : decide ((-y).val ≤ y.val) = decide (y.val ≤ (-y).val)
    · rw [if_pos hs]
      rw [decide_eq_decide] at hs
      have e : (-y).val = y.val := by
        rcases le_total (-y).val y.val with h | h
        · exact le_antisymm h (hs.mp h)
        · exact le_antisymm (hs.mpr h) h
      exact ZMod.val_injective _ e
    · rw [if_neg hs]

theorem pick_small (r : Fq) (hne : r ≠ -r) (small : Bool) :
    decide ((pick r small).val ≤ (-pick r small).val) = small := by
  unfold pick
  have hv : r.val ≠ (-r).val := fun e => hne (ZMod.val_injective _ e)
  by_cases hs : decide (r.val ≤ (-r).val) = small
  · rw [if_pos hs]
    exact hs
  · rw [if_neg hs, neg_neg]
    generalize r.val = u at hv hs
    generalize (-r).val = v at hv hs
    cases small with
    | true =>
      rw [decide_eq_true_eq] at hs ⊢
      omega
    | false =>
      rw [decide_eq_false_iff_not] at hs ⊢
      omega

/-- The point with the given first coordinate and choice of the root. -/
def lift (x : Fq) (small : Bool) : Option Point :=
  if h : root (x ^ 3 + 7) ^ 2 = x ^ 3 + 7 then
    some (.some x (pick (root (x ^ 3 + 7)) small) ((on_curve _ _).mpr ((pick_sq _ _).trans h)))
  else none

/-- Reads a point in compressed form; bytes that are not the compressed form of a point are rejected. -/
def decPoint (bs : Bytes) : Option (Point × Bytes) :=
  match bs.drop 32 with
  | [] => none
  | flag :: rest =>
    if flag = 64 then (if leNat (bs.take 32) = 0 then some (0, rest) else none)
    else if flag = 0 ∨ flag = 128 then
      (if leNat (bs.take 32) < fieldOrder then (lift (leNat (bs.take 32) : Fq) (flag == 0)).map fun P => (P, rest) else none)
    else none

theorem scalar_lt (a : Fn) : a.val < 256 ^ 32 := lt_trans (ZMod.val_lt a) (by decide +kernel)
theorem coordinate_lt (a : Fq) : a.val < 256 ^ 32 := lt_trans (ZMod.val_lt a) (by decide +kernel)

theorem leNat_scalar (a : Fn) : leNat (leBytes 32 a.val) = a.val := by
  rw [leNat_leBytes]
  exact Nat.mod_eq_of_lt (scalar_lt a)

theorem leNat_coordinate (a : Fq) : leNat (leBytes 32 a.val) = a.val := by
  rw [leNat_leBytes]
  exact Nat.mod_eq_of_lt (coordinate_lt a)

theorem encScalar_length (a : Fn) : (encScalar a).length = 32 := leBytes_length _ _

theorem encPoint_length (P : Point) : (encPoint P).length = 33 := by
  unfold encPoint
  split <;> simp

theorem decScalar_encScalar (a : Fn) (rest : Bytes) : decScalar (encScalar a ++ rest) = some (a, rest) := by
  have hl := encScalar_length a
  unfold decScalar
  rw [if_neg (by rw [List.length_append, hl]; omega), List.take_left' hl, List.drop_left' hl]
  have : leNat (encScalar a) = a.val := leNat_scalar a
  rw [this, if_pos (ZMod.val_lt a), ZMod.natCast_zmod_val]

theorem root_sq (y : Fq) : root (y ^ 2) ^ 2 = y ^ 2 := by
  unfold root
  have hd : 2 * ((fieldOrder + 1) / 4) * 2 = fieldOrder + 1 := by decide +kernel
  have h1 : y ^ (2 * ((fieldOrder + 1) / 4) * 2) = y ^ (fieldOrder + 1) := congrArg (fun k => y ^ k) hd
  rw [← pow_mul, ← pow_mul, ← mul_assoc, h1, pow_succ, ZMod.pow_card, pow_two]

theorem some_eq (x y y' : Fq) (h : curve.Nonsingular x y) (h' : curve.Nonsingular x y') (e : y = y') :
    (WeierstrassCurve.Affine.Point.some x y h : Point) = .some x y' h' := by
  subst e
  rfl

/-- Decompression gives back the point. -/
theorem lift_compress (x y : Fq) (h : curve.Nonsingular x y) :
    lift x (decide (y.val ≤ (-y).val)) = some (.some x y h) := by
  have hc := (on_curve x y).mp h
  have hr : root (x ^ 3 + 7) ^ 2 = x ^ 3 + 7 := by
    have := root_sq y
    rwa [hc] at this
  have hy : root (x ^ 3 + 7) = y ∨ root (x ^ 3 + 7) = -y := sq_eq_sq_iff_eq_or_eq_neg.mp (hr.trans hc.symm)
  unfold lift
  rw [dif_pos hr]
  exact congrArg some (some_eq _ _ _ _ _ (pick_eq _ _ hy))

/-- A lifted point has the given compressed form. The root is not zero, since no point has order 2. -/
theorem compress_lift (x : Fq) (small : Bool) (P : Point) (h : lift x small = some P) : compress P = some (x, small) := by
  unfold lift at h
  by_cases hr : root (x ^ 3 + 7) ^ 2 = x ^ 3 + 7
  · rw [dif_pos hr] at h
    have hP := Option.some.inj h
    have hne : root (x ^ 3 + 7) ≠ -root (x ^ 3 + 7) := by
      intro e
      have hn : curve.Nonsingular x (root (x ^ 3 + 7)) := (on_curve _ _).mpr hr
      have h2 : (WeierstrassCurve.Affine.Point.some x _ hn : Point) = -.some x _ hn := by
        rw [neg_point]
        exact some_eq _ _ _ _ _ e
      cases no_order_two _ (add_eq_zero_iff_eq_neg.mpr h2)
    rw [← hP]
    show some (x, _) = _
    rw [pick_small _ hne]
  · rw [dif_neg hr] at h
    cases h

theorem decPoint_encPoint (P : Point) (rest : Bytes) : decPoint (encPoint P ++ rest) = some (P, rest) := by
  have h32 : ∀ k, (leBytes 32 k).length = 32 := fun k => leBytes_length _ _
  match P with
  | .zero =>
    show decPoint (leBytes 32 0 ++ [64] ++ rest) = _
    unfold decPoint
    rw [List.append_assoc, List.drop_left' (h32 0), List.take_left' (h32 0)]
    show (if (64 : UInt8) = 64 then _ else _) = _
    rw [if_pos rfl, if_pos (by rw [leNat_leBytes]; exact Nat.zero_mod _)]
    rfl
  | .some x y h =>
    show decPoint (leBytes 32 x.val ++ [if decide (y.val ≤ (-y).val) then 0 else 128] ++ rest) = _
    unfold decPoint
    rw [List.append_assoc, List.drop_left' (h32 _), List.take_left' (h32 _), leNat_coordinate]
    have hl := lift_compress x y h
    generalize decide (y.val ≤ (-y).val) = s at hl
    show (if (if s then (0 : UInt8) else 128) = 64 then _ else _) = _
    have h1 : (if s then (0 : UInt8) else 128) ≠ 64 := by cases s <;> decide
    have h2 : (if s then (0 : UInt8) else 128) = 0 ∨ (if s then (0 : UInt8) else 128) = 128 := by cases s <;> decide
    have h3 : ((if s then (0 : UInt8) else 128) == 0) = s := by cases s <;> decide
    rw [if_neg h1, if_pos h2, if_pos (ZMod.val_lt x), h3, ZMod.natCast_zmod_val, hl]
    rfl

/-- The reader as we remember the one of arkworks: it looks at the two highest bits of the flag byte only, and ignores the
coordinate of the point at infinity. -/
def decPointLoose (bs : Bytes) : Option (Point × Bytes) :=
  match bs.drop 32 with
  | [] => none
  | flag :: rest =>
    if leNat (bs.take 32) < fieldOrder then
      (if flag &&& 192 = 64 then some (0, rest)
      else if flag &&& 192 = 192 then none
      else (lift (leNat (bs.take 32) : Fq) (flag &&& 192 == 0)).map fun P => (P, rest))
    else none

/-- What the strict reader accepts, the other one reads in the same way. -/
theorem decPointLoose_of_decPoint (bs : Bytes) (r : Point × Bytes) (h : decPoint bs = some r) :
    decPointLoose bs = some r := by
  unfold decPoint at h
  unfold decPointLoose
  generalize bs.drop 32 = tail at h
  cases tail with
  | nil => cases h
  | cons flag rest =>
    simp only at h ⊢
    by_cases h1 : flag = 64
    · subst h1
      rw [if_pos rfl] at h
      by_cases h2 : leNat (bs.take 32) = 0
      · rw [if_pos h2] at h
        rw [if_pos (by rw [h2]; decide +kernel), if_pos (by decide)]
        exact h
      · rw [if_neg h2] at h
        cases h
    · rw [if_neg h1] at h
      by_cases h3 : flag = 0 ∨ flag = 128
      · rw [if_pos h3] at h
        by_cases h4 : leNat (bs.take 32) < fieldOrder
        · rw [if_pos h4] at h ⊢
          have e1 : flag &&& 192 ≠ 64 := by rcases h3 with rfl | rfl <;> decide
          have e2 : flag &&& 192 ≠ 192 := by rcases h3 with rfl | rfl <;> decide
          have e3 : (flag &&& 192 == 0) = (flag == 0) := by rcases h3 with rfl | rfl <;> decide
          rw [if_neg e1, if_neg e2, e3]
          exact h
        · rw [if_neg h4] at h
          cases h
      · rw [if_neg h3] at h
        cases h

/-! ### The suite -/

/-- What is left open: hash functions, key derivation, key stream, tag and random numbers. -/
structure Parts (R : Type) where
  /-- `DefaultFieldHasher::<Sha256, 128>` -/
  hashToField : Bytes → Bytes → Fn
  /-- SHA-256 -/
  sha256 : Bytes → Bytes
  /-- HKDF with SHA-256, expanded to a key -/
  hkdf : Bytes → Bytes
  /-- key stream of the counter mode, for a key, a nonce and a length -/
  stream : Bytes → Bytes → ℕ → Bytes
  /-- authentication tag, for a key, a nonce and a ciphertext -/
  tag : Bytes → Bytes → Bytes → Bytes
  randScalar : R → Fn × R
  randBytes : ℕ → R → Bytes × R
  stream_length : ∀ key nonce k, (stream key nonce k).length = k
  tag_length : ∀ key nonce ct, (tag key nonce ct).length = 16
  randBytes_length : ∀ k rng, (randBytes k rng).1.length = k

theorem xorBytes_self (a b : Bytes) (h : b.length = a.length) : xorBytes (xorBytes a b) b = a := by
  unfold xorBytes
  induction a generalizing b with
  | nil => rfl
  | cons x a ih =>
    cases b with
    | nil => cases h
    | cons y b =>
      simp only [List.zipWith_cons_cons]
      rw [ih b (by simpa using h), UInt8.xor_assoc, UInt8.xor_self, UInt8.xor_zero]

theorem xorBytes_length (a b : Bytes) (h : b.length = a.length) : (xorBytes a b).length = a.length := by
  unfold xorBytes
  rw [List.length_zipWith, h, min_self]

/-- `testing::Secp256k1Sha256`, `src/lib.rs:1637-1666`. The cipher is a key stream and a tag behind the ciphertext. -/
def suite {R : Type} (X : Parts R) : Suite Fn Point R where
  gen := generator
  contextString := strBytes "ICE-FROST_SECP256K1_SHA256"
  fieldHash := X.hashToField
  sha256FieldHash := X.hashToField
  digest := X.sha256
  hashLen := 32
  encG := encPoint
  decG := decPoint
  sizeG := 33
  encF := encScalar
  decF := decScalar
  sizeF := 32
  kdf ikm := some (X.hkdf ikm)
  nonceSize := 12
  aeadEnc key nonce pt :=
    if nonce.length = 12 then
      some (xorBytes pt (X.stream key nonce pt.length) ++ X.tag key nonce (xorBytes pt (X.stream key nonce pt.length)))
    else none
  aeadDec key nonce ct :=
    if ct.length < 16 then none
    else if ct.drop (ct.length - 16) = X.tag key nonce (ct.take (ct.length - 16)) then
      some (xorBytes (ct.take (ct.length - 16)) (X.stream key nonce (ct.length - 16)))
    else none
  randScalar := X.randScalar
  randBytes := X.randBytes

/-- The same with the other reader. -/
def looseSuite {R : Type} (X : Parts R) : Suite Fn Point R := { suite X with decG := decPointLoose }

variable {R : Type} (X : Parts R)

theorem suite_encG : (suite X).encG = encPoint := rfl
theorem suite_decG : (suite X).decG = decPoint := rfl
theorem suite_sizeG : (suite X).sizeG = 33 := rfl
theorem suite_encF : (suite X).encF = encScalar := rfl
theorem suite_decF : (suite X).decF = decScalar := rfl
theorem suite_sizeF : (suite X).sizeF = 32 := rfl

end IceFrost.Secp

namespace IceFrost

open Secp (Parts encPoint decPoint encScalar decScalar encPoint_length encScalar_length decPoint_encPoint
  decScalar_encScalar suite_encG suite_decG suite_encF suite_decF suite_sizeG suite_sizeF xorBytes_self
  xorBytes_length card_points compress_lift Fq Fn)

variable {R : Type} (X : Parts R)

/-- C148: the group of the suite has prime order and every point is a multiple of the generator by one scalar. -/
theorem C148_group : (Secp.suite X).GroupLaws :=
  Cases.secp256k1_group (by rw [Nat.card_eq_fintype_card, card_points]) (Secp.suite X) (by
    intro h
    cases h)

/-- C148: points and scalars are read back as written, with fixed lengths. -/
theorem C148_codec : (Secp.suite X).CodecLaws where
  decG_encG P rest := by
    rw [suite_encG, suite_decG]
    exact decPoint_encPoint P rest
  decF_encF a rest := by
    rw [suite_encF, suite_decF]
    exact decScalar_encScalar a rest
  encG_length P := by
    rw [suite_encG, suite_sizeG]
    exact encPoint_length P
  encF_length a := by
    rw [suite_encF, suite_sizeF]
    exact encScalar_length a

/-- C148: key derivation and encryption never fail, and decryption inverts encryption. -/
theorem C148_cipher : (Secp.suite X).CipherLaws where
  kdf_ok ikm := ⟨_, rfl⟩
  aead_ok ikm key nonce pt _ hn := by
    refine ⟨_, if_pos hn, ?_⟩
    have hl : (xorBytes pt (X.stream key nonce pt.length)).length = pt.length :=
      xorBytes_length _ _ (X.stream_length _ _ _)
    show (if _ then _ else _) = _
    generalize hc : xorBytes pt (X.stream key nonce pt.length) = c
    rw [hc] at hl
    have ht := X.tag_length key nonce c
    rw [if_neg (by rw [List.length_append, ht]; omega)]
    have hlen : (c ++ X.tag key nonce c).length - 16 = c.length := by rw [List.length_append, ht]; omega
    rw [hlen, List.drop_left, List.take_left, if_pos rfl, hl, ← hc, xorBytes_self _ _ (X.stream_length _ _ _)]
  randBytes_length := X.randBytes_length

/-- C148: the suite that the crate ships satisfies all laws that the theorems assume. -/
theorem C148_lawful : (Secp.suite X).Lawful := ⟨C148_group X, C148_codec X, C148_cipher X, Cases.secp256k1_u32⟩

/-- C148: nonces and ciphertexts are short. -/
theorem C148_short : (Secp.suite X).ShortCiphertexts where
  nonce := by show 12 < 2 ^ 64; norm_num
  ct P key nonce a ct _ hn h := by
    have h' : (if nonce.length = 12 then some (xorBytes (encScalar a) (X.stream key nonce (encScalar a).length) ++
      X.tag key nonce (xorBytes (encScalar a) (X.stream key nonce (encScalar a).length))) else none) = some ct := h
    have hn' : nonce.length = 12 := hn
    rw [if_pos hn'] at h'
    rw [← Option.some.inj h', List.length_append, X.tag_length, xorBytes_length _ _ (X.stream_length _ _ _),
      encScalar_length]
    norm_num
  draw rng := X.randBytes_length _ _

/-- C148: every point and every scalar is read from one byte string only (with this strict decoder). -/
theorem C148_canonical : (Secp.suite X).CanonicalDec where
  decG bs P rest h := by
    have h' : decPoint bs = some (P, rest) := h
    show bs = encPoint P ++ rest
    unfold decPoint at h'
    split at h'
    · cases h'
    · next flag rest' hb =>
      have hlen : 32 < bs.length := by
        by_contra hc
        rw [List.drop_eq_nil_of_le (by omega)] at hb
        cases hb
      have ht : (bs.take 32).length = 32 := by rw [List.length_take]; omega
      have hle : leBytes 32 (leNat (bs.take 32)) = bs.take 32 := by
        have := leBytes_leNat (bs.take 32)
        rwa [ht] at this
      have hbs : bs = bs.take 32 ++ flag :: rest' := by rw [← hb, List.take_append_drop]
      split_ifs at h' with h1 h2 h3 h4
      · obtain ⟨rfl, rfl⟩ := Prod.mk.inj (Option.some.inj h')
        rw [h2] at hle
        rw [h1] at hbs
        show bs = leBytes 32 0 ++ [64] ++ rest'
        rw [hle, List.append_assoc]
        exact hbs
      · obtain ⟨Q, hQ, e⟩ := Option.map_eq_some_iff.mp h'
        obtain ⟨rfl, rfl⟩ := Prod.mk.inj e
        unfold encPoint
        rw [compress_lift _ _ _ hQ]
        show bs = leBytes 32 (((leNat (bs.take 32) : ℕ) : Fq)).val ++ [if flag == 0 then 0 else 128] ++ rest'
        rw [ZMod.val_cast_of_lt h4, hle, List.append_assoc]
        have hf : (if (flag == 0) = true then (0 : UInt8) else 128) = flag := by
          rcases h3 with rfl | rfl <;> rfl
        rw [hf]
        exact hbs
  decF bs a rest h := by
    have h' : decScalar bs = some (a, rest) := h
    show bs = encScalar a ++ rest
    unfold decScalar at h'
    split_ifs at h' with h1 h2
    obtain ⟨rfl, rfl⟩ := Prod.mk.inj (Option.some.inj h')
    have ht : (bs.take 32).length = 32 := by rw [List.length_take]; omega
    have hle := leBytes_leNat (bs.take 32)
    rw [ht] at hle
    unfold encScalar
    rw [ZMod.val_cast_of_lt h2, hle, List.take_append_drop]

/-- C148: all laws also hold with the reader that accepts more, but then points have several accepted encodings. -/
theorem C148_loose : (Secp.looseSuite X).Lawful ∧ (Secp.looseSuite X).ShortCiphertexts ∧
    ¬(Secp.looseSuite X).CanonicalDec := by
  refine ⟨⟨⟨(C148_group X).gen_inj, (C148_group X).gen_surj⟩, ⟨fun P rest => ?_, fun a rest => ?_,
    encPoint_length, encScalar_length⟩, ⟨(C148_cipher X).kdf_ok, (C148_cipher X).aead_ok,
    (C148_cipher X).randBytes_length⟩, Cases.secp256k1_u32⟩,
    ⟨(C148_short X).nonce, (C148_short X).ct, (C148_short X).draw⟩, ?_⟩
  · have e1 : (Secp.looseSuite X).encG = encPoint := rfl
    have e2 : (Secp.looseSuite X).decG = Secp.decPointLoose := rfl
    rw [e1, e2]
    exact Secp.decPointLoose_of_decPoint _ _ (decPoint_encPoint P rest)
  · have e1 : (Secp.looseSuite X).encF = encScalar := rfl
    have e2 : (Secp.looseSuite X).decF = decScalar := rfl
    rw [e1, e2]
    exact decScalar_encScalar a rest
  · intro h
    have h1 : (Secp.looseSuite X).decG (leBytes 32 1 ++ [64]) = some (0, []) := by
      have e2 : (Secp.looseSuite X).decG = Secp.decPointLoose := rfl
      rw [e2]
      unfold Secp.decPointLoose
      rw [List.drop_left' (leBytes_length _ _), List.take_left' (leBytes_length _ _)]
      show (if _ then (if _ then _ else _) else _) = _
      rw [if_pos (by decide +kernel), if_pos (by decide)]
    have h2 := h.decG _ _ _ h1
    have h3 : leBytes 32 1 ++ [64] = leBytes 32 0 ++ [64] ++ [] := h2
    exact absurd h3 (by decide +kernel)

/-! ### Instances -/

/-- The open parts can be filled in, and the cipher need not be trivial. -/
def Secp.someParts : Secp.Parts Unit where
  hashToField d m := (leNat d + 3 * leNat m : ℕ)
  sha256 m := leBytes 32 (leNat m)
  hkdf m := leBytes 16 (leNat m)
  stream key nonce k := (List.range k).map fun i => UInt8.ofNat (leNat key + leNat nonce + 7 * i)
  tag key nonce ct := leBytes 16 (leNat key + leNat nonce + leNat ct)
  randScalar _ := (5, ())
  randBytes k _ := (List.replicate k 9, ())
  stream_length := by simp
  tag_length := by simp
  randBytes_length := by simp

example : (Secp.suite Secp.someParts).Lawful := C148_lawful _
example : (Secp.suite Secp.someParts).GroupLaws := C148_group _
example : (Secp.suite Secp.someParts).CodecLaws := C148_codec _
example : (Secp.suite Secp.someParts).CipherLaws := C148_cipher _
example : (Secp.suite Secp.someParts).ShortCiphertexts := C148_short _
example : (Secp.suite Secp.someParts).CanonicalDec := C148_canonical _

example : (Secp.looseSuite Secp.someParts).Lawful := (C148_loose _).1

/-- The bytes of the generator: its second coordinate is the smaller root. -/
example : encPoint Secp.generator = leBytes 32 Secp.genX ++ [0] := by decide +kernel

example : decPoint (encPoint Secp.generator ++ [1, 2]) = some (Secp.generator, [1, 2]) := decPoint_encPoint _ _

/-- No bytes with another flag, and no number from the order on, are accepted. -/
example : Secp.decPoint (leBytes 32 5 ++ [1]) = none := by decide +kernel
example : Secp.decScalar (leBytes 32 Cases.secp256k1Order) = none := by decide +kernel

/-- Honest key generation over secp256k1 succeeds, without any assumption on the suite. -/
example := @C36_honest_dkg Secp.Fn Secp.Point _ _ _ _ _ _ _ (C148_lawful Secp.someParts)

end IceFrost
