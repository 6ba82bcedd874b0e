import Verif.Props.Secp256k1
import Verif.Props.Serialization
import Verif.Props.OwnPair
import Mathlib.Data.Set.Card
import Mathlib.SetTheory.Cardinal.Finite

/-! # C183: which bytes are read as nonces

`Commitment` (a nonce and its point) and `CommitmentShare` (two of them) as the shipped suite stores and reads them
(`src/sign/precomputation.rs:76-83`, `:108-121`). The crate's own test (`src/sign/precomputation.rs:290-295`) expects two
strings of bytes 255 to be refused. Both would be refused for their length alone, and for their first 32 bytes alone. Of
the strings of the right length all those are read that hold scalars below the order and points of the curve: the reader
does not ask that the point belongs to the nonce. -/

set_option linter.unusedSectionVars false
set_option linter.unusedVariables false

namespace IceFrost

open Codec
open Secp (Parts encPoint decPoint decPointLoose encScalar decScalar encPoint_length encScalar_length card_points Fn Point)

variable {R : Type}

namespace Spec

/-- The bytes are refused. -/
def Refused {α : Type} (F G : Type) (c : Codec α) (bs : Bytes) : Prop :=
  fromBytes (F := F) (G := G) c bs = .error .deserializationError

/-- The strings of `len` bytes that are read as a value with property `P`. -/
def readAs {α : Type} (F G : Type) (c : Codec α) (len : ℕ) (P : α → Prop) : Set Bytes :=
  {bs | bs.length = len ∧ ∃ x, P x ∧ fromBytes (F := F) (G := G) c bs = .ok x}

/-- The point of a stored nonce belongs to the nonce. -/
def Consistent {F G : Type} [SMul F G] (gen : G) (c : Commitment F G) : Prop := c.commit = c.secret • gen

end Spec

section Lemmas

theorem refused_iff {α F G : Type} {c : Codec α} {bs : Bytes} : Spec.Refused F G c bs ↔ c.dec bs = none := by
  unfold Spec.Refused fromBytes
  cases c.dec bs with
  | none => simp
  | some p => simp

/-- A reader that consumes 32 bytes of a scalar below the order and 33 bytes of a point. -/
structure ReadsNonces (S : Suite Fn Point R) : Prop where
  decF : S.decF = decScalar
  decG : ∀ bs P rest, S.decG bs = some (P, rest) → 33 ≤ bs.length ∧ rest = bs.drop 33

theorem decScalar_some {bs rest : Bytes} {a : Fn} (h : decScalar bs = some (a, rest)) :
    32 ≤ bs.length ∧ rest = bs.drop 32 ∧ leNat (bs.take 32) < Cases.secp256k1Order := by
  unfold decScalar at h
  split_ifs at h with h1 h2
  obtain ⟨-, rfl⟩ := Prod.mk.inj (Option.some.inj h)
  exact ⟨by omega, rfl, h2⟩

theorem drop_cons_length {bs rest : Bytes} {b : UInt8} (h : bs.drop 32 = b :: rest) :
    33 ≤ bs.length ∧ rest = bs.drop 33 := by
  have hl := congrArg List.length h
  rw [List.length_drop, List.length_cons] at hl
  refine ⟨by omega, ?_⟩
  have := List.drop_drop (i := 1) (j := 32) (l := bs)
  rw [h] at this
  exact this

theorem decPointLoose_some {bs rest : Bytes} {P : Point} (h : decPointLoose bs = some (P, rest)) :
    33 ≤ bs.length ∧ rest = bs.drop 33 := by
  unfold decPointLoose at h
  split at h
  · cases h
  · next flag rest' hb =>
    have hr : rest' = rest := by
      split_ifs at h
      · exact (Prod.mk.inj (Option.some.inj h)).2
      · obtain ⟨Q, -, e⟩ := Option.map_eq_some_iff.mp h
        exact (Prod.mk.inj e).2
    rw [← hr]
    exact drop_cons_length hb

theorem readsNonces_suite (X : Parts R) : ReadsNonces (Secp.suite X) where
  decF := rfl
  decG bs P rest h := decPointLoose_some (Secp.decPointLoose_of_decPoint bs (P, rest) h)

theorem readsNonces_loose (X : Parts R) : ReadsNonces (Secp.looseSuite X) where
  decF := rfl
  decG bs P rest h := decPointLoose_some h

variable {S : Suite Fn Point R}

theorem commitment_dec (h : ReadsNonces S) {bs rest : Bytes} {c : Commitment Fn Point}
    (hd : (commitmentCodec S).dec bs = some (c, rest)) :
    65 ≤ bs.length ∧ rest = bs.drop 65 ∧ leNat (bs.take 32) < Cases.secp256k1Order := by
  obtain ⟨q, hq, e⟩ := Option.map_eq_some_iff.mp hd
  obtain ⟨⟨a, r1⟩, ha, hb⟩ := Option.bind_eq_some_iff.mp hq
  obtain ⟨⟨P, r2⟩, hP, e2⟩ := Option.map_eq_some_iff.mp hb
  have hr : rest = r2 := by rw [← e2] at e; exact (Prod.mk.inj e).2.symm
  have ha' : decScalar bs = some (a, r1) := by rw [← h.decF]; exact ha
  obtain ⟨h1, h2, h3⟩ := decScalar_some ha'
  obtain ⟨h4, h5⟩ := h.decG _ _ _ hP
  replace h4 : 33 ≤ r1.length := h4
  replace h5 : r2 = r1.drop 33 := h5
  rw [h2, List.length_drop] at h4
  refine ⟨by omega, ?_, h3⟩
  rw [hr, h5, h2, List.drop_drop]

theorem commitmentShare_dec (h : ReadsNonces S) {bs rest : Bytes} {c : CommitmentShare Fn Point}
    (hd : (commitmentShareCodec S).dec bs = some (c, rest)) :
    130 ≤ bs.length ∧ leNat (bs.take 32) < Cases.secp256k1Order ∧
      leNat ((bs.drop 65).take 32) < Cases.secp256k1Order := by
  obtain ⟨q, hq, e⟩ := Option.map_eq_some_iff.mp hd
  obtain ⟨⟨a, r1⟩, ha, hb⟩ := Option.bind_eq_some_iff.mp hq
  obtain ⟨⟨b, r2⟩, hP, e2⟩ := Option.map_eq_some_iff.mp hb
  obtain ⟨h1, h2, h3⟩ := commitment_dec h ha
  obtain ⟨h4, h5, h6⟩ := commitment_dec h hP
  replace h4 : 65 ≤ r1.length := h4
  replace h6 : leNat (r1.take 32) < Cases.secp256k1Order := h6
  rw [h2] at h6
  rw [h2, List.length_drop] at h4
  exact ⟨by omega, h3, h6⟩

theorem refused_of {α F G : Type} {c : Codec α} {bs : Bytes} (h : ∀ x rest, c.dec bs ≠ some (x, rest)) :
    Spec.Refused F G c bs := by
  rw [refused_iff]
  cases hd : c.dec bs with
  | none => rfl
  | some p => exact absurd hd (h p.1 p.2)

/-- The strings of the length of an encoding that are read are the encodings, one for each value. -/
theorem readAs_ncard {α F G : Type} {c : Codec α} (hr : c.RoundTrip (fun _ => True)) (he : c.Exact) (len : ℕ)
    (hl : ∀ x, (c.enc x).length = len) (P : α → Prop) :
    (Spec.readAs F G c len P).ncard = Nat.card {x // P x} := by
  have : Spec.readAs F G c len P = c.enc '' {x | P x} := by
    ext bs
    constructor
    · rintro ⟨hb, x, hx, hf⟩
      obtain ⟨rest, hd⟩ := fromBytes_ok.mp hf
      have e := (he bs x rest hd).1
      have : rest = [] := by
        have := congrArg List.length e
        rw [List.length_append, hl, hb] at this
        exact List.length_eq_zero_iff.mp (by omega)
      rw [this, List.append_nil] at e
      exact ⟨x, hx, e.symm⟩
    · rintro ⟨x, hx, rfl⟩
      refine ⟨hl x, x, hx, fromBytes_ok.mpr ⟨[], ?_⟩⟩
      have := hr.dec_enc x trivial []
      rwa [List.append_nil] at this
  rw [this, Set.ncard_image_of_injective]
  · exact (Nat.card_coe_set_eq {x | P x}).symm
  · intro x y hxy
    have h1 := hr.dec_enc x trivial []
    have h2 := hr.dec_enc y trivial []
    have hxy' : c.enc x = c.enc y := hxy
    rw [hxy', h2] at h1
    exact (Prod.mk.inj (Option.some.inj h1)).1.symm

def commitmentEquiv (F G : Type) : Commitment F G ≃ F × G where
  toFun c := (c.secret, c.commit)
  invFun p := ⟨p.1, p.2⟩
  left_inv _ := rfl
  right_inv _ := rfl

def commitmentShareEquiv (F G : Type) : CommitmentShare F G ≃ Commitment F G × Commitment F G where
  toFun c := (c.hidingC, c.bindingC)
  invFun p := ⟨p.1, p.2⟩
  left_inv _ := rfl
  right_inv _ := rfl

def consistentEquiv (gen : Point) : {c : Commitment Fn Point // Spec.Consistent gen c} ≃ Fn where
  toFun c := c.1.secret
  invFun a := ⟨⟨a, a • gen⟩, rfl⟩
  left_inv c := by
    obtain ⟨⟨a, P⟩, h⟩ := c
    have h' : P = a • gen := h
    subst h'
    rfl
  right_inv _ := rfl

def consistentShareEquiv (gen : Point) :
    {c : CommitmentShare Fn Point // Spec.Consistent gen c.hidingC ∧ Spec.Consistent gen c.bindingC} ≃
      {c : Commitment Fn Point // Spec.Consistent gen c} × {c : Commitment Fn Point // Spec.Consistent gen c} where
  toFun c := (⟨c.1.hidingC, c.2.1⟩, ⟨c.1.bindingC, c.2.2⟩)
  invFun p := ⟨⟨p.1.1, p.2.1⟩, p.1.2, p.2.2⟩
  left_inv _ := rfl
  right_inv _ := rfl

theorem natCard_Fn : Nat.card Fn = Cases.secp256k1Order := Nat.card_zmod _

theorem card_commitment : Nat.card (Commitment Fn Point) = Cases.secp256k1Order ^ 2 := by
  rw [Nat.card_congr (commitmentEquiv Fn Point), Nat.card_prod, natCard_Fn, Nat.card_eq_fintype_card, card_points, pow_two]

theorem card_consistent (gen : Point) :
    Nat.card {c : Commitment Fn Point // Spec.Consistent gen c} = Cases.secp256k1Order := by
  rw [Nat.card_congr (consistentEquiv gen), natCard_Fn]

theorem commitment_enc_length (X : Parts R) (c : Commitment Fn Point) :
    ((commitmentCodec (Secp.suite X)).enc c).length = 65 := by
  show (encScalar c.secret ++ encPoint c.commit).length = 65
  rw [List.length_append, encScalar_length, encPoint_length]

theorem commitmentShare_enc_length (X : Parts R) (c : CommitmentShare Fn Point) :
    ((commitmentShareCodec (Secp.suite X)).enc c).length = 130 := by
  show ((commitmentCodec (Secp.suite X)).enc c.hidingC ++ (commitmentCodec (Secp.suite X)).enc c.bindingC).length = 130
  rw [List.length_append, commitment_enc_length, commitment_enc_length]

end Lemmas

variable (X : Parts R)

/-- C183: bytes that are too short for a nonce and its point, or for two of them, are refused whatever they hold, by
either reader of points. -/
theorem C183_short (bs : Bytes) :
    (bs.length < 65 → Spec.Refused Fn Point (commitmentCodec (Secp.suite X)) bs ∧
      Spec.Refused Fn Point (commitmentCodec (Secp.looseSuite X)) bs) ∧
    (bs.length < 130 → Spec.Refused Fn Point (commitmentShareCodec (Secp.suite X)) bs ∧
      Spec.Refused Fn Point (commitmentShareCodec (Secp.looseSuite X)) bs) := by
  refine ⟨fun hl => ⟨?_, ?_⟩, fun hl => ⟨?_, ?_⟩⟩ <;> refine refused_of (fun x rest hd => ?_)
  · have := (commitment_dec (readsNonces_suite X) hd).1; omega
  · have := (commitment_dec (readsNonces_loose X) hd).1; omega
  · have := (commitmentShare_dec (readsNonces_suite X) hd).1; omega
  · have := (commitmentShare_dec (readsNonces_loose X) hd).1; omega

/-- C183: bytes of any length whose nonce is not below the order are refused by either reader of points; no nonce is
reduced silently. -/
theorem C183_not_reduced (bs : Bytes) :
    (Cases.secp256k1Order ≤ leNat (bs.take 32) →
      Spec.Refused Fn Point (commitmentCodec (Secp.suite X)) bs ∧
      Spec.Refused Fn Point (commitmentCodec (Secp.looseSuite X)) bs) ∧
    (Cases.secp256k1Order ≤ leNat (bs.take 32) ∨ Cases.secp256k1Order ≤ leNat ((bs.drop 65).take 32) →
      Spec.Refused Fn Point (commitmentShareCodec (Secp.suite X)) bs ∧
      Spec.Refused Fn Point (commitmentShareCodec (Secp.looseSuite X)) bs) := by
  refine ⟨fun hl => ⟨?_, ?_⟩, fun hl => ⟨?_, ?_⟩⟩ <;> refine refused_of (fun x rest hd => ?_)
  · have := (commitment_dec (readsNonces_suite X) hd).2.2; omega
  · have := (commitment_dec (readsNonces_loose X) hd).2.2; omega
  · have := (commitmentShare_dec (readsNonces_suite X) hd).2; omega
  · have := (commitmentShare_dec (readsNonces_loose X) hd).2; omega

/-- C183: of the strings of 65 bytes as many are read as a nonce with its point as there are pairs of a scalar and a
point, with the order n of the group n². In n of them the point belongs to the nonce. -/
theorem C183_nonces_read :
    (Spec.readAs Fn Point (commitmentCodec (Secp.suite X)) 65 (fun _ => True)).ncard = Cases.secp256k1Order ^ 2 ∧
    (Spec.readAs Fn Point (commitmentCodec (Secp.suite X)) 65 (Spec.Consistent (Secp.suite X).gen)).ncard =
      Cases.secp256k1Order := by
  constructor
  · rw [readAs_ncard (commitment_roundTrip (C148_codec X)) (commitment_exact (C148_canonical X)) 65
      (commitment_enc_length X), ← card_commitment]
    exact Nat.card_congr (Equiv.subtypeUnivEquiv (fun _ => trivial))
  · rw [readAs_ncard (commitment_roundTrip (C148_codec X)) (commitment_exact (C148_canonical X)) 65
      (commitment_enc_length X), card_consistent]

/-- C183: of the strings of 130 bytes n⁴ are read as a pair of nonces with their points, and in n² of them the points
belong to the nonces. -/
theorem C183_pairs_read :
    (Spec.readAs Fn Point (commitmentShareCodec (Secp.suite X)) 130 (fun _ => True)).ncard =
      Cases.secp256k1Order ^ 4 ∧
    (Spec.readAs Fn Point (commitmentShareCodec (Secp.suite X)) 130 (fun c =>
      Spec.Consistent (Secp.suite X).gen c.hidingC ∧ Spec.Consistent (Secp.suite X).gen c.bindingC)).ncard =
      Cases.secp256k1Order ^ 2 := by
  constructor
  · rw [readAs_ncard (commitmentShare_roundTrip (C148_codec X)) (commitmentShare_exact (C148_canonical X)) 130
      (commitmentShare_enc_length X), Nat.card_congr (Equiv.subtypeUnivEquiv (fun _ => trivial)),
      Nat.card_congr (commitmentShareEquiv Fn Point), Nat.card_prod, card_commitment, ← pow_add]
  · rw [readAs_ncard (commitmentShare_roundTrip (C148_codec X)) (commitmentShare_exact (C148_canonical X)) 130
      (commitmentShare_enc_length X), Nat.card_congr (consistentShareEquiv _), Nat.card_prod, card_consistent, pow_two]

/-- C183: with the strict reader, bytes are read as a nonce with its point exactly if they begin with the stored form of
a scalar and a point; what is read is that pair, and what follows is ignored. -/
theorem C183_read_iff (bs : Bytes) (c : Commitment Fn Point) :
    fromBytes (F := Fn) (G := Point) (commitmentCodec (Secp.suite X)) bs = .ok c ↔
      ∃ rest, bs = encScalar c.secret ++ encPoint c.commit ++ rest := by
  rw [fromBytes_ok]
  constructor
  · rintro ⟨rest, hd⟩
    exact ⟨rest, (commitment_exact (C148_canonical X) bs c rest hd).1⟩
  · rintro ⟨rest, rfl⟩
    exact ⟨rest, (commitment_roundTrip (C148_codec X)).dec_enc c trivial rest⟩

/-- C183: a nonce that is stored with the point of another one is read without complaint, for every pair of different
nonces. -/
theorem C183_mismatch_read (a b : Fn) (h : a ≠ b) :
    ∃ c, fromBytes (F := Fn) (G := Point) (commitmentCodec (Secp.suite X))
        (encScalar a ++ encPoint (b • (Secp.suite X).gen)) = .ok c ∧
      ¬ Spec.Consistent (Secp.suite X).gen c := by
  refine ⟨⟨a, b • (Secp.suite X).gen⟩, (C183_read_iff X _ _).mpr ⟨[], (List.append_nil _).symm⟩, fun hc => h ?_⟩
  have hc' : b • (Secp.suite X).gen = a • (Secp.suite X).gen := hc
  exact (C148_group X).gen_inj _ _ hc'.symm

/-- C183: `sign` uses the stored nonces and never the stored points. Whatever is stored, the share that it returns
satisfies the equation of an entry of the signer list exactly if the entry belongs to the nonces. -/
theorem C183_signed_with {F G R : Type} [Field F] [DecidableEq F] [AddCommGroup G] [Module F G] [DecidableEq G]
    (S : Suite F G R) (dbg : Bool) (sk : IndividualSigningKey F) (msg : Bytes) (Y : G)
    (L : List (CommitmentShare F G)) (k : UInt64) (signers : List (Signer G)) (p : PartialSignature F)
    (h : (sign S dbg sk msg Y L k signers).1 = .ok p) (share : CommitmentShare F G) (hs : L[k.toNat]? = some share)
    (entry : G × G) :
    Spec.PartialValid S Y msg signers ⟨sk.index, entry⟩ (sk.toPublic S).share p.z ↔
      entry.1 + Spec.rho S msg signers sk.index • entry.2 =
        share.hidingC.secret • S.gen + Spec.rho S msg signers sk.index • share.bindingC.secret • S.gen := by
  unfold sign at h
  cases hc : signCore S dbg sk msg Y L k signers with
  | error f => rw [hc] at h; cases h
  | ok v =>
    rw [hc] at h
    obtain ⟨h1, _, _, _, _, h2⟩ := signCore_ok S dbg sk msg Y L k signers v.1 v.2 hc
    rw [hs] at h1
    simp only [Option.some.injEq] at h1
    simp only [Except.ok.injEq] at h
    subst h
    unfold Spec.PartialValid Spec.signerCommitment
    simp only [h2, ← h1, IndividualSigningKey.toPublic]
    have e : (share.hidingC.secret + share.bindingC.secret * Spec.rho S msg signers sk.index +
          Spec.lagrange (signers.map (·.participantIndex)) sk.index * sk.key *
            Spec.sessionChallenge S Y msg signers) • S.gen =
        (share.hidingC.secret • S.gen + Spec.rho S msg signers sk.index • share.bindingC.secret • S.gen) +
        (Spec.sessionChallenge S Y msg signers * Spec.lagrange (signers.map (·.participantIndex)) sk.index) •
          sk.key • S.gen := by module
    rw [e, add_left_inj]
    exact eq_comm

/-- C183: a signer whose stored hiding nonce does not belong to its stored point signs without an error, and the share is
invalid for the points that it stored and published. -/
theorem C183_damaged_nonce {F G R : Type} [Field F] [DecidableEq F] [AddCommGroup G] [Module F G] [DecidableEq G]
    (S : Suite F G R) (dbg : Bool) (sk : IndividualSigningKey F) (msg : Bytes) (Y : G)
    (L : List (CommitmentShare F G)) (k : UInt64) (signers : List (Signer G)) (p : PartialSignature F)
    (h : (sign S dbg sk msg Y L k signers).1 = .ok p) (share : CommitmentShare F G) (hs : L[k.toNat]? = some share)
    (hh : ¬ Spec.Consistent S.gen share.hidingC) (hb : Spec.Consistent S.gen share.bindingC) :
    ¬ Spec.PartialValid S Y msg signers ⟨sk.index, share.publish⟩ (sk.toPublic S).share p.z := by
  rw [C183_signed_with S dbg sk msg Y L k signers p h share hs]
  intro e
  have hb' : share.bindingC.commit = share.bindingC.secret • S.gen := hb
  apply hh
  have e' : share.hidingC.commit + Spec.rho S msg signers sk.index • share.bindingC.commit =
      share.hidingC.secret • S.gen + Spec.rho S msg signers sk.index • share.bindingC.secret • S.gen := e
  rw [hb', add_left_inj] at e'
  exact e'

/-! ### The bytes of the crate's test -/

/-- `[255; 64]` is too short, and its first 32 bytes are not below the order; the longer `[255; 65]`, which is long
enough, is refused for its nonce. The same for `[255; 128]` and `[255; 130]`. -/
example : Spec.Refused Fn Point (commitmentCodec (Secp.suite X)) (List.replicate 64 255) ∧
    Spec.Refused Fn Point (commitmentCodec (Secp.suite X)) (List.replicate 65 255) ∧
    Spec.Refused Fn Point (commitmentShareCodec (Secp.suite X)) (List.replicate 128 255) ∧
    Spec.Refused Fn Point (commitmentShareCodec (Secp.suite X)) (List.replicate 130 255) :=
  ⟨((C183_short X _).1 (by rw [List.length_replicate]; norm_num)).1, ((C183_not_reduced X _).1 (by decide +kernel)).1,
    ((C183_short X _).2 (by rw [List.length_replicate]; norm_num)).1,
    ((C183_not_reduced X _).2 (.inl (by decide +kernel))).1⟩

/-- The order itself, as the second nonce of a pair whose first nonce is zero. -/
example : Spec.Refused Fn Point (commitmentShareCodec (Secp.suite X))
    (List.replicate 64 0 ++ [64] ++ leBytes 32 Cases.secp256k1Order ++ List.replicate 32 0 ++ [64]) :=
  ((C183_not_reduced X _).2 (.inr (by decide +kernel))).1

/-- Zero with the point of one. -/
example : (0 : Fn) ≠ 1 := by decide

section DamagedNonce
open Toy SigningExamples

/-- The pair of signer 3 with another hiding nonce under the same points. -/
def damagedShare : CommitmentShare Fp Fp := ⟨⟨(share 3).hidingC.secret + 1, (share 3).hidingC.commit⟩, (share 3).bindingC⟩

/-- Signer 3 signs with it, and the share does not fit the points that it published. -/
example : (sign suite true ⟨3, key 3⟩ [1, 2] 42 [damagedShare] 0
      [⟨1, (share 1).publish⟩, ⟨3, (share 3).publish⟩]).1.toOption.isSome = true ∧
    ¬ Spec.Consistent suite.gen damagedShare.hidingC ∧ Spec.Consistent suite.gen damagedShare.bindingC ∧
    damagedShare.publish = (share 3).publish := by
  refine ⟨by decide +kernel, ?_, ?_, rfl⟩
  · show ¬ (_ = _)
    decide +kernel
  · show _ = _
    decide +kernel

end DamagedNonce

end IceFrost
