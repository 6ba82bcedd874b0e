import Verif.Props.NonceBytes
import Verif.Props.Params
import Verif.Props.Signing
import Verif.Lemmas.Shares
import Mathlib.Algebra.BigOperators.Intervals
import Mathlib.Algebra.BigOperators.Fin

/-! # C184: how many byte strings are read, and how many of them pass the checks

For the types of fixed length of the shipped suite: how many strings of this length `from_bytes` reads, and how many of
these are sound parameters, valid signatures, valid shares and keys of a given holder. -/

set_option linter.unusedSectionVars false
set_option linter.unusedVariables false

namespace IceFrost

open Codec
open Secp (Parts Fn Point card_points)

variable {R : Type} (X : Parts R)

section Lemmas

theorem natCard_u32 : Nat.card U32 = 2 ^ 32 := by
  rw [Nat.card_congr (β := Fin (2 ^ 32)) ⟨UInt32.toFin, UInt32.ofFin, fun _ => rfl, fun _ => rfl⟩, Nat.card_fin]

theorem natCard_point : Nat.card Point = Cases.secp256k1Order := by rw [Nat.card_eq_fintype_card, card_points]

theorem natCard_true {α : Type} : Nat.card {x : α // True} = Nat.card α :=
  Nat.card_congr (Equiv.subtypeUnivEquiv (fun _ => trivial))

def paramsEquiv : Params ≃ U32 × U32 where
  toFun p := (p.n, p.t)
  invFun p := ⟨p.1, p.2⟩
  left_inv _ := rfl
  right_inv _ := rfl

/-- The sound parameters, as a number below 2^32 and a number below it. -/
def soundEquiv : {p : Params // p.n ≠ 0 ∧ p.t ≠ 0 ∧ p.t.toNat ≤ p.n.toNat} ≃ Σ a : Fin (2 ^ 32), Fin a.val where
  toFun p := ⟨p.1.n.toFin, ⟨p.1.t.toNat - 1, by
    have h1 : p.1.t.toNat ≠ 0 := fun h => p.2.2.1 (UInt32.toNat_inj.mp h)
    have h2 := p.2.2.2
    have h3 : p.1.n.toFin.val = p.1.n.toNat := rfl
    omega⟩⟩
  invFun q := ⟨⟨UInt32.ofFin q.1, UInt32.ofNat (q.2.val + 1)⟩, by
    have hq := q.2.isLt
    have hb := q.1.isLt
    have h1 : (UInt32.ofFin q.1).toNat = q.1.val := rfl
    have h2 : (UInt32.ofNat (q.2.val + 1)).toNat = q.2.val + 1 := by
      rw [UInt32.toNat_ofNat']
      exact Nat.mod_eq_of_lt (by omega)
    refine ⟨fun h => ?_, fun h => ?_, ?_⟩
    · have : (UInt32.ofFin q.1).toNat = 0 := congrArg UInt32.toNat h
      omega
    · have : (UInt32.ofNat (q.2.val + 1)).toNat = 0 := congrArg UInt32.toNat h
      omega
    · show (UInt32.ofNat (q.2.val + 1)).toNat ≤ (UInt32.ofFin q.1).toNat
      omega⟩
  left_inv p := by
    obtain ⟨⟨n, t⟩, h0, h1, h2⟩ := p
    have ht : t.toNat ≠ 0 := fun h => h1 (UInt32.toNat_inj.mp h)
    apply Subtype.ext
    show (⟨n, UInt32.ofNat (t.toNat - 1 + 1)⟩ : Params) = ⟨n, t⟩
    rw [Nat.sub_add_cancel (by omega), UInt32.ofNat_toNat]
  right_inv q := by
    obtain ⟨a, b⟩ := q
    have hb := b.isLt
    have ha := a.isLt
    have h2 : (UInt32.ofNat (b.val + 1)).toNat = b.val + 1 := by
      rw [UInt32.toNat_ofNat']
      exact Nat.mod_eq_of_lt (by omega)
    refine Sigma.ext rfl (heq_of_eq ?_)
    apply Fin.ext
    show (UInt32.ofNat (b.val + 1)).toNat - 1 = b.val
    omega

theorem natCard_triangle (N : ℕ) : Nat.card (Σ a : Fin N, Fin a.val) = N * (N - 1) / 2 := by
  rw [Nat.card_sigma]
  simp only [Nat.card_fin]
  rw [Fin.sum_univ_eq_sum_range (fun a => a) N, Finset.sum_range_id]

def signatureEquiv (F G : Type) : ThresholdSignature F G ≃ G × F where
  toFun s := (s.groupCommitment, s.z)
  invFun p := ⟨p.1, p.2⟩
  left_inv _ := rfl
  right_inv _ := rfl

def signingKeyEquiv (F : Type) : IndividualSigningKey F ≃ U32 × F where
  toFun s := (s.index, s.key)
  invFun p := ⟨p.1, p.2⟩
  left_inv _ := rfl
  right_inv _ := rfl

def partialSignatureEquiv (F : Type) : PartialSignature F ≃ U32 × F where
  toFun s := (s.index, s.z)
  invFun p := ⟨p.1, p.2⟩
  left_inv _ := rfl
  right_inv _ := rfl

def secretShareEquiv (F : Type) : SecretShare F ≃ (U32 × U32) × F where
  toFun s := ((s.senderIndex, s.receiverIndex), s.eval)
  invFun p := ⟨p.1.1, p.1.2, p.2⟩
  left_inv _ := rfl
  right_inv _ := rfl

/-- A property of pairs that for each first component holds for one second component is met as often as there are first
components. -/
theorem natCard_graph {α β γ : Type} (e : γ ≃ α × β) (P : γ → Prop)
    (h : ∀ a, ∃! b, P (e.symm (a, b))) : Nat.card {x // P x} = Nat.card α := by
  refine Nat.card_congr (Equiv.ofBijective (fun x => (e x.1).1) ⟨?_, ?_⟩)
  · rintro ⟨x, hx⟩ ⟨y, hy⟩ hxy
    have hxy' : (e x).1 = (e y).1 := hxy
    obtain ⟨b, -, hb⟩ := h (e x).1
    have h1 : (e x).2 = b := hb _ (by
      show P (e.symm (e x))
      rwa [Equiv.symm_apply_apply])
    have h2 : (e y).2 = b := hb _ (by
      show P (e.symm ((e x).1, (e y).2))
      rw [hxy']
      show P (e.symm (e y))
      rwa [Equiv.symm_apply_apply])
    exact Subtype.ext (e.injective (Prod.ext hxy' (h1.trans h2.symm)))
  · intro a
    obtain ⟨b, hb, -⟩ := h a
    refine ⟨⟨_, hb⟩, ?_⟩
    show (e (e.symm (a, b))).1 = a
    rw [Equiv.apply_symm_apply]

/-- Every point is the multiple of the generator by one scalar. -/
theorem existsUnique_log (P : Point) : ∃! a : Fn, a • (Secp.suite X).gen = P := by
  obtain ⟨a, ha⟩ := (C148_group X).gen_surj P
  exact ⟨a, ha.symm, fun b hb => (C148_group X).gen_inj _ _ (hb.trans ha)⟩

end Lemmas

/-- C184: all strings of 8 bytes are read as parameters, and of the 2^64 of them 2^31 (2^32 - 1), less than half, would
have been accepted by `ThresholdParameters::new`. -/
theorem C184_params (F G : Type) (dbg : Bool) :
    (Spec.readAs F G paramsCodec 8 (fun _ => True)).ncard = 2 ^ 64 ∧
    (Spec.readAs F G paramsCodec 8 (fun p => (Params.new dbg p.n p.t : Res F G Params) = .ok p)).ncard =
      2 ^ 31 * (2 ^ 32 - 1) := by
  have hl : ∀ p, (paramsCodec.enc p).length = 8 := fun p => params_roundTrip.size_eq p trivial
  constructor
  · rw [readAs_ncard params_roundTrip params_exact 8 hl, natCard_true, Nat.card_congr paramsEquiv, Nat.card_prod,
      natCard_u32, ← pow_add]
  · rw [readAs_ncard params_roundTrip params_exact 8 hl]
    have : Nat.card {p : Params // (Params.new dbg p.n p.t : Res F G Params) = .ok p} =
        Nat.card {p : Params // p.n ≠ 0 ∧ p.t ≠ 0 ∧ p.t.toNat ≤ p.n.toNat} :=
      Nat.card_congr (Equiv.subtypeEquivRight fun p => by
        rw [C01_params_accepted]
        exact ⟨fun h => h.1, fun h => ⟨h, rfl⟩⟩)
    rw [this, Nat.card_congr soundEquiv, natCard_triangle]
    norm_num

/-- C184: of the strings of 65 bytes n² are read as a signature, and for every group key and every message n of them
verify: one response for every point. -/
theorem C184_signatures (Y : Point) (msg : Bytes) :
    (Spec.readAs Fn Point (signatureCodec (Secp.suite X)) 65 (fun _ => True)).ncard = Cases.secp256k1Order ^ 2 ∧
    (Spec.readAs Fn Point (signatureCodec (Secp.suite X)) 65
      (fun sig => verifySignature (Secp.suite X) Y sig msg = .ok ())).ncard = Cases.secp256k1Order := by
  have hr := signature_roundTrip (C148_codec X)
  have he := signature_exact (C148_canonical X)
  have hl : ∀ s, ((signatureCodec (Secp.suite X)).enc s).length = 65 := fun s => hr.size_eq s trivial
  constructor
  · rw [readAs_ncard hr he 65 hl, natCard_true, Nat.card_congr (signatureEquiv Fn Point), Nat.card_prod, natCard_Fn,
      natCard_point, pow_two]
  · rw [readAs_ncard hr he 65 hl, natCard_graph (signatureEquiv Fn Point), natCard_point]
    intro P
    obtain ⟨z, hz, hu⟩ := existsUnique_log X (P + Spec.challenge (Secp.suite X) P Y msg • Y)
    refine ⟨z, (C63_verify_iff (Secp.suite X) ⟨P, z⟩ Y msg).2.1.mpr hz, fun z' hz' => hu z' ?_⟩
    exact (C63_verify_iff (Secp.suite X) ⟨P, z'⟩ Y msg).2.1.mp hz'

/-- C184: of the strings of 36 bytes 2^32 n are read as a signing key, and for every verifying key one of them belongs to
it. Index 0 and key 0 are among those that are read. -/
theorem C184_signing_keys (vk : IndividualVerifyingKey Point) :
    (Spec.readAs Fn Point (signingKeyCodec (Secp.suite X)) 36 (fun _ => True)).ncard = 2 ^ 32 * Cases.secp256k1Order ∧
    (Spec.readAs Fn Point (signingKeyCodec (Secp.suite X)) 36 (fun k => k.toPublic (Secp.suite X) = vk)).ncard = 1 := by
  have hr := signingKey_roundTrip (C148_codec X)
  have he := signingKey_exact (C148_canonical X)
  have hl : ∀ s, ((signingKeyCodec (Secp.suite X)).enc s).length = 36 := fun s => hr.size_eq s trivial
  constructor
  · rw [readAs_ncard hr he 36 hl, natCard_true, Nat.card_congr (signingKeyEquiv Fn), Nat.card_prod, natCard_Fn,
      natCard_u32]
  · rw [readAs_ncard hr he 36 hl]
    obtain ⟨a, ha, hu⟩ := existsUnique_log X vk.share
    rw [Nat.card_eq_one_iff_exists]
    refine ⟨⟨⟨vk.index, a⟩, ?_⟩, ?_⟩
    · show (⟨vk.index, a • (Secp.suite X).gen⟩ : IndividualVerifyingKey Point) = vk
      rw [show a • (Secp.suite X).gen = vk.share from ha]
    · rintro ⟨k, hk⟩
      subst hk
      exact Subtype.ext (congrArg (IndividualSigningKey.mk k.index) (hu k.key rfl))

/-- C184: of the strings of 40 bytes 2^64 n are read as a share. Against any commitment 2^64 of them verify: one value for
every receiver, with every possible name of a sender. -/
theorem C184_shares (c : VssCommitment Point) :
    (Spec.readAs Fn Point (secretShareCodec (Secp.suite X)) 40 (fun _ => True)).ncard = 2 ^ 64 * Cases.secp256k1Order ∧
    (Spec.readAs Fn Point (secretShareCodec (Secp.suite X)) 40
      (fun s => s.verify (Secp.suite X) c = .ok ())).ncard = 2 ^ 64 := by
  have hr := secretShare_roundTrip (C148_codec X)
  have he := secretShare_exact (C148_canonical X)
  have hl : ∀ s, ((secretShareCodec (Secp.suite X)).enc s).length = 40 := fun s => hr.size_eq s trivial
  constructor
  · rw [readAs_ncard hr he 40 hl, natCard_true, Nat.card_congr (secretShareEquiv Fn), Nat.card_prod, Nat.card_prod,
      natCard_Fn, natCard_u32, ← pow_add]
  · rw [readAs_ncard hr he 40 hl, natCard_graph (secretShareEquiv Fn), Nat.card_prod, natCard_u32, ← pow_add]
    rintro ⟨i, j⟩
    obtain ⟨z, hz, hu⟩ := existsUnique_log X (Spec.pointEval c.points (u32F Fn j))
    refine ⟨z, (verify_ok_iff (Secp.suite X) ⟨i, j, z⟩ c).mpr hz, fun z' hz' => hu z' ?_⟩
    exact (verify_ok_iff (Secp.suite X) ⟨i, j, z'⟩ c).mp hz'

/-- C184: of the strings of 36 bytes 2^32 n are read as a partial signature, and for every session and signer one of those
with the signer's index satisfies the share equation. -/
theorem C184_partial_signatures (Y : Point) (msg : Bytes) (signers : List (Signer Point)) (s : Signer Point)
    (pk : Point) :
    (Spec.readAs Fn Point (partialSignatureCodec (Secp.suite X)) 36 (fun _ => True)).ncard =
      2 ^ 32 * Cases.secp256k1Order ∧
    (Spec.readAs Fn Point (partialSignatureCodec (Secp.suite X)) 36 (fun p =>
      p.index = s.participantIndex ∧ Spec.PartialValid (Secp.suite X) Y msg signers s pk p.z)).ncard = 1 := by
  have hr := partialSignature_roundTrip (C148_codec X)
  have he := partialSignature_exact (C148_canonical X)
  have hl : ∀ s, ((partialSignatureCodec (Secp.suite X)).enc s).length = 36 := fun s => hr.size_eq s trivial
  constructor
  · rw [readAs_ncard hr he 36 hl, natCard_true, Nat.card_congr (partialSignatureEquiv Fn), Nat.card_prod, natCard_Fn,
      natCard_u32]
  · rw [readAs_ncard hr he 36 hl]
    obtain ⟨z, hz, hu⟩ := existsUnique_log X (Spec.signerCommitment (Secp.suite X) msg signers s +
      (Spec.sessionChallenge (Secp.suite X) Y msg signers *
        Spec.lagrange (signers.map (·.participantIndex)) s.participantIndex) • pk)
    rw [Nat.card_eq_one_iff_exists]
    refine ⟨⟨⟨s.participantIndex, z⟩, rfl, hz⟩, ?_⟩
    rintro ⟨⟨i, z'⟩, hi, hv⟩
    have h1 : i = s.participantIndex := hi
    have h2 : z' = z := hu z' hv
    have h3 : (⟨i, z'⟩ : PartialSignature Fn) = ⟨s.participantIndex, z⟩ := by rw [h1, h2]
    exact Subtype.ext h3

/-! ### Cases -/

/-- Parameters that are read and not accepted: a threshold of zero, one above the number of participants. -/
example : fromBytes (F := ℕ) (G := ℕ) paramsCodec [3, 0, 0, 0, 0, 0, 0, 0] = .ok ⟨3, 0⟩ ∧
    (Params.new false 3 0 : Res ℕ ℕ Params) ≠ .ok ⟨3, 0⟩ ∧ (Params.new false 3 4 : Res ℕ ℕ Params) ≠ .ok ⟨3, 4⟩ ∧
    (Params.new false 3 2 : Res ℕ ℕ Params) = .ok ⟨3, 2⟩ := by
  refine ⟨rfl, ?_, ?_, rfl⟩ <;> · rw [Ne, C01_params_accepted]; decide

/-- The session of C184_partial_signatures may be any: here two signers. -/
example := C184_partial_signatures X (Secp.suite X).gen [1, 2]
  [⟨1, ((Secp.suite X).gen, (Secp.suite X).gen)⟩, ⟨3, ((Secp.suite X).gen, 0)⟩] ⟨3, ((Secp.suite X).gen, 0)⟩
  (Secp.suite X).gen

end IceFrost
