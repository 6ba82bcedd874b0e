import Verif.Props.SignatureTheory
import Verif.Props.Serialization

/-! # C97, C98: what partial signatures reveal, and the forms of a signature -/

set_option linter.unusedSectionVars false
set_option linter.unusedSimpArgs false

namespace IceFrost

open Codec

attribute [local instance] Classical.propDecidable

variable {F G R : Type} [Field F] [DecidableEq F] [AddCommGroup G] [Module F G] [DecidableEq G]

/-! ### C97 -/

/-- What an honest signer shows: its two commitments and its response. -/
structure Spec.Shown (F G : Type) where
  hidingPoint : G
  bindingPoint : G
  z : F

/-- Made with the signing key from the nonces `d`, `e`. -/
def Spec.shownBySigner (S : Suite F G R) (key ρ w d e : F) : Spec.Shown F G :=
  ⟨d • S.gen, e • S.gen, d + e * ρ + key * w⟩

/-- Made from the public key only, from a response `z` and the exponent `e` of the second commitment. -/
def Spec.shownBySimulator (S : Suite F G R) (pk : G) (ρ w z e : F) : Spec.Shown F G :=
  ⟨z • S.gen - ρ • e • S.gen - w • pk, e • S.gen, z⟩

/-- C97: for every binding factor `ρ` and key weight `w` (Lagrange coefficient times challenge), there is a bijection
between the nonces of the signer and the random choices of the simulator under which both show the same. So with
uniform choices the two distributions coincide. -/
theorem C97_simulation (S : Suite F G R) (key ρ w : F) :
    ∃ φ : F × F → F × F, Function.Bijective φ ∧ ∀ d e, Spec.shownBySigner S key ρ w d e =
      Spec.shownBySimulator S (key • S.gen) ρ w (φ (d, e)).1 (φ (d, e)).2 := by
  refine ⟨fun p => (p.1 + p.2 * ρ + key * w, p.2), ⟨?_, ?_⟩, ?_⟩
  · rintro ⟨d, e⟩ ⟨d', e'⟩ h
    simp only [Prod.mk.injEq] at h ⊢
    obtain ⟨h, rfl⟩ := h
    exact ⟨by linear_combination h, rfl⟩
  · rintro ⟨z, e⟩
    exact ⟨(z - e * ρ - key * w, e), by simp only [Prod.mk.injEq, and_true]; ring⟩
  · intro d e
    simp only [Spec.shownBySigner, Spec.shownBySimulator, Spec.Shown.mk.injEq, and_true]
    module

/-- C97: what `publish` and `sign` show is the signer's side of `C97_simulation` for the session's binding factor and
key weight. -/
theorem C97_sign_shows (S : Suite F G R) (dbg : Bool) (sk : IndividualSigningKey F) (msg : Bytes) (Y : G)
    (L : List (CommitmentShare F G)) (k : UInt64) (signers : List (Signer G)) (p : PartialSignature F)
    (h : (sign S dbg sk msg Y L k signers).1 = .ok p) (share : CommitmentShare F G) (hs : L[k.toNat]? = some share)
    (hh : share.hidingC.commit = share.hidingC.secret • S.gen)
    (hb : share.bindingC.commit = share.bindingC.secret • S.gen) :
    (⟨share.publish.1, share.publish.2, p.z⟩ : Spec.Shown F G) =
      Spec.shownBySigner S sk.key (Spec.rho S msg signers sk.index) (Spec.keyWeight S Y msg signers sk.index)
        share.hidingC.secret share.bindingC.secret := by
  obtain ⟨share', h1, _, h2⟩ := sign_response h
  rw [hs, Option.some.injEq] at h1
  subst h1
  simp only [Spec.shownBySigner, CommitmentShare.publish, hh, hb, h2]

/-- A suite whose field hash answers `v` at one point. -/
def Suite.program (S : Suite F G R) (domain input : Bytes) (v : F) : Suite F G R :=
  { S with fieldHash := fun d m => if d = domain ∧ m = input then v else S.fieldHash d m }

/-- C97: what the simulator shows passes the check of the aggregator. For any session (message, key, other signers with
any commitments), any public key, and any `ρ`, `c`, `z`, `e` chosen without the signing key, the share equation holds
in the session with the simulated commitments, if the hash answers `ρ` on the simulated signer's binding input and
then `c` on the challenge input. -/
theorem C97_simulated_accepted (S : Suite F G R) (Y pk : G) (msg : Bytes) (i : U32) (pre post : List (Signer G))
    (ρ c z e : F) :
    let l := pre.map (·.participantIndex) ++ i :: post.map (·.participantIndex)
    let sh := Spec.shownBySimulator S pk ρ (Spec.lagrange l i * c) z e
    let s : Signer G := ⟨i, sh.hidingPoint, sh.bindingPoint⟩
    let signers := pre ++ s :: post
    let S₁ := S.program (S.contextString ++ strBytes "rho") (Spec.rhoInput S msg signers i) ρ
    let S₂ := S₁.program (S.contextString ++ strBytes "challenge")
      (S.encG (Spec.groupCommitment S₁ msg signers) ++ S.encG Y ++ msg) c
    Spec.PartialValid S₂ Y msg signers s pk sh.z := by
  intro l sh s signers S₁ S₂
  have hne : S.contextString ++ strBytes "rho" ≠ S.contextString ++ strBytes "challenge" := by
    intro h
    have := List.append_cancel_left h
    revert this
    decide
  have hrho : ∀ j, Spec.rho S₂ msg signers j = Spec.rho S₁ msg signers j := by
    intro j
    show (if _ ∧ _ then c else S₁.fieldHash _ _) = S₁.fieldHash _ _
    exact if_neg fun h => hne h.1
  have hgc : Spec.groupCommitment S₂ msg signers = Spec.groupCommitment S₁ msg signers := by
    unfold Spec.groupCommitment Spec.signerCommitment
    simp only [hrho]
  have hi : Spec.rho S₂ msg signers i = ρ := by
    rw [hrho]
    show (if _ ∧ _ then ρ else S.fieldHash _ _) = ρ
    exact if_pos ⟨rfl, rfl⟩
  have hc : Spec.sessionChallenge S₂ Y msg signers = c := by
    unfold Spec.sessionChallenge
    rw [hgc]
    show (if _ ∧ _ then c else S₁.fieldHash _ _) = c
    exact if_pos ⟨rfl, rfl⟩
  have hl : signers.map (·.participantIndex) = l := by simp [signers, l, s]
  unfold Spec.PartialValid Spec.signerCommitment
  rw [hc, hl, show s.participantIndex = i from rfl, hi]
  simp only [s, sh, Spec.shownBySimulator]
  show z • S.gen = _
  module

/-! ### C98 -/

/-- C98: for a key, message and commitment exactly one response is accepted. -/
theorem C98_one_response {S : Suite F G R} (hg : S.GroupLaws) (Y P : G) (msg : Bytes) :
    ∃! z : F, (⟨P, z⟩ : ThresholdSignature F G).verify S Y msg = .ok () := by
  obtain ⟨z, hz⟩ := hg.gen_surj (P + Spec.challenge S P Y msg • Y)
  refine ⟨z, (verify_iff S _ Y msg).mpr hz.symm, fun z' h' => ?_⟩
  beta_reduce at h'
  rw [verify_iff] at h'
  exact hg.gen_inj _ _ (h'.trans hz)

/-- C98 over bytes, what holds: two accepted byte strings of the size of a signature with the same commitment are the
same string, and the string is the encoding of what is read. `CanonicalDec`: points and scalars have one accepted
encoding. Missing: strings of other sizes (`C98_second_form`). -/
theorem C98_bytes_partial {S : Suite F G R} (hg : S.GroupLaws) (hd : S.CodecLaws) (hcan : S.CanonicalDec) (Y : G)
    (msg bs bs' : Bytes) (sig sig' : ThresholdSignature F G) (hl : bs.length = S.sizeG + S.sizeF)
    (hl' : bs'.length = S.sizeG + S.sizeF) (h : fromBytes (F := F) (G := G) (signatureCodec S) bs = .ok sig)
    (h' : fromBytes (F := F) (G := G) (signatureCodec S) bs' = .ok sig') (hv : sig.verify S Y msg = .ok ())
    (hv' : sig'.verify S Y msg = .ok ()) (hP : sig.groupCommitment = sig'.groupCommitment) :
    bs = bs' ∧ toBytes (F := F) (G := G) (signatureCodec S) sig = .ok bs := by
  have key : ∀ bs sig, bs.length = S.sizeG + S.sizeF → fromBytes (F := F) (G := G) (signatureCodec S) bs = .ok sig →
      toBytes (F := F) (G := G) (signatureCodec S) sig = .ok bs := by
    intro bs sig hl h
    obtain ⟨enc, rest, h1, h2⟩ := (signature_exact hcan).acceptsOnly (F := F) (G := G) bs sig h
    have he : enc = S.encG sig.groupCommitment ++ S.encF sig.z := by
      simp only [toBytes, Except.ok.injEq] at h1
      exact h1.symm
    have hr : rest.length = 0 := by
      have := congrArg List.length h2
      rw [List.length_append, he, List.length_append, hd.encG_length, hd.encF_length] at this
      omega
    rw [h1, h2, List.length_eq_zero_iff.mp hr, List.append_nil]
  have k := key bs sig hl h
  have k' := key bs' sig' hl' h'
  obtain ⟨P, z⟩ := sig
  obtain ⟨P', z'⟩ := sig'
  simp only at hP
  subst hP
  rw [(C98_one_response hg Y P msg).unique hv hv'] at k
  rw [k] at k'
  refine ⟨Except.ok.inj k', ?_⟩
  rw [(C98_one_response hg Y P msg).unique hv hv']
  exact k

/-- C98 is false for byte strings: every accepted one has further accepted forms, which verify alike. -/
theorem C98_second_form {S : Suite F G R} (hcan : S.CanonicalDec) (hd : S.CodecLaws) (Y : G) (msg bs : Bytes)
    (sig : ThresholdSignature F G) (h : fromBytes (F := F) (G := G) (signatureCodec S) bs = .ok sig)
    (hv : sig.verify S Y msg = .ok ()) :
    ∃ bs', bs' ≠ bs ∧ ∃ sig', fromBytes (F := F) (G := G) (signatureCodec S) bs' = .ok sig' ∧
      sig'.verify S Y msg = .ok () := by
  obtain ⟨enc, rest, h1, h2⟩ := (signature_exact hcan).acceptsOnly (F := F) (G := G) bs sig h
  refine ⟨bs ++ [0], ?_, sig, ?_, hv⟩
  · intro he
    have := congrArg List.length he
    simp at this
  · rw [h2, List.append_assoc]
    exact C74_trailing_accepted hd sig _ enc h1

/-! ### Instances -/

section Examples

open Toy

/-- A signature that verifies exists for every key and commitment point, with the right size. -/
example : ∃ z : Fp, (⟨5, z⟩ : ThresholdSignature Fp Fp).verify suite 7 [1, 2] = .ok () ∧
    ∃ bs, toBytes (F := Fp) (G := Fp) (signatureCodec suite) ⟨5, z⟩ = .ok bs ∧ bs.length = 12 ∧
      fromBytes (F := Fp) (G := Fp) (signatureCodec suite) bs = .ok ⟨5, z⟩ ∧
      fromBytes (F := Fp) (G := Fp) (signatureCodec suite) (bs ++ [0]) = .ok ⟨5, z⟩ := by
  obtain ⟨z, hz, _⟩ := C98_one_response group_laws (7 : Fp) 5 [1, 2]
  refine ⟨z, hz, _, rfl, ?_, ?_, C74_trailing_accepted codec_laws _ [0] _ rfl⟩
  · show (Toy.enc 5 ++ Toy.enc z).length = 12
    rw [List.length_append, enc_length, enc_length]
  · have := C74_trailing_accepted codec_laws (⟨5, z⟩ : ThresholdSignature Fp Fp) [] _ rfl
    rwa [List.append_nil] at this

end Examples

end IceFrost
