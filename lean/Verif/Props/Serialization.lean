import Verif.Toy
import Verif.Lemmas.Codec
import Verif.Lemmas.RoundOne

/-! # C72–C76: encodings -/

set_option linter.unusedSectionVars false
set_option linter.unusedSimpArgs false

namespace IceFrost

open Codec

namespace Spec
variable (F G : Type) {α : Type}

/-- Writing succeeds, and reading what was written gives the same value. -/
def Survives (c : Codec α) (x : α) : Prop :=
  ∃ bs, toBytes (F := F) (G := G) c x = .ok bs ∧ fromBytes (F := F) (G := G) c bs = .ok x

/-- On values satisfying `P`: no encoding is a prefix of that of another value (in particular encoding is injective),
and the declared size is the number of bytes written. -/
def PrefixFree (c : Codec α) (P : α → Prop) : Prop :=
  (∀ x y bs bs', P x → P y → toBytes (F := F) (G := G) c x = .ok bs → toBytes (F := F) (G := G) c y = .ok bs' →
    bs <+: bs' → x = y) ∧
  ∀ x bs, P x → toBytes (F := F) (G := G) c x = .ok bs → bs.length = c.size x

/-- Every accepted byte string is the encoding of the result, possibly followed by ignored bytes. -/
def AcceptsOnlyEncodings (c : Codec α) : Prop :=
  ∀ bs x, fromBytes (F := F) (G := G) c bs = .ok x →
    ∃ enc rest, toBytes (F := F) (G := G) c x = .ok enc ∧ bs = enc ++ rest

end Spec

section Generic
variable {F G α : Type} {c : Codec α} {P : α → Prop}

theorem fromBytes_ok {bs : Bytes} {x : α} :
    fromBytes (F := F) (G := G) c bs = .ok x ↔ ∃ rest, c.dec bs = some (x, rest) := by
  unfold fromBytes
  constructor
  · intro h
    split at h
    · next a r e => simp only [Except.ok.injEq] at h; subst h; exact ⟨r, e⟩
    · cases h
  · rintro ⟨rest, h⟩
    rw [h]

theorem fromBytes_error {bs : Bytes} :
    fromBytes (F := F) (G := G) c bs = .error .deserializationError ↔ c.dec bs = none := by
  unfold fromBytes
  constructor
  · intro h
    split at h
    · cases h
    · next e => exact e
  · intro h
    rw [h]

theorem Codec.RoundTrip.survives (h : c.RoundTrip P) {x : α} (hx : P x) : Spec.Survives F G c x := by
  refine ⟨c.enc x, rfl, fromBytes_ok.mpr ⟨[], ?_⟩⟩
  have := h.dec_enc x hx []
  rwa [List.append_nil] at this

theorem Codec.RoundTrip.prefixFree (h : c.RoundTrip P) : Spec.PrefixFree F G c P := by
  constructor
  · intro x y bs bs' hx hy h1 h2 hp
    simp only [toBytes, Except.ok.injEq] at h1 h2
    subst h1 h2
    obtain ⟨t, ht⟩ := hp
    exact (h.enc_append_inj hx hy (x := t) (y := []) (by rw [ht, List.append_nil])).1
  · intro x bs hx h1
    simp only [toBytes, Except.ok.injEq] at h1
    subst h1
    exact h.size_eq x hx

theorem Codec.Canonical.acceptsOnly (h : c.Canonical P) : Spec.AcceptsOnlyEncodings F G c := by
  intro bs x hx
  obtain ⟨rest, hr⟩ := fromBytes_ok.mp hx
  exact ⟨c.enc x, rest, rfl, (h bs x rest hr).1⟩

end Generic

variable {F G R : Type} [Field F] [DecidableEq F] [AddCommGroup G] [Module F G] [DecidableEq G]

section C72
variable {S : Suite F G R} (hd : S.CodecLaws)
include hd

/-- C72: parameters. -/
theorem C72_params (p : Params) : Spec.Survives F G paramsCodec p := params_roundTrip.survives trivial
/-- C72: secret shares. -/
theorem C72_secret_share (s : SecretShare F) : Spec.Survives F G (secretShareCodec S) s :=
  (secretShare_roundTrip hd).survives trivial
/-- C72: polynomial coefficients, any number of them. -/
theorem C72_coefficients (l : List F) (h : l.length < 2 ^ 64) : Spec.Survives F G (coefficientsCodec S) l :=
  (coefficients_roundTrip hd).survives h
/-- C72: encrypted shares with a nonce of the cipher's size. -/
theorem C72_encrypted_share (e : EncShare) (h : e.Fits S) : Spec.Survives F G (encShareCodec S) e :=
  encShare_roundTrip.survives h
/-- C72: secret sharing commitments of any length. -/
theorem C72_vss (c : VssCommitment G) (h : c.Fits) : Spec.Survives F G (vssCodec S) c :=
  (vss_roundTrip hd).survives h
/-- C72: proofs of knowledge. -/
theorem C72_nizk (p : Nizk F) : Spec.Survives F G (nizkCodec S) p := (nizk_roundTrip hd).survives trivial
/-- C72: complaint proofs. -/
theorem C72_complaint_proof (p : ComplaintProof F G) : Spec.Survives F G (complaintProofCodec S) p :=
  (complaintProof_roundTrip hd).survives trivial
/-- C72: complaints. -/
theorem C72_complaint (c : Complaint F G) (h : c.encShare.Fits S) : Spec.Survives F G (complaintCodec S) c :=
  (complaint_roundTrip hd).survives h
/-- C72: participants, dealers and signers. -/
theorem C72_participant (p : Participant F G) (h : p.Fits) : Spec.Survives F G (participantCodec S) p :=
  (participant_roundTrip hd).survives h
/-- C72: Diffie-Hellman private keys. -/
theorem C72_dh_private_key (k : F) : Spec.Survives F G (dhPrivateKeyCodec S) k := (scalar_roundTrip hd).survives trivial
/-- C72: Diffie-Hellman public keys and group verifying keys. -/
theorem C72_public_key (k : G) : Spec.Survives F G (publicKeyCodec S) k := (group_roundTrip hd).survives trivial
/-- C72: individual verifying keys. -/
theorem C72_verifying_key (k : IndividualVerifyingKey G) : Spec.Survives F G (verifyingKeyCodec S) k :=
  (verifyingKey_roundTrip hd).survives trivial
/-- C72: individual signing keys. -/
theorem C72_signing_key (k : IndividualSigningKey F) : Spec.Survives F G (signingKeyCodec S) k :=
  (signingKey_roundTrip hd).survives trivial
/-- C72: round-one states. -/
theorem C72_round_one (d : RoundOne F G) (h : d.state.Fits S) : Spec.Survives F G (roundOneCodec S) d :=
  (roundOne_roundTrip hd).survives h
/-- C72: round-two states. -/
theorem C72_round_two (d : RoundTwo F G) (h : d.state.Fits S) : Spec.Survives F G (roundTwoCodec S) d :=
  (roundTwo_roundTrip hd).survives h
/-- C72: participant lists. -/
theorem C72_participant_list (l : ParticipantList F G) (h : l.Fits) : Spec.Survives F G (participantListCodec S) l :=
  (participantList_roundTrip hd).survives h
/-- C72: commitments (nonce with its point). -/
theorem C72_commitment (c : Commitment F G) : Spec.Survives F G (commitmentCodec S) c :=
  (commitment_roundTrip hd).survives trivial
/-- C72: commitment shares. -/
theorem C72_commitment_share (c : CommitmentShare F G) : Spec.Survives F G (commitmentShareCodec S) c :=
  (commitmentShare_roundTrip hd).survives trivial
/-- C72: secret commitment share lists. -/
theorem C72_secret_list (l : List (CommitmentShare F G)) (h : l.length < 2 ^ 64) :
    Spec.Survives F G (secretListCodec S) l := (secretList_roundTrip hd).survives h
/-- C72: public commitment share lists. -/
theorem C72_public_list (l : PublicCommitmentShareList G) (h : l.commitments.length < 2 ^ 64) :
    Spec.Survives F G (publicListCodec S) l := (publicList_roundTrip hd).survives h
/-- C72: signers. -/
theorem C72_signer (s : Signer G) : Spec.Survives F G (signerCodec S) s := (signer_roundTrip hd).survives trivial
/-- C72: partial signatures. -/
theorem C72_partial_signature (s : PartialSignature F) : Spec.Survives F G (partialSignatureCodec S) s :=
  (partialSignature_roundTrip hd).survives trivial
/-- C72: threshold signatures. -/
theorem C72_signature (s : ThresholdSignature F G) : Spec.Survives F G (signatureCodec S) s :=
  (signature_roundTrip hd).survives trivial

end C72

/-- C73: for every type, encodings are injective, prefix-free and of the declared size. -/
theorem C73_prefix_free {S : Suite F G R} (hd : S.CodecLaws) :
    Spec.PrefixFree F G paramsCodec (fun _ => True) ∧
    Spec.PrefixFree F G (secretShareCodec S) (fun _ => True) ∧
    Spec.PrefixFree F G (coefficientsCodec S) (fun l => l.length < 2 ^ 64) ∧
    Spec.PrefixFree F G (vssCodec S) VssCommitment.Fits ∧
    Spec.PrefixFree F G (nizkCodec S) (fun _ => True) ∧
    Spec.PrefixFree F G (complaintProofCodec S) (fun _ => True) ∧
    Spec.PrefixFree F G (complaintCodec S) (fun c => c.encShare.Fits S) ∧
    Spec.PrefixFree F G (participantCodec S) Participant.Fits ∧
    Spec.PrefixFree F G (dhPrivateKeyCodec S) (fun _ => True) ∧
    Spec.PrefixFree F G (publicKeyCodec S) (fun _ => True) ∧
    Spec.PrefixFree F G (verifyingKeyCodec S) (fun _ => True) ∧
    Spec.PrefixFree F G (signingKeyCodec S) (fun _ => True) ∧
    Spec.PrefixFree F G (roundOneCodec S) (fun d => d.state.Fits S) ∧
    Spec.PrefixFree F G (roundTwoCodec S) (fun d => d.state.Fits S) ∧
    Spec.PrefixFree F G (participantListCodec S) ParticipantList.Fits ∧
    Spec.PrefixFree F G (commitmentCodec S) (fun _ => True) ∧
    Spec.PrefixFree F G (commitmentShareCodec S) (fun _ => True) ∧
    Spec.PrefixFree F G (secretListCodec S) (fun l => l.length < 2 ^ 64) ∧
    Spec.PrefixFree F G (publicListCodec S) (fun l => l.commitments.length < 2 ^ 64) ∧
    Spec.PrefixFree F G (signerCodec S) (fun _ => True) ∧
    Spec.PrefixFree F G (partialSignatureCodec S) (fun _ => True) ∧
    Spec.PrefixFree F G (signatureCodec S) (fun _ => True) :=
  ⟨params_roundTrip.prefixFree, (secretShare_roundTrip hd).prefixFree, (coefficients_roundTrip hd).prefixFree,
    (vss_roundTrip hd).prefixFree, (nizk_roundTrip hd).prefixFree, (complaintProof_roundTrip hd).prefixFree,
    (complaint_roundTrip hd).prefixFree, (participant_roundTrip hd).prefixFree, (scalar_roundTrip hd).prefixFree,
    (group_roundTrip hd).prefixFree, (verifyingKey_roundTrip hd).prefixFree, (signingKey_roundTrip hd).prefixFree,
    (roundOne_roundTrip hd).prefixFree, (roundTwo_roundTrip hd).prefixFree, (participantList_roundTrip hd).prefixFree,
    (commitment_roundTrip hd).prefixFree, (commitmentShare_roundTrip hd).prefixFree,
    (secretList_roundTrip hd).prefixFree, (publicList_roundTrip hd).prefixFree, (signer_roundTrip hd).prefixFree,
    (partialSignature_roundTrip hd).prefixFree, (signature_roundTrip hd).prefixFree⟩

/-- C73: encrypted shares, whose code is hand-written; needs no assumption on points and scalars. The number of bytes
is `4 + 4 + (8 + nonce) + (8 + ciphertext)`. -/
theorem C73_encrypted_share (S : Suite F G R) :
    Spec.PrefixFree F G (encShareCodec S) (EncShare.Fits S) ∧
      ∀ e : EncShare, e.Fits S → ((encShareCodec S).enc e).length = 24 + S.nonceSize + e.ct.length := by
  refine ⟨encShare_roundTrip.prefixFree, fun e he => ?_⟩
  rw [encShare_roundTrip.size_eq e he]
  have h8 : ∀ l : Bytes, (vec u8).size l = 8 + l.length := by
    intro l
    show 8 + (l.map fun _ => 1).sum = _
    simp
  show 4 + (4 + ((vec u8).size e.nonce + (vec u8).size e.ct)) = _
  rw [h8, h8, he.nonce]
  omega

/-- C74, what holds: for every type without a map, an accepted byte string is the encoding of the result followed by
ignored bytes, if points and scalars have a single accepted encoding. Missing from the full statement: the ignored
bytes (`C74_trailing_accepted`), and states (`C74_map_order_accepted`). -/
theorem C74_canonical_partial {S : Suite F G R} (hcan : S.CanonicalDec) :
    Spec.AcceptsOnlyEncodings F G paramsCodec ∧
    Spec.AcceptsOnlyEncodings F G (secretShareCodec S) ∧
    Spec.AcceptsOnlyEncodings F G (coefficientsCodec S) ∧
    Spec.AcceptsOnlyEncodings F G (vssCodec S) ∧
    Spec.AcceptsOnlyEncodings F G (nizkCodec S) ∧
    Spec.AcceptsOnlyEncodings F G (complaintProofCodec S) ∧
    Spec.AcceptsOnlyEncodings F G (complaintCodec S) ∧
    Spec.AcceptsOnlyEncodings F G (participantCodec S) ∧
    Spec.AcceptsOnlyEncodings F G (dhPrivateKeyCodec S) ∧
    Spec.AcceptsOnlyEncodings F G (publicKeyCodec S) ∧
    Spec.AcceptsOnlyEncodings F G (verifyingKeyCodec S) ∧
    Spec.AcceptsOnlyEncodings F G (signingKeyCodec S) ∧
    Spec.AcceptsOnlyEncodings F G (participantListCodec S) ∧
    Spec.AcceptsOnlyEncodings F G (commitmentCodec S) ∧
    Spec.AcceptsOnlyEncodings F G (commitmentShareCodec S) ∧
    Spec.AcceptsOnlyEncodings F G (secretListCodec S) ∧
    Spec.AcceptsOnlyEncodings F G (publicListCodec S) ∧
    Spec.AcceptsOnlyEncodings F G (signerCodec S) ∧
    Spec.AcceptsOnlyEncodings F G (partialSignatureCodec S) ∧
    Spec.AcceptsOnlyEncodings F G (signatureCodec S) :=
  ⟨params_exact.acceptsOnly, (secretShare_exact hcan).acceptsOnly, (coefficients_exact hcan).acceptsOnly,
    (vss_exact hcan).acceptsOnly, (nizk_exact hcan).acceptsOnly, (complaintProof_exact hcan).acceptsOnly,
    (complaint_exact hcan).acceptsOnly, (participant_exact hcan).acceptsOnly, (scalar_canonical hcan).acceptsOnly,
    (group_canonical hcan).acceptsOnly, (verifyingKey_exact hcan).acceptsOnly, (signingKey_exact hcan).acceptsOnly,
    (participantList_exact hcan).acceptsOnly, (commitment_exact hcan).acceptsOnly,
    (commitmentShare_exact hcan).acceptsOnly, (secretList_exact hcan).acceptsOnly, (publicList_exact hcan).acceptsOnly,
    (signer_exact hcan).acceptsOnly, (partialSignature_exact hcan).acceptsOnly, (signature_exact hcan).acceptsOnly⟩

/-- C74, for encrypted shares and parameters no assumption is needed. -/
theorem C74_encrypted_share_partial (S : Suite F G R) : Spec.AcceptsOnlyEncodings F G (encShareCodec S) :=
  encShare_exact.acceptsOnly

/-- C74 is false as stated: `from_bytes` ignores whatever follows. A signature followed by any bytes is read as the
same signature, so signatures as byte strings are malleable. -/
theorem C74_trailing_accepted {S : Suite F G R} (hd : S.CodecLaws) (sig : ThresholdSignature F G) (junk bs : Bytes)
    (h : toBytes (F := F) (G := G) (signatureCodec S) sig = .ok bs) :
    fromBytes (F := F) (G := G) (signatureCodec S) (bs ++ junk) = .ok sig := by
  simp only [toBytes, Except.ok.injEq] at h
  subst h
  exact fromBytes_ok.mpr ⟨junk, (signature_roundTrip hd).dec_enc sig trivial junk⟩

/-- C74 is false as stated: maps are read entry by entry, so the entries may come in any order and be repeated; the
last one of each key counts. -/
theorem C74_map_order_accepted {α : Type} {c : Codec α} {P : α → Prop} (h : c.RoundTrip P) (l : List (U32 × α))
    (hl : l.length < 2 ^ 64) (hp : ∀ e ∈ l, P e.2) :
    fromBytes (F := F) (G := G) (bmap c) ((vec (pair u32 c)).enc l) = .ok (BMap.ofList l) := by
  have := bmap_dec_any h l hl hp []
  rw [List.append_nil] at this
  exact fromBytes_ok.mpr ⟨[], this⟩

theorem pair_dec_of {α β : Type} {a : Codec α} {b : Codec β} {bs r r' : Bytes} {x : α} {y : β}
    (h1 : a.dec bs = some (x, r)) (h2 : b.dec r = some (y, r')) : (pair a b).dec bs = some ((x, y), r') := by
  show (a.dec bs).bind _ = _
  rw [h1, Option.bind_some, h2]
  rfl

/-- C74 is false as stated: for every other order `l` of the Diffie-Hellman keys of a saved state (there is one as soon
as it has two keys) there is another encoding, of the same length and without trailing bytes, read as the same state. -/
theorem C74_state_two_encodings {S : Suite F G R} (hd : S.CodecLaws) (d : RoundTwo F G) (h : d.state.Fits S)
    (l : List (U32 × G)) (hl : l.Perm d.state.theirDhPublicKeys) (hne : l ≠ d.state.theirDhPublicKeys) :
    ∃ b b' : Bytes, toBytes (F := F) (G := G) (roundTwoCodec S) d = .ok b ∧ b' ≠ b ∧ b'.length = b.length ∧
      (roundTwoCodec S).dec b = some (d, []) ∧ (roundTwoCodec S).dec b' = some (d, []) := by
  have hnd : (l.map Prod.fst).Nodup := (hl.map Prod.fst).nodup_iff.mpr h.dhKeys.nodup
  have hlen : l.length < 2 ^ 64 := by rw [hl.length_eq]; exact BMap.wf_length h.dhKeys
  have hof : BMap.ofList l = d.state.theirDhPublicKeys := by
    rw [BMap.ofList_congr hnd hl, BMap.ofList_of_wf h.dhKeys]
  have hm := bmap_dec_any (group_roundTrip hd) l hlen (fun _ _ => trivial)
  rw [hof] at hm
  have hve := vec_roundTrip (pair_roundTrip u32_roundTrip (group_roundTrip hd))
  let pre : Bytes := paramsCodec.enc d.state.parameters ++ (u32.enc d.state.index ++
    ((scalar S).enc d.state.dhPrivateKey ++ ((group S).enc d.state.dhPublicKey ++
      (option (bmap (vssCodec S))).enc d.state.theirCommitments)))
  let post : Bytes := (option (bmap (encShareCodec S))).enc d.state.theirEncryptedSecretShares ++
    (option (bmap (secretShareCodec S))).enc d.state.mySecretShares
  have hb : (roundTwoCodec S).enc d = pre ++ ((vec (pair u32 (group S))).enc d.state.theirDhPublicKeys ++ post) := by
    show paramsCodec.enc d.state.parameters ++ (u32.enc d.state.index ++
      ((scalar S).enc d.state.dhPrivateKey ++ ((group S).enc d.state.dhPublicKey ++
        ((option (bmap (vssCodec S))).enc d.state.theirCommitments ++
          ((vec (pair u32 (group S))).enc d.state.theirDhPublicKeys ++ post))))) = _
    simp only [pre, List.append_assoc]
  refine ⟨_, pre ++ ((vec (pair u32 (group S))).enc l ++ post), rfl, ?_, ?_, ?_, ?_⟩
  · rw [hb]
    intro he
    have he := List.append_cancel_left he
    exact hne (hve.enc_append_inj ⟨hlen, fun _ _ => ⟨trivial, trivial⟩⟩
      ⟨BMap.wf_length h.dhKeys, fun _ _ => ⟨trivial, trivial⟩⟩ he).1
  · have hx : ∀ x a b c : Bytes, a.length = b.length → (x ++ (a ++ c)).length = (x ++ (b ++ c)).length := by
      intro x a b c hab
      simp only [List.length_append, hab]
    rw [hb]
    refine hx pre _ _ post ?_
    rw [hve.size_eq _ ⟨hlen, fun _ _ => ⟨trivial, trivial⟩⟩,
      hve.size_eq _ ⟨BMap.wf_length h.dhKeys, fun _ _ => ⟨trivial, trivial⟩⟩]
    show 8 + (l.map _).sum = 8 + (List.map _ d.state.theirDhPublicKeys).sum
    rw [(hl.map _).sum_eq]
  · have := (roundTwo_roundTrip hd).dec_enc d h []
    rwa [List.append_nil] at this
  · have hpost : (pair (option (bmap (encShareCodec S))) (option (bmap (secretShareCodec S)))).dec post =
        some ((d.state.theirEncryptedSecretShares, d.state.mySecretShares), []) := by
      have := (pair_roundTrip (option_roundTrip (bmap_roundTrip (encShare_roundTrip (S := S))))
        (option_roundTrip (bmap_roundTrip (secretShare_roundTrip hd)))).dec_enc
          (d.state.theirEncryptedSecretShares, d.state.mySecretShares)
          ⟨h.encShares, fun m hm => ⟨h.shares m hm, fun _ _ => trivial⟩⟩ []
      rwa [List.append_nil] at this
    have hall := pair_dec_of (params_roundTrip.dec_enc d.state.parameters trivial _)
      (pair_dec_of (u32_roundTrip.dec_enc d.state.index trivial _)
        (pair_dec_of ((scalar_roundTrip hd).dec_enc d.state.dhPrivateKey trivial _)
          (pair_dec_of ((group_roundTrip hd).dec_enc d.state.dhPublicKey trivial _)
            (pair_dec_of ((option_roundTrip (bmap_roundTrip (vss_roundTrip hd))).dec_enc d.state.theirCommitments
              h.commitments _) (pair_dec_of (hm post) hpost)))))
    have hpre : pre ++ ((vec (pair u32 (group S))).enc l ++ post) = paramsCodec.enc d.state.parameters ++
        (u32.enc d.state.index ++ ((scalar S).enc d.state.dhPrivateKey ++ ((group S).enc d.state.dhPublicKey ++
          ((option (bmap (vssCodec S))).enc d.state.theirCommitments ++
            ((vec (pair u32 (group S))).enc l ++ post))))) := by
      simp only [pre, List.append_assoc]
    rw [hpre]
    show (((pair paramsCodec _).dec _).map _).map _ = _
    rw [hall]
    rfl

/-- C74, what holds for states: the accepted value is always one that fits (sorted maps, nonces of the right size), so
saving and reading it again is stable. -/
theorem C74_state_stable_partial {S : Suite F G R} (hd : S.CodecLaws) (bs : Bytes) (d : RoundTwo F G)
    (h : fromBytes (F := F) (G := G) (roundTwoCodec S) bs = .ok d) :
    d.state.Fits S ∧ Spec.Survives F G (roundTwoCodec S) d := by
  obtain ⟨rest, hr⟩ := fromBytes_ok.mp h
  have hf : d.state.Fits S := (iso_sound dkgState_sound RoundTwo.mk RoundTwo.state (fun _ => rfl)) _ _ _ hr
  exact ⟨hf, C72_round_two hd d hf⟩

/-- C75 is false: every pair of numbers is accepted, in particular those that `ThresholdParameters::new` rejects. -/
theorem C75_unsound :
    (∀ n t : U32, fromBytes (F := F) (G := G) paramsCodec (u32le n ++ u32le t) = .ok ⟨n, t⟩) ∧
      ∃ (bs : Bytes) (p : Params), fromBytes (F := F) (G := G) paramsCodec bs = .ok p ∧
        Params.new (F := F) (G := G) false p.n p.t = .error (.err .invalidThresholdParams) := by
  have h : ∀ n t : U32, fromBytes (F := F) (G := G) paramsCodec (u32le n ++ u32le t) = .ok ⟨n, t⟩ := by
    intro n t
    refine fromBytes_ok.mpr ⟨[], ?_⟩
    have := params_roundTrip.dec_enc ⟨n, t⟩ trivial []
    rw [List.append_nil] at this
    exact this
  exact ⟨h, _, ⟨3, 0⟩, h 3 0, rfl⟩

/-- C75, a consequence: with a decoded threshold of zero, making a dealer panics. -/
theorem C75_zero_threshold_panics (S : Suite F G R) (n i : U32) (hi : i ≠ 0) (rng : R) :
    newDealer S ⟨n, 0⟩ i rng = .error (.panic .expectNone) := by
  unfold newDealer newInternal
  rw [if_neg hi]
  rfl

/-- C75, what holds: `from_bytes` reads the two numbers that were written and fails exactly on inputs shorter than
eight bytes. -/
theorem C75_reads_partial (bs : Bytes) :
    (∀ p, fromBytes (F := F) (G := G) paramsCodec bs = .ok p → ∃ rest, bs = u32le p.n ++ u32le p.t ++ rest) ∧
      (fromBytes (F := F) (G := G) paramsCodec bs = .error .deserializationError ↔ bs.length < 8) := by
  constructor
  · intro p h
    obtain ⟨enc, rest, h1, h2⟩ := params_exact.acceptsOnly (F := F) (G := G) bs p h
    simp only [toBytes, Except.ok.injEq] at h1
    subst h1
    exact ⟨rest, h2⟩
  · rw [fromBytes_error]
    constructor
    · intro h
      by_contra hl
      rw [Nat.not_lt] at hl
      obtain ⟨x, y, rfl, hx⟩ : ∃ x y : Bytes, bs = x ++ y ∧ x.length = 8 :=
        ⟨bs.take 8, bs.drop 8, (List.take_append_drop _ _).symm, by rw [List.length_take]; omega⟩
      have e4 : ∀ z : Bytes, 4 ≤ z.length → ∃ n r, u32.dec z = some (n, r) ∧ r.length = z.length - 4 := by
        intro z hz
        refine ⟨UInt32.ofNat (leNat (z.take 4)), z.drop 4, ?_, by rw [List.length_drop]⟩
        show (if z.length < 4 then none else some (leNat (z.take 4), z.drop 4)).map _ = _
        rw [if_neg (by omega)]
        rfl
      obtain ⟨n, r, h1, h2⟩ := e4 (x ++ y) (by rw [List.length_append]; omega)
      obtain ⟨t, r', h3, h4⟩ := e4 r (by rw [h2, List.length_append]; omega)
      have : paramsCodec.dec (x ++ y) = some (⟨n, t⟩, r') := by
        show (((u32.dec (x ++ y)).bind _).map _) = _
        rw [h1, Option.bind_some, h3]
        rfl
      rw [this] at h
      cases h
    · intro hl
      cases hd : paramsCodec.dec bs with
      | none => rfl
      | some v =>
        obtain ⟨p, rest⟩ := v
        have := (params_exact bs p rest hd).1
        have h2 := congrArg List.length this
        have h3 := params_roundTrip.size_eq p trivial
        rw [List.length_append, h3] at h2
        have : paramsCodec.size p = 8 := rfl
        omega

/-- C76: what `EncryptedSecretShare::from_bytes` and `Complaint::from_bytes` return always has a nonce of exactly the
cipher's size. -/
theorem C76_nonce_size (S : Suite F G R) (bs : Bytes) :
    (∀ e, fromBytes (F := F) (G := G) (encShareCodec S) bs = .ok e → e.nonce.length = S.nonceSize) ∧
      (∀ c, fromBytes (F := F) (G := G) (complaintCodec S) bs = .ok c → c.encShare.nonce.length = S.nonceSize) := by
  constructor
  · intro e h
    obtain ⟨rest, hr⟩ := fromBytes_ok.mp h
    exact (encShare_canonical _ _ _ hr).2.nonce
  · intro c h
    obtain ⟨rest, hr⟩ := fromBytes_ok.mp h
    exact (complaint_sound _ _ _ hr).nonce

/-- C76: the encoding of a share whose nonce has another length, whatever follows, is rejected. -/
theorem C76_wrong_nonce_rejected (S : Suite F G R) (i j : U32) (nonce ct rest : Bytes) (hl : nonce.length < 2 ^ 64)
    (hn : nonce.length ≠ S.nonceSize) :
    fromBytes (F := F) (G := G) (encShareCodec S)
      (u32le i ++ u32le j ++ (leBytes 8 nonce.length ++ nonce) ++ (leBytes 8 ct.length ++ ct) ++ rest) =
        .error .deserializationError := by
  rw [fromBytes_error]
  have hv : ∀ l : Bytes, leBytes 8 l.length ++ l = (vec u8).enc l := by
    intro l
    show _ = leBytes 8 l.length ++ (l.map u8.enc).flatten
    congr 1
    have : ∀ b : UInt8, u8.enc b = [b] := by
      intro b
      have h1 : (u8.enc b).length = 1 := u8_roundTrip.size_eq b trivial
      have h2 := leNat_leBytes 1 b.toNat
      rw [Nat.mod_eq_of_lt (by simpa using b.toNat_lt)] at h2
      obtain ⟨x, hx⟩ := List.length_eq_one_iff.mp h1
      have h3 : leBytes 1 b.toNat = [x] := hx
      rw [h3] at h2
      rw [hx]
      congr 1
      apply UInt8.toNat_inj.mp
      simpa [leNat] using h2
    induction l with
    | nil => rfl
    | cons b l ih => rw [List.map_cons, List.flatten_cons, ← ih, this]; rfl
  rw [hv, hv]
  have e1 : ∀ i : U32, u32le i = u32.enc i := fun _ => rfl
  rw [e1, e1]
  have d0 : ∀ bs, (encShareCodec S).dec bs = ((u32.dec bs).bind fun p =>
      ((pair u32 (pair ((vec u8).refine (fun n => if n.length = S.nonceSize then some n else none) id)
        (vec u8))).dec p.2).map fun q => ((p.1, q.1), q.2)).map fun p => (⟨p.1.1, p.1.2.1, p.1.2.2.1, p.1.2.2.2⟩, p.2) :=
    fun _ => rfl
  simp only [List.append_assoc]
  rw [d0, u32_roundTrip.dec_enc i trivial, Option.bind_some]
  have d1 : ∀ bs, (pair u32 (pair ((vec u8).refine (fun n => if n.length = S.nonceSize then some n else none) id)
      (vec u8))).dec bs = (u32.dec bs).bind fun p =>
        ((pair ((vec u8).refine (fun n => if n.length = S.nonceSize then some n else none) id) (vec u8)).dec p.2).map
          fun q => ((p.1, q.1), q.2) := fun _ => rfl
  have d2 : ∀ bs, (pair ((vec u8).refine (fun n => if n.length = S.nonceSize then some n else none) id)
      (vec u8)).dec bs = (((vec u8).dec bs).bind fun p =>
        ((if p.1.length = S.nonceSize then some p.1 else none).map fun b => (b, p.2))).bind fun p =>
          ((vec u8).dec p.2).map fun q => ((p.1, q.1), q.2) := fun _ => rfl
  rw [d1, u32_roundTrip.dec_enc j trivial, Option.bind_some, d2, bytes_roundTrip.dec_enc nonce hl, Option.bind_some,
    if_neg hn]
  rfl

section Examples
open Toy

theorem _root_.IceFrost.Toy.canonical_dec : suite.CanonicalDec := by
  have h : ∀ bs a rest, Toy.dec bs = some (a, rest) → bs = Toy.enc a ++ rest := by
    intro bs a rest hd
    unfold Toy.dec at hd
    split at hd
    · cases hd
    · next hl =>
      simp only at hd
      split at hd
      · next hn =>
        simp only [Option.some.injEq, Prod.mk.injEq] at hd
        obtain ⟨rfl, rfl⟩ := hd
        unfold Toy.enc
        rw [ZMod.val_cast_of_lt hn]
        have h6 : (bs.take 6).length = 6 := by rw [List.length_take]; omega
        have := leBytes_leNat (bs.take 6)
        rw [h6] at this
        rw [this, List.take_append_drop]
      · cases hd
  exact ⟨h, h⟩

/-- A three-party state with a full set of maps fits. -/
example : DkgState.Fits suite ⟨⟨3, 2⟩, 1, 5, 5, some [(1, ⟨1, [4, 5]⟩), (2, ⟨2, [6, 7]⟩)], [(1, 5), (2, 9)],
    some [(1, ⟨1, 1, [0, 1], [7, 7]⟩), (2, ⟨1, 2, [3, 1], [7]⟩)], some [(1, ⟨1, 1, 14⟩), (2, ⟨2, 1, 13⟩)]⟩ where
  commitments m hm := by
    simp only [Option.some.injEq] at hm
    subst hm
    refine ⟨by simp [BMap.WF, BMap.keys], fun e he => ?_⟩
    simp only [List.mem_cons, List.not_mem_nil, or_false] at he
    rcases he with rfl | rfl <;> simp [VssCommitment.Fits]
  dhKeys := by simp [BMap.WF, BMap.keys]
  encShares m hm := by
    simp only [Option.some.injEq] at hm
    subst hm
    refine ⟨by simp [BMap.WF, BMap.keys], fun e he => ?_⟩
    simp only [List.mem_cons, List.not_mem_nil, or_false] at he
    rcases he with rfl | rfl <;> exact ⟨rfl, by simp [suite], by simp⟩
  shares m hm := by
    simp only [Option.some.injEq] at hm
    subst hm
    simp [BMap.WF, BMap.keys]

/-- The two other rejections of `C76_wrong_nonce_rejected` are about nonces of length 1 and 3 here. -/
example : ([1] : Bytes).length ≠ suite.nonceSize ∧ ([1, 2, 3] : Bytes).length ≠ suite.nonceSize :=
  ⟨by simp [suite], by simp [suite]⟩

end Examples

end IceFrost
