import Verif.Model.Sha256
import Verif.Model.AesGcm
import Verif.Props.DomainSeparation
import Verif.Props.Secp256k1
import Verif.Props.SignEndToEnd
import Verif.Props.Buffers

/-! # C163: the suite that the crate ships, with nothing left open but the random numbers

C148 leaves the hash functions, the key derivation and the cipher of `testing::Secp256k1Sha256` (`src/lib.rs:1637-1666`)
open. Here they are SHA-256, HKDF and AES-128-GCM. -/

set_option linter.unusedSectionVars false
set_option linter.unusedSimpArgs false
set_option linter.unusedVariables false

namespace IceFrost

theorem beBytes_length (k n : ℕ) : (beBytes k n).length = k := by
  unfold beBytes
  rw [List.length_reverse, leBytes_length]

/-- A hash value has 32 bytes. -/
theorem sha256_length (m : Bytes) : (sha256 m).length = 32 := by
  unfold sha256
  simp only [List.length_flatten, List.map_map, Function.comp_def, beBytes_length]
  rfl

theorem aes_rounds_length (r : ℕ) (c : UInt8) (k s : Bytes) : (Aes.rounds r c k s).length = 16 := by
  induction r generalizing c k s with
  | zero => rfl
  | succ r ih => exact ih _ _ _

theorem aes_length (key block : Bytes) : (Aes.encrypt key block).length = 16 := aes_rounds_length _ _ _ _

theorem streamWith_length {E : Bytes → Bytes} (hE : ∀ b, (E b).length = 16) (nonce : Bytes) (k : ℕ) :
    (Gcm.streamWith E nonce k).length = k := by
  unfold Gcm.streamWith
  rw [List.length_take, List.length_flatten, List.map_map]
  simp only [Function.comp_def, hE, List.map_const', List.length_range, List.sum_replicate, smul_eq_mul]
  omega

theorem tagWith_length (E : Bytes → Bytes) (nonce ct : Bytes) : (Gcm.tagWith E nonce ct).length = 16 := rfl

theorem gcm_stream_length (key nonce : Bytes) (k : ℕ) : (Gcm.stream key nonce k).length = k :=
  streamWith_length (aes_length key) nonce k

theorem gcm_tag_length (key nonce ct : Bytes) : (Gcm.tag key nonce ct).length = 16 := rfl

theorem xmdBlocks_length (H : Bytes → Bytes) (hH : ∀ x, (H x).length = 32) (b0 dst : Bytes) (k i : ℕ) (prev : Bytes) :
    (xmdBlocks H b0 dst k i prev).flatten.length = 32 * k := by
  induction k generalizing i prev with
  | zero => rfl
  | succ k ih =>
    show (H _ ++ (xmdBlocks H b0 dst k (i + 1) _).flatten).length = _
    rw [List.length_append, hH, ih]
    omega

theorem hkdfBlocks_length (H : Bytes → Bytes) (hH : ∀ x, (H x).length = 32) (prk info : Bytes) (k i : ℕ) (prev : Bytes) :
    (hkdfBlocks H prk info k i prev).flatten.length = 32 * k := by
  induction k generalizing i prev with
  | zero => rfl
  | succ k ih =>
    show (H _ ++ (hkdfBlocks H prk info k (i + 1) _).flatten).length = _
    rw [List.length_append, hH, ih]
    omega

namespace Secp

/-- `from_be_bytes_mod_order` for scalars. -/
def scalarOf (bs : Bytes) : Fn := (beNat bs : Fn)

/-- `DefaultFieldHasher::<Sha256, 128>` for scalars: 48 bytes are expanded, `(256 + 128) / 8`, and reduced. -/
def realField (dst msg : Bytes) : Fn := ((expandXmd sha256 32 48 48 dst msg).map scalarOf).getD 0

/-- `Hkdf::<Sha256>::new(None, ikm).expand(&[], key)` for a key of AES-128, `src/dkg/secret_share.rs:299-302`. -/
def realKey (ikm : Bytes) : Bytes := (hkdfExpand sha256 (hkdfExtract sha256 ikm) [] 16).getD []

/-- A source of random numbers: a scalar, and any number of bytes. -/
structure Source (R : Type) where
  scalar : R → Fn × R
  bytes : ℕ → R → Bytes × R
  bytes_length : ∀ k rng, (bytes k rng).1.length = k

/-- The parts that C148 leaves open. -/
def real {R : Type} (Z : Source R) : Parts R where
  hashToField := realField
  sha256 := IceFrost.sha256
  hkdf := realKey
  stream := Gcm.stream
  tag := Gcm.tag
  randScalar := Z.scalar
  randBytes := Z.bytes
  stream_length := gcm_stream_length
  tag_length := gcm_tag_length
  randBytes_length := Z.bytes_length

/-- `testing::Secp256k1Sha256`, `src/lib.rs:1637-1666`. -/
def realSuite {R : Type} (Z : Source R) : Suite Fn Point R := suite (real Z)

end Secp

variable {R : Type} (Z : Secp.Source R)

/-- The assertions of the expander hold, and 48 bytes come out. -/
theorem expand_real (dst m : Bytes) : ∃ bs, expandXmd sha256 32 48 48 dst m = some bs ∧ bs.length = 48 := by
  refine ⟨_, if_neg (by norm_num), ?_⟩
  rw [List.length_take, xmdBlocks_length _ sha256_length]
  norm_num

theorem hkdf_real (ikm : Bytes) : ∃ bs, hkdfExpand sha256 (hkdfExtract sha256 ikm) [] 16 = some bs ∧ bs.length = 16 := by
  refine ⟨_, if_neg (by norm_num), ?_⟩
  rw [List.length_take, hkdfBlocks_length _ sha256_length]
  norm_num

/-- C163: the shipped suite satisfies all laws that the theorems assume of a suite, whatever the random numbers are. -/
theorem C163_lawful : (Secp.realSuite Z).Lawful ∧ (Secp.realSuite Z).ShortCiphertexts ∧ (Secp.realSuite Z).CanonicalDec :=
  ⟨C148_lawful _, C148_short _, C148_canonical _⟩

/-- C163: all its hashing is built on SHA-256, in the way that C162 assumes: no assertion of the dependencies fails. -/
theorem C163_built : Spec.BuiltOn (Secp.realSuite Z) sha256 32 48 48 16 Secp.scalarOf where
  field dst m := by
    obtain ⟨bs, h, -⟩ := expand_real dst m
    show _ = some (Secp.realField dst m)
    unfold Secp.realField
    rw [h]
    rfl
  sha dst m := by
    obtain ⟨bs, h, -⟩ := expand_real dst m
    show _ = some (Secp.realField dst m)
    unfold Secp.realField
    rw [h]
    rfl
  digest m := rfl
  kdf ikm := by
    obtain ⟨bs, h, -⟩ := hkdf_real ikm
    show some (Secp.realKey ikm) = _
    unfold Secp.realKey
    rw [h]
    rfl

theorem realSuite_context : (Secp.realSuite Z).contextString = strBytes "ICE-FROST_SECP256K1_SHA256" := rfl

/-- C163: in the shipped suite no two uses of SHA-256 begin with the same string, and the message enters only through the
hash of that string. -/
theorem C163_separated (u : Spec.HashUse) :
    (∃ f : Bytes → Option (Secp.Fn ⊕ Bytes), ∀ m, Spec.hashValue (Secp.realSuite Z) u m =
      f (sha256 (Spec.firstString sha256 (strBytes "ICE-FROST_SECP256K1_SHA256") 48 48 u m))) ∧
    ∀ v m m', Spec.firstString sha256 (strBytes "ICE-FROST_SECP256K1_SHA256") 48 48 u m =
      Spec.firstString sha256 (strBytes "ICE-FROST_SECP256K1_SHA256") 48 48 v m' → u = v ∧ m = m' :=
  ⟨C162_through (C163_built Z) u, fun v m m' h => C162_separated (by norm_num) (by decide) (by decide) (by decide) h⟩

theorem vec_u8_size (l : Bytes) : (Codec.vec Codec.u8).size l = 8 + l.length := by
  show 8 + (l.map fun _ => 1).sum = _
  rw [List.map_const', List.sum_replicate, smul_eq_mul, mul_one]

theorem encShare_size_real (e : EncShare) :
    ((encShareCodec (Secp.realSuite Z)).enc e).length = 24 + e.nonce.length + e.ct.length := by
  rw [encShare_sized]
  show 4 + (4 + ((Codec.vec Codec.u8).size e.nonce + (Codec.vec Codec.u8).size e.ct)) = _
  rw [vec_u8_size, vec_u8_size]
  omega

/-- C163: every share is encrypted under a key of 16 bytes to 48 bytes with a nonce of 12 bytes, and 84 bytes go over the
wire. No call fails. -/
theorem C163_share (share : SecretShare Secp.Fn) (ikm : Bytes) (rng : R) :
    (Secp.realKey ikm).length = 16 ∧
    ∃ e rng', encryptShare (Secp.realSuite Z) share ikm rng = .ok (e, rng') ∧ e.nonce.length = 12 ∧ e.ct.length = 48 ∧
      ((encShareCodec (Secp.realSuite Z)).enc e).length = 84 ∧
      decryptShare (Secp.realSuite Z) e ikm = .ok share := by
  obtain ⟨kb, hk, hkl⟩ := hkdf_real ikm
  have hkey : Secp.realKey ikm = kb := by
    unfold Secp.realKey
    rw [hk]
    rfl
  refine ⟨by rw [hkey]; exact hkl, ?_⟩
  have hn := Z.bytes_length 12 rng
  generalize hr : Z.bytes 12 rng = r at hn
  obtain ⟨nonce, rng'⟩ := r
  have hs := gcm_stream_length kb nonce 32
  have hb : (xorBytes (Secp.encScalar share.eval) (Gcm.stream kb nonce 32)).length = 32 := by
    rw [Secp.xorBytes_length _ _ (by rw [hs, Secp.encScalar_length]), Secp.encScalar_length]
  have he : (Secp.realSuite Z).aeadEnc kb nonce (Secp.encScalar share.eval) =
      some (xorBytes (Secp.encScalar share.eval) (Gcm.stream kb nonce 32) ++
        Gcm.tag kb nonce (xorBytes (Secp.encScalar share.eval) (Gcm.stream kb nonce 32))) := by
    show (if nonce.length = 12 then _ else _) = _
    rw [if_pos hn]
    show some (xorBytes (Secp.encScalar share.eval) (Gcm.stream kb nonce (Secp.encScalar share.eval).length) ++
      Gcm.tag kb nonce (xorBytes (Secp.encScalar share.eval) (Gcm.stream kb nonce (Secp.encScalar share.eval).length))) = _
    rw [Secp.encScalar_length]
  have hkdf : (Secp.realSuite Z).kdf ikm = some kb := congrArg some hkey
  generalize hct : xorBytes (Secp.encScalar share.eval) (Gcm.stream kb nonce 32) ++
    Gcm.tag kb nonce (xorBytes (Secp.encScalar share.eval) (Gcm.stream kb nonce 32)) = ct at he
  have hl : ct.length = 48 := by rw [← hct, List.length_append, hb, gcm_tag_length]
  have henc : encryptShare (Secp.realSuite Z) share ikm rng =
      .ok (⟨share.senderIndex, share.receiverIndex, nonce, ct⟩, rng') := by
    unfold encryptShare
    rw [hkdf]
    have : (Secp.realSuite Z).randBytes (Secp.realSuite Z).nonceSize rng = (nonce, rng') := hr
    simp only [this]
    have h2 : (Secp.realSuite Z).aeadEnc kb nonce ((Secp.realSuite Z).encF share.eval) = some ct := he
    rw [h2]
  refine ⟨_, rng', henc, hn, hl, ?_, ?_⟩
  · rw [encShare_size_real, hn, hl]
  · obtain ⟨ct', h1, h2⟩ := (C163_lawful Z).1.cipher.aead_ok ikm kb nonce (Secp.encScalar share.eval) hkdf hn
    have h3 : ct' = ct := Option.some.inj (h1.symm.trans he)
    rw [h3] at h2
    unfold decryptShare
    rw [hkdf]
    simp only [h2]
    have := (C163_lawful Z).1.codec.decF_encF share.eval []
    rw [List.append_nil] at this
    have h4 : (Secp.realSuite Z).decF (Secp.encScalar share.eval) = some (share.eval, []) := this
    rw [h4]

/-- C163: the numbers of bytes of the messages of the protocol: the record of a new participant with `k` commitments, a
complaint about an encrypted share as in `C163_share`, a list of `k` nonce commitments, an entry of the list of signers, a
partial signature and a signature. -/
theorem C163_sizes :
    (∀ (p : Participant Secp.Fn Secp.Point) (c : VssCommitment Secp.Point) (z : Nizk Secp.Fn), p.commitments = some c →
      p.proofOfSecretKey = some z → ((participantCodec (Secp.realSuite Z)).enc p).length = 179 + 33 * c.points.length) ∧
    (∀ c : Complaint Secp.Fn Secp.Point, c.encShare.nonce.length = 12 → c.encShare.ct.length = 48 →
      ((complaintCodec (Secp.realSuite Z)).enc c).length = 248) ∧
    (∀ l : PublicCommitmentShareList Secp.Point,
      ((publicListCodec (Secp.realSuite Z)).enc l).length = 12 + 66 * l.commitments.length) ∧
    (∀ s : Signer Secp.Point, ((signerCodec (Secp.realSuite Z)).enc s).length = 70) ∧
    (∀ s : PartialSignature Secp.Fn, ((partialSignatureCodec (Secp.realSuite Z)).enc s).length = 36) ∧
    (∀ s : ThresholdSignature Secp.Fn Secp.Point, ((signatureCodec (Secp.realSuite Z)).enc s).length = 65) := by
  have hd := (C163_lawful Z).1.codec
  have hsum : ∀ {α : Type} (l : List α) (k : ℕ), (l.map fun _ => k).sum = k * l.length := by
    intro α l k
    rw [List.map_const', List.sum_replicate, smul_eq_mul, mul_comm]
  have hF := scalar_sized hd
  have hG := group_sized hd
  refine ⟨?_, ?_, ?_, ?_, ?_, ?_⟩
  · rintro ⟨i, dh, cs, pr, pd⟩ c z rfl rfl
    rw [participant_sized hd]
    show 4 + (33 + ((1 + (4 + (8 + (c.points.map fun _ => 33).sum))) + ((1 + (32 + 32)) + (32 + 32)))) = _
    rw [hsum]
    omega
  · intro c h1 h2
    show (Secp.encPoint c.dhSharedKey ++ (Secp.encPoint c.dhPublicKey ++ ((encShareCodec (Secp.realSuite Z)).enc c.encShare ++
      (Secp.encPoint c.proof.a1 ++ (Secp.encPoint c.proof.a2 ++ Secp.encScalar c.proof.z))))).length = _
    rw [List.length_append, List.length_append, List.length_append, List.length_append, List.length_append,
      encShare_size_real, h1, h2, Secp.encPoint_length, Secp.encPoint_length, Secp.encPoint_length, Secp.encPoint_length,
      Secp.encScalar_length]
  · intro l
    have h : (publicListCodec (Secp.realSuite Z)).Sized :=
      Codec.iso_sized (Codec.pair_sized Codec.u32_sized (Codec.vec_sized (Codec.pair_sized hG hG))) _ _
    rw [h]
    show 4 + (8 + (l.commitments.map fun _ => 33 + 33).sum) = _
    rw [hsum]
    omega
  · intro s
    have h : (signerCodec (Secp.realSuite Z)).Sized :=
      Codec.iso_sized (Codec.pair_sized Codec.u32_sized (Codec.pair_sized hG hG)) _ _
    rw [h]
    rfl
  · intro s
    have h : (partialSignatureCodec (Secp.realSuite Z)).Sized :=
      Codec.iso_sized (Codec.pair_sized Codec.u32_sized hF) _ _
    rw [h]
    rfl
  · intro s
    have h : (signatureCodec (Secp.realSuite Z)).Sized := Codec.iso_sized (Codec.pair_sized hG hF) _ _
    rw [h]
    rfl

/-- C163: exactly which encrypted shares are accepted: those that end with the tag of AES-128-GCM for the bytes before it,
and whose decrypted bytes begin with a number of 32 bytes below the group order. The value is that number. -/
theorem C163_opened (e : EncShare) (ikm : Bytes) (s : SecretShare Secp.Fn) :
    decryptShare (Secp.realSuite Z) e ikm = .ok s ↔
      ∃ body, e.ct = body ++ Gcm.tag (Secp.realKey ikm) e.nonce body ∧ 32 ≤ body.length ∧
        leNat ((xorBytes body (Gcm.stream (Secp.realKey ikm) e.nonce body.length)).take 32) < Cases.secp256k1Order ∧
        s = ⟨e.senderIndex, e.receiverIndex,
          (leNat ((xorBytes body (Gcm.stream (Secp.realKey ikm) e.nonce body.length)).take 32) : Secp.Fn)⟩ := by
  have hkdf : (Secp.realSuite Z).kdf ikm = some (Secp.realKey ikm) := rfl
  generalize Secp.realKey ikm = key at hkdf ⊢
  have hdec : (Secp.realSuite Z).aeadDec key e.nonce e.ct = if e.ct.length < 16 then none
      else if e.ct.drop (e.ct.length - 16) = Gcm.tag key e.nonce (e.ct.take (e.ct.length - 16)) then
        some (xorBytes (e.ct.take (e.ct.length - 16)) (Gcm.stream key e.nonce (e.ct.length - 16)))
      else none := rfl
  have hlx : ∀ body : Bytes, (xorBytes body (Gcm.stream key e.nonce body.length)).length = body.length :=
    fun body => Secp.xorBytes_length _ _ (gcm_stream_length _ _ _)
  constructor
  · intro h
    unfold decryptShare at h
    rw [hkdf] at h
    simp only at h
    rw [hdec] at h
    by_cases h16 : e.ct.length < 16
    · rw [if_pos h16] at h
      cases h
    rw [if_neg h16] at h
    by_cases ht : e.ct.drop (e.ct.length - 16) = Gcm.tag key e.nonce (e.ct.take (e.ct.length - 16))
    · rw [if_pos ht] at h
      have hb : (e.ct.take (e.ct.length - 16)).length = e.ct.length - 16 := by rw [List.length_take]; omega
      refine ⟨e.ct.take (e.ct.length - 16), by rw [← ht, List.take_append_drop], ?_⟩
      rw [← hb] at h
      have hb' : List.take ((e.ct.take (e.ct.length - 16)).length) e.ct = e.ct.take (e.ct.length - 16) := by rw [hb]
      rw [hb'] at h
      generalize e.ct.take (e.ct.length - 16) = body at h
      have hd : (Secp.realSuite Z).decF = Secp.decScalar := rfl
      rw [hd] at h
      unfold Secp.decScalar at h
      simp only at h
      rw [hlx] at h
      by_cases h32 : body.length < 32
      · rw [if_pos h32] at h
        cases h
      rw [if_neg h32] at h
      by_cases hlt : leNat ((xorBytes body (Gcm.stream key e.nonce body.length)).take 32) < Cases.secp256k1Order
      · rw [if_pos hlt] at h
        exact ⟨by omega, hlt, (Except.ok.inj h).symm⟩
      · rw [if_neg hlt] at h
        cases h
    · rw [if_neg ht] at h
      cases h
  · rintro ⟨body, hct, h32, hlt, rfl⟩
    have hl : e.ct.length = body.length + 16 := by rw [hct, List.length_append, gcm_tag_length]
    have hl' : e.ct.length - 16 = body.length := by omega
    unfold decryptShare
    rw [hkdf]
    simp only
    rw [hdec, if_neg (by omega), hl', hct, List.drop_left, List.take_left, if_pos rfl]
    simp only
    have hd : (Secp.realSuite Z).decF = Secp.decScalar := rfl
    rw [hd]
    unfold Secp.decScalar
    rw [hlx, if_neg (by omega), if_pos hlt]

/-- C163: with the shipped suite, after an honest key generation and any chain of honest resharings, any `t` or more of the
current holders who follow the documented flow obtain a valid signature. Nothing is assumed of the suite: only the random
numbers are arbitrary. -/
theorem C163_dkg_to_signature (dbg : Bool) (params : Params) (ht : params.t ≠ 0)
    (htn : params.t.toNat ≤ params.n.toNat) (idx : List U32) (hidx : idx.Nodup) (hidx0 : 0 ∉ idx)
    (hlen : idx.length = params.n.toNat) (ord ord' : U32 → List U32) (ho : ∀ i ∈ idx, (ord i).Perm idx)
    (ho' : ∀ i ∈ idx, (ord' i).Perm idx) (r1 r2 r3 : U32 → R) :
    ∃ (d2 : U32 → RoundTwo Secp.Fn Secp.Point) (Y : Secp.Point) (key : U32 → Secp.Fn),
      (∀ i ∈ idx, (d2 i).finish = .ok (Y, ⟨i, key i⟩)) ∧
      ∀ gks e, Epoch.Chain (Secp.realSuite Z) dbg ⟨idx, params.t.toNat, key⟩ gks e →
        ∀ (sp : Params) (message : Bytes) (J : List U32), J.Nodup → 0 ∉ J → J ≠ [] → J ⊆ e.holders → e.t ≤ J.length →
          J.length ≤ sp.n.toNat → ∀ (rng : U32 → R) (number : U32 → Nat) (pos : U32 → UInt64),
          (∀ i ∈ J, number i < 2 ^ 63 ∧ (pos i).toNat < number i) →
          ∃ (p : U32 → PartialSignature Secp.Fn) (c : U32 → Secp.Point × Secp.Point)
            (sig : ThresholdSignature Secp.Fn Secp.Point),
            (∀ i ∈ J, (generateCommitmentShareLists (Secp.realSuite Z) (rng i) ⟨i, e.key i⟩
              (number i)).1.commitments[(pos i).toNat]? = some (c i)) ∧
            (∀ i ∈ J, (sign (Secp.realSuite Z) dbg ⟨i, e.key i⟩ (Spec.messageHash (Secp.realSuite Z) message) Y
              (generateCommitmentShareLists (Secp.realSuite Z) (rng i) ⟨i, e.key i⟩ (number i)).2 (pos i)
              (session (F := Secp.Fn) sp Y message (J.map fun i =>
                .signer i (c i) (IndividualSigningKey.toPublic (Secp.realSuite Z) ⟨i, e.key i⟩))).state.signers).1 =
              .ok (p i)) ∧
            (∃ f, (session sp Y message ((J.map fun i =>
                .signer i (c i) (IndividualSigningKey.toPublic (Secp.realSuite Z) ⟨i, e.key i⟩)) ++
                J.map fun i => .partialSig (p i))).finalize (Secp.realSuite Z) = .ok f ∧
              f.aggregate (Secp.realSuite Z) = .ok sig) ∧
            Spec.SigValid (Secp.realSuite Z) Y (Spec.messageHash (Secp.realSuite Z) message) sig :=
  C64_dkg_to_signature (C163_lawful Z).1 dbg params ht htn idx hidx hidx0 hlen ord ord' ho ho' r1 r2 r3

/-! ### Instances -/

/-- A source of random numbers that counts. -/
def Secp.counter : Secp.Source ℕ where
  scalar n := ((n + 1 : ℕ), n + 1)
  bytes k n := (leBytes k n, n + 1)
  bytes_length := fun k n => leBytes_length k n

example : (Secp.realSuite Secp.counter).Lawful := (C163_lawful _).1
example := C163_share Secp.counter ⟨1, 2, 7⟩ (strBytes "key") 5
example := C163_built Secp.counter
example := C163_separated Secp.counter .challenge
example := C163_dkg_to_signature Secp.counter true ⟨3, 2⟩ (by decide) (by decide) [1, 2, 3] (by decide) (by decide)
  (by decide) (fun _ => [1, 2, 3]) (fun _ => [3, 1, 2]) (fun _ _ => List.Perm.refl _)
  (fun _ _ => by decide) (fun i => i.toNat) (fun i => i.toNat + 7) (fun i => i.toNat + 9)

/-- The hypotheses of C162 hold for the context string of the shipped suite, and fail for the one of `C162_zero_context`. -/
example : (strBytes "ICE-FROST_SECP256K1_SHA256").length = 26 ∧
    (strBytes "ICE-FROST_SECP256K1_SHA256").head? = some 73 := by decide
example : ∃ m m', Spec.firstString sha256 (List.replicate 48 0) 48 48 .proof m =
    Spec.firstString sha256 (List.replicate 48 0) 48 48 .message m' := by
  simpa using C162_zero_context sha256 48 48 []
example (m m' : Bytes) (h : m ≠ m') :
    Spec.firstString sha256 (List.replicate 300 1) 48 48 .proof m =
      Spec.firstString sha256 (List.replicate 300 1) 48 48 .proof m' → ∃ x y, x ≠ y ∧ sha256 x = sha256 y := fun e =>
  (C162_long_context sha256_length (by norm_num) (by rw [List.length_replicate]; norm_num) (by decide) (by decide) e).elim
    (fun h' => (h h'.2).elim) id
example := fun (dst m : Bytes) (u : Spec.HashUse) (m' : Bytes) =>
  C162_later (len := 32) (n := 48) sha256_length (ctx := strBytes "ICE-FROST_SECP256K1_SHA256") (z := 48) (by norm_num)
    (by decide) dst m u m'
example (H' : Bytes → Bytes) := C162_complete (H := sha256) (H' := H') (len := 32) (z := 48) (n := 48)
  (dst := strBytes "Complaint Context") (m := [1]) (by decide)

/-! ### Published values

The definitions of the hash function, the key derivation, the expander and the cipher agree with the values published with
the standards: FIPS 180-4 (SHA-256 of "abc", and of two blocks), RFC 4231 (test case 2), RFC 5869 (test case 3), RFC 9380
(K.1, empty message), FIPS 197 (appendix C.1) and the test cases 2 and 3 of GCM. -/

example : sha256 (strBytes "abc") =
    beBytes 32 0xba7816bf8f01cfea414140de5dae2223b00361a396177a9cb410ff61f20015ad := by decide +kernel
example : sha256 (strBytes "abcdbcdecdefdefgefghfghighijhijkijkljklmklmnlmnomnopnopq") =
    beBytes 32 0x248d6a61d20638b8e5c026930c3e6039a33ce45964ff2167f6ecedd419db06c1 := by decide +kernel
example : hmac sha256 (strBytes "Jefe") (strBytes "what do ya want for nothing?") =
    beBytes 32 0x5bdcc146bf60754e6a042426089575c75a003f089d2739839dec58b964ec3843 := by decide +kernel
example : hkdfExpand sha256 (hkdfExtract sha256 (List.replicate 22 0x0b)) [] 42 =
    some (beBytes 42 0x8da4e775a563c18f715f802a063c5a31b8a11f5c5ee1879ec3454e5f3c738d2d9d201395faa4b61a96c8) := by
  decide +kernel
example : expandXmd sha256 32 64 32 (strBytes "QUUX-V01-CS02-with-expander-SHA256-128") [] =
    some (beBytes 32 0x68a985b87eb6b46952128911f2a4412bbc302a9d759667f87f7a21d803f07235) := by decide +kernel
example : Aes.encrypt (beBytes 16 0x000102030405060708090a0b0c0d0e0f) (beBytes 16 0x00112233445566778899aabbccddeeff) =
    beBytes 16 0x69c4e0d86a7b0430d8cdb78070b4c55a := by decide +kernel
example : Gcm.stream (beBytes 16 0) (beBytes 12 0) 16 = beBytes 16 0x0388dace60b6a392f328c2b971b2fe78 := by decide +kernel
example : Gcm.tag (beBytes 16 0) (beBytes 12 0) (beBytes 16 0x0388dace60b6a392f328c2b971b2fe78) =
    beBytes 16 0xab6e47d42cec13bdf53a67b21257bddf := by decide +kernel
example : Gcm.tag (beBytes 16 0xfeffe9928665731c6d6a8f9467308308) (beBytes 12 0xcafebabefacedbaddecaf888) (beBytes 64
    0x42831ec2217774244b7221b784d0d49ce3aa212f2c02a4e035c17e2329aca12e21d514b25466931c7d8f6a5aac84aa051ba30b396a0aac973d58e091473f5985) =
    beBytes 16 0x4d5c2af327cd64a62cf35abd2ba6fab4 := by decide +kernel

end IceFrost
