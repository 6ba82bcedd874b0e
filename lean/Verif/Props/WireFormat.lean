import Verif.Props.Serialization

/-!
# C130: the wire format, byte by byte

The layout of every object that the crate can write, stated without the codec combinators of the model, so that another
implementation can be written from this file alone.
-/

set_option linter.unusedSectionVars false
set_option linter.unusedSimpArgs false

namespace IceFrost

open Codec

namespace Spec.Wire

/-- `n` as `k` bytes, least significant byte first. -/
def le (k n : Nat) : Bytes := (List.range k).map fun i => UInt8.ofNat (n / 256 ^ i % 256)

/-- An index or a number of participants: four bytes. -/
def index (i : U32) : Bytes := le 4 i.toNat

/-- A sequence: eight bytes for the number of elements, then the elements. -/
def seq {α : Type} (f : α → Bytes) (l : List α) : Bytes := le 8 l.length ++ l.flatMap f

/-- An optional value: the byte 0, or the byte 1 and the value. -/
def opt {α : Type} (f : α → Bytes) : Option α → Bytes
  | none => [0]
  | some a => 1 :: f a

/-- A map: the sequence of its entries in increasing order of the indices. -/
def map {α : Type} (f : α → Bytes) (m : BMap α) : Bytes := seq (fun e : U32 × α => index e.1 ++ f e.2) m

variable {F G : Type} (fe : F → Bytes) (ge : G → Bytes)

/-- `EncryptedSecretShare`, `src/dkg/secret_share.rs:161-180` -/
def encShare (e : EncShare) : Bytes :=
  index e.senderIndex ++ index e.receiverIndex ++ (le 8 e.nonce.length ++ e.nonce) ++ (le 8 e.ct.length ++ e.ct)

/-- `VerifiableSecretSharingCommitment`, `src/dkg/secret_share.rs:240-246` -/
def vss (c : VssCommitment G) : Bytes := index c.index ++ seq ge c.points

/-- `NizkPokOfSecretKey`, `src/dkg/nizkpok.rs:30-37` -/
def nizk (p : Nizk F) : Bytes := fe p.s ++ fe p.r

/-- `Participant`, `src/dkg/participant.rs:30-45` -/
def participant (p : Participant F G) : Bytes :=
  index p.index ++ ge p.dhPublicKey ++ opt (vss ge) p.commitments ++ opt (nizk fe) p.proofOfSecretKey ++
    nizk fe p.proofOfDhPrivateKey

/-- `SecretShare`, `src/dkg/secret_share.rs:45-54` -/
def secretShare (s : SecretShare F) : Bytes := index s.senderIndex ++ index s.receiverIndex ++ fe s.eval

/-- `ActualState`, `src/dkg/key_generation.rs:529-552`: number of participants, threshold, index, private and public
Diffie-Hellman key, commitments, public keys, encrypted shares, received shares -/
def dkgState (s : DkgState F G) : Bytes :=
  index s.parameters.n ++ index s.parameters.t ++ index s.index ++ fe s.dhPrivateKey ++ ge s.dhPublicKey ++
    opt (map (vss ge)) s.theirCommitments ++ map ge s.theirDhPublicKeys ++
    opt (map encShare) s.theirEncryptedSecretShares ++ opt (map (secretShare fe)) s.mySecretShares

end Spec.Wire

open Spec.Wire

theorem leBytes_eq_le (k n : Nat) : leBytes k n = le k n := by
  induction k generalizing n with
  | zero => rfl
  | succ k ih =>
    unfold leBytes
    rw [ih]
    unfold le
    rw [List.range_succ_eq_map]
    simp only [List.map_cons, List.map_map, pow_zero, Nat.div_one]
    congr 1
    · apply UInt8.toNat_inj.mp
      simp [UInt8.toNat_ofNat']
    · refine List.map_congr_left fun i _ => ?_
      simp only [Function.comp, Nat.succ_eq_add_one]
      rw [Nat.div_div_eq_div_mul, pow_succ, Nat.mul_comm]

theorem u32_enc (i : U32) : Codec.u32.enc i = index i := leBytes_eq_le 4 i.toNat

theorem vec_enc {α : Type} (c : Codec α) (l : List α) : (vec c).enc l = seq c.enc l := by
  show leBytes 8 l.length ++ (l.map c.enc).flatten = _
  rw [leBytes_eq_le]
  rfl

theorem u8_enc (b : UInt8) : Codec.u8.enc b = [b] := by
  show leBytes 1 b.toNat = _
  simp [leBytes]

theorem bytes_enc (l : Bytes) : (vec u8).enc l = le 8 l.length ++ l := by
  rw [vec_enc]
  unfold seq
  congr 1
  induction l with
  | nil => rfl
  | cons a l ih => rw [List.flatMap_cons, ih, u8_enc]; rfl

theorem option_enc {α : Type} (c : Codec α) (o : Option α) : (option c).enc o = opt c.enc o := by
  cases o with
  | none => exact u8_enc 0
  | some a =>
    show Codec.u8.enc 1 ++ c.enc a = _
    rw [u8_enc]
    rfl

theorem bmap_enc {α : Type} (c : Codec α) (m : BMap α) : (bmap c).enc m = Spec.Wire.map c.enc m := by
  show (vec (pair Codec.u32 c)).enc m = _
  rw [vec_enc]
  unfold Spec.Wire.map
  congr 1
  funext e
  show Codec.u32.enc e.1 ++ c.enc e.2 = _
  rw [u32_enc]

variable {F G R : Type} [Field F] [DecidableEq F] [AddCommGroup G] [Module F G] [DecidableEq G]
variable (S : Suite F G R)

theorem encShare_enc (e : EncShare) : (encShareCodec S).enc e = encShare e := by
  show Codec.u32.enc e.senderIndex ++ (Codec.u32.enc e.receiverIndex ++ ((vec u8).enc e.nonce ++ (vec u8).enc e.ct)) = _
  rw [u32_enc, u32_enc, bytes_enc, bytes_enc]
  simp only [encShare, List.append_assoc]

theorem vss_enc (c : VssCommitment G) : (vssCodec S).enc c = vss S.encG c := by
  show Codec.u32.enc c.index ++ (vec (group S)).enc c.points = _
  rw [u32_enc, vec_enc]
  rfl

theorem participant_enc (p : Participant F G) :
    (participantCodec S).enc p = participant S.encF S.encG p := by
  show Codec.u32.enc p.index ++ (S.encG p.dhPublicKey ++ ((option (vssCodec S)).enc p.commitments ++
    ((option (nizkCodec S)).enc p.proofOfSecretKey ++ (nizkCodec S).enc p.proofOfDhPrivateKey))) = _
  rw [u32_enc, option_enc, option_enc, show (vssCodec S).enc = vss S.encG from funext (vss_enc S),
    show (nizkCodec S).enc = nizk S.encF from rfl]
  simp only [participant, List.append_assoc]

theorem secretShare_enc (s : SecretShare F) : (secretShareCodec S).enc s = secretShare S.encF s := by
  show Codec.u32.enc s.senderIndex ++ (Codec.u32.enc s.receiverIndex ++ S.encF s.eval) = _
  rw [u32_enc, u32_enc]
  simp only [secretShare, List.append_assoc]

theorem dkgState_enc (s : DkgState F G) : (dkgStateCodec S).enc s = dkgState S.encF S.encG s := by
  show (Codec.u32.enc s.parameters.n ++ Codec.u32.enc s.parameters.t) ++ (Codec.u32.enc s.index ++
    (S.encF s.dhPrivateKey ++ (S.encG s.dhPublicKey ++ ((option (bmap (vssCodec S))).enc s.theirCommitments ++
      ((bmap (group S)).enc s.theirDhPublicKeys ++ ((option (bmap (encShareCodec S))).enc s.theirEncryptedSecretShares ++
        (option (bmap (secretShareCodec S))).enc s.mySecretShares)))))) = _
  rw [u32_enc, u32_enc, u32_enc, option_enc, option_enc, option_enc, bmap_enc,
    show (bmap (vssCodec S)).enc = Spec.Wire.map (vss S.encG) from funext fun m => by
      rw [bmap_enc, show (vssCodec S).enc = vss S.encG from funext (vss_enc S)],
    show (bmap (encShareCodec S)).enc = Spec.Wire.map encShare from funext fun m => by
      rw [bmap_enc, show (encShareCodec S).enc = encShare from funext (encShare_enc S)],
    show (bmap (secretShareCodec S)).enc = Spec.Wire.map (secretShare S.encF) from funext fun m => by
      rw [bmap_enc, show (secretShareCodec S).enc = secretShare S.encF from funext (secretShare_enc S)]]
  simp only [dkgState, List.append_assoc]
  rfl

/-- C130: the messages of the key generation, as bytes. -/
theorem C130_dkg_messages (S : Suite F G R) :
    (∀ p : Params, toBytes (F := F) (G := G) paramsCodec p = .ok (index p.n ++ index p.t)) ∧
    (∀ p : Participant F G, toBytes (F := F) (G := G) (participantCodec S) p = .ok (participant S.encF S.encG p)) ∧
    (∀ l : ParticipantList F G, toBytes (F := F) (G := G) (participantListCodec S) l =
      .ok (seq (participant S.encF S.encG) l.valid ++ opt (seq index) l.misbehaving)) ∧
    (∀ e : EncShare, toBytes (F := F) (G := G) (encShareCodec S) e = .ok (encShare e)) ∧
    (∀ c : VssCommitment G, toBytes (F := F) (G := G) (vssCodec S) c = .ok (vss S.encG c)) ∧
    (∀ p : Nizk F, toBytes (F := F) (G := G) (nizkCodec S) p = .ok (nizk S.encF p)) ∧
    (∀ p : ComplaintProof F G, toBytes (F := F) (G := G) (complaintProofCodec S) p =
      .ok (S.encG p.a1 ++ S.encG p.a2 ++ S.encF p.z)) ∧
    ∀ c : Complaint F G, toBytes (F := F) (G := G) (complaintCodec S) c =
      .ok (S.encG c.dhSharedKey ++ S.encG c.dhPublicKey ++ encShare c.encShare ++
        S.encG c.proof.a1 ++ S.encG c.proof.a2 ++ S.encF c.proof.z) := by
  refine ⟨fun p => ?_, fun p => ?_, fun l => ?_, fun e => ?_, fun c => ?_, fun p => rfl, fun p => ?_, fun c => ?_⟩ <;>
    refine congrArg Except.ok ?_
  · show Codec.u32.enc p.n ++ Codec.u32.enc p.t = _
    rw [u32_enc, u32_enc]
  · exact participant_enc S p
  · show (vec (participantCodec S)).enc l.valid ++ (option (vec Codec.u32)).enc l.misbehaving = _
    rw [vec_enc, option_enc, show (vec Codec.u32).enc = seq index from funext fun l => by
      rw [vec_enc, show Codec.u32.enc = index from funext u32_enc],
      show (participantCodec S).enc = participant S.encF S.encG from funext (participant_enc S)]
  · exact encShare_enc S e
  · exact vss_enc S c
  · show S.encG p.a1 ++ (S.encG p.a2 ++ S.encF p.z) = _
    rw [List.append_assoc]
  · show S.encG c.dhSharedKey ++ (S.encG c.dhPublicKey ++ ((encShareCodec S).enc c.encShare ++
      (S.encG c.proof.a1 ++ (S.encG c.proof.a2 ++ S.encF c.proof.z)))) = _
    rw [encShare_enc]
    simp only [List.append_assoc]

/-- C130: the objects that are kept: keys, polynomials, shares and the state between the rounds. Which round a state
belongs to is not written. -/
theorem C130_stored_objects (S : Suite F G R) :
    (∀ s : SecretShare F, toBytes (F := F) (G := G) (secretShareCodec S) s = .ok (secretShare S.encF s)) ∧
    (∀ l : List F, toBytes (F := F) (G := G) (coefficientsCodec S) l = .ok (seq S.encF l)) ∧
    (∀ k : F, toBytes (F := F) (G := G) (dhPrivateKeyCodec S) k = .ok (S.encF k)) ∧
    (∀ k : G, toBytes (F := F) (G := G) (publicKeyCodec S) k = .ok (S.encG k)) ∧
    (∀ k : IndividualVerifyingKey G, toBytes (F := F) (G := G) (verifyingKeyCodec S) k =
      .ok (index k.index ++ S.encG k.share)) ∧
    (∀ k : IndividualSigningKey F, toBytes (F := F) (G := G) (signingKeyCodec S) k =
      .ok (index k.index ++ S.encF k.key)) ∧
    (∀ d : RoundOne F G, toBytes (F := F) (G := G) (roundOneCodec S) d = .ok (dkgState S.encF S.encG d.state)) ∧
    ∀ d : RoundTwo F G, toBytes (F := F) (G := G) (roundTwoCodec S) d = .ok (dkgState S.encF S.encG d.state) := by
  refine ⟨fun s => ?_, fun l => ?_, fun k => rfl, fun k => rfl, fun k => ?_, fun k => ?_, fun d => ?_, fun d => ?_⟩ <;>
    refine congrArg Except.ok ?_
  · exact secretShare_enc S s
  · exact vec_enc (scalar S) l
  · show Codec.u32.enc k.index ++ S.encG k.share = _
    rw [u32_enc]
  · show Codec.u32.enc k.index ++ S.encF k.key = _
    rw [u32_enc]
  · exact dkgState_enc S d.state
  · exact dkgState_enc S d.state

/-- C130: the objects of the signing protocol, as bytes. -/
theorem C130_signing_objects (S : Suite F G R) :
    (∀ c : Commitment F G, toBytes (F := F) (G := G) (commitmentCodec S) c = .ok (S.encF c.secret ++ S.encG c.commit)) ∧
    (∀ c : CommitmentShare F G, toBytes (F := F) (G := G) (commitmentShareCodec S) c =
      .ok (S.encF c.hidingC.secret ++ S.encG c.hidingC.commit ++ S.encF c.bindingC.secret ++ S.encG c.bindingC.commit)) ∧
    (∀ l : List (CommitmentShare F G), toBytes (F := F) (G := G) (secretListCodec S) l =
      .ok (seq (fun c => S.encF c.hidingC.secret ++ S.encG c.hidingC.commit ++
        (S.encF c.bindingC.secret ++ S.encG c.bindingC.commit)) l)) ∧
    (∀ l : PublicCommitmentShareList G, toBytes (F := F) (G := G) (publicListCodec S) l =
      .ok (index l.participantIndex ++ seq (fun c => S.encG c.1 ++ S.encG c.2) l.commitments)) ∧
    (∀ s : Signer G, toBytes (F := F) (G := G) (signerCodec S) s =
      .ok (index s.participantIndex ++ S.encG s.share.1 ++ S.encG s.share.2)) ∧
    (∀ s : PartialSignature F, toBytes (F := F) (G := G) (partialSignatureCodec S) s =
      .ok (index s.index ++ S.encF s.z)) ∧
    ∀ s : ThresholdSignature F G, toBytes (F := F) (G := G) (signatureCodec S) s =
      .ok (S.encG s.groupCommitment ++ S.encF s.z) := by
  refine ⟨fun c => rfl, fun c => ?_, fun l => ?_, fun l => ?_, fun s => ?_, fun s => ?_, fun s => rfl⟩ <;>
    refine congrArg Except.ok ?_
  · show (S.encF c.hidingC.secret ++ S.encG c.hidingC.commit) ++
      (S.encF c.bindingC.secret ++ S.encG c.bindingC.commit) = _
    simp only [List.append_assoc]
  · exact vec_enc (commitmentShareCodec S) l
  · show Codec.u32.enc l.participantIndex ++ (vec (pair (group S) (group S))).enc l.commitments = _
    rw [u32_enc, vec_enc]
    rfl
  · show Codec.u32.enc s.participantIndex ++ (S.encG s.share.1 ++ S.encG s.share.2) = _
    rw [u32_enc, List.append_assoc]
  · show Codec.u32.enc s.index ++ S.encF s.z = _
    rw [u32_enc]

theorem le_length (k n : Nat) : (le k n).length = k := by simp [le]

theorem flatMap_length {α : Type} (f : α → Bytes) (k : Nat) (h : ∀ a, (f a).length = k) (l : List α) :
    (l.flatMap f).length = l.length * k := by
  induction l with
  | nil => simp
  | cons a l ih => rw [List.flatMap_cons, List.length_append, ih, h, List.length_cons]; ring

/-- C130: how long the messages are: a signature is one group element and one scalar, whoever and however many signed;
a partial signature is four bytes longer than a scalar; what one dealer sends in the first round grows linearly with the
threshold, what it sends to one receiver in the second round with the length of the ciphertext only. -/
theorem C130_lengths {S : Suite F G R} (hd : S.CodecLaws) :
    (∀ s : ThresholdSignature F G, ∃ bs, toBytes (F := F) (G := G) (signatureCodec S) s = .ok bs ∧
      bs.length = S.sizeG + S.sizeF) ∧
    (∀ s : PartialSignature F, ∃ bs, toBytes (F := F) (G := G) (partialSignatureCodec S) s = .ok bs ∧
      bs.length = 4 + S.sizeF) ∧
    (∀ (p : Participant F G) c π, p.commitments = some c → p.proofOfSecretKey = some π →
      ∃ bs, toBytes (F := F) (G := G) (participantCodec S) p = .ok bs ∧
        bs.length = 18 + (c.points.length + 1) * S.sizeG + 4 * S.sizeF) ∧
    (∀ (p : Participant F G), p.commitments = none → p.proofOfSecretKey = none →
      ∃ bs, toBytes (F := F) (G := G) (participantCodec S) p = .ok bs ∧ bs.length = 6 + S.sizeG + 2 * S.sizeF) ∧
    (∀ e : EncShare, ∃ bs, toBytes (F := F) (G := G) (encShareCodec S) e = .ok bs ∧
      bs.length = 24 + e.nonce.length + e.ct.length) ∧
    (∀ c : Complaint F G, ∃ bs, toBytes (F := F) (G := G) (complaintCodec S) c = .ok bs ∧
      bs.length = 24 + c.encShare.nonce.length + c.encShare.ct.length + 4 * S.sizeG + S.sizeF) ∧
    ∀ l : PublicCommitmentShareList G, ∃ bs, toBytes (F := F) (G := G) (publicListCodec S) l = .ok bs ∧
      bs.length = 12 + l.commitments.length * (2 * S.sizeG) := by
  have hF := hd.encF_length
  have hG := hd.encG_length
  obtain ⟨_, hp, _, he, _, _, _, hc⟩ := C130_dkg_messages S
  obtain ⟨_, _, _, hpl, _, hps, hs⟩ := C130_signing_objects S
  refine ⟨fun s => ⟨_, hs s, ?_⟩, fun s => ⟨_, hps s, ?_⟩, fun p c π h1 h2 => ⟨_, hp p, ?_⟩,
    fun p h1 h2 => ⟨_, hp p, ?_⟩, fun e => ⟨_, he e, ?_⟩, fun c => ⟨_, hc c, ?_⟩, fun l => ⟨_, hpl l, ?_⟩⟩
  · simp only [List.length_append, hF, hG]
  · simp only [List.length_append, index, le_length, hF]
  · simp only [participant, h1, h2, opt, vss, nizk, seq, index, List.length_append, List.length_cons, le_length, hF, hG,
      flatMap_length _ _ hG]
    ring
  · simp only [participant, h1, h2, opt, vss, nizk, seq, index, List.length_append, List.length_cons, List.length_nil,
      le_length, hF, hG]
    ring
  · simp only [encShare, index, List.length_append, le_length]
    ring
  · simp only [encShare, index, List.length_append, le_length, hF, hG]
    ring
  · have : ∀ c : G × G, (S.encG c.1 ++ S.encG c.2).length = 2 * S.sizeG := fun c => by
      rw [List.length_append, hG, hG]; ring
    simp only [seq, index, List.length_append, le_length, flatMap_length _ _ this]
    ring

/-- C130: the same layout is read back: bytes laid out in this way, with anything after them, are read as the object
(states, records and lists here; the other objects are in C72). -/
theorem C130_read_back {S : Suite F G R} (hd : S.CodecLaws) :
    (∀ (s : SecretShare F) rest, (secretShareCodec S).dec (secretShare S.encF s ++ rest) = some (s, rest)) ∧
    (∀ (p : Params) rest, paramsCodec.dec (index p.n ++ index p.t ++ rest) = some (p, rest)) ∧
    (∀ (s : DkgState F G), s.Fits S → ∀ rest, (dkgStateCodec S).dec (dkgState S.encF S.encG s ++ rest) = some (s, rest)) ∧
    (∀ (p : Participant F G), p.Fits → ∀ rest,
      (participantCodec S).dec (participant S.encF S.encG p ++ rest) = some (p, rest)) ∧
    (∀ (e : EncShare), e.Fits S → ∀ rest, (encShareCodec S).dec (encShare e ++ rest) = some (e, rest)) ∧
    (∀ (s : ThresholdSignature F G) rest,
      (signatureCodec S).dec (S.encG s.groupCommitment ++ S.encF s.z ++ rest) = some (s, rest)) ∧
    ∀ (s : PartialSignature F) rest,
      (partialSignatureCodec S).dec (index s.index ++ S.encF s.z ++ rest) = some (s, rest) := by
  refine ⟨fun s rest => ?_, fun p rest => ?_, fun s h rest => ?_, fun p h rest => ?_, fun e h rest => ?_,
    fun s rest => ?_, fun s rest => ?_⟩
  · rw [← secretShare_enc]; exact (secretShare_roundTrip hd).dec_enc s trivial rest
  · rw [← u32_enc, ← u32_enc]; exact params_roundTrip.dec_enc p trivial rest
  · rw [← dkgState_enc]; exact (dkgState_roundTrip hd).dec_enc s h rest
  · rw [← participant_enc]; exact (participant_roundTrip hd).dec_enc p h rest
  · rw [← encShare_enc S]; exact encShare_roundTrip.dec_enc e h rest
  · exact (signature_roundTrip hd).dec_enc s trivial rest
  · rw [← u32_enc]; exact (partialSignature_roundTrip hd).dec_enc s trivial rest

section Examples
open Toy

example : toBytes (F := Fp) (G := Fp) paramsCodec ⟨5, 3⟩ = .ok [5, 0, 0, 0, 3, 0, 0, 0] :=
  (C130_dkg_messages suite).1 ⟨5, 3⟩
example : toBytes (F := Fp) (G := Fp) (participantListCodec suite)
      ⟨[⟨1, 9, none, none, ⟨3, 8⟩⟩], some [258]⟩ =
    .ok ([1, 0, 0, 0, 0, 0, 0, 0, 1, 0, 0, 0, 9, 0, 0, 0, 0, 0, 0, 0, 3, 0, 0, 0, 0, 0, 8, 0, 0, 0, 0, 0, 1,
      1, 0, 0, 0, 0, 0, 0, 0, 2, 1, 0, 0]) :=
  ((C130_dkg_messages suite).2.2.1 _).trans (by decide +kernel)
example : toBytes (F := Fp) (G := Fp) (secretShareCodec suite) ⟨1, 2, 15⟩ =
    .ok [1, 0, 0, 0, 2, 0, 0, 0, 15, 0, 0, 0, 0, 0] :=
  ((C130_stored_objects suite).1 _).trans (by decide +kernel)
example : toBytes (F := Fp) (G := Fp) (partialSignatureCodec suite) ⟨7, 300⟩ =
    .ok [7, 0, 0, 0, 44, 1, 0, 0, 0, 0] :=
  ((C130_signing_objects suite).2.2.2.2.2.1 _).trans (by decide +kernel)
example : ∃ bs, toBytes (F := Fp) (G := Fp) (participantCodec suite)
    ⟨1, 9, some ⟨1, [4, 5, 6]⟩, some ⟨1, 2⟩, ⟨3, 8⟩⟩ = .ok bs ∧ bs.length = 18 + (3 + 1) * 6 + 4 * 6 :=
  (C130_lengths codec_laws).2.2.1 ⟨1, 9, some ⟨1, [4, 5, 6]⟩, some ⟨1, 2⟩, ⟨3, 8⟩⟩ ⟨1, [4, 5, 6]⟩ ⟨1, 2⟩ rfl rfl
example : (encShareCodec suite).dec (encShare ⟨1, 2, [1, 2], [9]⟩ ++ [255]) =
    some (⟨1, 2, [1, 2], [9]⟩, [255]) :=
  (C130_read_back codec_laws).2.2.2.2.1 ⟨1, 2, [1, 2], [9]⟩ ⟨rfl, by decide, by decide⟩ [255]

end Examples

end IceFrost
