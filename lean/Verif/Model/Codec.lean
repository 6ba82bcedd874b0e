import Verif.Model.Types

/-!
# ark-serialize encodings (compressed mode)

`ark-serialize` 0.4 conventions: integers are fixed-width little-endian; `Vec<T>`/`[T]` is a `u64` length followed
by the elements; `Option<T>` is a `bool` byte followed by the value if any; `BTreeMap` is a `u64` length followed
by key/value pairs in order and is decoded by successive `insert`s; structs and tuples are their fields in order;
`PhantomData` and empty structs write nothing.  Readers consume bytes from the front of a slice.
These conventions are part of the trusted base (the dependency is not in `/repo`).
-/

namespace IceFrost

/-- An implementation of `CanonicalSerialize` + `CanonicalDeserialize` (compressed, validated). -/
structure Codec (α : Type) where
  /-- `serialize_compressed` into a `Vec<u8>` (which never fails) -/
  enc : α → Bytes
  /-- `deserialize_compressed` from a slice, also returning the unread rest; `none` is any error -/
  dec : Bytes → Option (α × Bytes)
  /-- `compressed_size` -/
  size : α → Nat

namespace Codec
variable {α β γ : Type}

/-- `k`-byte little-endian unsigned integer. -/
def uint (k : Nat) : Codec Nat where
  enc n := leBytes k n
  dec bs := if bs.length < k then none else some (leNat (bs.take k), bs.drop k)
  size _ := k

/-- Transport along a bijection (newtypes, structs). -/
def iso (c : Codec α) (f : α → β) (g : β → α) : Codec β where
  enc b := c.enc (g b)
  dec bs := (c.dec bs).map fun p => (f p.1, p.2)
  size b := c.size (g b)

/-- Transport along a partial decoding: decoding fails if `f` fails. -/
def refine (c : Codec α) (f : α → Option β) (g : β → α) : Codec β where
  enc b := c.enc (g b)
  dec bs := (c.dec bs).bind fun p => (f p.1).map fun b => (b, p.2)
  size b := c.size (g b)

/-- `u8`. -/
def u8 : Codec UInt8 := (uint 1).iso UInt8.ofNat UInt8.toNat

/-- `u32`. -/
def u32 : Codec U32 := (uint 4).iso UInt32.ofNat UInt32.toNat

/-- `u64` length prefix. -/
def u64 : Codec Nat := uint 8

/-- Two fields in order. -/
def pair (a : Codec α) (b : Codec β) : Codec (α × β) where
  enc p := a.enc p.1 ++ b.enc p.2
  dec bs := (a.dec bs).bind fun p => (b.dec p.2).map fun q => ((p.1, q.1), q.2)
  size p := a.size p.1 + b.size p.2

/-- Reading exactly `k` elements. -/
def decN (c : Codec α) : Nat → Bytes → Option (List α × Bytes)
  | 0, bs => some ([], bs)
  | k + 1, bs => (c.dec bs).bind fun p => (decN c k p.2).map fun q => (p.1 :: q.1, q.2)

/-- `Vec<T>`. -/
def vec (c : Codec α) : Codec (List α) where
  enc l := u64.enc l.length ++ (l.map c.enc).flatten
  dec bs := (u64.dec bs).bind fun p => decN c p.1 p.2
  size l := 8 + (l.map c.size).sum

/-- `bool`: one byte, 0 or 1, anything else is `InvalidData`. -/
def bool : Codec Bool :=
  u8.refine (fun b => if b = 0 then some false else if b = 1 then some true else none)
    (fun b => if b then 1 else 0)

/-- `Option<T>`. -/
def option (c : Codec α) : Codec (Option α) where
  enc
    | none => bool.enc false
    | some a => bool.enc true ++ c.enc a
  dec bs := (bool.dec bs).bind fun p =>
    if p.1 then (c.dec p.2).map fun q => (some q.1, q.2) else some (none, p.2)
  size
    | none => 1
    | some a => 1 + c.size a

/-- `BTreeMap<u32, T>`. -/
def bmap (c : Codec α) : Codec (BMap α) where
  enc m := (vec (pair u32 c)).enc m
  dec bs := ((vec (pair u32 c)).dec bs).map fun p =>
    (p.1.foldl (fun m e => BMap.insert e.1 e.2 m) [], p.2)
  size m := (vec (pair u32 c)).size m

/-- Scalars of the suite. -/
def scalar {F G R : Type} (S : Suite F G R) : Codec F := ⟨S.encF, S.decF, fun _ => S.sizeF⟩

/-- Group elements of the suite. -/
def group {F G R : Type} (S : Suite F G R) : Codec G := ⟨S.encG, S.decG, fun _ => S.sizeG⟩

/-- `ToBytes::to_bytes`, `src/serialization.rs:9-16`. Serialization into a `Vec` cannot fail. -/
def toBytes {F G : Type} (c : Codec α) (a : α) : Out F G Bytes := .ok (c.enc a)

/-- `FromBytes::from_bytes`, `src/serialization.rs:22-24`: unread trailing bytes are ignored. -/
def fromBytes {F G : Type} (c : Codec α) (bs : Bytes) : Out F G α :=
  match c.dec bs with
  | some (a, _) => .ok a
  | none => .error .deserializationError

end Codec

section
variable {F G R : Type} (S : Suite F G R)
open Codec

/-- `ThresholdParameters`, derived, `src/parameters.rs:13`: no validity check. -/
def paramsCodec : Codec Params := (pair u32 u32).iso (fun p => ⟨p.1, p.2⟩) (fun p => (p.n, p.t))

/-- `SecretShare`, derived, `src/dkg/secret_share.rs:45`. -/
def secretShareCodec : Codec (SecretShare F) :=
  (pair u32 (pair u32 (scalar S))).iso (fun p => ⟨p.1, p.2.1, p.2.2⟩)
    (fun s => (s.senderIndex, s.receiverIndex, s.eval))

/-- `Coefficients`, derived, `src/dkg/secret_share.rs:32`. -/
def coefficientsCodec : Codec (List F) := vec (scalar S)

/-- `EncryptedSecretShare`, hand-written, `src/dkg/secret_share.rs:161-209`: the nonce is written as a `Vec<u8>`
and must have exactly the cipher's nonce size when read back. `serialized_size` is hand-written as well (lines 178-185);
the nonce is an array there, whose size is that of the slice `[u8]`, as of a vector. `Valid::check` (lines 149-159) has
nothing to refuse: integers and byte vectors are always valid. -/
def encShareCodec : Codec EncShare :=
  { (pair u32 (pair u32 (pair
        ((vec u8).refine (fun n => if n.length = S.nonceSize then some n else none) id) (vec u8)))).iso
      (fun p => (⟨p.1, p.2.1, p.2.2.1, p.2.2.2⟩ : EncShare))
      (fun e => (e.senderIndex, e.receiverIndex, e.nonce, e.ct)) with
    size := fun e =>
      u32.size e.senderIndex + (u32.size e.receiverIndex + ((vec u8).size e.nonce + (vec u8).size e.ct)) }

/-- `VerifiableSecretSharingCommitment`, derived, `src/dkg/secret_share.rs:240`. -/
def vssCodec : Codec (VssCommitment G) :=
  (pair u32 (vec (group S))).iso (fun p => ⟨p.1, p.2⟩) (fun c => (c.index, c.points))

/-- `NizkPokOfSecretKey`, derived, `src/dkg/nizkpok.rs:30`. -/
def nizkCodec : Codec (Nizk F) :=
  (pair (scalar S) (scalar S)).iso (fun p => ⟨p.1, p.2⟩) (fun n => (n.s, n.r))

/-- `ComplaintProof`, derived, `src/dkg/complaint.rs:143`. -/
def complaintProofCodec : Codec (ComplaintProof F G) :=
  (pair (group S) (pair (group S) (scalar S))).iso (fun p => ⟨p.1, p.2.1, p.2.2⟩)
    (fun c => (c.a1, c.a2, c.z))

/-- `Complaint`, derived, `src/dkg/complaint.rs:25`. -/
def complaintCodec : Codec (Complaint F G) :=
  (pair (group S) (pair (group S) (pair (encShareCodec S) (complaintProofCodec S)))).iso
    (fun p => ⟨p.1, p.2.1, p.2.2.1, p.2.2.2⟩)
    (fun c => (c.dhSharedKey, c.dhPublicKey, c.encShare, c.proof))

/-- `Participant`, derived, `src/dkg/participant.rs:30`. -/
def participantCodec : Codec (Participant F G) :=
  (pair u32 (pair (group S) (pair (option (vssCodec S)) (pair (option (nizkCodec S)) (nizkCodec S))))).iso
    (fun p => ⟨p.1, p.2.1, p.2.2.1, p.2.2.2.1, p.2.2.2.2⟩)
    (fun p => (p.index, p.dhPublicKey, p.commitments, p.proofOfSecretKey, p.proofOfDhPrivateKey))

/-- `DiffieHellmanPrivateKey`, derived newtype, `src/keys.rs:22`. -/
def dhPrivateKeyCodec : Codec F := scalar S

/-- `DiffieHellmanPublicKey` and `GroupVerifyingKey`, derived, `src/keys.rs:34, 229`. -/
def publicKeyCodec : Codec G := group S

/-- `IndividualVerifyingKey`, derived, `src/keys.rs:65`. -/
def verifyingKeyCodec : Codec (IndividualVerifyingKey G) :=
  (pair u32 (group S)).iso (fun p => ⟨p.1, p.2⟩) (fun k => (k.index, k.share))

/-- `IndividualSigningKey`, derived, `src/keys.rs:186`. -/
def signingKeyCodec : Codec (IndividualSigningKey F) :=
  (pair u32 (scalar S)).iso (fun p => ⟨p.1, p.2⟩) (fun k => (k.index, k.key))

/-- `ActualState`, derived, `src/dkg/key_generation.rs:529-552`. -/
def dkgStateCodec : Codec (DkgState F G) :=
  (pair paramsCodec (pair u32 (pair (scalar S) (pair (group S) (pair (option (bmap (vssCodec S)))
    (pair (bmap (group S)) (pair (option (bmap (encShareCodec S)))
      (option (bmap (secretShareCodec S)))))))))).iso
    (fun p => ⟨p.1, p.2.1, p.2.2.1, p.2.2.2.1, p.2.2.2.2.1, p.2.2.2.2.2.1, p.2.2.2.2.2.2.1,
      p.2.2.2.2.2.2.2⟩)
    (fun s => (s.parameters, s.index, s.dhPrivateKey, s.dhPublicKey, s.theirCommitments,
      s.theirDhPublicKeys, s.theirEncryptedSecretShares, s.mySecretShares))

/-- `DistributedKeyGeneration<RoundOne, C>`: state then the empty marker, `src/dkg/key_generation.rs:519-526`. The state is in
a box, which is written and read as its content (lines 554-603). -/
def roundOneCodec : Codec (RoundOne F G) := (dkgStateCodec S).iso RoundOne.mk RoundOne.state

/-- `DistributedKeyGeneration<RoundTwo, C>`: state then the empty marker, `src/dkg/key_generation.rs:519-526`, in a box as
above. -/
def roundTwoCodec : Codec (RoundTwo F G) := (dkgStateCodec S).iso RoundTwo.mk RoundTwo.state

/-- `DKGParticipantList`, derived, `src/dkg/key_generation.rs:608`. -/
def participantListCodec : Codec (ParticipantList F G) :=
  (pair (vec (participantCodec S)) (option (vec u32))).iso (fun p => ⟨p.1, p.2⟩)
    (fun l => (l.valid, l.misbehaving))

/-- `Commitment`, derived, `src/sign/precomputation.rs:77`. -/
def commitmentCodec : Codec (Commitment F G) :=
  (pair (scalar S) (group S)).iso (fun p => ⟨p.1, p.2⟩) (fun c => (c.secret, c.commit))

/-- `CommitmentShare`, derived, `src/sign/precomputation.rs:109`. -/
def commitmentShareCodec : Codec (CommitmentShare F G) :=
  (pair (commitmentCodec S) (commitmentCodec S)).iso (fun p => ⟨p.1, p.2⟩) (fun c => (c.hidingC, c.bindingC))

/-- `SecretCommitmentShareList`, derived, `src/sign/precomputation.rs:145`. -/
def secretListCodec : Codec (List (CommitmentShare F G)) := vec (commitmentShareCodec S)

/-- `PublicCommitmentShareList`, derived, `src/sign/precomputation.rs:158`. -/
def publicListCodec : Codec (PublicCommitmentShareList G) :=
  (pair u32 (vec (pair (group S) (group S)))).iso (fun p => ⟨p.1, p.2⟩)
    (fun l => (l.participantIndex, l.commitments))

/-- `Signer`, derived, `src/sign/signature.rs:25`. -/
def signerCodec : Codec (Signer G) :=
  (pair u32 (pair (group S) (group S))).iso (fun p => ⟨p.1, p.2⟩) (fun s => (s.participantIndex, s.share))

/-- `PartialThresholdSignature`, derived, `src/sign/signature.rs:59`. -/
def partialSignatureCodec : Codec (PartialSignature F) :=
  (pair u32 (scalar S)).iso (fun p => ⟨p.1, p.2⟩) (fun s => (s.index, s.z))

/-- `ThresholdSignature`, derived, `src/sign/signature.rs:68`. -/
def signatureCodec : Codec (ThresholdSignature F G) :=
  (pair (group S) (scalar S)).iso (fun p => ⟨p.1, p.2⟩) (fun s => (s.groupCommitment, s.z))

end

end IceFrost
