import Verif.Model.Codec

/-!
# Memory that decoding reserves

`FromBytes::from_bytes`, `src/serialization.rs:22-24`, hands the bytes to `deserialize_compressed` of `ark-serialize` 0.4. Its
implementation for `Vec<T>` reads the length and calls `Vec::with_capacity` with it before it reads the first element; its
implementation for `BTreeMap` inserts one entry after the other and reserves nothing beforehand. This reading of the dependency
is part of the trusted base (the dependency is not in `/repo`). `Vec::with_capacity` of the standard library panics if the
memory asked for exceeds `isize::MAX` bytes.

Each definition below mirrors the one of the same name in `Model/Codec.lean`.
-/

namespace IceFrost

/-- A decoder together with the reservations it makes for an input: each time the number of elements and the memory of one
element. -/
structure Reserving (α : Type) where
  /-- the codec -/
  codec : Codec α
  /-- the calls of `Vec::with_capacity` in order -/
  wants : Bytes → List (Nat × Nat)

/-- `size_of` of the types that occur as elements of vectors, besides `u8` and `u32`. -/
structure Widths where
  /-- a scalar -/
  scalar : Nat
  /-- a group element -/
  point : Nat
  /-- `Participant` -/
  participant : Nat
  /-- `CommitmentShare` -/
  share : Nat

namespace Reserving
variable {α β : Type}

/-- Integers, scalars and group elements have a fixed size: no vector. -/
def leaf (c : Codec α) : Reserving α := ⟨c, fun _ => []⟩

/-- Newtypes and structs. -/
def iso (c : Reserving α) (f : α → β) (g : β → α) : Reserving β := ⟨c.codec.iso f g, c.wants⟩

/-- A check after reading. -/
def refine (c : Reserving α) (f : α → Option β) (g : β → α) : Reserving β := ⟨c.codec.refine f g, c.wants⟩

/-- Two fields in order; the second is not read if the first fails. -/
def pair (a : Reserving α) (b : Reserving β) : Reserving (α × β) where
  codec := a.codec.pair b.codec
  wants bs := a.wants bs ++ match a.codec.dec bs with
    | none => []
    | some p => b.wants p.2

/-- Reading `k` elements. -/
def wantsN (c : Reserving α) : Nat → Bytes → List (Nat × Nat)
  | 0, _ => []
  | k + 1, bs => c.wants bs ++ match c.codec.dec bs with
    | none => []
    | some p => wantsN c k p.2

/-- `Vec<T>`, where a `T` takes `w` bytes of memory. -/
def vec (w : Nat) (c : Reserving α) : Reserving (List α) where
  codec := c.codec.vec
  wants bs := match Codec.u64.dec bs with
    | none => []
    | some p => (p.1, w) :: c.wantsN p.1 p.2

/-- `Option<T>`. -/
def option (c : Reserving α) : Reserving (Option α) where
  codec := c.codec.option
  wants bs := match Codec.bool.dec bs with
    | some (true, rest) => c.wants rest
    | _ => []

/-- `BTreeMap<u32, T>`: nothing is reserved for the map. -/
def bmap (c : Reserving α) : Reserving (BMap α) where
  codec := c.codec.bmap
  wants bs := match Codec.u64.dec bs with
    | none => []
    | some p => (pair (leaf Codec.u32) c).wantsN p.1 p.2

/-- `from_bytes` panics: some reservation exceeds `isize::MAX` bytes on a machine with 64 bits. -/
def panics (c : Reserving α) (bs : Bytes) : Prop := ∃ e ∈ c.wants bs, 2 ^ 63 ≤ e.1 * e.2

/-- The memory that `from_bytes` reserves in total, if it does not panic. -/
def reserved (c : Reserving α) (bs : Bytes) : Nat := ((c.wants bs).map fun e => e.1 * e.2).sum

end Reserving

section
variable {F G R : Type} (S : Suite F G R) (w : Widths)
open Reserving

/-- `Coefficients`, `src/dkg/secret_share.rs:32`. -/
def coefficientsReserving : Reserving (List F) := vec w.scalar (leaf (Codec.scalar S))

/-- `EncryptedSecretShare`, `src/dkg/secret_share.rs:187-209`: the nonce is read as a vector and its length is checked
afterwards. -/
def encShareReserving : Reserving EncShare where
  codec := encShareCodec S
  wants := (pair (leaf Codec.u32) (pair (leaf Codec.u32) (pair ((vec 1 (leaf Codec.u8)).refine
    (fun n => if n.length = S.nonceSize then some n else none) id) (vec 1 (leaf Codec.u8))))).wants

/-- `VerifiableSecretSharingCommitment`, `src/dkg/secret_share.rs:240`. -/
def vssReserving : Reserving (VssCommitment G) :=
  (pair (leaf Codec.u32) (vec w.point (leaf (Codec.group S)))).iso (fun p => ⟨p.1, p.2⟩) (fun c => (c.index, c.points))

/-- `Complaint`, `src/dkg/complaint.rs:25`. -/
def complaintReserving : Reserving (Complaint F G) :=
  (pair (leaf (Codec.group S)) (pair (leaf (Codec.group S)) (pair (encShareReserving S) (leaf (complaintProofCodec S))))).iso
    (fun p => ⟨p.1, p.2.1, p.2.2.1, p.2.2.2⟩) (fun c => (c.dhSharedKey, c.dhPublicKey, c.encShare, c.proof))

/-- `Participant`, `src/dkg/participant.rs:30`. -/
def participantReserving : Reserving (Participant F G) :=
  (pair (leaf Codec.u32) (pair (leaf (Codec.group S)) (pair (option (vssReserving S w))
    (pair (leaf (Codec.option (nizkCodec S))) (leaf (nizkCodec S)))))).iso
    (fun p => ⟨p.1, p.2.1, p.2.2.1, p.2.2.2.1, p.2.2.2.2⟩)
    (fun p => (p.index, p.dhPublicKey, p.commitments, p.proofOfSecretKey, p.proofOfDhPrivateKey))

/-- `ActualState`, `src/dkg/key_generation.rs:529-552`. -/
def dkgStateReserving : Reserving (DkgState F G) :=
  (pair (leaf paramsCodec) (pair (leaf Codec.u32) (pair (leaf (Codec.scalar S)) (pair (leaf (Codec.group S))
    (pair (option (bmap (vssReserving S w))) (pair (bmap (leaf (Codec.group S)))
      (pair (option (bmap (encShareReserving S))) (option (bmap (leaf (secretShareCodec S))))))))))).iso
    (fun p => ⟨p.1, p.2.1, p.2.2.1, p.2.2.2.1, p.2.2.2.2.1, p.2.2.2.2.2.1, p.2.2.2.2.2.2.1, p.2.2.2.2.2.2.2⟩)
    (fun s => (s.parameters, s.index, s.dhPrivateKey, s.dhPublicKey, s.theirCommitments, s.theirDhPublicKeys,
      s.theirEncryptedSecretShares, s.mySecretShares))

/-- `DKGParticipantList`, `src/dkg/key_generation.rs:608`. -/
def participantListReserving : Reserving (ParticipantList F G) :=
  (pair (vec w.participant (participantReserving S w)) (option (vec 4 (leaf Codec.u32)))).iso (fun p => ⟨p.1, p.2⟩)
    (fun l => (l.valid, l.misbehaving))

/-- `SecretCommitmentShareList`, `src/sign/precomputation.rs:145`. -/
def secretListReserving : Reserving (List (CommitmentShare F G)) := vec w.share (leaf (commitmentShareCodec S))

/-- `PublicCommitmentShareList`, `src/sign/precomputation.rs:158`. -/
def publicListReserving : Reserving (PublicCommitmentShareList G) :=
  (pair (leaf Codec.u32) (vec (2 * w.point) (leaf (Codec.pair (Codec.group S) (Codec.group S))))).iso (fun p => ⟨p.1, p.2⟩)
    (fun l => (l.participantIndex, l.commitments))

end

end IceFrost
