import Verif.Model.KeyGeneration
import Verif.Model.Precomputation

/-!
# Heap buffers

The functions that put secrets into byte vectors of their own, together with the content of those vectors at the moment
they are released. None of these vectors is overwritten before. The first component is the result of the function as
modelled elsewhere (`Props/Memory.lean` proves this). Not listed: buffers inside the hash, KDF and cipher
implementations; the buffers left behind when a vector moves are the subject of `writeChunks` at the end of this file.
-/

namespace IceFrost

variable {F G R : Type} [Field F] [DecidableEq F] [AddCommGroup G] [Module F G] [DecidableEq G]

/-- `encrypt_share`, `src/dkg/secret_share.rs:294-326`, with the vectors `final_aead_key` and `share_bytes`. -/
def encryptShareMem (S : Suite F G R) (share : SecretShare F) (initialKey : Bytes) (rng : R) :
    Out F G (EncShare × R) × List Bytes :=
  match S.kdf initialKey with
  | none => (.error (.custom "KDF expansion failed unexpectedly"), [])
  | some key =>
    let (nonce, rng) := S.randBytes S.nonceSize rng
    let shareBytes := S.encF share.eval
    match S.aeadEnc key nonce shareBytes with
    | none => (.error .encryptionError, [shareBytes, key])
    | some ct => (.ok (⟨share.senderIndex, share.receiverIndex, nonce, ct⟩, rng), [shareBytes, key])

/-- `decrypt_share`, `src/dkg/secret_share.rs:334-361`, with the vectors `final_aead_key` and `bytes`. -/
def decryptShareMem (S : Suite F G R) (e : EncShare) (initialKey : Bytes) : Out F G (SecretShare F) × List Bytes :=
  match S.kdf initialKey with
  | none => (.error (.custom "KDF expansion failed unexpectedly"), [])
  | some key =>
    match S.aeadDec key e.nonce e.ct with
    | none => (.error .decryptionError, [key])
    | some bytes =>
      match S.decF bytes with
      | none => (.error .decompressionError, [bytes, key])
      | some (v, _) => (.ok ⟨e.senderIndex, e.receiverIndex, v⟩, [bytes, key])

/-- The share loop of `new_state_internal`, `src/dkg/key_generation.rs:832-849`, with the vectors `dh_key_bytes`. -/
def dealSharesMem (S : Suite F G R) (dhPrivateKey : F) (myIndex : U32) (myCoefficients : Option (List F)) :
    List (Participant F G) → BMap EncShare → R → Res F G (BMap EncShare × R) × List Bytes
  | [], m, rng => (.ok (m, rng), [])
  | p :: ps, m, rng =>
    match myCoefficients with
    | none => (.error (.panic .expectNone), [])
    | some coeffs =>
      let share := evaluatePolynomial myIndex p.index coeffs
      let dhKey := dhPrivateKey • p.dhPublicKey
      match encryptShareMem S share (S.encG dhKey) rng with
      | (.error e, freed) => (.error (.err e), freed ++ [S.encG dhKey])
      | (.ok (enc, rng), freed) =>
        let (r, freed') := dealSharesMem S dhPrivateKey myIndex myCoefficients ps (m.insert p.index enc) rng
        (r, freed ++ [S.encG dhKey] ++ freed')

/-- The outer loop of `to_round_two`, `src/dkg/key_generation.rs:928-984`, with the vectors `dh_key_bytes`. -/
def roundTwoLoopMem (S : Suite F G R) (dbg : Bool) (st : DkgState F G) :
    List EncShare → BMap (SecretShare F) → List (Complaint F G) → R →
      Res F G (BMap (SecretShare F) × List (Complaint F G)) × List Bytes
  | [], shares, cs, _ => (.ok (shares, cs), [])
  | e :: es, shares, cs, rng =>
    if dbg && e.receiverIndex != st.index then (.error (.panic .debugAssert), [])
    else
      match st.theirDhPublicKeys.get? e.senderIndex with
      | none => (.error (.err (.custom
          "to_round_two() was called with encrypted secret shares containing invalid indices")), [])
      | some pk =>
        let shared := st.dhPrivateKey • pk
        let (decrypted, freed) := decryptShareMem S e (S.encG shared)
        match st.theirCommitments with
        | none => (.error (.panic .expectNone), freed ++ [S.encG shared])
        | some comms =>
          let (cs, rng) := complaintLoop S pk st.dhPrivateKey shared e decrypted comms cs rng
          let shares := match decrypted with
            | .ok share => shares.insert share.senderIndex share
            | .error _ => shares
          let (r, freed') := roundTwoLoopMem S dbg st es shares cs rng
          (r, freed ++ [S.encG shared] ++ freed')

/-- `nonce_generate`, `src/sign/precomputation.rs:24-35`, with the temporary vector of `to_bytes` and `nonce_input`. -/
def nonceGenerateMem (S : Suite F G R) (sk : IndividualSigningKey F) (rng : R) : (F × R) × List Bytes :=
  let (randomBytes, rng) := S.randBytes S.hashLen rng
  let keyBytes := (signingKeyCodec S).enc sk
  ((S.h3 (randomBytes ++ keyBytes), rng), [keyBytes, randomBytes ++ keyBytes])

/-- The loop of `generate_commitment_share_lists`, `src/sign/precomputation.rs:186-191`, with the vectors released by
`nonce_generate`. -/
def commitmentSharesMem (S : Suite F G R) (sk : IndividualSigningKey F) :
    Nat → R → (List (CommitmentShare F G) × R) × List Bytes
  | 0, rng => (([], rng), [])
  | k + 1, rng =>
    let ((d, rng), freed) := nonceGenerateMem S sk rng
    let ((e, rng), freed') := nonceGenerateMem S sk rng
    let ((cs, rng), freed'') := commitmentSharesMem S sk k rng
    ((⟨⟨d, d • S.gen⟩, ⟨e, e • S.gen⟩⟩ :: cs, rng), freed ++ freed' ++ freed'')

/-- `hash_to_array`, `src/utils.rs:87-99`, with the panic of `copy_from_slice` when the array type `HashOutput` of the
suite (`outLen` bytes) has another length than the digest. -/
def hashToArrayChecked (S : Suite F G R) (outLen : Nat) (ctx msg : Bytes) : Res F G Bytes :=
  if (S.digest (ctx ++ msg)).length = outLen then .ok (S.digest (ctx ++ msg)) else .error (.panic .outOfBounds)

/-- Appending `chunks` one after the other to a `Vec<u8>` of capacity `cap` that contains `buf`: `Vec::reserve` of the
standard library moves the content to a buffer of at least twice the size when a chunk does not fit (it may also grow in
place, which leaves less behind). Returns the final content and the contents of the buffers released by moving. -/
def writeChunks : Nat → Bytes → List Bytes → Bytes × List Bytes
  | _, buf, [] => (buf, [])
  | cap, buf, c :: cs =>
    if buf.length + c.length ≤ cap then writeChunks cap (buf ++ c) cs
    else
      let (r, freed) := writeChunks (max 8 (max (2 * cap) (buf.length + c.length))) (buf ++ c) cs
      (r, buf :: freed)

/-- `ToBytes::to_bytes`, `src/serialization.rs:9-16`, when the encoder hands over its output in the pieces `chunks`; the
buffers of `src/dkg/secret_share.rs:310-314` and `src/dkg/key_generation.rs:842-846, 943-947, 1150-1154` are reserved and
filled in the same way. -/
def toBytesMem {α : Type} (c : Codec α) (a : α) (chunks : List Bytes) : Bytes × List Bytes :=
  writeChunks (c.size a) [] chunks

/-- The vector `nonce_input` of `nonce_generate`, `src/sign/precomputation.rs:31-32`: `to_vec` allocates exactly the
random bytes, `extend` appends the key. -/
def nonceInputMem (S : Suite F G R) (sk : IndividualSigningKey F) (rng : R) : Bytes × List Bytes :=
  let randomBytes := (S.randBytes S.hashLen rng).1
  writeChunks randomBytes.length randomBytes [(signingKeyCodec S).enc sk]

end IceFrost
