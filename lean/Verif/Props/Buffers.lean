import Verif.Model.Memory
import Verif.Lemmas.Codec
import Verif.Toy

/-!
# C136: serialising reserves exactly what it writes

`to_bytes` and the buffers for shares and Diffie-Hellman keys are created with the capacity that `compressed_size`
announces. If this were less than what is written, the buffer would move while it is filled and leave a part of the
secret in released memory.
-/

set_option linter.unusedSectionVars false
set_option linter.unusedSimpArgs false

namespace IceFrost

open Codec

variable {F G R : Type} [Field F] [DecidableEq F] [AddCommGroup G] [Module F G] [DecidableEq G]

/-- The announced size is the number of bytes written, for every value, and however the encoder splits its output, a
buffer of that size receives it without moving. -/
def Spec.ExactlyReserved {α : Type} (c : Codec α) : Prop :=
  ∀ a, (c.enc a).length = c.size a ∧
    ∀ chunks : List Bytes, chunks.flatten = c.enc a → toBytesMem c a chunks = (c.enc a, [])

theorem writeChunks_fst (cap : Nat) (buf : Bytes) (cs : List Bytes) :
    (writeChunks cap buf cs).1 = buf ++ cs.flatten := by
  induction cs generalizing cap buf with
  | nil => simp [writeChunks]
  | cons c cs ih =>
    rw [writeChunks]
    split
    · rw [ih]; simp
    · show (writeChunks _ (buf ++ c) cs).1 = _
      rw [ih]; simp

/-- A vector moves exactly when more is written than was reserved. -/
theorem writeChunks_snd_nil_iff (cap : Nat) (buf : Bytes) (cs : List Bytes) (h : buf.length ≤ cap) :
    (writeChunks cap buf cs).2 = [] ↔ buf.length + cs.flatten.length ≤ cap := by
  induction cs generalizing cap buf with
  | nil => simpa [writeChunks] using h
  | cons c cs ih =>
    rw [writeChunks]
    split
    · next hc =>
      rw [ih _ _ (by simpa using hc)]
      simp only [List.length_append, List.flatten_cons]
      omega
    · next hc =>
      simp only [List.flatten_cons, List.length_append, reduceCtorEq, false_iff]
      omega

theorem exactlyReserved_of_size {α : Type} {c : Codec α} (h : ∀ a, (c.enc a).length = c.size a) :
    Spec.ExactlyReserved c := by
  refine fun a => ⟨h a, fun chunks hc => ?_⟩
  have h1 : (toBytesMem c a chunks).1 = c.enc a := by
    rw [toBytesMem, writeChunks_fst, List.nil_append, hc]
  have h2 : (toBytesMem c a chunks).2 = [] :=
    (writeChunks_snd_nil_iff (c.size a) [] chunks (Nat.zero_le _)).mpr (by simp [hc, h a])
  exact Prod.ext h1 h2

namespace Codec
variable {α β : Type}

/-- The announced size is the number of bytes written. -/
def Sized (c : Codec α) : Prop := ∀ a, (c.enc a).length = c.size a

theorem uint_sized (k : Nat) : (uint k).Sized := fun n => leBytes_length k n

theorem iso_sized {c : Codec α} (h : c.Sized) (f : α → β) (g : β → α) : (c.iso f g).Sized := fun b => h (g b)

theorem refine_sized {c : Codec α} (h : c.Sized) (f : α → Option β) (g : β → α) : (c.refine f g).Sized := fun b => h (g b)

theorem u8_sized : u8.Sized := iso_sized (uint_sized 1) _ _

theorem u32_sized : u32.Sized := iso_sized (uint_sized 4) _ _

theorem pair_sized {a : Codec α} {b : Codec β} (ha : a.Sized) (hb : b.Sized) : (pair a b).Sized := fun p => by
  show (a.enc p.1 ++ b.enc p.2).length = a.size p.1 + b.size p.2
  rw [List.length_append, ha, hb]

theorem vec_sized {c : Codec α} (h : c.Sized) : (vec c).Sized := fun l => by
  show (u64.enc l.length ++ (l.map c.enc).flatten).length = 8 + (l.map c.size).sum
  rw [List.length_append, List.length_flatten, List.map_map, show (u64.enc l.length).length = 8 from leBytes_length 8 _,
    show l.map (List.length ∘ c.enc) = l.map c.size from List.map_congr_left fun a _ => h a]

theorem option_sized {c : Codec α} (h : c.Sized) : (option c).Sized := fun o => by
  have hb : ∀ b, (bool.enc b).length = 1 := fun b => refine_sized u8_sized _ _ b
  cases o with
  | none => exact hb false
  | some a =>
    show (bool.enc true ++ c.enc a).length = 1 + c.size a
    rw [List.length_append, hb, h]

theorem bmap_sized {c : Codec α} (h : c.Sized) : (bmap c).Sized := fun m => vec_sized (pair_sized u32_sized h) m

end Codec

section
variable {S : Suite F G R} (hd : S.CodecLaws)
include hd

theorem scalar_sized : (scalar S).Sized := hd.encF_length
theorem group_sized : (group S).Sized := hd.encG_length
theorem vss_sized : (vssCodec S).Sized := iso_sized (pair_sized u32_sized (vec_sized (group_sized hd))) _ _
theorem nizk_sized : (nizkCodec S).Sized := iso_sized (pair_sized (scalar_sized hd) (scalar_sized hd)) _ _
theorem secretShare_sized : (secretShareCodec S).Sized :=
  iso_sized (pair_sized u32_sized (pair_sized u32_sized (scalar_sized hd))) _ _
theorem commitment_sized : (commitmentCodec S).Sized := iso_sized (pair_sized (scalar_sized hd) (group_sized hd)) _ _
theorem participant_sized : (participantCodec S).Sized :=
  iso_sized (pair_sized u32_sized (pair_sized (group_sized hd) (pair_sized (option_sized (vss_sized hd))
    (pair_sized (option_sized (nizk_sized hd)) (nizk_sized hd))))) _ _

end

theorem params_sized : paramsCodec.Sized := iso_sized (pair_sized u32_sized u32_sized) _ _

theorem encShare_sized (S : Suite F G R) : (encShareCodec S).Sized := fun e => by
  have hv := vec_sized u8_sized
  show (u32.enc e.senderIndex ++ (u32.enc e.receiverIndex ++ ((vec u8).enc e.nonce ++ (vec u8).enc e.ct))).length =
    u32.size e.senderIndex + (u32.size e.receiverIndex + ((vec u8).size e.nonce + (vec u8).size e.ct))
  rw [List.length_append, List.length_append, List.length_append, u32_sized, u32_sized, hv, hv]

theorem dkgState_sized {S : Suite F G R} (hd : S.CodecLaws) : (dkgStateCodec S).Sized :=
  iso_sized (pair_sized params_sized (pair_sized u32_sized (pair_sized (scalar_sized hd) (pair_sized (group_sized hd)
    (pair_sized (option_sized (bmap_sized (vss_sized hd))) (pair_sized (bmap_sized (group_sized hd))
      (pair_sized (option_sized (bmap_sized (encShare_sized S))) (option_sized (bmap_sized (secretShare_sized hd))))))))))
    _ _

/-- C136: objects that contain secrets: signing keys, coefficients, shares, Diffie-Hellman private keys, nonce lists and
the saved states of both rounds. -/
theorem C136_secret_objects {S : Suite F G R} (hd : S.CodecLaws) :
    Spec.ExactlyReserved (signingKeyCodec S) ∧ Spec.ExactlyReserved (coefficientsCodec S) ∧
    Spec.ExactlyReserved (secretShareCodec S) ∧ Spec.ExactlyReserved (dhPrivateKeyCodec S) ∧
    Spec.ExactlyReserved (commitmentCodec S) ∧ Spec.ExactlyReserved (commitmentShareCodec S) ∧
    Spec.ExactlyReserved (secretListCodec S) ∧ Spec.ExactlyReserved (roundOneCodec S) ∧
    Spec.ExactlyReserved (roundTwoCodec S) :=
  have hc : (commitmentShareCodec S).Sized := iso_sized (pair_sized (commitment_sized hd) (commitment_sized hd)) _ _
  ⟨exactlyReserved_of_size (iso_sized (pair_sized u32_sized (scalar_sized hd)) _ _),
    exactlyReserved_of_size (vec_sized (scalar_sized hd)), exactlyReserved_of_size (secretShare_sized hd),
    exactlyReserved_of_size (scalar_sized hd), exactlyReserved_of_size (commitment_sized hd), exactlyReserved_of_size hc,
    exactlyReserved_of_size (vec_sized hc), exactlyReserved_of_size (iso_sized (dkgState_sized hd) _ _),
    exactlyReserved_of_size (iso_sized (dkgState_sized hd) _ _)⟩

/-- C136: public objects, including encrypted shares, whose size is computed by hand in the source, and the scalars and
group elements that encryption puts into buffers of their own. -/
theorem C136_public_objects {S : Suite F G R} (hd : S.CodecLaws) :
    Spec.ExactlyReserved (encShareCodec S) ∧ Spec.ExactlyReserved (scalar S) ∧ Spec.ExactlyReserved (group S) ∧
    Spec.ExactlyReserved paramsCodec ∧ Spec.ExactlyReserved (vssCodec S) ∧ Spec.ExactlyReserved (nizkCodec S) ∧
    Spec.ExactlyReserved (complaintCodec S) ∧ Spec.ExactlyReserved (participantCodec S) ∧
    Spec.ExactlyReserved (publicKeyCodec S) ∧ Spec.ExactlyReserved (verifyingKeyCodec S) ∧
    Spec.ExactlyReserved (participantListCodec S) ∧ Spec.ExactlyReserved (publicListCodec S) ∧
    Spec.ExactlyReserved (signerCodec S) ∧ Spec.ExactlyReserved (partialSignatureCodec S) ∧
    Spec.ExactlyReserved (signatureCodec S) := by
  have hF := scalar_sized hd
  have hG := group_sized hd
  refine ⟨exactlyReserved_of_size (encShare_sized S), exactlyReserved_of_size hF, exactlyReserved_of_size hG,
    exactlyReserved_of_size params_sized, exactlyReserved_of_size (vss_sized hd), exactlyReserved_of_size (nizk_sized hd),
    exactlyReserved_of_size (iso_sized (pair_sized hG (pair_sized hG (pair_sized (encShare_sized S)
      (iso_sized (pair_sized hG (pair_sized hG hF)) _ _)))) _ _),
    exactlyReserved_of_size (participant_sized hd), exactlyReserved_of_size hG,
    exactlyReserved_of_size (iso_sized (pair_sized u32_sized hG) _ _),
    exactlyReserved_of_size (iso_sized (pair_sized (vec_sized (participant_sized hd)) (option_sized (vec_sized u32_sized))) _ _),
    exactlyReserved_of_size (iso_sized (pair_sized u32_sized (vec_sized (pair_sized hG hG))) _ _),
    exactlyReserved_of_size (iso_sized (pair_sized u32_sized (pair_sized hG hG)) _ _),
    exactlyReserved_of_size (iso_sized (pair_sized u32_sized hF) _ _),
    exactlyReserved_of_size (iso_sized (pair_sized hG hF) _ _)⟩

/-- C136: the reservation is needed: any smaller capacity makes the buffer move, whatever the pieces, and each buffer
left behind holds a beginning of the encoded object. -/
theorem C136_smaller_moves (cap : Nat) (chunks : List Bytes) :
    ((writeChunks cap [] chunks).2 = [] ↔ chunks.flatten.length ≤ cap) ∧
    ∀ b ∈ (writeChunks cap [] chunks).2, b <+: chunks.flatten := by
  refine ⟨by simpa using writeChunks_snd_nil_iff cap [] chunks (Nat.zero_le _), ?_⟩
  suffices h : ∀ cap buf (cs : List Bytes), ∀ b ∈ (writeChunks cap buf cs).2, b <+: buf ++ cs.flatten by
    simpa using h cap [] chunks
  intro cap buf cs
  induction cs generalizing cap buf with
  | nil => simp [writeChunks]
  | cons c cs ih =>
    intro b hb
    rw [writeChunks] at hb
    split at hb
    · simpa using ih _ _ b hb
    · rcases List.mem_cons.mp hb with rfl | hb
      · exact List.prefix_append _ _
      · simpa using ih _ _ b hb

/-- C136: the one buffer with a secret that does move is the input of the nonce hash. What it leaves behind are the
random bytes, before the signing key is appended: they are the same whatever the key. -/
theorem C136_nonce_input {S : Suite F G R} (sk : IndividualSigningKey F) (rng : R) :
    nonceInputMem S sk rng =
      ((S.randBytes S.hashLen rng).1 ++ (signingKeyCodec S).enc sk, [(S.randBytes S.hashLen rng).1]) ∧
    ∀ sk' : IndividualSigningKey F, (nonceInputMem S sk' rng).2 = (nonceInputMem S sk rng).2 := by
  have h : ∀ sk : IndividualSigningKey F, nonceInputMem S sk rng =
      ((S.randBytes S.hashLen rng).1 ++ (signingKeyCodec S).enc sk, [(S.randBytes S.hashLen rng).1]) := fun sk => by
    have h4 : 4 ≤ ((signingKeyCodec S).enc sk).length := by
      show 4 ≤ (u32.enc sk.index ++ S.encF sk.key).length
      rw [List.length_append, show (u32.enc sk.index).length = 4 from leBytes_length 4 _]
      omega
    show writeChunks _ _ _ = _
    rw [writeChunks, if_neg (by omega)]
    rfl
  exact ⟨h sk, fun sk' => by rw [h, h]⟩

section Examples
open Toy

example : toBytesMem (signingKeyCodec suite) ⟨1, 300⟩ [[1, 0, 0, 0], [44, 1], [0, 0, 0, 0]] =
    ([1, 0, 0, 0, 44, 1, 0, 0, 0, 0], []) :=
  ((C136_secret_objects codec_laws).1 ⟨1, 300⟩).2 _ (by decide +kernel)
example : toBytesMem (encShareCodec suite) ⟨1, 2, [1, 2], [9]⟩
      [[1, 0, 0, 0], [2, 0, 0, 0], [2, 0, 0, 0, 0, 0, 0, 0], [1], [2], [1, 0, 0, 0, 0, 0, 0, 0], [9]] =
    ([1, 0, 0, 0, 2, 0, 0, 0, 2, 0, 0, 0, 0, 0, 0, 0, 1, 2, 1, 0, 0, 0, 0, 0, 0, 0, 9], []) :=
  ((C136_public_objects codec_laws).1 ⟨1, 2, [1, 2], [9]⟩).2 _ (by decide +kernel)
/-- With one byte less the beginning of the key would stay behind. -/
example : [1, 0, 0, 0, 44, 1] ∈ (writeChunks 9 [] [[1, 0, 0, 0], [44, 1], [0, 0, 0, 0]]).2 := by decide
example : (writeChunks 9 [] [[1, 0, 0, 0], [44, 1], [0, 0, 0, 0]]).2 ≠ [] := fun h =>
  absurd ((C136_smaller_moves 9 [[1, 0, 0, 0], [44, 1], [0, 0, 0, 0]]).1.mp h) (by decide)
example (rng : Nat) : (nonceInputMem suite ⟨1, 300⟩ rng).2 = (nonceInputMem suite ⟨2, 77⟩ rng).2 :=
  (C136_nonce_input (S := suite) ⟨2, 77⟩ rng).2 ⟨1, 300⟩

end Examples

end IceFrost
