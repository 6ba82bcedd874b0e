import Verif.Toy
import Verif.Lemmas.Codec
import Verif.Lemmas.Signing
import Verif.Model.Complaint

/-! # C69–C71: what the hashes commit to -/

set_option linter.unusedSectionVars false
set_option linter.unusedSimpArgs false

namespace IceFrost

variable {F G R : Type} [Field F] [DecidableEq F] [AddCommGroup G] [Module F G] [DecidableEq G]

/-- C69: the encoding of the commitment list is injective: lists of any lengths with the same bytes are the same
list, in the same order. -/
theorem C69_list_injective {S : Suite F G R} (hd : S.CodecLaws) (l l' : List (U32 × G × G)) (b : Bytes)
    (h : encodeGroupCommitmentList S l = .ok b) (h' : encodeGroupCommitmentList S l' = .ok b) : l = l' := by
  have key : ∀ l l' : List (U32 × G × G), encodeCommitments S l = encodeCommitments S l' → l = l' := by
    intro l
    induction l with
    | nil =>
      intro l' he
      cases l' with
      | nil => rfl
      | cons e l' =>
        have := congrArg List.length he
        simp [encodeCommitments, u32le_length] at this
        omega
    | cons e l ih =>
      intro l' he
      cases l' with
      | nil =>
        have := congrArg List.length he
        simp [encodeCommitments, u32le_length] at this
      | cons e' l' =>
        simp only [encodeCommitments, List.map_cons, List.flatten_cons, List.append_assoc] at he
        obtain ⟨h1, he⟩ := u32le_append_inj he
        obtain ⟨h2, he⟩ := hd.encG_append_inj he
        obtain ⟨h3, he⟩ := hd.encG_append_inj he
        rw [ih l' he]
        congr 1
        exact Prod.ext h1 (Prod.ext h2 h3)
  cases l with
  | nil => cases h
  | cons e l =>
    cases l' with
    | nil => cases h'
    | cons e' l' =>
      simp only [encodeGroupCommitmentList, Except.ok.injEq] at h h'
      exact key _ _ (h.trans h'.symm)

/-- C69: with digests of a fixed length, the final hash input determines the message digest, the list digest and the
signer index. -/
theorem C69_input_determines (S : Suite F G R) (hl : ∀ b, (S.digest b).length = S.hashLen) (m m' : Bytes)
    (signers signers' : List (Signer G)) (i i' : U32)
    (h : Spec.rhoInput S m signers i = Spec.rhoInput S m' signers' i') :
    S.h4 m = S.h4 m' ∧ S.h5 (Spec.signersBytes S signers) = S.h5 (Spec.signersBytes S signers') ∧ i = i' := by
  unfold Spec.rhoInput at h
  obtain ⟨h1, h2⟩ := List.append_inj' h (by rw [u32le_length, u32le_length])
  obtain ⟨h3, h4⟩ := List.append_inj h1 (by rw [hl, hl])
  exact ⟨h3, h4, u32le_inj h2⟩

/-- The binding factor that `compute_binding_factors` gives to a signer is the hash `rho` of `Spec.rhoInput`. -/
theorem bindingFactor_eq (S : Suite F G R) (m : Bytes) (signers : List (Signer G)) (fs : BMap F) (i : U32) (x : F)
    (h : computeBindingFactors S m signers = .ok fs) (hi : BMap.get? i fs = some x) :
    signers ≠ [] ∧ x = S.h1 (Spec.rhoInput S m signers i) := by
  by_cases hs : signers = []
  · subst hs
    rw [computeBindingFactors_nil] at h
    cases h
  · refine ⟨hs, ?_⟩
    obtain ⟨fs', h1, h2⟩ := computeBindingFactors_ok S m hs
    rw [h1] at h
    simp only [Except.ok.injEq] at h
    subst h
    rw [h2] at hi
    split at hi
    · simp only [Option.some.injEq] at hi
      exact hi.symm
    · cases hi

/-- C69: if two sessions give (possibly different) signers the same binding factor, then the message, the whole
commitment list and the index are the same, or one of three explicitly given pairs of different byte strings
collides under the corresponding hash. -/
theorem C69_factor_binds {S : Suite F G R} (hd : S.CodecLaws) (hl : ∀ b, (S.digest b).length = S.hashLen)
    (m m' : Bytes) (signers signers' : List (Signer G)) (fs fs' : BMap F) (i i' : U32) (x : F)
    (h : computeBindingFactors S m signers = .ok fs) (h' : computeBindingFactors S m' signers' = .ok fs')
    (hi : BMap.get? i fs = some x) (hi' : BMap.get? i' fs' = some x) :
    (m = m' ∧ signers = signers' ∧ i = i') ∨
      (Spec.rhoInput S m signers i ≠ Spec.rhoInput S m' signers' i' ∧
        S.h1 (Spec.rhoInput S m signers i) = S.h1 (Spec.rhoInput S m' signers' i')) ∨
      (m ≠ m' ∧ S.h4 m = S.h4 m') ∨
      (Spec.signersBytes S signers ≠ Spec.signersBytes S signers' ∧
        S.h5 (Spec.signersBytes S signers) = S.h5 (Spec.signersBytes S signers')) := by
  obtain ⟨hs, h1⟩ := bindingFactor_eq S m signers fs i x h hi
  obtain ⟨hs', h1'⟩ := bindingFactor_eq S m' signers' fs' i' x h' hi'
  by_cases hr : Spec.rhoInput S m signers i = Spec.rhoInput S m' signers' i'
  · obtain ⟨h2, h3, h4⟩ := C69_input_determines S hl m m' signers signers' i i' hr
    by_cases hm : m = m'
    · by_cases hb : Spec.signersBytes S signers = Spec.signersBytes S signers'
      · refine Or.inl ⟨hm, ?_, h4⟩
        have e1 := encodeGroupCommitmentList_ok S hs
        have e2 := encodeGroupCommitmentList_ok S hs'
        rw [← hb] at e2
        have := C69_list_injective hd _ _ _ e1 e2
        unfold commitmentList at this
        refine List.map_injective_iff.mpr ?_ this
        rintro ⟨a, b⟩ ⟨c, d⟩ he
        simp only [Prod.mk.injEq] at he
        obtain ⟨rfl, h5, h6⟩ := he
        rw [Signer.mk.injEq]
        exact ⟨rfl, Prod.ext h5 h6⟩
      · exact Or.inr (Or.inr (Or.inr ⟨hb, h3⟩))
    · exact Or.inr (Or.inr (Or.inl ⟨hm, h2⟩))
  · exact Or.inr (Or.inl ⟨hr, h1.symm.trans h1'⟩)

/-- C70: the bytes hashed into the challenge determine the group commitment, the group key and the message. -/
theorem C70_challenge_input_injective {S : Suite F G R} (hd : S.CodecLaws) (c c' y y' : G) (m m' : Bytes)
    (h : S.encG c ++ S.encG y ++ m = S.encG c' ++ S.encG y' ++ m') : c = c' ∧ y = y' ∧ m = m' := by
  rw [List.append_assoc, List.append_assoc] at h
  obtain ⟨h1, h⟩ := hd.encG_append_inj h
  obtain ⟨h2, h⟩ := hd.encG_append_inj h
  exact ⟨h1, h2, h⟩

/-- C70: equal challenges mean equal commitment, key and message, or a collision of `h2` on these two inputs. -/
theorem C70_challenge_binds {S : Suite F G R} (hd : S.CodecLaws) (c c' y y' : G) (m m' : Bytes)
    (h : computeChallenge S c y m = computeChallenge S c' y' m') :
    (c = c' ∧ y = y' ∧ m = m') ∨
      (S.encG c ++ S.encG y ++ m ≠ S.encG c' ++ S.encG y' ++ m' ∧
        S.h2 (S.encG c ++ S.encG y ++ m) = S.h2 (S.encG c' ++ S.encG y' ++ m')) := by
  by_cases he : S.encG c ++ S.encG y ++ m = S.encG c' ++ S.encG y' ++ m'
  · exact Or.inl (C70_challenge_input_injective hd _ _ _ _ _ _ he)
  · exact Or.inr ⟨he, h⟩

/-- C70: one signature accepted for two different messages under the same non-identity key makes the two explicit
challenge inputs collide under `h2`. -/
theorem C70_signature_reuse {S : Suite F G R} (hd : S.CodecLaws) (sig : ThresholdSignature F G) (Y : G)
    (m m' : Bytes) (hne : m ≠ m') (hY : Y ≠ 0) (h : sig.verify S Y m = .ok ()) (h' : sig.verify S Y m' = .ok ()) :
    S.encG sig.groupCommitment ++ S.encG Y ++ m ≠ S.encG sig.groupCommitment ++ S.encG Y ++ m' ∧
      S.h2 (S.encG sig.groupCommitment ++ S.encG Y ++ m) = S.h2 (S.encG sig.groupCommitment ++ S.encG Y ++ m') := by
  refine ⟨fun he => hne (C70_challenge_input_injective hd _ _ _ _ _ _ he).2.2, ?_⟩
  have key : ∀ msg, sig.verify S Y msg = .ok () →
      sig.groupCommitment = sig.z • S.gen - (computeChallenge S sig.groupCommitment Y msg) • Y := by
    intro msg hv
    unfold ThresholdSignature.verify at hv
    simp only [msm_two] at hv
    split at hv
    · next e => rw [smul_neg, ← sub_eq_add_neg] at e; exact e
    · cases hv
  have h1 := (key m h).symm.trans (key m' h')
  rw [sub_right_inj] at h1
  have h2 : (computeChallenge S sig.groupCommitment Y m - computeChallenge S sig.groupCommitment Y m') • Y = 0 := by
    rw [sub_smul, h1, sub_self]
  rcases smul_eq_zero.mp h2 with h3 | h3
  · exact sub_eq_zero.mp h3
  · exact absurd h3 hY

/-- C70: the bytes hashed by `Complaint::new`/`verify` determine all five group elements and the encrypted share
(vectors in memory are shorter than `2^64`). -/
theorem C70_complaint_injective {S : Suite F G R} (hd : S.CodecLaws) (p p' q q' s s' a a' b b' : G) (e e' : EncShare)
    (hn : e.nonce.length < 2 ^ 64) (hn' : e'.nonce.length < 2 ^ 64) (hc : e.ct.length < 2 ^ 64)
    (hc' : e'.ct.length < 2 ^ 64)
    (h : complaintMessage S p q s a b e = complaintMessage S p' q' s' a' b' e') :
    p = p' ∧ q = q' ∧ s = s' ∧ a = a' ∧ b = b' ∧ e = e' := by
  unfold complaintMessage at h
  simp only [List.append_assoc] at h
  obtain ⟨h1, h⟩ := hd.encG_append_inj h
  obtain ⟨h2, h⟩ := hd.encG_append_inj h
  obtain ⟨h3, h⟩ := hd.encG_append_inj h
  obtain ⟨h4, h⟩ := hd.encG_append_inj h
  obtain ⟨h5, h⟩ := hd.encG_append_inj h
  refine ⟨h1, h2, h3, h4, h5, ?_⟩
  have rt := Codec.vec_roundTrip Codec.u8_roundTrip
  have rp := Codec.pair_roundTrip Codec.u32_roundTrip (Codec.pair_roundTrip Codec.u32_roundTrip
    (Codec.pair_roundTrip rt rt))
  have hx : ∀ e : EncShare, (encShareCodec S).enc e = (Codec.pair Codec.u32 (Codec.pair Codec.u32
    (Codec.pair (Codec.vec Codec.u8) (Codec.vec Codec.u8)))).enc (e.senderIndex, e.receiverIndex, e.nonce, e.ct) :=
    fun _ => rfl
  rw [hx, hx] at h
  have := (rp.enc_append_inj (a := (e.senderIndex, e.receiverIndex, e.nonce, e.ct))
    (b := (e'.senderIndex, e'.receiverIndex, e'.nonce, e'.ct)) (x := []) (y := [])
    ⟨trivial, trivial, ⟨hn, fun _ _ => trivial⟩, ⟨hc, fun _ _ => trivial⟩⟩
    ⟨trivial, trivial, ⟨hn', fun _ _ => trivial⟩, ⟨hc', fun _ _ => trivial⟩⟩ (by rw [h])).1
  simp only [Prod.mk.injEq] at this
  obtain ⟨a1, a2, a3, a4⟩ := this
  cases e; cases e'
  simp only at a1 a2 a3 a4
  rw [a1, a2, a3, a4]

/-- C70: equal complaint challenges mean equal statements, commitments and shares, or a collision of the complaint
hash on these two inputs. -/
theorem C70_complaint_binds {S : Suite F G R} (hd : S.CodecLaws) (p p' q q' s s' a a' b b' : G) (e e' : EncShare)
    (hn : e.nonce.length < 2 ^ 64) (hn' : e'.nonce.length < 2 ^ 64) (hc : e.ct.length < 2 ^ 64)
    (hc' : e'.ct.length < 2 ^ 64)
    (h : complaintHash S (complaintMessage S p q s a b e) = complaintHash S (complaintMessage S p' q' s' a' b' e')) :
    (p = p' ∧ q = q' ∧ s = s' ∧ a = a' ∧ b = b' ∧ e = e') ∨
      (complaintMessage S p q s a b e ≠ complaintMessage S p' q' s' a' b' e' ∧
        complaintHash S (complaintMessage S p q s a b e) =
          complaintHash S (complaintMessage S p' q' s' a' b' e')) := by
  by_cases he : complaintMessage S p q s a b e = complaintMessage S p' q' s' a' b' e'
  · exact Or.inl (C70_complaint_injective hd _ _ _ _ _ _ _ _ _ _ _ _ hn hn' hc hc' he)
  · exact Or.inr ⟨he, h⟩

/-- The five domain tags given to hash-to-field. -/
def Spec.tags (S : Suite F G R) : List Bytes :=
  [S.contextString ++ strBytes "nizkpok", S.contextString ++ strBytes "rho",
    S.contextString ++ strBytes "challenge", S.contextString ++ strBytes "nonce", strBytes "Complaint Context"]

theorem append_ne_of_last {a b x y : Bytes} (h : x.getLast? ≠ y.getLast?) (hx : x ≠ []) (hy : y ≠ []) :
    a ++ x ≠ b ++ y := by
  intro e
  have := congrArg List.getLast? e
  rw [List.getLast?_append_of_ne_nil _ hx, List.getLast?_append_of_ne_nil _ hy] at this
  exact h this

/-- C71: whatever the context string, the five tags are pairwise different. -/
theorem C71_tags_distinct (S : Suite F G R) : (Spec.tags S).Nodup := by
  have hc : ∀ x y : Bytes, x ≠ y → S.contextString ++ x ≠ S.contextString ++ y :=
    fun x y h e => h (List.append_cancel_left e)
  have hl : ∀ x : Bytes, x.getLast? ≠ (strBytes "Complaint Context").getLast? → x ≠ [] →
      S.contextString ++ x ≠ strBytes "Complaint Context" := by
    intro x h1 h2
    have := append_ne_of_last (a := S.contextString) (b := []) h1 h2 (by decide)
    simpa using this
  simp only [Spec.tags, List.nodup_cons, List.mem_cons, List.not_mem_nil, or_false, not_or, not_false_eq_true,
    List.nodup_nil, and_true]
  refine ⟨⟨hc _ _ (by decide), hc _ _ (by decide), hc _ _ (by decide), hl _ (by decide) (by decide)⟩,
    ⟨hc _ _ (by decide), hc _ _ (by decide), hl _ (by decide) (by decide)⟩,
    ⟨hc _ _ (by decide), hl _ (by decide) (by decide)⟩, hl _ (by decide) (by decide)⟩

/-- C71: `h0`–`h3` and the complaint hash are hash-to-field calls under those tags, in that order. -/
theorem C71_tags_used (S : Suite F G R) (m : Bytes) :
    [S.h0 m, S.h1 m, S.h2 m, S.h3 m] = ((Spec.tags S).take 4).map (S.fieldHash · m) ∧
      some (complaintHash S m) = ((Spec.tags S)[4]?).map (S.sha256FieldHash · m) := ⟨rfl, rfl⟩

/-- C71: the byte strings digested by `h4` and `h5` always differ: no input of one is an input of the other. The two
inputs are explicit: `h4 m` is the digest of the first, `h5 m'` of the second. -/
theorem C71_digests_separated (S : Suite F G R) (m m' : Bytes) :
    ∃ x y : Bytes, S.h4 m = S.digest x ∧ S.h5 m' = S.digest y ∧ x ≠ y ∧
      x = S.contextString ++ strBytes "message" ++ m ∧ y = S.contextString ++ strBytes "commitment" ++ m' := by
  refine ⟨_, _, rfl, rfl, ?_, rfl, rfl⟩
  intro e
  rw [List.append_assoc, List.append_assoc] at e
  have := List.append_cancel_left e
  have h1 : strBytes "message" = 109 :: (strBytes "message").tail := by decide
  have h2 : strBytes "commitment" = 99 :: (strBytes "commitment").tail := by decide
  rw [h1, h2, List.cons_append, List.cons_append, List.cons.injEq] at this
  exact absurd this.1 (by decide)

section Examples
open Toy

example : ∀ b, (suite.digest b).length = suite.hashLen := fun _ => leBytes_length _ _

/-- Three signers in two orders hash as different lists. -/
example : encodeGroupCommitmentList suite [(1, 5, 6), (2, 7, 8), (3, 9, 4)] ≠
    encodeGroupCommitmentList suite [(1, 5, 6), (3, 9, 4), (2, 7, 8)] := fun h => by
  obtain ⟨b, hb⟩ : ∃ b, encodeGroupCommitmentList suite [(1, 5, 6), (2, 7, 8), (3, 9, 4)] = .ok b := ⟨_, rfl⟩
  have := C69_list_injective codec_laws _ _ b hb (h ▸ hb)
  simp at this

/-- Two signers, one message: `C69_factor_binds` applies to both of them. -/
example : ∃ fs x y, computeBindingFactors suite [1, 2] [⟨1, (5, 6)⟩, ⟨2, (7, 8)⟩] = .ok fs ∧
    BMap.get? 1 fs = some x ∧ BMap.get? 2 fs = some y := ⟨_, _, _, rfl, rfl, rfl⟩

example : complaintMessage suite 1 2 3 4 5 ⟨1, 2, [0, 0], [7]⟩ ≠ complaintMessage suite 1 2 3 4 5 ⟨1, 3, [0, 0], [7]⟩ :=
  fun h => by
    have := (C70_complaint_injective codec_laws _ _ _ _ _ _ _ _ _ _ _ _ (by simp) (by simp) (by simp) (by simp) h).2.2.2.2.2
    simp at this

end Examples

end IceFrost
