import Verif.Model.Memory
import Verif.Model.Compare
import Verif.Lemmas.Shares
import Verif.Lemmas.Codec
import Verif.Props.Signing
import Verif.Props.Dkg
import Verif.Props.Serialization
import Verif.Props.Order

/-! # What stays in released memory (C126), more erased values (C94) -/

set_option linter.unusedSectionVars false
set_option linter.unusedSimpArgs false

namespace IceFrost

open Finset

variable {F G R : Type} [Field F] [DecidableEq F] [AddCommGroup G] [Module F G] [DecidableEq G]

/-- C94: Diffie-Hellman keys, nonce pairs and encrypted shares that are dropped leave nothing behind either. -/
theorem C94_erased_keys (x x' : F) (n n' : F × F) (e e' : EncShare) (hlen : e.nonce.length = e'.nonce.length) :
    zeroizeDhPrivateKey x = zeroizeDhPrivateKey x' ∧ zeroizeNoncePair n = zeroizeNoncePair n' ∧ e.zeroize = e'.zeroize :=
  ⟨rfl, rfl, by simp [EncShare.zeroize, List.map_const', hlen]⟩

/-! ### The instrumented functions compute the same results -/

theorem encryptShareMem_fst (S : Suite F G R) (share : SecretShare F) (k : Bytes) (rng : R) :
    (encryptShareMem S share k rng).1 = encryptShare S share k rng := by
  unfold encryptShareMem encryptShare
  cases S.kdf k with
  | none => rfl
  | some key =>
    simp only
    cases S.aeadEnc key (S.randBytes S.nonceSize rng).1 (S.encF share.eval) <;> rfl

theorem decryptShareMem_fst (S : Suite F G R) (e : EncShare) (k : Bytes) :
    (decryptShareMem S e k).1 = decryptShare S e k := by
  unfold decryptShareMem decryptShare
  cases S.kdf k with
  | none => rfl
  | some key =>
    simp only
    cases S.aeadDec key e.nonce e.ct with
    | none => rfl
    | some b =>
      simp only
      cases S.decF b <;> rfl

theorem dealSharesMem_fst (S : Suite F G R) (x : F) (i : U32) (cs : Option (List F)) (ps : List (Participant F G))
    (m : BMap EncShare) (rng : R) : (dealSharesMem S x i cs ps m rng).1 = dealShares S x i cs ps m rng := by
  induction ps generalizing m rng with
  | nil => rfl
  | cons p ps ih =>
    unfold dealSharesMem dealShares
    cases cs with
    | none => rfl
    | some cs =>
      simp only
      rw [← encryptShareMem_fst]
      cases h : encryptShareMem S (evaluatePolynomial i p.index cs) (S.encG (x • p.dhPublicKey)) rng with
      | mk r freed =>
        cases r with
        | error e => rfl
        | ok v => exact ih _ _

theorem roundTwoLoopMem_fst (S : Suite F G R) (dbg : Bool) (st : DkgState F G) (es : List EncShare)
    (m : BMap (SecretShare F)) (cs : List (Complaint F G)) (rng : R) :
    (roundTwoLoopMem S dbg st es m cs rng).1 = roundTwoLoop S dbg st es m cs rng := by
  induction es generalizing m cs rng with
  | nil => rfl
  | cons e es ih =>
    unfold roundTwoLoopMem roundTwoLoop
    split
    · rfl
    · cases st.theirDhPublicKeys.get? e.senderIndex with
      | none => rfl
      | some pk =>
        simp only
        rw [← decryptShareMem_fst]
        cases st.theirCommitments with
        | none => rfl
        | some comms => exact ih _ _ _

theorem commitmentSharesMem_fst (S : Suite F G R) (sk : IndividualSigningKey F) (k : Nat) (rng : R) :
    (commitmentSharesMem S sk k rng).1 = commitmentShares S sk k rng := by
  induction k generalizing rng with
  | zero => rfl
  | succ k ih =>
    unfold commitmentSharesMem commitmentShares
    simp only [nonceGenerateMem, newCommitmentShare, nonceGenerate]
    rw [← ih]

/-- C67, a panic that depends on the suite only: a digest of fixed length `S.hashLen` fits the suite's `HashOutput` for
every message or for none. -/
theorem C67_hash_output (S : Suite F G R) (hl : ∀ b, (S.digest b).length = S.hashLen) (outLen : Nat) :
    ((∀ ctx msg, hashToArrayChecked S outLen ctx msg = .ok (S.hashToArray ctx msg)) ↔ outLen = S.hashLen) ∧
    ((∀ ctx msg, hashToArrayChecked S outLen ctx msg = .error (.panic .outOfBounds)) ↔ outLen ≠ S.hashLen) := by
  unfold hashToArrayChecked Suite.hashToArray
  simp only [hl]
  constructor
  · by_cases h : S.hashLen = outLen
    · simp [h]
    · simp [h, Ne.symm h]
  · by_cases h : S.hashLen = outLen
    · simp [h]
    · simp [h, Ne.symm h]

/-! ### C126 -/

/-- C126, negation: while precomputing nonces (any positive number) the signing key is written into vectors that are
released as they are; each of them parses as the key. -/
theorem C126_signing_key_left {S : Suite F G R} (hd : S.CodecLaws) (sk : IndividualSigningKey F) (k : Nat) (hk : 0 < k) (rng : R) :
    (commitmentSharesMem S sk k rng).1 = commitmentShares S sk k rng ∧
    ∃ b ∈ (commitmentSharesMem S sk k rng).2, Codec.fromBytes (F := F) (G := G) (signingKeyCodec S) b = .ok sk := by
  refine ⟨commitmentSharesMem_fst S sk k rng, (signingKeyCodec S).enc sk, ?_, ?_⟩
  · cases k with
    | zero => omega
    | succ k => simp [commitmentSharesMem, nonceGenerateMem]
  · obtain ⟨bs, h1, h2⟩ := C72_signing_key (G := G) hd sk
    cases h1
    exact h2

/-- C126, negation: a dealer that has dealt its shares leaves behind, in the order of the participants, vectors that
parse as all the evaluations it dealt; with as many distinct indices as coefficients they give its secret. -/
theorem C126_dealer_secret_left {S : Suite F G R} (hu : Suite.U32Inj F) (hd : S.CodecLaws) (x : F) (i : U32) (cs : List F)
    (ps : List (Participant F G)) (m : BMap EncShare) (rng : R) (v : BMap EncShare × R)
    (h : dealShares S x i (some cs) ps m rng = .ok v) :
    ∃ bs : List Bytes, bs.Sublist (dealSharesMem S x i (some cs) ps m rng).2 ∧
      List.Forall₂ (fun p b => S.decF b = some (Spec.polyEval cs (u32F F p.index), [])) ps bs ∧
      ((ps.map (·.index)).Nodup → cs.length ≤ ps.length → ∀ f : U32 → F,
        List.Forall₂ (fun p b => S.decF b = some (f p.index, [])) ps bs →
        Spec.interpolate (ps.map (·.index)) f = Spec.polyEval cs 0) := by
  have key : ∃ bs : List Bytes, bs.Sublist (dealSharesMem S x i (some cs) ps m rng).2 ∧
      List.Forall₂ (fun p b => S.decF b = some (Spec.polyEval cs (u32F F p.index), [])) ps bs := by
    induction ps generalizing m rng with
    | nil => exact ⟨[], by simp, .nil⟩
    | cons p ps ih =>
      unfold dealShares at h
      simp only at h
      rw [← encryptShareMem_fst] at h
      unfold dealSharesMem
      simp only
      cases he : encryptShareMem S (evaluatePolynomial i p.index cs) (S.encG (x • p.dhPublicKey)) rng with
      | mk r freed =>
        rw [he] at h
        cases r with
        | error e => cases h
        | ok w =>
          simp only at h
          obtain ⟨bs, h1, h2⟩ := ih _ _ h
          have hb : ∃ l, freed = S.encF (evaluatePolynomial i p.index cs).eval :: l := by
            unfold encryptShareMem at he
            split at he
            · cases he
            · simp only at he
              split at he
              · cases he
              · cases he; exact ⟨_, rfl⟩
          obtain ⟨l, rfl⟩ := hb
          refine ⟨S.encF (evaluatePolynomial i p.index cs).eval :: bs, ?_, .cons ?_ h2⟩
          · simp only [List.cons_append]
            exact (h1.trans (List.sublist_append_right _ _)).cons_cons _
          · have := hd.decF_encF (evaluatePolynomial i p.index cs).eval []
            rw [List.append_nil] at this
            rw [this, evaluatePolynomial_eq]
  obtain ⟨bs, h1, h2⟩ := key
  refine ⟨bs, h1, h2, fun hnd hlen f hf => ?_⟩
  rw [← interpolate_polyEval hu hnd cs (by simpa using hlen)]
  refine interpolate_congr fun j hj => ?_
  obtain ⟨p, hp, rfl⟩ := List.mem_map.mp hj
  clear h1 hnd hlen hj h
  induction h2 with
  | nil => cases hp
  | cons h h2 ih =>
    cases hf with
    | cons h' hf =>
      rcases List.mem_cons.mp hp with rfl | hp
      · rw [h] at h'; exact (Prod.mk.inj (Option.some.inj h')).1.symm
      · exact ih hf hp

theorem received_shares_left {S : Suite F G R} (dbg : Bool) (st : DkgState F G) (es : List EncShare)
    (rng : R) (m : BMap (SecretShare F)) (cs : List (Complaint F G))
    (h : roundTwoLoop S dbg st es [] [] rng = .ok (m, cs)) (k : U32) (s : SecretShare F) (hs : m.get? k = some s) :
    ∃ b ∈ (roundTwoLoopMem S dbg st es [] [] rng).2, ∃ rest, S.decF b = some (s.eval, rest) := by
  have key : ∀ (m0 : BMap (SecretShare F)) (cs0 : List (Complaint F G)) (rng : R),
      roundTwoLoop S dbg st es m0 cs0 rng = .ok (m, cs) →
      (m0.get? k = some s) ∨ ∃ b ∈ (roundTwoLoopMem S dbg st es m0 cs0 rng).2, ∃ rest, S.decF b = some (s.eval, rest) := by
    clear h
    induction es with
    | nil =>
      intro m0 cs0 rng h
      cases h
      exact Or.inl hs
    | cons e es ih =>
      intro m0 cs0 rng h
      unfold roundTwoLoop at h
      unfold roundTwoLoopMem
      split at h
      · cases h
      next hdb =>
      rw [if_neg hdb]
      cases hpk : st.theirDhPublicKeys.get? e.senderIndex with
      | none => rw [hpk] at h; cases h
      | some pk =>
        rw [hpk] at h
        simp only at h ⊢
        rw [← decryptShareMem_fst] at h
        cases hc : st.theirCommitments with
        | none => rw [hc] at h; cases h
        | some comms =>
          rw [hc] at h
          simp only at h ⊢
          rcases ih _ _ _ h with h' | ⟨b, hb, rest, hr⟩
          · cases hdec : decryptShareMem S e (S.encG (st.dhPrivateKey • pk)) with
            | mk r freed =>
              rw [hdec] at h'
              cases r with
              | error _ => exact Or.inl h'
              | ok sh =>
                simp only at h'
                rw [BMap.get?_insert] at h'
                split at h'
                · cases h'
                  refine Or.inr ?_
                  unfold decryptShareMem at hdec
                  split at hdec
                  · cases hdec
                  · split at hdec
                    · cases hdec
                    · next b _ =>
                      split at hdec
                      · cases hdec
                      · next v rest hv =>
                        cases hdec
                        exact ⟨b, by simp, rest, hv⟩
                · exact Or.inl h'
          · exact Or.inr ⟨b, List.mem_append_right _ hb, rest, hr⟩
  rcases key [] [] rng h with h' | h'
  · cases h'
  · exact h'

/-- C126, negation: a receiver that has gone through round two leaves behind vectors that parse as the evaluation of
every share it stored. -/
theorem C126_received_shares_left {S : Suite F G R} (dbg : Bool) (d : RoundOne F G) (es : List EncShare)
    (rng : R) (d2 : RoundTwo F G) (cs : List (Complaint F G)) (h : d.toRoundTwo S dbg es rng = .ok (d2, cs))
    (m : BMap (SecretShare F)) (hm : d2.state.mySecretShares = some m) (k : U32) (s : SecretShare F)
    (hs : m.get? k = some s) :
    ∃ b ∈ (roundTwoLoopMem S dbg { d.state with theirEncryptedSecretShares := none } es [] [] rng).2,
      ∃ rest, S.decF b = some (s.eval, rest) := by
  unfold RoundOne.toRoundTwo at h
  simp only at h
  split at h
  · cases h
  · split at h
    · cases h
    · next m' cs' hl =>
      split at h
      · cases h
      · split at h
        · cases h
        · cases h
          cases hm
          exact received_shares_left dbg _ es rng _ _ hl k s hs

/-- What encrypting the share for `p` leaves behind: the evaluation, the cipher key and the Diffie-Hellman key it is
derived from. -/
def Spec.dealtBuffers (S : Suite F G R) (x : F) (cs : List F) (p : Participant F G) : List Bytes :=
  [S.encF (Spec.polyEval cs (u32F F p.index)), (S.kdf (S.encG (x • p.dhPublicKey))).getD [],
    S.encG (x • p.dhPublicKey)]

/-- C126, negation: the complete list of what dealing leaves behind. For every participant it contains the evaluation,
the key that the cipher used and the Diffie-Hellman key. -/
theorem C126_dealing_buffers {S : Suite F G R} (x : F) (i : U32) (cs : List F) (ps : List (Participant F G))
    (m : BMap EncShare) (rng : R) (v : BMap EncShare × R) (h : dealShares S x i (some cs) ps m rng = .ok v) :
    (dealSharesMem S x i (some cs) ps m rng).2 = ps.flatMap (Spec.dealtBuffers S x cs) ∧
    ∀ p ∈ ps, ∃ key, S.kdf (S.encG (x • p.dhPublicKey)) = some key ∧
      key ∈ (dealSharesMem S x i (some cs) ps m rng).2 := by
  have main : (dealSharesMem S x i (some cs) ps m rng).2 = ps.flatMap (Spec.dealtBuffers S x cs) ∧
      ∀ p ∈ ps, ∃ key, S.kdf (S.encG (x • p.dhPublicKey)) = some key := by
    induction ps generalizing m rng with
    | nil => exact ⟨rfl, by simp⟩
    | cons p ps ih =>
      unfold dealShares at h
      simp only at h
      rw [← encryptShareMem_fst] at h
      unfold dealSharesMem
      simp only
      cases he : encryptShareMem S (evaluatePolynomial i p.index cs) (S.encG (x • p.dhPublicKey)) rng with
      | mk r freed =>
        rw [he] at h
        cases r with
        | error e => cases h
        | ok w =>
          simp only at h
          obtain ⟨h1, h2⟩ := ih _ _ h
          have hb : ∃ key, S.kdf (S.encG (x • p.dhPublicKey)) = some key ∧
              freed = [S.encF (evaluatePolynomial i p.index cs).eval, key] := by
            unfold encryptShareMem at he
            split at he
            · cases he
            · next key hk =>
              simp only at he
              split at he
              · cases he
              · cases he; exact ⟨key, hk, rfl⟩
          obtain ⟨key, hk, rfl⟩ := hb
          refine ⟨?_, fun q hq => ?_⟩
          · simp only [List.flatMap_cons, Spec.dealtBuffers, hk, Option.getD_some, evaluatePolynomial_eq]
            rw [h1]
            rfl
          · rcases List.mem_cons.mp hq with rfl | hq
            · exact ⟨key, hk⟩
            · exact h2 q hq
  refine ⟨main.1, fun p hp => ?_⟩
  obtain ⟨key, hk⟩ := main.2 p hp
  refine ⟨key, hk, ?_⟩
  rw [main.1]
  exact List.mem_flatMap.mpr ⟨p, hp, by simp [Spec.dealtBuffers, hk]⟩

/-- What receiving one share leaves behind: the bytes that the cipher returned, if it accepted, the cipher key, and the
Diffie-Hellman key. -/
def Spec.receivedBuffers (S : Suite F G R) (x : F) (pks : BMap G) (e : EncShare) : List Bytes :=
  match pks.get? e.senderIndex with
  | none => []
  | some pk =>
    match S.kdf (S.encG (x • pk)) with
    | none => [S.encG (x • pk)]
    | some key => (S.aeadDec key e.nonce e.ct).toList ++ [key, S.encG (x • pk)]

theorem receiving_buffers {S : Suite F G R} (dbg : Bool) (st : DkgState F G) (es : List EncShare)
    (m0 : BMap (SecretShare F)) (cs0 : List (Complaint F G)) (rng : R) (v : BMap (SecretShare F) × List (Complaint F G))
    (h : roundTwoLoop S dbg st es m0 cs0 rng = .ok v) :
    (roundTwoLoopMem S dbg st es m0 cs0 rng).2 =
      es.flatMap (Spec.receivedBuffers S st.dhPrivateKey st.theirDhPublicKeys) := by
  induction es generalizing m0 cs0 rng with
  | nil => rfl
  | cons e es ih =>
    unfold roundTwoLoop at h
    unfold roundTwoLoopMem
    split at h
    · cases h
    next hdb =>
    rw [if_neg hdb]
    cases hpk : st.theirDhPublicKeys.get? e.senderIndex with
    | none => rw [hpk] at h; cases h
    | some pk =>
      rw [hpk] at h
      simp only at h ⊢
      rw [← decryptShareMem_fst] at h
      cases hc : st.theirCommitments with
      | none => rw [hc] at h; cases h
      | some comms =>
        rw [hc] at h
        simp only at h ⊢
        rw [List.flatMap_cons]
        refine congrArg₂ (· ++ ·) ?_ (ih _ _ _ h)
        unfold decryptShareMem Spec.receivedBuffers
        simp only [hpk]
        cases S.kdf (S.encG (st.dhPrivateKey • pk)) with
        | none => rfl
        | some key =>
          simp only
          cases S.aeadDec key e.nonce e.ct with
          | none => rfl
          | some b =>
            simp only
            cases S.decF b <;> rfl

/-- C126, negation: the complete list of what receiving shares leaves behind. -/
theorem C126_receiving_buffers {S : Suite F G R} (dbg : Bool) (d : RoundOne F G) (es : List EncShare)
    (rng : R) (d2 : RoundTwo F G) (cs : List (Complaint F G)) (h : d.toRoundTwo S dbg es rng = .ok (d2, cs)) :
    (roundTwoLoopMem S dbg { d.state with theirEncryptedSecretShares := none } es [] [] rng).2 =
      es.flatMap (Spec.receivedBuffers S d.state.dhPrivateKey d.state.theirDhPublicKeys) := by
  unfold RoundOne.toRoundTwo at h
  simp only at h
  split at h
  · cases h
  · split at h
    · cases h
    · next m' cs' hl =>
      exact receiving_buffers dbg _ es [] [] rng _ hl

/-- C126, negation: the complete list of what precomputing nonces leaves behind. Each nonce is the hash of one of these
buffers, so whoever reads them learns the nonces as well as the signing key. -/
theorem C126_nonces_left {S : Suite F G R} (sk : IndividualSigningKey F) (k : Nat) (rng : R) :
    ∃ rs : List Bytes, rs.length = 2 * k ∧
      (commitmentSharesMem S sk k rng).2 =
        rs.flatMap (fun r => [u32le sk.index ++ S.encF sk.key, r ++ (u32le sk.index ++ S.encF sk.key)]) ∧
      ((commitmentShares S sk k rng).1.flatMap fun c => [c.hidingC.secret, c.bindingC.secret]) =
        rs.map fun r => S.h3 (r ++ (u32le sk.index ++ S.encF sk.key)) := by
  rw [← commitmentSharesMem_fst]
  induction k generalizing rng with
  | zero => exact ⟨[], rfl, rfl, rfl⟩
  | succ k ih =>
    unfold commitmentSharesMem
    simp only [nonceGenerateMem]
    obtain ⟨rs, h1, h2, h3⟩ := ih (S.randBytes S.hashLen (S.randBytes S.hashLen rng).2).2
    refine ⟨(S.randBytes S.hashLen rng).1 :: (S.randBytes S.hashLen (S.randBytes S.hashLen rng).2).1 :: rs,
      by simp [h1]; omega, ?_, ?_⟩
    · rw [h2]
      rfl
    · simp only [List.flatMap_cons, List.map_cons]
      rw [h3]
      rfl

/-- C126, what holds: the typed secrets themselves are overwritten. After a successful `finish` computation every stored
share is zero, and dropped keys, nonces and shares leave the same values whatever they were. Missing: the byte vectors
of the theorems above. -/
theorem C126_typed_values_partial (d d' : RoundTwo F G) (sk : IndividualSigningKey F)
    (h : d.calculateSigningKey = (.ok sk, d')) :
    (∀ m', d'.state.mySecretShares = some m' → ∀ k s, m'.get? k = some s → s = ⟨0, 0, 0⟩) ∧
    (∀ k k' : IndividualSigningKey F, k.zeroize = k'.zeroize) ∧
    (∀ c c' : CommitmentShare F G, c.zeroize = c'.zeroize) ∧
    (∀ x x' : F, zeroizeDhPrivateKey x = zeroizeDhPrivateKey x') :=
  ⟨fun m' hm => C94_shares_consumed d d' sk h m' hm, fun _ _ => rfl, fun _ _ => rfl, fun _ _ => rfl⟩

section Examples
open Toy

example := C94_erased_keys (5 : Fp) 6 (7, 8) (9, 10) ⟨1, 2, [3, 4], [5]⟩ ⟨6, 7, [8, 9], [10, 11]⟩ rfl

example := C67_hash_output suite (fun _ => leBytes_length _ _) 32

example := C126_signing_key_left codec_laws (⟨3, 77⟩ : IndividualSigningKey Fp) 2 (by decide) 0

example := C126_nonces_left (S := suite) (⟨3, 77⟩ : IndividualSigningKey Fp) 2 0

/-- Three participants with distinct indices, two coefficients. -/
example : ∃ v, dealShares suite 5 1 (some [8, 9]) [⟨1, 5, none, none, ⟨0, 0⟩⟩, ⟨2, 6, none, none, ⟨0, 0⟩⟩] [] 0 = .ok v ∧
    ∃ bs : List Bytes, bs.Sublist (dealSharesMem suite 5 1 (some [8, 9])
        [⟨1, 5, none, none, ⟨0, 0⟩⟩, ⟨2, 6, none, none, ⟨0, 0⟩⟩] [] 0).2 ∧ bs.length = 2 ∧
      Spec.interpolate [1, 2] (fun i => Spec.polyEval [(8 : Fp), 9] (u32F Fp i)) = Spec.polyEval [(8 : Fp), 9] 0 := by
  have hex : ∃ v, dealShares suite 5 1 (some [8, 9]) [⟨1, 5, none, none, ⟨0, 0⟩⟩, ⟨2, 6, none, none, ⟨0, 0⟩⟩] [] 0 = .ok v := by
    simp only [dealShares]
    obtain ⟨e1, r1, h1, _⟩ := encryptShare_ok cipher_laws codec_laws (evaluatePolynomial 1 1 [(8 : Fp), 9])
      (suite.encG ((5 : Fp) • (5 : Fp))) 0
    obtain ⟨e2, r2, h2, _⟩ := encryptShare_ok cipher_laws codec_laws (evaluatePolynomial 1 2 [(8 : Fp), 9])
      (suite.encG ((5 : Fp) • (6 : Fp))) r1
    rw [h1]
    simp only
    rw [h2]
    exact ⟨_, rfl⟩
  obtain ⟨v, hv⟩ := hex
  have _ := C126_dealing_buffers (S := suite) 5 1 [8, 9] _ [] 0 v hv
  obtain ⟨bs, h1, h2, h3⟩ := C126_dealer_secret_left u32_inj codec_laws 5 1 [8, 9] _ [] 0 v hv
  exact ⟨v, hv, bs, h1, h2.length_eq.symm, h3 (by decide) (by decide) _ h2⟩

end Examples

end IceFrost
