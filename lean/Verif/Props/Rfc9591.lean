import Verif.Props.OwnPair
import Verif.Props.SignatureTheory

/-!
# C169: signing compared with RFC 9591

`src/ciphersuite.rs:47` speaks of "the FROST IETF specification", and the comments in `src/sign/signature.rs:156, 191, 235` of
"the RFC". The first part of this file restates sections 4 and 5 and appendix B of RFC 9591 (FROST) for an arbitrary ciphersuite
of that document, without reference to the model. It is written from memory, since the document is not in the repository.
-/

set_option linter.unusedSectionVars false
set_option linter.unusedSimpArgs false

namespace IceFrost

namespace Rfc

variable {F G : Type} [Field F] [DecidableEq F] [AddCommGroup G] [Module F G]

/-- A ciphersuite (RFC 9591, sections 3 and 6): `ScalarBaseMult` of 1, `SerializeScalar`, `SerializeElement`, and five hash
functions. -/
structure Ciphersuite (F G : Type) where
  /-- the generator of the group -/
  base : G
  /-- `SerializeScalar` -/
  scalar : F → Bytes
  /-- `SerializeElement` -/
  element : G → Bytes
  /-- for binding factors -/
  H1 : Bytes → F
  /-- for challenges -/
  H2 : Bytes → F
  /-- for nonces -/
  H3 : Bytes → F
  /-- for messages -/
  H4 : Bytes → Bytes
  /-- for commitment lists -/
  H5 : Bytes → Bytes

/-- `nonce_generate` (section 4.1), given the random bytes. -/
def nonce (c : Ciphersuite F G) (random : Bytes) (secret : F) : F := c.H3 (random ++ c.scalar secret)

/-- `derive_interpolating_value` (section 4.2). -/
def interpolatingValue (L : List F) (x : F) : Option F :=
  if x ∈ L ∧ L.Nodup then some ((L.filter (· ≠ x)).prod / ((L.filter (· ≠ x)).map (· - x)).prod) else none

/-- `encode_group_commitment_list` (section 4.3). An entry is an identifier with the hiding and the binding commitment. -/
def encodeCommitments (c : Ciphersuite F G) (l : List (F × G × G)) : Bytes :=
  l.flatMap fun e => c.scalar e.1 ++ c.element e.2.1 ++ c.element e.2.2

/-- The string hashed for the binding factor of one identifier (section 4.4). -/
def rhoInput (c : Ciphersuite F G) (Y : G) (l : List (F × G × G)) (msg : Bytes) (x : F) : Bytes :=
  c.element Y ++ c.H4 msg ++ c.H5 (encodeCommitments c l) ++ c.scalar x

/-- `compute_binding_factors` (section 4.4). -/
def bindingFactors (c : Ciphersuite F G) (Y : G) (l : List (F × G × G)) (msg : Bytes) : List (F × F) :=
  l.map fun e => (e.1, c.H1 (rhoInput c Y l msg e.1))

/-- `binding_factor_for_participant` (section 4.3). -/
def bindingFactorFor (factors : List (F × F)) (x : F) : Option F :=
  (factors.find? fun e => e.1 = x).map Prod.snd

/-- `compute_group_commitment` (section 4.5). -/
def groupCommitment (l : List (F × G × G)) (factors : List (F × F)) : Option G :=
  l.foldlM (fun acc e => (bindingFactorFor factors e.1).map fun ρ => acc + (e.2.1 + ρ • e.2.2)) 0

/-- `compute_challenge` (section 4.6). -/
def challenge (c : Ciphersuite F G) (R Y : G) (msg : Bytes) : F := c.H2 (c.element R ++ c.element Y ++ msg)

/-- `sign` (section 5.2). -/
def sign (c : Ciphersuite F G) (x key : F) (Y : G) (hidingNonce bindingNonce : F) (msg : Bytes) (l : List (F × G × G)) :
    Option F := do
  let ρ ← bindingFactorFor (bindingFactors c Y l msg) x
  let R ← groupCommitment l (bindingFactors c Y l msg)
  let lam ← interpolatingValue (l.map Prod.fst) x
  some (hidingNonce + bindingNonce * ρ + lam * key * challenge c R Y msg)

/-- `aggregate` (section 5.3). -/
def aggregate (c : Ciphersuite F G) (l : List (F × G × G)) (msg : Bytes) (Y : G) (shares : List F) : Option (G × F) := do
  let R ← groupCommitment l (bindingFactors c Y l msg)
  some (R, shares.sum)

/-- `verify_signature_share` (section 5.4), as a proposition; `none` stands for the errors of its helpers. -/
def shareValid (c : Ciphersuite F G) (x : F) (pk : G) (comm : G × G) (z : F) (l : List (F × G × G)) (Y : G) (msg : Bytes) :
    Option Prop := do
  let ρ ← bindingFactorFor (bindingFactors c Y l msg) x
  let R ← groupCommitment l (bindingFactors c Y l msg)
  let lam ← interpolatingValue (l.map Prod.fst) x
  some (z • c.base = (comm.1 + ρ • comm.2) + (challenge c R Y msg * lam) • pk)

/-- `prime_order_verify` (appendix B). -/
def valid (c : Ciphersuite F G) (msg : Bytes) (sig : G × F) (Y : G) : Prop :=
  sig.2 • c.base = sig.1 + challenge c sig.1 Y msg • Y

end Rfc

variable {F G R : Type} [Field F] [DecidableEq F] [AddCommGroup G] [Module F G] [DecidableEq G]

/-- The ciphersuite of RFC 9591 that the trait `CipherSuite` seems to describe: the same encodings and the functions with
the same names, `src/ciphersuite.rs:67-116`. -/
def Rfc.namesake (S : Suite F G R) : Rfc.Ciphersuite F G :=
  ⟨S.gen, S.encF, S.encG, S.h1, S.h2, S.h3, S.h4, S.h5⟩

/-- A list of signers as a commitment list of the RFC: identifiers are scalars. -/
def Rfc.listed (signers : List (Signer G)) : List (F × G × G) :=
  signers.map fun s => (u32F F s.participantIndex, s.share.1, s.share.2)

namespace Rfc

theorem find_listed (hu : Suite.U32Inj F) (f : F → F) (signers : List (Signer G)) (i : U32) :
    bindingFactorFor ((listed signers : List (F × G × G)).map fun e => (e.1, f e.1)) (u32F F i) =
      if i ∈ signers.map (·.participantIndex) then some (f (u32F F i)) else none := by
  unfold bindingFactorFor listed
  induction signers with
  | nil => rfl
  | cons s l ih =>
    simp only [List.map_cons, List.find?_cons]
    by_cases h : s.participantIndex = i
    · subst h
      simp
    · have h' : u32F F s.participantIndex ≠ u32F F i := fun e => h (hu _ _ e)
      simp only [h', decide_false]
      rw [ih]
      simp only [List.mem_cons, Ne.symm h, false_or]

theorem commitment_listed (hu : Suite.U32Inj F) (f : F → F) (all signers : List (Signer G)) (acc : G)
    (h : ∀ s ∈ signers, s.participantIndex ∈ all.map (·.participantIndex)) :
    (listed signers : List (F × G × G)).foldlM (fun acc e =>
        (bindingFactorFor ((listed all : List (F × G × G)).map fun e => (e.1, f e.1)) e.1).map fun ρ =>
          acc + (e.2.1 + ρ • e.2.2)) acc =
      some (acc + (signers.map fun s => s.share.1 + f (u32F F s.participantIndex) • s.share.2).sum) := by
  induction signers generalizing acc with
  | nil => simp [listed]
  | cons s l ih =>
    have e1 : (listed (s :: l) : List (F × G × G)) = (u32F F s.participantIndex, s.share.1, s.share.2) :: listed l := rfl
    rw [e1, List.foldlM_cons, find_listed hu, if_pos (h s (by simp))]
    simp only [Option.map_some, Option.bind_eq_bind, Option.bind_some]
    rw [ih _ fun s' hs' => h s' (by simp [hs'])]
    simp only [List.map_cons, List.sum_cons, add_assoc]

theorem fst_listed (signers : List (Signer G)) :
    (listed signers : List (F × G × G)).map Prod.fst = (signers.map (·.participantIndex)).map (u32F F) := by
  simp [listed, List.map_map, Function.comp_def]

theorem value_listed (hu : Suite.U32Inj F) (l : List U32) (i : U32) :
    interpolatingValue (l.map (u32F F)) (u32F F i) =
      if i ∈ l ∧ l.Nodup then some (Spec.lagrange l i) else none := by
  have hinj : Function.Injective (u32F F) := fun a b h => hu a b h
  unfold interpolatingValue
  have hiff : u32F F i ∈ l.map (u32F F) ∧ (l.map (u32F F)).Nodup ↔ i ∈ l ∧ l.Nodup := by
    rw [List.mem_map_of_injective hinj, List.nodup_map_iff hinj]
  by_cases h : i ∈ l ∧ l.Nodup
  · rw [if_pos (hiff.mpr h), if_pos h]
    congr 1
    have e1 : (l.map (u32F F)).filter (· ≠ u32F F i) = (l.filter (· ≠ i)).map (u32F F) := by
      rw [List.filter_map]
      congr 1
      apply List.filter_congr
      intro j _
      simp only [Function.comp, ne_eq, decide_not, hinj.eq_iff]
    have e2 : (l.filter (· ≠ i)).toFinset = l.toFinset.erase i := by
      ext j
      simp [and_comm]
    have e3 : (l.filter (· ≠ i)).Nodup := h.2.filter _
    rw [e1, List.map_map]
    unfold Spec.lagrange
    rw [Finset.prod_div_distrib, ← e2, List.prod_toFinset _ e3, List.prod_toFinset _ e3]
    rfl
  · rw [if_neg fun e => h (hiff.mp e), if_neg h]

/-- What a session of the RFC computes, when its binding factors are `f`. -/
theorem session_listed (hu : Suite.U32Inj F) (c : Ciphersuite F G) (Y : G) (msg : Bytes) (signers : List (Signer G)) :
    groupCommitment (listed signers) (bindingFactors c Y (listed signers) msg) =
      some ((signers.map fun s => s.share.1 +
        c.H1 (rhoInput c Y (listed signers) msg (u32F F s.participantIndex)) • s.share.2).sum) := by
  have := commitment_listed hu (fun x => c.H1 (rhoInput c Y (listed signers) msg x)) signers signers 0
    fun s hs => List.mem_map.mpr ⟨s, hs, rfl⟩
  rw [zero_add] at this
  exact this

theorem factor_listed (hu : Suite.U32Inj F) (c : Ciphersuite F G) (Y : G) (msg : Bytes) (signers : List (Signer G)) (i : U32) :
    bindingFactorFor (bindingFactors c Y (listed signers) msg) (u32F F i) =
      if i ∈ signers.map (·.participantIndex) then some (c.H1 (rhoInput c Y (listed signers) msg (u32F F i))) else none :=
  find_listed hu (fun x => c.H1 (rhoInput c Y (listed signers) msg x)) signers i

theorem sign_some (hu : Suite.U32Inj F) (c : Ciphersuite F G) (key : F) (Y : G) (d e : F) (msg : Bytes)
    (signers : List (Signer G)) (i : U32) (hi : i ∈ signers.map (·.participantIndex))
    (hn : (signers.map (·.participantIndex)).Nodup) :
    ∃ z, sign c (u32F F i) key Y d e msg (listed signers) = some z := by
  unfold sign
  rw [session_listed hu, factor_listed hu, if_pos hi, fst_listed, value_listed hu, if_pos ⟨hi, hn⟩]
  exact ⟨_, rfl⟩

/-- The bytes of a commitment list determine the signers. -/
theorem encode_inj {S : Suite F G R} (hd : S.CodecLaws) (hu : Suite.U32Inj F) (c : Ciphersuite F G)
    (hs : c.scalar = S.encF) (he : c.element = S.encG) (hpos : 0 < S.sizeF) :
    Function.Injective fun signers : List (Signer G) => encodeCommitments c (listed signers) := by
  intro l
  induction l with
  | nil =>
    intro l' h
    cases l' with
    | nil => rfl
    | cons s l' =>
      have := congrArg List.length h
      simp [encodeCommitments, listed, hs, he, hd.encF_length, hd.encG_length] at this
      omega
  | cons s l ih =>
    intro l' h
    cases l' with
    | nil =>
      have := congrArg List.length h
      simp [encodeCommitments, listed, hs, he, hd.encF_length, hd.encG_length] at this
      omega
    | cons s' l' =>
      simp only [encodeCommitments, listed, List.map_cons, List.flatMap_cons, hs, he, List.append_assoc] at h
      have h1 := congrArg S.decF h
      rw [hd.decF_encF, hd.decF_encF] at h1
      simp only [Option.some.injEq, Prod.mk.injEq] at h1
      have h2 := congrArg S.decG h1.2
      rw [hd.decG_encG, hd.decG_encG] at h2
      simp only [Option.some.injEq, Prod.mk.injEq] at h2
      have h3 := congrArg S.decG h2.2
      rw [hd.decG_encG, hd.decG_encG] at h3
      simp only [Option.some.injEq, Prod.mk.injEq] at h3
      have h4 := ih (a₂ := l') (by simpa only [encodeCommitments, listed, hs, he, List.append_assoc] using h3.2)
      rw [h4]
      congr 1
      cases s; cases s'
      simp only [Signer.mk.injEq]
      exact ⟨hu _ _ h1.1, Prod.ext h2.1 h3.1⟩

/-- The bytes hashed for a binding factor determine the key, the digests and the identifier. -/
theorem rho_inj {S : Suite F G R} (hd : S.CodecLaws) (hu : Suite.U32Inj F) (k : ℕ) :
    Function.Injective fun e : G × {p : Bytes // p.length = k} × U32 =>
      S.encG e.1 ++ e.2.1.1 ++ S.encF (u32F F e.2.2) := by
  rintro ⟨Y, ⟨p, hp⟩, i⟩ ⟨Y', ⟨p', hp'⟩, i'⟩ h
  simp only [List.append_assoc] at h
  have h1 := congrArg S.decG h
  rw [hd.decG_encG, hd.decG_encG] at h1
  simp only [Option.some.injEq, Prod.mk.injEq] at h1
  obtain ⟨h2, h3⟩ := List.append_inj h1.2 (by rw [hp, hp'])
  have h4 := congrArg S.decF (show S.encF (u32F F i) ++ [] = S.encF (u32F F i') ++ [] by rw [h3])
  rw [hd.decF_encF, hd.decF_encF] at h4
  simp only [Option.some.injEq, Prod.mk.injEq, and_true] at h4
  simp only [Prod.mk.injEq, Subtype.mk.injEq]
  exact ⟨h1.1, h2, hu _ _ h4⟩

end Rfc

/-- The code's session is a session of RFC 9591: `c` has the encodings of the suite and its functions for challenges, nonces
and messages, and it computes what the code computes. -/
structure Rfc.Agrees (S : Suite F G R) (c : Rfc.Ciphersuite F G) : Prop where
  base : c.base = S.gen
  scalar : c.scalar = S.encF
  element : c.element = S.encG
  H2 : c.H2 = S.h2
  H3 : c.H3 = S.h3
  H4 : c.H4 = S.h4
  /-- partial signatures are those of the RFC, and fail when those of the RFC fail -/
  signs : ∀ (dbg : Bool) (sk : IndividualSigningKey F) (msg : Bytes) (Y : G) (L : List (CommitmentShare F G)) (k : UInt64)
    (share : CommitmentShare F G) (signers : List (Signer G)), L.length < 2 ^ 63 → L[k.toNat]? = some share →
    0 ∉ signers.map (·.participantIndex) → ∀ p,
      ((IceFrost.sign S dbg sk msg Y L k signers).1 = .ok p ↔
        p.index = sk.index ∧ Rfc.sign c (u32F F sk.index) sk.key Y share.hidingC.secret share.bindingC.secret msg
          (Rfc.listed signers) = some p.z)
  /-- the aggregator returns the signature of the RFC, if it is valid, and otherwise reports those whose partial signature
  the RFC finds invalid -/
  aggregates : ∀ (params : Params) (Y : G) (message : Bytes) (ops : List (AggOp F G)) (f : FinalizedAggregator F G),
    (session params Y message ops).finalize S = .ok f → f.state.signers ≠ [] →
    0 ∉ f.state.signers.map (·.participantIndex) → ∃ (z : U32 → F) (pk : U32 → G) (sig : G × F),
      (∀ s ∈ f.state.signers, f.state.partialSignatures.get? s.participantIndex = some (z s.participantIndex) ∧
        f.state.publicKeys.get? s.participantIndex = some (pk s.participantIndex)) ∧
      Rfc.aggregate c (Rfc.listed f.state.signers) (S.h4 message) Y (f.state.signers.map fun s => z s.participantIndex) =
        some sig ∧
      (Rfc.valid c (S.h4 message) sig Y → f.aggregate S = .ok ⟨sig.1, sig.2⟩) ∧
      (¬ Rfc.valid c (S.h4 message) sig Y → ∃ culprits, f.aggregate S = .error (.err (.misbehavingParticipants culprits)) ∧
        ∀ s ∈ f.state.signers, ∃ v, Rfc.shareValid c (u32F F s.participantIndex) (pk s.participantIndex) s.share
          (z s.participantIndex) (Rfc.listed f.state.signers) Y (S.h4 message) = some v ∧
          (s.participantIndex ∈ culprits ↔ ¬ v))
  /-- signatures are verified as in the RFC -/
  verifies : ∀ (sig : ThresholdSignature F G) (Y : G) (msg : Bytes),
    sig.verify S Y msg = .ok () ↔ Rfc.valid c msg (sig.groupCommitment, sig.z) Y

/-- C169, what holds: the whole signing protocol of the crate is that of RFC 9591 for a ciphersuite with the suite's
encodings and its hash functions for challenges, nonces and messages; only the functions for binding factors and commitment
lists differ. The message signed is the hash `h4` of the message given to the aggregator. -/
theorem C169_protocol_partial {S : Suite F G R} (hd : S.CodecLaws) (hu : Suite.U32Inj F)
    (hl : ∀ b, (S.digest b).length = S.hashLen) (hpos : 0 < S.sizeF) : ∃ c : Rfc.Ciphersuite F G, Rfc.Agrees S c := by
  classical
  let c5 : Rfc.Ciphersuite F G := ⟨S.gen, S.encF, S.encG, S.h1, S.h2, S.h3, S.h4, S.h5⟩
  let e5 : List (Signer G) → Bytes := fun signers => Rfc.encodeCommitments c5 (Rfc.listed signers)
  have i5 : Function.Injective e5 := Rfc.encode_inj hd hu c5 rfl rfl hpos
  let H5 : Bytes → Bytes := Function.extend e5 (fun signers => S.h5 (Spec.signersBytes S signers)) S.h5
  let e1 : G × {p : Bytes // p.length = S.hashLen + S.hashLen} × U32 → Bytes := fun e =>
      S.encG e.1 ++ e.2.1.1 ++ S.encF (u32F F e.2.2)
  have i1 : Function.Injective e1 := Rfc.rho_inj hd hu _
  let H1 : Bytes → F := Function.extend e1 (fun e => S.h1 (e.2.1.1 ++ u32le e.2.2)) S.h1
  let c : Rfc.Ciphersuite F G := ⟨S.gen, S.encF, S.encG, H1, S.h2, S.h3, S.h4, H5⟩
  have h5 : ∀ signers : List (Signer G), c.H5 (Rfc.encodeCommitments c (Rfc.listed signers)) =
      S.h5 (Spec.signersBytes S signers) := fun signers =>
    i5.extend_apply (fun signers => S.h5 (Spec.signersBytes S signers)) S.h5 signers
  have h1 : ∀ (Y : G) (msg : Bytes) (signers : List (Signer G)) (i : U32),
      c.H1 (Rfc.rhoInput c Y (Rfc.listed signers) msg (u32F F i)) = Spec.rho S msg signers i := by
    intro Y msg signers i
    have e : Rfc.rhoInput c Y (Rfc.listed signers) msg (u32F F i) =
        e1 (Y, ⟨S.h4 msg ++ S.h5 (Spec.signersBytes S signers), by
          rw [List.length_append]
          exact congrArg₂ (· + ·) (hl _) (hl _)⟩, i) := by
      unfold Rfc.rhoInput
      rw [h5]
      simp only [e1, c, List.append_assoc]
    rw [e]
    exact i1.extend_apply (fun e => S.h1 (e.2.1.1 ++ u32le e.2.2)) S.h1 _
  have hR : ∀ (Y : G) (msg : Bytes) (signers : List (Signer G)),
      Rfc.groupCommitment (Rfc.listed signers) (Rfc.bindingFactors c Y (Rfc.listed signers) msg) =
        some (Spec.groupCommitment S msg signers) := by
    intro Y msg signers
    rw [Rfc.session_listed hu]
    simp only [h1]
    rfl
  have hch : ∀ (P Y : G) (msg : Bytes), Rfc.challenge c P Y msg = Spec.challenge S P Y msg := fun _ _ _ => rfl
  have hvalid : ∀ (sig : ThresholdSignature F G) (Y : G) (msg : Bytes),
      Spec.SigValid S Y msg sig ↔ Rfc.valid c msg (sig.groupCommitment, sig.z) Y := fun _ _ _ => Iff.rfl
  have hshare : ∀ (msg : Bytes) (Y : G) (signers : List (Signer G)) (s : Signer G) (pk : G) (z : F), s ∈ signers →
      (signers.map (·.participantIndex)).Nodup →
      Rfc.shareValid c (u32F F s.participantIndex) pk s.share z (Rfc.listed signers) Y msg =
        some (Spec.PartialValid S Y msg signers s pk z) := by
    intro msg Y signers s pk z hs hn
    have hm : s.participantIndex ∈ signers.map (·.participantIndex) := List.mem_map.mpr ⟨s, hs, rfl⟩
    unfold Rfc.shareValid
    rw [hR, Rfc.factor_listed hu, if_pos hm, h1, Rfc.fst_listed, Rfc.value_listed hu, if_pos ⟨hm, hn⟩]
    rfl
  refine ⟨c, rfl, rfl, rfl, rfl, rfl, rfl, ?_, ?_, fun sig Y msg => (verify_iff S sig Y msg).trans (hvalid sig Y msg)⟩
  · intro dbg sk msg Y L k share signers hL hk h0 p
    have hk' : k ≠ UInt64.ofNat (2 ^ 64 - 1) := by
      rintro rfl
      have e2 : (UInt64.ofNat (2 ^ 64 - 1)).toNat = 2 ^ 64 - 1 := by decide
      have := (List.getElem?_eq_some_iff.mp hk).1
      omega
    unfold IceFrost.sign Rfc.sign
    rw [signCore_cases hu S dbg sk msg Y L k hk', hk, hR, Rfc.factor_listed hu, Rfc.fst_listed, Rfc.value_listed hu]
    simp only
    by_cases hi : sk.index ∈ signers.map (·.participantIndex)
    · have hs : signers ≠ [] := by rintro rfl; simp at hi
      rw [if_neg hs, if_neg (not_not.mpr hi), if_pos hi]
      by_cases hn : (signers.map (·.participantIndex)).Nodup
      · rw [if_neg (not_not.mpr hn), if_neg h0, if_pos ⟨hi, hn⟩, h1]
        simp only [Option.bind_eq_bind, Option.bind_some, Option.some.injEq, Except.ok.injEq, hch]
        constructor
        · rintro rfl
          exact ⟨rfl, rfl⟩
        · rintro ⟨e1, e2⟩
          cases p
          simp only at e1 e2
          rw [e1, ← e2]
          rfl
      · rw [if_pos hn, if_neg (fun h => hn h.2)]
        simp
    · rw [if_neg hi]
      simp only [Option.bind_eq_bind, Option.bind_none]
      by_cases hs : signers = []
      · rw [if_pos hs]; simp
      · rw [if_neg hs, if_pos hi]; simp
  · intro params Y message ops f hf hne h0
    obtain ⟨g1, g2, g3, g4, g5, z, pk, g6⟩ := finalized_session hf
    have hz : ∀ s ∈ f.state.signers, f.state.partialSignatures.get? s.participantIndex = some (z s.participantIndex) :=
      fun s hs => (g6 _ ((g5 _).mp (List.mem_map.mpr ⟨s, hs, rfl⟩))).1
    have hpk : ∀ s ∈ f.state.signers, f.state.publicKeys.get? s.participantIndex = some (pk s.participantIndex) :=
      fun s hs => (g6 _ ((g5 _).mp (List.mem_map.mpr ⟨s, hs, rfl⟩))).2
    have hc := aggregate_cases hu S f g4 z pk hz hpk
    have hm : Spec.messageHash S message = S.h4 message := rfl
    rw [g1, g2, hm, if_neg hne, if_neg h0] at hc
    refine ⟨z, pk, (Spec.groupCommitment S (S.h4 message) f.state.signers,
      (f.state.signers.map fun s => z s.participantIndex).sum), fun s hs => ⟨hz s hs, hpk s hs⟩, ?_, ?_, ?_⟩
    · unfold Rfc.aggregate
      rw [hR]
      rfl
    · intro hv
      rw [hc, if_pos ((hvalid _ _ _).mpr hv)]
    · intro hv
      rw [if_neg fun h => hv ((hvalid _ _ _).mp h)] at hc
      refine ⟨_, hc, fun s hs => ⟨_, hshare _ Y f.state.signers s _ _ hs g4.nodup, ?_⟩⟩
      constructor
      · intro hmem
        obtain ⟨s', hs', e⟩ := List.mem_map.mp hmem
        rw [List.mem_filter] at hs'
        have : s' = s := List.inj_on_of_nodup_map g4.nodup hs'.1 hs e
        subst this
        exact of_decide_eq_true hs'.2
      · intro hbad
        exact List.mem_map.mpr ⟨s, List.mem_filter.mpr ⟨hs, decide_eq_true hbad⟩, rfl⟩

/-- C169, what holds: `verify` and `verify_signature` accept exactly the signatures of RFC 9591 for the ciphersuite with the
functions of the same names. -/
theorem C169_verify (S : Suite F G R) (sig : ThresholdSignature F G) (Y : G) (msg : Bytes) :
    (sig.verify S Y msg = .ok () ↔ Rfc.valid (Rfc.namesake S) msg (sig.groupCommitment, sig.z) Y) ∧
    (verifySignature S Y sig msg = .ok () ↔ Rfc.valid (Rfc.namesake S) msg (sig.groupCommitment, sig.z) Y) :=
  ⟨(C63_verify_iff S sig Y msg).1, (C63_verify_iff S sig Y msg).2.1⟩

/-- C169: nonces are those of RFC 9591 for the random bytes followed by the four bytes of the signer's index, where the RFC
has exactly 32 random bytes. -/
theorem C169_nonce (S : Suite F G R) (sk : IndividualSigningKey F) (rng : R) :
    (nonceGenerate S sk rng).1 =
      Rfc.nonce (Rfc.namesake S) ((S.randBytes S.hashLen rng).1 ++ u32le sk.index) sk.key := by
  unfold nonceGenerate Rfc.nonce Rfc.namesake
  simp only [List.append_assoc]
  rfl

/-- C169, violated: whatever is signed, the string hashed for a binding factor is never one that a signer of RFC 9591 hashes,
because the group key is left out and the index has four bytes. (`1 ≤ sizeG` and `4 ≤ sizeF` hold for every real suite.) -/
theorem C169_strings {S : Suite F G R} (hd : S.CodecLaws) (hl : ∀ b, (S.digest b).length = S.hashLen)
    (hG : 1 ≤ S.sizeG) (hF : 4 ≤ S.sizeF) (msg msg' : Bytes) (signers : List (Signer G)) (l : List (F × G × G)) (Y : G)
    (i : U32) (x : F) : Spec.rhoInput S msg signers i ≠ Rfc.rhoInput (Rfc.namesake S) Y l msg' x := by
  intro h
  have h1 := congrArg List.length h
  have hl4 : (S.h4 msg').length = S.hashLen := hl _
  have hl5 : ∀ b, (S.h5 b).length = S.hashLen := fun b => hl _
  simp only [Spec.rhoInput, Rfc.rhoInput, Rfc.namesake, List.length_append, hl, hl4, hl5, u32le_length, hd.encG_length,
    hd.encF_length] at h1
  omega

/-- C169, exact condition: the partial signature that a signer of RFC 9591 computes passes the aggregator's check exactly if
it is the one that `sign` computes. -/
theorem C169_accepted_iff {S : Suite F G R} (hg : S.GroupLaws) (dbg : Bool) (sk : IndividualSigningKey F) (msg : Bytes) (Y : G)
    (L : List (CommitmentShare F G)) (k : UInt64) (signers : List (Signer G)) (p : PartialSignature F)
    (h : (sign S dbg sk msg Y L k signers).1 = .ok p) (share : CommitmentShare F G) (hs : L[k.toNat]? = some share)
    (hh : share.hidingC.commit = share.hidingC.secret • S.gen)
    (hb : share.bindingC.commit = share.bindingC.secret • S.gen)
    (hm : ⟨sk.index, share.publish⟩ ∈ signers) (z : F) :
    Spec.PartialValid S Y msg signers ⟨sk.index, share.publish⟩ (sk.toPublic S).share z ↔ z = p.z := by
  have h1 := (C56_share_equation S dbg sk msg Y L k signers p h share hs hh hb hm).2
  constructor
  · intro h2
    exact C56_unique hg Y msg signers _ _ _ _ h2 h1
  · rintro rfl
    exact h1

/-- C169, violated: for every suite there are functions for binding factors and challenges, changed in nothing else, with which
no partial signature of an RFC 9591 signer (whose binding nonce is not 0) passes the aggregator's check. -/
theorem C169_refused {S₀ : Suite F G R} (hg : S₀.GroupLaws) (hd : S₀.CodecLaws) (hu : Suite.U32Inj F)
    (hl : ∀ b, (S₀.digest b).length = S₀.hashLen) (hG : 1 ≤ S₀.sizeG) (hF : 4 ≤ S₀.sizeF) :
    ∃ hash : Bytes → Bytes → F, ∀ (dbg : Bool) (sk : IndividualSigningKey F) (msg : Bytes) (Y : G)
      (L : List (CommitmentShare F G)) (k : UInt64) (signers : List (Signer G)) (p : PartialSignature F)
      (share : CommitmentShare F G) (z : F),
      (sign { S₀ with fieldHash := hash } dbg sk msg Y L k signers).1 = .ok p → L[k.toNat]? = some share →
      share.hidingC.commit = share.hidingC.secret • S₀.gen → share.bindingC.commit = share.bindingC.secret • S₀.gen →
      ⟨sk.index, share.publish⟩ ∈ signers → share.bindingC.secret ≠ 0 →
      Rfc.sign (Rfc.namesake { S₀ with fieldHash := hash }) (u32F F sk.index) sk.key Y share.hidingC.secret
        share.bindingC.secret msg (Rfc.listed signers) = some z →
      ¬ Spec.PartialValid { S₀ with fieldHash := hash } Y msg signers ⟨sk.index, share.publish⟩
        (sk.toPublic { S₀ with fieldHash := hash }).share z := by
  classical
  let hash : Bytes → Bytes → F := fun d m =>
    if d = S₀.contextString ++ strBytes "rho" ∧ m.length = S₀.hashLen + S₀.hashLen + 4 then 1 else 0
  refine ⟨hash, ?_⟩
  set S : Suite F G R := { S₀ with fieldHash := hash } with hS
  intro dbg sk msg Y L k signers p share z h hs hh hb hm he hz hbad
  have hg' : S.GroupLaws := ⟨hg.gen_inj, hg.gen_surj⟩
  have h2 := (C169_accepted_iff hg' dbg sk msg Y L k signers p h share hs hh hb hm z).mp hbad
  subst h2
  unfold IceFrost.sign at h
  cases hc : signCore S dbg sk msg Y L k signers with
  | error f => rw [hc] at h; cases h
  | ok v =>
    rw [hc] at h
    obtain ⟨h1, _, hi, hn, h0, hv⟩ := signCore_ok S dbg sk msg Y L k signers v.1 v.2 hc
    rw [hs] at h1
    simp only [Option.some.injEq] at h1
    simp only [Except.ok.injEq] at h
    have hρ : Spec.rho S msg signers sk.index = 1 := by
      show hash _ _ = 1
      refine if_pos ⟨rfl, ?_⟩
      simp only [Spec.rhoInput, List.length_append, u32le_length]
      rw [show ∀ b, (S.digest b).length = S₀.hashLen from hl, show ∀ b, (S.digest b).length = S₀.hashLen from hl]
    have hne : S₀.contextString ++ strBytes "challenge" ≠ S₀.contextString ++ strBytes "rho" := by
      intro e
      exact absurd (List.append_cancel_left e) (by decide)
    have hch : ∀ P Q m, Spec.challenge S P Q m = 0 := fun P Q m => if_neg fun e => hne e.1
    have hch' : ∀ P Q m, Rfc.challenge (Rfc.namesake S) P Q m = 0 := fun P Q m => if_neg fun e => hne e.1
    have hρ' : (Rfc.namesake S).H1 (Rfc.rhoInput (Rfc.namesake S) Y (Rfc.listed signers) msg (u32F F sk.index)) = 0 := by
      refine if_neg ?_
      rintro ⟨_, e⟩
      have hl4 : (S.h4 msg).length = S₀.hashLen := hl _
      have hl5 : ∀ b, (S.h5 b).length = S₀.hashLen := fun b => hl _
      have l1 : ∀ P, (S.encG P).length = S₀.sizeG := hd.encG_length
      have l2 : ∀ a, (S.encF a).length = S₀.sizeF := hd.encF_length
      simp only [Rfc.rhoInput, Rfc.namesake, List.length_append, hl4, hl5, l1, l2] at e
      omega
    have hp : p.z = share.hidingC.secret + share.bindingC.secret := by
      rw [← h]
      simp only
      rw [hv, ← h1, hρ, Spec.sessionChallenge, hch]
      ring
    unfold Rfc.sign at hz
    rw [Rfc.session_listed hu, Rfc.factor_listed hu, if_pos hi, hρ', Rfc.fst_listed, Rfc.value_listed hu, if_pos ⟨hi, hn⟩] at hz
    simp only [Option.bind_eq_bind, Option.bind_some, Option.some.injEq, hch', mul_zero, add_zero] at hz
    rw [hp] at hz
    exact he (by simpa using hz.symm)

namespace Examples
open Toy

/-- A session of two signers of the toy suite, with the hash functions of `C169_refused`: the code signs, a signer of RFC 9591
with the same key and nonces signs as well, and the aggregator does not accept its partial signature. -/
example : (∀ b, (suite.digest b).length = suite.hashLen) ∧ 0 < suite.sizeF ∧
    ∃ (hash : Bytes → Bytes → Fp) (p : PartialSignature Fp) (z : Fp),
      (sign { suite with fieldHash := hash } true ⟨1, 77⟩ [7] (42 : Fp) [⟨⟨5, 5⟩, ⟨6, 6⟩⟩] 0
        [⟨1, (5, 6)⟩, ⟨3, (8, 9)⟩]).1 = .ok p ∧
      Rfc.sign (Rfc.namesake { suite with fieldHash := hash }) (u32F Fp 1) (77) (42 : Fp) 5 6 [7]
        (Rfc.listed [⟨1, (5, 6)⟩, ⟨3, (8, 9)⟩]) = some z ∧
      ¬ Spec.PartialValid { suite with fieldHash := hash } (42 : Fp) [7] [⟨1, (5, 6)⟩, ⟨3, (8, 9)⟩] ⟨1, (5, 6)⟩
        ((⟨1, 77⟩ : IndividualSigningKey Fp).toPublic { suite with fieldHash := hash }).share z := by
  have hl : ∀ b, (suite.digest b).length = suite.hashLen := fun b => leBytes_length _ _
  refine ⟨hl, by decide, ?_⟩
  obtain ⟨hash, h⟩ := C169_refused lawful.group lawful.codec lawful.u32 hl (by decide) (by decide)
  have hi : (1 : U32) ∈ ([⟨1, (5, 6)⟩, ⟨3, (8, 9)⟩] : List (Signer Fp)).map (·.participantIndex) := by simp
  have hn : (([⟨1, (5, 6)⟩, ⟨3, (8, 9)⟩] : List (Signer Fp)).map (·.participantIndex)).Nodup := by simp
  have h0 : (0 : U32) ∉ ([⟨1, (5, 6)⟩, ⟨3, (8, 9)⟩] : List (Signer Fp)).map (·.participantIndex) := by simp
  obtain ⟨p, hp⟩ := (C55_success_iff lawful.u32 { suite with fieldHash := hash } true ⟨1, 77⟩ [7] (42 : Fp)
    [⟨⟨5, 5⟩, ⟨6, 6⟩⟩] 0 (by simp) [⟨1, (5, 6)⟩, ⟨3, (8, 9)⟩]).mpr ⟨by simp, hi, hn, h0⟩
  obtain ⟨z, hz⟩ := Rfc.sign_some lawful.u32 (Rfc.namesake { suite with fieldHash := hash }) 77 (42 : Fp) 5 6 [7]
    [⟨1, (5, 6)⟩, ⟨3, (8, 9)⟩] 1 hi hn
  exact ⟨hash, p, z, hp, hz, h true ⟨1, 77⟩ [7] 42 [⟨⟨5, 5⟩, ⟨6, 6⟩⟩] 0 [⟨1, (5, 6)⟩, ⟨3, (8, 9)⟩] p ⟨⟨5, 5⟩, ⟨6, 6⟩⟩ z hp
    rfl (smul_gen 5).symm (smul_gen 6).symm (by simp [CommitmentShare.publish]) (by decide +kernel) hz⟩

end Examples
end IceFrost
