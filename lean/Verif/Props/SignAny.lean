import Verif.Props.SigningExamples
import Verif.Props.Wire

/-! # C107, C108: which signer sets obtain a signature, and signing over bytes -/

set_option linter.unusedSectionVars false
set_option linter.unusedSimpArgs false

namespace IceFrost

open Finset Codec

variable {F G R : Type} [Field F] [DecidableEq F] [AddCommGroup G] [Module F G] [DecidableEq G]

/-! ### C107 -/

/-- C107: signers `J` hold arbitrary keys and sign honestly in a session for an arbitrary group key `s • g`. However the
aggregator is called, as long as the last partial signature of each signer is its own: aggregation succeeds if and only
if the session's challenge is zero or the keys interpolate to `s`; otherwise it returns the error
`MisbehavingParticipants` with nobody in it. -/
theorem C107_signature_iff {S : Suite F G R} (hg : S.GroupLaws) (hu : Suite.U32Inj F) (dbg : U32 → Bool) (params : Params)
    (message : Bytes) (J : List U32) (hJ : J.Nodup) (h0 : 0 ∉ J) (hne : J ≠ []) (hn : J.length ≤ params.n.toNat)
    (key : U32 → F) (s : F)
    (L : U32 → List (CommitmentShare F G)) (hL : ∀ i ∈ J, (L i).length < 2 ^ 63) (pos : U32 → UInt64)
    (share : U32 → CommitmentShare F G) (hshare : ∀ i ∈ J, (L i)[(pos i).toNat]? = some (share i))
    (hcom : ∀ i ∈ J, (share i).hidingC.commit = (share i).hidingC.secret • S.gen ∧
      (share i).bindingC.commit = (share i).bindingC.secret • S.gen)
    (ops : List (AggOp F G))
    (hinc : ∀ e, e ∈ Spec.inclusions ops ↔ ∃ i ∈ J, e = (i, (share i).publish, key i • S.gen)) :
    ∃ p : U32 → PartialSignature F,
      (∀ i ∈ J, (p i).index = i ∧ (sign S (dbg i) ⟨i, key i⟩ (Spec.messageHash S message) (s • S.gen) (L i) (pos i)
        (session params (s • S.gen) message ops).state.signers).1 = .ok (p i)) ∧
      ∀ ops' : List (AggOp F G), (∀ e ∈ Spec.inclusions ops', e ∈ Spec.inclusions ops) →
        (∀ i ∈ J, Spec.lastOf (Spec.partials (ops ++ ops')) i = some (p i).z) →
        ∃ f, (session params (s • S.gen) message (ops ++ ops')).finalize S = .ok f ∧
          ((∃ sig, f.aggregate S = .ok sig) ↔
            Spec.sessionChallenge S (s • S.gen) (Spec.messageHash S message)
              (session params (s • S.gen) message ops).state.signers = 0 ∨ Spec.interpolate J key = s) ∧
          ((∃ sig, f.aggregate S = .ok sig) ∨ f.aggregate S = .error (.err (.misbehavingParticipants []))) := by
  classical
  obtain ⟨p, hp, hall⟩ := honest_session_any hu S dbg params message J hJ h0 hne hn key (s • S.gen) L hL pos share hshare
    hcom ops hinc
  refine ⟨p, hp, fun ops' hops' hpart => ?_⟩
  obtain ⟨f, hf, h1, h2, hsg, h4, hs0, hidx, hz, hpk, hv, hint⟩ := hall ops' (fun i => (p i).z) hops' hpart
  have hsum := sum_valid S (s • S.gen) (Spec.messageHash S message) f.state.signers h4.nodup
      (fun i => (p i).z) (fun i => key i • S.gen) hv
  rw [hint] at hsum
  have hiff : Spec.SigValid S f.state.groupKey f.messageHash
      ⟨Spec.groupCommitment S f.messageHash f.state.signers,
        (f.state.signers.map fun x => (p x.participantIndex).z).sum⟩ ↔
      Spec.sessionChallenge S (s • S.gen) (Spec.messageHash S message) f.state.signers = 0 ∨
        Spec.interpolate J key = s := by
    unfold Spec.SigValid Spec.Schnorr
    simp only
    rw [h1, h2, hsum]
    have hc : Spec.challenge S (Spec.groupCommitment S (Spec.messageHash S message) f.state.signers) (s • S.gen)
        (Spec.messageHash S message) =
      Spec.sessionChallenge S (s • S.gen) (Spec.messageHash S message) f.state.signers := rfl
    rw [hc, add_right_inj, smul_smul, smul_smul]
    constructor
    · intro h
      have := hg.gen_inj _ _ h
      rw [mul_eq_mul_left_iff] at this
      exact this.symm
    · rintro (h | h)
      · rw [h, zero_mul, zero_mul]
      · rw [h]
  have hagg := aggregate_cases hu S f h4 (fun i => (p i).z) (fun i => key i • S.gen) hz hpk
  rw [if_neg hs0] at hagg
  rw [← hsg]
  refine ⟨f, hf, ?_⟩
  by_cases hval : Spec.SigValid S f.state.groupKey f.messageHash
      ⟨Spec.groupCommitment S f.messageHash f.state.signers,
        (f.state.signers.map fun x => (p x.participantIndex).z).sum⟩
  · rw [if_pos hval] at hagg
    exact ⟨⟨fun _ => hiff.mp hval, fun _ => ⟨_, hagg⟩⟩, Or.inl ⟨_, hagg⟩⟩
  · rw [if_neg hval, if_neg (fun hc => h0 ((hidx 0).mp hc))] at hagg
    have hempty : f.state.signers.filter (fun x => ¬ Spec.PartialValid S f.state.groupKey f.messageHash f.state.signers
        x (key x.participantIndex • S.gen) (p x.participantIndex).z) = [] := by
      rw [List.filter_eq_nil_iff]
      intro x hx
      rw [h1, h2]
      simpa using hv x hx
    rw [hempty] at hagg
    refine ⟨⟨fun h => ?_, fun h => absurd (hiff.mpr h) hval⟩, Or.inr hagg⟩
    obtain ⟨sig, h⟩ := h
    rw [hagg] at h
    cases h

/-- C107: one signer short of the threshold. If the keys are the values of a polynomial with exactly `|J| + 1`
coefficients whose leading coefficient is not zero, the keys of `J` do not interpolate to its constant term (so by the
previous theorem `t - 1` holders of a key made with a polynomial of full degree never obtain a signature). -/
theorem C107_one_short (hu : Suite.U32Inj F) (J : List U32) (hJ : J.Nodup) (h0 : 0 ∉ J) (cs : List F)
    (hlen : cs.length = J.length + 1) (hlead : cs.getD J.length 0 ≠ 0) :
    Spec.interpolate J (fun i => Spec.polyEval cs (u32F F i)) ≠ Spec.polyEval cs 0 := by
  open Polynomial in
  set a := cs.getD J.length 0 with ha
  set N : F[X] := Lagrange.nodal J.toFinset (u32F F) with hN
  have hcard : J.toFinset.card = J.length := List.toFinset_card_of_nodup hJ
  have hNdeg : N.natDegree = J.length := by rw [hN, Lagrange.natDegree_nodal, hcard]
  have hdeg : (toPoly cs - C a * N).degree < J.toFinset.card := by
    rw [hcard, Polynomial.degree_lt_iff_coeff_zero]
    intro m hm
    rw [coeff_sub, coeff_C_mul, toPoly_coeff]
    rcases Nat.eq_or_lt_of_le hm with h | h
    · have h1 : N.coeff m = 1 := by
        have := (Lagrange.nodal_monic (s := J.toFinset) (v := u32F F)).coeff_natDegree
        rw [← hN, hNdeg, h] at this
        exact this
      rw [h1, ← h, mul_one, sub_self]
    · rw [List.getD_eq_default _ _ (by omega), coeff_eq_zero_of_natDegree_lt (by rw [hNdeg]; exact h), mul_zero, sub_zero]
  have h := interpolate_poly hu J _ hdeg
  have he : ∀ i ∈ J.toFinset, (toPoly cs - C a * N).eval (u32F F i) = Spec.polyEval cs (u32F F i) := by
    intro i hi
    rw [eval_sub, eval_mul, hN, Lagrange.eval_nodal_at_node hi, mul_zero, sub_zero, toPoly_eval]
  have he' : Spec.interpolate J (fun i => Spec.polyEval cs (u32F F i)) = Spec.polyEval cs 0 - a * N.eval 0 := by
    unfold Spec.interpolate
    rw [← toPoly_eval cs 0]
    have : (toPoly cs - C a * N).eval 0 = (toPoly cs).eval 0 - a * N.eval 0 := by
      rw [eval_sub, eval_mul, eval_C]
    rw [← this, ← h]
    exact sum_congr rfl fun i hi => by rw [he i hi]
  rw [he']
  intro hc
  have h2 : a * N.eval 0 = 0 := by
    have := congrArg (fun x => Spec.polyEval cs 0 - x) hc
    simpa using this
  rcases mul_eq_zero.mp h2 with h3 | h3
  · exact hlead h3
  · rw [hN, Lagrange.eval_nodal, prod_eq_zero_iff] at h3
    obtain ⟨i, hi, hi0⟩ := h3
    rw [zero_sub, neg_eq_zero] at hi0
    have : i = 0 := hu i 0 (by
      show u32F F i = u32F F 0
      rw [hi0]
      simp [u32F])
    exact h0 (this ▸ List.mem_toFinset.mp hi)

/-! ### C108 -/

/-- What the aggregator receives: a signer's public commitment list and verifying key with the position it will use, or
a partial signature, each as bytes. -/
inductive WireOp where
  | signer (index : U32) (pos : UInt64) (list key : Bytes)
  | partialSig (bytes : Bytes)

/-- Reading a received message (`from_bytes`, src/serialization.rs:20-25) into an aggregator call
(`include_signer`, `include_partial_signature`, src/sign/signature.rs:437-479). -/
def WireOp.read (S : Suite F G R) : WireOp → Res F G (AggOp F G)
  | .signer i k list key =>
    match fromBytes (F := F) (G := G) (publicListCodec S) list with
    | .error e => .error (.err e)
    | .ok l =>
      match fromBytes (F := F) (G := G) (verifyingKeyCodec S) key with
      | .error e => .error (.err e)
      | .ok vk =>
        match l.commitments[k.toNat]? with
        | none => .error (.panic .outOfBounds)
        | some c => .ok (.signer i c vk)
  | .partialSig b =>
    match fromBytes (F := F) (G := G) (partialSignatureCodec S) b with
    | .error e => .error (.err e)
    | .ok p => .ok (.partialSig p)

/-- Reading all received messages. -/
def readOps (S : Suite F G R) : List WireOp → Res F G (List (AggOp F G))
  | [] => .ok []
  | o :: os =>
    match o.read S with
    | .error f => .error f
    | .ok a =>
      match readOps S os with
      | .error f => .error f
      | .ok as => .ok (a :: as)

/-- `sign` (src/sign/signature.rs:303-341) on a received signer list, answering with bytes. -/
def signWire (S : Suite F G R) (dbg : Bool) (sk : IndividualSigningKey F) (msg : Bytes) (Y : G)
    (L : List (CommitmentShare F G)) (k : UInt64) (signers : List Bytes) : Res F G Bytes :=
  match readAll (signerCodec S) signers with
  | .error f => .error f
  | .ok l =>
    match (sign S dbg sk msg Y L k l).1 with
    | .error f => .error f
    | .ok p =>
      match toBytes (F := F) (G := G) (partialSignatureCodec S) p with
      | .error e => .error (.err e)
      | .ok b => .ok b

/-- `verify_signature` (src/keys.rs:257-265) on a received group key and signature. -/
def verifyWire (S : Suite F G R) (key sig msg : Bytes) : Res F G Unit :=
  match fromBytes (F := F) (G := G) (publicKeyCodec S) key with
  | .error e => .error (.err e)
  | .ok Y =>
    match fromBytes (F := F) (G := G) (signatureCodec S) sig with
    | .error e => .error (.err e)
    | .ok s =>
      match verifySignature S Y s msg with
      | .error e => .error (.err e)
      | .ok u => .ok u

theorem readOps_map {α : Type} (S : Suite F G R) (l : List α) (w : α → WireOp) (g : α → AggOp F G)
    (h : ∀ b ∈ l, (w b).read S = .ok (g b)) : readOps S (l.map w) = .ok (l.map g) := by
  induction l with
  | nil => rfl
  | cons b l ih =>
    rw [List.map_cons]
    unfold readOps
    rw [h b List.mem_cons_self]
    simp only
    rw [ih fun b hb => h b (List.mem_cons_of_mem _ hb)]
    rfl

/-- C108: the documented signing flow with every message sent as bytes: public commitment lists, verifying keys, the
signer list, partial signatures, the signature and the group key. Every step succeeds and the receiver of the signature
accepts it. -/
theorem C108_wire_signing {S : Suite F G R} (hd : S.CodecLaws) (hu : Suite.U32Inj F) (dbg : U32 → Bool)
    (params : Params) (message : Bytes) (J : List U32) (hJ : J.Nodup) (h0 : 0 ∉ J) (hne : J ≠ [])
    (hn : J.length ≤ params.n.toNat) (key : U32 → F) (s : F) (hs : Spec.interpolate J key = s)
    (rng : U32 → R) (number : U32 → Nat) (hnum : ∀ i ∈ J, number i < 2 ^ 63) (pos : U32 → UInt64)
    (hpos : ∀ i ∈ J, (pos i).toNat < number i) (ord ord' : List U32) (ho : ord.Perm J) (ho' : ord'.Perm J) :
    ∃ pub vk : U32 → Bytes,
      (∀ i ∈ J, toBytes (F := F) (G := G) (publicListCodec S)
          (generateCommitmentShareLists S (rng i) ⟨i, key i⟩ (number i)).1 = .ok (pub i) ∧
        toBytes (F := F) (G := G) (verifyingKeyCodec S) (IndividualSigningKey.toPublic S ⟨i, key i⟩) = .ok (vk i)) ∧
    ∃ ops, readOps S (ord.map fun i => .signer i (pos i) (pub i) (vk i)) = .ok ops ∧
    ∃ list : List Bytes, (session params (s • S.gen) message ops).state.signers.map
        (fun x => toBytes (F := F) (G := G) (signerCodec S) x) = list.map .ok ∧
    ∃ part : U32 → Bytes,
      (∀ i ∈ J, signWire S (dbg i) ⟨i, key i⟩ (Spec.messageHash S message) (s • S.gen)
        (generateCommitmentShareLists S (rng i) ⟨i, key i⟩ (number i)).2 (pos i) list = .ok (part i)) ∧
    ∃ ops', readOps S (ord'.map fun i => .partialSig (part i)) = .ok ops' ∧
    ∃ f sig sigBytes keyBytes, (session params (s • S.gen) message (ops ++ ops')).finalize S = .ok f ∧
      f.aggregate S = .ok sig ∧ toBytes (F := F) (G := G) (signatureCodec S) sig = .ok sigBytes ∧
      toBytes (F := F) (G := G) (publicKeyCodec S) (s • S.gen) = .ok keyBytes ∧
      verifyWire S keyBytes sigBytes (Spec.messageHash S message) = .ok () := by
  obtain ⟨c, hc, p, hp, f, sig, k1, k2, k3, k4⟩ := C64_documented_flow hu S dbg params message J hJ h0 hne hn key s hs
    rng number hnum pos hpos ord ord' ho ho'
  have hpub : ∀ i ∈ J, fromBytes (F := F) (G := G) (publicListCodec S) ((publicListCodec S).enc
      (generateCommitmentShareLists S (rng i) ⟨i, key i⟩ (number i)).1) =
        .ok (generateCommitmentShareLists S (rng i) ⟨i, key i⟩ (number i)).1 := by
    intro i hi
    obtain ⟨b, h1, h2⟩ := C72_public_list (F := F) (G := G) hd
      (generateCommitmentShareLists S (rng i) ⟨i, key i⟩ (number i)).1 (by
        rw [(C52_published S (rng i) ⟨i, key i⟩ (number i)).2.2.1]
        have := hnum i hi
        omega)
    cases h1
    exact h2
  have hvk : ∀ k : IndividualVerifyingKey G, fromBytes (F := F) (G := G) (verifyingKeyCodec S)
      ((verifyingKeyCodec S).enc k) = .ok k := by
    intro k
    obtain ⟨b, h1, h2⟩ := C72_verifying_key (F := F) (G := G) hd k
    cases h1
    exact h2
  have hsg : ∀ k : Signer G, fromBytes (F := F) (G := G) (signerCodec S) ((signerCodec S).enc k) = .ok k := by
    intro k
    obtain ⟨b, h1, h2⟩ := C72_signer (F := F) (G := G) hd k
    cases h1
    exact h2
  have hps : ∀ k : PartialSignature F, fromBytes (F := F) (G := G) (partialSignatureCodec S)
      ((partialSignatureCodec S).enc k) = .ok k := by
    intro k
    obtain ⟨b, h1, h2⟩ := C72_partial_signature (F := F) (G := G) hd k
    cases h1
    exact h2
  refine ⟨fun i => (publicListCodec S).enc (generateCommitmentShareLists S (rng i) ⟨i, key i⟩ (number i)).1,
    fun i => (verifyingKeyCodec S).enc (IndividualSigningKey.toPublic S ⟨i, key i⟩), fun i _ => ⟨rfl, rfl⟩,
    ord.map fun i => .signer i (c i) (IndividualSigningKey.toPublic S ⟨i, key i⟩), ?_,
    (session (F := F) params (s • S.gen) message (ord.map fun i =>
      .signer i (c i) (IndividualSigningKey.toPublic S ⟨i, key i⟩))).state.signers.map (signerCodec S).enc, ?_,
    fun i => (partialSignatureCodec S).enc (p i), fun i hi => ?_, ord'.map fun i => .partialSig (p i), ?_, f, sig,
    (signatureCodec S).enc sig, (publicKeyCodec S).enc (s • S.gen), k1, k2, rfl, rfl, ?_⟩
  · refine readOps_map S ord _ _ fun i hi => ?_
    have hi := ho.mem_iff.mp hi
    unfold WireOp.read
    simp only
    rw [hpub i hi]
    simp only
    rw [hvk]
    simp only
    rw [hc i hi]
  · rw [List.map_map]
    rfl
  · unfold signWire
    rw [readAll_map _ _ id fun x _ => hsg x, List.map_id]
    simp only
    rw [hp i hi]
    rfl
  · refine readOps_map S ord' _ _ fun i hi => ?_
    unfold WireOp.read
    simp only
    rw [hps]
  · unfold verifyWire
    obtain ⟨b, h1, h2⟩ := C72_public_key (F := F) (G := G) hd (s • S.gen)
    cases h1
    obtain ⟨b, h3, h4⟩ := C72_signature (F := F) (G := G) hd sig
    cases h3
    rw [h2]
    simp only
    rw [h4]
    simp only
    rw [k4]

/-! ### Non-vacuity -/

section Examples

open Toy SigningExamples

/-- The key of the toy sharing has full degree, so a single holder is one short of the threshold. -/
example : Spec.interpolate [3] key ≠ Spec.polyEval [(42 : Fp), 7] 0 :=
  C107_one_short u32_inj [3] (by decide) (by decide) [(42 : Fp), 7] rfl (by decide)

example := C107_signature_iff group_laws u32_inj (fun _ => true) ⟨3, 2⟩ (strBytes "hello") [1, 3] (by decide)
    (by decide) (by decide) (by decide) key 42 (fun i => [share i, share 2])
    (fun _ _ => by simp) (fun _ => 0) share (fun _ _ => rfl) (fun _ _ => ⟨rfl, rfl⟩) ops hinc

example := C108_wire_signing codec_laws u32_inj (fun _ => true) ⟨3, 2⟩ (strBytes "hello") [1, 3] (by decide)
    (by decide) (by decide) (by decide) key _ (key_shares [1, 3] (by decide) (by decide)) (fun _ => 0) (fun _ => 4)
    (fun _ _ => by norm_num) (fun _ => 2) (fun _ _ => by decide) [3, 1] [1, 3] (by decide) (by decide)

end Examples

end IceFrost
