import Verif.Props.ReshareNetwork
import Verif.Props.SignNetwork

/-! # C159: the life of a key, from generation over resharings to signatures, on an arbitrary network

The networks of C155 (key generation), C157 (resharing, any number of times) and C156 (signing), one after the other.
-/

set_option linter.unusedSectionVars false
set_option linter.unusedSimpArgs false
set_option linter.unusedVariables false

namespace IceFrost

variable {F G R : Type} [Field F] [DecidableEq F] [AddCommGroup G] [Module F G] [DecidableEq G]

/-- Signers that finished a session of key generation or resharing, in a life of the key `Y`: threshold, dealers on file, and
the signing keys of the signers in `H`. The records of a key generation are checked for the label of their commitments, like
those of a resharing (C129). -/
inductive Spec.Committee (S : Suite F G R) (Y : G) (t : Nat) (comms : BMap (VssCommitment G)) (H : List U32)
    (sk : U32 → IndividualSigningKey F) : Prop
  | generated (dbg : Bool) (N : Spec.Group F G) (w : Spec.Net F G) (Y' : U32 → G) (log : U32 → List (List (Complaint F G)))
      (hk : N.reshare = false) (hN : Spec.BoardOk S N)
      (hl : ∀ p ∈ N.board, Spec.DealerValid S p → ∀ c, p.commitments = some c → c.index = p.index)
      (ht : N.params.t ≠ 0) (htn : t = N.params.t.toNat)
      (hw : Spec.Reached S dbg N w) (hi : ∀ i ∈ H, w.node i = .done (some comms) (Y' i) (sk i) (log i))
      (hY : ∃ i ∈ H, Y' i = Y)
  | reshared (n : Nat) (old : PublicEpoch G) (he : Spec.Era S Y n old) (dbg : Bool) (N : Spec.Group F G) (w : Spec.Net F G)
      (Y' : U32 → G) (log : U32 → List (List (Complaint F G))) (hN : Spec.ReshareOf S old t N) (hw : Spec.Reached S dbg N w)
      (hi : ∀ i ∈ H, w.node i = .done (some comms) (Y' i) (sk i) (log i)) (hd : old.t ≤ comms.keys.length)

section
variable {S : Suite F G R} {Y : G} {t : Nat} {comms : BMap (VssCommitment G)} {H : List U32} {sk : U32 → IndividualSigningKey F}

theorem interpolate_of_public (J H : List U32) (hJH : J ⊆ H) (hk : ∀ i ∈ H, (sk i).key • S.gen = Spec.publicKeyOf F comms i)
    {X : G} (h : Spec.interpolateG F J (Spec.publicKeyOf F comms) = X) : Spec.interpolate J (fun j => (sk j).key) • S.gen = X := by
  rw [← h]
  unfold Spec.interpolate Spec.interpolateG
  rw [Finset.sum_smul]
  refine Finset.sum_congr rfl fun j hj => ?_
  rw [mul_smul, hk j (hJH (List.mem_toFinset.mp hj))]

/-- C159, the keys: every signing key matches the verifying share that everybody derives from the dealers on file, and any `t` of
them interpolate to the logarithm of the key. -/
theorem C159_keys (hS : S.Lawful) (hs : S.ShortCiphertexts) (h : Spec.Committee S Y t comms H sk) :
    t ≠ 0 ∧
    (∀ i ∈ H, (sk i).index = i ∧ (generateFromCommitments i (comms.map (·.2)) : Out F G _) = .ok ⟨i, (sk i).key • S.gen⟩) ∧
    ∀ J : List U32, J.Nodup → J ⊆ H → t ≤ J.length → Spec.interpolate J (fun j => (sk j).key) • S.gen = Y := by
  obtain ⟨dbg, N, w, Y', log, hk, hN, hl, ht, rfl, hw, hi, i0, hi0, rfl⟩ | ⟨n, old, he, dbg, N, w, Y', log, hN, hw, hi, hd⟩ := h
  · have ht' : N.params.t.toNat ≠ 0 := fun e => ht (UInt32.toNat_inj.mp (by simpa using e))
    have hdone : ∀ i ∈ H, _ := fun i hi' => net_done hS hs hN hw N.params.t.toNat (fun p _ hg c hc => (hg.2 hk c hc).le) (hi i hi')
    refine ⟨ht', fun i hi' => ?_, fun J hJ hJH htJ => ?_⟩
    · obtain ⟨c, h1, h2, h3, -, h5, h6, -⟩ := hdone i hi'
      cases h1
      refine ⟨h5, ?_⟩
      rw [h6]
      refine derive_publicKeyOf hS.u32 comms h2 (fun h0 => ?_) (fun k c hc => ?_) i
      · obtain ⟨c, hc⟩ := BMap.exists_get? h0
        obtain ⟨p, hp, hg, h0, _⟩ := h3 0 c hc
        exact (hN.range p hp hg).1 h0
      · obtain ⟨p, hp, hg, rfl, hcm⟩ := h3 k c hc
        exact hl p hp hg.1 c hcm
    · obtain ⟨c, h1, -, -, -, -, -, h7⟩ := hdone i0 hi0
      cases h1
      refine interpolate_of_public J H hJH (fun i hi' => ?_) (h7 J hJ htJ)
      obtain ⟨c, h1, -, -, -, -, h6, -⟩ := hdone i hi'
      cases h1
      exact h6
  · have hlife := C157_life hS hs Y n old he
    have hdone : ∀ i ∈ H, _ := fun i hi' => C157_reshared hS hs old Y hlife.2 t hN hw i _ _ _ _ (hi i hi')
    refine ⟨hN.checked.positive, fun i hi' => ?_, fun J hJ hJH htJ => ?_⟩
    · obtain ⟨c, h1, -, h5, h6, h7, -⟩ := hdone i hi'
      cases h1
      exact ⟨h5, by rw [h6]; exact h7 i⟩
    · have hne : J ≠ [] := by
        rintro rfl
        exact hN.checked.positive (Nat.le_zero.mp htJ)
      obtain ⟨j, hj⟩ := List.exists_mem_of_ne_nil J hne
      obtain ⟨c, h1, -, -, -, -, h7, h8⟩ := hdone j (hJH hj)
      cases h1
      refine interpolate_of_public J H hJH (fun i hi' => ?_) ((h7 J hJ htJ).trans (h8 hd))
      obtain ⟨c, h1, -, -, h6, -⟩ := hdone i hi'
      cases h1
      exact h6

/-- C159, progress: whatever signing requests were answered so far, any `t` signers of the committee can go on to sign any
message for the key that was generated at the beginning. -/
theorem C159_progress (hS : S.Lawful) (hs : S.ShortCiphertexts) (h : Spec.Committee S Y t comms H sk)
    (hsk : ∀ i, (sk i).index = i) (dbg : Bool) {v : Spec.SignNet F G} (hv : Spec.SignReached S dbg sk v) (J : List U32)
    (hJ : J.Nodup) (hJH : J ⊆ H) (h0 : 0 ∉ J) (htJ : t ≤ J.length) (sp : Params) (hn : J.length ≤ sp.n.toNat)
    (message : Bytes) (rng : U32 → R) :
    ∃ v', Spec.SignReached S dbg sk v' ∧
    ∃ (e : U32 → Spec.Issued F G) (f : FinalizedAggregator F G) (sig : ThresholdSignature F G) (pk : U32 → IndividualVerifyingKey G),
      v'.log = v.log ++ J.map e ∧
      (∀ i ∈ J, (generateFromCommitments i (comms.map (·.2)) : Out F G _) = .ok (pk i)) ∧
      (session sp Y message ((J.map fun i => .signer i (e i).share.publish (pk i)) ++
        J.map fun i => .partialSig (e i).answer)).finalize S = .ok f ∧
      f.aggregate S = .ok sig ∧ Spec.SigValid S Y (Spec.messageHash S message) sig := by
  obtain ⟨ht, hk, hi⟩ := C159_keys hS hs h
  have hne : J ≠ [] := by
    rintro rfl
    exact ht (Nat.le_zero.mp htJ)
  have hY := hi J hJ hJH htJ
  subst hY
  obtain ⟨v', h1, e, f, sig, h2, h3, h4, h5⟩ := C156_progress (dbg := dbg) hS.u32 hsk v J hJ h0 hne sp hn _ rfl message rng
  refine ⟨v', hv.trans h1, e, f, sig, fun i => IndividualSigningKey.toPublic S (sk i), h2, fun i hi' => ?_, h3, h4, h5⟩
  rw [(hk i (hJH hi')).2]
  simp only [IndividualSigningKey.toPublic, hsk]

/-- C159, no false accusations: if the verifying keys of an aggregator are derived from the dealers on file, it never reports a
signer of the committee whose answer to the very request of the session it has put in. -/
theorem C159_not_blamed (hS : S.Lawful) (hs : S.ShortCiphertexts) (h : Spec.Committee S Y t comms H sk)
    (hsk : ∀ i, (sk i).index = i) (dbg : Bool) {v : Spec.SignNet F G} (hv : Spec.SignReached S dbg sk v)
    (params : Params) (message : Bytes) (ops : List (AggOp F G))
    (f : FinalizedAggregator F G) (hf : (session params Y message ops).finalize S = .ok f) (l : List U32)
    (hl : f.aggregate S = .error (.err (.misbehavingParticipants l))) (e : Spec.Issued F G) (he : e ∈ v.log) (heH : e.signer ∈ H)
    (hr : e.digest = Spec.messageHash S message ∧ e.groupKey = Y ∧ e.signers = f.state.signers)
    (hm : ⟨e.signer, e.share.publish⟩ ∈ f.state.signers) (pk : IndividualVerifyingKey G)
    (hpk : (generateFromCommitments e.signer (comms.map (·.2)) : Out F G _) = .ok pk)
    (hk : f.state.publicKeys.get? e.signer = some pk.share)
    (hp : f.state.partialSignatures.get? e.signer = some e.answer.z) : e.signer ∉ l := by
  obtain ⟨-, hk', -⟩ := C159_keys hS hs h
  rw [(hk' _ heH).2] at hpk
  cases hpk
  exact C156_not_blamed hS.u32 hS.codec hv hsk params Y message ops f hf l hl e he hr hm hk hp

end

/-! ### Example -/

section Example
open Toy

/-- Three participants with threshold two generate a key and reshare it six times; the signers 3 and 1 then sign two messages. -/
example (dbg : Bool) : ∃ (Y : Fp) (comms : BMap (VssCommitment Fp)) (sk : U32 → IndividualSigningKey Fp)
    (v : Spec.SignNet Fp Fp), Spec.Committee suite Y 2 comms [1, 2, 3] sk ∧ Spec.SignReached suite dbg sk v ∧ v.log.length = 4 := by
  obtain ⟨Y, e, h1, h2, N, h3, w, comms, sk, log, h4, h5, h6⟩ := C157_honest lawful short_ciphertexts dbg ⟨3, 2⟩ [1, 2, 3]
    ⟨by decide, by decide, by decide, by decide, rfl, rfl, by decide, by decide, by decide, by decide⟩ (by decide)
    (fun i => i.toNat) 5
  let sk' : U32 → IndividualSigningKey Fp := fun i => ⟨i, (sk i).key⟩
  have hc0 : Spec.Committee suite Y 2 comms [1, 2, 3] sk := .reshared 5 e h2 dbg N w (fun _ => Y) log h3 h4 h6 h5
  have hsk' : ∀ i ∈ [1, 2, 3], sk' i = sk i := fun i hi =>
    congrArg (IndividualSigningKey.mk · (sk i).key) ((C159_keys lawful short_ciphertexts hc0).2.1 i hi).1.symm
  have hc : Spec.Committee suite Y 2 comms [1, 2, 3] sk' := .reshared 5 e h2 dbg N w (fun _ => Y) log h3 h4
    (fun i hi => by rw [hsk' i hi]; exact h6 i hi) h5
  obtain ⟨v, a1, e1, _, _, _, a2, _⟩ := C159_progress lawful short_ciphertexts hc (fun _ => rfl) dbg
    (Relation.ReflTransGen.refl) [3, 1] (by decide) (by decide) (by decide) (by decide) ⟨3, 2⟩ (by decide) [7] (fun i => i.toNat)
  obtain ⟨v', b1, e2, _, _, _, b2, _⟩ := C159_progress lawful short_ciphertexts hc (fun _ => rfl) dbg
    a1 [3, 1] (by decide) (by decide) (by decide) (by decide) ⟨3, 2⟩ (by decide) [8] (fun i => 9 + i.toNat)
  exact ⟨Y, comms, sk', v', hc, b1, by rw [b2, a2]; rfl⟩

end Example

end IceFrost
