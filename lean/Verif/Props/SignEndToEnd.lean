import Verif.Props.Aggregation

/-! # C64: honest signers obtain a valid threshold signature, also after key generation and resharing -/

set_option linter.unusedSectionVars false
set_option linter.unusedSimpArgs false

namespace IceFrost

open Finset

variable {F G R : Type} [Field F] [DecidableEq F] [AddCommGroup G] [Module F G] [DecidableEq G]

theorem session_signers (params : Params) (Y : G) (message : Bytes) (ops : List (AggOp F G)) (J : List U32)
    (c : U32 → G × G) (pk : U32 → G)
    (hinc : ∀ e, e ∈ Spec.inclusions ops ↔ ∃ i ∈ J, e = (i, c i, pk i)) (s : Signer G) :
    s ∈ (session params Y message ops).state.signers ↔ ∃ i ∈ J, s = ⟨i, c i⟩ := by
  rw [(reached params Y message ops).signers, Option.map_eq_some_iff]
  constructor
  · rintro ⟨v, hv, hs⟩
    obtain ⟨i, hi, he⟩ := (hinc _).mp (firstOf_mem hv)
    simp only [Prod.mk.injEq] at he
    obtain ⟨h1, rfl⟩ := he
    exact ⟨i, hi, by obtain ⟨a, b⟩ := s; simp_all⟩
  · rintro ⟨i, hi, rfl⟩
    have hm := (hinc (i, c i, pk i)).mpr ⟨i, hi, rfl⟩
    obtain ⟨v, hv⟩ := Option.isSome_iff_exists.mp ((firstOf_isSome (Spec.inclusions ops) i).mpr
      (List.mem_map.mpr ⟨_, hm, rfl⟩))
    refine ⟨v, hv, ?_⟩
    obtain ⟨j, _, he⟩ := (hinc _).mp (firstOf_mem hv)
    simp only [Prod.mk.injEq] at he
    obtain ⟨rfl, rfl⟩ := he
    rfl

theorem honest_session_any (hu : Suite.U32Inj F) (S : Suite F G R) (dbg : U32 → Bool) (params : Params) (message : Bytes)
    (J : List U32) (hJ : J.Nodup) (h0 : 0 ∉ J) (hne : J ≠ []) (hn : J.length ≤ params.n.toNat)
    (key : U32 → F) (Y : G)
    (L : U32 → List (CommitmentShare F G)) (hL : ∀ i ∈ J, (L i).length < 2 ^ 63) (pos : U32 → UInt64)
    (share : U32 → CommitmentShare F G) (hshare : ∀ i ∈ J, (L i)[(pos i).toNat]? = some (share i))
    (hcom : ∀ i ∈ J, (share i).hidingC.commit = (share i).hidingC.secret • S.gen ∧
      (share i).bindingC.commit = (share i).bindingC.secret • S.gen)
    (ops : List (AggOp F G))
    (hinc : ∀ e, e ∈ Spec.inclusions ops ↔ ∃ i ∈ J, e = (i, (share i).publish, key i • S.gen)) :
    ∃ p : U32 → PartialSignature F,
      (∀ i ∈ J, (p i).index = i ∧ (sign S (dbg i) ⟨i, key i⟩ (Spec.messageHash S message) Y (L i) (pos i)
        (session params Y message ops).state.signers).1 = .ok (p i)) ∧
      ∀ (ops' : List (AggOp F G)) (z : U32 → F), (∀ e ∈ Spec.inclusions ops', e ∈ Spec.inclusions ops) →
        (∀ i ∈ J, Spec.lastOf (Spec.partials (ops ++ ops')) i = some (z i)) →
        ∃ f, (session params Y message (ops ++ ops')).finalize S = .ok f ∧
          f.messageHash = Spec.messageHash S message ∧ f.state.groupKey = Y ∧
          f.state.signers = (session params Y message ops).state.signers ∧
          SignersSorted f.state.signers ∧ f.state.signers ≠ [] ∧
          (∀ i, i ∈ f.state.signers.map (·.participantIndex) ↔ i ∈ J) ∧
          (∀ x ∈ f.state.signers, f.state.partialSignatures.get? x.participantIndex = some (z x.participantIndex)) ∧
          (∀ x ∈ f.state.signers, f.state.publicKeys.get? x.participantIndex =
            some (key x.participantIndex • S.gen)) ∧
          (∀ x ∈ f.state.signers, Spec.PartialValid S Y (Spec.messageHash S message) f.state.signers x
            (key x.participantIndex • S.gen) (p x.participantIndex).z) ∧
          Spec.interpolateG F (f.state.signers.map (·.participantIndex)) (fun i => key i • S.gen) =
            Spec.interpolate J key • S.gen := by
  classical
  have hr := reached params Y message ops
  have hmem := session_signers params Y message ops J (fun i => (share i).publish) (fun i => key i • S.gen) hinc
  have hidx : ∀ i, i ∈ (session params Y message ops).state.signers.map (·.participantIndex) ↔ i ∈ J := by
    intro i
    rw [List.mem_map]
    constructor
    · rintro ⟨x, hx, rfl⟩
      obtain ⟨j, hj, rfl⟩ := (hmem x).mp hx
      exact hj
    · intro hi
      exact ⟨_, (hmem _).mpr ⟨i, hi, rfl⟩, rfl⟩
  have hsign : ∀ i ∈ J, ∃ p, (sign S (dbg i) ⟨i, key i⟩ (Spec.messageHash S message) Y (L i) (pos i)
        (session params Y message ops).state.signers).1 = .ok p := by
    intro i hi
    refine (C55_success_iff hu S (dbg i) ⟨i, key i⟩ _ Y (L i) (pos i) (hL i hi) _).mpr
      ⟨(List.getElem?_eq_some_iff.mp (hshare i hi)).1, (hidx i).mpr hi, hr.sorted.nodup, fun h => h0 ((hidx 0).mp h)⟩
  have : Nonempty (PartialSignature F) := ⟨⟨0, 0⟩⟩
  choose! p hp using hsign
  have heq := fun i hi => C56_share_equation S (dbg i) ⟨i, key i⟩ _ Y (L i) (pos i) _ (p i) (hp i hi) (share i)
    (hshare i hi) (hcom i hi).1 (hcom i hi).2 ((hmem _).mpr ⟨i, hi, rfl⟩)
  refine ⟨p, fun i hi => ⟨(heq i hi).1, hp i hi⟩, fun ops' z hops' hpart => ?_⟩
  have hr' := reached params Y message (ops ++ ops')
  have hinc' : ∀ e, e ∈ Spec.inclusions (ops ++ ops') ↔ ∃ i ∈ J, e = (i, (share i).publish, key i • S.gen) := by
    intro e
    rw [← hinc e, inclusions_append, List.mem_append]
    exact ⟨fun h => h.elim id (hops' e), Or.inl⟩
  have hmem' := session_signers params Y message (ops ++ ops') J (fun i => (share i).publish)
    (fun i => key i • S.gen) hinc'
  have hsig : (session params Y message (ops ++ ops')).state.signers = (session params Y message ops).state.signers :=
    signers_ext hr'.sorted hr.sorted fun x => by rw [hmem', hmem]
  have hincl : ∀ i, i ∈ Spec.included (ops ++ ops') ↔ i ∈ J := by
    intro i
    rw [← hr'.mem_indices, ← hidx]
    show i ∈ (session params Y message (ops ++ ops')).state.signers.map _ ↔ _
    rw [hsig]
  have hcard : (Spec.included (ops ++ ops')).toFinset.card ≤ params.n.toNat := by
    have : (Spec.included (ops ++ ops')).toFinset = J.toFinset := by
      ext i; rw [List.mem_toFinset, List.mem_toFinset, hincl]
    rw [this, List.toFinset_card_of_nodup hJ]
    exact hn
  obtain ⟨f, hf⟩ := (C59_finalize_within_bound S params Y message (ops ++ ops') hcard).mpr (fun i hi =>
    ⟨_, lastOf_mem (hpart i ((hincl i).mp hi))⟩)
  obtain ⟨h1, h2, h3, h4, h5, _⟩ := finalized_session hf
  have hst := (finalize_ok hf).1
  have hsg : f.state.signers = (session params Y message ops).state.signers := h3.trans hsig
  have hJs : ∀ x ∈ f.state.signers, x.participantIndex ∈ J := fun x hx =>
    (hincl _).mp ((h5 _).mp (List.mem_map.mpr ⟨x, hx, rfl⟩))
  have hz : ∀ x ∈ f.state.signers, f.state.partialSignatures.get? x.participantIndex =
      some (z x.participantIndex) := fun x hx => by
    rw [hst, hr'.ps_eq, hpart _ (hJs x hx)]
  have hpk : ∀ x ∈ f.state.signers, f.state.publicKeys.get? x.participantIndex =
      some (key x.participantIndex • S.gen) := fun x hx => by
    rw [hst, hr'.pk_eq, accepted_of_le _ _ hcard]
    have hin := (hincl _).mpr (hJs x hx)
    obtain ⟨v, hv⟩ := Option.isSome_iff_exists.mp ((lastOf_isSome (Spec.inclusions (ops ++ ops')) _).mpr hin)
    rw [hv]
    obtain ⟨j, _, he⟩ := (hinc' _).mp (lastOf_mem hv)
    simp only [Prod.mk.injEq] at he
    obtain ⟨hj, rfl⟩ := he
    rw [hj]
    rfl
  have hs0 : f.state.signers ≠ [] := by
    intro hs0
    obtain ⟨i, hi⟩ := List.exists_mem_of_ne_nil _ hne
    have := (h5 i).mpr ((hincl i).mpr hi)
    rw [hs0] at this; simp at this
  have hint : Spec.interpolateG F (f.state.signers.map (·.participantIndex)) (fun i => key i • S.gen) =
      Spec.interpolate J key • S.gen := by
    unfold Spec.interpolateG Spec.interpolate
    have hl : ∀ i, Spec.lagrange (F := F) (f.state.signers.map (·.participantIndex)) i = Spec.lagrange J i := by
      intro i
      exact spec_lagrange_congr (fun j => by rw [h5, hincl]) i
    have hse : (f.state.signers.map (·.participantIndex)).toFinset = J.toFinset := by
      ext j; rw [List.mem_toFinset, List.mem_toFinset, h5, hincl]
    rw [hse, Finset.sum_smul]
    refine Finset.sum_congr rfl fun i _ => ?_
    rw [hl, smul_smul]
  refine ⟨f, hf, h1, h2, hsg, h4, hs0, fun i => by rw [h5, hincl], hz, hpk, fun x hx => ?_, hint⟩
  rw [hsg] at hx ⊢
  obtain ⟨i, hi, rfl⟩ := (hmem x).mp hx
  exact (heq i hi).2

theorem honest_session (hu : Suite.U32Inj F) (S : Suite F G R) (dbg : U32 → Bool) (params : Params) (message : Bytes)
    (J : List U32) (hJ : J.Nodup) (h0 : 0 ∉ J) (hne : J ≠ []) (hn : J.length ≤ params.n.toNat)
    (key : U32 → F) (s : F) (hs : Spec.interpolate J key = s)
    (L : U32 → List (CommitmentShare F G)) (hL : ∀ i ∈ J, (L i).length < 2 ^ 63) (pos : U32 → UInt64)
    (share : U32 → CommitmentShare F G) (hshare : ∀ i ∈ J, (L i)[(pos i).toNat]? = some (share i))
    (hcom : ∀ i ∈ J, (share i).hidingC.commit = (share i).hidingC.secret • S.gen ∧
      (share i).bindingC.commit = (share i).bindingC.secret • S.gen)
    (ops : List (AggOp F G))
    (hinc : ∀ e, e ∈ Spec.inclusions ops ↔ ∃ i ∈ J, e = (i, (share i).publish, key i • S.gen)) :
    ∃ p : U32 → PartialSignature F,
      (∀ i ∈ J, (p i).index = i ∧ (sign S (dbg i) ⟨i, key i⟩ (Spec.messageHash S message) (s • S.gen) (L i) (pos i)
        (session params (s • S.gen) message ops).state.signers).1 = .ok (p i)) ∧
      ∀ (ops' : List (AggOp F G)) (z : U32 → F), (∀ e ∈ Spec.inclusions ops', e ∈ Spec.inclusions ops) →
        (∀ i ∈ J, Spec.lastOf (Spec.partials (ops ++ ops')) i = some (z i)) →
        ∃ f, (session params (s • S.gen) message (ops ++ ops')).finalize S = .ok f ∧
          f.messageHash = Spec.messageHash S message ∧ f.state.groupKey = s • S.gen ∧
          f.state.signers = (session params (s • S.gen) message ops).state.signers ∧
          SignersSorted f.state.signers ∧ f.state.signers ≠ [] ∧
          (∀ i, i ∈ f.state.signers.map (·.participantIndex) ↔ i ∈ J) ∧
          (∀ x ∈ f.state.signers, f.state.partialSignatures.get? x.participantIndex = some (z x.participantIndex)) ∧
          (∀ x ∈ f.state.signers, f.state.publicKeys.get? x.participantIndex =
            some (key x.participantIndex • S.gen)) ∧
          (∀ x ∈ f.state.signers, Spec.PartialValid S (s • S.gen) (Spec.messageHash S message) f.state.signers x
            (key x.participantIndex • S.gen) (p x.participantIndex).z) ∧
          Spec.interpolateG F (f.state.signers.map (·.participantIndex)) (fun i => key i • S.gen) = s • S.gen := by
  obtain ⟨p, hp, hall⟩ := honest_session_any hu S dbg params message J hJ h0 hne hn key (s • S.gen) L hL pos share hshare
    hcom ops hinc
  rw [hs] at hall
  exact ⟨p, hp, hall⟩

/-- C64: signers `J`, at most `n` of them, hold keys that interpolate to `s`. Each precomputed a list of nonce pairs and
uses the pair at its position. They are included in any order, possibly repeatedly, with any calls in between that
include nobody else. Then every one of them can sign for the session's signer list, and however the aggregator is
called afterwards (repeated inclusions, partial signatures of outsiders, wrong ones that are superseded), as long as
the last partial signature of each signer is its own, `finalize` and `aggregate` succeed with a signature that is valid
for `g^s` and the message. -/
theorem C64_honest_signing (hu : Suite.U32Inj F) (S : Suite F G R) (dbg : U32 → Bool) (params : Params) (message : Bytes)
    (J : List U32) (hJ : J.Nodup) (h0 : 0 ∉ J) (hne : J ≠ []) (hn : J.length ≤ params.n.toNat)
    (key : U32 → F) (s : F) (hs : Spec.interpolate J key = s)
    (L : U32 → List (CommitmentShare F G)) (hL : ∀ i ∈ J, (L i).length < 2 ^ 63) (pos : U32 → UInt64)
    (share : U32 → CommitmentShare F G) (hshare : ∀ i ∈ J, (L i)[(pos i).toNat]? = some (share i))
    (hcom : ∀ i ∈ J, (share i).hidingC.commit = (share i).hidingC.secret • S.gen ∧
      (share i).bindingC.commit = (share i).bindingC.secret • S.gen)
    (ops : List (AggOp F G))
    (hinc : ∀ e, e ∈ Spec.inclusions ops ↔ ∃ i ∈ J, e = (i, (share i).publish, key i • S.gen)) :
    ∃ p : U32 → PartialSignature F,
      (∀ i ∈ J, (p i).index = i ∧ (sign S (dbg i) ⟨i, key i⟩ (Spec.messageHash S message) (s • S.gen) (L i) (pos i)
        (session params (s • S.gen) message ops).state.signers).1 = .ok (p i)) ∧
      ∀ ops' : List (AggOp F G), (∀ e ∈ Spec.inclusions ops', e ∈ Spec.inclusions ops) →
        (∀ i ∈ J, Spec.lastOf (Spec.partials (ops ++ ops')) i = some (p i).z) →
        ∃ f sig, (session params (s • S.gen) message (ops ++ ops')).finalize S = .ok f ∧ f.aggregate S = .ok sig ∧
          Spec.SigValid S (s • S.gen) (Spec.messageHash S message) sig ∧
          sig.verify S (s • S.gen) (Spec.messageHash S message) = .ok () := by
  classical
  obtain ⟨p, hp, hall⟩ := honest_session hu S dbg params message J hJ h0 hne hn key s hs L hL pos share hshare hcom ops
    hinc
  refine ⟨p, hp, fun ops' hops' hpart => ?_⟩
  obtain ⟨f, hf, h1, h2, _, h4, hs0, _, hz, hpk, hv, hint⟩ := hall ops' (fun i => (p i).z) hops' hpart
  have hvalid : Spec.SigValid S f.state.groupKey f.messageHash
      ⟨Spec.groupCommitment S f.messageHash f.state.signers,
        (f.state.signers.map fun x => (p x.participantIndex).z).sum⟩ := by
    have := sum_valid S (s • S.gen) (Spec.messageHash S message) f.state.signers h4.nodup
      (fun i => (p i).z) (fun i => key i • S.gen) hv
    unfold Spec.SigValid Spec.Schnorr
    simp only
    rw [h1, h2, this, hint]
    rfl
  have hagg := aggregate_cases hu S f h4 (fun i => (p i).z) (fun i => key i • S.gen) hz hpk
  rw [if_neg hs0, if_pos hvalid] at hagg
  refine ⟨f, _, hf, hagg, ?_, ?_⟩
  · rw [h2, h1] at hvalid
    rw [h1]
    exact hvalid
  · rw [verify_iff, h1]
    rw [h2, h1] at hvalid
    exact hvalid

/-- C65 and C66 for signers with proper keys: in the situation of C64, let each signer's last partial signature be an
arbitrary `z i` instead of its own `p i`. If the sums agree, the aggregate is the valid signature; otherwise exactly the
signers that deviated are reported, in increasing order. -/
theorem C66_deviators_reported {S : Suite F G R} (hg : S.GroupLaws) (hu : Suite.U32Inj F) (dbg : U32 → Bool) (params : Params) (message : Bytes)
    (J : List U32) (hJ : J.Nodup) (h0 : 0 ∉ J) (hne : J ≠ []) (hn : J.length ≤ params.n.toNat)
    (key : U32 → F) (s : F) (hs : Spec.interpolate J key = s)
    (L : U32 → List (CommitmentShare F G)) (hL : ∀ i ∈ J, (L i).length < 2 ^ 63) (pos : U32 → UInt64)
    (share : U32 → CommitmentShare F G) (hshare : ∀ i ∈ J, (L i)[(pos i).toNat]? = some (share i))
    (hcom : ∀ i ∈ J, (share i).hidingC.commit = (share i).hidingC.secret • S.gen ∧
      (share i).bindingC.commit = (share i).bindingC.secret • S.gen)
    (ops : List (AggOp F G))
    (hinc : ∀ e, e ∈ Spec.inclusions ops ↔ ∃ i ∈ J, e = (i, (share i).publish, key i • S.gen)) :
    ∃ p : U32 → PartialSignature F,
      (∀ i ∈ J, (sign S (dbg i) ⟨i, key i⟩ (Spec.messageHash S message) (s • S.gen) (L i) (pos i)
        (session params (s • S.gen) message ops).state.signers).1 = .ok (p i)) ∧
      ∀ (ops' : List (AggOp F G)) (z : U32 → F), (∀ e ∈ Spec.inclusions ops', e ∈ Spec.inclusions ops) →
        (∀ i ∈ J, Spec.lastOf (Spec.partials (ops ++ ops')) i = some (z i)) →
        ∃ f, (session params (s • S.gen) message (ops ++ ops')).finalize S = .ok f ∧
          ((J.map z).sum = (J.map fun i => (p i).z).sum → ∃ sig, f.aggregate S = .ok sig ∧ sig.z = (J.map z).sum ∧
            Spec.SigValid S (s • S.gen) (Spec.messageHash S message) sig) ∧
          ((J.map z).sum ≠ (J.map fun i => (p i).z).sum → ∃ l : List U32,
            f.aggregate S = .error (.err (.misbehavingParticipants l)) ∧ l.Pairwise (· < ·) ∧
            ∀ i, i ∈ l ↔ i ∈ J ∧ z i ≠ (p i).z) := by
  classical
  obtain ⟨p, hp, hall⟩ := honest_session hu S dbg params message J hJ h0 hne hn key s hs L hL pos share hshare hcom ops
    hinc
  refine ⟨p, fun i hi => (hp i hi).2, fun ops' z hops' hpart => ?_⟩
  obtain ⟨f, hf, h1, h2, _, h4, hs0, hidx, hz, hpk, hv, hint⟩ := hall ops' z hops' hpart
  have hsum : ∀ g : U32 → F, (f.state.signers.map fun x => g x.participantIndex).sum = (J.map g).sum := by
    intro g
    have hperm : (f.state.signers.map (·.participantIndex)).Perm J :=
      (List.perm_ext_iff_of_nodup h4.nodup hJ).mpr hidx
    rw [← (hperm.map g).sum_eq, List.map_map]
    rfl
  have hhon := sum_valid S (s • S.gen) (Spec.messageHash S message) f.state.signers h4.nodup
      (fun i => (p i).z) (fun i => key i • S.gen) hv
  rw [hsum (fun i => (p i).z), hint] at hhon
  have hiff : Spec.SigValid S f.state.groupKey f.messageHash
      ⟨Spec.groupCommitment S f.messageHash f.state.signers,
        (f.state.signers.map fun x => z x.participantIndex).sum⟩ ↔ (J.map z).sum = (J.map fun i => (p i).z).sum := by
    unfold Spec.SigValid Spec.Schnorr
    simp only
    rw [hsum z, h1, h2]
    constructor
    · intro h
      exact hg.gen_inj _ _ (h.trans hhon.symm)
    · intro h
      rw [h]
      exact hhon
  have hagg := aggregate_cases hu S f h4 z (fun i => key i • S.gen) hz hpk
  rw [if_neg hs0] at hagg
  refine ⟨f, hf, fun h => ?_, fun h => ?_⟩
  · rw [if_pos (hiff.mpr h)] at hagg
    refine ⟨_, hagg, hsum z, ?_⟩
    have := hiff.mpr h
    rw [h2, h1] at this
    rw [h1]
    exact this
  · rw [if_neg (fun hc => h (hiff.mp hc)), if_neg (fun hc => h0 ((hidx 0).mp hc))] at hagg
    refine ⟨_, hagg, (C65_exact S params (s • S.gen) message (ops ++ ops') hu f hf _ hagg).1, fun i => ?_⟩
    rw [(C65_exact S params (s • S.gen) message (ops ++ ops') hu f hf _ hagg).2 i]
    constructor
    · rintro ⟨x, hx, rfl, z', pk', k1, k2, k3⟩
      refine ⟨(hidx _).mp (List.mem_map.mpr ⟨x, hx, rfl⟩), fun hzz => k3 ?_⟩
      rw [hz x hx, Option.some.injEq] at k1
      rw [hpk x hx, Option.some.injEq] at k2
      rw [← k1, ← k2, hzz]
      exact hv x hx
    · rintro ⟨hi, hne'⟩
      obtain ⟨x, hx, rfl⟩ := List.mem_map.mp ((hidx i).mpr hi)
      exact ⟨x, hx, rfl, _, _, hz x hx, hpk x hx, fun hc => hne' (C56_unique hg _ _ _ _ _ _ _ hc (hv x hx))⟩

/-- C64, the documented flow: signers `J` precompute nonce pairs, are included in any order with the published pair at
the position they will use, sign, and their partial signatures are added in any order. -/
theorem C64_documented_flow (hu : Suite.U32Inj F) (S : Suite F G R) (dbg : U32 → Bool) (params : Params)
    (message : Bytes) (J : List U32) (hJ : J.Nodup) (h0 : 0 ∉ J) (hne : J ≠ []) (hn : J.length ≤ params.n.toNat)
    (key : U32 → F) (s : F) (hs : Spec.interpolate J key = s)
    (rng : U32 → R) (number : U32 → Nat) (hnum : ∀ i ∈ J, number i < 2 ^ 63) (pos : U32 → UInt64)
    (hpos : ∀ i ∈ J, (pos i).toNat < number i) (ord ord' : List U32) (ho : ord.Perm J) (ho' : ord'.Perm J) :
    ∃ c : U32 → G × G,
      (∀ i ∈ J, (generateCommitmentShareLists S (rng i) ⟨i, key i⟩ (number i)).1.commitments[(pos i).toNat]? =
        some (c i)) ∧
    ∃ p : U32 → PartialSignature F,
      (∀ i ∈ J, (sign S (dbg i) ⟨i, key i⟩ (Spec.messageHash S message) (s • S.gen)
        (generateCommitmentShareLists S (rng i) ⟨i, key i⟩ (number i)).2 (pos i)
        (session (F := F) params (s • S.gen) message (ord.map fun i =>
          .signer i (c i) (IndividualSigningKey.toPublic S ⟨i, key i⟩))).state.signers).1 = .ok (p i)) ∧
    ∃ f sig, (session params (s • S.gen) message ((ord.map fun i =>
          .signer i (c i) (IndividualSigningKey.toPublic S ⟨i, key i⟩)) ++ ord'.map fun i => .partialSig (p i))).finalize S =
        .ok f ∧
      f.aggregate S = .ok sig ∧ Spec.SigValid S (s • S.gen) (Spec.messageHash S message) sig ∧
      verifySignature S (s • S.gen) sig (Spec.messageHash S message) = .ok () := by
  have hsh : ∀ i ∈ J, ∃ sh : CommitmentShare F G,
      (generateCommitmentShareLists S (rng i) ⟨i, key i⟩ (number i)).2[(pos i).toNat]? = some sh ∧
      (generateCommitmentShareLists S (rng i) ⟨i, key i⟩ (number i)).1.commitments[(pos i).toNat]? =
        some (sh.hidingC.secret • S.gen, sh.bindingC.secret • S.gen) ∧
      sh.hidingC.commit = sh.hidingC.secret • S.gen ∧ sh.bindingC.commit = sh.bindingC.secret • S.gen :=
    fun i hi => (C52_published S (rng i) ⟨i, key i⟩ (number i)).2.2.2 _ (hpos i hi)
  have : Nonempty (CommitmentShare F G) := ⟨⟨⟨0, 0⟩, ⟨0, 0⟩⟩⟩
  choose! share h1 h2 h3 h4 using hsh
  have hincl : ∀ l : List U32, Spec.inclusions (F := F) (l.map fun i =>
      .signer i (share i).publish (IndividualSigningKey.toPublic S ⟨i, key i⟩)) =
        l.map fun i => (i, (share i).publish, key i • S.gen) := by
    intro l
    induction l with
    | nil => rfl
    | cons i l ih =>
      rw [List.map_cons, List.map_cons, ← ih]
      simp [Spec.inclusions, IndividualSigningKey.toPublic]
  refine ⟨fun i => (share i).publish, fun i hi => ?_, ?_⟩
  · rw [h2 i hi, ← h3 i hi, ← h4 i hi]
    rfl
  obtain ⟨p, hp, hend⟩ := C64_honest_signing hu S dbg params message J hJ h0 hne hn key s hs
    (fun i => (generateCommitmentShareLists S (rng i) ⟨i, key i⟩ (number i)).2)
    (fun i hi => by
      show (generateCommitmentShareLists S (rng i) ⟨i, key i⟩ (number i)).2.length < _
      rw [(C52_published S (rng i) ⟨i, key i⟩ (number i)).1]; exact hnum i hi)
    pos share h1 (fun i hi => ⟨h3 i hi, h4 i hi⟩)
    (ord.map fun i => .signer i (share i).publish (IndividualSigningKey.toPublic S ⟨i, key i⟩))
    (fun e => by
      rw [hincl, List.mem_map]
      constructor
      · rintro ⟨i, hi, rfl⟩; exact ⟨i, ho.mem_iff.mp hi, rfl⟩
      · rintro ⟨i, hi, rfl⟩; exact ⟨i, ho.mem_iff.mpr hi, rfl⟩)
  refine ⟨p, fun i hi => (hp i hi).2, ?_⟩
  have hpi : ∀ l : List U32, Spec.inclusions (l.map fun i => (.partialSig (p i) : AggOp F G)) = [] := by
    intro l; simp [Spec.inclusions, List.filterMap_map]
  have hps : ∀ l : List U32, Spec.partials (l.map fun i => (.signer i (share i).publish
      (IndividualSigningKey.toPublic S ⟨i, key i⟩) : AggOp F G)) = [] := by
    intro l; simp [Spec.partials, List.filterMap_map]
  have hpp : ∀ l : List U32, Spec.partials (l.map fun i => (.partialSig (p i) : AggOp F G)) =
      l.map fun i => ((p i).index, (p i).z) := by
    intro l
    induction l with
    | nil => rfl
    | cons i l ih =>
      rw [List.map_cons, List.map_cons, ← ih]
      rfl
  obtain ⟨f, sig, k1, k2, k3, k4⟩ := hend (ord'.map fun i => .partialSig (p i)) (by rw [hpi]; simp) (fun i hi => by
    rw [partials_append, hps, hpp, List.nil_append]
    have hin : i ∈ (ord'.map fun i => ((p i).index, (p i).z)).map Prod.fst := by
      rw [List.map_map, List.mem_map]
      exact ⟨i, ho'.mem_iff.mpr hi, (hp i hi).1⟩
    obtain ⟨v, hv⟩ := Option.isSome_iff_exists.mp ((lastOf_isSome _ i).mpr hin)
    rw [hv]
    obtain ⟨j, hj, he⟩ := List.mem_map.mp (lastOf_mem hv)
    simp only [Prod.mk.injEq] at he
    obtain ⟨he1, he2⟩ := he
    rw [(hp j (ho'.mem_iff.mp hj)).1] at he1
    rw [← he2, he1])
  exact ⟨f, sig, k1, k2, k3, k4⟩

/-- C64 with key generation and resharing: after a complete honest key generation and any chain of honest resharings,
any `t` or more of the current holders who follow the documented flow obtain a signature that is valid for the group
key of the key generation. -/
theorem C64_dkg_to_signature {S : Suite F G R} (hS : S.Lawful) (dbg : Bool) (params : Params) (ht : params.t ≠ 0)
    (htn : params.t.toNat ≤ params.n.toNat) (idx : List U32) (hidx : idx.Nodup) (hidx0 : 0 ∉ idx)
    (hlen : idx.length = params.n.toNat) (ord ord' : U32 → List U32) (ho : ∀ i ∈ idx, (ord i).Perm idx)
    (ho' : ∀ i ∈ idx, (ord' i).Perm idx) (r1 r2 r3 : U32 → R) :
    ∃ (d2 : U32 → RoundTwo F G) (Y : G) (key : U32 → F),
      (∀ i ∈ idx, (d2 i).finish = .ok (Y, ⟨i, key i⟩)) ∧
      ∀ gks e, Epoch.Chain S dbg ⟨idx, params.t.toNat, key⟩ gks e →
        ∀ (sp : Params) (message : Bytes) (J : List U32), J.Nodup → 0 ∉ J → J ≠ [] → J ⊆ e.holders → e.t ≤ J.length →
          J.length ≤ sp.n.toNat → ∀ (rng : U32 → R) (number : U32 → Nat) (pos : U32 → UInt64),
          (∀ i ∈ J, number i < 2 ^ 63 ∧ (pos i).toNat < number i) →
          ∃ (p : U32 → PartialSignature F) (c : U32 → G × G) (sig : ThresholdSignature F G),
            (∀ i ∈ J, (generateCommitmentShareLists S (rng i) ⟨i, e.key i⟩ (number i)).1.commitments[(pos i).toNat]? =
              some (c i)) ∧
            (∀ i ∈ J, (sign S dbg ⟨i, e.key i⟩ (Spec.messageHash S message) Y
              (generateCommitmentShareLists S (rng i) ⟨i, e.key i⟩ (number i)).2 (pos i)
              (session (F := F) sp Y message (J.map fun i =>
                .signer i (c i) (IndividualSigningKey.toPublic S ⟨i, e.key i⟩))).state.signers).1 = .ok (p i)) ∧
            (∃ f, (session sp Y message ((J.map fun i =>
                .signer i (c i) (IndividualSigningKey.toPublic S ⟨i, e.key i⟩)) ++
                J.map fun i => .partialSig (p i))).finalize S = .ok f ∧ f.aggregate S = .ok sig) ∧
            Spec.SigValid S Y (Spec.messageHash S message) sig := by
  obtain ⟨d2, s, key, h1, _, h3⟩ := C50_from_dkg hS dbg params ht htn idx hidx hidx0 hlen ord ord' ho ho' r1 r2 r3
  refine ⟨d2, s • S.gen, key, h1, fun gks e hc sp message J hJ h0 hne hsub htJ hn rng number pos hpos => ?_⟩
  obtain ⟨_, hsh⟩ := h3 gks e hc
  obtain ⟨c, hc1, p, hp, f, sig, k1, k2, k3, _⟩ := C64_documented_flow hS.u32 S (fun _ => dbg) sp message J hJ h0 hne hn
    e.key s (hsh J hJ hsub htJ) rng number (fun i hi => (hpos i hi).1) pos (fun i hi => (hpos i hi).2) J J (List.Perm.refl _)
    (List.Perm.refl _)
  exact ⟨p, c, sig, hc1, hp, ⟨f, k1, k2⟩, k3⟩

end IceFrost
