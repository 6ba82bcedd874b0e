import Verif.Lemmas.Aggregator
import Verif.Props.Signing
import Verif.Props.Dkg

/-! # C57–C68: the signature aggregator -/

set_option linter.unusedSectionVars false
set_option linter.unusedSimpArgs false

namespace IceFrost

open Finset

variable {F G R : Type} [Field F] [DecidableEq F] [AddCommGroup G] [Module F G] [DecidableEq G]

/-- The digest of a message that is signed. -/
def Spec.messageHash (S : Suite F G R) (message : Bytes) : Bytes :=
  S.digest (S.contextString ++ strBytes "message" ++ message)

/-- The aggregator made by `new` after a history of calls. -/
abbrev session (params : Params) (Y : G) (message : Bytes) (ops : List (AggOp F G)) : InitialAggregator F G :=
  (InitialAggregator.new params Y message).run ops

theorem aggregator_ext {a b : InitialAggregator F G} (h1 : a.state.parameters = b.state.parameters)
    (h2 : a.state.signers = b.state.signers) (h3 : a.state.publicKeys = b.state.publicKeys)
    (h4 : a.state.partialSignatures = b.state.partialSignatures) (h5 : a.state.groupKey = b.state.groupKey)
    (h6 : a.message = b.message) : a = b := by
  obtain ⟨⟨a1, a2, a3, a4, a5⟩, a6⟩ := a
  obtain ⟨⟨b1, b2, b3, b4, b5⟩, b6⟩ := b
  simp only at h1 h2 h3 h4 h5 h6
  rw [h1, h2, h3, h4, h5, h6]

section History
variable (params : Params) (Y : G) (message : Bytes) (ops : List (AggOp F G))

/-! ### The signer list -/

/-- C57: after any history the signer list is strictly increasing in the index. -/
theorem C57_sorted : ((session params Y message ops).state.signers.map (·.participantIndex)).Pairwise (· < ·) :=
  (reached params Y message ops).sorted.pairwise

/-- C57: it contains exactly the indices included, and each entry has the commitment share of the first inclusion of
its index. -/
theorem C57_first_inclusion :
    (∀ i, i ∈ (session params Y message ops).state.signers.map (·.participantIndex) ↔ i ∈ Spec.included ops) ∧
    ∀ s ∈ (session params Y message ops).state.signers,
      ∃ pk, Spec.firstOf (Spec.inclusions ops) s.participantIndex = some (s.share, pk) := by
  have h := reached params Y message ops
  refine ⟨h.mem_indices, fun s hs => ?_⟩
  have := (h.signers s).mp hs
  rw [Option.map_eq_some_iff] at this
  obtain ⟨⟨a, b⟩, h1, h2⟩ := this
  exact ⟨b, by rw [h1, ← h2]⟩

/-- C57: nothing else is touched: parameters, group key and message stay those given to `new`. -/
theorem C57_frame : (session params Y message ops).state.parameters = params ∧
    (session params Y message ops).state.groupKey = Y ∧ (session params Y message ops).message = message :=
  ⟨(reached params Y message ops).params_eq, (reached params Y message ops).key_eq,
    (reached params Y message ops).message_eq⟩

end History

/-! ### Order of inclusion -/

theorem inclusions_mem_congr {ops ops' : List (AggOp F G)} (hp : ∀ op, op ∈ ops ↔ op ∈ ops') (e : U32 × (G × G) × G) :
    e ∈ Spec.inclusions ops ↔ e ∈ Spec.inclusions ops' := by
  unfold Spec.inclusions
  simp only [List.mem_filterMap, hp]

theorem partials_mem_congr {ops ops' : List (AggOp F G)} (hp : ∀ op, op ∈ ops ↔ op ∈ ops') (e : U32 × F) :
    e ∈ Spec.partials ops ↔ e ∈ Spec.partials ops' := by
  unfold Spec.partials
  simp only [List.mem_filterMap, hp]

theorem firstOf_congr {α β : Type} {l l' : List (U32 × α)} (f : α → β) (h : ∀ e, e ∈ l ↔ e ∈ l')
    (hu : ∀ k v v', (k, v) ∈ l → (k, v') ∈ l → f v = f v') (k : U32) :
    (Spec.firstOf l k).map f = (Spec.firstOf l' k).map f := by
  cases h1 : Spec.firstOf l k with
  | none =>
    have : Spec.firstOf l' k = none := by
      rw [firstOf_eq_none] at h1 ⊢
      intro hk
      obtain ⟨e, he, hk'⟩ := List.mem_map.mp hk
      exact h1 (List.mem_map.mpr ⟨e, (h e).mpr he, hk'⟩)
    rw [this]
  | some v =>
    have hk : k ∈ l'.map Prod.fst := List.mem_map.mpr ⟨_, (h _).mp (firstOf_mem h1), rfl⟩
    obtain ⟨v', hv'⟩ := Option.isSome_iff_exists.mp ((firstOf_isSome l' k).mpr hk)
    rw [hv', Option.map_some, Option.map_some, hu k v v' (firstOf_mem h1) ((h _).mpr (firstOf_mem hv'))]

theorem lastOf_congr {α β : Type} {l l' : List (U32 × α)} (f : α → β) (h : ∀ e, e ∈ l ↔ e ∈ l')
    (hu : ∀ k v v', (k, v) ∈ l → (k, v') ∈ l → f v = f v') (k : U32) :
    (Spec.lastOf l k).map f = (Spec.lastOf l' k).map f := by
  refine firstOf_congr f (by simpa using h) ?_ k
  intro k v v' h1 h2
  exact hu k v v' (by simpa using h1) (by simpa using h2)

/-- C58, signers: two histories with the same calls, in any order and with any repetitions, in which an index is always
included with the same commitment share, give the same signer list. -/
theorem C58_signers_order (params : Params) (Y : G) (message : Bytes) (ops ops' : List (AggOp F G))
    (hp : ∀ op, op ∈ ops ↔ op ∈ ops')
    (hu : ∀ i s s' pk pk', (i, s, pk) ∈ Spec.inclusions ops → (i, s', pk') ∈ Spec.inclusions ops → s = s') :
    (session params Y message ops).state.signers = (session params Y message ops').state.signers := by
  have h := reached params Y message ops
  have h' := reached params Y message ops'
  refine signers_ext h.sorted h'.sorted fun s => ?_
  rw [h.signers, h'.signers, firstOf_congr Prod.fst (inclusions_mem_congr hp)]
  intro k v v' h1 h2
  exact hu k v.1 v'.1 v.2 v'.2 h1 h2

/-- C58: if moreover public keys and partial signatures of an index are always the same and no more than `n` different
signers are included, the two histories lead to the same state, so `finalize` and `aggregate` agree. -/
theorem C58_order (params : Params) (Y : G) (message : Bytes) (ops ops' : List (AggOp F G))
    (hp : ∀ op, op ∈ ops ↔ op ∈ ops')
    (hu : ∀ i v v', (i, v) ∈ Spec.inclusions ops → (i, v') ∈ Spec.inclusions ops → v = v')
    (hz : ∀ i z z', (i, z) ∈ Spec.partials ops → (i, z') ∈ Spec.partials ops → z = z')
    (hn : (Spec.included ops).toFinset.card ≤ params.n.toNat) :
    session params Y message ops = session params Y message ops' := by
  have h := reached params Y message ops
  have h' := reached params Y message ops'
  have hs := C58_signers_order params Y message ops ops' hp
    (fun i s s' pk pk' h1 h2 => congrArg Prod.fst (hu i _ _ h1 h2))
  have hinc : (Spec.included ops').toFinset = (Spec.included ops).toFinset := by
    ext i
    simp only [Spec.included, List.mem_toFinset, List.mem_map, inclusions_mem_congr hp]
  have hk : (session params Y message ops).state.publicKeys = (session params Y message ops').state.publicKeys := by
    refine BMap.ext h.pk_wf h'.pk_wf fun i => ?_
    rw [h.pk_eq, h'.pk_eq, accepted_of_le _ _ hn, accepted_of_le]
    · exact lastOf_congr Prod.snd (inclusions_mem_congr hp) (fun k v v' h1 h2 => congrArg Prod.snd (hu k v v' h1 h2)) i
    · show (Spec.included ops').toFinset.card ≤ _
      rw [hinc]; exact hn
  have hps : (session params Y message ops).state.partialSignatures =
      (session params Y message ops').state.partialSignatures := by
    refine BMap.ext h.ps_wf h'.ps_wf fun i => ?_
    rw [h.ps_eq, h'.ps_eq]
    have := lastOf_congr (fun z : F => z) (partials_mem_congr hp) hz i
    simpa using this
  have h1 := h.params_eq.trans h'.params_eq.symm
  have h2 := h.key_eq.trans h'.key_eq.symm
  have h3 := h.message_eq.trans h'.message_eq.symm
  exact aggregator_ext h1 hs hk hps h2 h3

/-- C58 for permuted histories. -/
theorem C58_permuted (S : Suite F G R) (params : Params) (Y : G) (message : Bytes) (ops ops' : List (AggOp F G))
    (hp : ops.Perm ops')
    (hu : ∀ i v v', (i, v) ∈ Spec.inclusions ops → (i, v') ∈ Spec.inclusions ops → v = v')
    (hz : ∀ i z z', (i, z) ∈ Spec.partials ops → (i, z') ∈ Spec.partials ops → z = z')
    (hn : (Spec.included ops).toFinset.card ≤ params.n.toNat) :
    (session params Y message ops).finalize S = (session params Y message ops').finalize S := by
  rw [C58_order params Y message ops ops' (fun op => hp.mem_iff) hu hz hn]

/-! ### `finalize` -/

theorem map_filter_signers (l : List (Signer G)) (p : U32 → Bool) :
    (l.filter fun s => p s.participantIndex).map (·.participantIndex) =
      (l.map (·.participantIndex)).filter p := by
  rw [List.filter_map]
  rfl

/-- C59: with `I` the increasing list of included indices, `finalize` succeeds exactly when every index of `I` has a
partial signature and an accepted public key; the message hash is the digest of the message. Otherwise it reports, if
partial signatures are missing, 0 and the indices without partial signature, followed by the indices without public
key. -/
theorem C59_finalize (S : Suite F G R) (params : Params) (Y : G) (message : Bytes) (ops : List (AggOp F G))
    (I : List U32) (hI : I.Pairwise (· < ·)) (hI' : ∀ i, i ∈ I ↔ i ∈ Spec.included ops)
    (noSig noKey : List U32) (hs : noSig = I.filter fun i => (Spec.lastOf (Spec.partials ops) i).isNone)
    (hk : noKey = I.filter fun i =>
      (Spec.lastOf (Spec.accepted params.n.toNat (Spec.inclusions ops)) i).isNone) :
    (session params Y message ops).finalize S =
      if noSig = [] ∧ noKey = [] then
        .ok ⟨(session params Y message ops).state, Spec.messageHash S message⟩
      else .error (.misbehavingParticipants ((if noSig = [] then [] else 0 :: noSig) ++ noKey)) := by
  have h := reached params Y message ops
  have hIe : I = (session params Y message ops).state.signers.map (·.participantIndex) :=
    eq_of_strict_of_mem hI h.sorted.pairwise fun i => by rw [hI', h.mem_indices]
  have e1 : (session params Y message ops).remainingSigners.map (·.participantIndex) = noSig := by
    rw [remainingSigners_eq h.sorted, map_filter_signers _ (fun i =>
      (BMap.get? i (session params Y message ops).state.partialSignatures).isNone), ← hIe, hs]
    refine List.filter_congr fun i _ => ?_
    rw [h.ps_eq]
  have e2 : ((session params Y message ops).state.signers.filter fun s =>
      ((session params Y message ops).state.publicKeys.get? s.participantIndex).isNone).map (·.participantIndex) =
        noKey := by
    rw [map_filter_signers _ (fun i => (BMap.get? i (session params Y message ops).state.publicKeys).isNone), ← hIe, hk]
    refine List.filter_congr fun i _ => ?_
    rw [h.pk_eq, Option.isNone_map]
  have e3 : (session params Y message ops).missing = (if noSig = [] then [] else 0 :: noSig) ++ noKey := by
    unfold InitialAggregator.missing
    simp only [e2]
    congr 1
    rw [e1]
    have : (session params Y message ops).remainingSigners.isEmpty = true ↔ noSig = [] := by
      rw [← e1, List.map_eq_nil_iff, List.isEmpty_iff]
    by_cases hn : noSig = []
    · rw [if_pos (this.mpr hn), if_pos hn]
    · rw [if_neg (fun hc => hn (this.mp hc)), if_neg hn]
  unfold InitialAggregator.finalize
  rw [e3]
  by_cases hc : noSig = [] ∧ noKey = []
  · rw [if_pos hc, if_pos (by simp [hc.1, hc.2]), h.message_eq]
    rfl
  · rw [if_neg hc, if_neg]
    intro he
    rw [List.isEmpty_iff, List.append_eq_nil_iff] at he
    refine hc ⟨?_, he.2⟩
    by_contra hn
    rw [if_neg hn] at he
    exact absurd he.1 (by simp)

/-- C59 when at most `n` different signers are included: public keys are never missing, so `finalize` succeeds exactly
when every included index has a partial signature. -/
theorem C59_finalize_within_bound (S : Suite F G R) (params : Params) (Y : G) (message : Bytes) (ops : List (AggOp F G))
    (hn : (Spec.included ops).toFinset.card ≤ params.n.toNat) :
    (∃ f, (session params Y message ops).finalize S = .ok f) ↔
      ∀ i ∈ Spec.included ops, ∃ z, (i, z) ∈ Spec.partials ops := by
  have h := reached params Y message ops
  rw [C59_finalize S params Y message ops _ h.sorted.pairwise h.mem_indices _ _ rfl rfl]
  have hk : ((session params Y message ops).state.signers.map (·.participantIndex)).filter (fun i =>
      (Spec.lastOf (Spec.accepted params.n.toNat (Spec.inclusions ops)) i).isNone) = [] := by
    rw [List.filter_eq_nil_iff]
    intro i hi
    rw [accepted_of_le _ _ hn, Option.isNone_iff_eq_none, lastOf_eq_none, not_not]
    exact (h.mem_indices i).mp hi
  rw [hk]
  have hs : ((session params Y message ops).state.signers.map (·.participantIndex)).filter (fun i =>
      (Spec.lastOf (Spec.partials ops) i).isNone) = [] ↔ ∀ i ∈ Spec.included ops, ∃ z, (i, z) ∈ Spec.partials ops := by
    rw [List.filter_eq_nil_iff]
    refine forall_congr' fun i => ?_
    rw [h.mem_indices]
    refine imp_congr_right fun _ => ?_
    rw [Option.isNone_iff_eq_none, lastOf_eq_none, not_not, List.mem_map]
    constructor
    · rintro ⟨⟨j, z⟩, hz, rfl⟩; exact ⟨z, hz⟩
    · rintro ⟨z, hz⟩; exact ⟨_, hz, rfl⟩
  rw [← hs]
  constructor
  · rintro ⟨f, hf⟩
    by_contra hc
    rw [if_neg (fun h => hc h.1)] at hf
    cases hf
  · intro hc
    rw [if_pos ⟨hc, rfl⟩]
    exact ⟨_, rfl⟩

/-- What a finalized aggregator holds: the state of the session, with a partial signature and a public key for every
signer. -/
theorem finalize_ok {S : Suite F G R} {params : Params} {Y : G} {message : Bytes} {ops : List (AggOp F G)}
    {f : FinalizedAggregator F G} (hf : (session params Y message ops).finalize S = .ok f) :
    f.state = (session params Y message ops).state ∧ f.messageHash = Spec.messageHash S message ∧
    (∀ i ∈ Spec.included ops, ∃ z, f.state.partialSignatures.get? i = some z) ∧
    (∀ i ∈ Spec.included ops, ∃ pk, f.state.publicKeys.get? i = some pk) := by
  have h := reached params Y message ops
  rw [C59_finalize S params Y message ops _ h.sorted.pairwise h.mem_indices _ _ rfl rfl] at hf
  split at hf
  · next hc =>
    simp only [Except.ok.injEq] at hf
    subst hf
    refine ⟨rfl, rfl, fun i hi => ?_, fun i hi => ?_⟩
    · rw [h.ps_eq]
      have := List.filter_eq_nil_iff.mp hc.1 i ((h.mem_indices i).mpr hi)
      rw [Option.isNone_iff_eq_none, ← ne_eq, Option.ne_none_iff_exists'] at this
      exact this
    · rw [h.pk_eq]
      have := List.filter_eq_nil_iff.mp hc.2 i ((h.mem_indices i).mpr hi)
      rw [Option.isNone_iff_eq_none, ← ne_eq, Option.ne_none_iff_exists'] at this
      obtain ⟨v, hv⟩ := this
      exact ⟨v.2, by rw [hv]; rfl⟩
  · cases hf

/-- C60, the upper bound: `finalize` only succeeds with at most `n` signers.

Missing for the full C60: the lower bound, which `finalize` does not check; see the next theorems. -/
theorem C60_upper_bound_partial (S : Suite F G R) (params : Params) (Y : G) (message : Bytes) (ops : List (AggOp F G))
    (f : FinalizedAggregator F G) (hf : (session params Y message ops).finalize S = .ok f) :
    f.state.signers.length ≤ params.n.toNat := by
  have h := reached params Y message ops
  obtain ⟨h1, _, _, h4⟩ := finalize_ok hf
  rw [h1, h.card]
  refine le_trans (Finset.card_le_card fun i hi => ?_)
    (accepted_card params.n.toNat (Spec.inclusions ops))
  rw [List.mem_toFinset] at hi ⊢
  obtain ⟨pk, hpk⟩ := h4 i hi
  rw [h1, h.pk_eq, Option.map_eq_some_iff] at hpk
  obtain ⟨v, hv, _⟩ := hpk
  exact List.mem_map.mpr ⟨_, lastOf_mem hv, rfl⟩

/-- C60 fails below the threshold: with any parameters (so for every threshold `t`), the aggregator with no signers at
all finalizes, and so does one with a single signer. -/
theorem C60_below_threshold_accepted (S : Suite F G R) (params : Params) (hn : params.n ≠ 0) (Y : G) (message : Bytes)
    (i : U32) (share : G × G) (pk : G) (z : F) :
    (∃ f, (session (F := F) params Y message []).finalize S = .ok f ∧ f.state.signers.length = 0) ∧
    ∃ f, (session params Y message [.signer i share ⟨i, pk⟩, .partialSig ⟨i, z⟩]).finalize S = .ok f ∧
      f.state.signers.length = 1 := by
  have hn' : params.n.toNat ≠ 0 := fun h => hn (UInt32.toNat_inj.mp (by simpa using h))
  constructor
  · obtain ⟨f, hf⟩ := (C59_finalize_within_bound S params Y message ([] : List (AggOp F G))
      (by simp [Spec.included, Spec.inclusions])).mpr (by simp [Spec.included, Spec.inclusions])
    refine ⟨f, hf, ?_⟩
    rw [(finalize_ok hf).1, (reached params Y message _).card]
    simp [Spec.included, Spec.inclusions]
  · have hinc : Spec.included [.signer i share ⟨i, pk⟩, (.partialSig ⟨i, z⟩ : AggOp F G)] = [i] := by
      simp [Spec.included, Spec.inclusions]
    obtain ⟨f, hf⟩ := (C59_finalize_within_bound S params Y message
      [.signer i share ⟨i, pk⟩, (.partialSig ⟨i, z⟩ : AggOp F G)] (by rw [hinc]; simp; omega)).mpr (by
        rw [hinc]; intro j hj; rw [List.mem_singleton] at hj; subst hj
        exact ⟨z, by simp [Spec.partials]⟩)
    refine ⟨f, hf, ?_⟩
    rw [(finalize_ok hf).1, (reached params Y message _).card, hinc]
    simp

/-! ### Rejected and repeated inclusions -/

/-- When `include_signer` is rejected: for a public key with another index, or when more than `n` different signers
would be listed. -/
theorem C61_rejected_iff (params : Params) (Y : G) (message : Bytes) (ops : List (AggOp F G)) (i : U32) (share : G × G)
    (pk : IndividualVerifyingKey G) :
    (∃ e, ((session params Y message ops).includeSigner i share pk).1 = .error e) ↔
      i ≠ pk.index ∨ params.n.toNat < (Spec.included ops ++ [i]).toFinset.card := by
  have h := reached params Y message ops
  have h' := reached params Y message (ops ++ [.signer i share pk])
  rw [includeSigner_eq]
  by_cases hi : i = pk.index
  · rw [if_neg (by simpa using hi)]
    have e2 : Spec.included (ops ++ [.signer i share pk]) = Spec.included ops ++ [i] := by
      unfold Spec.included; rw [inclusions_append, inclusions_signer, if_pos hi]; simp
    have hst : (session params Y message (ops ++ [.signer i share pk])).state.signers =
        addSigner (session params Y message ops).state.signers ⟨i, share⟩ := by
      show ((InitialAggregator.new params Y message).run (ops ++ [.signer i share pk])).state.signers = _
      rw [run_append]
      show (((session params Y message ops).includeSigner i share pk).2).state.signers = _
      rw [includeSigner_eq, if_neg (by simpa using hi)]
      split <;> rfl
    have hl := h'.card
    have hl' : (addSigner (session params Y message ops).state.signers ⟨i, share⟩).length =
        (Spec.included ops ++ [i]).toFinset.card := by
      rw [← hst, ← e2]; exact hl
    rw [hl', h.params_eq]
    by_cases hc : params.n.toNat < (Spec.included ops ++ [i]).toFinset.card
    · rw [if_pos hc]; exact ⟨fun _ => Or.inr hc, fun _ => ⟨_, rfl⟩⟩
    · rw [if_neg hc]
      refine ⟨fun ⟨e, he⟩ => ?_, fun h => absurd h ?_⟩
      · cases he
      · rw [not_or, not_not]; exact ⟨hi, hc⟩
  · rw [if_pos hi]; simp [hi]

/-- C61, what holds: a rejected inclusion leaves the aggregator unchanged if the indices do not match or the index is
already listed.

Missing for the full C61: the rejection of a new index because there are too many signers, see the next theorem. -/
theorem C61_rejected_unchanged_partial (params : Params) (Y : G) (message : Bytes) (ops : List (AggOp F G)) (i : U32)
    (share : G × G) (pk : IndividualVerifyingKey G) (e : Error F G)
    (he : ((session params Y message ops).includeSigner i share pk).1 = .error e)
    (hi : i ≠ pk.index ∨ i ∈ Spec.included ops) :
    ((session params Y message ops).includeSigner i share pk).2 = session params Y message ops := by
  have h := reached params Y message ops
  rw [includeSigner_eq] at he ⊢
  by_cases hi' : i = pk.index
  · have hin := (h.mem_indices i).mpr (hi.resolve_left (by simpa using hi'))
    rw [if_neg (by simpa using hi')] at he ⊢
    rw [addSigner_of_mem h.sorted ⟨i, share⟩ hin] at he ⊢
    split at he
    · next hc => rw [if_pos hc]
    · cases he
  · rw [if_pos hi']

/-- C61 fails: when a new index is rejected with `TooManySigners`, it stays listed without public key, and `finalize`
fails from then on, whatever calls follow. -/
theorem C61_rejected_poisons (S : Suite F G R) (params : Params) (Y : G) (message : Bytes) (ops ops' : List (AggOp F G))
    (i : U32) (share : G × G) (pk : G) (hi : i ∉ Spec.included ops)
    (hn : (Spec.included ops).toFinset.card = params.n.toNat) :
    ((session params Y message ops).includeSigner i share ⟨i, pk⟩).1 =
      .error (.tooManySigners (params.n.toNat + 1) params.n) ∧
    (⟨i, share⟩ : Signer G) ∈ ((session params Y message ops).includeSigner i share ⟨i, pk⟩).2.state.signers ∧
    ∃ l, ((((session params Y message ops).includeSigner i share ⟨i, pk⟩).2).run ops').finalize S =
      .error (.misbehavingParticipants l) := by
  have h := reached params Y message ops
  have hnot : (⟨i, share⟩ : Signer G).participantIndex ∉
      (session params Y message ops).state.signers.map (·.participantIndex) := fun hc => hi ((h.mem_indices i).mp hc)
  have hp := (addSigner_of_not_mem h.sorted ⟨i, share⟩ hnot).2
  have hl : (addSigner (session params Y message ops).state.signers ⟨i, share⟩).length = params.n.toNat + 1 := by
    rw [hp.length_eq, List.length_cons, h.card, hn]
  refine ⟨?_, ?_, ?_⟩
  · rw [includeSigner_eq, if_neg (by simp), if_pos (by rw [hl, h.params_eq]; omega), hl, h.params_eq]
  · rw [includeSigner_eq, if_neg (by simp), if_pos (by rw [hl, h.params_eq]; omega)]
    exact hp.mem_iff.mpr (by simp)
  · have hrun : ((session params Y message ops).includeSigner i share ⟨i, pk⟩).2.run ops' =
        session params Y message (ops ++ [.signer i share ⟨i, pk⟩] ++ ops') := by
      show _ = (InitialAggregator.new params Y message).run _
      rw [run_append, run_append]
      rfl
    rw [hrun]
    cases hf : (session params Y message (ops ++ [.signer i share ⟨i, pk⟩] ++ ops')).finalize S with
    | error e =>
      rw [C59_finalize S params Y message _ _ (reached params Y message _).sorted.pairwise
        (reached params Y message _).mem_indices _ _ rfl rfl] at hf
      split at hf
      · cases hf
      · simp only [Except.error.injEq] at hf
        exact ⟨_, by rw [hf]⟩
    | ok f =>
      exfalso
      have hub := C60_upper_bound_partial S params Y message _ f hf
      rw [(finalize_ok hf).1, (reached params Y message _).card] at hub
      have : params.n.toNat + 1 ≤
          (Spec.included (ops ++ [.signer i share ⟨i, pk⟩] ++ ops')).toFinset.card := by
        rw [← hn, ← Finset.card_insert_of_notMem (a := i) (s := (Spec.included ops).toFinset) (by simpa using hi)]
        refine Finset.card_le_card fun j hj => ?_
        rw [included_append, included_append]
        simp only [List.toFinset_append, mem_union, List.mem_toFinset, mem_insert] at hj ⊢
        rcases hj with rfl | hj
        · exact Or.inl (Or.inr (by simp [Spec.included, Spec.inclusions]))
        · exact Or.inl (Or.inl hj)
      omega

/-- C62, what holds: if every inclusion of `i` names the same public key (in particular if there is only one), the
stored commitment share and public key of `i` come from the same call.

Missing for the full C62: repeated inclusion with different data, see the next theorem. -/
theorem C62_consistent_partial (params : Params) (Y : G) (message : Bytes) (ops : List (AggOp F G)) (s : Signer G)
    (hs : s ∈ (session params Y message ops).state.signers) (pk : G)
    (hpk : (session params Y message ops).state.publicKeys.get? s.participantIndex = some pk)
    (hu : ∀ v v', (s.participantIndex, v) ∈ Spec.inclusions ops → (s.participantIndex, v') ∈ Spec.inclusions ops →
      v.2 = v'.2) :
    (.signer s.participantIndex s.share ⟨s.participantIndex, pk⟩ : AggOp F G) ∈ ops := by
  have h := reached params Y message ops
  have h1 := (h.signers s).mp hs
  rw [Option.map_eq_some_iff] at h1
  obtain ⟨v, hv, hv'⟩ := h1
  rw [h.pk_eq, Option.map_eq_some_iff] at hpk
  obtain ⟨w, hw, hw'⟩ := hpk
  have hvm := firstOf_mem hv
  have hwm := (accepted_sublist _ _).subset (lastOf_mem hw)
  have he := hu v w hvm hwm
  have : (s.participantIndex, s.share, pk) ∈ Spec.inclusions ops := by
    have : v = (s.share, pk) := by rw [← hv', ← hw', ← he]
    rw [← this]; exact hvm
  unfold Spec.inclusions at this
  rw [List.mem_filterMap] at this
  obtain ⟨op, hop, hop'⟩ := this
  cases op with
  | partialSig p => cases hop'
  | signer i sh k =>
    simp only at hop'
    split at hop'
    · next hik =>
      simp only [Option.some.injEq, Prod.mk.injEq] at hop'
      obtain ⟨rfl, rfl, rfl⟩ := hop'
      obtain ⟨ki, ks⟩ := k
      simp only at hik
      subst hik
      exact hop
    · cases hop'

/-- C62 fails: after two inclusions of `i` the commitment share of the first and the public key of the second are
kept, whatever else was included, so if both differ no call supplied the stored pair. -/
theorem C62_mixed (params : Params) (hn : params.n ≠ 0) (Y : G) (message : Bytes) (i : U32) (s s' : G × G) (pk pk' : G) :
    (session (F := F) params Y message [.signer i s ⟨i, pk⟩, .signer i s' ⟨i, pk'⟩]).state.signers = [⟨i, s⟩] ∧
    (session (F := F) params Y message [.signer i s ⟨i, pk⟩, .signer i s' ⟨i, pk'⟩]).state.publicKeys = [(i, pk')] := by
  have hn' : params.n.toNat ≠ 0 := fun h => hn (UInt32.toNat_inj.mp (by simpa using h))
  have h := reached (F := F) params Y message [.signer i s ⟨i, pk⟩, .signer i s' ⟨i, pk'⟩]
  have hinc : Spec.inclusions [.signer i s ⟨i, pk⟩, (.signer i s' ⟨i, pk'⟩ : AggOp F G)] = [(i, s, pk), (i, s', pk')] := by
    simp [Spec.inclusions]
  constructor
  · refine signers_ext h.sorted (List.pairwise_singleton _ _) fun x => ?_
    rw [h.signers, hinc]
    obtain ⟨j, sh⟩ := x
    by_cases hj : i = j
    · subst hj; simp [Spec.firstOf, eq_comm]
    · have hj' : ¬ j = i := fun h => hj h.symm
      simp [Spec.firstOf, hj, hj']
  · refine BMap.ext h.pk_wf (by simp [BMap.WF, BMap.keys]) fun j => ?_
    rw [h.pk_eq, hinc, accepted_of_le _ _ (by simp; omega)]
    by_cases hj : i = j
    · subst hj; simp [Spec.lastOf, Spec.firstOf, BMap.get?]
    · have hj' : ¬ j = i := fun h => hj h.symm
      simp [Spec.lastOf, Spec.firstOf, BMap.get?, hj, hj']

/-! ### `aggregate` -/

/-- C63: whatever the finalized aggregator contains, a signature returned by `aggregate` is valid for its group key and
message hash, and both verification functions accept it. -/
theorem C63_aggregate_valid (S : Suite F G R) (f : FinalizedAggregator F G) (sig : ThresholdSignature F G)
    (h : f.aggregate S = .ok sig) :
    Spec.SigValid S f.state.groupKey f.messageHash sig ∧
    sig.verify S f.state.groupKey f.messageHash = .ok () ∧
    verifySignature S f.state.groupKey sig f.messageHash = .ok () := by
  have key : sig.verify S f.state.groupKey f.messageHash = .ok () := by
    unfold FinalizedAggregator.aggregate at h
    split at h
    · cases h
    · split at h
      · cases h
      · simp only at h
        split at h
        · cases h
        · split at h
          · next hv =>
            simp only [Except.ok.injEq] at h
            rw [← h]; exact hv
          · split at h <;> cases h
  exact ⟨(verify_iff S sig _ _).mp key, key, key⟩

/-- C63 for a session: the signature is valid for the group key and message given to `new`. -/
theorem C63_session_valid (S : Suite F G R) (params : Params) (Y : G) (message : Bytes) (ops : List (AggOp F G))
    (f : FinalizedAggregator F G) (hf : (session params Y message ops).finalize S = .ok f)
    (sig : ThresholdSignature F G) (h : f.aggregate S = .ok sig) :
    Spec.SigValid S Y (Spec.messageHash S message) sig := by
  have := (C63_aggregate_valid S f sig h).1
  obtain ⟨h1, h2, _⟩ := finalize_ok hf
  rwa [h2, h1, (reached params Y message ops).key_eq] at this

section Cases
attribute [local instance] Classical.propDecidable

/-- Exact behaviour of `aggregate` on a finalized session. -/
theorem aggregate_cases (hu : Suite.U32Inj F) (S : Suite F G R) (f : FinalizedAggregator F G)
    (hsort : SignersSorted f.state.signers) (z : U32 → F) (pk : U32 → G)
    (hz : ∀ s ∈ f.state.signers, f.state.partialSignatures.get? s.participantIndex = some (z s.participantIndex))
    (hpk : ∀ s ∈ f.state.signers, f.state.publicKeys.get? s.participantIndex = some (pk s.participantIndex)) :
    f.aggregate S =
      if f.state.signers = [] then .error (.panic .outOfBounds)
      else if Spec.SigValid S f.state.groupKey f.messageHash
          ⟨Spec.groupCommitment S f.messageHash f.state.signers,
            (f.state.signers.map fun s => z s.participantIndex).sum⟩ then
        .ok ⟨Spec.groupCommitment S f.messageHash f.state.signers,
            (f.state.signers.map fun s => z s.participantIndex).sum⟩
      else if 0 ∈ f.state.signers.map (·.participantIndex) then .error (.err .indexIsZero)
      else .error (.err (.misbehavingParticipants ((f.state.signers.filter fun s =>
        ¬ Spec.PartialValid S f.state.groupKey f.messageHash f.state.signers s (pk s.participantIndex)
          (z s.participantIndex)).map (·.participantIndex)))) := by
  by_cases hs : f.state.signers = []
  · rw [if_pos hs]
    unfold FinalizedAggregator.aggregate
    rw [hs, computeBindingFactors_nil]
  · rw [if_neg hs]
    obtain ⟨m, h1, h2, h3⟩ := session_ok S f.messageHash hs
    unfold FinalizedAggregator.aggregate
    rw [h1]
    simp only [h3]
    rw [sumPartials_ok f.state.partialSignatures f.state.signers z hz, zero_add]
    simp only
    by_cases hv : Spec.SigValid S f.state.groupKey f.messageHash
          ⟨Spec.groupCommitment S f.messageHash f.state.signers,
            (f.state.signers.map fun s => z s.participantIndex).sum⟩
    · rw [if_pos hv, (verify_iff S _ _ _).mpr hv]
    · rw [if_neg hv]
      have hne := fun h => hv ((verify_iff S _ _ _).mp h)
      split
      · next hok => exact absurd hok hne
      · have hch : computeChallenge S (Spec.groupCommitment S f.messageHash f.state.signers) f.state.groupKey
          f.messageHash = Spec.sessionChallenge S f.state.groupKey f.messageHash f.state.signers := rfl
        rw [hch]
        by_cases h0 : 0 ∈ f.state.signers.map (·.participantIndex)
        · rw [if_pos h0]
          have : ∀ l : List (Signer G), l ≠ [] → culpritsLoop S f.state f.messageHash
              (Spec.sessionChallenge S f.state.groupKey f.messageHash f.state.signers) l =
                .error (.err .indexIsZero) := by
            intro l hl
            obtain ⟨s, l', rfl⟩ := List.exists_cons_of_ne_nil hl
            rw [culpritsLoop, lagrangeCoeff_cases, if_neg (by simpa using hsort.nodup), if_pos h0]
          rw [this _ hs]
        · rw [if_neg h0, culpritsLoop_ok hu S f.state f.messageHash hsort.nodup h0 z pk _ (fun s hs => hs) hz hpk]

end Cases

/-- The contents of a finalized session. -/
theorem finalized_session {S : Suite F G R} {params : Params} {Y : G} {message : Bytes} {ops : List (AggOp F G)}
    {f : FinalizedAggregator F G} (hf : (session params Y message ops).finalize S = .ok f) :
    f.messageHash = Spec.messageHash S message ∧ f.state.groupKey = Y ∧
    f.state.signers = (session params Y message ops).state.signers ∧ SignersSorted f.state.signers ∧
    (∀ i, i ∈ f.state.signers.map (·.participantIndex) ↔ i ∈ Spec.included ops) ∧
    ∃ (z : U32 → F) (pk : U32 → G), ∀ i ∈ Spec.included ops, f.state.partialSignatures.get? i = some (z i) ∧
      f.state.publicKeys.get? i = some (pk i) := by
  have h := reached params Y message ops
  obtain ⟨h1, h2, h3, h4⟩ := finalize_ok hf
  refine ⟨h2, by rw [h1]; exact h.key_eq, by rw [h1], by rw [h1]; exact h.sorted, by rw [h1]; exact h.mem_indices, ?_⟩
  refine ⟨fun i => (f.state.partialSignatures.get? i).getD 0, fun i => (f.state.publicKeys.get? i).getD 0, ?_⟩
  intro i hi
  obtain ⟨z, hz⟩ := h3 i hi
  obtain ⟨pk, hpk⟩ := h4 i hi
  simp only [hz, hpk, Option.getD_some, and_self]

section Blame
variable (S : Suite F G R) (params : Params) (Y : G) (message : Bytes) (ops : List (AggOp F G))

/-- C65: if `aggregate` reports misbehaving participants, the report is exactly the increasing list of the signers
whose partial signature violates the share equation for the stored public key. -/
theorem C65_exact (hu : Suite.U32Inj F) (f : FinalizedAggregator F G)
    (hf : (session params Y message ops).finalize S = .ok f) (l : List U32)
    (hl : f.aggregate S = .error (.err (.misbehavingParticipants l))) :
    l.Pairwise (· < ·) ∧
    ∀ i, i ∈ l ↔ ∃ s ∈ f.state.signers, s.participantIndex = i ∧ ∃ z pk,
      f.state.partialSignatures.get? i = some z ∧ f.state.publicKeys.get? i = some pk ∧
      ¬ Spec.PartialValid S Y (Spec.messageHash S message) f.state.signers s pk z := by
  classical
  obtain ⟨h1, h2, h3, h4, h5, z, pk, h6⟩ := finalized_session hf
  have hz : ∀ s ∈ f.state.signers, f.state.partialSignatures.get? s.participantIndex = some (z s.participantIndex) :=
    fun s hs => (h6 _ ((h5 _).mp (List.mem_map.mpr ⟨s, hs, rfl⟩))).1
  have hpk : ∀ s ∈ f.state.signers, f.state.publicKeys.get? s.participantIndex = some (pk s.participantIndex) :=
    fun s hs => (h6 _ ((h5 _).mp (List.mem_map.mpr ⟨s, hs, rfl⟩))).2
  rw [aggregate_cases hu S f h4 z pk hz hpk] at hl
  split at hl
  · cases hl
  split at hl
  · cases hl
  split at hl
  · cases hl
  simp only [Except.error.injEq, Fail.err.injEq, Error.misbehavingParticipants.injEq] at hl
  subst hl
  refine ⟨?_, fun i => ?_⟩
  · exact List.pairwise_map.mpr (List.Pairwise.sublist List.filter_sublist h4)
  · rw [List.mem_map]
    constructor
    · rintro ⟨s, hs, rfl⟩
      rw [List.mem_filter] at hs
      refine ⟨s, hs.1, rfl, _, _, hz s hs.1, hpk s hs.1, ?_⟩
      have := of_decide_eq_true hs.2
      rwa [h1, h2] at this
    · rintro ⟨s, hs, rfl, z', pk', hz', hpk', hbad⟩
      refine ⟨s, ?_, rfl⟩
      rw [List.mem_filter]
      refine ⟨hs, decide_eq_true ?_⟩
      rw [hz s hs, Option.some.injEq] at hz'
      rw [hpk s hs, Option.some.injEq] at hpk'
      rw [h1, h2, hz', hpk']
      exact hbad

/-- C65: a signer listed with the commitments of a nonce pair, whose stored public key is that of its signing key and
whose stored partial signature is the one `sign` returned for that nonce pair and the session's signers, is never
reported, whatever all others did. -/
theorem C65_honest_not_blamed (hu : Suite.U32Inj F) (f : FinalizedAggregator F G)
    (hf : (session params Y message ops).finalize S = .ok f) (l : List U32)
    (hl : f.aggregate S = .error (.err (.misbehavingParticipants l)))
    (dbg : Bool) (sk : IndividualSigningKey F) (L : List (CommitmentShare F G)) (k : UInt64)
    (share : CommitmentShare F G) (hshare : L[k.toNat]? = some share)
    (hh : share.hidingC.commit = share.hidingC.secret • S.gen)
    (hb : share.bindingC.commit = share.bindingC.secret • S.gen)
    (hlisted : ⟨sk.index, share.publish⟩ ∈ f.state.signers)
    (hkey : f.state.publicKeys.get? sk.index = some (sk.toPublic S).share)
    (p : PartialSignature F)
    (hsign : (sign S dbg sk (Spec.messageHash S message) Y L k f.state.signers).1 = .ok p)
    (hp : f.state.partialSignatures.get? sk.index = some p.z) : sk.index ∉ l := by
  intro hmem
  obtain ⟨h1, h2, h3, h4, h5, z, pk, h6⟩ := finalized_session hf
  obtain ⟨s, hs, hi, z', pk', hz', hpk', hbad⟩ := ((C65_exact S params Y message ops hu f hf l hl).2 sk.index).mp hmem
  have hse : s = ⟨sk.index, share.publish⟩ :=
    List.inj_on_of_nodup_map h4.nodup hs hlisted (by rw [hi])
  rw [hp, Option.some.injEq] at hz'
  rw [hkey, Option.some.injEq] at hpk'
  rw [hse, ← hz', ← hpk'] at hbad
  exact hbad (C56_share_equation S dbg sk _ Y L k f.state.signers p hsign share hshare hh hb hlisted).2

/-- If all partial signatures satisfy the share equation and the public keys interpolate to the group key, the sum is
a valid signature. -/
theorem sum_valid (msg : Bytes) (signers : List (Signer G)) (hn : (signers.map (·.participantIndex)).Nodup)
    (z : U32 → F) (pk : U32 → G)
    (hv : ∀ s ∈ signers, Spec.PartialValid S Y msg signers s (pk s.participantIndex) (z s.participantIndex)) :
    (signers.map fun s => z s.participantIndex).sum • S.gen =
      Spec.groupCommitment S msg signers + Spec.sessionChallenge S Y msg signers •
        Spec.interpolateG F (signers.map (·.participantIndex)) pk := by
  have hi : Spec.interpolateG F (signers.map (·.participantIndex)) pk =
      (signers.map fun s => Spec.lagrange (F := F) (signers.map (·.participantIndex)) s.participantIndex •
        pk s.participantIndex).sum := by
    unfold Spec.interpolateG
    rw [List.sum_toFinset _ hn, List.map_map]
    rfl
  rw [hi]
  unfold Spec.groupCommitment
  have : ∀ l : List (Signer G), (∀ s ∈ l, s ∈ signers) →
      (l.map fun s => z s.participantIndex).sum • S.gen =
        (l.map (Spec.signerCommitment S msg signers)).sum + Spec.sessionChallenge S Y msg signers •
          (l.map fun s => Spec.lagrange (F := F) (signers.map (·.participantIndex)) s.participantIndex •
            pk s.participantIndex).sum := by
    intro l
    induction l with
    | nil => simp
    | cons s l ih =>
      intro hl
      simp only [List.map_cons, List.sum_cons]
      rw [add_smul, ih (fun s' hs' => hl s' (by simp [hs'])), hv s (hl s (by simp)), smul_add, smul_smul]
      abel
  exact this signers (fun s hs => hs)

/-- C66: if the stored public keys of the signers interpolate to the group key and `aggregate` reports misbehaving
participants, the report names at least one. -/
theorem C66_culprit_found (hu : Suite.U32Inj F) (f : FinalizedAggregator F G)
    (hf : (session params Y message ops).finalize S = .ok f) (pk : U32 → G)
    (hpk : ∀ s ∈ f.state.signers, f.state.publicKeys.get? s.participantIndex = some (pk s.participantIndex))
    (hint : Spec.interpolateG F (f.state.signers.map (·.participantIndex)) pk = Y) (l : List U32)
    (hl : f.aggregate S = .error (.err (.misbehavingParticipants l))) : l ≠ [] := by
  classical
  rintro rfl
  obtain ⟨h1, h2, h3, h4, h5, z, _, h6⟩ := finalized_session hf
  have hz : ∀ s ∈ f.state.signers, f.state.partialSignatures.get? s.participantIndex = some (z s.participantIndex) :=
    fun s hs => (h6 _ ((h5 _).mp (List.mem_map.mpr ⟨s, hs, rfl⟩))).1
  rw [aggregate_cases hu S f h4 z pk hz hpk] at hl
  split at hl
  · cases hl
  split at hl
  · cases hl
  next hbad =>
  split at hl
  · cases hl
  simp only [Except.error.injEq, Fail.err.injEq, Error.misbehavingParticipants.injEq, List.map_eq_nil_iff,
    List.filter_eq_nil_iff] at hl
  refine hbad ?_
  have := sum_valid S f.state.groupKey f.messageHash f.state.signers h4.nodup z pk
    (fun s hs => not_not.mp (fun hc => hl s hs (decide_eq_true hc)))
  unfold Spec.SigValid Spec.Schnorr
  simp only
  rw [this, hint, h2]
  rfl

/-- C66, for nonzero indices: if at least one signer is included and the stored public keys interpolate to the group
key, the only way for `aggregate` to fail is a nonempty report, and each reported signer violates the share equation.

Missing for the full C66: index 0 among the signers, see `C66_zero_index_no_report`. -/
theorem C66_fails_with_culprit_partial (hu : Suite.U32Inj F) (f : FinalizedAggregator F G)
    (hf : (session params Y message ops).finalize S = .ok f) (hne : Spec.included ops ≠ [])
    (h0 : 0 ∉ Spec.included ops) (pk : U32 → G)
    (hpk : ∀ s ∈ f.state.signers, f.state.publicKeys.get? s.participantIndex = some (pk s.participantIndex))
    (hint : Spec.interpolateG F (f.state.signers.map (·.participantIndex)) pk = Y) (e : Fail F G)
    (he : f.aggregate S = .error e) :
    ∃ l, e = .err (.misbehavingParticipants l) ∧ l ≠ [] ∧ ∀ i ∈ l, ∃ s ∈ f.state.signers, s.participantIndex = i ∧
      ∃ z, f.state.partialSignatures.get? i = some z ∧
        ¬ Spec.PartialValid S Y (Spec.messageHash S message) f.state.signers s (pk i) z := by
  classical
  have hex : ∃ l, e = .err (.misbehavingParticipants l) := by
    obtain ⟨h1, h2, h3, h4, h5, z, _, h6⟩ := finalized_session hf
    have hz : ∀ s ∈ f.state.signers, f.state.partialSignatures.get? s.participantIndex = some (z s.participantIndex) :=
      fun s hs => (h6 _ ((h5 _).mp (List.mem_map.mpr ⟨s, hs, rfl⟩))).1
    have hs : f.state.signers ≠ [] := by
      intro hs
      obtain ⟨i, hi⟩ := List.exists_mem_of_ne_nil _ hne
      have := (h5 i).mpr hi
      rw [hs] at this; simp at this
    rw [aggregate_cases hu S f h4 z pk hz hpk, if_neg hs] at he
    split at he
    · cases he
    · simp only [if_neg (fun h => h0 ((h5 0).mp h)), Except.error.injEq] at he
      exact ⟨_, he.symm⟩
  obtain ⟨l, rfl⟩ := hex
  refine ⟨l, rfl, C66_culprit_found S params Y message ops hu f hf pk hpk hint l he, fun i hi => ?_⟩
  obtain ⟨s, hs, rfl, z, pk', h1, h2, h3⟩ := ((C65_exact S params Y message ops hu f hf l he).2 i).mp hi
  rw [hpk s hs, Option.some.injEq] at h2
  exact ⟨s, hs, rfl, z, h1, by rw [h2]; exact h3⟩

/-- The condition of C66 is needed: if every partial signature is correct but the stored public keys do not interpolate
to the group key (for example because fewer than `t` signers were included), `aggregate` fails with an empty
report. -/
theorem C66_empty_report (hg : S.GroupLaws) (hu : Suite.U32Inj F) (f : FinalizedAggregator F G)
    (hf : (session params Y message ops).finalize S = .ok f) (hne : Spec.included ops ≠ [])
    (h0 : 0 ∉ Spec.included ops) (z : U32 → F) (pk : U32 → G)
    (hz : ∀ s ∈ f.state.signers, f.state.partialSignatures.get? s.participantIndex = some (z s.participantIndex))
    (hpk : ∀ s ∈ f.state.signers, f.state.publicKeys.get? s.participantIndex = some (pk s.participantIndex))
    (hv : ∀ s ∈ f.state.signers, Spec.PartialValid S Y (Spec.messageHash S message) f.state.signers s
      (pk s.participantIndex) (z s.participantIndex))
    (hint : Spec.interpolateG F (f.state.signers.map (·.participantIndex)) pk ≠ Y)
    (hc : Spec.sessionChallenge S Y (Spec.messageHash S message) f.state.signers ≠ 0) :
    f.aggregate S = .error (.err (.misbehavingParticipants [])) := by
  classical
  obtain ⟨h1, h2, h3, h4, h5, _⟩ := finalized_session hf
  have hs : f.state.signers ≠ [] := by
    intro hs
    obtain ⟨i, hi⟩ := List.exists_mem_of_ne_nil _ hne
    have := (h5 i).mpr hi
    rw [hs] at this; simp at this
  rw [aggregate_cases hu S f h4 z pk hz hpk, if_neg hs, if_neg, if_neg (fun h => h0 ((h5 0).mp h))]
  · have : (f.state.signers.filter fun s => decide (¬ Spec.PartialValid S f.state.groupKey f.messageHash
        f.state.signers s (pk s.participantIndex) (z s.participantIndex))) = [] := by
      rw [List.filter_eq_nil_iff]
      intro s hs
      rw [h1, h2]
      simpa using hv s hs
    rw [this]
    rfl
  · intro hsig
    rw [h1, h2] at hsig
    have hsum := sum_valid S Y (Spec.messageHash S message) f.state.signers h4.nodup z pk hv
    unfold Spec.SigValid Spec.Schnorr at hsig
    simp only at hsig
    rw [hsum] at hsig
    have := add_left_cancel hsig
    change Spec.sessionChallenge S Y (Spec.messageHash S message) f.state.signers • _ =
      Spec.sessionChallenge S Y (Spec.messageHash S message) f.state.signers • _ at this
    obtain ⟨a, ha⟩ := hg.gen_surj (Spec.interpolateG F (f.state.signers.map (·.participantIndex)) pk)
    obtain ⟨b, hb⟩ := hg.gen_surj Y
    apply hint
    rw [ha, ← sub_eq_zero, ← smul_sub, hb, ← sub_smul, smul_smul] at this
    have hz0 := hg.gen_inj _ 0 (this.trans (zero_smul F S.gen).symm)
    rw [ha, hb, sub_eq_zero.mp ((mul_eq_zero.mp hz0).resolve_left (by rw [← hb]; exact hc))]

/-- C67, `aggregate`: on every finalized session with at least one signer it returns a `Result`.

Missing for the full C67: the session without signers, see the next theorem, and `sign` (`Verif.Props.Signing`). -/
theorem C67_aggregate_no_panic_partial (hu : Suite.U32Inj F) (f : FinalizedAggregator F G)
    (hf : (session params Y message ops).finalize S = .ok f) (hne : Spec.included ops ≠ []) (site : PanicSite) :
    f.aggregate S ≠ .error (.panic site) := by
  classical
  obtain ⟨h1, h2, h3, h4, h5, z, pk, h6⟩ := finalized_session hf
  have hs : f.state.signers ≠ [] := by
    intro hs
    obtain ⟨i, hi⟩ := List.exists_mem_of_ne_nil _ hne
    have := (h5 i).mpr hi
    rw [hs] at this; simp at this
  have hz : ∀ s ∈ f.state.signers, f.state.partialSignatures.get? s.participantIndex = some (z s.participantIndex) :=
    fun s hs => (h6 _ ((h5 _).mp (List.mem_map.mpr ⟨s, hs, rfl⟩))).1
  have hpk : ∀ s ∈ f.state.signers, f.state.publicKeys.get? s.participantIndex = some (pk s.participantIndex) :=
    fun s hs => (h6 _ ((h5 _).mp (List.mem_map.mpr ⟨s, hs, rfl⟩))).2
  rw [aggregate_cases hu S f h4 z pk hz hpk, if_neg hs]
  split
  · simp
  · split <;> simp

/-- C67 fails for `aggregate`: whatever partial signatures were added, with no signer included `finalize` succeeds and
`aggregate` panics. -/
theorem C67_aggregate_empty_panics (hne : Spec.included ops = []) :
    ∃ f, (session params Y message ops).finalize S = .ok f ∧ f.aggregate S = .error (.panic .outOfBounds) := by
  obtain ⟨f, hf⟩ := (C59_finalize_within_bound S params Y message ops (by rw [hne]; simp)).mpr (by rw [hne]; simp)
  refine ⟨f, hf, ?_⟩
  obtain ⟨_, _, _, _, h5, _⟩ := finalized_session hf
  have hs : f.state.signers = [] := by
    rw [List.eq_nil_iff_forall_not_mem]
    intro s hs
    have := (h5 _).mp (List.mem_map.mpr ⟨s, hs, rfl⟩)
    rw [hne] at this; simp at this
  unfold FinalizedAggregator.aggregate
  rw [hs, computeBindingFactors_nil]

/-- With index 0 among the signers, a failed aggregation does not report culprits but `IndexIsZero`. -/
theorem C65_zero_index_hides (hu : Suite.U32Inj F) (f : FinalizedAggregator F G)
    (hf : (session params Y message ops).finalize S = .ok f) (h0 : 0 ∈ Spec.included ops)
    (e : Fail F G) (he : f.aggregate S = .error e) : e = .err .indexIsZero := by
  classical
  obtain ⟨h1, h2, h3, h4, h5, z, pk, h6⟩ := finalized_session hf
  have hz : ∀ s ∈ f.state.signers, f.state.partialSignatures.get? s.participantIndex = some (z s.participantIndex) :=
    fun s hs => (h6 _ ((h5 _).mp (List.mem_map.mpr ⟨s, hs, rfl⟩))).1
  have hpk : ∀ s ∈ f.state.signers, f.state.publicKeys.get? s.participantIndex = some (pk s.participantIndex) :=
    fun s hs => (h6 _ ((h5 _).mp (List.mem_map.mpr ⟨s, hs, rfl⟩))).2
  have h0' := (h5 0).mpr h0
  have hs : f.state.signers ≠ [] := by
    intro hs
    rw [hs] at h0'; simp at h0'
  rw [aggregate_cases hu S f h4 z pk hz hpk, if_neg hs] at he
  split at he
  · cases he
  · simp only [if_pos h0', Except.error.injEq] at he
    exact he.symm

/-- C66 fails with index 0: a lone signer 0 that holds the group key and sends a wrong partial signature is not
reported. -/
theorem C66_zero_index_no_report (hu : Suite.U32Inj F) (hn : params.n ≠ 0) (share : G × G) (z : F)
    (hbad : ¬ Spec.PartialValid S Y (Spec.messageHash S message) [⟨0, share⟩] ⟨0, share⟩ Y z) :
    ∃ f, (session params Y message [.signer 0 share ⟨0, Y⟩, .partialSig ⟨0, z⟩]).finalize S = .ok f ∧
      Spec.interpolateG F (f.state.signers.map (·.participantIndex)) (fun _ => Y) = Y ∧
      f.aggregate S = .error (.err .indexIsZero) := by
  classical
  obtain ⟨f, hf, hlen⟩ := (C60_below_threshold_accepted S params hn Y message 0 share Y z).2
  have hr := reached params Y message [.signer 0 share ⟨0, Y⟩, (.partialSig ⟨0, z⟩ : AggOp F G)]
  have hinc : Spec.inclusions [.signer 0 share ⟨0, Y⟩, (.partialSig ⟨0, z⟩ : AggOp F G)] = [(0, share, Y)] := by
    simp [Spec.inclusions]
  obtain ⟨h1, h2, h3, h4, h5, zz, pk, h6⟩ := finalized_session hf
  have hst := (finalize_ok hf).1
  have hs : f.state.signers = [⟨0, share⟩] := by
    refine signers_ext h4 (List.pairwise_singleton _ _) fun x => ?_
    rw [hst]
    refine (hr.signers x).trans ?_
    rw [hinc]
    obtain ⟨j, sh⟩ := x
    by_cases hj : 0 = j
    · subst hj; simp [Spec.firstOf, eq_comm]
    · have hj' : ¬ j = 0 := fun h => hj h.symm
      simp [Spec.firstOf, hj, hj']
  have hi0 : (0 : U32) ∈ Spec.included [.signer 0 share ⟨0, Y⟩, (.partialSig ⟨0, z⟩ : AggOp F G)] := by
    simp [Spec.included, hinc]
  have hz0 : zz 0 = z := by
    have h := (h6 0 hi0).1
    rw [hst] at h
    have h' := (hr.ps_eq 0).symm.trans h
    simpa [Spec.partials, Spec.lastOf, Spec.firstOf, eq_comm] using h'
  refine ⟨f, hf, ?_, ?_⟩
  · rw [hs]; simp [Spec.interpolateG, Spec.lagrange]
  · have hz : ∀ s ∈ f.state.signers, f.state.partialSignatures.get? s.participantIndex = some (zz s.participantIndex) :=
      fun s hs => (h6 _ ((h5 _).mp (List.mem_map.mpr ⟨s, hs, rfl⟩))).1
    have hpk : ∀ s ∈ f.state.signers, f.state.publicKeys.get? s.participantIndex = some (pk s.participantIndex) :=
      fun s hs => (h6 _ ((h5 _).mp (List.mem_map.mpr ⟨s, hs, rfl⟩))).2
    rw [aggregate_cases hu S f h4 zz pk hz hpk, if_neg (by rw [hs]; simp), if_neg, if_pos (by rw [hs]; simp)]
    rw [h1, h2, hs]
    intro hv
    apply hbad
    unfold Spec.SigValid Spec.Schnorr at hv
    simp only [List.map_cons, List.map_nil, List.sum_cons, List.sum_nil, add_zero, hz0] at hv
    unfold Spec.PartialValid
    rw [hv]
    simp [Spec.groupCommitment, Spec.lagrange, Spec.sessionChallenge]

end Blame

/-! ### Partial signatures without effect -/

/-- Two finalized aggregators that differ only in partial signatures of non-signers aggregate to the same result. -/
theorem aggregate_congr (S : Suite F G R) (f f' : FinalizedAggregator F G) (h1 : f.messageHash = f'.messageHash)
    (h2 : f.state.signers = f'.state.signers) (h3 : f.state.groupKey = f'.state.groupKey)
    (h4 : f.state.publicKeys = f'.state.publicKeys)
    (h5 : ∀ s ∈ f.state.signers, f.state.partialSignatures.get? s.participantIndex =
      f'.state.partialSignatures.get? s.participantIndex) : f.aggregate S = f'.aggregate S := by
  have hsum : ∀ (l : List (Signer G)) (acc : F), (∀ s ∈ l, s ∈ f.state.signers) →
      sumPartials (G := G) f.state.partialSignatures l acc = sumPartials f'.state.partialSignatures l acc := by
    intro l
    induction l with
    | nil => intros; rfl
    | cons s l ih =>
      intro acc hl
      rw [sumPartials, sumPartials, h5 s (hl s (by simp))]
      cases BMap.get? s.participantIndex f'.state.partialSignatures with
      | none => rfl
      | some p => exact ih _ (fun s' hs' => hl s' (by simp [hs']))
  have hcul : ∀ (c : F) (l : List (Signer G)), (∀ s ∈ l, s ∈ f.state.signers) →
      culpritsLoop S f.state f.messageHash c l = culpritsLoop S f'.state f'.messageHash c l := by
    intro c l
    induction l with
    | nil => intros; rfl
    | cons s l ih =>
      intro hl
      rw [culpritsLoop, culpritsLoop, h5 s (hl s (by simp)), ← h4, ← h2, ← ih (fun s' hs' => hl s' (by simp [hs'])),
        ← h1]
  unfold FinalizedAggregator.aggregate
  rw [← h1, ← h2, ← h3]
  cases computeBindingFactors S f.messageHash f.state.signers with
  | error e => rfl
  | ok factors =>
    simp only
    cases computeGroupCommitment factors f.state.signers 0 with
    | error e => rfl
    | ok gc =>
      simp only
      rw [hsum _ _ (fun s hs => hs)]
      cases sumPartials (G := G) f'.state.partialSignatures f.state.signers 0 with
      | error e => rfl
      | ok z =>
        simp only
        rw [hcul _ _ (fun s hs => hs), ← h1]

/-- C68, outsiders: a partial signature whose index is not an included signer of the whole history changes neither
whether `finalize` succeeds, nor its report, nor the result of `aggregate`, wherever in the history it occurs. -/
theorem C68_outsider (S : Suite F G R) (params : Params) (Y : G) (message : Bytes) (ops ops' : List (AggOp F G))
    (p : PartialSignature F) (hp : p.index ∉ Spec.included (ops ++ ops')) :
    (∀ f, (session params Y message (ops ++ ops')).finalize S = .ok f →
      ∃ f', (session params Y message (ops ++ .partialSig p :: ops')).finalize S = .ok f' ∧
        f'.aggregate S = f.aggregate S ∧ f'.state.signers = f.state.signers) ∧
    (∀ e, (session params Y message (ops ++ ops')).finalize S = .error e →
      (session params Y message (ops ++ .partialSig p :: ops')).finalize S = .error e) := by
  have h := reached params Y message (ops ++ ops')
  have h' := reached params Y message (ops ++ .partialSig p :: ops')
  have einc : Spec.inclusions (ops ++ .partialSig p :: ops') = Spec.inclusions (ops ++ ops') := by
    rw [inclusions_append, inclusions_append]
    rfl
  have einc' : Spec.included (ops ++ .partialSig p :: ops') = Spec.included (ops ++ ops') := by
    unfold Spec.included; rw [einc]
  have hps : ∀ i, i ≠ p.index → Spec.lastOf (Spec.partials (ops ++ .partialSig p :: ops')) i =
      Spec.lastOf (Spec.partials (ops ++ ops')) i := by
    intro i hi
    have e : Spec.partials (ops ++ .partialSig p :: ops') =
        Spec.partials ops ++ ((p.index, p.z) :: Spec.partials ops') := by
      rw [partials_append]; rfl
    rw [e, partials_append]
    unfold Spec.lastOf
    rw [List.reverse_append, List.reverse_append, List.reverse_cons, firstOf_append, firstOf_append, firstOf_append,
      firstOf_singleton, if_neg hi]
    simp
  have hsig : (session params Y message (ops ++ .partialSig p :: ops')).state.signers =
      (session params Y message (ops ++ ops')).state.signers := by
    refine signers_ext h'.sorted h.sorted fun s => ?_
    rw [h.signers, h'.signers, einc]
  have hpk : (session params Y message (ops ++ .partialSig p :: ops')).state.publicKeys =
      (session params Y message (ops ++ ops')).state.publicKeys := by
    refine BMap.ext h'.pk_wf h.pk_wf fun i => ?_
    rw [h.pk_eq, h'.pk_eq, einc]
  have hfin := C59_finalize S params Y message (ops ++ ops') _ h.sorted.pairwise h.mem_indices _ _ rfl rfl
  have hfin' := C59_finalize S params Y message (ops ++ .partialSig p :: ops') _ h.sorted.pairwise
    (fun i => by rw [h.mem_indices, einc']) _ _ rfl rfl
  have hns : ((session params Y message (ops ++ ops')).state.signers.map (·.participantIndex)).filter (fun i =>
      (Spec.lastOf (Spec.partials (ops ++ .partialSig p :: ops')) i).isNone) =
      ((session params Y message (ops ++ ops')).state.signers.map (·.participantIndex)).filter (fun i =>
      (Spec.lastOf (Spec.partials (ops ++ ops')) i).isNone) := by
    refine List.filter_congr fun i hi => ?_
    rw [hps i]
    rintro rfl
    exact hp ((h.mem_indices _).mp hi)
  rw [hns, einc] at hfin'
  rw [hfin, hfin']
  constructor
  · intro f hf
    split at hf
    · next hc =>
      rw [if_pos hc]
      refine ⟨_, rfl, ?_⟩
      simp only [Except.ok.injEq] at hf
      subst hf
      refine ⟨aggregate_congr S _ _ rfl hsig ?_ hpk ?_, hsig⟩
      · simp only; rw [h.key_eq, h'.key_eq]
      · intro s hs
        simp only at hs ⊢
        rw [h.ps_eq, h'.ps_eq, hps]
        intro hi
        rw [hsig] at hs
        exact hp (hi ▸ (h.mem_indices _).mp (List.mem_map.mpr ⟨s, hs, rfl⟩))
    · cases hf
  · intro e he
    split at he
    · cases he
    · next hc => rw [if_neg hc]; exact he

/-- C68, superseded partial signatures: one that is followed by another with the same index has no effect at all. -/
theorem C68_last_wins (params : Params) (Y : G) (message : Bytes) (ops ops' ops'' : List (AggOp F G))
    (p p' : PartialSignature F) (hp : p.index = p'.index) :
    session params Y message (ops ++ .partialSig p :: (ops' ++ .partialSig p' :: ops'')) =
      session params Y message (ops ++ (ops' ++ .partialSig p' :: ops'')) := by
  have e : ops ++ .partialSig p :: (ops' ++ .partialSig p' :: ops'') =
      (ops ++ .partialSig p :: (ops' ++ [.partialSig p'])) ++ ops'' := by simp
  have e' : ops ++ (ops' ++ .partialSig p' :: ops'') = (ops ++ (ops' ++ [.partialSig p'])) ++ ops'' := by simp
  rw [e, e']
  suffices key : session params Y message (ops ++ .partialSig p :: (ops' ++ [.partialSig p'])) =
      session params Y message (ops ++ (ops' ++ [.partialSig p'])) by
    unfold session at key ⊢
    exact (run_append _ _ ops'').trans ((congrArg (fun a => a.run ops'') key).trans (run_append _ _ ops'').symm)
  have h := reached params Y message (ops ++ .partialSig p :: (ops' ++ [.partialSig p']))
  have h' := reached params Y message (ops ++ (ops' ++ [.partialSig p']))
  have einc : Spec.inclusions (ops ++ .partialSig p :: (ops' ++ [.partialSig p'])) =
      Spec.inclusions (ops ++ (ops' ++ [.partialSig p'])) := by
    rw [inclusions_append, inclusions_append]
    rfl
  have hps : ∀ i, Spec.lastOf (Spec.partials (ops ++ .partialSig p :: (ops' ++ [.partialSig p']))) i =
      Spec.lastOf (Spec.partials (ops ++ (ops' ++ [.partialSig p']))) i := by
    intro i
    have e1 : Spec.partials (ops ++ .partialSig p :: (ops' ++ [.partialSig p'])) =
        (Spec.partials ops ++ [(p.index, p.z)] ++ Spec.partials ops') ++ [(p'.index, p'.z)] := by
      simp [Spec.partials, List.filterMap_append]
    have e2 : Spec.partials (ops ++ (ops' ++ [.partialSig p'])) =
        (Spec.partials ops ++ Spec.partials ops') ++ [(p'.index, p'.z)] := by
      simp [Spec.partials, List.filterMap_append]
    rw [e1, e2, lastOf_append_one, lastOf_append_one]
    simp only
    split
    · rfl
    · next hi =>
      unfold Spec.lastOf
      rw [List.reverse_append, List.reverse_append, List.reverse_append, firstOf_append, firstOf_append, firstOf_append,
        List.reverse_singleton, firstOf_singleton, if_neg (by rw [hp]; exact hi)]
      rfl
  have hsig := signers_ext h.sorted h'.sorted fun s => by rw [h.signers, h'.signers, einc]
  have hpk := BMap.ext h.pk_wf h'.pk_wf fun i => by rw [h.pk_eq, h'.pk_eq, einc]
  have hpp := BMap.ext h.ps_wf h'.ps_wf fun i => by rw [h.ps_eq, h'.ps_eq, hps]
  have h1 := h.params_eq.trans h'.params_eq.symm
  have h2 := h.key_eq.trans h'.key_eq.symm
  have h3 := h.message_eq.trans h'.message_eq.symm
  exact aggregator_ext h1 hsig hpk hpp h2 h3

end IceFrost
