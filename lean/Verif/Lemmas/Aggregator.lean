import Verif.Lemmas.Signing

/-! # Histories of aggregator calls -/

set_option linter.unusedSectionVars false
set_option linter.unusedSimpArgs false

namespace IceFrost

open Finset

variable {F G R : Type} [Field F] [DecidableEq F] [AddCommGroup G] [Module F G] [DecidableEq G]

/-- A call that changes an aggregator before `finalize`. -/
inductive AggOp (F G : Type) where
  | signer (index : U32) (share : G × G) (publicKey : IndividualVerifyingKey G)
  | partialSig (p : PartialSignature F)

/-- The state after one call, whatever the call returned. -/
def InitialAggregator.apply (a : InitialAggregator F G) : AggOp F G → InitialAggregator F G
  | .signer i s pk => (a.includeSigner i s pk).2
  | .partialSig p => a.includePartialSignature p

/-- The state after a history of calls. -/
def InitialAggregator.run (a : InitialAggregator F G) (ops : List (AggOp F G)) : InitialAggregator F G :=
  ops.foldl InitialAggregator.apply a

namespace Spec

/-- The inclusions of a history whose two indices agree: index, commitment share and public key. -/
def inclusions (ops : List (AggOp F G)) : List (U32 × (G × G) × G) :=
  ops.filterMap fun
    | .signer i s pk => if i = pk.index then some (i, s, pk.share) else none
    | .partialSig _ => none

/-- The partial signatures of a history. -/
def partials (ops : List (AggOp F G)) : List (U32 × F) :=
  ops.filterMap fun
    | .signer _ _ _ => none
    | .partialSig p => some (p.index, p.z)

/-- The indices included by a history. -/
def included (ops : List (AggOp F G)) : List U32 := (inclusions ops).map Prod.fst

/-- The inclusions made while at most `n` different indices were included (counting the inclusion itself). -/
def accepted {α : Type} (n : Nat) (l : List (U32 × α)) : List (U32 × α) :=
  (List.range l.length).filterMap fun j =>
    if ((l.take (j + 1)).map Prod.fst).toFinset.card ≤ n then l[j]? else none

/-- The first value listed under `k`. -/
def firstOf {α : Type} (l : List (U32 × α)) (k : U32) : Option α := (l.find? fun e => e.1 = k).map Prod.snd

/-- The last value listed under `k`. -/
def lastOf {α : Type} (l : List (U32 × α)) (k : U32) : Option α := firstOf l.reverse k

end Spec

section Lists
variable {α : Type}

theorem firstOf_append (l l' : List (U32 × α)) (k : U32) :
    Spec.firstOf (l ++ l') k = (Spec.firstOf l k).or (Spec.firstOf l' k) := by
  unfold Spec.firstOf
  rw [List.find?_append]
  cases List.find? (fun e => decide (e.1 = k)) l <;> rfl

theorem firstOf_singleton (e : U32 × α) (k : U32) :
    Spec.firstOf [e] k = if k = e.1 then some e.2 else none := by
  unfold Spec.firstOf
  by_cases h : k = e.1
  · simp [h]
  · have : ¬ e.1 = k := fun h' => h h'.symm
    simp [h, this]

theorem firstOf_isSome (l : List (U32 × α)) (k : U32) : (Spec.firstOf l k).isSome ↔ k ∈ l.map Prod.fst := by
  unfold Spec.firstOf
  rw [Option.isSome_map, List.find?_isSome]
  simp

theorem firstOf_eq_none (l : List (U32 × α)) (k : U32) : Spec.firstOf l k = none ↔ k ∉ l.map Prod.fst := by
  rw [← firstOf_isSome, Bool.not_eq_true, Option.isSome_eq_false_iff, Option.isNone_iff_eq_none]

theorem firstOf_mem {l : List (U32 × α)} {k : U32} {v : α} (h : Spec.firstOf l k = some v) : (k, v) ∈ l := by
  unfold Spec.firstOf at h
  rw [Option.map_eq_some_iff] at h
  obtain ⟨e, h1, h2⟩ := h
  have h3 := List.find?_some h1
  have h4 := List.mem_of_find?_eq_some h1
  obtain ⟨k', v'⟩ := e
  simp only [decide_eq_true_eq] at h3
  simp only at h2
  rw [← h2, ← h3]
  exact h4

theorem lastOf_append_one (l : List (U32 × α)) (e : U32 × α) (k : U32) :
    Spec.lastOf (l ++ [e]) k = if k = e.1 then some e.2 else Spec.lastOf l k := by
  unfold Spec.lastOf
  rw [List.reverse_append, List.reverse_singleton, firstOf_append, firstOf_singleton]
  split <;> rfl

theorem lastOf_mem {l : List (U32 × α)} {k : U32} {v : α} (h : Spec.lastOf l k = some v) : (k, v) ∈ l := by
  have := firstOf_mem h
  simpa using this

theorem lastOf_isSome (l : List (U32 × α)) (k : U32) : (Spec.lastOf l k).isSome ↔ k ∈ l.map Prod.fst := by
  unfold Spec.lastOf
  rw [firstOf_isSome]
  simp

theorem lastOf_eq_none (l : List (U32 × α)) (k : U32) : Spec.lastOf l k = none ↔ k ∉ l.map Prod.fst := by
  rw [← lastOf_isSome, Bool.not_eq_true, Option.isSome_eq_false_iff, Option.isNone_iff_eq_none]

/-- If all values listed under a key agree, the first and the last are that value. -/
theorem firstOf_unique {l : List (U32 × α)} {k : U32} {v : α} (hm : (k, v) ∈ l) (hu : ∀ v', (k, v') ∈ l → v' = v) :
    Spec.firstOf l k = some v := by
  have hs := (firstOf_isSome l k).mpr (List.mem_map.mpr ⟨_, hm, rfl⟩)
  obtain ⟨v', hv'⟩ := Option.isSome_iff_exists.mp hs
  rw [hv', hu v' (firstOf_mem hv')]

theorem lastOf_unique {l : List (U32 × α)} {k : U32} {v : α} (hm : (k, v) ∈ l) (hu : ∀ v', (k, v') ∈ l → v' = v) :
    Spec.lastOf l k = some v := by
  refine firstOf_unique (by simpa using hm) ?_
  intro v' hv'
  exact hu v' (by simpa using hv')

theorem accepted_append_one (n : Nat) (l : List (U32 × α)) (e : U32 × α) :
    Spec.accepted n (l ++ [e]) = Spec.accepted n l ++
      if ((l ++ [e]).map Prod.fst).toFinset.card ≤ n then [e] else [] := by
  unfold Spec.accepted
  rw [List.length_append, List.length_singleton, List.range_succ, List.filterMap_append]
  congr 1
  · refine List.filterMap_congr fun j hj => ?_
    rw [List.mem_range] at hj
    rw [List.take_append_of_le_length (by omega), List.getElem?_append_left hj]
  · rw [List.filterMap_cons, List.filterMap_nil, List.take_of_length_le (by simp), List.getElem?_concat_length]
    by_cases h : ((l ++ [e]).map Prod.fst).toFinset.card ≤ n
    · rw [if_pos h, if_pos h]
    · rw [if_neg h, if_neg h]

theorem accepted_nil (n : Nat) : Spec.accepted n ([] : List (U32 × α)) = [] := rfl

theorem accepted_of_le (n : Nat) (l : List (U32 × α)) (h : (l.map Prod.fst).toFinset.card ≤ n) :
    Spec.accepted n l = l := by
  induction l using List.reverseRecOn with
  | nil => rfl
  | append_singleton l e ih =>
    rw [accepted_append_one, if_pos h, ih]
    refine le_trans (Finset.card_le_card fun k hk => ?_) h
    rw [List.mem_toFinset] at hk ⊢
    rw [List.map_append, List.mem_append]
    exact Or.inl hk

theorem accepted_sublist (n : Nat) (l : List (U32 × α)) : (Spec.accepted n l).Sublist l := by
  induction l using List.reverseRecOn with
  | nil => exact List.Sublist.refl _
  | append_singleton l e ih =>
    rw [accepted_append_one]
    split
    · exact ih.append (List.Sublist.refl _)
    · rw [List.append_nil]; exact ih.trans (List.sublist_append_left _ _)

/-- At most `n` different indices are accepted. -/
theorem accepted_card (n : Nat) (l : List (U32 × α)) : ((Spec.accepted n l).map Prod.fst).toFinset.card ≤ n := by
  induction l using List.reverseRecOn with
  | nil => simp [accepted_nil]
  | append_singleton l e ih =>
    by_cases h : ((l ++ [e]).map Prod.fst).toFinset.card ≤ n
    · rw [accepted_of_le n _ h]; exact h
    · rw [accepted_append_one, if_neg h, List.append_nil]; exact ih

end Lists

theorem inclusions_append (ops ops' : List (AggOp F G)) :
    Spec.inclusions (ops ++ ops') = Spec.inclusions ops ++ Spec.inclusions ops' := by
  simp [Spec.inclusions, List.filterMap_append]

theorem partials_append (ops ops' : List (AggOp F G)) :
    Spec.partials (ops ++ ops') = Spec.partials ops ++ Spec.partials ops' := by
  simp [Spec.partials, List.filterMap_append]

theorem included_append (ops ops' : List (AggOp F G)) :
    Spec.included (ops ++ ops') = Spec.included ops ++ Spec.included ops' := by
  simp [Spec.included, inclusions_append]

theorem run_append (a : InitialAggregator F G) (ops ops' : List (AggOp F G)) :
    a.run (ops ++ ops') = (a.run ops).run ops' := by
  simp [InitialAggregator.run, List.foldl_append]

/-- Strictly sorted signers, as kept by `include_signer`. -/
def SignersSorted (l : List (Signer G)) : Prop := KeyStrict Signer.participantIndex l

theorem SignersSorted.nodup {l : List (Signer G)} (h : SignersSorted l) : (l.map (·.participantIndex)).Nodup :=
  KeyStrict.nodup_keys _ h

theorem SignersSorted.pairwise {l : List (Signer G)} (h : SignersSorted l) :
    (l.map (·.participantIndex)).Pairwise (· < ·) := List.pairwise_map.mpr h

/-- The signer list after `push`, `sort`, `dedup`. -/
def addSigner (l : List (Signer G)) (s : Signer G) : List (Signer G) :=
  dedupByKey Signer.participantIndex (sortByKey Signer.participantIndex (l ++ [s]))

theorem addSigner_of_mem {l : List (Signer G)} (h : SignersSorted l) (s : Signer G)
    (hs : s.participantIndex ∈ l.map (·.participantIndex)) : addSigner l s = l := by
  unfold addSigner
  rw [sortByKey_append_one, sortByKey_eq_self _ (KeyStrict.sorted _ h)]
  exact dedup_insertSorted_of_mem _ h hs

theorem addSigner_of_not_mem {l : List (Signer G)} (h : SignersSorted l) (s : Signer G)
    (hs : s.participantIndex ∉ l.map (·.participantIndex)) :
    SignersSorted (addSigner l s) ∧ (addSigner l s).Perm (s :: l) := by
  unfold addSigner
  rw [sortByKey_append_one, sortByKey_eq_self _ (KeyStrict.sorted _ h)]
  have h1 := insertSorted_strict Signer.participantIndex h hs
  rw [dedupByKey_eq_self _ h1]
  exact ⟨h1, insertSorted_perm _ s l⟩

theorem addSigner_sorted {l : List (Signer G)} (h : SignersSorted l) (s : Signer G) :
    SignersSorted (addSigner l s) := by
  by_cases hs : s.participantIndex ∈ l.map (·.participantIndex)
  · rw [addSigner_of_mem h s hs]; exact h
  · exact (addSigner_of_not_mem h s hs).1

/-- What `include_signer` does, in terms of `addSigner`. -/
theorem includeSigner_eq (a : InitialAggregator F G) (i : U32) (s : G × G) (pk : IndividualVerifyingKey G) :
    a.includeSigner i s pk =
      if i ≠ pk.index then (.error (.indexMismatch i pk.index), a)
      else if (addSigner a.state.signers ⟨i, s⟩).length > a.state.parameters.n.toNat then
        (.error (.tooManySigners (addSigner a.state.signers ⟨i, s⟩).length a.state.parameters.n),
          { a with state := { a.state with signers := addSigner a.state.signers ⟨i, s⟩ } })
      else (.ok (), { a with state := { a.state with
        signers := addSigner a.state.signers ⟨i, s⟩
        publicKeys := a.state.publicKeys.insert pk.index pk.share } }) := rfl


/-- The aggregator state reached by a history, described by the history. -/
structure Reached (params : Params) (Y : G) (message : Bytes) (ops : List (AggOp F G))
    (a : InitialAggregator F G) : Prop where
  params_eq : a.state.parameters = params
  key_eq : a.state.groupKey = Y
  message_eq : a.message = message
  sorted : SignersSorted a.state.signers
  signers : ∀ s : Signer G, s ∈ a.state.signers ↔
    (Spec.firstOf (Spec.inclusions ops) s.participantIndex).map Prod.fst = some s.share
  pk_wf : a.state.publicKeys.WF
  pk_eq : ∀ i, a.state.publicKeys.get? i =
    (Spec.lastOf (Spec.accepted params.n.toNat (Spec.inclusions ops)) i).map Prod.snd
  ps_wf : a.state.partialSignatures.WF
  ps_eq : ∀ i, a.state.partialSignatures.get? i = Spec.lastOf (Spec.partials ops) i

theorem Reached.mem_indices {params : Params} {Y : G} {message : Bytes} {ops : List (AggOp F G)}
    {a : InitialAggregator F G} (h : Reached params Y message ops a) (i : U32) :
    i ∈ a.state.signers.map (·.participantIndex) ↔ i ∈ Spec.included ops := by
  rw [List.mem_map, Spec.included, ← firstOf_isSome]
  constructor
  · rintro ⟨s, hs, rfl⟩
    have := (h.signers s).mp hs
    cases hf : Spec.firstOf (Spec.inclusions ops) s.participantIndex with
    | none => rw [hf] at this; cases this
    | some v => rfl
  · intro hi
    obtain ⟨v, hv⟩ := Option.isSome_iff_exists.mp hi
    exact ⟨⟨i, v.1⟩, (h.signers _).mpr (by simp only [hv, Option.map_some]), rfl⟩

theorem Reached.card {params : Params} {Y : G} {message : Bytes} {ops : List (AggOp F G)}
    {a : InitialAggregator F G} (h : Reached params Y message ops a) :
    a.state.signers.length = (Spec.included ops).toFinset.card := by
  have : (Spec.included ops).toFinset = (a.state.signers.map (·.participantIndex)).toFinset := by
    ext i
    rw [List.mem_toFinset, List.mem_toFinset, h.mem_indices]
  rw [this, List.toFinset_card_of_nodup h.sorted.nodup, List.length_map]

theorem reached_new (params : Params) (Y : G) (message : Bytes) :
    Reached params Y message ([] : List (AggOp F G)) (InitialAggregator.new params Y message) where
  params_eq := rfl
  key_eq := rfl
  message_eq := rfl
  sorted := List.Pairwise.nil
  signers s := by simp [InitialAggregator.new, Spec.inclusions, Spec.firstOf]
  pk_wf := BMap.wf_nil
  pk_eq i := rfl
  ps_wf := BMap.wf_nil
  ps_eq i := rfl

theorem inclusions_signer (i : U32) (s : G × G) (pk : IndividualVerifyingKey G) :
    Spec.inclusions [(.signer i s pk : AggOp F G)] = if i = pk.index then [(i, s, pk.share)] else [] := by
  unfold Spec.inclusions
  by_cases h : i = pk.index <;> simp [h]

theorem inclusions_partial (p : PartialSignature F) : Spec.inclusions [(.partialSig p : AggOp F G)] = [] := rfl
theorem partials_signer (i : U32) (s : G × G) (pk : IndividualVerifyingKey G) :
    Spec.partials [(.signer i s pk : AggOp F G)] = [] := rfl
theorem partials_partial (p : PartialSignature F) :
    Spec.partials [(.partialSig p : AggOp F G)] = [(p.index, p.z)] := rfl

theorem Reached.step {params : Params} {Y : G} {message : Bytes} {ops : List (AggOp F G)}
    {a : InitialAggregator F G} (h : Reached params Y message ops a) (op : AggOp F G) :
    Reached params Y message (ops ++ [op]) (a.apply op) := by
  cases op with
  | partialSig p =>
    have e1 : Spec.inclusions (ops ++ [.partialSig p]) = Spec.inclusions ops := by
      rw [inclusions_append, inclusions_partial, List.append_nil]
    have e2 : Spec.included (ops ++ [.partialSig p]) = Spec.included ops := by
      unfold Spec.included; rw [e1]
    refine ⟨h.params_eq, h.key_eq, h.message_eq, h.sorted, ?_, h.pk_wf, ?_, BMap.wf_insert h.ps_wf, ?_⟩
    · rw [e1]; exact h.signers
    · rw [e1]; exact h.pk_eq
    · intro i
      rw [partials_append, partials_partial, lastOf_append_one, ← h.ps_eq]
      exact BMap.get?_insert
  | signer i s pk =>
    have ep : Spec.partials (ops ++ [.signer i s pk]) = Spec.partials ops := by
      rw [partials_append, partials_signer, List.append_nil]
    simp only [InitialAggregator.apply]
    rw [includeSigner_eq]
    by_cases hi : i = pk.index
    · rw [if_neg (by simpa using hi)]
      have e1 : Spec.inclusions (ops ++ [.signer i s pk]) = Spec.inclusions ops ++ [(i, s, pk.share)] := by
        rw [inclusions_append, inclusions_signer, if_pos hi]
      have e2 : Spec.included (ops ++ [.signer i s pk]) = Spec.included ops ++ [i] := by
        unfold Spec.included; rw [e1]; simp
      have hsort := addSigner_sorted h.sorted ⟨i, s⟩
      have hmem : ∀ s' : Signer G, s' ∈ addSigner a.state.signers ⟨i, s⟩ ↔
          (Spec.firstOf (Spec.inclusions (ops ++ [.signer i s pk])) s'.participantIndex).map Prod.fst =
            some s'.share := by
        intro s'
        rw [e1, firstOf_append]
        by_cases hin : i ∈ a.state.signers.map (·.participantIndex)
        · rw [addSigner_of_mem h.sorted ⟨i, s⟩ hin, h.signers]
          cases hf : Spec.firstOf (Spec.inclusions ops) s'.participantIndex with
          | some v => simp
          | none =>
            rw [firstOf_singleton]
            have : s'.participantIndex ≠ i := by
              rintro he
              rw [h.mem_indices, Spec.included, ← he] at hin
              exact (firstOf_eq_none _ _).mp hf hin
            simp [this]
        · rw [(addSigner_of_not_mem h.sorted ⟨i, s⟩ hin).2.mem_iff, List.mem_cons, h.signers]
          by_cases hs' : s'.participantIndex = i
          · have hf : Spec.firstOf (Spec.inclusions ops) s'.participantIndex = none := by
              rw [firstOf_eq_none, hs']
              intro hc
              exact hin ((h.mem_indices i).mpr hc)
            rw [hf, firstOf_singleton]
            obtain ⟨j, sh⟩ := s'
            simp only at hs'
            subst hs'
            simp [eq_comm]
          · have : s' ≠ ⟨i, s⟩ := fun he => hs' (by rw [he])
            rw [firstOf_singleton]
            simp only [this, hs', false_or, if_false, Option.or_none]
      have hlen : (addSigner a.state.signers ⟨i, s⟩).length =
          (Spec.included (ops ++ [.signer i s pk])).toFinset.card := by
        rw [e2]
        by_cases hin : i ∈ a.state.signers.map (·.participantIndex)
        · rw [addSigner_of_mem h.sorted ⟨i, s⟩ hin, h.card]
          congr 1
          ext j
          simp only [List.toFinset_append, mem_union, List.mem_toFinset, List.mem_singleton]
          have := (h.mem_indices i).mp hin
          constructor
          · exact Or.inl
          · rintro (h | rfl)
            · exact h
            · exact this
        · rw [(addSigner_of_not_mem h.sorted ⟨i, s⟩ hin).2.length_eq, List.length_cons, h.card]
          have h' : i ∉ (Spec.included ops).toFinset := by
            rw [List.mem_toFinset, ← h.mem_indices]; exact hin
          have : (Spec.included ops ++ [i]).toFinset = insert i (Spec.included ops).toFinset := by
            ext j
            simp [or_comm]
          rw [this, Finset.card_insert_of_notMem h']
      have hcard : ((Spec.inclusions ops ++ [(i, s, pk.share)]).map Prod.fst).toFinset.card =
          (Spec.included (ops ++ [.signer i s pk])).toFinset.card := by
        unfold Spec.included; rw [e1]
      split
      · next hgt =>
        rw [hlen, h.params_eq] at hgt
        refine ⟨h.params_eq, h.key_eq, h.message_eq, hsort, hmem, h.pk_wf, ?_, h.ps_wf, ?_⟩
        · rw [e1, accepted_append_one, hcard, if_neg (by omega), List.append_nil]
          exact h.pk_eq
        · rw [ep]; exact h.ps_eq
      · next hle =>
        rw [hlen, h.params_eq] at hle
        refine ⟨h.params_eq, h.key_eq, h.message_eq, hsort, hmem, BMap.wf_insert h.pk_wf, ?_, h.ps_wf, ?_⟩
        · intro j
          rw [e1, accepted_append_one, hcard, if_pos (by omega), lastOf_append_one]
          refine BMap.get?_insert.trans ?_
          rw [h.pk_eq j, hi]
          split <;> rfl
        · rw [ep]; exact h.ps_eq
    · rw [if_pos hi]
      have e1 : Spec.inclusions (ops ++ [.signer i s pk]) = Spec.inclusions ops := by
        rw [inclusions_append, inclusions_signer, if_neg hi, List.append_nil]
      have e2 : Spec.included (ops ++ [.signer i s pk]) = Spec.included ops := by
        unfold Spec.included; rw [e1]
      refine ⟨h.params_eq, h.key_eq, h.message_eq, h.sorted, ?_, h.pk_wf, ?_, h.ps_wf, ?_⟩
      · rw [e1]; exact h.signers
      · rw [e1]; exact h.pk_eq
      · rw [ep]; exact h.ps_eq

theorem reached (params : Params) (Y : G) (message : Bytes) (ops : List (AggOp F G)) :
    Reached params Y message ops ((InitialAggregator.new params Y message).run ops) := by
  induction ops using List.reverseRecOn with
  | nil => exact reached_new params Y message
  | append_singleton ops op ih =>
    rw [run_append]
    exact ih.step op

/-! ### `finalize` -/

theorem filter_sorted {l : List (Signer G)} (h : SignersSorted l) (p : Signer G → Bool) :
    dedupByKey Signer.participantIndex (sortByKey Signer.participantIndex (l.filter p)) = l.filter p := by
  have h' : SignersSorted (l.filter p) := List.Pairwise.sublist List.filter_sublist h
  rw [sortByKey_eq_self _ (KeyStrict.sorted _ h'), dedupByKey_eq_self _ h']

theorem remainingSigners_eq {a : InitialAggregator F G} (h : SignersSorted a.state.signers) :
    a.remainingSigners = a.state.signers.filter
      fun s => (a.state.partialSignatures.get? s.participantIndex).isNone := filter_sorted h _

/-- The signers of two reached states agree if the histories agree on first inclusions. -/
theorem signers_ext {l l' : List (Signer G)} (h : SignersSorted l) (h' : SignersSorted l')
    (hm : ∀ s, s ∈ l ↔ s ∈ l') : l = l' := by
  have hn : l.Nodup := List.Nodup.of_map _ h.nodup
  have hn' : l'.Nodup := List.Nodup.of_map _ h'.nodup
  have hp := (List.perm_ext_iff_of_nodup hn hn').mpr hm
  exact hp.eq_of_pairwise (fun a b _ _ h1 h2 => absurd h2 (u32_lt_asymm h1)) h h'

end IceFrost
