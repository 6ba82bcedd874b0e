import Verif.Props.Sessions

/-! # C114: each step changes only what it is meant to change, and erases what it is meant to erase -/

set_option linter.unusedSectionVars false
set_option linter.unusedSimpArgs false

namespace IceFrost

variable {F G R : Type} [Field F] [DecidableEq F] [AddCommGroup G] [Module F G] [DecidableEq G]

/-- What is on file after `to_round_two`: for dealer `l`, the last share on the list that names `l` as sender and can be
opened. -/
theorem opened_last {S : Suite F G R} (x : F) (dhs : BMap G) (es : List EncShare) (l : U32) (s : SecretShare F) :
    BMap.get? l (BMap.ofList (es.filterMap (opened S x dhs))) = some s ↔
      ∃ pre e post pk v, es = pre ++ e :: post ∧ dhs.get? l = some pk ∧ e.senderIndex = l ∧ Spec.Opens S e (x • pk) v ∧
        s = ⟨l, e.receiverIndex, v⟩ ∧ ∀ e' ∈ post, e'.senderIndex = l → ∀ v', ¬ Spec.Opens S e' (x • pk) v' := by
  induction es using List.reverseRecOn with
  | nil => simp [BMap.ofList, BMap.get?]
  | append_singleton es a ih =>
    have hsplit : ∀ pre e post, es ++ [a] = pre ++ e :: post ↔
        (post = [] ∧ pre = es ∧ e = a) ∨ ∃ post', post = post' ++ [a] ∧ es = pre ++ e :: post' := by
      intro pre e post
      constructor
      · intro h
        rcases List.eq_nil_or_concat post with rfl | ⟨post', b, rfl⟩
        · left
          have := List.append_inj' h rfl
          exact ⟨rfl, this.1.symm, by simpa using this.2.symm⟩
        · right
          rw [List.concat_eq_append] at h ⊢
          have : es ++ [a] = (pre ++ e :: post') ++ [b] := by rw [h]; simp
          obtain ⟨h1, h2⟩ := List.append_inj' this rfl
          simp only [List.cons.injEq, and_true] at h2
          exact ⟨post', by rw [h2], h1⟩
      · rintro (⟨rfl, rfl, rfl⟩ | ⟨post', rfl, rfl⟩) <;> simp
    rw [List.filterMap_append]
    cases ho : opened S x dhs a with
    | none =>
      have hno : ∀ pk v, dhs.get? a.senderIndex = some pk → ¬ Spec.Opens S a (x • pk) v := by
        intro pk v h1 h2
        have := opened_eq_some.mpr ⟨pk, v, h1, h2, rfl, rfl⟩
        rw [ho] at this
        cases this
      simp only [List.filterMap_cons, ho, List.filterMap_nil, List.append_nil]
      rw [ih]
      constructor
      · rintro ⟨pre, e, post, pk, v, h1, h2, h3, h4, h5, h6⟩
        refine ⟨pre, e, post ++ [a], pk, v, by rw [h1]; simp, h2, h3, h4, h5, ?_⟩
        intro e' he' hs v'
        rcases List.mem_append.mp he' with he' | he'
        · exact h6 e' he' hs v'
        · rw [List.mem_singleton] at he'
          subst he'
          subst hs
          exact hno pk v' h2
      · rintro ⟨pre, e, post, pk, v, h1, h2, h3, h4, h5, h6⟩
        rcases (hsplit _ _ _).mp h1 with ⟨rfl, rfl, rfl⟩ | ⟨post', rfl, h1'⟩
        · subst h3
          exact absurd h4 (hno pk v h2)
        · exact ⟨pre, e, post', pk, v, h1', h2, h3, h4, h5, fun e' he' => h6 e' (List.mem_append_left _ he')⟩
    | some ks =>
      obtain ⟨k, s'⟩ := ks
      obtain ⟨pk, v, h1, h2, rfl, rfl⟩ := opened_eq_some.mp ho
      simp only [List.filterMap_cons, ho, List.filterMap_nil]
      rw [BMap.ofList_append_one, BMap.get?_insert]
      by_cases hl : l = a.senderIndex
      · subst hl
        rw [if_pos rfl, Option.some.injEq]
        constructor
        · rintro rfl
          exact ⟨es, a, [], pk, v, rfl, h1, rfl, h2, rfl, by simp⟩
        · rintro ⟨pre, e, post, pk', v', k1, k2, k3, k4, k5, k6⟩
          rw [h1] at k2
          cases k2
          rcases (hsplit _ _ _).mp k1 with ⟨rfl, rfl, rfl⟩ | ⟨post', rfl, k1'⟩
          · rw [k5, h2.unique k4]
          · exact absurd h2 (k6 a (by simp) rfl v)
      · rw [if_neg hl, ih]
        constructor
        · rintro ⟨pre, e, post, pk, v, k1, k2, k3, k4, k5, k6⟩
          refine ⟨pre, e, post ++ [a], pk, v, by rw [k1]; simp, k2, k3, k4, k5, ?_⟩
          intro e' he' hs v'
          rcases List.mem_append.mp he' with he' | he'
          · exact k6 e' he' hs v'
          · rw [List.mem_singleton] at he'
            subst he'
            exact absurd hs.symm hl
        · rintro ⟨pre, e, post, pk, v, k1, k2, k3, k4, k5, k6⟩
          rcases (hsplit _ _ _).mp k1 with ⟨rfl, rfl, rfl⟩ | ⟨post', rfl, k1'⟩
          · exact absurd k3.symm hl
          · exact ⟨pre, e, post', pk, v, k1', k2, k3, k4, k5, fun e' he' => k6 e' (List.mem_append_left _ he')⟩

/-- C114 for `to_round_two`: the shares dealt to others are erased, the share on file for dealer `l` is the last one on
the list that names `l` and can be opened (labels and value as received), and nothing else changes. -/
theorem C114_round_two (S : Suite F G R) (dbg : Bool) (d : RoundOne F G) (comms : BMap (VssCommitment G))
    (hcomms : d.state.theirCommitments = some comms) (hn : comms.keys.Nodup) (es : List EncShare) (rng : R)
    (d' : RoundTwo F G) (cs : List (Complaint F G)) (h : d.toRoundTwo S dbg es rng = .ok (d', cs)) :
    ∃ m, d'.state = { d.state with theirEncryptedSecretShares := none, mySecretShares := some m } ∧ m.WF ∧
      ∀ l s, m.get? l = some s ↔
        ∃ pre e post pk v, es = pre ++ e :: post ∧ d.state.theirDhPublicKeys.get? l = some pk ∧ e.senderIndex = l ∧
          Spec.Opens S e (d.state.dhPrivateKey • pk) v ∧ s = ⟨l, e.receiverIndex, v⟩ ∧
          ∀ e' ∈ post, e'.senderIndex = l → ∀ v', ¬ Spec.Opens S e' (d.state.dhPrivateKey • pk) v' :=
  ⟨_, (toRoundTwo_state hcomms hn h).2, BMap.wf_ofList _, fun l s => opened_last _ _ es l s⟩

/-- C114 for `blame`: parameters, own index and keys, the DH keys of others stay, commitments and shares are only
removed, those of the same dealers, and those that remain are unchanged. The dealers removed are, for each complaint,
the accused if the complaint is upheld and else its maker. -/
theorem C114_blame (S : Suite F G R) (d : RoundTwo F G) (comms : BMap (VssCommitment G)) (m : BMap (SecretShare F))
    (hc : d.state.theirCommitments = some comms) (hm : d.state.mySecretShares = some m) (hcw : comms.WF) (hmw : m.WF)
    (cs : List (Complaint F G)) :
    ∃ (d' : RoundTwo F G) (keys : List G) (comms' : BMap (VssCommitment G)) (m' : BMap (SecretShare F)) (gone : List U32),
      d.blame S cs = .ok (d', keys) ∧
      d'.state = { d.state with theirCommitments := some comms', mySecretShares := some m' } ∧
      (∀ l, comms'.get? l = if l ∈ gone then none else comms.get? l) ∧
      (∀ l, m'.get? l = if l ∈ gone then none else m.get? l) ∧
      List.Forall₂ (fun c k => (Upheld S d.state comms c ∧ k = c.encShare.senderIndex) ∨
        (¬ Upheld S d.state comms c ∧ k = c.encShare.receiverIndex)) cs gone := by
  refine ⟨_, _, _, _, cs.map (verdict S d.state comms), blame_eq S d comms m hc hm hcw hmw cs, rfl, fun l => ?_,
    fun l => ?_, ?_⟩
  · exact get?_filter_not_mem hcw _ _
  · exact get?_filter_not_mem hmw _ _
  · rw [List.forall₂_map_right_iff, List.forall₂_same]
    intro c _
    unfold verdict
    by_cases h : Upheld S d.state comms c
    · exact .inl ⟨h, if_pos h⟩
    · exact .inr ⟨h, if_neg h⟩

/-- C114 for `new`: a participant of a resharing has no shares to send (and asking for them gives
`NoEncryptedShares`), no shares on file, and its own index and keys. -/
theorem C114_new (S : Suite F G R) (dbg : Bool) (params : Params) (x : F) (i : U32) (ps : List (Participant F G)) (rng : R)
    (d : RoundOne F G) (l : ParticipantList F G) (h : dkgNew S dbg params x i ps rng = .ok (d, l)) :
    d.theirEncryptedSecretShares = .error .noEncryptedShares ∧ d.state.theirEncryptedSecretShares = none ∧
      d.state.mySecretShares = none ∧ d.state.index = i ∧ d.state.dhPrivateKey = x ∧
      d.state.dhPublicKey = x • S.gen ∧ d.state.parameters.t = params.t := by
  unfold dkgNew newStateInternal at h
  simp only [Bool.not_false, Bool.true_and, if_true] at h
  obtain ⟨v, hv, h⟩ := map_eq_ok h
  split at hv
  · cases hv
  · split at hv
    · cases hv
    · split at hv
      · cases hv
      · split at hv
        · cases hv
        · split at hv
          · cases hv
          · next p hp =>
            simp only [Except.ok.injEq] at hv
            subst hv
            simp only [Prod.mk.injEq] at h
            obtain ⟨rfl, rfl⟩ := h
            refine ⟨rfl, rfl, rfl, rfl, rfl, rfl, ?_⟩
            unfold Params.new at hp
            repeat' split at hp
            all_goals first | cases hp; done | skip
            simp only [Except.ok.injEq] at hp
            rw [← hp]

/-- C114 for `bootstrap`: shares to send, no shares on file, own index and keys as given. -/
theorem C114_bootstrap (S : Suite F G R) (dbg : Bool) (params : Params) (x : F) (i : U32) (cs : List F)
    (ps : List (Participant F G)) (rng : R) (d : RoundOne F G) (l : ParticipantList F G)
    (h : bootstrap S dbg params x i cs ps rng = .ok (d, l)) :
    (∃ m, d.theirEncryptedSecretShares = .ok m ∧ d.state.theirEncryptedSecretShares = some m) ∧
      d.state.mySecretShares = none ∧ d.state.index = i ∧ d.state.dhPrivateKey = x ∧
      d.state.dhPublicKey = x • S.gen ∧ d.state.parameters.t = params.t := by
  unfold bootstrap newStateInternal at h
  simp only [Bool.not_true, Bool.false_and, Bool.false_eq_true, if_false] at h
  obtain ⟨v, hv, h⟩ := map_eq_ok h
  split at hv
  · cases hv
  · split at hv
    · cases hv
    · split at hv
      · cases hv
      · split at hv
        · cases hv
        · split at hv
          · cases hv
          · split at hv
            · cases hv
            · next p hp =>
              simp only [Except.ok.injEq] at hv
              subst hv
              simp only [Prod.mk.injEq] at h
              obtain ⟨rfl, rfl⟩ := h
              refine ⟨⟨_, rfl, rfl⟩, rfl, rfl, rfl, rfl, ?_⟩
              unfold Params.new at hp
              repeat' split at hp
              all_goals first | cases hp; done | skip
              simp only [Except.ok.injEq] at hp
              rw [← hp]

section Examples
open Toy

/-- A session in round one, whose participant holds shares for others, and its state in round two. -/
example : ∃ (d : RoundOne Fp Fp) (d' : RoundTwo Fp Fp) (m : BMap EncShare) (es : List EncShare),
    d.state.theirEncryptedSecretShares = some m ∧ d.toRoundTwo suite true es 0 = .ok (d', []) ∧
      d'.state.theirEncryptedSecretShares = none ∧ d'.state.index = d.state.index := by
  obtain ⟨P, co, x, h0, d1, h1, E, h2, d2, h3, s, key, _⟩ := C36_honest_dkg lawful true ⟨3, 2⟩ (by decide)
    (by decide) [1, 2, 3] (by decide) (by decide) rfl (fun _ => [1, 2, 3]) (fun _ => [3, 1, 2])
    (fun _ _ => List.Perm.refl _) (fun _ _ => by decide) (fun _ => 0) (fun _ => 0) (fun _ => 0)
  have hb := h1 1 (by decide)
  obtain ⟨⟨m, _, hm⟩, _⟩ := C114_bootstrap suite true _ _ _ _ _ _ _ _ hb
  obtain ⟨comms, hs, _⟩ := C95_round_one_sound (.bootstrap _ _ _ _ _ _ _ _ hb)
  obtain ⟨m', he, _⟩ := C114_round_two suite true _ comms hs.comms_eq hs.comms_sorted.nodup _ _ _ _ (h3 1 (by decide))
  exact ⟨_, _, m, _, hm, h3 1 (by decide), by rw [he], by rw [he]⟩

end Examples

end IceFrost
