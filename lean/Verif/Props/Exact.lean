import Verif.Toy
import Verif.Props.Order
import Verif.Props.Aggregation

/-!
# What exactly is on file

For properties that the code does not have as stated (C31, C44, C62, C90, C93) the exact behaviour, for all inputs: which
of several records, shares or inclusions with one index is kept, and what a second call of `blame` removes.
-/

set_option linter.unusedSectionVars false
set_option linter.unusedSimpArgs false

namespace IceFrost

attribute [local instance] Classical.propDecidable

variable {F G R : Type} [Field F] [DecidableEq F] [AddCommGroup G] [Module F G] [DecidableEq G]

theorem get?_ofList_last {α : Type} (l : List (U32 × α)) (k : U32) : (BMap.ofList l).get? k = Spec.lastOf l k := by
  induction l using List.reverseRecOn with
  | nil => rfl
  | append_singleton l e ih => rw [BMap.ofList_append_one, lastOf_append_one, ← ih, BMap.get?_insert]

/-- The last entry under `k` of the entries that `f` makes of `l`. -/
theorem lastOf_filterMap {α β : Type} (f : β → Option (U32 × α)) (l : List β) (k : U32) (v : α) :
    Spec.lastOf (l.filterMap f) k = some v ↔
      ∃ l1 b l2, l = l1 ++ b :: l2 ∧ f b = some (k, v) ∧ ∀ b' ∈ l2, ∀ v', f b' ≠ some (k, v') := by
  induction l using List.reverseRecOn with
  | nil => simp [Spec.lastOf, Spec.firstOf]
  | append_singleton l e ih =>
    rw [List.filterMap_append]
    by_cases he : ∃ w, f e = some (k, w)
    · obtain ⟨w, hw⟩ := he
      have : [e].filterMap f = [(k, w)] := by simp [hw]
      rw [this, lastOf_append_one, if_pos rfl]
      constructor
      · intro h
        cases h
        exact ⟨l, e, [], rfl, hw, by simp⟩
      · rintro ⟨l1, b, l2, h1, h2, h3⟩
        rcases List.eq_nil_or_concat l2 with rfl | ⟨l2', x, rfl⟩
        · have := (List.append_inj' h1 rfl).2
          cases this
          rw [hw] at h2; cases h2; rfl
        · have h4 : l ++ [e] = (l1 ++ b :: l2') ++ [x] := by rw [h1]; simp
          have := (List.append_inj' h4 rfl).2
          cases this
          exact absurd hw (h3 _ (by simp) w)
    · push Not at he
      have hl : Spec.lastOf (l.filterMap f ++ [e].filterMap f) k = Spec.lastOf (l.filterMap f) k := by
        cases hfe : f e with
        | none => simp [hfe]
        | some x =>
          have : [e].filterMap f = [x] := by simp [hfe]
          rw [this, lastOf_append_one, if_neg]
          rintro rfl
          exact he x.2 hfe
      rw [hl, ih]
      constructor
      · rintro ⟨l1, b, l2, rfl, h2, h3⟩
        refine ⟨l1, b, l2 ++ [e], by simp, h2, fun b' hb' v' => ?_⟩
        rcases List.mem_append.mp hb' with h | h
        · exact h3 b' h v'
        · rw [List.mem_singleton] at h; subst h; exact he v'
      · rintro ⟨l1, b, l2, h1, h2, h3⟩
        rcases List.eq_nil_or_concat l2 with rfl | ⟨l2', x, rfl⟩
        · have := (List.append_inj' h1 rfl).2
          cases this
          exact absurd h2 (he v)
        · have h4 : l ++ [e] = (l1 ++ b :: l2') ++ [x] := by rw [h1]; simp
          refine ⟨l1, b, l2', (List.append_inj' h4 rfl).1, h2, fun b' hb' => h3 b' ?_⟩
          rw [List.concat_eq_append, List.mem_append]; exact .inl hb'

/-! ### C90: the last record of an index -/

/-- C90, exactly, for `bootstrap` and `new`: on file under an index are the commitments and the Diffie-Hellman key of the
last accepted record with that index. -/
theorem C90_last_record {S : Suite F G R} (hc : S.CipherLaws) (hd : S.CodecLaws) (dbg : Bool) (params : Params)
    (x : F) (i : U32) (cs : List F) (ps : List (Participant F G)) (rng : R) (d : RoundOne F G)
    (L : ParticipantList F G)
    (h : bootstrap S dbg params x i cs ps rng = .ok (d, L) ∨ dkgNew S dbg params x i ps rng = .ok (d, L)) :
    ∃ comms, d.state.theirCommitments = some comms ∧
      (∀ k c, comms.get? k = some c ↔ ∃ l1 p l2, L.valid = l1 ++ p :: l2 ∧ p.index = k ∧ p.commitments = some c ∧
        ∀ q ∈ l2, q.index ≠ k) ∧
      ∀ k y, d.state.theirDhPublicKeys.get? k = some y ↔ ∃ l1 p l2, L.valid = l1 ++ p :: l2 ∧ p.index = k ∧
        p.dhPublicKey = y ∧ ∀ q ∈ l2, q.index ≠ k := by
  have key : d.state.theirCommitments =
        some (BMap.ofList (L.valid.filterMap fun p => p.commitments.map fun c => (p.index, c))) ∧
      d.state.theirDhPublicKeys = BMap.ofList (L.valid.map fun p => (p.index, p.dhPublicKey)) ∧
      ∀ p ∈ L.valid, ∃ c, p.commitments = some c := by
    have hv : ∀ p, Spec.DealerValid S p → ∃ c, p.commitments = some c := by
      rintro p ⟨_, c, _, _, h, _⟩; exact ⟨c, h⟩
    rcases h with h | h
    · obtain ⟨h1, _, _, _, h5, h6, _⟩ := C20_bootstrap_classifies hc hd dbg _ _ _ _ _ _ d L h
      refine ⟨h5, h6, fun p hp => hv p ?_⟩
      rw [h1] at hp
      have := (List.mem_filter.mp hp).2
      simp only [decide_eq_true_eq] at this
      exact this.1
    · obtain ⟨h1, _, _, _, h5, h6, _⟩ := C20_new_classifies dbg _ _ _ _ _ d L h
      refine ⟨h5, h6, fun p hp => hv p ?_⟩
      rw [h1] at hp
      simpa using (List.mem_filter.mp hp).2
  obtain ⟨k1, k2, k3⟩ := key
  refine ⟨_, k1, fun k c => ?_, fun k y => ?_⟩
  · rw [get?_ofList_last, lastOf_filterMap]
    constructor
    · rintro ⟨l1, p, l2, hl, hp, hq⟩
      rw [Option.map_eq_some_iff] at hp
      obtain ⟨c', hc', he⟩ := hp
      simp only [Prod.mk.injEq] at he
      obtain ⟨rfl, rfl⟩ := he
      refine ⟨l1, p, l2, hl, rfl, hc', fun q hq' he => ?_⟩
      obtain ⟨cq, hcq⟩ := k3 q (by rw [hl]; simp [hq'])
      exact hq q hq' cq (by rw [hcq, ← he]; rfl)
    · rintro ⟨l1, p, l2, hl, rfl, hc', hq⟩
      refine ⟨l1, p, l2, hl, by rw [hc']; rfl, fun q hq' v' he => ?_⟩
      rw [Option.map_eq_some_iff] at he
      obtain ⟨cq, _, he⟩ := he
      exact hq q hq' (congrArg Prod.fst he)
  · rw [k2, get?_ofList_last, ← List.filterMap_eq_map, lastOf_filterMap]
    constructor
    · rintro ⟨l1, p, l2, hl, hp, hq⟩
      simp only [Function.comp_apply, Option.some.injEq, Prod.mk.injEq] at hp
      refine ⟨l1, p, l2, hl, hp.1, hp.2, fun q hq' he => ?_⟩
      exact hq q hq' q.dhPublicKey (by simp [he])
    · rintro ⟨l1, p, l2, hl, rfl, rfl, hq⟩
      refine ⟨l1, p, l2, hl, rfl, fun q hq' v' he => ?_⟩
      simp only [Function.comp_apply, Option.some.injEq, Prod.mk.injEq] at he
      exact hq q hq' he.1

/-! ### C31, C93: the last share of a sender that opens -/

/-- C31 and C93, exactly, in every build: on file under a sender is the last of its shares that opens, with its label. -/
theorem C31_last_share (S : Suite F G R) (dbg : Bool) (d : RoundOne F G) (comms : BMap (VssCommitment G))
    (hcomms : d.state.theirCommitments = some comms) (hn : comms.keys.Nodup) (es : List EncShare) (rng : R)
    (d' : RoundTwo F G) (cs : List (Complaint F G)) (h : d.toRoundTwo S dbg es rng = .ok (d', cs)) :
    ∃ m, d'.state.mySecretShares = some m ∧ ∀ l s, m.get? l = some s ↔
      ∃ es1 e es2 pk v, es = es1 ++ e :: es2 ∧ e.senderIndex = l ∧ d.state.theirDhPublicKeys.get? l = some pk ∧
        Spec.Opens S e (d.state.dhPrivateKey • pk) v ∧ s = ⟨l, e.receiverIndex, v⟩ ∧
        ∀ e' ∈ es2, e'.senderIndex = l → ∀ v', ¬ Spec.Opens S e' (d.state.dhPrivateKey • pk) v' := by
  obtain ⟨h1, h2, h3⟩ := roundTwo_stored S dbg d comms hcomms hn es rng d' cs h
  refine ⟨_, by rw [h1]; rfl, fun l s => ?_⟩
  rw [get?_ofList_last, lastOf_filterMap]
  constructor
  · rintro ⟨es1, e, es2, hl, he, hq⟩
    obtain ⟨pk, v, hpk, hv, rfl, rfl⟩ := opened_eq_some.mp he
    refine ⟨es1, e, es2, pk, v, hl, rfl, hpk, hv, rfl, fun e' he' hs v' hv' => ?_⟩
    exact hq e' he' ⟨e'.senderIndex, e'.receiverIndex, v'⟩
      (opened_eq_some.mpr ⟨pk, v', by rw [hs]; exact hpk, hv', hs.symm, rfl⟩)
  · rintro ⟨es1, e, es2, pk, v, hl, rfl, hpk, hv, rfl, hq⟩
    refine ⟨es1, e, es2, hl, opened_eq_some.mpr ⟨pk, v, hpk, hv, rfl, rfl⟩, fun e' he' s' ho => ?_⟩
    obtain ⟨pk', v', hpk', hv', hs', _⟩ := opened_eq_some.mp ho
    rw [← hs', hpk] at hpk'; cases hpk'
    exact hq e' he' hs'.symm v' hv'

/-- C31, exactly, in every build: an uncomplained share on file is the committed polynomial at the index the share is
labelled for. So it is right for the holder exactly if the polynomial takes the same value at both indices, in particular
if the label is the holder's index. -/
theorem C31_stored_iff (S : Suite F G R) (dbg : Bool) (d : RoundOne F G) (comms : BMap (VssCommitment G))
    (hcomms : d.state.theirCommitments = some comms) (hn : comms.keys.Nodup) (es : List EncShare) (rng : R)
    (d' : RoundTwo F G) (cs : List (Complaint F G)) (h : d.toRoundTwo S dbg es rng = .ok (d', cs))
    (m : BMap (SecretShare F)) (hm : d'.state.mySecretShares = some m) (l : U32) (s : SecretShare F)
    (hs : m.get? l = some s) (hcs : ∀ c ∈ cs, c.encShare.senderIndex ≠ l)
    (c : VssCommitment G) (hc : comms.get? l = some c) :
    s.senderIndex = l ∧ (∃ e ∈ es, e.senderIndex = l ∧ e.receiverIndex = s.receiverIndex) ∧
      s.eval • S.gen = Spec.pointEval c.points (s.receiverIndex.toNat : F) ∧
      (s.eval • S.gen = Spec.pointEval c.points (d.state.index.toNat : F) ↔
        Spec.pointEval c.points (s.receiverIndex.toNat : F) = Spec.pointEval c.points (d.state.index.toNat : F)) := by
  obtain ⟨h1, h2, h3⟩ := roundTwo_stored S dbg d comms hcomms hn es rng d' cs h
  rw [h1] at hm
  cases hm
  have hmem := BMap.mem_of_get?_ofList hs
  obtain ⟨e, he, ho⟩ := List.mem_filterMap.mp hmem
  obtain ⟨pk, v, hpk, hv, rfl, rfl⟩ := opened_eq_some.mp ho
  have key : v • S.gen = Spec.pointEval c.points (e.receiverIndex.toNat : F) := by
    by_cases hg : Spec.GoodShare S (d.state.dhPrivateKey • pk) c.points e
    · obtain ⟨w, hw, hw'⟩ := hg
      rw [hv.unique hw]; exact hw'
    · exfalso
      have hbad : e ∈ es.filter (BadFor S d.state.dhPrivateKey d.state.theirDhPublicKeys comms) :=
        List.mem_filter.mpr ⟨he, by simpa using ⟨pk, c, hpk, hc, hg⟩⟩
      clear ho hmem hs h1 h
      generalize es.filter (BadFor S d.state.dhPrivateKey d.state.theirDhPublicKeys comms) = bad at h3 hbad
      induction h3 with
      | nil => cases hbad
      | cons hh _ ih =>
        rcases List.mem_cons.mp hbad with rfl | hb
        · exact hcs _ List.mem_cons_self (by rw [hh.1])
        · exact ih (fun c hc => hcs c (List.mem_cons_of_mem _ hc)) hb
  refine ⟨rfl, ⟨e, he, rfl, rfl⟩, key, ?_⟩
  show v • S.gen = _ ↔ _
  rw [key]

/-! ### C44: two calls of `blame` -/

/-- The index removed by a complaint of a second call: a complaint whose accused was removed by the first call removes its
maker, any other complaint is judged as before. -/
noncomputable def Spec.secondVerdict (S : Suite F G R) (st : DkgState F G) (comms : BMap (VssCommitment G))
    (cs : List (Complaint F G)) (c : Complaint F G) : U32 :=
  if ∃ c0 ∈ cs, c.encShare.senderIndex = verdict S st comms c0 then c.encShare.receiverIndex else verdict S st comms c

/-- C44, exactly: what two calls remove. They lead to the same state as one call with all complaints exactly if the two
sets of removed indices agree on the indices that are on file. -/
theorem C44_two_calls (S : Suite F G R) (d : RoundTwo F G) (comms : BMap (VssCommitment G))
    (m : BMap (SecretShare F)) (hd : Holds d comms m) (cs cs' : List (Complaint F G)) :
    ∃ d1 k1 d2 k2 dAll kAll, d.blame S cs = .ok (d1, k1) ∧ d1.blame S cs' = .ok (d2, k2) ∧
      d.blame S (cs ++ cs') = .ok (dAll, kAll) ∧
      Removed d d2 comms m (fun k => (∃ c ∈ cs, k = verdict S d.state comms c) ∨
        ∃ c ∈ cs', k = Spec.secondVerdict S d.state comms cs c) ∧
      (d2 = dAll ↔ ∀ k, k ∈ comms.keys ∨ k ∈ m.keys → (∀ c ∈ cs, k ≠ verdict S d.state comms c) →
        ((∃ c ∈ cs', k = Spec.secondVerdict S d.state comms cs c) ↔ ∃ c ∈ cs', k = verdict S d.state comms c)) := by
  obtain ⟨d1, k1, h1, hr1, _⟩ := blame_removed S d comms m hd cs
  obtain ⟨comms1, m1, hd1, hst, hcg, hmg⟩ := hr1
  obtain ⟨d2, k2, h2, hr2, _⟩ := blame_removed S d1 comms1 m1 hd1 cs'
  obtain ⟨dA, kA, h3, hr3, _⟩ := blame_removed S d comms m hd (cs ++ cs')
  have hv : ∀ c, verdict S d1.state comms1 c = Spec.secondVerdict S d.state comms cs c := by
    intro c
    unfold Spec.secondVerdict
    by_cases hrem : ∃ c0 ∈ cs, c.encShare.senderIndex = verdict S d.state comms c0
    · rw [if_pos hrem]
      refine if_neg ?_
      rintro ⟨_, _, vc, hvc, _⟩
      rw [hcg, if_pos hrem] at hvc
      cases hvc
    · rw [if_neg hrem]
      have : Upheld S d1.state comms1 c ↔ Upheld S d.state comms c := by
        unfold Upheld
        rw [hst]
        simp only []
        rw [hcg, if_neg hrem]
      unfold verdict
      simp only [this]
  have hR : Removed d d2 comms m (fun k => (∃ c ∈ cs, k = verdict S d.state comms c) ∨
        ∃ c ∈ cs', k = Spec.secondVerdict S d.state comms cs c) := by
    obtain ⟨comms2, m2, hd2, hst2, hcg2, hmg2⟩ := hr2.congr (q := fun k =>
      ∃ c ∈ cs', k = Spec.secondVerdict S d.state comms cs c) fun k => by simp only [hv]
    refine ⟨comms2, m2, hd2, by rw [hst2, hst], fun k => ?_, fun k => ?_⟩
    · rw [hcg2, hcg]; exact ite_ite or_comm
    · rw [hmg2, hmg]; exact ite_ite or_comm
  refine ⟨d1, k1, d2, k2, dA, kA, h1, h2, h3, hR, ?_⟩
  have happ : ∀ k, (∃ c ∈ cs ++ cs', k = verdict S d.state comms c) ↔
      (∃ c ∈ cs, k = verdict S d.state comms c) ∨ ∃ c ∈ cs', k = verdict S d.state comms c := by
    intro k
    simp only [List.mem_append, or_and_right, exists_or]
  have hr3 := hr3.congr happ
  constructor
  · rintro rfl k hk hno
    have hno' : ¬ ∃ c ∈ cs, k = verdict S d.state comms c := by
      rintro ⟨c, hc, h⟩; exact hno c hc h
    obtain ⟨ca, ma, hda, _, hca, hma⟩ := hR
    obtain ⟨cb, mb, hdb, _, hcb, hmb⟩ := hr3
    have e1 : ca = cb := Option.some.inj (hda.commits.symm.trans hdb.commits)
    have e2 : ma = mb := Option.some.inj (hda.shares.symm.trans hdb.shares)
    subst e1 e2
    have a1 := (hca k).symm.trans (hcb k)
    have a2 := (hma k).symm.trans (hmb k)
    simp only [hno', false_or] at a1 a2
    by_cases p : ∃ c ∈ cs', k = Spec.secondVerdict S d.state comms cs c
    · by_cases q : ∃ c ∈ cs', k = verdict S d.state comms c
      · exact ⟨fun _ => q, fun _ => p⟩
      · exfalso
        rw [if_pos p, if_neg q] at a1 a2
        rcases hk with hk | hk
        · obtain ⟨v, hv⟩ := BMap.exists_get? hk; rw [hv] at a1; cases a1
        · obtain ⟨v, hv⟩ := BMap.exists_get? hk; rw [hv] at a2; cases a2
    · by_cases q : ∃ c ∈ cs', k = verdict S d.state comms c
      · exfalso
        rw [if_neg p, if_pos q] at a1 a2
        rcases hk with hk | hk
        · obtain ⟨v, hv⟩ := BMap.exists_get? hk; rw [hv] at a1; cases a1
        · obtain ⟨v, hv⟩ := BMap.exists_get? hk; rw [hv] at a2; cases a2
      · exact ⟨fun h => absurd h p, fun h => absurd h q⟩
  · intro hall
    refine hR.unique ?_
    obtain ⟨cb, mb, hdb, hsb, hcb, hmb⟩ := hr3
    refine ⟨cb, mb, hdb, hsb, fun k => ?_, fun k => ?_⟩
    · rw [hcb k]
      by_cases hk : k ∈ comms.keys
      · by_cases hc : ∃ c ∈ cs, k = verdict S d.state comms c
        · rw [if_pos (.inl hc), if_pos (.inl hc)]
        · have := hall k (.inl hk) (fun c h h' => hc ⟨c, h, h'⟩)
          by_cases p : ∃ c ∈ cs', k = Spec.secondVerdict S d.state comms cs c
          · rw [if_pos (.inr (this.mp p)), if_pos (.inr p)]
          · rw [if_neg (not_or.mpr ⟨hc, fun q => p (this.mpr q)⟩), if_neg (not_or.mpr ⟨hc, p⟩)]
      · have hg : comms.get? k = none := BMap.get?_eq_none.mpr hk
        rw [hg]; simp
    · rw [hmb k]
      by_cases hk : k ∈ m.keys
      · by_cases hc : ∃ c ∈ cs, k = verdict S d.state comms c
        · rw [if_pos (.inl hc), if_pos (.inl hc)]
        · have := hall k (.inr hk) (fun c h h' => hc ⟨c, h, h'⟩)
          by_cases p : ∃ c ∈ cs', k = Spec.secondVerdict S d.state comms cs c
          · rw [if_pos (.inr (this.mp p)), if_pos (.inr p)]
          · rw [if_neg (not_or.mpr ⟨hc, fun q => p (this.mpr q)⟩), if_neg (not_or.mpr ⟨hc, p⟩)]
      · have hg : m.get? k = none := BMap.get?_eq_none.mpr hk
        rw [hg]; simp

/-! ### C62: repeated inclusion -/

/-- C62, exactly: after any history the commitment share of an included index is that of its first inclusion, and its
public key that of its last inclusion made before more than `n` signers were included. -/
theorem C62_first_share_last_key (params : Params) (Y : G) (message : Bytes) (ops : List (AggOp F G)) (i : U32) :
    (∀ sh, (⟨i, sh⟩ : Signer G) ∈ (session params Y message ops).state.signers ↔
      ∃ pk, Spec.firstOf (Spec.inclusions ops) i = some (sh, pk)) ∧
    (∀ pk, (session params Y message ops).state.publicKeys.get? i = some pk ↔
      ∃ sh, Spec.lastOf (Spec.accepted params.n.toNat (Spec.inclusions ops)) i = some (sh, pk)) := by
  have h := reached params Y message ops
  refine ⟨fun sh => ?_, fun pk => ?_⟩
  · refine (h.signers ⟨i, sh⟩).trans ?_
    rw [Option.map_eq_some_iff]
    constructor
    · rintro ⟨⟨a, b⟩, hv, rfl⟩; exact ⟨b, hv⟩
    · rintro ⟨b, hv⟩; exact ⟨_, hv, rfl⟩
  · refine (Eq.congr_left (h.pk_eq i)).trans ?_
    rw [Option.map_eq_some_iff]
    constructor
    · rintro ⟨⟨a, b⟩, hv, rfl⟩; exact ⟨a, hv⟩
    · rintro ⟨b, hv⟩; exact ⟨_, hv, rfl⟩

section Examples

open Toy

/-- Concrete case of C62_first_share_last_key: index 1 included twice with different data. -/
example : (⟨1, (3, 4)⟩ : Signer Fp) ∈ (session (F := Fp) (G := Fp) ⟨3, 2⟩ 9 [] [.signer 1 (3, 4) ⟨1, 7⟩,
      .signer 1 (5, 6) ⟨1, 8⟩]).state.signers ∧
    (session (F := Fp) (G := Fp) ⟨3, 2⟩ 9 [] [.signer 1 (3, 4) ⟨1, 7⟩,
      .signer 1 (5, 6) ⟨1, 8⟩]).state.publicKeys.get? 1 = some 8 := by
  have h := C62_first_share_last_key (F := Fp) (G := Fp) ⟨3, 2⟩ 9 [] [.signer 1 (3, 4) ⟨1, 7⟩, .signer 1 (5, 6) ⟨1, 8⟩] 1
  refine ⟨(h.1 _).mpr ⟨7, rfl⟩, (h.2 _).mpr ⟨(5, 6), ?_⟩⟩
  rw [accepted_of_le _ _ (by simp [Spec.inclusions])]
  rfl

end Examples

end IceFrost
