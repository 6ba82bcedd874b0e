import Verif.Toy
import Verif.Lemmas.Codec
import Verif.Lemmas.Finish
import Verif.Props.RoundOne
import Verif.Props.Serialization

/-! # C75, C77–C79: saved states -/

set_option linter.unusedSectionVars false
set_option linter.unusedSimpArgs false

namespace IceFrost

open Codec

variable {F G R : Type} [Field F] [DecidableEq F] [AddCommGroup G] [Module F G] [DecidableEq G]

/-! ### Every reachable state fits its encoding -/

theorem fits_insert {α : Type} {P : α → Prop} {m : BMap α} {k : U32} {v : α} (h : BMap.WF m ∧ ∀ e ∈ m, P e.2)
    (hv : P v) : BMap.WF (m.insert k v) ∧ ∀ e ∈ m.insert k v, P e.2 := by
  have hw := BMap.wf_insert (k := k) (v := v) h.1
  refine ⟨hw, fun e he => ?_⟩
  have hg := (BMap.mem_iff_get? hw).mp he
  rw [BMap.get?_insert] at hg
  split at hg
  · simp only [Option.some.injEq] at hg; exact hg ▸ hv
  · exact h.2 _ ((BMap.mem_iff_get? h.1).mpr hg)

theorem fits_remove {α : Type} {P : α → Prop} {m : BMap α} {k : U32} (h : BMap.WF m ∧ ∀ e ∈ m, P e.2) :
    BMap.WF (m.remove k) ∧ ∀ e ∈ m.remove k, P e.2 := by
  have hw := BMap.wf_remove (k := k) h.1
  refine ⟨hw, fun e he => ?_⟩
  rw [BMap.remove_eq_filter h.1.nodup] at he
  exact h.2 e (List.mem_filter.mp he).1

/-- The invariant of the participant loop. -/
def AccFits (acc : RoundOneAcc F G) : Prop :=
  (BMap.WF acc.commitments ∧ ∀ e ∈ acc.commitments, e.2.Fits) ∧ BMap.WF acc.dhPublicKeys ∧
    (∀ p ∈ acc.valid, p.Fits)

theorem checkParticipant_fits (S : Suite F G R) (dbg : Bool) (params : Params) (fd fs : Bool)
    (acc acc' : RoundOneAcc F G) (p : Participant F G) (hp : p.Fits) (ha : AccFits acc)
    (h : checkParticipant S dbg params fd fs acc p = .ok acc') :
    AccFits acc' ∧ acc'.valid.length + acc'.misbehaving.length = acc.valid.length + acc.misbehaving.length + 1 := by
  have hb : AccFits (acc.blame p) ∧ (acc.blame p).valid.length + (acc.blame p).misbehaving.length =
      acc.valid.length + acc.misbehaving.length + 1 := by
    refine ⟨ha, ?_⟩
    simp only [RoundOneAcc.blame, List.length_append, List.length_cons, List.length_nil]
    omega
  unfold checkParticipant at h
  split at h
  · cases h; exact hb
  · split at h
    · split at h
      · cases h; exact hb
      · split at h
        · cases h
        · split at h
          · cases h; exact hb
          · split at h
            · cases h
            · next c hc =>
              split at h
              · cases h; exact hb
              · cases h
                refine ⟨⟨fits_insert ha.1 (hp c hc), BMap.wf_insert ha.2.1, ?_⟩, ?_⟩
                · intro q hq
                  rcases List.mem_append.mp hq with hq | hq
                  · exact ha.2.2 q hq
                  · rw [List.mem_singleton] at hq; exact hq ▸ hp
                · simp only [List.length_append, List.length_cons, List.length_nil]
                  omega
    · split at h
      · cases h
      · cases h
        refine ⟨⟨ha.1, BMap.wf_insert ha.2.1, ?_⟩, ?_⟩
        · intro q hq
          rcases List.mem_append.mp hq with hq | hq
          · exact ha.2.2 q hq
          · rw [List.mem_singleton] at hq; exact hq ▸ hp
        · simp only [List.length_append, List.length_cons, List.length_nil]
          omega

theorem foldlM_check_fits (S : Suite F G R) (dbg : Bool) (params : Params) (fd fs : Bool)
    (ps : List (Participant F G)) (hps : ∀ p ∈ ps, p.Fits) (acc acc' : RoundOneAcc F G) (ha : AccFits acc)
    (h : ps.foldlM (checkParticipant S dbg params fd fs) acc = .ok acc') :
    AccFits acc' ∧
      acc'.valid.length + acc'.misbehaving.length = acc.valid.length + acc.misbehaving.length + ps.length := by
  induction ps generalizing acc with
  | nil =>
    simp only [List.foldlM_nil, pure, Except.pure, Except.ok.injEq] at h
    subst h
    exact ⟨ha, rfl⟩
  | cons p ps ih =>
    rw [List.foldlM_cons] at h
    cases hc : checkParticipant S dbg params fd fs acc p with
    | error f => rw [hc] at h; cases h
    | ok acc1 =>
      rw [hc] at h
      obtain ⟨h1, h2⟩ := checkParticipant_fits S dbg params fd fs acc acc1 p (hps p (by simp)) ha hc
      obtain ⟨h3, h4⟩ := ih (fun q hq => hps q (by simp [hq])) acc1 h1 h
      refine ⟨h3, ?_⟩
      rw [h4, h2, List.length_cons]
      omega

/-- Nonces have the cipher's size, and encrypted scalars are byte vectors in memory. -/
structure Suite.ShortCiphertexts (S : Suite F G R) : Prop where
  nonce : S.nonceSize < 2 ^ 64
  ct : ∀ P key nonce a ct, S.kdf (S.encG P) = some key → nonce.length = S.nonceSize →
    S.aeadEnc key nonce (S.encF a) = some ct → ct.length < 2 ^ 64
  draw : ∀ rng, (S.randBytes S.nonceSize rng).1.length = S.nonceSize

theorem dealShares_fits {S : Suite F G R} (hs : S.ShortCiphertexts) (x : F) (i : U32) (cs : Option (List F))
    (ps : List (Participant F G)) (m m' : BMap EncShare) (rng rng' : R)
    (hm : BMap.WF m ∧ ∀ e ∈ m, e.2.Fits S) (h : dealShares S x i cs ps m rng = .ok (m', rng')) :
    BMap.WF m' ∧ ∀ e ∈ m', e.2.Fits S := by
  induction ps generalizing m rng with
  | nil => cases h; exact hm
  | cons p ps ih =>
    unfold dealShares at h
    split at h
    · cases h
    · simp only at h
      split at h
      · cases h
      · next e rng1 he =>
        refine ih _ _ (fits_insert hm ?_) h
        unfold encryptShare at he
        split at he
        · cases he
        · next key hkey =>
          simp only at he
          split at he
          · cases he
          · next ct hct =>
            simp only [Except.ok.injEq, Prod.mk.injEq] at he
            rw [← he.1]
            exact ⟨hs.draw rng, hs.nonce, hs.ct _ _ _ _ _ hkey (hs.draw rng) hct⟩

theorem participantList_fits {valid : List (Participant F G)} {mis : List U32} {n : U32}
    (hv : ∀ p ∈ valid, p.Fits) (hl : valid.length + mis.length = n.toNat) : (participantList valid mis).Fits := by
  have := n.toNat_lt
  refine ⟨⟨?_, hv⟩, fun m hm => ?_⟩
  · show valid.length < _
    omega
  · unfold participantList at hm
    simp only at hm
    split at hm
    · cases hm
    · simp only [Option.some.injEq] at hm
      subst hm
      omega

theorem params_new_ok {dbg : Bool} {n t : U32} {p : Params} (h : Params.new (F := F) (G := G) dbg n t = .ok p) :
    p = ⟨n, t⟩ ∧ n ≠ 0 ∧ t ≠ 0 ∧ t ≤ n := by
  unfold Params.new at h
  split at h
  · cases h
  · split at h
    · cases h
    · split at h
      · cases h
      · split at h
        · cases h
        · next hc =>
          simp only [Bool.or_eq_true, beq_iff_eq, decide_eq_true_eq, not_or] at hc
          cases h
          exact ⟨rfl, hc.1.1, hc.1.2, UInt32.not_lt.mp hc.2⟩

/-- What is known of any state that `bootstrap`, `new` and `reshare` build. -/
theorem newState_fits {S : Suite F G R} (hs : S.ShortCiphertexts) (dbg : Bool) (params : Params) (x : F) (i : U32)
    (cs : Option (List F)) (ps : List (Participant F G)) (hps : ∀ p ∈ ps, p.Fits) (fd fs : Bool) (rng rng' : R)
    (d : RoundOne F G) (l : ParticipantList F G)
    (h : newStateInternal S dbg params x i cs ps fd fs rng = .ok ((d, l), rng')) :
    d.state.Fits S ∧ l.Fits ∧ d.state.mySecretShares = none ∧ params.n ≠ 0 ∧ params.t ≠ 0 ∧ params.t ≤ params.n := by
  unfold newStateInternal at h
  simp only at h
  split at h
  · cases h
  · next hlen =>
    rw [ne_eq, not_not] at hlen
    split at h
    · cases h
    · next acc hacc =>
      have h0 : AccFits (⟨[], [], [], []⟩ : RoundOneAcc F G) :=
        ⟨⟨by simp [BMap.WF, BMap.keys], by simp⟩, by simp [BMap.WF, BMap.keys], by simp⟩
      obtain ⟨⟨h1, h2, h3⟩, h4⟩ := foldlM_check_fits S dbg params fd fs ps hps _ acc h0 hacc
      simp only [List.length_nil, Nat.zero_add, hlen] at h4
      split at h
      · cases h
      · next ht =>
        have htn : params.t ≤ params.n := by rw [UInt32.le_iff_toNat_le]; omega
        have hn0 : params.t ≠ 0 → params.n ≠ 0 := by
          intro h h'
          rw [h', UInt32.le_iff_toNat_le] at htn
          apply h
          apply UInt32.toNat_inj.mp
          simpa using htn
        split at h
        · split at h
          · cases h
          · split at h
            · cases h
            · next p hp =>
              cases h
              obtain ⟨_, _, ht0, _⟩ := params_new_ok hp
              refine ⟨⟨?_, h2, ?_, ?_⟩, participantList_fits h3 h4, rfl, hn0 ht0, ht0, htn⟩
              · rintro m hm; cases hm; exact h1
              · rintro m hm; cases hm
              · rintro m hm; cases hm
        · split at h
          · cases h
          · next shares rng1 hsh =>
            split at h
            · cases h
            · split at h
              · cases h
              · next p hp =>
                cases h
                obtain ⟨_, _, ht0, _⟩ := params_new_ok hp
                refine ⟨⟨?_, h2, ?_, ?_⟩, participantList_fits h3 h4, rfl, hn0 ht0, ht0, htn⟩
                · intro m hm
                  simp only at hm
                  split at hm
                  · cases hm; exact h1
                  · cases hm
                · rintro m hm
                  cases hm
                  exact dealShares_fits hs x i cs ps [] _ rng _ ⟨by simp [BMap.WF, BMap.keys], by simp⟩ hsh
                · rintro m hm; cases hm

theorem roundTwoLoop_wf (S : Suite F G R) (dbg : Bool) (st : DkgState F G) (es : List EncShare)
    (m m' : BMap (SecretShare F)) (cs cs' : List (Complaint F G)) (rng : R) (hm : BMap.WF m)
    (h : roundTwoLoop S dbg st es m cs rng = .ok (m', cs')) : BMap.WF m' := by
  induction es generalizing m cs rng with
  | nil => cases h; exact hm
  | cons e es ih =>
    unfold roundTwoLoop at h
    split at h
    · cases h
    · split at h
      · cases h
      · simp only at h
        split at h
        · cases h
        · refine ih _ _ _ ?_ h
          split
          · exact BMap.wf_insert hm
          · exact hm

theorem toRoundTwo_fits {S : Suite F G R} (dbg : Bool) (d : RoundOne F G) (hd : d.state.Fits S) (es : List EncShare)
    (rng : R) (d' : RoundTwo F G) (cs : List (Complaint F G)) (h : d.toRoundTwo S dbg es rng = .ok (d', cs)) :
    d'.state.Fits S := by
  unfold RoundOne.toRoundTwo at h
  simp only at h
  split at h
  · cases h
  · split at h
    · cases h
    · next shares cs' hl =>
      split at h
      · cases h
      · split at h
        · cases h
        · cases h
          refine ⟨hd.commitments, hd.dhKeys, (fun m hm => by cases hm), fun m hm => ?_⟩
          cases hm
          exact roundTwoLoop_wf S dbg _ es [] _ [] _ rng (by simp [BMap.WF, BMap.keys]) hl

theorem foldlM_remove_fits {S : Suite F G R} (l : List U32) (st st' : DkgState F G) (hs : st.Fits S)
    (h : l.foldlM removeMalicious st = .ok st') : st'.Fits S := by
  induction l generalizing st with
  | nil =>
    simp only [List.foldlM_nil, pure, Except.pure, Except.ok.injEq] at h
    exact h ▸ hs
  | cons i l ih =>
    rw [List.foldlM_cons] at h
    cases hr : removeMalicious st i with
    | error f => rw [hr] at h; cases h
    | ok st1 =>
      rw [hr] at h
      refine ih st1 ?_ h
      unfold removeMalicious at hr
      split at hr
      · cases hr
      · next comms hc =>
        split at hr
        · cases hr
        · next m hm =>
          cases hr
          refine ⟨fun m' hm' => ?_, hs.dhKeys, hs.encShares, fun m' hm' => ?_⟩
          · cases hm'; exact fits_remove (hs.commitments comms hc)
          · cases hm'; exact BMap.wf_remove (hs.shares m hm)

theorem blame_fits {S : Suite F G R} (d d' : RoundTwo F G) (hd : d.state.Fits S) (cs : List (Complaint F G))
    (ks : List G) (h : d.blame S cs = .ok (d', ks)) : d'.state.Fits S := by
  unfold RoundTwo.blame at h
  split at h
  · cases h
  · simp only at h
    split at h
    · cases h
    · next st hst => cases h; exact foldlM_remove_fits _ _ _ hd hst

/-! ### Sessions with crashes -/

namespace Spec

/-- Saving a round-one state and reading it back, or not. -/
def crashOne (S : Suite F G R) (crash : Bool) (d : RoundOne F G) : Res F G (RoundOne F G) :=
  if crash then Out.lift ((toBytes (roundOneCodec S) d).bind (fromBytes (roundOneCodec S))) else .ok d

/-- Saving a round-two state and reading it back, or not. -/
def crashTwo (S : Suite F G R) (crash : Bool) (d : RoundTwo F G) : Res F G (RoundTwo F G) :=
  if crash then Out.lift ((toBytes (roundTwoCodec S) d).bind (fromBytes (roundTwoCodec S))) else .ok d

/-- Any number of `blame` calls, with a possible crash before each, then a possible crash, then `finish`: the keys
returned by each `blame`, and the group key and signing key. -/
def endSession (S : Suite F G R) (crashEnd : Bool) :
    List (Bool × List (Complaint F G)) → RoundTwo F G → Res F G (List (List G) × (G × IndividualSigningKey F))
  | [], d => (crashTwo S crashEnd d).bind fun d => d.finish.map fun r => ([], r)
  | (crash, complaints) :: rest, d =>
    (crashTwo S crash d).bind fun d => (d.blame S complaints).bind fun p =>
      (endSession S crashEnd rest p.1).map fun r => (p.2 :: r.1, r.2)

/-- A whole session from round one, with possible crashes before `to_round_two`, every `blame` and `finish`. -/
def session (S : Suite F G R) (dbg : Bool) (crashStart crashEnd : Bool) (blames : List (Bool × List (Complaint F G)))
    (shares : List EncShare) (rng : R) (d : RoundOne F G) :
    Res F G (List (Complaint F G) × List (List G) × (G × IndividualSigningKey F)) :=
  (crashOne S crashStart d).bind fun d => (d.toRoundTwo S dbg shares rng).bind fun p =>
    (endSession S crashEnd blames p.1).map fun r => (p.2, r)

end Spec

theorem crashOne_ok {S : Suite F G R} (hd : S.CodecLaws) (crash : Bool) (d : RoundOne F G) (h : d.state.Fits S) :
    Spec.crashOne S crash d = .ok d := by
  unfold Spec.crashOne
  cases crash with
  | false => rfl
  | true =>
    obtain ⟨bs, h1, h2⟩ := C72_round_one hd d h
    rw [if_pos rfl, h1]
    show Out.lift (fromBytes (roundOneCodec S) bs) = _
    rw [h2]
    rfl

theorem crashTwo_ok {S : Suite F G R} (hd : S.CodecLaws) (crash : Bool) (d : RoundTwo F G) (h : d.state.Fits S) :
    Spec.crashTwo S crash d = .ok d := by
  unfold Spec.crashTwo
  cases crash with
  | false => rfl
  | true =>
    obtain ⟨bs, h1, h2⟩ := C72_round_two hd d h
    rw [if_pos rfl, h1]
    show Out.lift (fromBytes (roundTwoCodec S) bs) = _
    rw [h2]
    rfl

theorem endSession_crash {S : Suite F G R} (hd : S.CodecLaws) (crashEnd : Bool)
    (blames : List (Bool × List (Complaint F G))) (d : RoundTwo F G) (h : d.state.Fits S) :
    Spec.endSession S crashEnd blames d = Spec.endSession S false (blames.map fun b => (false, b.2)) d := by
  induction blames generalizing d with
  | nil =>
    unfold Spec.endSession
    rw [crashTwo_ok hd crashEnd d h]
    rfl
  | cons b rest ih =>
    obtain ⟨crash, cs⟩ := b
    rw [List.map_cons]
    unfold Spec.endSession
    rw [crashTwo_ok hd crash d h, crashTwo_ok hd false d h]
    simp only [Except.bind]
    cases hb : d.blame S cs with
    | error f => rfl
    | ok p =>
      obtain ⟨d', ks⟩ := p
      simp only
      rw [ih d' (blame_fits d d' h cs ks hb)]

/-- C77: from any round-one state that fits its encoding, whatever shares, complaints and randomness come later, a
session with any set of crashes has the same outputs (complaints, removed keys, group key and signing key, or the same
failure) as one without. -/
theorem C77_crashes_invisible {S : Suite F G R} (hd : S.CodecLaws) (dbg crashStart crashEnd : Bool)
    (blames : List (Bool × List (Complaint F G))) (shares : List EncShare) (rng : R) (d : RoundOne F G)
    (h : d.state.Fits S) :
    Spec.session S dbg crashStart crashEnd blames shares rng d =
      Spec.session S dbg false false (blames.map fun b => (false, b.2)) shares rng d := by
  unfold Spec.session
  rw [crashOne_ok hd crashStart d h, crashOne_ok hd false d h]
  simp only [Except.bind]
  cases hr : d.toRoundTwo S dbg shares rng with
  | error f => rfl
  | ok p =>
    obtain ⟨d', cs⟩ := p
    simp only
    rw [endSession_crash hd crashEnd blames d' (toRoundTwo_fits dbg d h shares rng d' cs hr)]

/-- C77: the states that `bootstrap` and `new` return always fit, when the participants are in memory. -/
theorem C77_states_fit {S : Suite F G R} (hs : S.ShortCiphertexts) (dbg : Bool) (params : Params) (x : F) (i : U32)
    (cs : List F) (ps : List (Participant F G)) (hps : ∀ p ∈ ps, p.Fits) (rng : R) (d : RoundOne F G)
    (l : ParticipantList F G)
    (h : bootstrap S dbg params x i cs ps rng = .ok (d, l) ∨ dkgNew S dbg params x i ps rng = .ok (d, l)) :
    d.state.Fits S ∧ l.Fits := by
  rcases h with h | h
  · unfold bootstrap at h
    cases hn : newStateInternal S dbg params x i (some cs) ps true true rng with
    | error f => rw [hn] at h; cases h
    | ok v =>
      obtain ⟨⟨d', l'⟩, rng'⟩ := v
      rw [hn] at h
      cases h
      obtain ⟨h1, h2, _⟩ := newState_fits hs dbg params x i _ ps hps _ _ rng rng' d l hn
      exact ⟨h1, h2⟩
  · unfold dkgNew at h
    cases hn : newStateInternal S dbg params x i none ps false true rng with
    | error f => rw [hn] at h; cases h
    | ok v =>
      obtain ⟨⟨d', l'⟩, rng'⟩ := v
      rw [hn] at h
      cases h
      obtain ⟨h1, h2, _⟩ := newState_fits hs dbg params x i _ ps hps _ _ rng rng' d l hn
      exact ⟨h1, h2⟩

theorem checkParticipant_length (S : Suite F G R) (dbg : Bool) (params : Params) (fd fs : Bool)
    (acc acc' : RoundOneAcc F G) (p : Participant F G) (h : checkParticipant S dbg params fd fs acc p = .ok acc') :
    acc'.valid.length ≤ acc.valid.length + 1 := by
  have hb : (acc.blame p).valid.length ≤ acc.valid.length + 1 := by simp [RoundOneAcc.blame]
  unfold checkParticipant at h
  repeat' split at h
  all_goals cases h
  all_goals first | exact hb | simp

theorem foldlM_check_length (S : Suite F G R) (dbg : Bool) (params : Params) (fd fs : Bool)
    (ps : List (Participant F G)) (acc acc' : RoundOneAcc F G)
    (h : ps.foldlM (checkParticipant S dbg params fd fs) acc = .ok acc') :
    acc'.valid.length ≤ acc.valid.length + ps.length := by
  induction ps generalizing acc with
  | nil =>
    simp only [List.foldlM_nil, pure, Except.pure, Except.ok.injEq] at h
    subst h
    simp
  | cons p ps ih =>
    rw [List.foldlM_cons] at h
    cases hc : checkParticipant S dbg params fd fs acc p with
    | error f => rw [hc] at h; cases h
    | ok acc1 =>
      rw [hc] at h
      have h1 := checkParticipant_length S dbg params fd fs acc acc1 p hc
      have h2 := ih acc1 h
      rw [List.length_cons]
      omega

theorem newState_threshold (S : Suite F G R) (dbg : Bool) (params : Params) (x : F) (i : U32)
    (cs : Option (List F)) (ps : List (Participant F G)) (fd fs : Bool) (rng : R) (v)
    (h : newStateInternal S dbg params x i cs ps fd fs rng = .ok v) : params.t ≠ 0 ∧ params.t ≤ params.n := by
  refine ⟨fun ht => newState_t_zero S dbg params ht x i cs ps fd fs rng v h, ?_⟩
  unfold newStateInternal at h
  simp only at h
  split at h
  · cases h
  · next hlen =>
    rw [ne_eq, not_not] at hlen
    split at h
    · cases h
    · next acc hacc =>
      have h1 := foldlM_check_length S dbg params fd fs ps _ acc hacc
      simp only [List.length_nil, Nat.zero_add, hlen] at h1
      split at h
      · cases h
      · next ht => rw [UInt32.le_iff_toNat_le]; omega

/-- C75, what holds: decoded parameters need not be sound, but no session starts with unsound ones: `bootstrap`, `new`
and `reshare` all fail on them. -/
theorem C75_no_session_partial {S : Suite F G R} (dbg : Bool) (params : Params)
    (hbad : params.n = 0 ∨ params.t = 0 ∨ params.n < params.t) (x : F) (i : U32) (cs : List F)
    (sk : IndividualSigningKey F) (ps : List (Participant F G)) (rng : R) :
    (∀ r, bootstrap S dbg params x i cs ps rng ≠ .ok r) ∧ (∀ r, dkgNew S dbg params x i ps rng ≠ .ok r) ∧
      (∀ r, reshare S dbg params sk ps rng ≠ .ok r) := by
  have key : ∀ x i cs fd fs rng v, newStateInternal S dbg params x i cs ps fd fs rng ≠ .ok v := by
    intro x i cs fd fs rng v h
    obtain ⟨h2, h3⟩ := newState_threshold S dbg params x i cs ps fd fs rng v h
    rcases hbad with h' | h' | h'
    · rw [h', UInt32.le_iff_toNat_le] at h3
      apply h2
      apply UInt32.toNat_inj.mp
      simpa using h3
    · exact h2 h'
    · exact absurd h' (UInt32.not_lt.mpr h3)
  refine ⟨fun r h => ?_, fun r h => ?_, fun r h => ?_⟩
  · unfold bootstrap at h
    cases hn : newStateInternal S dbg params x i (some cs) ps true true rng with
    | error f => rw [hn] at h; cases h
    | ok v => exact key _ _ _ _ _ _ _ hn
  · unfold dkgNew at h
    cases hn : newStateInternal S dbg params x i none ps false true rng with
    | error f => rw [hn] at h; cases h
    | ok v => exact key _ _ _ _ _ _ _ hn
  · unfold reshare at h
    split at h
    · cases h
    · cases h
    · split at h
      · cases h
      · next hn => exact key _ _ _ _ _ _ _ hn

/-- C78 is false: the two rounds write the same bytes, and each is read back as the other. -/
theorem C78_interchangeable {S : Suite F G R} (hd : S.CodecLaws) (st : DkgState F G) (h : st.Fits S) :
    ∃ bs, toBytes (F := F) (G := G) (roundOneCodec S) ⟨st⟩ = .ok bs ∧
      toBytes (F := F) (G := G) (roundTwoCodec S) ⟨st⟩ = .ok bs ∧
      fromBytes (F := F) (G := G) (roundOneCodec S) bs = .ok ⟨st⟩ ∧
      fromBytes (F := F) (G := G) (roundTwoCodec S) bs = .ok ⟨st⟩ := by
  obtain ⟨b1, h1, h2⟩ := C72_round_one hd ⟨st⟩ h
  obtain ⟨b2, h3, h4⟩ := C72_round_two hd ⟨st⟩ h
  simp only [toBytes, Except.ok.injEq] at h1 h3
  subst h1
  subst h3
  exact ⟨_, rfl, rfl, h2, h4⟩

/-- C78, what holds: a fresh round-one state read as a round-two state cannot complete: `finish` and every `blame` that
removes someone panic. -/
theorem C78_cannot_finish_partial {S : Suite F G R} (hd : S.CodecLaws) (hs : S.ShortCiphertexts) (dbg : Bool)
    (params : Params) (x : F) (i : U32) (cs : List F) (ps : List (Participant F G)) (hps : ∀ p ∈ ps, p.Fits) (rng : R)
    (d : RoundOne F G) (l : ParticipantList F G)
    (h : bootstrap S dbg params x i cs ps rng = .ok (d, l) ∨ dkgNew S dbg params x i ps rng = .ok (d, l))
    (bs : Bytes) (d' : RoundTwo F G) (hb : toBytes (F := F) (G := G) (roundOneCodec S) d = .ok bs)
    (hr : fromBytes (F := F) (G := G) (roundTwoCodec S) bs = .ok d') :
    d'.finish = .error (.panic .expectNone) ∧ ∀ c cs r, d'.blame S (c :: cs) ≠ .ok r := by
  have hf := (C77_states_fit hs dbg params x i cs ps hps rng d l h).1
  obtain ⟨b, h1, _, _, h4⟩ := C78_interchangeable hd d.state hf
  have : b = bs := by
    have := h1.symm.trans hb
    simpa using this
  subst this
  have : d' = ⟨d.state⟩ := by
    have := hr.symm.trans h4
    simpa using this
  subst this
  have hnone : d.state.mySecretShares = none := by
    rcases h with h | h
    · unfold bootstrap at h
      cases hn : newStateInternal S dbg params x i (some cs) ps true true rng with
      | error f => rw [hn] at h; cases h
      | ok v =>
        obtain ⟨⟨d', l'⟩, rng'⟩ := v
        rw [hn] at h
        cases h
        exact (newState_fits hs dbg params x i _ ps hps _ _ rng rng' d l hn).2.2.1
    · unfold dkgNew at h
      cases hn : newStateInternal S dbg params x i none ps false true rng with
      | error f => rw [hn] at h; cases h
      | ok v =>
        obtain ⟨⟨d', l'⟩, rng'⟩ := v
        rw [hn] at h
        cases h
        exact (newState_fits hs dbg params x i _ ps hps _ _ rng rng' d l hn).2.2.1
  constructor
  · unfold RoundTwo.finish RoundTwo.calculateSigningKey
    simp only [hnone]
  · intro c cs r hb
    unfold RoundTwo.blame at hb
    split at hb
    · cases hb
    · next vs hv =>
      simp only at hb
      have hne : vs ≠ [] := by
        rintro rfl
        rw [List.mapM_cons] at hv
        cases hj : judge S d.state c with
        | error f => rw [hj] at hv; cases hv
        | ok v =>
          rw [hj] at hv
          cases hm : cs.mapM (judge S d.state) with
          | error f => simp only [hm, bind, Except.bind] at hv; cases hv
          | ok vs => simp only [hm, bind, Except.bind, pure, Except.pure, Except.ok.injEq] at hv; cases hv
      obtain ⟨v, vs', rfl⟩ := List.exists_cons_of_ne_nil hne
      have hmem : v ∈ dedupByKey id (sortByKey id (v :: vs')) := (sortDedup_mem _ _).mpr (by simp)
      cases hp : dedupByKey id (sortByKey id (v :: vs')) with
      | nil => rw [hp] at hmem; simp at hmem
      | cons a as =>
        rw [hp, List.foldlM_cons] at hb
        have : ∃ f, removeMalicious d.state a = .error f := by
          unfold removeMalicious
          split
          · exact ⟨_, rfl⟩
          · rw [hnone]; exact ⟨_, rfl⟩
        obtain ⟨f, hf⟩ := this
        rw [hf] at hb
        cases hb

/-- C79: when the signing key has been computed, every secret share in the state is zero: value and both indices. No
share is added or dropped, and nothing else in the state changes. -/
theorem C79_shares_erased (d d' : RoundTwo F G) (sk : IndividualSigningKey F)
    (h : d.calculateSigningKey = (.ok sk, d')) :
    ∃ m, d.state.mySecretShares = some m ∧
      d' = ⟨{ d.state with mySecretShares := some (m.map fun e => (e.1, ⟨0, 0, 0⟩)) }⟩ := by
  have key : ∀ (l : List U32) (rest rest' : List (U32 × SecretShare F)) (k k' : F),
      signingKeyLoop (G := G) l rest k = (.ok k', rest') → rest' = rest.map fun e => (e.1, ⟨0, 0, 0⟩) := by
    intro l rest
    induction rest with
    | nil =>
      intro rest' k k' h
      unfold signingKeyLoop at h
      simp only [Prod.mk.injEq] at h
      rw [← h.2]
      rfl
    | cons e rest ih =>
      intro rest' k k' h
      obtain ⟨i, s⟩ := e
      unfold signingKeyLoop at h
      split at h
      · simp only [Prod.mk.injEq] at h; exact absurd h.1 (by simp)
      · next c hc =>
        cases hl : signingKeyLoop (G := G) l rest (k + s.eval * c) with
        | mk r r' =>
          rw [hl] at h
          simp only [Prod.mk.injEq] at h
          obtain ⟨rfl, rfl⟩ := h
          rw [ih r' _ _ hl]
          rfl
  unfold RoundTwo.calculateSigningKey at h
  split at h
  · simp only [Prod.mk.injEq] at h; exact absurd h.1 (by simp)
  · next m hm =>
    refine ⟨m, hm, ?_⟩
    cases hl : signingKeyLoop (G := G) m.keys m 0 with
    | mk r r' =>
      rw [hl] at h
      simp only [Prod.mk.injEq] at h
      obtain ⟨h1, rfl⟩ := h
      cases r with
      | error f => cases h1
      | ok k => rw [key _ _ _ _ _ hl]

/-- C79: when the computation fails, no share has been consumed and the state is unchanged. -/
theorem C79_unchanged_on_error (hu : Suite.U32Inj F) (d d' : RoundTwo F G) (f : Fail F G)
    (h : d.calculateSigningKey = (.error f, d')) : d' = d := by
  unfold RoundTwo.calculateSigningKey at h
  split at h
  · simp only [Prod.mk.injEq] at h; exact h.2.symm
  · next m hm =>
    simp only at h
    have hc : (∃ e, ∀ i, lagrangeCoeff (F := F) (G := G) i m.keys = .error e) ∨
        ∃ L : U32 → F, ∀ i, lagrangeCoeff (F := F) (G := G) i m.keys = .ok (L i) := by
      by_cases h1 : m.keys.Nodup
      · by_cases h2 : 0 ∈ m.keys
        · exact Or.inl ⟨_, fun i => by rw [lagrangeCoeff_uniform hu, if_neg (by simpa using h1), if_pos h2]⟩
        · exact Or.inr ⟨Spec.lagrange m.keys, fun i => by
            rw [lagrangeCoeff_uniform hu, if_neg (by simpa using h1), if_neg h2]⟩
      · exact Or.inl ⟨_, fun i => by rw [lagrangeCoeff_uniform hu, if_pos h1]⟩
    rcases hc with ⟨e, he⟩ | ⟨L, hL⟩
    · have : (signingKeyLoop (G := G) m.keys m (0 : F)).2 = m := by
        cases hmm : m with
        | nil => rfl
        | cons x rest =>
          obtain ⟨i, s⟩ := x
          rw [← hmm]
          unfold signingKeyLoop
          rw [hmm]
          simp only
          rw [← hmm, he]
      simp only [Prod.mk.injEq] at h
      rw [← h.2, this, ← hm]
    · rw [signingKeyLoop_ok m.keys L m (fun e _ => hL e.1)] at h
      simp only [Prod.mk.injEq, Except.map] at h
      exact absurd h.1 (by simp)

section Examples
open Toy

theorem _root_.IceFrost.Toy.short_ciphertexts : suite.ShortCiphertexts where
  nonce := by simp [suite]
  draw rng := leBytes_length _ _
  ct P key nonce a ct hk hn h := by
    simp only [suite, Option.some.injEq] at hk hn h
    subst hk
    subst h
    simp only [List.length_append, hn, enc_length]
    norm_num

/-- A round-two state whose signing key is computed: the hypothesis of `C79_shares_erased`. -/
example : ∃ (d d' : RoundTwo Fp Fp) (sk : IndividualSigningKey Fp), d.calculateSigningKey = (.ok sk, d') ∧
    d.state.mySecretShares = some [(1, ⟨1, 1, 14⟩), (2, ⟨2, 1, 13⟩)] :=
  ⟨⟨⟨⟨3, 2⟩, 1, 5, 5, none, [], none, some [(1, ⟨1, 1, 14⟩), (2, ⟨2, 1, 13⟩)]⟩⟩, _, _, calculateSigningKey_ok u32_inj _ _ rfl (by simp [BMap.keys]) (by simp [BMap.keys])
      (fun k => if k = 1 then 14 else 13) (by
        intro k s h
        by_cases h1 : k = 1
        · subst h1; simp [BMap.get?] at h; subst h; rfl
        · by_cases h2 : k = 2
          · subst h2; simp [BMap.get?] at h; subst h; rfl
          · simp [BMap.get?, h1, h2] at h), rfl⟩

/-- A state that cannot: share zero, the hypothesis of `C79_unchanged_on_error`. -/
example (d : RoundTwo Fp Fp) (h : d.state.mySecretShares = some [(0, ⟨0, 1, 14⟩), (2, ⟨2, 1, 13⟩)]) :
    ∃ f, d.calculateSigningKey = (.error f, d) := by
  have : ∃ f, d.calculateSigningKey.1 = .error f := by
    unfold RoundTwo.calculateSigningKey
    rw [h]
    simp only
    unfold signingKeyLoop
    rw [lagrangeCoeff_uniform u32_inj, if_neg (by simp [BMap.keys]), if_pos (by simp [BMap.keys])]
    exact ⟨_, rfl⟩
  obtain ⟨f, hf⟩ := this
  cases hc : d.calculateSigningKey with
  | mk r d' =>
    rw [hc] at hf
    simp only at hf
    subst hf
    rw [C79_unchanged_on_error u32_inj d d' f hc]
    exact ⟨f, rfl⟩

end Examples

end IceFrost
