import Verif.Props.Errors
import Verif.Props.RoundTwo
import Verif.Props.Blame

/-! # C128: whether and how a call fails does not depend on secrets -/

set_option linter.unusedSectionVars false
set_option linter.unusedSimpArgs false
set_option linter.unusedVariables false

namespace IceFrost

attribute [local instance low] Classical.propDecidable

variable {F G R : Type} [Field F] [DecidableEq F] [AddCommGroup G] [Module F G] [DecidableEq G]

/-- What everybody may know of a round-one result: the parameters, the index, the records on file, the receivers of
shares, and the classification of the participants. -/
def Spec.roundOneView (v : RoundOne F G × ParticipantList F G) :
    Params × U32 × Option (BMap (VssCommitment G)) × BMap G × Option (List U32) × ParticipantList F G :=
  (v.1.state.parameters, v.1.state.index, v.1.state.theirCommitments, v.1.state.theirDhPublicKeys,
    v.1.state.theirEncryptedSecretShares.map BMap.keys, v.2)

/-- Sender and receiver of each share complained about. -/
def Spec.labels (cs : List (Complaint F G)) : List (U32 × U32) :=
  cs.map fun c => (c.encShare.senderIndex, c.encShare.receiverIndex)

/-- What round two tells: the failure if there is one (of complaints the sender and the receiver), and on success the
parameters, the indices on file and the senders and receivers of the shares complained about. -/
def Spec.roundTwoView : Res F G (RoundTwo F G × List (Complaint F G)) →
    (Fail F G ⊕ List (U32 × U32)) ⊕ (Params × U32 × Option (List U32) × List U32 × List (U32 × U32))
  | .error (.err (.complaint cs)) => .inl (.inr (Spec.labels cs))
  | .error f => .inl (.inl f)
  | .ok v => .inr (v.1.state.parameters, v.1.state.index, v.1.state.theirCommitments.map BMap.keys,
      v.1.state.theirDhPublicKeys.keys, Spec.labels v.2)

theorem insert_keys_congr {A B : Type} (m : BMap A) (m' : BMap B) (h : m.keys = m'.keys) (k : U32) (a : A) (b : B) :
    (m.insert k a).keys = (m'.insert k b).keys := by
  induction m generalizing m' with
  | nil =>
    cases m' with
    | nil => rfl
    | cons e l => simp [BMap.keys] at h
  | cons e l ih =>
    cases m' with
    | nil => simp [BMap.keys] at h
    | cons e' l' =>
      obtain ⟨k1, v1⟩ := e
      obtain ⟨k2, v2⟩ := e'
      have h1 : k1 = k2 := by simpa [BMap.keys] using congrArg List.head? h
      have h2 : BMap.keys l = BMap.keys l' := by simpa [BMap.keys] using congrArg List.tail h
      subst h1
      simp only [BMap.insert]
      split
      · simpa [BMap.keys] using h2
      · split
        · simpa [BMap.keys] using h2
        · have := ih l' h2
          simpa [BMap.keys] using this

/-- Dealing always succeeds and the receivers do not depend on the secrets. -/
theorem dealShares_view {S : Suite F G R} (hc : S.CipherLaws) (hd : S.CodecLaws) (x x' : F) (i : U32) (cs cs' : List F)
    (ps : List (Participant F G)) (m m' : BMap EncShare) (hm : m.keys = m'.keys) (rng rng' : R) :
    ∃ r r', ∃ n n' : BMap EncShare, dealShares S x i (some cs) ps m rng = .ok (n, r) ∧
      dealShares S x' i (some cs') ps m' rng' = .ok (n', r') ∧ n.keys = n'.keys := by
  induction ps generalizing m m' rng rng' with
  | nil => exact ⟨rng, rng', m, m', rfl, rfl, hm⟩
  | cons p ps ih =>
    obtain ⟨e, r1, h1, _⟩ := encryptShare_ok hc hd (evaluatePolynomial i p.index cs) (S.encG (x • p.dhPublicKey)) rng
    obtain ⟨e', r2, h2, _⟩ := encryptShare_ok hc hd (evaluatePolynomial i p.index cs') (S.encG (x' • p.dhPublicKey)) rng'
    obtain ⟨r, r', n, n', h3, h4, h5⟩ := ih (m.insert p.index e) (m'.insert p.index e')
      (insert_keys_congr m m' hm p.index e e') r1 r2
    refine ⟨r, r', n, n', ?_, ?_, h5⟩
    · simp only [dealShares, h1]; exact h3
    · simp only [dealShares, h2]; exact h4

theorem newState_view {S : Suite F G R} (hc : S.CipherLaws) (hd : S.CodecLaws) (dbg : Bool) (params : Params) (x x' : F)
    (i : U32) (cs cs' : Option (List F)) (hcs : cs.isSome = cs'.isSome) (ps : List (Participant F G)) (fd fs : Bool)
    (rng rng' : R) :
    (newStateInternal S dbg params x i cs ps fd fs rng).map (fun v => Spec.roundOneView v.1) =
      (newStateInternal S dbg params x' i cs' ps fd fs rng').map (fun v => Spec.roundOneView v.1) := by
  unfold newStateInternal
  simp only []
  split
  · rfl
  · cases ps.foldlM (checkParticipant S dbg params fd fs) ⟨[], [], [], []⟩ with
    | error f => rfl
    | ok acc =>
      simp only []
      split
      · rfl
      · split
        · cases u32Sub (F := F) (G := G) dbg params.n (UInt32.ofNat acc.misbehaving.length) with
          | error f => rfl
          | ok n =>
            simp only []
            cases Params.new (F := F) (G := G) dbg n params.t with
            | error f => rfl
            | ok p => rfl
        · have key : (∃ f, dealShares S x i cs ps [] rng = .error f ∧ dealShares S x' i cs' ps [] rng' = .error f) ∨
              ∃ r r', ∃ n n' : BMap EncShare, dealShares S x i cs ps [] rng = .ok (n, r) ∧
                dealShares S x' i cs' ps [] rng' = .ok (n', r') ∧ n.keys = n'.keys := by
            cases cs with
            | none =>
              cases cs' with
              | some c => cases hcs
              | none =>
                cases ps with
                | nil => exact .inr ⟨rng, rng', [], [], rfl, rfl, rfl⟩
                | cons p ps => exact .inl ⟨_, rfl, rfl⟩
            | some c =>
              cases cs' with
              | none => cases hcs
              | some c' => exact .inr (dealShares_view hc hd x x' i c c' ps [] [] rfl rng rng')
          rcases key with ⟨f, h1, h2⟩ | ⟨r, r', n, n', h1, h2, h3⟩
          · rw [h1, h2]
          · rw [h1, h2]
            simp only []
            cases u32Sub (F := F) (G := G) dbg params.n (UInt32.ofNat acc.misbehaving.length) with
            | error f => rfl
            | ok k =>
              simp only []
              cases Params.new (F := F) (G := G) dbg k params.t with
              | error f => rfl
              | ok p =>
                simp [Spec.roundOneView, Except.map, h3]

/-- C128, round one of a key generation: for given public records, whether `bootstrap` fails, with which error or panic,
who is accepted and reported and who receives a share do not depend on the private key, the coefficients or the
randomness. -/
theorem C128_bootstrap {S : Suite F G R} (hc : S.CipherLaws) (hd : S.CodecLaws) (dbg : Bool) (params : Params) (x x' : F)
    (i : U32) (cs cs' : List F) (ps : List (Participant F G)) (rng rng' : R) :
    (bootstrap S dbg params x i cs ps rng).map Spec.roundOneView =
      (bootstrap S dbg params x' i cs' ps rng').map Spec.roundOneView := by
  have := newState_view hc hd dbg params x x' i (some cs) (some cs') rfl ps true true rng rng'
  unfold bootstrap
  cases h1 : newStateInternal S dbg params x i (some cs) ps true true rng with
  | error f =>
    cases h2 : newStateInternal S dbg params x' i (some cs') ps true true rng' with
    | error f' => rw [h1, h2] at this; exact this
    | ok v => rw [h1, h2] at this; cases this
  | ok v =>
    cases h2 : newStateInternal S dbg params x' i (some cs') ps true true rng' with
    | error f' => rw [h1, h2] at this; cases this
    | ok v' => rw [h1, h2] at this; exact this

/-- C128, round one of a resharing, on the side of the new signers. No assumption on the cipher is needed. -/
theorem C128_new (S : Suite F G R) (dbg : Bool) (params : Params) (x x' : F) (i : U32) (ps : List (Participant F G))
    (rng rng' : R) :
    (dkgNew S dbg params x i ps rng).map Spec.roundOneView =
      (dkgNew S dbg params x' i ps rng').map Spec.roundOneView := by
  unfold dkgNew newStateInternal
  simp only []
  split
  · rfl
  · cases ps.foldlM (checkParticipant S dbg params false true) ⟨[], [], [], []⟩ with
    | error f => rfl
    | ok acc =>
      simp only []
      split
      · rfl
      · simp only [Bool.not_false, Bool.and_self, if_true]
        cases u32Sub (F := F) (G := G) dbg params.n (UInt32.ofNat acc.misbehaving.length) with
        | error f => rfl
        | ok n =>
          simp only []
          cases Params.new (F := F) (G := G) dbg n params.t with
          | error f => rfl
          | ok p => rfl

/-- C128, the dealer's side of a resharing: for given public records of the new signers the outcome does not depend on
the signing key that is reshared, except for its index, nor on the randomness. -/
theorem C128_reshare {S : Suite F G R} (hc : S.CipherLaws) (hd : S.CodecLaws) (dbg : Bool) (params : Params)
    (sk sk' : IndividualSigningKey F) (hi : sk.index = sk'.index) (ps : List (Participant F G)) (rng rng' : R) :
    (reshare S dbg params sk ps rng).map (fun v => (v.1.index, v.2.1.keys, v.2.2)) =
      (reshare S dbg params sk' ps rng').map (fun v => (v.1.index, v.2.1.keys, v.2.2)) := by
  unfold reshare
  by_cases h0 : sk'.index = 0
  · have e1 : ∀ (k : Option F) (r : R), newInternal S params false sk'.index k r = .error (.err .indexIsZero) := by
      intro k r
      unfold newInternal
      rw [if_pos h0]
    rw [hi, e1, e1]
  · by_cases ht : params.t = 0
    · have e1 : ∀ (k : Option F) (r : R), newInternal S params false sk'.index k r = .error (.panic .expectNone) := by
        intro k r
        rw [newInternal_dealer_eq, if_neg h0]
        simp [ht, commitLoop, VssCommitment.publicKey]
      rw [hi, e1, e1]
    · obtain ⟨p, cs, dh, r, a1, a2, _⟩ := newInternal_dealer S params ht sk'.index h0 (some sk.key) rng
      obtain ⟨p', cs', dh', r', b1, b2, _⟩ := newInternal_dealer S params ht sk'.index h0 (some sk'.key) rng'
      rw [hi, a1, b1]
      simp only []
      have key := newState_view hc hd dbg params dh dh' sk'.index (some cs) (some cs') rfl ps true false r r'
      cases h1 : newStateInternal S dbg params dh sk'.index (some cs) ps true false r with
      | error f =>
        cases h2 : newStateInternal S dbg params dh' sk'.index (some cs') ps true false r' with
        | error f' =>
          rw [h1, h2] at key
          simp only [Except.map, Except.error.injEq] at key
          rw [key]
        | ok v => rw [h1, h2] at key; cases key
      | ok v =>
        cases h2 : newStateInternal S dbg params dh' sk'.index (some cs') ps true false r' with
        | error f' => rw [h1, h2] at key; cases key
        | ok v' =>
          rw [h1, h2] at key
          obtain ⟨⟨st, l⟩, r2⟩ := v
          obtain ⟨⟨st', l'⟩, r2'⟩ := v'
          have key' := Except.ok.inj key
          simp only [Spec.roundOneView, Prod.mk.injEq] at key'
          obtain ⟨_, _, _, _, k5, k6⟩ := key'
          simp only [RoundOne.theirEncryptedSecretShares]
          cases hs : st.state.theirEncryptedSecretShares with
          | none =>
            cases hs' : st'.state.theirEncryptedSecretShares with
            | none => rfl
            | some m => rw [hs, hs'] at k5; cases k5
          | some m =>
            cases hs' : st'.state.theirEncryptedSecretShares with
            | none => rw [hs, hs'] at k5; cases k5
            | some m' =>
              rw [hs, hs'] at k5
              have k5' := Option.some.inj k5
              simp only [Except.map, a2, b2, k5', k6]

/-- What two runs of round two share: same labels, and the shares in the same positions are bad. -/
def Spec.SameShares (S : Suite F G R) (d d' : RoundOne F G) (comms comms' : BMap (VssCommitment G)) (e e' : EncShare) : Prop :=
  e.senderIndex = e'.senderIndex ∧ e.receiverIndex = e'.receiverIndex ∧
  ((∃ pk c, d.state.theirDhPublicKeys.get? e.senderIndex = some pk ∧ comms.get? e.senderIndex = some c ∧
      ¬ Spec.GoodShare S (d.state.dhPrivateKey • pk) c.points e) ↔
   (∃ pk c, d'.state.theirDhPublicKeys.get? e'.senderIndex = some pk ∧ comms'.get? e'.senderIndex = some c ∧
      ¬ Spec.GoodShare S (d'.state.dhPrivateKey • pk) c.points e'))

theorem stopper_congr (dbg : Bool) (st st' : DkgState F G) (hi : st.index = st'.index)
    (hk : st.theirDhPublicKeys.keys = st'.theirDhPublicKeys.keys) (es es' : List EncShare)
    (h : List.Forall₂ (fun e e' => e.senderIndex = e'.senderIndex ∧ e.receiverIndex = e'.receiverIndex) es es') :
    (Spec.stopper dbg st es = none ∧ Spec.stopper dbg st' es' = none) ∨
    ∃ e e', Spec.stopper dbg st es = some e ∧ Spec.stopper dbg st' es' = some e' ∧ e.receiverIndex = e'.receiverIndex := by
  induction h with
  | nil => exact .inl ⟨rfl, rfl⟩
  | cons hab hrest ih =>
    rename_i a b as bs
    obtain ⟨h1, h2⟩ := hab
    unfold Spec.stopper at ih ⊢
    by_cases hp : (dbg = true ∧ a.receiverIndex ≠ st.index) ∨ a.senderIndex ∉ st.theirDhPublicKeys.keys
    · have hp' : (dbg = true ∧ b.receiverIndex ≠ st'.index) ∨ b.senderIndex ∉ st'.theirDhPublicKeys.keys := by
        rwa [← h1, ← h2, ← hi, ← hk]
      refine .inr ⟨a, b, ?_, ?_, h2⟩
      · rw [List.find?_cons_of_pos]; simpa using hp
      · rw [List.find?_cons_of_pos]; simpa using hp'
    · have hp' : ¬ ((dbg = true ∧ b.receiverIndex ≠ st'.index) ∨ b.senderIndex ∉ st'.theirDhPublicKeys.keys) := by
        rwa [← h1, ← h2, ← hi, ← hk]
      rw [List.find?_cons_of_neg (by simpa using hp), List.find?_cons_of_neg (by simpa using hp')]
      exact ih

/-- C128, round two: two participants with the same parameters, indices on file and labels of received shares, but
different keys, commitments and share contents. If the same positions hold bad shares then both calls fail or succeed
alike, and complain alike: nothing but which shares were bad is disclosed. -/
theorem C128_to_round_two (S : Suite F G R) (dbg : Bool) (d d' : RoundOne F G)
    (hp : d.state.parameters = d'.state.parameters) (hi : d.state.index = d'.state.index)
    (hk : d.state.theirDhPublicKeys.keys = d'.state.theirDhPublicKeys.keys) (comms comms' : BMap (VssCommitment G))
    (hc : d.state.theirCommitments = some comms) (hc' : d'.state.theirCommitments = some comms')
    (hck : comms.keys = comms'.keys) (hn : comms.keys.Nodup) (es es' : List EncShare)
    (h : List.Forall₂ (Spec.SameShares S d d' comms comms') es es') (rng rng' : R) :
    Spec.roundTwoView (d.toRoundTwo S dbg es rng) = Spec.roundTwoView (d'.toRoundTwo S dbg es' rng') := by
  obtain ⟨e, cs, a1, a2⟩ := C116_to_round_two S dbg d comms hc hn es rng _ rfl
  obtain ⟨e', cs', b1, b2⟩ := C116_to_round_two S dbg d' comms' hc' (hck ▸ hn) es' rng' _ rfl
  have hbad : List.Forall₂ (Spec.SameShares S d d' comms comms') (cs.map (·.encShare)) (cs'.map (·.encShare)) := by
    rw [a1, b1]
    refine List.rel_filter ?_ h
    intro x y hxy
    simpa using hxy.2.2
  have hlab : Spec.labels cs = Spec.labels cs' := by
    unfold Spec.labels
    clear a1 a2 b1 b2
    induction cs generalizing cs' with
    | nil => cases cs' with
      | nil => rfl
      | cons c cs' => cases hbad
    | cons c cs ih => cases cs' with
      | nil => cases hbad
      | cons c' cs' =>
        rw [List.map_cons, List.map_cons] at hbad
        cases hbad with
        | cons h1 h2 => rw [List.map_cons, List.map_cons, ih cs' h2, h1.1, h1.2.1]
  have hbl := hbad.length_eq
  rw [a1, b1] at hbl
  have hview : ∀ v, d.toRoundTwo S dbg es rng = .ok v →
      Spec.roundTwoView (d.toRoundTwo S dbg es rng) =
        .inr (d.state.parameters, d.state.index, some comms.keys, d.state.theirDhPublicKeys.keys, Spec.labels v.2) := by
    intro v hv
    obtain ⟨r1, _⟩ := roundTwo_stored S dbg d comms hc hn es rng v.1 v.2 hv
    rw [hv]
    simp [Spec.roundTwoView, r1, roundTwoState, hc]
  have hview' : ∀ v, d'.toRoundTwo S dbg es' rng' = .ok v →
      Spec.roundTwoView (d'.toRoundTwo S dbg es' rng') =
        .inr (d'.state.parameters, d'.state.index, some comms'.keys, d'.state.theirDhPublicKeys.keys, Spec.labels v.2) := by
    intro v hv
    obtain ⟨r1, _⟩ := roundTwo_stored S dbg d' comms' hc' (hck ▸ hn) es' rng' v.1 v.2 hv
    rw [hv]
    simp [Spec.roundTwoView, r1, roundTwoState, hc']
  rw [← hp, ← hbl, ← h.length_eq] at b2
  by_cases hlen : es.length < d.state.parameters.t.toNat
  · rw [if_pos hlen] at a2 b2
    rw [a2, b2]
  · rw [if_neg hlen] at a2 b2
    rcases stopper_congr dbg d.state d'.state hi hk es es' (h.imp fun _ _ hxy => ⟨hxy.1, hxy.2.1⟩) with
      ⟨s1, s2⟩ | ⟨x, y, s1, s2, s3⟩
    · rw [s1] at a2
      rw [s2] at b2
      simp only [] at a2 b2
      split at a2
      · next h1 =>
        rw [if_pos h1] at b2
        rw [a2, b2]
      · next h1 =>
        rw [if_neg h1] at b2
        split at a2
        · next h2 =>
          rw [if_pos h2] at b2
          rw [a2, b2]
          simp [Spec.roundTwoView, hlab]
        · next h2 =>
          rw [if_neg h2] at b2
          rw [hview _ a2, hview' _ b2, hp, hi, hck, hk, hlab]
    · rw [s1] at a2
      rw [s2] at b2
      simp only [] at a2 b2
      rw [s3, hi] at a2
      rw [a2, b2]

theorem signingKeyLoop_view (indices : List U32) (l l' : List (U32 × SecretShare F)) (h : l.map Prod.fst = l'.map Prod.fst)
    (a a' : F) :
    (signingKeyLoop (G := G) indices l a).1.map (fun _ => ()) = (signingKeyLoop (G := G) indices l' a').1.map (fun _ => ()) := by
  induction l generalizing l' a a' with
  | nil => cases l' with
    | nil => rfl
    | cons e l' => cases h
  | cons e l ih => cases l' with
    | nil => cases h
    | cons e' l' =>
      obtain ⟨k, v⟩ := e
      obtain ⟨k', v'⟩ := e'
      simp only [List.map_cons, List.cons.injEq] at h
      obtain ⟨rfl, h⟩ := h
      unfold signingKeyLoop
      cases lagrangeCoeff (F := F) (G := G) k indices with
      | error f => rfl
      | ok c => exact ih l' h _ _

/-- C128, `finish`: for given commitments and senders of the stored shares the result except the signing key, and every
failure, are the same whatever the shares are. -/
theorem C128_finish (d d' : RoundTwo F G) (hi : d.state.index = d'.state.index)
    (hc : d.state.theirCommitments = d'.state.theirCommitments)
    (hm : d.state.mySecretShares.map BMap.keys = d'.state.mySecretShares.map BMap.keys) :
    d.finish.map (fun v => (v.1, v.2.index)) = d'.finish.map (fun v => (v.1, v.2.index)) := by
  unfold RoundTwo.finish RoundTwo.calculateSigningKey
  cases h1 : d.state.mySecretShares with
  | none =>
    cases h2 : d'.state.mySecretShares with
    | none => rfl
    | some m => rw [h1, h2] at hm; cases hm
  | some m =>
    cases h2 : d'.state.mySecretShares with
    | none => rw [h1, h2] at hm; cases hm
    | some m' =>
      rw [h1, h2] at hm
      have hk : m.keys = m'.keys := Option.some.inj hm
      have hl := signingKeyLoop_view (G := G) m.keys m m' hk 0 0
      simp only []
      rw [← hk]
      cases h3 : (signingKeyLoop (G := G) m.keys m 0).1 with
      | error f =>
        cases h4 : (signingKeyLoop (G := G) m.keys m' 0).1 with
        | error f' =>
          rw [h3, h4] at hl
          cases hl
          simp only [Except.map]
        | ok b => rw [h3, h4] at hl; cases hl
      | ok a =>
        cases h4 : (signingKeyLoop (G := G) m.keys m' 0).1 with
        | error f' => rw [h3, h4] at hl; cases hl
        | ok b =>
          simp only [Except.map]
          unfold RoundTwo.calculateGroupKey
          simp only []
          rw [hc]
          cases h5 : d'.state.theirCommitments with
          | none => rfl
          | some comms =>
            simp only []
            cases groupKeyLoop (F := F) comms.keys comms 0 with
            | error f => rfl
            | ok gk => simp only [hi]

/-- C128, signing: for a given index, number of nonces and public input the failure is the same whatever the signing key
and the nonces are; on success the same signer is named, and equally many pairs are left. -/
theorem C128_sign (hu : Suite.U32Inj F) (S : Suite F G R) (dbg : Bool) (sk sk' : IndividualSigningKey F)
    (hi : sk.index = sk'.index) (msg : Bytes) (Y : G) (L L' : List (CommitmentShare F G)) (hL : L.length = L'.length)
    (hlen : L.length < 2 ^ 63) (k : UInt64) (signers : List (Signer G)) :
    (sign S dbg sk msg Y L k signers).1.map (·.index) = (sign S dbg sk' msg Y L' k signers).1.map (·.index) ∧
    (sign S dbg sk msg Y L k signers).2.length = (sign S dbg sk' msg Y L' k signers).2.length := by
  have key : (sign S dbg sk msg Y L k signers).1.map (·.index) = (sign S dbg sk' msg Y L' k signers).1.map (·.index) := by
    rw [C116_sign_table hu S dbg sk msg Y L hlen k signers, C116_sign_table hu S dbg sk' msg Y L' (hL ▸ hlen) k signers,
      ← hL, ← hi]
    split_ifs <;> try rfl
    by_cases hk : k.toNat < L.length
    · rw [List.getElem?_eq_getElem hk, List.getElem?_eq_getElem (hL ▸ hk)]
      rfl
    · rw [List.getElem?_eq_none (by omega), List.getElem?_eq_none (by omega)]
  refine ⟨key, ?_⟩
  cases h1 : (sign S dbg sk msg Y L k signers).1 with
  | error f =>
    cases h2 : (sign S dbg sk' msg Y L' k signers).1 with
    | error f' => rw [C55_failure_consumes_nothing _ _ _ _ _ _ _ _ _ h1, C55_failure_consumes_nothing _ _ _ _ _ _ _ _ _ h2, hL]
    | ok v => rw [h1, h2] at key; cases key
  | ok v =>
    cases h2 : (sign S dbg sk' msg Y L' k signers).1 with
    | error f => rw [h1, h2] at key; cases key
    | ok v' =>
      obtain ⟨_, _, p1, _⟩ := C55_success_consumes_one _ _ _ _ _ _ _ _ _ h1
      obtain ⟨_, _, p2, _⟩ := C55_success_consumes_one _ _ _ _ _ _ _ _ _ h2
      have l1 := p1.length_eq
      have l2 := p2.length_eq
      simp only [List.length_cons] at l1 l2
      omega

section Examples
open Toy

example := C128_bootstrap cipher_laws codec_laws true ⟨2, 2⟩ (5 : Fp) 6 1 [1, 2] [3, 4]
example := C128_new suite true ⟨2, 2⟩ (5 : Fp) 6 1
example := C128_reshare cipher_laws codec_laws true ⟨2, 2⟩ ⟨3, (5 : Fp)⟩ ⟨3, 9⟩ rfl
example := C128_sign u32_inj suite true ⟨3, (5 : Fp)⟩ ⟨3, 9⟩ rfl [1] (7 : Fp) [⟨⟨1, 1⟩, ⟨2, 2⟩⟩] [⟨⟨3, 3⟩, ⟨4, 4⟩⟩] rfl (by simp)
  0 [⟨3, (1, 2)⟩]

/-- Participant 3 with private key `x`, and dealers 1 and 2, of which 1 has the key `y` and the polynomial `a + b X`. -/
def secretive (x y a b : Fp) : RoundOne Fp Fp := ⟨{
  parameters := ⟨3, 2⟩, index := 3, dhPrivateKey := x, dhPublicKey := x • suite.gen,
  theirCommitments := some [(1, ⟨1, [a • suite.gen, b • suite.gen]⟩), (2, ⟨2, [a • suite.gen]⟩)],
  theirDhPublicKeys := [(1, y • suite.gen), (2, y • suite.gen)],
  theirEncryptedSecretShares := none, mySecretShares := none }⟩

example (x y a b s s' : Fp) := C128_finish
  ⟨{ (secretive x y a b).state with mySecretShares := some [(1, ⟨1, 3, s⟩), (2, ⟨2, 3, s⟩)] }⟩
  ⟨{ (secretive x y a b).state with mySecretShares := some [(1, ⟨1, 3, s'⟩), (2, ⟨2, 3, s' + 1⟩)] }⟩ rfl rfl rfl

/-- Dealer 1 is honest, dealer 2 sends an empty ciphertext: the secrets of 1 and 3 do not show in the outcome. -/
example (x y a b x' y' a' b' : Fp) : ∃ e e', HonestlyDealt suite 1 3 y [a, b] (x • suite.gen) e ∧
    HonestlyDealt suite 1 3 y' [a', b'] (x' • suite.gen) e' ∧ ∀ rng rng',
    Spec.roundTwoView ((secretive x y a b).toRoundTwo suite true [e, ⟨2, 3, [], []⟩] rng) =
      Spec.roundTwoView ((secretive x' y' a' b').toRoundTwo suite true [e', ⟨2, 3, [], []⟩] rng') := by
  have hon : ∀ x y a b : Fp, ∃ e, HonestlyDealt suite 1 3 y [a, b] (x • suite.gen) e := by
    intro x y a b
    obtain ⟨e, r', h, _⟩ := encryptShare_ok cipher_laws codec_laws
      (evaluatePolynomial (F := Fp) 1 3 [a, b]) (suite.encG (y • (x • suite.gen))) 0
    exact ⟨e, 0, r', h⟩
  have good : ∀ x y a b : Fp, ∀ e, HonestlyDealt suite 1 3 y [a, b] (x • suite.gen) e → e.senderIndex = 1 ∧ e.receiverIndex = 3 ∧
      Spec.GoodShare suite (x • y • suite.gen) [a • suite.gen, b • suite.gen] e := by
    intro x y a b e he
    obtain ⟨h1, h2, h3⟩ := honestlyDealt_opens cipher_laws codec_laws he
    refine ⟨h1, h2, _, by rw [smul_comm]; exact h3, ?_⟩
    rw [h2]
    simp [Spec.polyEval, Spec.pointEval, u32F, Finset.sum_range_succ]
    ring
  obtain ⟨e, he⟩ := hon x y a b
  obtain ⟨e', he'⟩ := hon x' y' a' b'
  obtain ⟨s1, s2, s3⟩ := good x y a b e he
  obtain ⟨t1, t2, t3⟩ := good x' y' a' b' e' he'
  refine ⟨e, e', he, he', fun rng rng' => ?_⟩
  refine C128_to_round_two suite true (secretive x y a b) (secretive x' y' a' b') rfl rfl rfl _ _ rfl rfl rfl (by simp [BMap.keys])
    _ _ (.cons ⟨by rw [s1, t1], by rw [s2, t2], ?_⟩ (.cons ⟨rfl, rfl, ?_⟩ .nil)) rng rng'
  · rw [s1, t1]
    simp only [secretive, BMap.get?]
    simp [s3, t3]
    exact ⟨fun h => absurd s3 h, fun h => absurd t3 h⟩
  · constructor
    · intro _
      exact ⟨y' • suite.gen, _, rfl, rfl, toy_bad _ _ _ _⟩
    · intro _
      exact ⟨y • suite.gen, _, rfl, rfl, toy_bad _ _ _ _⟩

end Examples

end IceFrost
