import Verif.Props.Participants

/-! # C18–C26: round one -/

set_option linter.unusedSectionVars false
set_option linter.unusedSimpArgs false

namespace IceFrost

attribute [local instance] Classical.propDecidable

variable {F G R : Type} [Field F] [DecidableEq F] [AddCommGroup G] [Module F G] [DecidableEq G]

/-- A broadcast that `bootstrap` should accept: valid proofs and exactly `t` commitment points. -/
def GoodDealer (S : Suite F G R) (t : U32) (p : Participant F G) : Prop :=
  Spec.DealerValid S p ∧ Spec.DegreeOk t p

theorem accepts_bootstrap (S : Suite F G R) (params : Params) :
    Accepts S params true true = GoodDealer S params.t := by
  funext p; simp [Accepts, GoodDealer]

theorem accepts_new (S : Suite F G R) (params : Params) :
    Accepts S params false true = Spec.DealerValid S := by
  funext p; simp [Accepts]

theorem accepts_reshare (S : Suite F G R) (params : Params) :
    Accepts S params true false = Spec.DhValid S := by
  funext p; simp [Accepts]

theorem dealerValid_not_lacks {S : Suite F G R} {p : Participant F G} (h : Spec.DealerValid S p) :
    ¬ Spec.LacksProof S p := by
  rintro ⟨_, h', _⟩
  obtain ⟨_, _, _, pf, _, _, hp, _⟩ := h
  rw [hp] at h'; cases h'

/-- A participant made by `new_dealer`. -/
theorem newDealer_good {S : Suite F G R} {params : Params} (ht : params.t ≠ 0) {i : U32} {rng : R}
    {p : Participant F G} {cs : List F} {dh : F} (h : newDealer S params i rng = .ok (p, cs, dh)) :
    i ≠ 0 ∧ p.index = i ∧ cs.length = params.t.toNat ∧ p.commitments = some ⟨i, commitPoints S cs⟩ ∧
      p.dhPublicKey = dh • S.gen ∧ GoodDealer S params.t p := by
  have hi : i ≠ 0 := by rintro rfl; rw [C16_new_dealer_zero] at h; cases h
  obtain ⟨p', cs', dh', rng', h', h1, h2, _, h4, h5, h6⟩ := newInternal_dealer S params ht i hi none rng
  unfold newDealer at h
  rw [h'] at h
  cases h
  refine ⟨hi, h1, h2, h4, h5, h6, ?_⟩
  intro c hc
  rw [h4] at hc; cases hc
  rw [commitPoints_length, h2]

/-- C18: a session of honest dealers is accepted as a whole. -/
theorem C18_honest_accepted {S : Suite F G R} (hc : S.CipherLaws) (hd : S.CodecLaws) (dbg : Bool)
    (params : Params) (ht : params.t ≠ 0) (htn : params.t.toNat ≤ params.n.toNat) (ps : List (Participant F G))
    (hlen : ps.length = params.n.toNat)
    (hhon : ∀ p ∈ ps, ∃ i rng cs dh, newDealer S params i rng = .ok (p, cs, dh))
    (x : F) (i : U32) (cs : List F) (rng : R) :
    ∃ d, bootstrap S dbg params x i cs ps rng = .ok (d, ⟨ps, none⟩) ∧ d.state.parameters = params := by
  have hgood : ∀ p ∈ ps, GoodDealer S params.t p := by
    intro p hp
    obtain ⟨i, rng, cs, dh, h⟩ := hhon p hp
    exact (newDealer_good ht h).2.2.2.2.2
  have hf : ps.filter (Accepts S params true true) = ps := by
    rw [accepts_bootstrap]
    exact List.filter_eq_self.mpr fun p hp => by simpa using hgood p hp
  have hf' : ps.filter (fun p => ¬ Accepts S params true true p) = [] := by
    rw [accepts_bootstrap]
    exact List.filter_eq_nil_iff.mpr fun p hp => by simpa using hgood p hp
  obtain ⟨m, rng', h, _⟩ := (newState_deal dbg params x i hc hd cs true ps rng ht hlen
    (fun _ p hp => dealerValid_not_lacks (hgood p hp).1)).2 (by rw [hf, hlen]; exact htn)
  rw [hf, hf'] at h
  refine ⟨⟨roundOneState S params x i true ps (some m)⟩, ?_, ?_⟩
  · unfold bootstrap
    rw [h]; rfl
  · simp [roundOneState, hlen]

/-! ### C19 -/

theorem encryptShare_not_number (S : Suite F G R) (s : SecretShare F) (k : Bytes) (rng : R) (a : Nat) (b : U32) :
    encryptShare S s k rng ≠ .error (.invalidNumberOfParticipants a b) := by
  unfold encryptShare
  split
  · simp
  · simp only []
    split <;> simp

theorem dealShares_not_number (S : Suite F G R) (x : F) (i : U32) (cs : Option (List F))
    (ps : List (Participant F G)) (m : BMap EncShare) (rng : R) (a : Nat) (b : U32) :
    dealShares S x i cs ps m rng ≠ .error (.err (.invalidNumberOfParticipants a b)) := by
  induction ps generalizing m rng with
  | nil => simp [dealShares]
  | cons p ps ih =>
    unfold dealShares
    split
    · simp
    · simp only []
      split
      · next e he => intro h; cases h; exact encryptShare_not_number S _ _ _ _ _ he
      · exact ih _ _

theorem checkParticipant_not_err (S : Suite F G R) (dbg : Bool) (params : Params) (fd fs : Bool)
    (acc : RoundOneAcc F G) (p : Participant F G) (e : Error F G) :
    checkParticipant S dbg params fd fs acc p ≠ .error (.err e) := by
  unfold checkParticipant
  repeat' split
  all_goals simp

theorem foldlM_not_err (S : Suite F G R) (dbg : Bool) (params : Params) (fd fs : Bool)
    (ps : List (Participant F G)) (acc : RoundOneAcc F G) (e : Error F G) :
    ps.foldlM (checkParticipant S dbg params fd fs) acc ≠ .error (.err e) := by
  induction ps generalizing acc with
  | nil => simp [pure, Except.pure]
  | cons p ps ih =>
    rw [List.foldlM_cons]
    cases h : checkParticipant S dbg params fd fs acc p with
    | ok a => exact ih a
    | error f =>
      intro h'
      cases h'
      exact checkParticipant_not_err S dbg params fd fs acc p e h

theorem paramsNew_not_number (dbg : Bool) (n t : U32) (a : Nat) (b : U32) :
    (Params.new dbg n t : Res F G Params) ≠ .error (.err (.invalidNumberOfParticipants a b)) := by
  unfold Params.new
  repeat' split
  all_goals simp

theorem u32Sub_not_err (dbg : Bool) (n k : U32) (e : Error F G) :
    (u32Sub dbg n k : Res F G U32) ≠ .error (.err e) := by
  unfold u32Sub
  split <;> simp

theorem newState_number (S : Suite F G R) (dbg : Bool) (params : Params) (x : F) (i : U32) (cs : Option (List F))
    (ps : List (Participant F G)) (fd fs : Bool) (rng : R) (hlen : ps.length = params.n.toNat) (a : Nat) (b : U32) :
    newStateInternal S dbg params x i cs ps fd fs rng ≠ .error (.err (.invalidNumberOfParticipants a b)) := by
  unfold newStateInternal
  simp only [hlen, ne_eq, not_true_eq_false, if_false]
  split
  · next f hf => intro h; cases h; exact foldlM_not_err S dbg params fd fs ps _ _ hf
  · split
    · simp
    · split
      · split
        · next f hf => intro h; cases h; exact u32Sub_not_err dbg _ _ _ hf
        · split
          · next f hf => intro h; cases h; exact paramsNew_not_number dbg _ _ _ _ hf
          · simp
      · split
        · next f hf => intro h; cases h; exact dealShares_not_number S x i cs ps _ _ _ _ hf
        · split
          · next f hf => intro h; cases h; exact u32Sub_not_err dbg _ _ _ hf
          · split
            · next f hf => intro h; cases h; exact paramsNew_not_number dbg _ _ _ _ hf
            · simp

/-- C19 for `bootstrap`: a wrong number of participants gives this error, whatever the participants are, and
nothing else does. -/
theorem C19_bootstrap (S : Suite F G R) (dbg : Bool) (params : Params) (x : F) (i : U32) (cs : List F)
    (ps : List (Participant F G)) (rng : R) (a : Nat) (b : U32) :
    bootstrap S dbg params x i cs ps rng = .error (.err (.invalidNumberOfParticipants a b)) ↔
      ps.length ≠ params.n.toNat ∧ a = ps.length ∧ b = params.n := by
  unfold bootstrap
  constructor
  · intro h
    by_cases hlen : ps.length = params.n.toNat
    · exfalso
      have := newState_number S dbg params x i (some cs) ps true true rng hlen a b
      cases hs : newStateInternal S dbg params x i (some cs) ps true true rng with
      | ok v => rw [hs] at h; cases h
      | error f => rw [hs] at h this; cases h; exact this rfl
    · rw [newState_length S dbg params x i _ ps _ _ rng hlen] at h
      cases h; exact ⟨hlen, rfl, rfl⟩
  · rintro ⟨hlen, rfl, rfl⟩
    rw [newState_length S dbg params x i _ ps _ _ rng hlen]; rfl

/-- C19 for `new`. -/
theorem C19_new (S : Suite F G R) (dbg : Bool) (params : Params) (x : F) (i : U32)
    (ps : List (Participant F G)) (rng : R) (a : Nat) (b : U32) :
    dkgNew S dbg params x i ps rng = .error (.err (.invalidNumberOfParticipants a b)) ↔
      ps.length ≠ params.n.toNat ∧ a = ps.length ∧ b = params.n := by
  unfold dkgNew
  constructor
  · intro h
    by_cases hlen : ps.length = params.n.toNat
    · exfalso
      have := newState_number S dbg params x i none ps false true rng hlen a b
      cases hs : newStateInternal S dbg params x i none ps false true rng with
      | ok v => rw [hs] at h; cases h
      | error f => rw [hs] at h this; cases h; exact this rfl
    · rw [newState_length S dbg params x i _ ps _ _ rng hlen] at h
      cases h; exact ⟨hlen, rfl, rfl⟩
  · rintro ⟨hlen, rfl, rfl⟩
    rw [newState_length S dbg params x i _ ps _ _ rng hlen]; rfl

/-- C19 for `reshare` (with a non-zero signing key index and sound parameters). -/
theorem C19_reshare (S : Suite F G R) (dbg : Bool) (params : Params) (ht : params.t ≠ 0)
    (sk : IndividualSigningKey F) (hsk : sk.index ≠ 0) (ps : List (Participant F G)) (rng : R)
    (a : Nat) (b : U32) :
    reshare S dbg params sk ps rng = .error (.err (.invalidNumberOfParticipants a b)) ↔
      ps.length ≠ params.n.toNat ∧ a = ps.length ∧ b = params.n := by
  obtain ⟨p, cs, dh, rng', h', _⟩ := newInternal_dealer S params ht sk.index hsk (some sk.key) rng
  unfold reshare
  rw [h']
  simp only []
  constructor
  · intro h
    by_cases hlen : ps.length = params.n.toNat
    · exfalso
      have := newState_number S dbg params dh sk.index (some cs) ps true false rng' hlen a b
      cases hs : newStateInternal S dbg params dh sk.index (some cs) ps true false rng' with
      | ok v =>
        rw [hs] at h
        simp only [] at h
        unfold RoundOne.theirEncryptedSecretShares at h
        cases hv : v.1.1.state.theirEncryptedSecretShares <;> simp [hv] at h
      | error f => rw [hs] at h this; cases h; exact this rfl
    · rw [newState_length S dbg params dh sk.index _ ps _ _ rng' hlen] at h
      cases h; exact ⟨hlen, rfl, rfl⟩
  · rintro ⟨hlen, rfl, rfl⟩
    rw [newState_length S dbg params dh sk.index _ ps _ _ rng' hlen]

/-! ### C20, C21 -/

theorem newState_t_zero (S : Suite F G R) (dbg : Bool) (params : Params) (ht : params.t = 0) (x : F) (i : U32)
    (cs : Option (List F)) (ps : List (Participant F G)) (fd fs : Bool) (rng : R) (v) :
    newStateInternal S dbg params x i cs ps fd fs rng ≠ .ok v := by
  have hn : ∀ n, ∃ f, (Params.new dbg n params.t : Res F G Params) = .error f := by
    intro n
    unfold Params.new
    rw [ht]
    cases dbg
    · exact ⟨_, by simp; rfl⟩
    · by_cases h : n = 0
      · exact ⟨_, by simp [h]; rfl⟩
      · exact ⟨_, by simp [h]; rfl⟩
  unfold newStateInternal
  simp only []
  split
  · simp
  · split
    · simp
    · split
      · simp
      · split
        · split
          · simp
          · next n _ => obtain ⟨f, hf⟩ := hn n; simp [hf]
        · split
          · simp
          · split
            · simp
            · next n _ => obtain ⟨f, hf⟩ := hn n; simp [hf]

/-- C20: on success of `bootstrap` the two lists partition the input in order: misbehaving are exactly those
without valid proofs or with a wrong number of commitment points; the session's `n` is the number of valid ones;
`misbehaving` is `None` exactly when there are none. -/
theorem C20_bootstrap_classifies {S : Suite F G R} (hc : S.CipherLaws) (hd : S.CodecLaws) (dbg : Bool)
    (params : Params) (x : F) (i : U32) (cs : List F) (ps : List (Participant F G)) (rng : R)
    (d : RoundOne F G) (L : ParticipantList F G) (h : bootstrap S dbg params x i cs ps rng = .ok (d, L)) :
    L.valid = ps.filter (GoodDealer S params.t) ∧
    L.misbehaving = (if ∀ p ∈ ps, GoodDealer S params.t p then none
      else some ((ps.filter fun p => ¬ GoodDealer S params.t p).map (·.index))) ∧
    d.state.parameters.n.toNat = L.valid.length ∧ d.state.parameters.t = params.t ∧
    d.state.theirCommitments = some (BMap.ofList (L.valid.filterMap fun p => p.commitments.map fun c => (p.index, c)))
    ∧ d.state.theirDhPublicKeys = BMap.ofList (L.valid.map fun p => (p.index, p.dhPublicKey)) ∧
    d.state.index = i ∧ d.state.dhPrivateKey = x ∧ d.state.dhPublicKey = x • S.gen := by
  unfold bootstrap at h
  have hlen : ps.length = params.n.toNat := by
    by_contra hne
    rw [newState_length S dbg params x i _ ps _ _ rng hne] at h; cases h
  have hlp : ∀ p ∈ ps, ¬ Spec.LacksProof S p := by
    intro p hp hl
    rw [newState_panic S dbg params x i _ ps _ rng hlen ⟨p, hp, hl⟩] at h; cases h
  have ht : params.t ≠ 0 := by
    intro ht
    cases hs : newStateInternal S dbg params x i (some cs) ps true true rng with
    | ok v => exact newState_t_zero S dbg params ht x i _ ps _ _ rng v hs
    | error f => rw [hs] at h; cases h
  obtain ⟨h1, h2⟩ := newState_deal dbg params x i hc hd cs true ps rng ht hlen (fun _ => hlp)
  by_cases hv : (ps.filter (Accepts S params true true)).length < params.t.toNat
  · rw [h1 hv] at h; cases h
  · obtain ⟨m, rng', h3, _⟩ := h2 (not_lt.mp hv)
    rw [h3] at h
    cases h
    simp only [roundOneState, participantList, accepts_bootstrap]
    refine ⟨trivial, ?_, ?_, trivial, rfl, rfl, trivial, trivial, trivial⟩
    · simp only [List.isEmpty_iff, List.map_eq_nil_iff, List.filter_eq_nil_iff, decide_eq_true_eq, not_not]
    · apply UInt32.toNat_ofNat_of_lt
      have h1 := params.n.toNat_lt
      have h2 : (ps.filter (GoodDealer S params.t)).length ≤ ps.length := List.length_filter_le _ _
      simp only [UInt32.size]; omega

/-- C21: with the right number of participants, sound parameters and no record that lacks its proof (C22),
`bootstrap` fails exactly when fewer than `t` participants are valid, and reports exactly the misbehaving ones. -/
theorem C21_aborts_iff {S : Suite F G R} (hc : S.CipherLaws) (hd : S.CodecLaws) (dbg : Bool)
    (params : Params) (ht : params.t ≠ 0) (x : F) (i : U32) (cs : List F) (ps : List (Participant F G)) (rng : R)
    (hlen : ps.length = params.n.toNat) (hlp : ∀ p ∈ ps, ¬ Spec.LacksProof S p) :
    ((∃ f, bootstrap S dbg params x i cs ps rng = .error f) ↔
      (ps.filter (GoodDealer S params.t)).length < params.t.toNat) ∧
    ∀ f, bootstrap S dbg params x i cs ps rng = .error f →
      f = .err (.tooManyInvalidParticipants ((ps.filter fun p => ¬ GoodDealer S params.t p).map (·.index))) := by
  obtain ⟨h1, h2⟩ := newState_deal dbg params x i hc hd cs true ps rng ht hlen (fun _ => hlp)
  rw [accepts_bootstrap] at h1 h2
  unfold bootstrap
  by_cases hv : (ps.filter (GoodDealer S params.t)).length < params.t.toNat
  · rw [h1 hv]
    refine ⟨⟨fun _ => hv, fun _ => ⟨_, rfl⟩⟩, fun f hf => ?_⟩
    cases hf; rfl
  · obtain ⟨m, rng', h3, _⟩ := h2 (not_lt.mp hv)
    rw [h3]
    refine ⟨⟨fun ⟨f, hf⟩ => ?_, fun h => absurd h hv⟩, fun f hf => ?_⟩ <;> cases hf

/-- C20 for `new` (a signer joining a resharing): everybody with valid proofs is accepted, whatever the number of
commitment points. -/
theorem C20_new_classifies {S : Suite F G R} (dbg : Bool)
    (params : Params) (x : F) (i : U32) (ps : List (Participant F G)) (rng : R)
    (d : RoundOne F G) (L : ParticipantList F G) (h : dkgNew S dbg params x i ps rng = .ok (d, L)) :
    L.valid = ps.filter (Spec.DealerValid S) ∧
    L.misbehaving = (if ∀ p ∈ ps, Spec.DealerValid S p then none
      else some ((ps.filter fun p => ¬ Spec.DealerValid S p).map (·.index))) ∧
    d.state.parameters.n.toNat = L.valid.length ∧ d.state.parameters.t = params.t ∧
    d.state.theirCommitments = some (BMap.ofList (L.valid.filterMap fun p => p.commitments.map fun c => (p.index, c)))
    ∧ d.state.theirDhPublicKeys = BMap.ofList (L.valid.map fun p => (p.index, p.dhPublicKey)) ∧
    d.state.index = i ∧ d.state.dhPrivateKey = x ∧ d.state.dhPublicKey = x • S.gen := by
  unfold dkgNew at h
  have hlen : ps.length = params.n.toNat := by
    by_contra hne
    rw [newState_length S dbg params x i _ ps _ _ rng hne] at h; cases h
  have hlp : ∀ p ∈ ps, ¬ Spec.LacksProof S p := by
    intro p hp hl
    rw [newState_panic S dbg params x i _ ps _ rng hlen ⟨p, hp, hl⟩] at h; cases h
  have ht : params.t ≠ 0 := by
    intro ht
    cases hs : newStateInternal S dbg params x i none ps false true rng with
    | ok v => exact newState_t_zero S dbg params ht x i _ ps _ _ rng v hs
    | error f => rw [hs] at h; cases h
  obtain ⟨h1, h2⟩ := newState_receive dbg params x i none ps rng ht hlen hlp
  by_cases hv : (ps.filter (Accepts S params false true)).length < params.t.toNat
  · rw [h1 hv] at h; cases h
  · rw [h2 (not_lt.mp hv)] at h
    cases h
    simp only [roundOneState, participantList, accepts_new]
    refine ⟨trivial, ?_, ?_, trivial, rfl, rfl, trivial, trivial, trivial⟩
    · simp only [List.isEmpty_iff, List.map_eq_nil_iff, List.filter_eq_nil_iff, decide_eq_true_eq, not_not]
    · apply UInt32.toNat_ofNat_of_lt
      have h1 := params.n.toNat_lt
      have h2 : (ps.filter (Spec.DealerValid S)).length ≤ ps.length := List.length_filter_le _ _
      simp only [UInt32.size]; omega

/-! ### C22 -/

/-- C22, what is true: without a record that lacks its proof of knowledge, `bootstrap` and `new` never panic, in
debug or release builds.

Missing for the full C22: records with commitments but without proof; see the next theorems. -/
theorem C22_no_panic_partial {S : Suite F G R} (hc : S.CipherLaws) (hd : S.CodecLaws) (dbg : Bool)
    (params : Params) (ht : params.t ≠ 0) (x : F) (i : U32) (cs : List F) (ps : List (Participant F G)) (rng : R)
    (hlp : ∀ p ∈ ps, ¬ Spec.LacksProof S p) (site : PanicSite) :
    bootstrap S dbg params x i cs ps rng ≠ .error (.panic site) ∧
      dkgNew S dbg params x i ps rng ≠ .error (.panic site) := by
  unfold bootstrap dkgNew
  by_cases hlen : ps.length = params.n.toNat
  · constructor
    · obtain ⟨h1, h2⟩ := newState_deal dbg params x i hc hd cs true ps rng ht hlen (fun _ => hlp)
      by_cases hv : (ps.filter (Accepts S params true true)).length < params.t.toNat
      · rw [h1 hv]; intro h; cases h
      · obtain ⟨m, rng', h3, _⟩ := h2 (not_lt.mp hv)
        rw [h3]; intro h; cases h
    · obtain ⟨h1, h2⟩ := newState_receive dbg params x i none ps rng ht hlen hlp
      by_cases hv : (ps.filter (Accepts S params false true)).length < params.t.toNat
      · rw [h1 hv]; intro h; cases h
      · rw [h2 (not_lt.mp hv)]; intro h; cases h
  · rw [newState_length S dbg params x i _ ps _ _ rng hlen, newState_length S dbg params x i _ ps _ _ rng hlen]
    constructor <;> (intro h; cases h)

/-- C22, negation: any session that receives a record with a valid DH proof and commitments but without proof of
knowledge panics, in `bootstrap` and in `new`. -/
theorem C22_missing_proof_panics (S : Suite F G R) (dbg : Bool) (params : Params) (x : F) (i : U32) (cs : List F)
    (ps : List (Participant F G)) (rng : R) (hlen : ps.length = params.n.toNat)
    (hex : ∃ p ∈ ps, Spec.LacksProof S p) :
    bootstrap S dbg params x i cs ps rng = .error (.panic .expectNone) ∧
      dkgNew S dbg params x i ps rng = .error (.panic .expectNone) := by
  unfold bootstrap dkgNew
  rw [newState_panic S dbg params x i _ ps _ rng hlen hex, newState_panic S dbg params x i _ ps _ rng hlen hex]
  exact ⟨rfl, rfl⟩

/-- C22, the attack: anybody can make such a record, by dropping the proof from a dealer record of its own. -/
theorem C22_attack (S : Suite F G R) (params : Params) (ht : params.t ≠ 0) (i : U32) (hi : i ≠ 0) (rng : R) :
    ∃ p cs dh, newDealer S params i rng = .ok (p, cs, dh) ∧
      Spec.LacksProof S { p with proofOfSecretKey := none } := by
  obtain ⟨p, cs, dh, rng', h, _, _, _, _, _, h6⟩ := newInternal_dealer S params ht i hi none rng
  refine ⟨p, cs, dh, by unfold newDealer; rw [h], h6.1, rfl, ?_⟩
  obtain ⟨_, c, pk, pf, k1, k2, _⟩ := h6
  exact ⟨c, pk, k1, k2⟩

/-! ### C23–C25: dealt shares -/

/-- What a successful `bootstrap` leaves in `their_encrypted_secret_shares`. -/
theorem bootstrap_shares {S : Suite F G R} (hc : S.CipherLaws) (hd : S.CodecLaws) (dbg : Bool)
    (params : Params) (x : F) (i : U32) (cs : List F) (ps : List (Participant F G)) (rng : R)
    (d : RoundOne F G) (L : ParticipantList F G) (h : bootstrap S dbg params x i cs ps rng = .ok (d, L)) :
    ∃ m, d.theirEncryptedSecretShares = .ok m ∧ m.WF ∧ (∀ j, j ∈ m.keys ↔ ∃ p ∈ ps, p.index = j) ∧
      (∀ j e, m.get? j = some e → ∃ p ∈ ps, p.index = j ∧ DealtTo S x i cs p e) := by
  unfold bootstrap at h
  have hlen : ps.length = params.n.toNat := by
    by_contra hne
    rw [newState_length S dbg params x i _ ps _ _ rng hne] at h; cases h
  have hlp : ∀ p ∈ ps, ¬ Spec.LacksProof S p := by
    intro p hp hl
    rw [newState_panic S dbg params x i _ ps _ rng hlen ⟨p, hp, hl⟩] at h; cases h
  have ht : params.t ≠ 0 := by
    intro ht
    cases hs : newStateInternal S dbg params x i (some cs) ps true true rng with
    | ok v => exact newState_t_zero S dbg params ht x i _ ps _ _ rng v hs
    | error f => rw [hs] at h; cases h
  obtain ⟨h1, h2⟩ := newState_deal dbg params x i hc hd cs true ps rng ht hlen (fun _ => hlp)
  by_cases hv : (ps.filter (Accepts S params true true)).length < params.t.toNat
  · rw [h1 hv] at h; cases h
  · obtain ⟨m, rng', h3, h4, h5, h6⟩ := h2 (not_lt.mp hv)
    rw [h3] at h
    cases h
    exact ⟨m, rfl, h4, h5, h6⟩

/-- What a successful `reshare` sends. -/
theorem reshare_shares {S : Suite F G R} (hc : S.CipherLaws) (hd : S.CodecLaws) (dbg : Bool)
    (params : Params) (sk : IndividualSigningKey F) (ps : List (Participant F G)) (rng : R)
    (p : Participant F G) (m : BMap EncShare) (L : ParticipantList F G)
    (h : reshare S dbg params sk ps rng = .ok (p, m, L)) :
    ∃ (cs : List F) (x : F), p.index = sk.index ∧ sk.index ≠ 0 ∧ cs.length = params.t.toNat ∧
      cs.head? = some sk.key ∧ p.commitments = some ⟨sk.index, commitPoints S cs⟩ ∧ p.dhPublicKey = x • S.gen ∧
      Spec.DealerValid S p ∧ m.WF ∧ (∀ j, j ∈ m.keys ↔ ∃ q ∈ ps, q.index = j) ∧
      (∀ j e, m.get? j = some e → ∃ q ∈ ps, q.index = j ∧ DealtTo S x sk.index cs q e) := by
  by_cases hi : sk.index = 0
  · unfold reshare at h
    rw [newInternal_dealer_eq, if_pos hi] at h; cases h
  by_cases ht : params.t = 0
  · exfalso
    unfold reshare at h
    rw [newInternal_dealer_eq, if_neg hi, ht] at h; cases h
  obtain ⟨p', cs, x, rng', h', h1, h2, h3, h4, h5, h6⟩ :=
    newInternal_dealer S params ht sk.index hi (some sk.key) rng
  unfold reshare at h
  rw [h'] at h
  simp only [] at h
  have hlen : ps.length = params.n.toNat := by
    by_contra hne
    rw [newState_length S dbg params x sk.index _ ps _ _ rng' hne] at h; cases h
  obtain ⟨k1, k2⟩ := newState_deal dbg params x sk.index hc hd cs false ps rng' ht hlen
    (fun h => absurd h (by simp))
  by_cases hv : (ps.filter (Accepts S params true false)).length < params.t.toNat
  · rw [k1 hv] at h; cases h
  · obtain ⟨m', rng'', k3, k4, k5, k6⟩ := k2 (not_lt.mp hv)
    rw [k3] at h
    cases h
    exact ⟨cs, x, h1, hi, h2, h3 _ rfl, h4, h5, h6, k4, k5, k6⟩

/-- C23, what is true: if no participant has index 0, every dealt share is the dealer's polynomial at a *non-zero*
point.

Missing for the full C23: nothing rejects a participant with index 0; see the next theorem. -/
theorem C23_no_secret_dealt_partial {S : Suite F G R} (hc : S.CipherLaws) (hd : S.CodecLaws) (dbg : Bool)
    (params : Params) (x : F) (i : U32) (cs : List F) (ps : List (Participant F G)) (rng : R)
    (h0 : ∀ p ∈ ps, p.index ≠ 0) (d : RoundOne F G) (L : ParticipantList F G)
    (h : bootstrap S dbg params x i cs ps rng = .ok (d, L)) :
    ∃ m, d.theirEncryptedSecretShares = .ok m ∧ ∀ j e, m.get? j = some e → j ≠ 0 ∧ e.receiverIndex = j ∧
      ∃ p ∈ ps, p.index = j ∧
        decryptShare S e (S.encG (x • p.dhPublicKey)) = .ok ⟨i, j, Spec.polyEval cs (u32F F j)⟩ := by
  obtain ⟨m, h1, _, _, h4⟩ := bootstrap_shares hc hd dbg params x i cs ps rng d L h
  refine ⟨m, h1, fun j e he => ?_⟩
  obtain ⟨p, hp, hj, hdt⟩ := h4 j e he
  subst hj
  exact ⟨h0 p hp, hdt.2.1, p, hp, rfl, hdt.2.2.2⟩

/-- C23, negation: a participant that announces index 0 is sent the dealer's secret: the owner of its DH key `y`
decrypts the constant coefficient. This holds whether or not the participant passed the checks. -/
theorem C23_index_zero_receives_secret {S : Suite F G R} (hc : S.CipherLaws) (hd : S.CodecLaws) (dbg : Bool)
    (params : Params) (x : F) (i : U32) (cs : List F) (ps : List (Participant F G)) (rng : R)
    (hnd : (ps.map (·.index)).Nodup) (p : Participant F G) (hp : p ∈ ps) (hp0 : p.index = 0) (y : F)
    (hy : p.dhPublicKey = y • S.gen) (d : RoundOne F G) (L : ParticipantList F G)
    (h : bootstrap S dbg params x i cs ps rng = .ok (d, L)) :
    ∃ m e, d.theirEncryptedSecretShares = .ok m ∧ m.get? 0 = some e ∧
      decryptShare S e (S.encG (y • (x • S.gen))) = .ok ⟨i, 0, cs.headD 0⟩ := by
  obtain ⟨m, h1, _, h3, h4⟩ := bootstrap_shares hc hd dbg params x i cs ps rng d L h
  obtain ⟨e, he⟩ := BMap.exists_get? ((h3 0).mpr ⟨p, hp, hp0⟩)
  obtain ⟨q, hq, hq0, hdt⟩ := h4 0 e he
  have : q = p := List.inj_on_of_nodup_map hnd hq hp (by rw [hq0, hp0])
  subst this
  refine ⟨m, e, h1, he, ?_⟩
  have := hdt.2.2.2
  rw [hy, smul_comm] at this
  rw [this, hp0]
  simp [u32F, Spec.polyEval_zero]

/-- C23: the checks do not exclude index 0: a DH key and a dealer record for index 0 with valid proofs exist, for
every DH secret and every coefficient vector. -/
theorem C23_index_zero_is_valid (S : Suite F G R) (t : U32) (cs : List F) (hcs : cs ≠ [])
    (hlen : cs.length = t.toNat) (y : F) (rng : R) :
    ∃ p : Participant F G, p.index = 0 ∧ p.dhPublicKey = y • S.gen ∧
      p.commitments = some ⟨0, commitPoints S cs⟩ ∧ GoodDealer S t p := by
  obtain ⟨a, as, rfl⟩ := List.exists_cons_of_ne_nil hcs
  refine ⟨⟨0, y • S.gen, some ⟨0, commitPoints S (a :: as)⟩, some (nizkProve S 0 a (a • S.gen) rng).1,
    (nizkProve S 0 y (y • S.gen) rng).1⟩, rfl, rfl, rfl, ⟨nizkProve_valid S 0 y rng, _, a • S.gen, _, rfl, rfl, rfl,
    nizkProve_valid S 0 a rng⟩, ?_⟩
  rintro c hc
  cases hc
  rw [commitPoints_length, hlen]

/-- C24, what is true: the receivers are exactly the participants of the list; so if nobody misbehaved and indices
are distinct there is exactly one share per valid participant.

Missing for the full C24: misbehaving participants receive shares too; see the next theorem. -/
theorem C24_receivers_partial {S : Suite F G R} (hc : S.CipherLaws) (hd : S.CodecLaws) (dbg : Bool)
    (params : Params) (x : F) (i : U32) (cs : List F) (ps : List (Participant F G)) (rng : R)
    (d : RoundOne F G) (L : ParticipantList F G) (h : bootstrap S dbg params x i cs ps rng = .ok (d, L)) :
    ∃ m, d.theirEncryptedSecretShares = .ok m ∧ m.keys.Nodup ∧ (∀ j, j ∈ m.keys ↔ j ∈ ps.map (·.index)) ∧
      (L.misbehaving = none → ∀ j, j ∈ m.keys ↔ j ∈ L.valid.map (·.index)) := by
  obtain ⟨m, h1, h2, h3, _⟩ := bootstrap_shares hc hd dbg params x i cs ps rng d L h
  have hk : ∀ j, j ∈ m.keys ↔ j ∈ ps.map (·.index) := fun j => by rw [h3]; simp
  refine ⟨m, h1, h2.nodup, hk, fun hm j => ?_⟩
  obtain ⟨k1, k2, _⟩ := C20_bootstrap_classifies hc hd dbg params x i cs ps rng d L h
  rw [hm] at k2
  have hall : ∀ p ∈ ps, GoodDealer S params.t p := by
    by_contra hn
    rw [if_neg hn] at k2; cases k2
  rw [hk, k1, List.filter_eq_self.mpr (fun p hp => by simpa using hall p hp)]

/-- C24, negation: a participant reported as misbehaving is dealt a share nevertheless, and can decrypt it. -/
theorem C24_misbehaving_receives_share {S : Suite F G R} (hc : S.CipherLaws) (hd : S.CodecLaws) (dbg : Bool)
    (params : Params) (x : F) (i : U32) (cs : List F) (ps : List (Participant F G)) (rng : R)
    (hnd : (ps.map (·.index)).Nodup) (p : Participant F G) (hp : p ∈ ps) (_hbad : ¬ GoodDealer S params.t p)
    (y : F) (hy : p.dhPublicKey = y • S.gen) (d : RoundOne F G) (L : ParticipantList F G)
    (h : bootstrap S dbg params x i cs ps rng = .ok (d, L)) :
    (∃ l, L.misbehaving = some l ∧ p.index ∈ l) ∧ p.index ∉ L.valid.map (·.index) ∧
    ∃ m e, d.theirEncryptedSecretShares = .ok m ∧ m.get? p.index = some e ∧
      decryptShare S e (S.encG (y • (x • S.gen))) = .ok ⟨i, p.index, Spec.polyEval cs (u32F F p.index)⟩ := by
  obtain ⟨k1, k2, _⟩ := C20_bootstrap_classifies hc hd dbg params x i cs ps rng d L h
  refine ⟨?_, ?_, ?_⟩
  · rw [if_neg (fun hall => _hbad (hall p hp))] at k2
    exact ⟨_, k2, List.mem_map.mpr ⟨p, by simpa using ⟨hp, _hbad⟩, rfl⟩⟩
  · rw [k1]
    intro hm
    obtain ⟨q, hq, hqi⟩ := List.mem_map.mp hm
    have hq' := List.mem_filter.mp hq
    have : q = p := List.inj_on_of_nodup_map hnd hq'.1 hp hqi
    subst this
    exact _hbad (by simpa using hq'.2)
  · obtain ⟨m, h1, _, h3, h4⟩ := bootstrap_shares hc hd dbg params x i cs ps rng d L h
    obtain ⟨e, he⟩ := BMap.exists_get? ((h3 p.index).mpr ⟨p, hp, rfl⟩)
    obtain ⟨q, hq, hq0, hdt⟩ := h4 _ e he
    have : q = p := List.inj_on_of_nodup_map hnd hq hp hq0
    subst this
    refine ⟨m, e, h1, he, ?_⟩
    have := hdt.2.2.2
    rwa [hy, smul_comm] at this

/-- C25: with distinct indices, for each participant there is exactly one encrypted share, labelled
`(my_index, j)`, which the owner of `j`'s DH key decrypts to `f(j)`. -/
theorem C25_dealt_shares {S : Suite F G R} (hc : S.CipherLaws) (hd : S.CodecLaws) (dbg : Bool)
    (params : Params) (x : F) (i : U32) (cs : List F) (ps : List (Participant F G)) (rng : R)
    (hnd : (ps.map (·.index)).Nodup) (d : RoundOne F G) (L : ParticipantList F G)
    (h : bootstrap S dbg params x i cs ps rng = .ok (d, L)) :
    ∃ m, d.theirEncryptedSecretShares = .ok m ∧ m.keys.Nodup ∧ (∀ j, j ∈ m.keys ↔ j ∈ ps.map (·.index)) ∧
      ∀ p ∈ ps, ∃ e, m.get? p.index = some e ∧ e.senderIndex = i ∧ e.receiverIndex = p.index ∧
        ∀ y : F, p.dhPublicKey = y • S.gen → decryptShare S e (S.encG (y • (x • S.gen))) =
          .ok ⟨i, p.index, ∑ k ∈ Finset.range cs.length, cs.getD k 0 * (p.index.toNat : F) ^ k⟩ := by
  obtain ⟨m, h1, h2, h3, h4⟩ := bootstrap_shares hc hd dbg params x i cs ps rng d L h
  refine ⟨m, h1, h2.nodup, fun j => by rw [h3]; simp, fun p hp => ?_⟩
  obtain ⟨e, he⟩ := BMap.exists_get? ((h3 p.index).mpr ⟨p, hp, rfl⟩)
  obtain ⟨q, hq, hq0, hdt⟩ := h4 _ e he
  have : q = p := List.inj_on_of_nodup_map hnd hq hp hq0
  subst this
  refine ⟨e, he, hdt.1, hdt.2.1, fun y hy => ?_⟩
  have := hdt.2.2.2
  rwa [hy, smul_comm] at this

/-! ### C26 -/

/-- C26, what is true: `new` accepts only dealers whose proofs are valid and that have at least one point.

Missing for the full C26: the number of points is not compared with any threshold; see the next theorem. -/
theorem C26_new_checks_partial {S : Suite F G R} (dbg : Bool)
    (params : Params) (x : F) (i : U32) (ps : List (Participant F G)) (rng : R)
    (d : RoundOne F G) (L : ParticipantList F G) (h : dkgNew S dbg params x i ps rng = .ok (d, L)) :
    ∀ p ∈ L.valid, Spec.DealerValid S p := by
  intro p hp
  rw [(C20_new_classifies dbg params x i ps rng d L h).1] at hp
  simpa using (List.mem_filter.mp hp).2

/-- C26, negation: `new` accepts a session in which every dealer deals polynomials of whatever length `k ≥ 1`,
independent of the new threshold (and of the old one). -/
theorem C26_any_degree_accepted {S : Suite F G R} (dbg : Bool) (params : Params) (ht : params.t ≠ 0)
    (htn : params.t.toNat ≤ params.n.toNat) (x : F) (i : U32) (ps : List (Participant F G)) (rng : R)
    (hlen : ps.length = params.n.toNat) (k : U32) (hk : k ≠ 0)
    (hhon : ∀ p ∈ ps, ∃ j rng cs dh, newDealer S ⟨params.n, k⟩ j rng = .ok (p, cs, dh)) :
    ∃ d, dkgNew S dbg params x i ps rng = .ok (d, ⟨ps, none⟩) ∧
      ∀ p ∈ ps, ∃ c, p.commitments = some c ∧ c.points.length = k.toNat := by
  have hgood : ∀ p ∈ ps, GoodDealer S k p := by
    intro p hp
    obtain ⟨i, rng, cs, dh, h⟩ := hhon p hp
    exact (newDealer_good (params := ⟨params.n, k⟩) hk h).2.2.2.2.2
  have hf : ps.filter (Accepts S params false true) = ps := by
    rw [accepts_new]
    exact List.filter_eq_self.mpr fun p hp => by simpa using (hgood p hp).1
  have hf' : ps.filter (fun p => ¬ Accepts S params false true p) = [] := by
    rw [accepts_new]
    exact List.filter_eq_nil_iff.mpr fun p hp => by simpa using (hgood p hp).1
  have h := (newState_receive dbg params x i none ps rng ht hlen
    (fun p hp => dealerValid_not_lacks (hgood p hp).1)).2 (by rw [hf, hlen]; exact htn)
  rw [hf, hf'] at h
  refine ⟨⟨roundOneState S params x i true ps none⟩, by unfold dkgNew; rw [h]; rfl, fun p hp => ?_⟩
  obtain ⟨⟨_, c, _, _, hc, _⟩, hdeg⟩ := hgood p hp
  exact ⟨c, hc, hdeg c hc⟩

/-! ### Non-vacuity: a concrete session of the toy suite -/

section Examples
open Toy

/-- Three dealers of a (3, 2) session. -/
theorem toy_dealers : ∃ p1 p2 p3 : Participant Fp Fp, p1.index = 1 ∧ p2.index = 2 ∧ p3.index = 3 ∧
    ∀ p ∈ [p1, p2, p3], ∃ i rng cs dh, newDealer suite ⟨3, 2⟩ i rng = .ok (p, cs, dh) := by
  obtain ⟨p1, cs1, d1, h1, k1, _⟩ := C16_new_dealer suite ⟨3, 2⟩ (by decide) 1 (by decide) 10
  obtain ⟨p2, cs2, d2, h2, k2, _⟩ := C16_new_dealer suite ⟨3, 2⟩ (by decide) 2 (by decide) 20
  obtain ⟨p3, cs3, d3, h3, k3, _⟩ := C16_new_dealer suite ⟨3, 2⟩ (by decide) 3 (by decide) 30
  refine ⟨p1, p2, p3, k1, k2, k3, fun p hp => ?_⟩
  simp only [List.mem_cons, List.not_mem_nil, or_false] at hp
  rcases hp with rfl | rfl | rfl
  · exact ⟨_, _, _, _, h1⟩
  · exact ⟨_, _, _, _, h2⟩
  · exact ⟨_, _, _, _, h3⟩

/-- C18 applies: the session is accepted, so the hypotheses of C20, C24, C25 hold for it. -/
example : ∃ (ps : List (Participant Fp Fp)) (d : RoundOne Fp Fp), (ps.map (·.index)).Nodup ∧ ps.length = 3 ∧
    bootstrap suite true ⟨3, 2⟩ 5 1 [8, 9] ps 0 = .ok (d, ⟨ps, none⟩) := by
  obtain ⟨p1, p2, p3, k1, k2, k3, h⟩ := toy_dealers
  obtain ⟨d, hd, _⟩ := C18_honest_accepted cipher_laws codec_laws true ⟨3, 2⟩ (by decide) (by decide)
    [p1, p2, p3] rfl h 5 1 [8, 9] 0
  exact ⟨[p1, p2, p3], d, by simp [k1, k2, k3], rfl, hd⟩

/-- A session with a misbehaving participant (its proof for another index) that still succeeds: C20, C24. -/
example : ∃ (ps : List (Participant Fp Fp)) (d : RoundOne Fp Fp) (L : ParticipantList Fp Fp),
    bootstrap suite true ⟨3, 2⟩ 5 1 [8, 9] ps 0 = .ok (d, L) ∧ L.misbehaving = some [7] := by
  obtain ⟨p1, p2, p3, k1, k2, k3, h⟩ := toy_dealers
  have ht : (2 : U32) ≠ 0 := by decide
  have hg : ∀ p ∈ [p1, p2, p3], GoodDealer suite 2 p := fun p hp => by
    obtain ⟨i, rng, cs, dh, h⟩ := h p hp
    exact (newDealer_good (params := ⟨3, 2⟩) ht h).2.2.2.2.2
  let q : Participant Fp Fp := ⟨7, 1, none, none, ⟨0, 0⟩⟩
  have hq : ¬ GoodDealer suite 2 q := by
    rintro ⟨⟨_, c, _, _, hc, _⟩, _⟩; cases hc
  have hl : ∀ p ∈ [p1, p2, q], ¬ Spec.LacksProof suite p := by
    intro p hp
    simp only [List.mem_cons, List.not_mem_nil, or_false] at hp
    rcases hp with rfl | rfl | rfl
    · exact dealerValid_not_lacks (hg _ (by simp)).1
    · exact dealerValid_not_lacks (hg _ (by simp)).1
    · rintro ⟨_, _, c, _, hc, _⟩; cases hc
  have hf : ([p1, p2, q].filter (GoodDealer suite 2)).length = 2 := by
    simp [List.filter_cons, hg p1 (by simp), hg p2 (by simp), hq]
  have hb := (C21_aborts_iff cipher_laws codec_laws true ⟨3, 2⟩ ht (5 : Fp) 1 [8, 9] [p1, p2, q] 0 rfl hl).1
  cases hs : bootstrap suite true ⟨3, 2⟩ 5 1 [8, 9] [p1, p2, q] 0 with
  | error f =>
    have := hb.mp ⟨f, hs⟩
    rw [hf] at this
    exact absurd this (by decide)
  | ok v =>
    obtain ⟨d, L⟩ := v
    refine ⟨[p1, p2, q], d, L, hs, ?_⟩
    rw [(C20_bootstrap_classifies cipher_laws codec_laws true _ _ _ _ _ _ d L hs).2.1]
    rw [if_neg (fun hall => hq (hall q (by simp)))]
    simp [List.filter_cons, hg p1 (by simp), hg p2 (by simp), hq]
    rfl

/-- C22: the attack record exists in the toy suite. -/
example : ∃ p cs dh, newDealer suite ⟨3, 2⟩ 2 0 = .ok (p, cs, dh) ∧
    Spec.LacksProof suite { p with proofOfSecretKey := none } :=
  C22_attack suite ⟨3, 2⟩ (by decide) 2 (by decide) 0

end Examples

end IceFrost
