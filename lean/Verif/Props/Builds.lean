import Verif.Model.Participant
import Verif.Model.Signature
import Verif.Lemmas.RoundOne
import Verif.Props.RoundTwo
import Verif.Toy

/-!
# C175: debug and release builds agree

A debug build checks `debug_assert!` and arithmetic overflow and panics, a release build does neither. `dbg = true` is the
debug build.
-/

set_option linter.unusedSectionVars false

namespace IceFrost

variable {F G R : Type} [Field F] [DecidableEq F] [AddCommGroup G] [Module F G] [DecidableEq G]

/-- A panic that only a debug build knows. -/
def Spec.DebugPanic {α : Type} (r : Res F G α) : Prop :=
  r = .error (.panic .debugAssert) ∨ r = .error (.panic .overflow)

/-- What the debug build returns without such a panic, the release build returns too. -/
def Spec.Follows {α : Type} (debug release : Res F G α) : Prop := Spec.DebugPanic debug ∨ release = debug

theorem follows_refl {α : Type} (r : Res F G α) : Spec.Follows r r := .inr rfl

theorem follows_error {α β : Type} {f : Fail F G} (h : Spec.DebugPanic (.error f : Res F G α)) :
    Spec.DebugPanic (.error f : Res F G β) := by
  rcases h with h | h <;> cases h
  · exact .inl rfl
  · exact .inr rfl

theorem params_follows (n t : U32) : Spec.Follows (Params.new (F := F) (G := G) true n t) (Params.new false n t) := by
  unfold Params.new
  by_cases h1 : n = 0
  · exact .inl (.inl (by simp [h1]))
  · by_cases h2 : t = 0
    · exact .inl (.inl (by simp [h1, h2]))
    · by_cases h3 : t ≤ n
      · exact .inr (by simp [h1, h2, h3])
      · exact .inl (.inl (by simp [h1, h2, h3]))

theorem u32Sub_follows (a b : U32) : Spec.Follows (u32Sub (F := F) (G := G) true a b) (u32Sub false a b) := by
  unfold u32Sub
  by_cases h : a < b
  · exact .inl (.inr (by simp [h]))
  · exact .inr (by simp [h])

theorem checkParticipant_follows (S : Suite F G R) (p : Params) (a b : Bool) (acc : RoundOneAcc F G)
    (q : Participant F G) : Spec.Follows (checkParticipant S true p a b acc q) (checkParticipant S false p a b acc q) := by
  cases b with
  | true => exact .inr (by simp [checkParticipant])
  | false =>
    cases a with
    | true => exact .inr (by simp [checkParticipant])
    | false =>
      unfold checkParticipant
      cases nizkVerify S q.proofOfDhPrivateKey q.index q.dhPublicKey with
      | error e => exact .inr rfl
      | ok u => exact .inl (.inl rfl)

theorem foldl_follows {α β : Type} (f g : β → α → Res F G β) (h : ∀ b a, Spec.Follows (f b a) (g b a)) (l : List α) (b : β) :
    Spec.Follows (l.foldlM f b) (l.foldlM g b) := by
  induction l generalizing b with
  | nil => exact .inr rfl
  | cons a l ih =>
    simp only [List.foldlM_cons]
    rcases h b a with h | h
    · rcases h with h | h
      · exact .inl (.inl (by rw [h]; rfl))
      · exact .inl (.inr (by rw [h]; rfl))
    · rw [h]
      cases f b a with
      | error e => exact .inr rfl
      | ok b' => exact ih b'

theorem newStateInternal_follows (S : Suite F G R) (p : Params) (x : F) (i : U32) (cs : Option (List F))
    (ps : List (Participant F G)) (a b : Bool) (rng : R) :
    Spec.Follows (newStateInternal S true p x i cs ps a b rng) (newStateInternal S false p x i cs ps a b rng) := by
  unfold newStateInternal
  by_cases hl : ps.length ≠ p.n.toNat
  · rw [if_pos hl, if_pos hl]; exact .inr rfl
  · rw [if_neg hl, if_neg hl]
    rcases foldl_follows _ _ (checkParticipant_follows S p a b) ps ⟨[], [], [], []⟩ with h | h
    · rcases h with h | h
      · exact .inl (.inl (by rw [h]))
      · exact .inl (.inr (by rw [h]))
    · rw [h]
      cases ps.foldlM (checkParticipant S true p a b) ⟨[], [], [], []⟩ with
      | error f => exact .inr rfl
      | ok acc =>
        simp only
        split
        · exact .inr rfl
        · split
          · rcases u32Sub_follows (F := F) (G := G) p.n (UInt32.ofNat acc.misbehaving.length) with h | h
            · rcases h with h | h
              · exact .inl (.inl (by rw [h]))
              · exact .inl (.inr (by rw [h]))
            · rw [h]
              cases u32Sub (F := F) (G := G) true p.n (UInt32.ofNat acc.misbehaving.length) with
              | error f => exact .inr rfl
              | ok n =>
                simp only
                rcases params_follows (F := F) (G := G) n p.t with h | h
                · rcases h with h | h
                  · exact .inl (.inl (by rw [h]))
                  · exact .inl (.inr (by rw [h]))
                · rw [h]; exact .inr rfl
          · cases dealShares S x i cs ps [] rng with
            | error f => exact .inr rfl
            | ok r =>
              simp only
              rcases u32Sub_follows (F := F) (G := G) p.n (UInt32.ofNat acc.misbehaving.length) with h | h
              · rcases h with h | h
                · exact .inl (.inl (by rw [h]))
                · exact .inl (.inr (by rw [h]))
              · rw [h]
                cases u32Sub (F := F) (G := G) true p.n (UInt32.ofNat acc.misbehaving.length) with
                | error f => exact .inr rfl
                | ok n =>
                  simp only
                  rcases params_follows (F := F) (G := G) n p.t with h | h
                  · rcases h with h | h
                    · exact .inl (.inl (by rw [h]))
                    · exact .inl (.inr (by rw [h]))
                  · rw [h]; exact .inr rfl

theorem map_follows {α β : Type} (f : α → β) {r r' : Res F G α} (h : Spec.Follows r r') :
    Spec.Follows (r.map f) (r'.map f) := by
  rcases h with (h | h) | h
  · exact .inl (.inl (by rw [h]; rfl))
  · exact .inl (.inr (by rw [h]; rfl))
  · exact .inr (by rw [h])

theorem roundTwoLoop_follows (S : Suite F G R) (st : DkgState F G) (es : List EncShare) (m : BMap (SecretShare F))
    (cs : List (Complaint F G)) (rng : R) :
    Spec.Follows (roundTwoLoop S true st es m cs rng) (roundTwoLoop S false st es m cs rng) := by
  induction es generalizing m cs rng with
  | nil => exact .inr rfl
  | cons e es ih =>
    unfold roundTwoLoop
    by_cases hr : e.receiverIndex = st.index
    · simp only [hr, bne_self_eq_false, Bool.and_false, Bool.false_eq_true, if_false]
      cases st.theirDhPublicKeys.get? e.senderIndex with
      | none => exact .inr rfl
      | some pk =>
        simp only
        cases st.theirCommitments with
        | none => exact .inr rfl
        | some comms => exact ih _ _ _
    · exact .inl (.inl (by simp [hr]))

theorem toRoundTwo_follows (S : Suite F G R) (d : RoundOne F G) (es : List EncShare) (rng : R) :
    Spec.Follows (d.toRoundTwo S true es rng) (d.toRoundTwo S false es rng) := by
  unfold RoundOne.toRoundTwo
  simp only
  split
  · exact .inr rfl
  · rcases roundTwoLoop_follows S { d.state with theirEncryptedSecretShares := none } es [] [] rng with (h | h) | h
    · exact .inl (.inl (by rw [h]))
    · exact .inl (.inr (by rw [h]))
    · rw [h]
      cases roundTwoLoop S true { d.state with theirEncryptedSecretShares := none } es [] [] rng with
      | error f => exact .inr rfl
      | ok r =>
        simp only
        rcases u32Sub_follows (F := F) (G := G) d.state.parameters.n (UInt32.ofNat r.2.length) with (h | h) | h
        · exact .inl (.inl (by rw [h]))
        · exact .inl (.inr (by rw [h]))
        · rw [h]; exact .inr rfl

theorem reshare_follows (S : Suite F G R) (p : Params) (sk : IndividualSigningKey F) (ps : List (Participant F G)) (rng : R) :
    Spec.Follows (reshare S true p sk ps rng) (reshare S false p sk ps rng) := by
  unfold reshare
  cases newInternal S p false sk.index (some sk.key) rng with
  | error f => exact .inr rfl
  | ok r =>
    obtain ⟨⟨dealer, cs, dh⟩, rng'⟩ := r
    cases cs with
    | none => exact .inr rfl
    | some cs =>
      simp only
      rcases newStateInternal_follows S p dh sk.index (some cs) ps true false rng' with (h | h) | h
      · exact .inl (.inl (by rw [h]))
      · exact .inl (.inr (by rw [h]))
      · rw [h]; exact .inr rfl

theorem signCore_follows (S : Suite F G R) (sk : IndividualSigningKey F) (msg : Bytes) (Y : G)
    (l : List (CommitmentShare F G)) (i : UInt64) (signers : List (Signer G)) :
    Spec.Follows (signCore S true sk msg Y l i signers) (signCore S false sk msg Y l i signers) := by
  unfold signCore
  by_cases h : i == UInt64.ofNat (2 ^ 64 - 1)
  · exact .inl (.inr (by simp only [h, Bool.and_self, if_true]))
  · exact .inr (by simp only [h, Bool.and_false, Bool.false_eq_true, if_false])

/-- The property of C175 for the calls that a debug build does not interrupt. (Where it panics, a release build goes on:
mostly to an error, see the theorems below, but not always.) -/
theorem C175_same_partial (S : Suite F G R) :
    (∀ n t, Spec.Follows (Params.new (F := F) (G := G) true n t) (Params.new false n t)) ∧
    (∀ p x i cs ps rng, Spec.Follows (bootstrap S true p x i cs ps rng) (bootstrap S false p x i cs ps rng)) ∧
    (∀ p x i ps rng, Spec.Follows (dkgNew S true p x i ps rng) (dkgNew S false p x i ps rng)) ∧
    (∀ (d : RoundOne F G) es rng, Spec.Follows (d.toRoundTwo S true es rng) (d.toRoundTwo S false es rng)) ∧
    (∀ p sk ps rng, Spec.Follows (reshare S true p sk ps rng) (reshare S false p sk ps rng)) ∧
    (∀ sk msg Y l i signers, Spec.DebugPanic (sign S true sk msg Y l i signers).1 ∨
      sign S false sk msg Y l i signers = sign S true sk msg Y l i signers) := by
  refine ⟨params_follows, fun p x i cs ps rng => map_follows _ (newStateInternal_follows S _ _ _ _ _ _ _ _),
    fun p x i ps rng => map_follows _ (newStateInternal_follows S _ _ _ _ _ _ _ _), toRoundTwo_follows S,
    reshare_follows S, ?_⟩
  intro sk msg Y l i signers
  rcases signCore_follows S sk msg Y l i signers with h | h
  · refine .inl ?_
    rcases h with h | h
    · exact .inl (by simp only [sign, h])
    · exact .inr (by simp only [sign, h])
  · exact .inr (by simp only [sign, h])

/-- `ThresholdParameters::new`: a debug build panics exactly where a release build returns an error. -/
theorem C175_parameters (n t : U32) : Spec.DebugPanic (Params.new (F := F) (G := G) true n t) ↔
    Params.new (F := F) (G := G) false n t = .error (.err .invalidThresholdParams) := by
  unfold Params.new Spec.DebugPanic
  have hle : t ≤ n ↔ t.toNat ≤ n.toNat := UInt32.le_iff_toNat_le
  have hlt : n < t ↔ ¬ t.toNat ≤ n.toNat := by rw [UInt32.lt_iff_toNat_lt]; omega
  by_cases h1 : n = 0
  · simp [h1]
  · by_cases h2 : t = 0
    · simp [h1, h2]
    · by_cases h3 : t.toNat ≤ n.toNat
      · simp [h1, h2, h3, hle, hlt]
      · simp [h1, h2, h3, hle, hlt]

/-! ### Round one -/

theorem checkParticipant_build (S : Suite F G R) (p : Params) (a b : Bool) (hab : a = true ∨ b = true) (acc : RoundOneAcc F G)
    (q : Participant F G) : checkParticipant S true p a b acc q = checkParticipant S false p a b acc q := by
  rcases hab with rfl | rfl <;> simp [checkParticipant]

theorem checkParticipant_count (S : Suite F G R) (dbg : Bool) (p : Params) (a b : Bool) (acc acc' : RoundOneAcc F G)
    (q : Participant F G) (h : checkParticipant S dbg p a b acc q = .ok acc') :
    acc'.valid.length + acc'.misbehaving.length = acc.valid.length + acc.misbehaving.length + 1 := by
  unfold checkParticipant RoundOneAcc.blame at h
  repeat' split at h
  all_goals first
    | (cases h; simp only [List.length_append, List.length_cons, List.length_nil]; omega)
    | cases h

theorem checkParticipant_calm (S : Suite F G R) (p : Params) (a b : Bool) (hab : a = true ∨ b = true) (acc : RoundOneAcc F G)
    (q : Participant F G) : ¬ Spec.DebugPanic (checkParticipant S true p a b acc q) := by
  intro h
  unfold checkParticipant at h
  rcases hab with rfl | rfl
  all_goals
    simp only [Bool.not_true, Bool.and_false, Bool.false_eq_true, if_false, if_true] at h
    repeat' split at h
    all_goals
      rcases h with h | h <;> cases h

theorem fold_calm (S : Suite F G R) (p : Params) (a b : Bool) (hab : a = true ∨ b = true) (ps : List (Participant F G))
    (acc : RoundOneAcc F G) : ¬ Spec.DebugPanic (ps.foldlM (checkParticipant S true p a b) acc) := by
  induction ps generalizing acc with
  | nil => rintro (h | h) <;> cases h
  | cons q ps ih =>
    rw [List.foldlM_cons]
    cases hq : checkParticipant S true p a b acc q with
    | ok acc' => exact ih acc'
    | error f =>
      intro h
      exact checkParticipant_calm S p a b hab acc q (by rw [hq]; exact follows_error h)

theorem fold_count (S : Suite F G R) (dbg : Bool) (p : Params) (a b : Bool) (ps : List (Participant F G))
    (acc acc' : RoundOneAcc F G) (h : ps.foldlM (checkParticipant S dbg p a b) acc = .ok acc') :
    acc'.valid.length + acc'.misbehaving.length = acc.valid.length + acc.misbehaving.length + ps.length := by
  induction ps generalizing acc with
  | nil => cases h; rfl
  | cons q ps ih =>
    rw [List.foldlM_cons] at h
    cases hq : checkParticipant S dbg p a b acc q with
    | error f => rw [hq] at h; cases h
    | ok acc1 =>
      rw [hq] at h
      have h1 := checkParticipant_count S dbg p a b acc acc1 q hq
      have h2 := ih acc1 h
      rw [List.length_cons]
      omega

theorem dealShares_calm (S : Suite F G R) (x : F) (i : U32) (cs : Option (List F)) (ps : List (Participant F G))
    (m : BMap EncShare) (rng : R) : ¬ Spec.DebugPanic (dealShares S x i cs ps m rng) := by
  induction ps generalizing m rng with
  | nil => rintro (h | h) <;> cases h
  | cons q ps ih =>
    unfold dealShares
    cases cs with
    | none => rintro (h | h) <;> cases h
    | some cs =>
      simp only
      split
      · rintro (h | h) <;> cases h
      · exact ih _ _

theorem calm_error {α : Type} {e : Error F G} : ¬ Spec.DebugPanic (.error (.err e) : Res F G α) := by
  rintro (h | h) <;> cases h

theorem calm_ok {α : Type} {a : α} : ¬ Spec.DebugPanic (.ok a : Res F G α) := by
  rintro (h | h) <;> cases h

/-- In round one the debug build panics only on `t = 0`, where the release build reports the parameters. -/
theorem newStateInternal_debug (S : Suite F G R) (p : Params) (x : F) (i : U32) (cs : Option (List F))
    (ps : List (Participant F G)) (a b : Bool) (hab : a = true ∨ b = true) (rng : R)
    (h : Spec.DebugPanic (newStateInternal S true p x i cs ps a b rng)) :
    p.t = 0 ∧ newStateInternal S false p x i cs ps a b rng = .error (.err .invalidThresholdParams) := by
  have hf : checkParticipant S false p a b = checkParticipant S true p a b := by
    funext acc q; exact (checkParticipant_build S p a b hab acc q).symm
  unfold newStateInternal at h ⊢
  rw [hf]
  by_cases hl : ps.length ≠ p.n.toNat
  · rw [if_pos hl] at h
    exact absurd h calm_error
  · rw [if_neg hl] at h ⊢
    have hcalm := fold_calm S p a b hab ps ⟨[], [], [], []⟩
    cases hacc : ps.foldlM (checkParticipant S true p a b) ⟨[], [], [], []⟩ with
    | error f =>
      rw [hacc] at hcalm h
      exact absurd (follows_error h) hcalm
    | ok acc =>
      have hc := fold_count S true p a b ps _ acc hacc
      simp only [List.length_nil, zero_add] at hc
      rw [hacc] at h
      simp only at h ⊢
      by_cases hv : acc.valid.length < p.t.toNat
      · rw [if_pos hv] at h
        exact absurd h calm_error
      · rw [if_neg hv] at h ⊢
        have hn : p.n.toNat = acc.valid.length + acc.misbehaving.length := by
          have := not_ne_iff.mp hl
          omega
        have hs : ∀ dbg, u32Sub (F := F) (G := G) dbg p.n (UInt32.ofNat acc.misbehaving.length) =
            .ok (UInt32.ofNat acc.valid.length) := fun dbg => u32Sub_ok dbg p.n _ _ hn
        have ht : (UInt32.ofNat acc.valid.length).toNat = acc.valid.length :=
          UInt32.toNat_ofNat_of_lt (by have := p.n.toNat_lt; simp [UInt32.size]; omega)
        have hz : Spec.DebugPanic (Params.new (F := F) (G := G) true (UInt32.ofNat acc.valid.length) p.t) → p.t = 0 := by
          intro hp
          by_contra h0
          rw [newParams_ok true h0 (by rw [ht]; omega)] at hp
          exact calm_ok hp
        have hp : Spec.DebugPanic (Params.new (F := F) (G := G) true (UInt32.ofNat acc.valid.length) p.t) := by
          by_contra hno
          rw [hs] at h
          split at h
          · simp only at h
            cases hp : Params.new (F := F) (G := G) true (UInt32.ofNat acc.valid.length) p.t with
            | error f => rw [hp] at h hno; exact hno (follows_error h)
            | ok q => rw [hp] at h; exact calm_ok h
          · have hd := dealShares_calm S x i cs ps [] rng
            cases hds : dealShares S x i cs ps [] rng with
            | error f => rw [hds] at h hd; exact hd (follows_error h)
            | ok r =>
              rw [hds] at h
              simp only at h
              cases hp : Params.new (F := F) (G := G) true (UInt32.ofNat acc.valid.length) p.t with
              | error f => rw [hp] at h hno; exact hno (follows_error h)
              | ok q => rw [hp] at h; exact calm_ok h
        refine ⟨hz hp, ?_⟩
        have hr := (C175_parameters _ _).mp hp
        simp only [hs, hr] at h ⊢
        split
        · rfl
        · rename_i hab'
          rw [if_neg hab'] at h
          have hd := dealShares_calm S x i cs ps [] rng
          cases hds : dealShares S x i cs ps [] rng with
          | error f => rw [hds] at h hd; exact absurd (follows_error h) hd
          | ok r => rfl

theorem calm_map {α β : Type} (f : α → β) {r : Res F G α} (h : Spec.DebugPanic (r.map f)) : Spec.DebugPanic r := by
  cases r with
  | ok a => exact absurd h calm_ok
  | error e => exact follows_error h

/-- C175 for the three functions that begin a session: with `t ≠ 0` both builds return the same; with `t = 0`, and
wherever a debug build panics, a release build returns `InvalidThresholdParams`. -/
theorem C175_round_one (S : Suite F G R) (p : Params) :
    (p.t ≠ 0 →
      (∀ x i cs ps rng, bootstrap S false p x i cs ps rng = bootstrap S true p x i cs ps rng) ∧
      (∀ x i ps rng, dkgNew S false p x i ps rng = dkgNew S true p x i ps rng) ∧
      (∀ sk ps rng, reshare S false p sk ps rng = reshare S true p sk ps rng)) ∧
    (∀ x i cs ps rng, Spec.DebugPanic (bootstrap S true p x i cs ps rng) →
      bootstrap S false p x i cs ps rng = .error (.err .invalidThresholdParams)) ∧
    (∀ x i ps rng, Spec.DebugPanic (dkgNew S true p x i ps rng) →
      dkgNew S false p x i ps rng = .error (.err .invalidThresholdParams)) ∧
    (∀ sk ps rng, ¬ Spec.DebugPanic (reshare S true p sk ps rng)) := by
  have hb : ∀ x i cs ps rng, Spec.DebugPanic (bootstrap S true p x i cs ps rng) →
      p.t = 0 ∧ bootstrap S false p x i cs ps rng = .error (.err .invalidThresholdParams) := by
    intro x i cs ps rng h
    obtain ⟨h1, h2⟩ := newStateInternal_debug S p x i (some cs) ps true true (.inl rfl) rng (calm_map _ h)
    exact ⟨h1, by rw [bootstrap, h2]; rfl⟩
  have hd : ∀ x i ps rng, Spec.DebugPanic (dkgNew S true p x i ps rng) →
      p.t = 0 ∧ dkgNew S false p x i ps rng = .error (.err .invalidThresholdParams) := by
    intro x i ps rng h
    obtain ⟨h1, h2⟩ := newStateInternal_debug S p x i none ps false true (.inr rfl) rng (calm_map _ h)
    exact ⟨h1, by rw [dkgNew, h2]; rfl⟩
  have hr : ∀ sk ps rng, ¬ Spec.DebugPanic (reshare S true p sk ps rng) := by
    intro sk ps rng h
    unfold reshare at h
    by_cases hi : sk.index = 0
    · rw [newInternal_dealer_eq, if_pos hi] at h
      exact calm_error h
    · by_cases ht : p.t = 0
      · rw [newInternal_dealer_eq, if_neg hi] at h
        simp only [ht, UInt32.toNat_zero, commitLoop, VssCommitment.publicKey, List.head?_nil] at h
        rcases h with h | h <;> cases h
      · obtain ⟨q, cs, dh, rng', h1, _⟩ := newInternal_dealer S p ht sk.index hi (some sk.key) rng
        rw [h1] at h
        simp only at h
        have hd := newStateInternal_debug S p dh sk.index (some cs) ps true false (.inl rfl) rng'
        cases hs : newStateInternal S true p dh sk.index (some cs) ps true false rng' with
        | error f =>
          rw [hs] at h hd
          exact ht (hd (follows_error h)).1
        | ok r =>
          rw [hs] at h
          simp only at h
          split at h
          · exact calm_error h
          · exact calm_ok h
  refine ⟨fun ht => ⟨fun x i cs ps rng => ?_, fun x i ps rng => ?_, fun sk ps rng => ?_⟩,
    fun x i cs ps rng h => (hb x i cs ps rng h).2, fun x i ps rng h => (hd x i ps rng h).2, hr⟩
  · exact ((C175_same_partial S).2.1 p x i cs ps rng).resolve_left fun h => ht (hb x i cs ps rng h).1
  · exact ((C175_same_partial S).2.2.1 p x i ps rng).resolve_left fun h => ht (hd x i ps rng h).1
  · exact (reshare_follows S p sk ps rng).resolve_left (hr sk ps rng)

/-! ### Signing -/

/-- C175 for `sign`: the builds differ only at the position `usize::MAX`, where both refuse and leave the nonces as
they are. -/
theorem C175_sign (S : Suite F G R) (sk : IndividualSigningKey F) (msg : Bytes) (Y : G)
    (l : List (CommitmentShare F G)) (hl : l.length < 2 ^ 64) (i : UInt64) (signers : List (Signer G)) :
    (i.toNat ≠ 2 ^ 64 - 1 → sign S false sk msg Y l i signers = sign S true sk msg Y l i signers) ∧
    (i.toNat = 2 ^ 64 - 1 → sign S true sk msg Y l i signers = (.error (.panic .overflow), l) ∧
      ∃ f, sign S false sk msg Y l i signers = (.error f, l)) := by
  have hi : (i == UInt64.ofNat (2 ^ 64 - 1)) = true ↔ i.toNat = 2 ^ 64 - 1 := by
    rw [beq_iff_eq, ← UInt64.toNat_inj]; rfl
  constructor
  · intro h
    have h0 : (i == UInt64.ofNat (2 ^ 64 - 1)) = false := by
      rw [← Bool.not_eq_true, hi]; exact h
    have : signCore S false sk msg Y l i signers = signCore S true sk msg Y l i signers := by
      unfold signCore
      simp only [h0, Bool.and_false]
    simp only [sign, this]
  · intro h
    have h0 := hi.mpr h
    refine ⟨by simp only [sign, signCore, h0, Bool.and_self, if_true], ?_⟩
    have : ∃ f, signCore S false sk msg Y l i signers = .error f := by
      unfold signCore
      have hno : l[i.toNat]? = none := by rw [List.getElem?_eq_none_iff]; omega
      rw [hno]
      simp only [Bool.false_and, Bool.false_eq_true, if_false]
      split
      · exact ⟨_, rfl⟩
      · cases computeBindingFactors S msg signers with
        | error f => exact ⟨_, rfl⟩
        | ok factors =>
          simp only
          cases bindingFactorFor (G := G) sk.index factors with
          | error f => exact ⟨_, rfl⟩
          | ok factor =>
            simp only
            cases computeGroupCommitment factors signers 0 with
            | error f => exact ⟨_, rfl⟩
            | ok c =>
              simp only
              cases lagrangeCoeff (F := F) (G := G) sk.index (signers.map (·.participantIndex)) with
              | error f => exact ⟨_, rfl⟩
              | ok lam => exact ⟨_, rfl⟩
    obtain ⟨f, hf⟩ := this
    exact ⟨f, by simp only [sign, hf]⟩

/-! ### Round two -/

theorem complaintLoop_length (S : Suite F G R) (pk : G) (x : F) (k : G) (e : EncShare) (d : Out F G (SecretShare F))
    (comms : List (U32 × VssCommitment G)) (cs : List (Complaint F G)) (rng : R) :
    (complaintLoop S pk x k e d comms cs rng).1.length ≤ cs.length + 1 := by
  induction comms with
  | nil => simp [complaintLoop]
  | cons c comms ih =>
    unfold complaintLoop
    split
    · have key : ∀ b : Bool, (if b = true then (cs ++ [(Complaint.new S pk x k e rng).1], (Complaint.new S pk x k e rng).2)
          else complaintLoop S pk x k e d comms cs rng).1.length ≤ cs.length + 1 := by
        intro b
        cases b
        · exact ih
        · simp
      exact key _
    · exact ih

theorem roundTwoLoop_build (S : Suite F G R) (st : DkgState F G) (es : List EncShare)
    (hes : ∀ e ∈ es, e.receiverIndex = st.index) (m : BMap (SecretShare F))
    (cs : List (Complaint F G)) (rng : R) :
    roundTwoLoop S false st es m cs rng = roundTwoLoop S true st es m cs rng := by
  induction es generalizing m cs rng with
  | nil => rfl
  | cons e es ih =>
    have hr := hes e (by simp)
    have ih := ih (fun e he => hes e (by simp [he]))
    unfold roundTwoLoop
    simp only [hr, bne_self_eq_false, Bool.and_false, Bool.false_eq_true, if_false, ih]

theorem roundTwoLoop_length (S : Suite F G R) (dbg : Bool) (st : DkgState F G) (es : List EncShare)
    (m : BMap (SecretShare F)) (cs : List (Complaint F G)) (rng : R) (m' : BMap (SecretShare F)) (cs' : List (Complaint F G))
    (h : roundTwoLoop S dbg st es m cs rng = .ok (m', cs')) : cs'.length ≤ cs.length + es.length := by
  induction es generalizing m cs rng with
  | nil => cases h; simp
  | cons e es ih =>
    unfold roundTwoLoop at h
    split at h
    · cases h
    · split at h
      · cases h
      · rename_i pk _
        simp only at h
        split at h
        · cases h
        · rename_i comms _
          have h1 := ih _ _ _ h
          have h2 := complaintLoop_length S pk st.dhPrivateKey (st.dhPrivateKey • pk) e
            (decryptShare S e (S.encG (st.dhPrivateKey • pk))) comms cs rng
          rw [List.length_cons]
          omega

/-- C175 for `to_round_two`: on at most `n` shares that name the holder as receiver both builds return the same. -/
theorem C175_round_two_partial (S : Suite F G R) (d : RoundOne F G) (es : List EncShare) (rng : R)
    (hes : ∀ e ∈ es, e.receiverIndex = d.state.index) (hn : es.length ≤ d.state.parameters.n.toNat) :
    d.toRoundTwo S false es rng = d.toRoundTwo S true es rng := by
  unfold RoundOne.toRoundTwo
  simp only
  split
  · rfl
  · rw [roundTwoLoop_build S { d.state with theirEncryptedSecretShares := none } es hes]
    cases h : roundTwoLoop S true { d.state with theirEncryptedSecretShares := none } es [] [] rng with
    | error f => rfl
    | ok r =>
      obtain ⟨m, cs⟩ := r
      have hlen := roundTwoLoop_length S true _ es [] [] rng m cs h
      simp only [List.length_nil, zero_add] at hlen
      have : ∀ dbg, u32Sub (F := F) (G := G) dbg d.state.parameters.n (UInt32.ofNat cs.length) =
          .ok (UInt32.ofNat (d.state.parameters.n.toNat - cs.length)) := fun dbg => u32Sub_ok dbg _ _ _ (by omega)
      simp only [this]

section
attribute [local instance] Classical.propDecidable

/-- C175, negation: with more than `n` bad shares a debug build panics, while a release build carries on to round
two. -/
theorem C175_overflow (S : Suite F G R) (d : RoundOne F G) (comms : BMap (VssCommitment G))
    (hcomms : d.state.theirCommitments = some comms) (hn : comms.keys.Nodup) (es : List EncShare)
    (hlen : d.state.parameters.t.toNat ≤ es.length) (ht : d.state.parameters.t ≠ 0)
    (hes : ∀ e ∈ es, e.receiverIndex = d.state.index ∧ e.senderIndex ∈ d.state.theirDhPublicKeys.keys) (rng : R)
    (bad : List EncShare)
    (hbad : bad = es.filter fun e => ∃ pk c, d.state.theirDhPublicKeys.get? e.senderIndex = some pk ∧
        comms.get? e.senderIndex = some c ∧ ¬ Spec.GoodShare S (d.state.dhPrivateKey • pk) c.points e)
    (hgt : d.state.parameters.n.toNat < bad.length) (hup : bad.length + d.state.parameters.t.toNat ≤ 2 ^ 32) :
    Spec.DebugPanic (d.toRoundTwo S true es rng) ∧
      ∃ d' cs, d.toRoundTwo S false es rng = .ok (d', cs) ∧ cs.map (·.encShare) = bad :=
  ⟨.inr ((C30_overflow S true d comms hcomms hn es hlen (fun e he => ⟨fun _ => (hes e he).1, (hes e he).2⟩) rng bad hbad
      hgt hup).1 rfl ht),
    (C30_overflow S false d comms hcomms hn es hlen (fun e he => ⟨fun _ => (hes e he).1, (hes e he).2⟩) rng bad hbad
      hgt hup).2 rfl ht⟩

theorem overflow_all (S : Suite F G R) (d : RoundOne F G) (comms : BMap (VssCommitment G))
    (hcomms : d.state.theirCommitments = some comms) (hn : comms.keys.Nodup) (es : List EncShare)
    (hlen : d.state.parameters.t.toNat ≤ es.length) (ht : d.state.parameters.t ≠ 0)
    (hes : ∀ e ∈ es, e.receiverIndex = d.state.index ∧ e.senderIndex ∈ d.state.theirDhPublicKeys.keys) (rng : R)
    (hbad : ∀ e ∈ es, ∃ pk c, d.state.theirDhPublicKeys.get? e.senderIndex = some pk ∧
        comms.get? e.senderIndex = some c ∧ ¬ Spec.GoodShare S (d.state.dhPrivateKey • pk) c.points e)
    (hgt : d.state.parameters.n.toNat < es.length) (hup : es.length + d.state.parameters.t.toNat ≤ 2 ^ 32) :
    Spec.DebugPanic (d.toRoundTwo S true es rng) ∧
      ∃ d' cs, d.toRoundTwo S false es rng = .ok (d', cs) ∧ cs.map (·.encShare) = es :=
  C175_overflow S d comms hcomms hn es hlen ht hes rng es
    (List.filter_eq_self.mpr fun e he => decide_eq_true (hbad e he)).symm hgt hup

/-- C175, negation: at a share for another receiver a debug build panics, while a release build stores it without
complaint. -/
theorem C175_misaddressed {S : Suite F G R} (hc : S.CipherLaws) (hd : S.CodecLaws)
    (d : RoundOne F G) (comms : BMap (VssCommitment G)) (hcomms : d.state.theirCommitments = some comms)
    (hn : comms.keys.Nodup) (ht : d.state.parameters.t = 1) (htn : 1 ≤ d.state.parameters.n.toNat)
    (l j : U32) (hj : j ≠ d.state.index) (xl : F) (poly : List F)
    (hdh : d.state.theirDhPublicKeys.get? l = some (xl • S.gen))
    (c : VssCommitment G) (hcl : comms.get? l = some c) (hpts : c.points = poly.map (· • S.gen)) (e : EncShare)
    (he : HonestlyDealt S l j xl poly (d.state.dhPrivateKey • S.gen) e) (rng : R) :
    Spec.DebugPanic (d.toRoundTwo S true [e] rng) ∧
      ∃ d' m, d.toRoundTwo S false [e] rng = .ok (d', []) ∧ d'.state.mySecretShares = some m ∧
        m.get? l = some ⟨l, j, Spec.polyEval poly (j.toNat : F)⟩ := by
  refine ⟨.inl ?_, C31_release_misaddressed hc hd d comms hcomms hn ht htn l j xl poly hdh c hcl hpts e he rng⟩
  have hr : e.receiverIndex = j := (honestlyDealt_opens hc hd he).2.1
  unfold RoundOne.toRoundTwo
  rw [if_neg (by simp [ht])]
  simp [roundTwoLoop, hr, hj]

/-! ### Non-vacuity -/

section Examples
open Toy

/-- Both builds on a share that names the holder, in a session of two dealers. -/
example (b : Bytes) : toyR1.toRoundTwo suite false [⟨1, 3, b, b⟩, ⟨2, 3, b, b⟩] 0 =
    toyR1.toRoundTwo suite true [⟨1, 3, b, b⟩, ⟨2, 3, b, b⟩] 0 :=
  C175_round_two_partial suite toyR1 _ 0 (by simp [toyR1]) le_rfl

/-- Three unreadable shares where `n = 2`: the builds part. -/
example : Spec.DebugPanic (toyR1.toRoundTwo suite true (List.replicate 3 ⟨1, 3, [], []⟩) 0) ∧
    ∃ d' cs, toyR1.toRoundTwo suite false (List.replicate 3 ⟨1, 3, [], []⟩) 0 = .ok (d', cs) ∧ cs.length = 3 := by
  obtain ⟨comms, hcomms, hget, hnd⟩ : ∃ comms, toyR1.state.theirCommitments = some comms ∧
      (∃ c, comms.get? 1 = some c) ∧ comms.keys.Nodup := ⟨_, rfl, ⟨_, rfl⟩, by decide⟩
  obtain ⟨c, hc⟩ := hget
  have hbad : ∀ e ∈ List.replicate 3 (⟨1, 3, [], []⟩ : EncShare), ∃ pk c,
      toyR1.state.theirDhPublicKeys.get? e.senderIndex = some pk ∧ comms.get? e.senderIndex = some c ∧
      ¬ Spec.GoodShare suite (toyR1.state.dhPrivateKey • pk) c.points e := by
    intro e he
    cases List.eq_of_mem_replicate he
    refine ⟨_, c, rfl, hc, ?_⟩
    rintro ⟨v, ⟨key, pt, rest, hk, hd, _⟩, _⟩
    have hlen : key.length = 6 := by
      cases hk; exact Toy.enc_length _
    have hd : (if (key ++ ([] : Bytes)) <+: ([] : Bytes) then _ else none) = some pt := hd
    rw [if_neg (by
      intro hp
      have := hp.length_le
      simp [hlen] at this)] at hd
    cases hd
  obtain ⟨h1, d', cs, h2, h3⟩ := overflow_all suite toyR1 comms hcomms hnd (List.replicate 3 ⟨1, 3, [], []⟩) (by decide)
    (by decide) (by
      intro e he
      cases List.eq_of_mem_replicate he
      exact ⟨rfl, by decide⟩) 0 hbad (by rw [List.length_replicate]; exact (by omega : 2 < 3)) (by
      have h : toyR1.state.parameters.t.toNat = 2 := rfl
      rw [h, List.length_replicate]
      norm_num)
  exact ⟨h1, d', cs, h2, by simpa using congrArg List.length h3⟩

/-- Debug panic and release error at `t > n`. -/
example : Spec.DebugPanic (Params.new (F := Fp) (G := Fp) true 2 3) :=
  (C175_parameters _ _).mpr rfl

end Examples

end

end IceFrost
