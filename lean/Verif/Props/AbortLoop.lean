import Verif.Props.SigningExamples

/-!
# C92: excluding reported signers and trying again ends with a signature

`finalize` and `aggregate`, `src/sign/signature.rs:548-676`.
-/

set_option linter.unusedSectionVars false
set_option linter.unusedSimpArgs false

namespace IceFrost

open Finset

variable {F G R : Type} [Field F] [DecidableEq F] [AddCommGroup G] [Module F G] [DecidableEq G]

/-- `finalize` followed by `aggregate`. -/
def finalizeAndAggregate (S : Suite F G R) (a : InitialAggregator F G) : Res F G (ThresholdSignature F G) :=
  match a.finalize S with
  | .error e => .error (.err e)
  | .ok f => f.aggregate S

/-- One attempt to sign by the signers `J`, of whom those in `H` are honest. The aggregator is called in any way that
includes exactly `J`, each with the public key `pk i` and some commitments. An honest signer's commitments are those of
one of its nonce pairs, and its last partial signature is what `sign` returns for this session; the others send what
they want, or nothing. `out` is the outcome of `finalize` and `aggregate`. -/
structure Attempt (S : Suite F G R) (params : Params) (Y : G) (message : Bytes) (H : Finset U32) (key : U32 → F)
    (pk : U32 → G) (J : List U32) (out : Res F G (ThresholdSignature F G)) : Prop where
  exists_ops : ∃ (ops : List (AggOp F G)) (c : U32 → G × G),
    (∀ e, e ∈ Spec.inclusions ops ↔ ∃ i ∈ J, e = (i, c i, pk i)) ∧
    (∀ i ∈ J, i ∈ H → ∃ (dbg : Bool) (L : List (CommitmentShare F G)) (pos : UInt64) (share : CommitmentShare F G)
      (p : PartialSignature F), L[pos.toNat]? = some share ∧ c i = share.publish ∧
      share.hidingC.commit = share.hidingC.secret • S.gen ∧ share.bindingC.commit = share.bindingC.secret • S.gen ∧
      (sign S dbg ⟨i, key i⟩ (Spec.messageHash S message) Y L pos (session params Y message ops).state.signers).1 =
        .ok p ∧ Spec.lastOf (Spec.partials ops) i = some p.z) ∧
    out = finalizeAndAggregate S (session params Y message ops)

/-- C92, one attempt: with at least `t` signers it either ends with a valid signature or names at least one of the
signers, and none of the honest ones. -/
theorem C92_attempt (hu : Suite.U32Inj F) (S : Suite F G R) (params : Params) (Y : G) (message : Bytes)
    (H : Finset U32) (key : U32 → F) (pk : U32 → G) (hkey : ∀ i ∈ H, pk i = key i • S.gen)
    (J : List U32) (hJ : J.Nodup) (h0 : 0 ∉ J) (hn : J.length ≤ params.n.toNat) (hne : J ≠ [])
    (hY : Spec.interpolateG F J pk = Y) (out : Res F G (ThresholdSignature F G))
    (h : Attempt S params Y message H key pk J out) :
    (∃ sig, out = .ok sig ∧ Spec.SigValid S Y (Spec.messageHash S message) sig) ∨
    ∃ l, out = .error (.err (.misbehavingParticipants l)) ∧ (∃ i ∈ J, i ∈ l) ∧ ∀ i ∈ l, i ∈ J → i ∉ H := by
  obtain ⟨ops, c, hinc, hhon, hout⟩ := h.exists_ops
  unfold finalizeAndAggregate at hout
  have hr := reached params Y message ops
  have hmem := session_signers params Y message ops J c pk hinc
  have hidx : ∀ i, i ∈ (session params Y message ops).state.signers.map (·.participantIndex) ↔ i ∈ J := by
    intro i
    rw [List.mem_map]
    constructor
    · rintro ⟨x, hx, rfl⟩
      obtain ⟨j, hj, rfl⟩ := (hmem x).mp hx
      exact hj
    · intro hi
      exact ⟨_, (hmem _).mpr ⟨i, hi, rfl⟩, rfl⟩
  have hincl : ∀ i, i ∈ Spec.included ops ↔ i ∈ J := fun i => by rw [← hr.mem_indices]; exact hidx i
  have hcard : (Spec.included ops).toFinset.card ≤ params.n.toNat := by
    have : (Spec.included ops).toFinset = J.toFinset := by
      ext i; rw [List.mem_toFinset, List.mem_toFinset, hincl]
    rw [this, List.toFinset_card_of_nodup hJ]
    exact hn
  cases hf : (session params Y message ops).finalize S with
  | error e =>
    right
    rw [hf] at hout
    simp only [] at hout
    rw [C59_finalize S params Y message ops _ hr.sorted.pairwise hr.mem_indices _ _ rfl rfl] at hf
    have hk : ((session params Y message ops).state.signers.map (·.participantIndex)).filter (fun i =>
        (Spec.lastOf (Spec.accepted params.n.toNat (Spec.inclusions ops)) i).isNone) = [] := by
      rw [List.filter_eq_nil_iff]
      intro i hi
      rw [accepted_of_le _ _ hcard, Option.isNone_iff_eq_none, lastOf_eq_none, not_not]
      exact (hr.mem_indices i).mp hi
    rw [hk] at hf
    split at hf
    · cases hf
    · next hc =>
      have hs : ((session params Y message ops).state.signers.map (·.participantIndex)).filter (fun i =>
          (Spec.lastOf (Spec.partials ops) i).isNone) ≠ [] := fun h => hc ⟨h, rfl⟩
      rw [if_neg hs] at hf
      simp only [List.append_nil, Except.error.injEq] at hf
      subst hf
      refine ⟨_, hout, ?_, fun i hi hiJ hiH => ?_⟩
      · obtain ⟨i, hi⟩ := List.exists_mem_of_ne_nil _ hs
        exact ⟨i, (hidx i).mp (List.mem_filter.mp hi).1, List.mem_cons_of_mem _ hi⟩
      · rcases List.mem_cons.mp hi with rfl | hi
        · exact h0 hiJ
        · obtain ⟨_, _, _, _, p, _, _, _, _, _, hp⟩ := hhon i hiJ hiH
          have := (List.mem_filter.mp hi).2
          rw [hp] at this
          cases this
  | ok f =>
    rw [hf] at hout
    simp only [] at hout
    obtain ⟨h1, h2, h3, h4, h5, z, pk', h6⟩ := finalized_session hf
    have hst := (finalize_ok hf).1
    have hpk : ∀ s ∈ f.state.signers, f.state.publicKeys.get? s.participantIndex = some (pk s.participantIndex) := by
      intro x hx
      have hxi := (h5 _).mp (List.mem_map.mpr ⟨x, hx, rfl⟩)
      rw [hst, hr.pk_eq, accepted_of_le _ _ hcard]
      obtain ⟨v, hv⟩ := Option.isSome_iff_exists.mp ((lastOf_isSome (Spec.inclusions ops) _).mpr hxi)
      rw [hv]
      obtain ⟨j, _, he⟩ := (hinc _).mp (lastOf_mem hv)
      simp only [Prod.mk.injEq] at he
      obtain ⟨hj, rfl⟩ := he
      rw [hj]
      rfl
    have hint : Spec.interpolateG F (f.state.signers.map (·.participantIndex)) pk = Y := by
      rw [← hY]
      unfold Spec.interpolateG
      have hse : (f.state.signers.map (·.participantIndex)).toFinset = J.toFinset := by
        ext j; rw [List.mem_toFinset, List.mem_toFinset, h5, hincl]
      rw [hse]
      refine sum_congr rfl fun i _ => ?_
      congr 1
      exact spec_lagrange_congr (fun j => by rw [h5, hincl]) i
    cases ha : f.aggregate S with
    | ok sig => exact Or.inl ⟨sig, hout.trans ha, C63_session_valid S params Y message ops f hf sig ha⟩
    | error e =>
      right
      obtain ⟨l, rfl, hl, hbad⟩ := C66_fails_with_culprit_partial S params Y message ops hu f hf
        (fun hh => by
          obtain ⟨i, hi⟩ := List.exists_mem_of_ne_nil _ hne
          rw [← hincl, hh] at hi
          cases hi) (fun hh => h0 ((hincl 0).mp hh)) pk hpk hint e ha
      refine ⟨l, hout.trans ha, ?_, fun i hi hiJ hiH => ?_⟩
      · obtain ⟨i, hi⟩ := List.exists_mem_of_ne_nil _ hl
        obtain ⟨s, hs, rfl, _⟩ := hbad i hi
        exact ⟨_, (hincl _).mp ((h5 _).mp (List.mem_map.mpr ⟨s, hs, rfl⟩)), hi⟩
      · obtain ⟨dbg, L, pos, share, p, e1, e2, e3, e4, e5, e6⟩ := hhon i hiJ hiH
        have hsg : f.state.signers = (session params Y message ops).state.signers := h3
        have hlisted : (⟨i, share.publish⟩ : Signer G) ∈ f.state.signers := by
          rw [hsg, hmem]; exact ⟨i, hiJ, by rw [e2]⟩
        refine C65_honest_not_blamed S params Y message ops hu f hf l ha dbg ⟨i, key i⟩ L pos share e1 e3 e4 hlisted
          ?_ p (by rw [hsg]; exact e5) ?_ hi
        · rw [hpk _ hlisted, hkey i hiH]; rfl
        · rw [hst, hr.ps_eq]; exact e6

/-- C92: start with signers `J 0`, among them at least `t` honest ones (`H`), and as long as an attempt fails, repeat
with the reported signers excluded. Whatever the dishonest signers do in each attempt, an attempt succeeds with a valid
signature after at most as many failures as there are dishonest signers, and no honest signer is ever excluded. -/
theorem C92_retry_succeeds (hu : Suite.U32Inj F) (S : Suite F G R) (params : Params) (Y : G) (message : Bytes)
    (H : Finset U32) (key : U32 → F) (pk : U32 → G) (hkey : ∀ i ∈ H, pk i = key i • S.gen) (t : Nat) (ht : 0 < t)
    (J : Nat → List U32) (hJ : (J 0).Nodup) (h0 : 0 ∉ J 0) (hn : (J 0).length ≤ params.n.toNat)
    (hH : t ≤ ((J 0).filter (· ∈ H)).length)
    (hY : ∀ J', J'.Nodup → J' ⊆ J 0 → t ≤ J'.length → Spec.interpolateG F J' pk = Y)
    (out : Nat → Res F G (ThresholdSignature F G))
    (hatt : ∀ k, (∀ j < k, ∀ sig, out j ≠ .ok sig) → Attempt S params Y message H key pk (J k) (out k))
    (hnext : ∀ k l, out k = .error (.err (.misbehavingParticipants l)) → J (k + 1) = (J k).filter (· ∉ l)) :
    ∃ k ≤ ((J 0).filter (· ∉ H)).length, (∃ sig, out k = .ok sig ∧
      Spec.SigValid S Y (Spec.messageHash S message) sig) ∧ ∀ j ≤ k, (J 0).filter (· ∈ H) ⊆ J j := by
  -- as long as no attempt succeeded, the honest signers are there and every failure removed a dishonest one
  have inv : ∀ k, (∀ j < k, ∀ sig, out j ≠ .ok sig) →
      (J k).Sublist (J 0) ∧ (J k).filter (· ∈ H) = (J 0).filter (· ∈ H) ∧
      k + ((J k).filter (· ∉ H)).length ≤ ((J 0).filter (· ∉ H)).length := by
    intro k
    induction k with
    | zero => intro _; exact ⟨List.Sublist.refl _, rfl, by omega⟩
    | succ k ih =>
      intro hk
      obtain ⟨i1, i2, i3⟩ := ih fun j hj => hk j (by omega)
      have hlen : t ≤ (J k).length := le_trans (by rw [i2]; exact hH) (List.length_filter_le (· ∈ H) (J k))
      have hnd := hJ.sublist i1
      rcases C92_attempt hu S params Y message H key pk hkey (J k) hnd (fun h => h0 (i1.subset h))
        (le_trans i1.length_le hn) (fun h => by rw [h] at hlen; simp at hlen; omega)
        (hY _ hnd i1.subset hlen) (out k) (hatt k fun j hj => hk j (by omega)) with ⟨sig, hs, _⟩ | ⟨l, hl, ⟨i, hiJ, hil⟩, hb⟩
      · exact absurd hs (hk k (by omega) sig)
      · rw [hnext k l hl]
        refine ⟨List.filter_sublist.trans i1, ?_, ?_⟩
        · rw [List.filter_filter, ← i2]
          refine List.filter_congr fun x hx => ?_
          by_cases hxH : x ∈ H
          · have : x ∉ l := fun hxl => hb x hxl hx hxH
            simp [hxH, this]
          · simp [hxH]
        · have : (((J k).filter (· ∉ l)).filter (· ∉ H)).length < ((J k).filter (· ∉ H)).length := by
            have hsub : (((J k).filter (· ∉ l)).filter (· ∉ H)).Sublist ((J k).filter (· ∉ H)) :=
              List.filter_sublist.filter _
            refine lt_of_le_of_ne hsub.length_le fun he => ?_
            have heq := hsub.eq_of_length he
            have hi : i ∈ (J k).filter (· ∉ H) := List.mem_filter.mpr ⟨hiJ, by simpa using hb i hil hiJ⟩
            rw [← heq] at hi
            have := (List.mem_filter.mp (List.mem_filter.mp hi).1).2
            simp only [decide_eq_true_eq] at this
            exact this hil
          omega
  -- there is a first success
  have hex : ∃ k ≤ ((J 0).filter (· ∉ H)).length, ∃ sig, out k = .ok sig := by
    by_contra hno
    have hno' : ∀ j < ((J 0).filter (· ∉ H)).length + 1, ∀ sig, out j ≠ .ok sig :=
      fun j hj sig hs => hno ⟨j, by omega, sig, hs⟩
    have := (inv _ hno').2.2
    omega
  classical
  have hP : ∃ k, ∃ sig, out k = .ok sig := by
    obtain ⟨k, _, h⟩ := hex
    exact ⟨k, h⟩
  have hmin : ∀ j < Nat.find hP, ∀ sig, out j ≠ .ok sig := fun j hj sig hs => Nat.find_min hP hj ⟨sig, hs⟩
  refine ⟨Nat.find hP, ?_, ?_, ?_⟩
  · obtain ⟨k, hk, h⟩ := hex
    exact le_trans (Nat.find_min' hP h) hk
  · obtain ⟨sig, hs⟩ := Nat.find_spec hP
    obtain ⟨i1, i2, _⟩ := inv _ hmin
    have hlen : t ≤ (J (Nat.find hP)).length := le_trans (by rw [i2]; exact hH) (List.length_filter_le (· ∈ H) _)
    have hnd := hJ.sublist i1
    rcases C92_attempt hu S params Y message H key pk hkey _ hnd (fun h => h0 (i1.subset h))
      (le_trans i1.length_le hn) (fun h => by rw [h] at hlen; simp at hlen; omega)
      (hY _ hnd i1.subset hlen) _ (hatt _ hmin) with ⟨sig', hs', hv⟩ | ⟨l, hl, _⟩
    · exact ⟨sig', hs', hv⟩
    · rw [hl] at hs; cases hs
  · intro j hj
    obtain ⟨_, i2, _⟩ := inv j fun j' hj' => hmin j' (by omega)
    rw [← i2]
    exact List.filter_subset' _

end IceFrost

/-! ## A concrete case: signer 2 of 1, 2, 3 sends nothing; the second attempt is made without it -/

namespace IceFrost.SigningExamples

open Toy

/-- Include the signers of `J`, then the partial signatures of 1 and 3. -/
def attemptOps (J : List U32) (p : U32 → PartialSignature Fp) : List (AggOp Fp Fp) :=
  J.map (fun i => .signer i (share i).publish ⟨i, key i • suite.gen⟩) ++ [.partialSig (p 3), .partialSig (p 1)]

theorem attemptOps_inclusions (J : List U32) (p : U32 → PartialSignature Fp) :
    Spec.inclusions (attemptOps J p) = J.map fun i => (i, (share i).publish, key i • suite.gen) := by
  simp only [Spec.inclusions, attemptOps, List.filterMap_append, List.filterMap_map]
  simp only [List.filterMap_cons, List.filterMap_nil, List.append_nil]
  induction J with
  | nil => rfl
  | cons i J ih => simp [ih]

theorem attemptOps_partials (J : List U32) (p : U32 → PartialSignature Fp) :
    Spec.partials (attemptOps J p) = [((p 3).index, (p 3).z), ((p 1).index, (p 1).z)] := by
  simp only [Spec.partials, attemptOps, List.filterMap_append, List.filterMap_map]
  simp only [List.filterMap_cons, List.filterMap_nil]
  induction J with
  | nil => rfl
  | cons i J ih => simp [ih]

/-- The public data of the session. -/
def pub : Fp := Spec.polyEval [(42 : Fp), 7] 0 • suite.gen

theorem attempt_exists (J : List U32) (h0 : 0 ∉ J) (h1 : 1 ∈ J) (h3 : 3 ∈ J) :
    ∃ p : U32 → PartialSignature Fp, (p 1).index = 1 ∧ (p 3).index = 3 ∧
    Attempt suite ⟨3, 2⟩ pub (strBytes "hello") {1, 3} key (fun i => key i • suite.gen) J
      (finalizeAndAggregate suite (session ⟨3, 2⟩ pub (strBytes "hello") (attemptOps J p))) := by
  have hinc : ∀ q e, e ∈ Spec.inclusions (attemptOps J q) ↔
      ∃ i ∈ J, e = (i, (share i).publish, key i • suite.gen) := by
    intro q e
    rw [attemptOps_inclusions, List.mem_map]
    exact ⟨fun ⟨i, hi, h⟩ => ⟨i, hi, h.symm⟩, fun ⟨i, hi, h⟩ => ⟨i, hi, h.symm⟩⟩
  have hmem := fun q => session_signers ⟨3, 2⟩ pub (strBytes "hello") (attemptOps J q) J (fun i => (share i).publish)
    (fun i => key i • suite.gen) (hinc q)
  have hidx : ∀ q i, i ∈ (session ⟨3, 2⟩ pub (strBytes "hello") (attemptOps J q)).state.signers.map
      (·.participantIndex) ↔ i ∈ J := by
    intro q i
    rw [List.mem_map]
    constructor
    · rintro ⟨x, hx, rfl⟩
      obtain ⟨j, hj, rfl⟩ := (hmem q x).mp hx
      exact hj
    · intro hi
      exact ⟨_, (hmem q _).mpr ⟨i, hi, rfl⟩, rfl⟩
  set q : U32 → PartialSignature Fp := fun i => ⟨i, 0⟩ with hq
  have hs : ∀ q', (session ⟨3, 2⟩ pub (strBytes "hello") (attemptOps J q')).state.signers =
      (session ⟨3, 2⟩ pub (strBytes "hello") (attemptOps J q)).state.signers := fun q' =>
    signers_ext (reached _ _ _ _).sorted (reached _ _ _ _).sorted fun x => (hmem q' x).trans (hmem q x).symm
  have hsign : ∀ i ∈ J, ∃ p, (sign suite true ⟨i, key i⟩ (Spec.messageHash suite (strBytes "hello")) pub
      [share i, share 2] 0 (session ⟨3, 2⟩ pub (strBytes "hello") (attemptOps J q)).state.signers).1 = .ok p := by
    intro i hi
    exact (C55_success_iff u32_inj suite true ⟨i, key i⟩ _ pub [share i, share 2] 0 (by simp) _).mpr
      ⟨by simp, (hidx q i).mpr hi, (reached ⟨3, 2⟩ pub (strBytes "hello") (attemptOps J q)).sorted.nodup,
        fun h => h0 ((hidx q 0).mp h)⟩
  have : Nonempty (PartialSignature Fp) := ⟨⟨0, 0⟩⟩
  choose! p hp using hsign
  have hpi : ∀ i ∈ J, (p i).index = i := fun i hi =>
    (C56_share_equation suite true ⟨i, key i⟩ _ pub [share i, share 2] 0 _ (p i) (hp i hi) (share i) rfl rfl rfl
      ((hmem q _).mpr ⟨i, hi, rfl⟩)).1
  refine ⟨p, hpi 1 h1, hpi 3 h3, ⟨attemptOps J p, fun i => (share i).publish, hinc p, fun i hi hiH => ?_, rfl⟩⟩
  refine ⟨true, [share i, share 2], 0, share i, p i, rfl, rfl, rfl, rfl, by rw [hs]; exact hp i hi, ?_⟩
  rw [attemptOps_partials, hpi 1 h1, hpi 3 h3]
  simp only [Finset.mem_insert, Finset.mem_singleton] at hiH
  rcases hiH with rfl | rfl <;> simp [Spec.lastOf, Spec.firstOf]

theorem pub_interpolates (J : List U32) (hJ : J.Nodup) (h : 2 ≤ J.length) :
    Spec.interpolateG Fp J (fun i => key i • suite.gen) = pub := by
  rw [pub, ← key_shares J hJ h]
  unfold Spec.interpolateG Spec.interpolate
  rw [Finset.sum_smul]
  exact Finset.sum_congr rfl fun i _ => by rw [smul_smul]

/-- C92: the first attempt fails, since 2 sent nothing; then 1 and 3 sign alone. -/
example : ∃ (out : Nat → Res Fp Fp (ThresholdSignature Fp Fp)) (k : Nat) (sig : ThresholdSignature Fp Fp),
    (∀ sig, out 0 ≠ .ok sig) ∧ k ≤ 1 ∧ out k = .ok sig ∧
    Spec.SigValid suite pub (Spec.messageHash suite (strBytes "hello")) sig := by
  obtain ⟨p, hp1, hp3, ha⟩ := attempt_exists [1, 2, 3] (by decide) (by decide) (by decide)
  obtain ⟨p', _, _, ha'⟩ := attempt_exists [1, 3] (by decide) (by decide) (by decide)
  generalize ho : finalizeAndAggregate suite (session ⟨3, 2⟩ pub (strBytes "hello") (attemptOps [1, 2, 3] p)) =
    out0 at ha
  generalize finalizeAndAggregate suite (session ⟨3, 2⟩ pub (strBytes "hello") (attemptOps [1, 3] p')) = out1 at ha'
  unfold finalizeAndAggregate at ho
  have hfail : ∀ sig, out0 ≠ .ok sig := by
    intro sig hs
    cases hf : (session ⟨3, 2⟩ pub (strBytes "hello") (attemptOps [1, 2, 3] p)).finalize suite with
    | error e => rw [hf] at ho; rw [← ho] at hs; cases hs
    | ok f =>
      obtain ⟨hst, _, hps, _⟩ := finalize_ok hf
      obtain ⟨z, hz⟩ := hps 2 (by simp [Spec.included, attemptOps_inclusions])
      rw [hst, (reached ⟨3, 2⟩ pub (strBytes "hello") _).ps_eq, attemptOps_partials, hp1, hp3] at hz
      simp [Spec.lastOf, Spec.firstOf] at hz
  obtain ⟨k, hk, ⟨sig, h1, h2⟩, _⟩ := C92_retry_succeeds u32_inj suite ⟨3, 2⟩ pub (strBytes "hello") {1, 3} key
    (fun i => key i • suite.gen) (fun _ _ => rfl) 2 (by decide) (fun k => if k = 0 then [1, 2, 3] else [1, 3])
    (by decide) (by decide) (by decide) (by decide) (fun J' hJ' _ h => pub_interpolates J' hJ' h)
    (fun k => if k = 0 then out0 else out1)
    (fun k _ => by by_cases h : k = 0 <;> simp only [h, if_true, if_false] <;> assumption)
    (fun k l hl => by
      have hm : ∀ J : List U32, J.Nodup → 0 ∉ J → J.length ≤ 3 → 2 ≤ J.length → ∀ o, Attempt suite ⟨3, 2⟩ pub
          (strBytes "hello") {1, 3} key (fun i => key i • suite.gen) J o →
          o = .error (.err (.misbehavingParticipants l)) → (∃ i ∈ J, i ∈ l ∧ i ≠ 1 ∧ i ≠ 3) ∧
          (1 ∈ J → 1 ∉ l) ∧ (3 ∈ J → 3 ∉ l) := by
        intro J hJ h0 hn h2 o ha ho
        rcases C92_attempt u32_inj suite ⟨3, 2⟩ pub (strBytes "hello") {1, 3} key
          (fun i => key i • suite.gen) (fun _ _ => rfl) J hJ h0 hn (by rintro rfl; simp at h2)
          (pub_interpolates J hJ h2) o ha with ⟨sig, h, _⟩ | ⟨l', h, ⟨i, hi, hil⟩, hH⟩
        · rw [h] at ho; cases ho
        · rw [h] at ho
          simp only [Except.error.injEq, Fail.err.injEq, Error.misbehavingParticipants.injEq] at ho
          subst ho
          refine ⟨⟨i, hi, hil, ?_⟩, fun hi hl => hH 1 hl hi (by simp), fun hi hl => hH 3 hl hi (by simp)⟩
          have := hH i hil hi
          simpa using this
      by_cases h : k = 0
      · simp only [h, if_true] at hl ⊢
        obtain ⟨⟨i, hi, hil, h1, h3⟩, h1', h3'⟩ := hm _ (by decide) (by decide) (by decide) (by decide) _ ha hl
        have e2 : 2 ∈ l := by
          simp only [List.mem_cons, List.not_mem_nil, or_false] at hi
          rcases hi with rfl | rfl | rfl
          · exact absurd rfl h1
          · exact hil
          · exact absurd rfl h3
        simp [h1' (by decide), h3' (by decide), e2]
      · simp only [h, if_false] at hl ⊢
        obtain ⟨⟨i, hi, hil, h1, h3⟩, _⟩ := hm _ (by decide) (by decide) (by decide) (by decide) _ ha' hl
        simp only [List.mem_cons, List.not_mem_nil, or_false] at hi
        rcases hi with rfl | rfl
        · exact absurd rfl h1
        · exact absurd rfl h3)
  exact ⟨fun k => if k = 0 then out0 else out1, k, sig, by simpa using hfail, hk, h1, h2⟩

end IceFrost.SigningExamples
