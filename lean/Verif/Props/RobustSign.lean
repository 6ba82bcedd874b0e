import Verif.Props.Robust
import Verif.Props.AbortLoop
import Verif.Props.Below

/-! # C120: key generation with malicious dealers, then signing with malicious signers -/

set_option linter.unusedSectionVars false
set_option linter.unusedSimpArgs false

namespace IceFrost

open Finset

variable {F G R : Type} [Field F] [DecidableEq F] [AddCommGroup G] [Module F G] [DecidableEq G]

attribute [local instance low] Classical.propDecidable

/-- The public keys that belong to the commitments `comms`, computed from the paper's formula and not by the code. -/
def Spec.publicKeyOf (F : Type) [Field F] [DecidableEq F] [Module F G] (comms : BMap (VssCommitment G)) (j : U32) : G :=
  Spec.interpolateG F comms.keys
    (fun l => ((comms.get? l).map fun c => Spec.pointEval c.points (j.toNat : F)).getD 0)

/-- Attempts to sign with signer sets `J 0, J 1, …` and outcomes `out`: the honest signers among `J k` are those in `H`;
as long as no attempt succeeded there is a next one, without the signers reported by the last. -/
structure RetryRun (S : Suite F G R) (params : Params) (Y : G) (message : Bytes) (H : Finset U32) (key : U32 → F)
    (pk : U32 → G) (J : Nat → List U32) (out : Nat → Res F G (ThresholdSignature F G)) : Prop where
  attempts : ∀ k, (∀ j < k, ∀ sig, out j ≠ .ok sig) → Attempt S params Y message H key pk (J k) (out k)
  next : ∀ k l, out k = .error (.err (.misbehavingParticipants l)) → J (k + 1) = (J k).filter (· ∉ l)

theorem publicKeyOf_interpolates {S : Suite F G R} (hg : S.GroupLaws) (hu : Suite.U32Inj F)
    (comms : BMap (VssCommitment G)) (t : Nat) (hdeg : ∀ k c, comms.get? k = some c → c.points.length ≤ t)
    (J : List U32) (hJ : J.Nodup) (hJt : t ≤ J.length) :
    Spec.interpolateG F J (Spec.publicKeyOf F comms) =
      Spec.interpolateG F comms.keys (fun l => ((comms.get? l).map fun c => c.points.headD 0).getD 0) := by
  have hcs : ∀ l, ∃ cs : List F, (∀ c, comms.get? l = some c → c.points = commitPoints S cs) ∧ cs.length ≤ t := by
    intro l
    cases h : comms.get? l with
    | none => exact ⟨[], (fun c h' => nomatch h'), Nat.zero_le _⟩
    | some c =>
      obtain ⟨cs, hc⟩ := exists_coeffs hg c.points
      refine ⟨cs, fun c' h' => by cases h'; exact hc, ?_⟩
      rw [← commitPoints_length S cs, ← hc]
      exact hdeg l c h
  choose cs hcs hlen using hcs
  have hpk : ∀ j, Spec.publicKeyOf F comms j = Spec.signingKey comms.keys cs j • S.gen := by
    intro j
    unfold Spec.publicKeyOf Spec.signingKey Spec.interpolateG Spec.interpolate
    rw [sum_smul]
    refine sum_congr rfl fun l hl => ?_
    obtain ⟨c, hc⟩ := BMap.exists_get? (List.mem_toFinset.mp hl)
    beta_reduce
    rw [hc]
    simp only [Option.map_some, Option.getD_some]
    rw [hcs l c hc, pointEval_commitPoints, mul_smul]
  have hgk : Spec.interpolateG F comms.keys (fun l => ((comms.get? l).map fun c => c.points.headD 0).getD 0) =
      Spec.groupSecret comms.keys cs • S.gen := by
    unfold Spec.groupSecret Spec.interpolateG Spec.interpolate
    rw [sum_smul]
    refine sum_congr rfl fun l hl => ?_
    obtain ⟨c, hc⟩ := BMap.exists_get? (List.mem_toFinset.mp hl)
    beta_reduce
    rw [hc]
    simp only [Option.map_some, Option.getD_some]
    rw [← Spec.pointEval_zero (F := F), hcs l c hc, pointEval_commitPoints, mul_smul]
  rw [hgk, ← C119_enough hu t comms.keys J hJ hJt cs (fun k _ => hlen k)]
  unfold Spec.interpolateG Spec.interpolate
  rw [sum_smul]
  exact sum_congr rfl fun j _ => by rw [hpk, mul_smul]

/-- What the aggregator derives from correctly labelled commitments is the public key of the formula. -/
theorem derive_publicKeyOf (hu : Suite.U32Inj F) (comms : BMap (VssCommitment G)) (hwf : comms.WF)
    (h0 : 0 ∉ comms.keys) (hlab : ∀ k c, comms.get? k = some c → c.index = k) (j : U32) :
    (generateFromCommitments j (comms.map (·.2)) : Out F G _) = .ok ⟨j, Spec.publicKeyOf F comms j⟩ := by
  have hvi := values_index hwf.nodup hlab
  rw [generateFromCommitments_ok hu _ _ (by rw [hvi]; exact hwf.nodup) (by rw [hvi]; exact h0), hvi]
  rw [sum_values_eq hwf.nodup hlab]
  rfl

/-- C120: the participants `H` follow the protocol; all other records, shares, complaints, commitments and partial
signatures are arbitrary. After key generation as in C80 the aggregator can derive everybody's public key from the
remaining commitments; these are the public keys of the signing keys of `H`. From then on every series of attempts to
sign with signers of which `t` are in `H` ends with a signature valid under the group key of the key generation, after
at most as many failures as there are signers outside `H`, and nobody in `H` is ever excluded.

Missing for the full C120: accepted dealers whose commitments carry a wrong label (`hlab`), which the code does not check
and which block the derivation of public keys, see `C82_derivation_blocked`; accepted indices outside `1..n'`
(`hrange`), see C43. -/
theorem C120_dkg_then_sign_partial {S : Suite F G R} (hS : S.Lawful) (dbg : Bool) (params : Params)
    (ps : List (Participant F G)) (hidx : (ps.map (·.index)).Nodup)
    (hrange : ∀ p ∈ ps, GoodDealer S params.t p →
      p.index ≠ 0 ∧ p.index.toNat ≤ (ps.filter (GoodDealer S params.t)).length)
    (hlab : ∀ p ∈ ps, GoodDealer S params.t p → ∀ c, p.commitments = some c → c.index = p.index)
    (H : List U32) (hH : H ≠ []) (x : U32 → F) (coeffs : U32 → List F) (ord : U32 → List (Participant F G))
    (r1 r2 : U32 → R) (hord : ∀ i ∈ H, (ord i).Perm ps) (d1 : U32 → RoundOne F G) (L : U32 → ParticipantList F G)
    (hboot : ∀ i ∈ H, bootstrap S dbg params (x i) i (coeffs i) (ord i) (r1 i) = .ok (d1 i, L i))
    (es : U32 → List EncShare) (hlabel : ∀ i ∈ H, ∀ e ∈ es i, e.receiverIndex = i)
    (hall : ∀ i ∈ H, ∀ p ∈ ps, GoodDealer S params.t p → ∃ e ∈ es i, e.senderIndex = p.index)
    (d2 : U32 → RoundTwo F G) (cs : U32 → List (Complaint F G))
    (hr2 : ∀ i ∈ H, (d1 i).toRoundTwo S dbg (es i) (r2 i) = .ok (d2 i, cs i))
    (all : U32 → List (Complaint F G)) (hsub : ∀ i ∈ H, ∀ j ∈ H, ∀ c ∈ cs j, c ∈ all i)
    (hsame : ∀ i ∈ H, ∀ j ∈ H, ∀ c, c ∈ all i ↔ c ∈ all j) :
    ∃ (comms' : BMap (VssCommitment G)) (Y : G) (keys : List G) (key : U32 → F) (pk : U32 → G)
      (d3 : U32 → RoundTwo F G),
      (∀ i ∈ H, (d2 i).blame S (all i) = .ok (d3 i, keys) ∧ (d3 i).state.theirCommitments = some comms' ∧
        (d3 i).finish = .ok (Y, ⟨i, key i⟩) ∧ pk i = key i • S.gen) ∧
      (∀ j, (generateFromCommitments j (comms'.map (·.2)) : Out F G _) = .ok ⟨j, pk j⟩) ∧
      ∀ (ps : Params) (message : Bytes) (J : Nat → List U32) (out : Nat → Res F G (ThresholdSignature F G)),
        (J 0).Nodup → 0 ∉ J 0 → (J 0).length ≤ ps.n.toNat → params.t.toNat ≤ ((J 0).filter (· ∈ H.toFinset)).length →
        RetryRun S ps Y message H.toFinset key pk J out →
        ∃ k ≤ ((J 0).filter (· ∉ H.toFinset)).length, (∃ sig, out k = .ok sig ∧
          Spec.SigValid S Y (Spec.messageHash S message) sig) ∧ ∀ j ≤ k, (J 0).filter (· ∈ H.toFinset) ⊆ J j := by
  obtain ⟨comms', s, keys, key, d3, w1, w2, w3, w4, _⟩ := C80_robust_dkg hS dbg params ps hidx hrange H hH x coeffs ord
    r1 r2 hord d1 L hboot es hlabel hall d2 cs hr2 all hsub hsame
  obtain ⟨i0, hi0⟩ := List.exists_mem_of_ne_nil H hH
  have ht : params.t ≠ 0 := by
    intro ht
    have := hboot i0 hi0
    unfold bootstrap at this
    cases hs : newStateInternal S dbg params (x i0) i0 (some (coeffs i0)) (ord i0) true true (r1 i0) with
    | ok v => exact newState_t_zero S dbg params ht _ _ _ _ _ _ _ v hs
    | error f => rw [hs] at this; cases this
  refine ⟨comms', s • S.gen, keys, key, Spec.publicKeyOf F comms', d3,
    fun i hi => ⟨(w4 i hi).1, (w4 i hi).2.1, (w4 i hi).2.2.1, (w4 i hi).2.2.2.symm⟩, fun j => ?_, ?_⟩
  · refine derive_publicKeyOf hS.u32 comms' w1 ?_ ?_ j
    · intro h
      obtain ⟨c, hc⟩ := BMap.exists_get? h
      obtain ⟨p, hp, hg, h0, _⟩ := w2 0 c hc
      exact (hrange p hp hg).1 h0
    · intro k c hc
      obtain ⟨p, hp, hg, rfl, hcm⟩ := w2 k c hc
      exact hlab p hp hg c hcm
  · intro ps message J out hJ h0 hn hJH hrun
    refine C92_retry_succeeds hS.u32 S ps (s • S.gen) message H.toFinset key (Spec.publicKeyOf F comms')
      (fun i hi => (w4 i (List.mem_toFinset.mp hi)).2.2.2.symm) params.t.toNat
      (Nat.pos_of_ne_zero fun h => ht (UInt32.toNat_inj.mp (by simpa using h))) J hJ h0 hn hJH ?_ out hrun.attempts
      hrun.next
    intro J' hJ' _ hlen
    rw [w3]
    refine publicKeyOf_interpolates hS.group hS.u32 comms' params.t.toNat ?_ J' hJ' hlen
    intro k c hc
    obtain ⟨p, _, hg, _, hcm⟩ := w2 k c hc
    exact (hg.2 c hcm).le

/-- Honest signers can always make an attempt. -/
theorem attempt_of_honest (hu : Suite.U32Inj F) (S : Suite F G R) (params : Params) (Y : G) (message : Bytes)
    (H : Finset U32) (key : U32 → F) (pk : U32 → G) (J : List U32) (hJ : J.Nodup) (h0 : 0 ∉ J)
    (share : U32 → CommitmentShare F G) (hshare : ∀ i ∈ J, (share i).hidingC.commit = (share i).hidingC.secret • S.gen ∧
      (share i).bindingC.commit = (share i).bindingC.secret • S.gen) :
    ∃ out, Attempt S params Y message H key pk J out := by
  let ops : (U32 → PartialSignature F) → List (AggOp F G) := fun p =>
    J.map (fun i => .signer i (share i).publish ⟨i, pk i⟩) ++ J.map (fun i => .partialSig (p i))
  have hinc : ∀ p e, e ∈ Spec.inclusions (ops p) ↔ ∃ i ∈ J, e = (i, (share i).publish, pk i) := by
    intro p e
    simp only [Spec.inclusions, ops, List.filterMap_append, List.mem_append, List.mem_filterMap, List.mem_map]
    constructor
    · rintro (⟨_, ⟨i, hi, rfl⟩, h⟩ | ⟨_, ⟨i, hi, rfl⟩, h⟩)
      · simp only [if_true, Option.some.injEq] at h
        exact ⟨i, hi, h.symm⟩
      · cases h
    · rintro ⟨i, hi, rfl⟩
      exact Or.inl ⟨_, ⟨i, hi, rfl⟩, by simp⟩
  have hpart : ∀ p e, e ∈ Spec.partials (ops p) ↔ ∃ i ∈ J, e = ((p i).index, (p i).z) := by
    intro p e
    simp only [Spec.partials, ops, List.filterMap_append, List.mem_append, List.mem_filterMap, List.mem_map]
    constructor
    · rintro (⟨_, ⟨i, hi, rfl⟩, h⟩ | ⟨_, ⟨i, hi, rfl⟩, h⟩)
      · cases h
      · simp only [Option.some.injEq] at h
        exact ⟨i, hi, h.symm⟩
    · rintro ⟨i, hi, rfl⟩
      exact Or.inr ⟨_, ⟨i, hi, rfl⟩, rfl⟩
  have hmem := fun p => session_signers params Y message (ops p) J (fun i => (share i).publish) pk (hinc p)
  have hidx : ∀ p i, i ∈ (session params Y message (ops p)).state.signers.map (·.participantIndex) ↔ i ∈ J := by
    intro p i
    rw [List.mem_map]
    constructor
    · rintro ⟨x, hx, rfl⟩
      obtain ⟨j, hj, rfl⟩ := (hmem p x).mp hx
      exact hj
    · intro hi
      exact ⟨_, (hmem p _).mpr ⟨i, hi, rfl⟩, rfl⟩
  set q : U32 → PartialSignature F := fun i => ⟨i, 0⟩ with hq
  have hs : ∀ p, (session params Y message (ops p)).state.signers = (session params Y message (ops q)).state.signers :=
    fun p => signers_ext (reached _ _ _ _).sorted (reached _ _ _ _).sorted fun x => (hmem p x).trans (hmem q x).symm
  have hsign : ∀ i ∈ J, ∃ p, (sign S true ⟨i, key i⟩ (Spec.messageHash S message) Y [share i] 0
      (session params Y message (ops q)).state.signers).1 = .ok p := by
    intro i hi
    exact (C55_success_iff hu S true ⟨i, key i⟩ _ Y [share i] 0 (by simp) _).mpr
      ⟨by simp, (hidx q i).mpr hi, (reached params Y message (ops q)).sorted.nodup, fun h => h0 ((hidx q 0).mp h)⟩
  have : Nonempty (PartialSignature F) := ⟨⟨0, 0⟩⟩
  choose! p hp using hsign
  have hpi : ∀ i ∈ J, (p i).index = i := fun i hi =>
    (C56_share_equation S true ⟨i, key i⟩ _ Y [share i] 0 _ (p i) (hp i hi) (share i) rfl (hshare i hi).1 (hshare i hi).2
      ((hmem q _).mpr ⟨i, hi, rfl⟩)).1
  refine ⟨_, ⟨ops p, fun i => (share i).publish, hinc p, fun i hi _ => ?_, rfl⟩⟩
  refine ⟨true, [share i], 0, share i, p i, rfl, rfl, (hshare i hi).1, (hshare i hi).2, by rw [hs]; exact hp i hi, ?_⟩
  refine lastOf_unique ((hpart p _).mpr ⟨i, hi, by rw [hpi i hi]⟩) fun v hv => ?_
  obtain ⟨j, hj, he⟩ := (hpart p _).mp hv
  simp only [Prod.mk.injEq] at he
  rw [hpi j hj] at he
  obtain ⟨rfl, rfl⟩ := he
  rfl

/-- One step of the series in `retryRun_exists`. -/
def nextSigners (J : List U32) : Res F G (ThresholdSignature F G) → List U32
  | .error (.err (.misbehavingParticipants l)) => J.filter (· ∉ l)
  | _ => J

/-- There are series of attempts from every set of signers, so that the last part of C120 is not empty. -/
theorem retryRun_exists (hu : Suite.U32Inj F) (S : Suite F G R) (params : Params) (Y : G) (message : Bytes)
    (H : Finset U32) (key : U32 → F) (pk : U32 → G) (J0 : List U32) (hJ : J0.Nodup) (h0 : 0 ∉ J0)
    (share : U32 → CommitmentShare F G) (hshare : ∀ i ∈ J0, (share i).hidingC.commit = (share i).hidingC.secret • S.gen ∧
      (share i).bindingC.commit = (share i).bindingC.secret • S.gen) :
    ∃ J out, J 0 = J0 ∧ RetryRun S params Y message H key pk J out := by
  have h : ∀ J : List U32, J.Sublist J0 → ∃ out, Attempt S params Y message H key pk J out := fun J hs =>
    attempt_of_honest hu S params Y message H key pk J (hJ.sublist hs) (fun h => h0 (hs.subset h)) share
      (fun i hi => hshare i (hs.subset hi))
  have : Nonempty (Res F G (ThresholdSignature F G)) := (h J0 (List.Sublist.refl _)).nonempty
  choose! att hatt using h
  let J : Nat → List U32 := fun k => Nat.rec J0 (fun _ J => nextSigners J (att J)) k
  have hsub : ∀ k, (J k).Sublist J0 := by
    intro k
    induction k with
    | zero => exact List.Sublist.refl _
    | succ k ih =>
      show (nextSigners (J k) (att (J k))).Sublist J0
      unfold nextSigners
      split
      · exact List.filter_sublist.trans ih
      · exact ih
  refine ⟨J, fun k => att (J k), rfl, fun k _ => hatt _ (hsub k), fun k l hl => ?_⟩
  show nextSigners (J k) (att (J k)) = _
  rw [hl]
  rfl

section Examples
open Toy

/-- C120: a (3, 2) session in which dealer 3 deals empty ciphertexts to 1 and 2 and is removed; then 1, 2 and 3 are asked
to sign. -/
example : ∃ (d2 : U32 → RoundTwo Fp Fp) (all : U32 → List (Complaint Fp Fp)) (d3 : U32 → RoundTwo Fp Fp) (keys : List Fp)
    (Y : Fp) (key : U32 → Fp) (out : Nat → Res Fp Fp (ThresholdSignature Fp Fp)) (k : Nat)
    (sig : ThresholdSignature Fp Fp),
    (∀ i ∈ [(1 : U32), 2], (d2 i).blame suite (all i) = .ok (d3 i, keys) ∧ (d3 i).finish = .ok (Y, ⟨i, key i⟩)) ∧
    k ≤ 1 ∧ out k = .ok sig ∧ Spec.SigValid suite Y (Spec.messageHash suite (strBytes "hello")) sig := by
  have hdeal : ∀ i ∈ [(1 : U32), 2, 3], ∃ p cs x, newDealer suite ⟨3, 2⟩ i 0 = .ok (p, cs, x) := fun i hi => by
    obtain ⟨p, cs, x, h, _⟩ := C16_new_dealer suite ⟨3, 2⟩ (by simp) i (by rintro rfl; simp at hi) 0
    exact ⟨p, cs, x, h⟩
  choose! P coeffs x hP using hdeal
  have ht : (2 : U32) ≠ 0 := by simp
  have hPg := fun i hi => newDealer_good (params := ⟨3, 2⟩) ht (hP i hi)
  obtain ⟨d1, h1, h2⟩ := C80_honest_majority lawful true ⟨3, 2⟩ ht (by show (2 : U32).toNat ≤ (3 : U32).toNat; simp)
    [1, 2, 3] (by simp) (by
      intro l hl
      simp only [List.mem_cons, List.not_mem_nil, or_false] at hl
      rcases hl with rfl | rfl | rfl <;> simp) rfl [1, 2] (by simp) (by simp) le_rfl P
    (fun l hl => ⟨(hPg l hl).2.1, (hPg l hl).2.2.2.2.2⟩) (fun _ => 0) (fun _ => 0) (fun _ => 0) coeffs x
    (fun i hi => hP i (by simp at hi ⊢; tauto)) (fun _ => [1, 2, 3]) (fun _ => [1, 2, 3]) (fun _ _ => List.Perm.refl _)
    (fun _ _ => List.Perm.refl _)
  have hm : ∀ l ∈ [(1 : U32), 2], ∃ m, (d1 l).theirEncryptedSecretShares = .ok m ∧ ∀ i ∈ [(1 : U32), 2], ∃ e,
      m.get? i = some e ∧ e.senderIndex = l ∧ e.receiverIndex = i := by
    intro l hl
    obtain ⟨m, k1, _, _, k4⟩ := C25_dealt_shares cipher_laws codec_laws true ⟨3, 2⟩ (x l) l (coeffs l)
      ([1, 2, 3].map P) 0 (by
        simp [(hPg 1 (by simp)).2.1, (hPg 2 (by simp)).2.1, (hPg 3 (by simp)).2.1]) _ _ (h1 l hl)
    refine ⟨m, k1, fun i hi => ?_⟩
    obtain ⟨e, e1, e2, e3, _⟩ := k4 (P i) (List.mem_map.mpr ⟨i, by simp at hi ⊢; tauto, rfl⟩)
    have := (hPg i (by simp at hi ⊢; tauto)).2.1
    rw [this] at e1 e3
    exact ⟨e, e1, e2, e3⟩
  choose! m hm1 E hE1 hE2 hE3 using hm
  have hE : ∀ l ∈ [(1 : U32), 2, 3], ∀ i ∈ [(1 : U32), 2],
      ((fun l i => if l = 3 then ⟨3, i, [], []⟩ else E l i : U32 → U32 → EncShare) l i).senderIndex = l ∧
      ((fun l i => if l = 3 then ⟨3, i, [], []⟩ else E l i : U32 → U32 → EncShare) l i).receiverIndex = i := by
    intro l hl i hi
    by_cases h : l = 3
    · subst h; simp
    · have : l ∈ [(1 : U32), 2] := by simp at hl ⊢; tauto
      simp only [h, if_false]
      exact ⟨hE2 l this i hi, hE3 l this i hi⟩
  obtain ⟨d2, cs, hr2, _, _⟩ := h2 (fun l i => if l = 3 then ⟨3, i, [], []⟩ else E l i) hE (by
      intro l hl
      refine ⟨m l, hm1 l hl, fun i hi => ?_⟩
      have : l ≠ 3 := by rintro rfl; simp at hl
      simp only [this, if_false]
      exact hE1 l hl i hi)
  have hgood : ∀ p ∈ [(1 : U32), 2, 3].map P, ∃ l ∈ [(1 : U32), 2, 3], p = P l ∧ p.index = l ∧
      GoodDealer suite 2 p ∧ p.commitments = some ⟨l, commitPoints suite (coeffs l)⟩ := by
    intro p hp
    obtain ⟨l, hl, rfl⟩ := List.mem_map.mp hp
    exact ⟨l, hl, rfl, (hPg l hl).2.1, (hPg l hl).2.2.2.2.2, (hPg l hl).2.2.2.1⟩
  obtain ⟨comms', Y, keys, key, pk, d3, w1, _, w3⟩ := C120_dkg_then_sign_partial lawful true ⟨3, 2⟩ ([1, 2, 3].map P)
    (by simp [(hPg 1 (by simp)).2.1, (hPg 2 (by simp)).2.1, (hPg 3 (by simp)).2.1])
    (by
      intro p hp _
      rw [List.filter_eq_self.mpr (fun p hp => by
        obtain ⟨_, _, _, _, h, _⟩ := hgood p hp
        simpa using h)]
      obtain ⟨l, hl, _, h, _, _⟩ := hgood p hp
      rw [h]
      simp only [List.mem_cons, List.not_mem_nil, or_false] at hl
      rcases hl with rfl | rfl | rfl <;> simp)
    (by
      intro p hp _ c hc
      obtain ⟨l, hl, _, h, _, h'⟩ := hgood p hp
      rw [h'] at hc
      cases hc
      exact h.symm)
    [1, 2] (by simp) x coeffs (fun _ => [1, 2, 3].map P) (fun _ => 0) (fun _ => 0) (fun _ _ => List.Perm.refl _) d1 _ h1
    (fun i => [1, 2, 3].map fun l => if l = 3 then ⟨3, i, [], []⟩ else E l i)
    (by
      intro i hi e he
      obtain ⟨l, hl, rfl⟩ := List.mem_map.mp he
      exact (hE l hl i hi).2)
    (by
      intro i hi p hp _
      obtain ⟨l, hl, _, h, _, _⟩ := hgood p hp
      exact ⟨_, List.mem_map.mpr ⟨l, hl, rfl⟩, by rw [h]; exact (hE l hl i hi).1⟩)
    d2 cs hr2 (fun _ => cs 1 ++ cs 2) (by
      intro i _ j hj c hc
      simp only [List.mem_cons, List.not_mem_nil, or_false] at hj
      rcases hj with rfl | rfl
      · exact List.mem_append_left _ hc
      · exact List.mem_append_right _ hc) (fun _ _ _ _ _ => Iff.rfl)
  obtain ⟨J, out, hJ0, hrun⟩ := retryRun_exists u32_inj suite ⟨3, 2⟩ Y (strBytes "hello") [(1 : U32), 2].toFinset key pk
    [1, 2, 3] (by simp) (by simp) SigningExamples.share (fun _ _ => ⟨rfl, rfl⟩)
  obtain ⟨k, hk, ⟨sig, hs, hv⟩, _⟩ := w3 ⟨3, 2⟩ (strBytes "hello") J out (by rw [hJ0]; simp) (by rw [hJ0]; simp)
    (by rw [hJ0]; exact Nat.le_refl 3) (by rw [hJ0]; decide) hrun
  refine ⟨d2, _, d3, keys, Y, key, out, k, sig, fun i hi => ⟨(w1 i hi).1, (w1 i hi).2.2.1⟩, ?_, hs, hv⟩
  rw [hJ0] at hk
  exact le_trans hk (by decide)

end Examples

end IceFrost
