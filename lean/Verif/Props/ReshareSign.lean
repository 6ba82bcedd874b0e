import Verif.Props.RobustSign

/-! # C121: resharing with malicious dealers, then signing with malicious signers; the exact condition of C81 -/

set_option linter.unusedSectionVars false
set_option linter.unusedSimpArgs false

namespace IceFrost

open Finset

variable {F G R : Type} [Field F] [DecidableEq F] [AddCommGroup G] [Module F G] [DecidableEq G]

attribute [local instance low] Classical.propDecidable

/-- The constant point the commitments `comms` hold for dealer `l`. -/
def Spec.constantOf (comms : BMap (VssCommitment G)) (l : U32) : G :=
  ((comms.get? l).map fun c => c.points.headD 0).getD 0

/-- C81, exact: whatever the dealers of a resharing commit to, as long as the commitments are no longer than `t`, every
new signer that follows the protocol finishes with the same group key, and this is the old group key exactly when the
differences between the committed constants and the old verifying shares of the remaining dealers interpolate to zero.
In particular a single dealer that deviates always changes the key. -/
theorem C81_preserved_iff {S : Suite F G R} (hS : S.Lawful) (dbg : Bool) (params : Params)
    (ps : List (Participant F G)) (hidx : (ps.map (·.index)).Nodup)
    (hrange : ∀ p ∈ ps, Spec.DealerValid S p →
      p.index ≠ 0 ∧ p.index.toNat ≤ (ps.filter (Spec.DealerValid S)).length)
    (t : Nat) (ht : t ≠ 0)
    (hdeg : ∀ p ∈ ps, Spec.DealerValid S p → ∀ c, p.commitments = some c → c.points.length ≤ t)
    (oldKey : U32 → F) (told : Nat) (s : F)
    (hold : ∀ J : List U32, J.Nodup → (∀ j ∈ J, ∃ p ∈ ps, Spec.DealerValid S p ∧ p.index = j) → told ≤ J.length →
      Spec.interpolate J oldKey = s)
    (H : List U32) (x : U32 → F) (ord : U32 → List (Participant F G))
    (r1 r2 : U32 → R) (hord : ∀ i ∈ H, (ord i).Perm ps) (d1 : U32 → RoundOne F G) (L : U32 → ParticipantList F G)
    (hnew : ∀ i ∈ H, dkgNew S dbg params (x i) i (ord i) (r1 i) = .ok (d1 i, L i))
    (es : U32 → List EncShare) (hlabel : ∀ i ∈ H, ∀ e ∈ es i, e.receiverIndex = i)
    (hall : ∀ i ∈ H, ∀ p ∈ ps, Spec.DealerValid S p → ∃ e ∈ es i, e.senderIndex = p.index)
    (d2 : U32 → RoundTwo F G) (cs : U32 → List (Complaint F G))
    (hr2 : ∀ i ∈ H, (d1 i).toRoundTwo S dbg (es i) (r2 i) = .ok (d2 i, cs i))
    (all : U32 → List (Complaint F G)) (hsub : ∀ i ∈ H, ∀ j ∈ H, ∀ c ∈ cs j, c ∈ all i)
    (hsame : ∀ i ∈ H, ∀ j ∈ H, ∀ c, c ∈ all i ↔ c ∈ all j) :
    ∃ (comms' : BMap (VssCommitment G)) (gk : G) (keys : List G) (key : U32 → F) (d3 : U32 → RoundTwo F G),
      (∀ i ∈ H, (d2 i).blame S (all i) = .ok (d3 i, keys) ∧ (d3 i).state.theirCommitments = some comms' ∧
        (d3 i).finish = .ok (gk, ⟨i, key i⟩)) ∧
      (told ≤ comms'.keys.length →
        (gk = s • S.gen ↔
          Spec.interpolateG F comms'.keys (fun l => Spec.constantOf comms' l - oldKey l • S.gen) = 0) ∧
        ∀ l ∈ comms'.keys, Spec.constantOf comms' l ≠ oldKey l • S.gen →
          (∀ l' ∈ comms'.keys, l' ≠ l → Spec.constantOf comms' l' = oldKey l' • S.gen) → gk ≠ s • S.gen) := by
  obtain ⟨comms', s', keys, key, d3, w1, w2, w3, w4, w5⟩ := robust_records hS.group hS.u32 dbg (Spec.DealerValid S)
    (fun p hp => hp) ps hidx hrange t ht hdeg H ord hord d1
    (by
      intro i hi
      obtain ⟨k1, _, k3, _, k5, k6, k7, _⟩ := C20_new_classifies dbg params _ _ _ _ _ _ (hnew i hi)
      rw [k1] at k3 k5 k6
      exact ⟨k3, k5, k6, k7⟩) es r2 hlabel hall d2 cs hr2 all hsub hsame
  refine ⟨comms', s' • S.gen, keys, key, d3, fun i hi => ⟨(w4 i hi).1, (w4 i hi).2.1, (w4 i hi).2.2.1⟩, fun hlen => ?_⟩
  have hs : s • S.gen = Spec.interpolateG F comms'.keys (fun l => oldKey l • S.gen) := by
    rw [← hold comms'.keys w1.nodup ?_ hlen]
    · unfold Spec.interpolateG Spec.interpolate
      rw [sum_smul]
      exact sum_congr rfl fun l _ => by rw [mul_smul]
    · intro j hj
      obtain ⟨c, hc⟩ := BMap.exists_get? hj
      obtain ⟨p, hp, hv, hpi, _⟩ := w2 j c hc
      exact ⟨p, hp, hv, hpi⟩
  have hdiff : Spec.interpolateG F comms'.keys (fun l => Spec.constantOf comms' l - oldKey l • S.gen) =
      s' • S.gen - s • S.gen := by
    rw [hs, w3]
    unfold Spec.interpolateG
    rw [← sum_sub_distrib]
    exact sum_congr rfl fun l _ => by rw [smul_sub]; rfl
  have h0 : 0 ∉ comms'.keys := by
    intro h
    obtain ⟨c, hc⟩ := BMap.exists_get? h
    obtain ⟨p, hp, hg, h0, _⟩ := w2 0 c hc
    exact (hrange p hp hg).1 h0
  refine ⟨by rw [hdiff, sub_eq_zero], fun l hl hne hothers heq => ?_⟩
  have hz : Spec.interpolateG F comms'.keys (fun l => Spec.constantOf comms' l - oldKey l • S.gen) = 0 := by
    rw [hdiff, heq, sub_self]
  unfold Spec.interpolateG at hz
  rw [sum_eq_single_of_mem l (List.mem_toFinset.mpr hl)] at hz
  · obtain ⟨z, hz'⟩ := hS.group.gen_surj (Spec.constantOf comms' l - oldKey l • S.gen)
    beta_reduce at hz
    rw [hz', ← mul_smul] at hz
    have := hS.group.gen_inj _ 0 (by rw [hz, zero_smul])
    rcases mul_eq_zero.mp this with h | h
    · exact lagrange_ne_zero hS.u32 comms'.keys h0 l h
    · rw [h, zero_smul] at hz'
      exact hne (sub_eq_zero.mp hz')
  · intro l' hl' hll
    beta_reduce
    rw [hothers l' (List.mem_toFinset.mp hl') hll, sub_self, smul_zero]

/-- C121: new signers `H` follow the protocol in a resharing; the records, shares and complaints of everybody else are
arbitrary. If the remaining dealers are at least `told` and committed to their old verifying shares, then every series of
attempts to sign with signers of which `t` are in `H` ends with a signature valid under the group key `s • gen` from
before the resharing, after at most as many failures as there are signers outside `H`, and nobody in `H` is excluded.

Missing for the full C121: dealers that commit to something else (`hconst`) or to too many points (`hdeg`), which `new`
does not check, see `C81_preserved_iff`; wrong labels (`hlab`), see `C82_derivation_blocked`; accepted indices outside
`1..n'` (`hrange`), see C43. -/
theorem C121_reshare_then_sign_partial {S : Suite F G R} (hS : S.Lawful) (dbg : Bool) (params : Params)
    (ps : List (Participant F G)) (hidx : (ps.map (·.index)).Nodup)
    (hrange : ∀ p ∈ ps, Spec.DealerValid S p →
      p.index ≠ 0 ∧ p.index.toNat ≤ (ps.filter (Spec.DealerValid S)).length)
    (t : Nat) (ht : t ≠ 0)
    (hdeg : ∀ p ∈ ps, Spec.DealerValid S p → ∀ c, p.commitments = some c → c.points.length ≤ t)
    (hlab : ∀ p ∈ ps, Spec.DealerValid S p → ∀ c, p.commitments = some c → c.index = p.index)
    (oldKey : U32 → F) (told : Nat) (s : F)
    (hold : ∀ J : List U32, J.Nodup → (∀ j ∈ J, ∃ p ∈ ps, Spec.DealerValid S p ∧ p.index = j) → told ≤ J.length →
      Spec.interpolate J oldKey = s)
    (hconst : ∀ p ∈ ps, Spec.DealerValid S p → ∀ c, p.commitments = some c →
      c.points.head? = some (oldKey p.index • S.gen))
    (H : List U32) (x : U32 → F) (ord : U32 → List (Participant F G))
    (r1 r2 : U32 → R) (hord : ∀ i ∈ H, (ord i).Perm ps) (d1 : U32 → RoundOne F G) (L : U32 → ParticipantList F G)
    (hnew : ∀ i ∈ H, dkgNew S dbg params (x i) i (ord i) (r1 i) = .ok (d1 i, L i))
    (es : U32 → List EncShare) (hlabel : ∀ i ∈ H, ∀ e ∈ es i, e.receiverIndex = i)
    (hall : ∀ i ∈ H, ∀ p ∈ ps, Spec.DealerValid S p → ∃ e ∈ es i, e.senderIndex = p.index)
    (d2 : U32 → RoundTwo F G) (cs : U32 → List (Complaint F G))
    (hr2 : ∀ i ∈ H, (d1 i).toRoundTwo S dbg (es i) (r2 i) = .ok (d2 i, cs i))
    (all : U32 → List (Complaint F G)) (hsub : ∀ i ∈ H, ∀ j ∈ H, ∀ c ∈ cs j, c ∈ all i)
    (hsame : ∀ i ∈ H, ∀ j ∈ H, ∀ c, c ∈ all i ↔ c ∈ all j) :
    ∃ (comms' : BMap (VssCommitment G)) (Y : G) (keys : List G) (key : U32 → F) (pk : U32 → G)
      (d3 : U32 → RoundTwo F G),
      (∀ i ∈ H, (d2 i).blame S (all i) = .ok (d3 i, keys) ∧ (d3 i).state.theirCommitments = some comms' ∧
        (d3 i).finish = .ok (Y, ⟨i, key i⟩) ∧ pk i = key i • S.gen) ∧
      (∀ j, (generateFromCommitments j (comms'.map (·.2)) : Out F G _) = .ok ⟨j, pk j⟩) ∧
      (told ≤ comms'.keys.length → Y = s • S.gen ∧
        ∀ (ps : Params) (message : Bytes) (J : Nat → List U32) (out : Nat → Res F G (ThresholdSignature F G)),
          (J 0).Nodup → 0 ∉ J 0 → (J 0).length ≤ ps.n.toNat → t ≤ ((J 0).filter (· ∈ H.toFinset)).length →
          RetryRun S ps (s • S.gen) message H.toFinset key pk J out →
          ∃ k ≤ ((J 0).filter (· ∉ H.toFinset)).length, (∃ sig, out k = .ok sig ∧
            Spec.SigValid S (s • S.gen) (Spec.messageHash S message) sig) ∧
            ∀ j ≤ k, (J 0).filter (· ∈ H.toFinset) ⊆ J j) := by
  obtain ⟨comms', s', keys, key, d3, w1, w2, w3, w4, w5⟩ := robust_records hS.group hS.u32 dbg (Spec.DealerValid S)
    (fun p hp => hp) ps hidx hrange t ht hdeg H ord hord d1
    (by
      intro i hi
      obtain ⟨k1, _, k3, _, k5, k6, k7, _⟩ := C20_new_classifies dbg params _ _ _ _ _ _ (hnew i hi)
      rw [k1] at k3 k5 k6
      exact ⟨k3, k5, k6, k7⟩) es r2 hlabel hall d2 cs hr2 all hsub hsame
  refine ⟨comms', s' • S.gen, keys, key, Spec.publicKeyOf F comms', d3,
    fun i hi => ⟨(w4 i hi).1, (w4 i hi).2.1, (w4 i hi).2.2.1, (w4 i hi).2.2.2.symm⟩, fun j => ?_, fun hlen => ?_⟩
  · refine derive_publicKeyOf hS.u32 comms' w1 ?_ ?_ j
    · intro h
      obtain ⟨c, hc⟩ := BMap.exists_get? h
      obtain ⟨p, hp, hg, h0, _⟩ := w2 0 c hc
      exact (hrange p hp hg).1 h0
    · intro k c hc
      obtain ⟨p, hp, hg, rfl, hcm⟩ := w2 k c hc
      exact hlab p hp hg c hcm
  · have hs : s' • S.gen = s • S.gen := by
      rw [w3, ← hold comms'.keys w1.nodup ?_ hlen]
      · unfold Spec.interpolateG Spec.interpolate
        rw [sum_smul]
        refine sum_congr rfl fun l hl => ?_
        obtain ⟨c, hc⟩ := BMap.exists_get? (List.mem_toFinset.mp hl)
        obtain ⟨p, hp, hv, rfl, hcm⟩ := w2 l c hc
        have := hconst p hp hv c hcm
        beta_reduce
        rw [hc, mul_smul]
        simp only [Option.map_some, Option.getD_some]
        rw [List.headD_eq_head?_getD, this, Option.getD_some]
      · intro j hj
        obtain ⟨c, hc⟩ := BMap.exists_get? hj
        obtain ⟨p, hp, hv, hpi, _⟩ := w2 j c hc
        exact ⟨p, hp, hv, hpi⟩
    refine ⟨hs, ?_⟩
    intro ps message J out hJ h0 hn hJH hrun
    refine C92_retry_succeeds hS.u32 S ps (s • S.gen) message H.toFinset key (Spec.publicKeyOf F comms')
      (fun i hi => (w4 i (List.mem_toFinset.mp hi)).2.2.2.symm) t (Nat.pos_of_ne_zero ht) J hJ h0 hn hJH ?_ out
      hrun.attempts hrun.next
    intro J' hJ' _ hlen'
    rw [← hs, w3]
    refine publicKeyOf_interpolates hS.group hS.u32 comms' t ?_ J' hJ' hlen'
    intro k c hc
    obtain ⟨p, hp, hg, _, hcm⟩ := w2 k c hc
    exact hdeg p hp hg c hcm

/-- C121, liveness: at least `t_old` of the dealers `D` (the set `HD`) reshare their keys honestly; the others published
acceptable records that commit to their old verifying shares with at most `t_new` points but deal arbitrary shares
(labelled with sender and receiver). At least one new signer follows the protocol (`H`). Then every `new` and
`to_round_two` of `H` succeeds, complaints name only dealers outside `HD`, and if exactly the complaints of `H` are
processed, no member of `HD` is removed, everybody in `H` finishes with the old group key, and every series of signing
attempts with `t_new` signers of `H` ends with a signature valid under the old group key. -/
theorem C121_honest_dealers_suffice {S : Suite F G R} (hS : S.Lawful) (dbg : Bool) (D : List U32) (pd pn : Params)
    (I : List U32) (hok : ReshareOk D pd pn I) (hrange : ∀ l ∈ D, l.toNat ≤ pd.n.toNat)
    (oldKey : U32 → F) (s : F)
    (hold : ∀ J : List U32, J.Nodup → J ⊆ D → pd.t.toNat ≤ J.length → Spec.interpolate J oldKey = s)
    (HD : List U32) (hHD : HD.Nodup) (hHDi : HD ⊆ D) (htHD : pd.t.toNat ≤ HD.length)
    (H : List U32) (hHI : H ⊆ I) (r1 r2 r3 r4 : U32 → R)
    (Q : U32 → Participant F G) (y : U32 → F) (hQ : ∀ i ∈ H, newSigner S pn i (r1 i) = .ok (Q i, y i))
    (hQI : ∀ i ∈ I, (Q i).index = i)
    (P : U32 → Participant F G) (m : U32 → BMap EncShare) (L : U32 → ParticipantList F G) (ordI : U32 → List U32)
    (hoI : ∀ l ∈ HD, (ordI l).Perm I)
    (hP : ∀ l ∈ HD, reshare S dbg pn ⟨l, oldKey l⟩ ((ordI l).map Q) (r2 l) = .ok (P l, m l, L l))
    (hPD : ∀ l ∈ D, (P l).index = l ∧ Spec.DealerValid S (P l) ∧ ∀ c, (P l).commitments = some c →
      c.index = l ∧ c.points.length ≤ pn.t.toNat ∧ c.points.head? = some (oldKey l • S.gen))
    (E : U32 → U32 → EncShare) (hE : ∀ l ∈ D, ∀ i ∈ H, (E l i).senderIndex = l ∧ (E l i).receiverIndex = i)
    (hEH : ∀ l ∈ HD, ∀ i ∈ H, (m l).get? i = some (E l i))
    (ord ord' : U32 → List U32) (ho : ∀ i ∈ H, (ord i).Perm D) (ho' : ∀ i ∈ H, (ord' i).Perm D) :
    ∃ (d1 : U32 → RoundOne F G) (d2 : U32 → RoundTwo F G) (cs : U32 → List (Complaint F G)),
      (∀ i ∈ H, dkgNew S dbg pd (y i) i ((ord i).map P) (r3 i) = .ok (d1 i, ⟨(ord i).map P, none⟩) ∧
        (d1 i).toRoundTwo S dbg ((ord' i).map fun l => E l i) (r4 i) = .ok (d2 i, cs i) ∧
        ∀ c ∈ cs i, c.encShare.senderIndex ∉ HD) ∧
    ∀ all : U32 → List (Complaint F G), (∀ i ∈ H, ∀ c, c ∈ all i ↔ ∃ j ∈ H, c ∈ cs j) →
    ∃ (comms' : BMap (VssCommitment G)) (keys : List G) (key : U32 → F) (pk : U32 → G) (d3 : U32 → RoundTwo F G),
      (∀ i ∈ H, (d2 i).blame S (all i) = .ok (d3 i, keys) ∧ (d3 i).state.theirCommitments = some comms' ∧
        HD ⊆ comms'.keys ∧ (d3 i).finish = .ok (s • S.gen, ⟨i, key i⟩) ∧ pk i = key i • S.gen ∧
        ∀ j, (generateFromCommitments j (comms'.map (·.2)) : Out F G _) = .ok ⟨j, pk j⟩) ∧
      ∀ (ps : Params) (message : Bytes) (J : Nat → List U32) (out : Nat → Res F G (ThresholdSignature F G)),
        (J 0).Nodup → 0 ∉ J 0 → (J 0).length ≤ ps.n.toNat → pn.t.toNat ≤ ((J 0).filter (· ∈ H.toFinset)).length →
        RetryRun S ps (s • S.gen) message H.toFinset key pk J out →
        ∃ k ≤ ((J 0).filter (· ∉ H.toFinset)).length, (∃ sig, out k = .ok sig ∧
          Spec.SigValid S (s • S.gen) (Spec.messageHash S message) sig) ∧
          ∀ j ≤ k, (J 0).filter (· ∈ H.toFinset) ⊆ J j := by
  have hI0 : ∀ i ∈ I, i ≠ 0 := fun i hi h => hok.zeroI (h ▸ hi)
  have hQdh : ∀ i ∈ H, (Q i).dhPublicKey = y i • S.gen := by
    intro i hi
    obtain ⟨p, dh, rng', h, _, _, _, h4, _⟩ := newInternal_signer S pn i (hI0 i (hHI hi)) none (r1 i)
    have := hQ i hi
    unfold newSigner at this
    rw [h] at this
    simp only [Except.ok.injEq, Prod.mk.injEq] at this
    obtain ⟨rfl, rfl⟩ := this
    exact h4
  have hfacts := fun l hl => reshare_facts hS.cipher hS.codec dbg
    (fun i hi => hQI i ((hoI l hl).mem_iff.mp hi)) (hP l hl)
  choose! coeffs x f1 f2 f3 f4 f5 f6 f7 using hfacts
  have hnew : ∀ i ∈ H, dkgNew S dbg pd (y i) i ((ord i).map P) (r3 i) =
      .ok (⟨roundOneState S pd (y i) i true ((ord i).map P) none⟩, ⟨(ord i).map P, none⟩) := by
    intro i hi
    refine new_honest dbg pd hok.td hok.tdn _ ?_ ?_ (y i) i (r3 i)
    · rw [List.length_map, (ho i hi).length_eq, hok.lenD]
    · intro p hp
      obtain ⟨l, hl, rfl⟩ := List.mem_map.mp hp
      exact (hPD l ((ho i hi).mem_iff.mp hl)).2.1
  have hopen : ∀ l ∈ HD, ∀ i ∈ H, Spec.Opens S (E l i) (x l • (Q i).dhPublicKey)
      (Spec.polyEval (coeffs l) (u32F F i)) := by
    intro l hl i hi
    obtain ⟨e, he, _, _, ho⟩ := f7 l hl i ((hoI l hl).mem_iff.mpr (hHI hi))
    rw [hEH l hl i hi] at he
    cases he
    exact ho
  have hstate := fun i hi => C20_new_classifies dbg pd _ _ _ _ _ _ (hnew i hi)
  have hnd2 : ∀ i ∈ H, ((((ord i).map P).map fun p => (p.index, p.dhPublicKey)).map Prod.fst).Nodup := by
    intro i hi
    rw [List.map_map, List.map_map]
    have : (Prod.fst ∘ fun p : Participant F G => (p.index, p.dhPublicKey)) ∘ P = fun l => (P l).index := rfl
    rw [this, List.map_congr_left (g := id) fun k hk => (hPD k ((ho i hi).mem_iff.mp hk)).1, List.map_id]
    exact (ho i hi).nodup_iff.mpr hok.nodupD
  have hnd1 : ∀ i ∈ H, ((((ord i).map P).filterMap fun p => p.commitments.map fun c => (p.index, c)).map Prod.fst).Nodup := by
    intro i hi
    have : ∀ o : List U32, o ⊆ D → ((o.map P).filterMap fun p => p.commitments.map fun c => (p.index, c)).map Prod.fst
        = o := by
      intro o hoi
      induction o with
      | nil => rfl
      | cons k o ih =>
        obtain ⟨hk, ⟨_, c, _, _, hc, _⟩, _⟩ := hPD k (hoi (by simp))
        rw [List.map_cons, List.filterMap_cons, hc]
        simp only [Option.map_some, List.map_cons]
        rw [ih fun q hq => hoi (List.mem_cons_of_mem _ hq), hk]
    rw [this _ (ho i hi).subset]
    exact (ho i hi).nodup_iff.mpr hok.nodupD
  have hdh : ∀ i ∈ H, ∀ l ∈ D, (roundOneState S pd (y i) i true ((ord i).map P) none).theirDhPublicKeys.get? l
      = some (P l).dhPublicKey := by
    intro i hi l hl
    rw [(hstate i hi).2.2.2.2.2.1]
    refine (BMap.get?_ofList (hnd2 i hi) _ _).mpr
      (List.mem_map.mpr ⟨P l, List.mem_map.mpr ⟨l, (ho i hi).mem_iff.mpr hl, rfl⟩, ?_⟩)
    rw [(hPD l hl).1]
  have hcm : ∀ i ∈ H, ∀ l ∈ D, ∃ c, (P l).commitments = some c ∧ (BMap.ofList (((ord i).map P).filterMap
      fun p => p.commitments.map fun c => (p.index, c))).get? l = some c := by
    intro i hi l hl
    obtain ⟨_, c, _, _, hc, _⟩ := (hPD l hl).2.1
    refine ⟨c, hc, ?_⟩
    refine (BMap.get?_ofList (hnd1 i hi) _ _).mpr
      (List.mem_filterMap.mpr ⟨P l, List.mem_map.mpr ⟨l, (ho i hi).mem_iff.mpr hl, rfl⟩, ?_⟩)
    rw [hc, (hPD l hl).1]; rfl
  have hgood : ∀ i ∈ H, ∀ l ∈ HD, ∀ c, (P l).commitments = some c →
      Spec.GoodShare S (y i • (P l).dhPublicKey) c.points (E l i) := by
    intro i hi l hl c hc
    rw [f4 l hl] at hc; cases hc
    refine ⟨Spec.polyEval (coeffs l) (u32F F i), ?_, ?_⟩
    · have := hopen l hl i hi
      rwa [hQdh i hi, smul_comm, ← f5 l hl] at this
    · rw [(hE l (hHDi hl) i hi).2]
      exact (pointEval_commitPoints S _ _).symm
  set d1 : U32 → RoundOne F G := fun i => ⟨roundOneState S pd (y i) i true ((ord i).map P) none⟩ with hd1
  have hr2 : ∀ i ∈ H, ∃ d2 cs, (d1 i).toRoundTwo S dbg ((ord' i).map fun l => E l i) (r4 i) = .ok (d2, cs) ∧
      ∀ c ∈ cs, c.encShare.senderIndex ∉ HD ∧ c.encShare.senderIndex ∈ D := by
    intro i hi
    obtain ⟨_, _, k3, k4, k5, k6, k7, k8, _⟩ := hstate i hi
    have hn' : (d1 i).state.parameters.n.toNat = D.length := by
      rw [← (ho i hi).length_eq, ← List.length_map (as := ord i) P]; exact k3
    have key := C30_aborts_iff_partial S dbg (d1 i) _ k5 (BMap.wf_ofList _).nodup ((ord' i).map fun l => E l i)
      (by
        rw [List.length_map, (ho' i hi).length_eq, hok.lenD]
        show (roundOneState S pd (y i) i true ((ord i).map P) none).parameters.t.toNat ≤ _
        rw [k4]; exact hok.tdn)
      (by
        intro e he
        obtain ⟨l, hl, rfl⟩ := List.mem_map.mp he
        have hl' := (ho' i hi).mem_iff.mp hl
        refine ⟨fun _ => (hE l hl' i hi).2, ?_⟩
        rw [(hE l hl' i hi).1]
        exact BMap.mem_keys_of_get? (hdh i hi l hl')) (r4 i) _ rfl
    set bad := ((ord' i).map fun l => E l i).filter _ with hbad
    have hbm : ∀ e ∈ bad, ∃ l ∈ D, l ∉ HD ∧ e = E l i := by
      intro e he
      obtain ⟨he1, he2⟩ := List.mem_filter.mp he
      obtain ⟨l, hl, rfl⟩ := List.mem_map.mp he1
      have hl' := (ho' i hi).mem_iff.mp hl
      refine ⟨l, hl', fun hlH => ?_, rfl⟩
      simp only [decide_eq_true_eq] at he2
      obtain ⟨pk, c, h1, h2, h3⟩ := he2
      rw [(hE l hl' i hi).1] at h1 h2
      obtain ⟨c', hc1, hc2⟩ := hcm i hi l hl'
      have h1' := (hdh i hi l hl').symm.trans h1
      have h2' := hc2.symm.trans h2
      cases h1'; cases h2'
      exact h3 (hgood i hi l hlH _ hc1)
    have hbl : bad.length + HD.length ≤ D.length := by
      have hnd : (bad.map (·.senderIndex) ++ HD).Nodup := by
        rw [List.nodup_append]
        refine ⟨?_, hHD, ?_⟩
        · have : (((ord' i).map fun l => E l i).map (·.senderIndex)) = ord' i := by
            rw [List.map_map]
            conv_rhs => rw [← List.map_id (ord' i)]
            exact List.map_congr_left fun l hl => (hE l ((ho' i hi).mem_iff.mp hl) i hi).1
          refine List.Nodup.sublist (List.filter_sublist.map _) ?_
          rw [this]
          exact (ho' i hi).nodup_iff.mpr hok.nodupD
        · intro k hk k' hk' hkk
          obtain ⟨e, he, rfl⟩ := List.mem_map.mp hk
          obtain ⟨l, hl, hlH, rfl⟩ := hbm e he
          rw [(hE l hl i hi).1] at hkk
          exact hlH (hkk ▸ hk')
      have hsub : (bad.map (·.senderIndex) ++ HD) ⊆ D := by
        intro k hk
        rcases List.mem_append.mp hk with hk | hk
        · obtain ⟨e, he, rfl⟩ := List.mem_map.mp hk
          obtain ⟨l, hl, hlH, rfl⟩ := hbm e he
          rw [(hE l hl i hi).1]; exact hl
        · exact hHDi hk
      have := (hnd.subperm hsub).length_le
      rwa [List.length_append, List.length_map] at this
    obtain ⟨key1, _⟩ := key (by rw [hn']; omega)
    cases hres : (d1 i).toRoundTwo S dbg ((ord' i).map fun l => E l i) (r4 i) with
    | error f =>
      have := key1.mp ⟨f, hres⟩
      have ht' : (d1 i).state.parameters.t = pd.t := k4
      rw [hn', ht'] at this
      omega
    | ok v =>
      obtain ⟨d2, cs⟩ := v
      refine ⟨d2, cs, rfl, fun c hc => ?_⟩
      have h28 := C28_complaints S dbg (d1 i) _ k5 (BMap.wf_ofList _).nodup _ (r4 i) cs (.inl ⟨d2, hres⟩)
      obtain ⟨e, he, hce, _⟩ := forall₂_mem_left h28 c hc
      obtain ⟨l, hl, hlH, rfl⟩ := hbm e he
      rw [hce, (hE l hl i hi).1]
      exact ⟨hlH, hl⟩
  choose! d2 cs hr2a hr2b using hr2
  refine ⟨d1, d2, cs, fun i hi => ⟨hnew i hi, hr2a i hi, fun c hc => (hr2b i hi c hc).1⟩, fun all hall => ?_⟩
  have hmap : (D.map P).map (·.index) = D := by
    rw [List.map_map]
    conv_rhs => rw [← List.map_id D]
    exact List.map_congr_left fun k hk => (hPD k hk).1
  have hfil : (D.map P).filter (Spec.DealerValid S) = D.map P := by
    refine List.filter_eq_self.mpr fun p hp => ?_
    obtain ⟨l, hl, rfl⟩ := List.mem_map.mp hp
    simpa using (hPD l hl).2.1
  obtain ⟨comms', Y, keys, key, pk, d3, w1, w2, w3⟩ := C121_reshare_then_sign_partial hS dbg pd (D.map P)
    (by rw [hmap]; exact hok.nodupD)
    (by
      rw [hfil, List.length_map, hok.lenD]
      intro p hp _
      obtain ⟨l, hl, rfl⟩ := List.mem_map.mp hp
      rw [(hPD l hl).1]
      exact ⟨fun h => hok.zeroD (h ▸ hl), hrange l hl⟩)
    pn.t.toNat (fun h => hok.tn (UInt32.toNat_inj.mp (by simpa using h)))
    (by
      intro p hp _ c hc
      obtain ⟨l, hl, rfl⟩ := List.mem_map.mp hp
      exact ((hPD l hl).2.2 c hc).2.1)
    (by
      intro p hp _ c hc
      obtain ⟨l, hl, rfl⟩ := List.mem_map.mp hp
      rw [(hPD l hl).1]
      exact ((hPD l hl).2.2 c hc).1)
    oldKey pd.t.toNat s
    (by
      intro J hJ hJD hlen
      refine hold J hJ (fun j hj => ?_) hlen
      obtain ⟨p, hp, _, rfl⟩ := hJD j hj
      obtain ⟨l, hl, rfl⟩ := List.mem_map.mp hp
      rw [(hPD l hl).1]; exact hl)
    (by
      intro p hp _ c hc
      obtain ⟨l, hl, rfl⟩ := List.mem_map.mp hp
      rw [(hPD l hl).1]
      exact ((hPD l hl).2.2 c hc).2.2)
    H y (fun i => (ord i).map P) r3 r4 (fun i hi => (ho i hi).map P) d1 _ hnew
    (fun i => (ord' i).map fun l => E l i)
    (by
      intro i hi e he
      obtain ⟨l, hl, rfl⟩ := List.mem_map.mp he
      exact (hE l ((ho' i hi).mem_iff.mp hl) i hi).2)
    (by
      intro i hi p hp _
      obtain ⟨l, hl, rfl⟩ := List.mem_map.mp hp
      exact ⟨E l i, List.mem_map.mpr ⟨l, (ho' i hi).mem_iff.mpr hl, rfl⟩, by
        rw [(hE l hl i hi).1, (hPD l hl).1]⟩)
    d2 cs hr2a all (fun i hi j hj c hc => (hall i hi c).mpr ⟨j, hj, hc⟩)
    (fun i hi j hj c => (hall i hi c).trans (hall j hj c).symm)
  have hstay : ∀ h ∈ H, HD ⊆ comms'.keys := by
    intro h hh l hl
    obtain ⟨_, _, k3, _, k5, k6, _⟩ := hstate h hh
    obtain ⟨mm, hold', hpar, _, hdk⟩ := holds_toRoundTwo S dbg (d1 h) _ k5 (BMap.wf_ofList _) _ _ _ _ (hr2a h hh)
    have hn' : (d1 h).state.parameters.n.toNat = D.length := by
      rw [← (ho h hh).length_eq, ← List.length_map (as := ord h) P]; exact k3
    obtain ⟨d', keys', b1, b2, _⟩ := C39_justified_list S _ (d2 h) mm hold' (all h) (by
      intro c hc
      obtain ⟨j, hj, hcj⟩ := (hall h hh c).mp hc
      obtain ⟨_, _, _, _, q5, q6, _⟩ := hstate j hj
      have hc2 := (hr2b j hj c hcj).2
      refine ⟨fun h => hok.zeroD (h ▸ hc2), by rw [hpar, hn', hok.lenD]; exact hrange _ hc2, dbg, d1 j, _, r4 j, cs j,
        .inl ⟨_, hr2a j hj⟩, hcj, q5.trans ?_, ?_⟩
      · congr 1
        exact BMap.ofList_congr (hnd1 j hj) ((((ho j hj).trans (ho h hh).symm).map P).filterMap _)
      · rw [hdk]
        refine k6.trans (Eq.trans ?_ q6.symm)
        exact BMap.ofList_congr (hnd2 h hh) ((((ho h hh).trans (ho j hj).symm).map P).map _))
    obtain ⟨v1, v2, _⟩ := w1 h hh
    rw [b1] at v1
    simp only [Except.ok.injEq, Prod.mk.injEq] at v1
    rw [← v1.1] at v2
    obtain ⟨comms'', m'', z1, _, z3, _⟩ := b2
    rw [z1.commits] at v2
    cases v2
    obtain ⟨c, _, hc⟩ := hcm h hh l (hHDi hl)
    refine BMap.mem_keys_of_get? (v := c) ?_
    rw [z3, if_neg, hc]
    rintro ⟨c', hc', he⟩
    obtain ⟨j, hj, hcj⟩ := (hall h hh c').mp hc'
    exact (hr2b j hj c' hcj).1 (he ▸ hl)
  by_cases hH : H = []
  · subst hH
    refine ⟨comms', keys, key, pk, d3, fun i hi => absurd hi List.not_mem_nil, ?_⟩
    intro ps message J out _ _ _ hJt
    exfalso
    have h0 : (J 0).filter (· ∈ ([] : List U32).toFinset) = [] := List.filter_eq_nil_iff.mpr (by simp)
    rw [h0] at hJt
    exact hok.tn (UInt32.toNat_inj.mp (by simpa using hJt))
  obtain ⟨i0, hi0⟩ := List.exists_mem_of_ne_nil H hH
  obtain ⟨rfl, w4⟩ := w3 (htHD.trans ((hHD.subperm (hstay i0 hi0)).length_le))
  exact ⟨comms', keys, key, pk, d3, fun i hi => ⟨(w1 i hi).1, (w1 i hi).2.1, hstay i hi, (w1 i hi).2.2.1,
    (w1 i hi).2.2.2, w2⟩, w4⟩

section Examples
open Toy

/-- C121, C81: keys `5 + 2 i` of dealers 1, 2, 3 (any two hold the secret 5) are reshared to signers 1 and 2; dealer 3
deals empty ciphertexts. Signers 1 and 2 keep the group key and sign. -/
example : ∃ (d2 d3 : U32 → RoundTwo Fp Fp) (all : U32 → List (Complaint Fp Fp)) (keys : List Fp) (key : U32 → Fp)
    (out : Nat → Res Fp Fp (ThresholdSignature Fp Fp)) (k : Nat) (sig : ThresholdSignature Fp Fp),
    (∀ i ∈ [(1 : U32), 2], (d2 i).blame suite (all i) = .ok (d3 i, keys) ∧
      (d3 i).finish = .ok ((5 : Fp) • suite.gen, ⟨i, key i⟩)) ∧
    k ≤ 1 ∧ out k = .ok sig ∧
      Spec.SigValid suite ((5 : Fp) • suite.gen) (Spec.messageHash suite (strBytes "hello")) sig := by
  let oldKey : U32 → Fp := fun i => Spec.polyEval [5, 2] (u32F Fp i)
  have hok : ReshareOk [1, 2, 3] ⟨3, 2⟩ ⟨2, 2⟩ [1, 2] :=
    { nodupD := by simp, zeroD := by simp, nodupI := by simp, zeroI := by simp, lenD := rfl, lenI := rfl
      td := by simp, tdn := by show (2 : U32).toNat ≤ (3 : U32).toNat; simp, tn := by simp, tnn := le_rfl }
  obtain ⟨Q, y, hQ, P, m, hP, E, hE, _⟩ := C49_reshare_succeeds lawful true [1, 2, 3] oldKey ⟨3, 2⟩ ⟨2, 2⟩ [1, 2] hok
    (fun _ => 0) (fun _ => 0) (fun _ => 0) (fun _ => 0) (fun _ => [1, 2]) (fun _ => [1, 2, 3]) (fun _ => [1, 2, 3])
    (fun _ _ => List.Perm.refl _) (fun _ _ => ⟨List.Perm.refl _, List.Perm.refl _⟩)
  have hQI : ∀ i ∈ [(1 : U32), 2], (Q i).index = i := by
    intro i hi
    obtain ⟨p, dh, rng', h, h1, _⟩ := newInternal_signer suite ⟨2, 2⟩ i (by rintro rfl; simp at hi) none 0
    have := hQ i hi
    unfold newSigner at this
    rw [h] at this
    simp only [Except.ok.injEq, Prod.mk.injEq] at this
    obtain ⟨rfl, rfl⟩ := this
    exact h1
  have hf := fun l hl => reshare_facts cipher_laws codec_laws true hQI (hP l hl)
  have hEl : ∀ l ∈ [(1 : U32), 2, 3], ∀ i ∈ [(1 : U32), 2], (E l i).senderIndex = l ∧ (E l i).receiverIndex = i := by
    intro l hl i hi
    obtain ⟨_, _, _, _, _, _, _, _, h⟩ := hf l hl
    obtain ⟨e, he, h1, h2, _⟩ := h i hi
    rw [hE l hl i hi] at he
    cases he
    exact ⟨h1, h2⟩
  obtain ⟨d1, d2, cs, _, h2⟩ := C121_honest_dealers_suffice lawful true [1, 2, 3] ⟨3, 2⟩ ⟨2, 2⟩ [1, 2] hok
    (by
      intro l hl
      simp only [List.mem_cons, List.not_mem_nil, or_false] at hl
      rcases hl with rfl | rfl | rfl <;> simp) oldKey 5
    (by
      intro J hJ _ hlen
      have := interpolate_polyEval u32_inj hJ ([5, 2] : List Fp) hlen
      exact this.trans (by simp [Spec.polyEval, Finset.sum_range_succ]))
    [1, 2] (by simp) (by simp) le_rfl [1, 2] (by simp) (fun _ => 0) (fun _ => 0) (fun _ => 0) (fun _ => 0) Q y hQ hQI P m
    (fun _ => ⟨[1, 2].map Q, none⟩) (fun _ => [1, 2]) (fun _ _ => List.Perm.refl _)
    (fun l hl => hP l (by simp at hl ⊢; tauto))
    (by
      intro l hl
      obtain ⟨cs, x, k1, k2, k3, k4, k5, k6, _⟩ := hf l hl
      refine ⟨k1, k6, fun c hc => ?_⟩
      rw [k4] at hc
      cases hc
      refine ⟨rfl, ?_, ?_⟩
      · rw [commitPoints_length]; exact k2.le
      · cases cs with
        | nil => cases k3
        | cons a as => cases k3; rfl)
    (fun l i => if l = 3 then ⟨3, i, [], []⟩ else E l i)
    (by
      intro l hl i hi
      by_cases h : l = 3
      · subst h; simp
      · simp only [h, if_false]
        exact hEl l hl i hi)
    (by
      intro l hl i hi
      have : l ≠ 3 := by rintro rfl; simp at hl
      simp only [this, if_false]
      exact hE l (by simp at hl ⊢; tauto) i hi)
    (fun _ => [1, 2, 3]) (fun _ => [1, 2, 3]) (fun _ _ => List.Perm.refl _) (fun _ _ => List.Perm.refl _)
  obtain ⟨comms', keys, key, pk, d3, w1, w2⟩ := h2 (fun _ => cs 1 ++ cs 2) (by
    intro i _ c
    simp)
  obtain ⟨J, out, hJ0, hrun⟩ := retryRun_exists u32_inj suite ⟨3, 2⟩ ((5 : Fp) • suite.gen) (strBytes "hello")
    [(1 : U32), 2].toFinset key pk [1, 2, 3] (by simp) (by simp) SigningExamples.share (fun _ _ => ⟨rfl, rfl⟩)
  obtain ⟨k, hk, ⟨sig, hs, hv⟩, _⟩ := w2 ⟨3, 2⟩ (strBytes "hello") J out (by rw [hJ0]; simp) (by rw [hJ0]; simp)
    (by rw [hJ0]; exact Nat.le_refl 3) (by rw [hJ0]; decide) hrun
  refine ⟨d2, d3, _, keys, key, out, k, sig, fun i hi => ⟨(w1 i hi).1, (w1 i hi).2.2.2.1⟩, ?_, hs, hv⟩
  rw [hJ0] at hk
  exact le_trans hk (by decide)

end Examples

end IceFrost
