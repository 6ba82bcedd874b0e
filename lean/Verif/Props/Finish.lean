import Verif.Props.RoundTwo
import Verif.Lemmas.Finish
import Mathlib.Tactic.LinearCombination

/-! # C32–C36, C38: the end of the key generation -/

set_option linter.unusedSectionVars false
set_option linter.unusedSimpArgs false

namespace IceFrost

open Finset

variable {F G R : Type} [Field F] [DecidableEq F] [AddCommGroup G] [Module F G] [DecidableEq G]

/-- The dealers' public data of a session: no dealer has index 0 and every dealer committed to at least one point. -/
structure DealersOk (comms : BMap (VssCommitment G)) : Prop where
  wf : comms.WF
  zero : 0 ∉ comms.keys
  points : ∀ k c, comms.get? k = some c → c.points ≠ []

/-- A round-two state that holds, for exactly the dealers in its commitment list, a share that is consistent with
that dealer's commitment at the holder's index. -/
structure HoldsVerified (S : Suite F G R) (d : RoundTwo F G) (comms : BMap (VssCommitment G))
    (m : BMap (SecretShare F)) : Prop where
  commits : d.state.theirCommitments = some comms
  shares : d.state.mySecretShares = some m
  wf : m.WF
  keys : ∀ k, k ∈ m.keys ↔ k ∈ comms.keys
  verified : ∀ k s c, m.get? k = some s → comms.get? k = some c →
    s.eval • S.gen = Spec.pointEval c.points (d.state.index.toNat : F)

theorem BMap.keys_eq_of_mem {α β : Type} {m : BMap α} {m' : BMap β} (h : m.WF) (h' : m'.WF)
    (hk : ∀ k, k ∈ m.keys ↔ k ∈ m'.keys) : m.keys = m'.keys :=
  eq_of_strict_of_mem h h' hk

theorem pointEval_zero_head {F : Type} [Field F] [Module F G] (ps : List G) :
    Spec.pointEval ps (0 : F) = ps.headD 0 := by
  cases ps with
  | nil => simp [Spec.pointEval]
  | cons p ps => simp [Spec.pointEval, List.length_cons, sum_range_succ']

/-- `finish` of a holder of verified shares. -/
theorem finish_verified {S : Suite F G R} (hu : Suite.U32Inj F) {d : RoundTwo F G} {comms : BMap (VssCommitment G)}
    {m : BMap (SecretShare F)} (hD : DealersOk comms) (hV : HoldsVerified S d comms m) :
    ∃ key : F, d.finish = .ok (Spec.interpolateG F comms.keys
        (fun l => ((comms.get? l).map fun c => c.points.headD 0).getD 0), ⟨d.state.index, key⟩) ∧
      key = Spec.interpolate comms.keys (fun l => ((m.get? l).map (·.eval)).getD 0) ∧
      key • S.gen = ∑ l ∈ comms.keys.toFinset, Spec.lagrange (F := F) comms.keys l •
        ((comms.get? l).map fun c => Spec.pointEval c.points (d.state.index.toNat : F)).getD 0 := by
  have hk : m.keys = comms.keys := BMap.keys_eq_of_mem hV.wf hD.wf hV.keys
  have h := finish_ok hu d comms hV.commits hD.wf.nodup hD.zero
    (fun l => ((comms.get? l).map fun c => c.points.headD 0).getD 0)
    (by
      intro k c hc
      rw [hc]
      have := hD.points k c hc
      cases hp : c.points with
      | nil => exact absurd hp this
      | cons p ps => simp [hp]) m hV.shares hV.wf.nodup (by rw [hk]; exact hD.zero)
    (fun l => ((m.get? l).map (·.eval)).getD 0) (by intro k s hs; rw [hs]; rfl)
  rw [hk] at h
  refine ⟨_, h, rfl, ?_⟩
  unfold Spec.interpolate
  rw [sum_smul]
  refine sum_congr rfl fun l hl => ?_
  rw [List.mem_toFinset] at hl
  obtain ⟨c, hc⟩ := BMap.exists_get? hl
  obtain ⟨s, hs⟩ := BMap.exists_get? ((hV.keys l).mpr hl)
  beta_reduce
  rw [hs, hc, mul_smul]
  simp only [Option.map_some, Option.getD_some]
  rw [hV.verified l s c hs hc]

theorem sum_values_eq {F : Type} [Field F] [DecidableEq F] [Module F G] {comms : BMap (VssCommitment G)}
    (hn : comms.keys.Nodup)
    (hidx : ∀ k c, comms.get? k = some c → c.index = k) (L : U32 → F) (f : VssCommitment G → G) :
    ((comms.map (·.2)).map fun c => L c.index • f c).sum =
      ∑ l ∈ comms.keys.toFinset, L l • ((comms.get? l).map f).getD 0 := by
  rw [List.map_map]
  have := sum_map_eq hn (fun (_ : U32) (c : VssCommitment G) => L c.index • f c)
    (fun l => L l • ((comms.get? l).map f).getD 0) (fun k c h => by rw [h, hidx k c h]; rfl)
  rw [← this]
  rfl

theorem values_index {comms : BMap (VssCommitment G)} (hn : comms.keys.Nodup)
    (hidx : ∀ k c, comms.get? k = some c → c.index = k) :
    (comms.map (·.2)).map (·.index) = comms.keys := by
  rw [List.map_map]
  refine List.map_congr_left fun e he => ?_
  exact hidx e.1 e.2 (BMap.get?_of_mem hn he)

/-- C33: a holder of verified shares of all dealers gets a signing key whose public key is the one everybody
computes from the commitments, and which passes `verify`. Dealers may be malicious: nothing is assumed of them but
that the shares verified (and the public checks `DealersOk`, and the labels of their commitments). -/
theorem C33_finish_consistent {S : Suite F G R} (hu : Suite.U32Inj F) (d : RoundTwo F G)
    (comms : BMap (VssCommitment G)) (m : BMap (SecretShare F)) (hD : DealersOk comms)
    (hV : HoldsVerified S d comms m) (hidx : ∀ k c, comms.get? k = some c → c.index = k) :
    ∃ gk sk, d.finish = .ok (gk, sk) ∧ sk.index = d.state.index ∧
      (generateFromCommitments d.state.index (comms.map (·.2)) : Out F G _) = .ok (sk.toPublic S) ∧
      (sk.toPublic S).verify F (comms.map (·.2)) = .ok () := by
  obtain ⟨key, h1, _, h2⟩ := finish_verified hu hD hV
  have hg : (generateFromCommitments d.state.index (comms.map (·.2)) : Out F G _) =
      .ok (IndividualSigningKey.toPublic S ⟨d.state.index, key⟩) := by
    have hvi := values_index hD.wf.nodup hidx
    rw [generateFromCommitments_ok hu _ _ (by rw [hvi]; exact hD.wf.nodup) (by rw [hvi]; exact hD.zero), hvi]
    rw [sum_values_eq hD.wf.nodup hidx]
    rw [IndividualSigningKey.toPublic, h2]
    rfl
  exact ⟨_, _, h1, rfl, hg, (verifyKey_iff hu _ _).mpr hg⟩

/-- C34: participants whose commitment lists coincide return the same group key. -/
theorem C34_same_group_key (d d' : RoundTwo F G) (h : d.state.theirCommitments = d'.state.theirCommitments)
    (gk gk' : G) (sk sk' : IndividualSigningKey F) (hf : d.finish = .ok (gk, sk)) (hf' : d'.finish = .ok (gk', sk')) :
    gk = gk' := by
  cases hc : d.state.theirCommitments with
  | none =>
    exfalso
    unfold RoundTwo.finish at hf
    split at hf
    · cases hf
    · next sk' d' hs =>
      have hd' : d'.state.theirCommitments = d.state.theirCommitments := by
        unfold RoundTwo.calculateSigningKey at hs
        split at hs
        · cases hs
        · simp only [Prod.mk.injEq] at hs
          rw [← hs.2]
      unfold RoundTwo.calculateGroupKey at hf
      rw [hd', hc] at hf
      cases hf
  | some comms =>
    have h1 := finish_groupKey d comms hc hf
    have h2 := finish_groupKey d' comms (h ▸ hc) hf'
    rw [h1] at h2
    cases h2; rfl

/-- C34: and it is the interpolation at 0 of the dealers' first commitment points. -/
theorem C34_group_key_value {S : Suite F G R} (hu : Suite.U32Inj F) (d : RoundTwo F G)
    (comms : BMap (VssCommitment G)) (m : BMap (SecretShare F)) (hD : DealersOk comms)
    (hV : HoldsVerified S d comms m) :
    ∃ sk, d.finish = .ok (Spec.interpolateG F comms.keys
      (fun l => ((comms.get? l).map fun c => c.points.headD 0).getD 0), sk) := by
  obtain ⟨key, h1, _⟩ := finish_verified hu hD hV
  exact ⟨_, h1⟩

/-- C35: any `t` or more signing keys interpolate to the discrete logarithm of the group key, for arbitrary dealers
whose commitments have at most `t` points. -/
theorem C35_keys_interpolate {S : Suite F G R} (hg : S.GroupLaws) (hu : Suite.U32Inj F)
    (comms : BMap (VssCommitment G)) (hD : DealersOk comms) (t : Nat)
    (hdeg : ∀ k c, comms.get? k = some c → c.points.length ≤ t)
    (J : List U32) (hJ : J.Nodup) (ht : t ≤ J.length) (d : U32 → RoundTwo F G) (m : U32 → BMap (SecretShare F))
    (hV : ∀ j ∈ J, HoldsVerified S (d j) comms (m j) ∧ (d j).state.index = j)
    (gk : G) (key : U32 → F) (hf : ∀ j ∈ J, (d j).finish = .ok (gk, ⟨j, key j⟩)) (hJ0 : J ≠ []) :
    Spec.interpolate J key • S.gen = gk := by
  -- the (unknown) polynomials of the dealers
  have hcs : ∀ l, ∃ cs : List F, ∀ c, comms.get? l = some c → c.points = commitPoints S cs := by
    intro l
    cases hc : comms.get? l with
    | none => exact ⟨[], by simp⟩
    | some c =>
      obtain ⟨cs, h⟩ := exists_coeffs hg c.points
      exact ⟨cs, fun c' h' => by cases h'; exact h⟩
  choose cs hcs using hcs
  have hkey : ∀ j ∈ J, gk = Spec.interpolateG F comms.keys
        (fun l => ((comms.get? l).map fun c => c.points.headD 0).getD 0) ∧
      key j = ∑ l ∈ comms.keys.toFinset, Spec.lagrange comms.keys l * Spec.polyEval (cs l) (u32F F j) := by
    intro j hj
    obtain ⟨hVj, hij⟩ := hV j hj
    obtain ⟨k, h1, _, h2⟩ := finish_verified hu hD hVj
    rw [hf j hj] at h1
    simp only [Except.ok.injEq, Prod.mk.injEq, IndividualSigningKey.mk.injEq] at h1
    obtain ⟨rfl, _, rfl⟩ := h1
    refine ⟨rfl, hg.gen_inj _ _ ?_⟩
    rw [h2, sum_smul]
    refine sum_congr rfl fun l hl => ?_
    rw [List.mem_toFinset] at hl
    obtain ⟨c, hc⟩ := BMap.exists_get? hl
    rw [hc, hij]
    simp only [Option.map_some, Option.getD_some]
    rw [hcs l c hc, pointEval_commitPoints, mul_smul]
    rfl
  obtain ⟨j0, hj0⟩ := List.exists_mem_of_ne_nil J hJ0
  rw [(hkey j0 hj0).1, interpolate_congr (fun j hj => (hkey j hj).2), interpolate_sum hu hJ]
  · unfold Spec.interpolateG
    rw [sum_smul]
    refine sum_congr rfl fun l hl => ?_
    rw [List.mem_toFinset] at hl
    obtain ⟨c, hc⟩ := BMap.exists_get? hl
    beta_reduce
    rw [hc, mul_smul]
    simp only [Option.map_some, Option.getD_some]
    rw [← pointEval_zero_head (F := F), hcs l c hc, pointEval_commitPoints]
  · intro l hl
    rw [List.mem_toFinset] at hl
    obtain ⟨c, hc⟩ := BMap.exists_get? hl
    have := hdeg l c hc
    rw [hcs l c hc, commitPoints_length] at this
    omega

/-! ### C32 -/

/-- C32, what is true: the signing key and the group key do match if the holder has a verified share of every dealer.

Missing for the full C32: `to_round_two` does not insist on that; see the next theorem. -/
theorem C32_all_shares_partial {S : Suite F G R} (hu : Suite.U32Inj F) (d : RoundTwo F G)
    (comms : BMap (VssCommitment G)) (m : BMap (SecretShare F)) (hD : DealersOk comms)
    (hV : HoldsVerified S d comms m) (hidx : ∀ k c, comms.get? k = some c → c.index = k) :
    ∃ gk sk, d.finish = .ok (gk, sk) ∧ (sk.toPublic S).verify F (comms.map (·.2)) = .ok () := by
  obtain ⟨gk, sk, h1, _, _, h2⟩ := C33_finish_consistent hu d comms m hD hV hidx
  exact ⟨gk, sk, h1, h2⟩

/-- C32, negation: with `n = 2`, `t = 1` and two honest dealers with different secrets, a participant that has
received only the first dealer's share passes `to_round_two` without complaint and `finish`es with a signing key that
does not verify against the commitments and is not a share of the returned group key. -/
theorem C32_missing_share_accepted {S : Suite F G R} (hS : S.Lawful) (dbg : Bool) (a b x1 x2 x : F) (hab : a ≠ b)
    (i : U32) (e : EncShare) (he : HonestlyDealt S 1 i x1 [a] (x • S.gen) e) (rng : R) :
    let comms : BMap (VssCommitment G) := [(1, ⟨1, [a • S.gen]⟩), (2, ⟨2, [b • S.gen]⟩)]
    let d : RoundOne F G := ⟨⟨⟨2, 1⟩, i, x, x • S.gen, some comms, [(1, x1 • S.gen), (2, x2 • S.gen)], none, none⟩⟩
    ∃ d' gk sk, d.toRoundTwo S dbg [e] rng = .ok (d', []) ∧ d'.finish = .ok (gk, sk) ∧
      (sk.toPublic S).verify F (comms.map (·.2)) ≠ .ok () ∧ sk.key • S.gen ≠ gk := by
  intro comms d
  obtain ⟨hsnd, hrec, hop⟩ := honestlyDealt_opens hS.cipher hS.codec he
  rw [smul_comm] at hop
  obtain ⟨h1, m, h2, h3, h4, h5⟩ := roundTwo_good (S := S) dbg d comms rfl (by simp [comms, BMap.keys]) [e] (by simp [d])
    (by simp [d]) (by simp) (fun l => if l = 1 then x1 • S.gen else x2 • S.gen)
    (fun l => if l = 1 then [a] else [b])
    (by
      intro e' he'
      rw [List.mem_singleton] at he'
      subst he'
      rw [hsnd]
      refine ⟨by simp [d, BMap.get?], ⟨⟨1, [a • S.gen]⟩, by simp [comms, BMap.get?], by simp⟩, hrec, ?_⟩
      simpa using hop) rng
  have hmk : m.keys = [1] := by
    refine eq_of_strict_of_mem h3 (by simp) fun k => ?_
    rw [h4]; simp [hsnd]
  have hm1 : m.get? 1 = some ⟨1, i, a⟩ := by
    have := h5 e (by simp)
    rw [hsnd] at this
    rw [this]
    simp [d, Spec.polyEval]
  have hD : DealersOk comms := by
    refine ⟨?_, by simp [comms, BMap.keys], ?_⟩
    · simp [BMap.WF, comms, BMap.keys]
    · intro k c hc
      simp only [comms, BMap.get?] at hc
      split at hc
      · cases hc; simp
      · split at hc
        · cases hc; simp
        · cases hc
  have hfin := finish_ok hS.u32 (⟨roundTwoState S d.state [e]⟩ : RoundTwo F G) comms rfl hD.wf.nodup hD.zero
    (fun l => if l = 1 then a • S.gen else b • S.gen)
    (by
      intro k c hc
      simp only [comms, BMap.get?] at hc
      split at hc
      · next hk => cases hc; simp [hk]
      · split at hc
        · next hk => cases hc; simp [hk]
        · cases hc) m h2 h3.nodup (by rw [hmk]; simp) (fun _ => a)
    (by
      intro k s hs
      have := BMap.mem_keys_of_get? hs
      rw [hmk, List.mem_singleton] at this
      subst this
      rw [hm1] at hs; cases hs; rfl)
  have hint : Spec.interpolate m.keys (fun _ : U32 => a) = a := by
    rw [hmk]; simp [Spec.interpolate, Spec.lagrange]
  rw [hint] at hfin
  have hck : comms.keys = [1, 2] := rfl
  have e1 : ((1 : U32).toNat : F) = 1 := by rw [show (1 : U32).toNat = 1 from rfl, Nat.cast_one]
  have e2 : ((2 : U32).toNat : F) = 2 := by rw [show (2 : U32).toNat = 2 from rfl, Nat.cast_ofNat]
  have hL1 : Spec.lagrange (F := F) [1, 2] 1 = 2 := by
    have : ([1, 2] : List U32).toFinset.erase 1 = {2} := by decide
    rw [Spec.lagrange, this, prod_singleton, e1, e2]; norm_num
  have hL2 : Spec.lagrange (F := F) [1, 2] 2 = -1 := by
    have : ([1, 2] : List U32).toFinset.erase 2 = {1} := by decide
    rw [Spec.lagrange, this, prod_singleton, e1, e2]; norm_num
  have hfs : ([1, 2] : List U32).toFinset = {1, 2} := by decide
  have hne : a ≠ 2 * a - b := fun h => hab (by linear_combination -h)
  refine ⟨_, _, _, h1, hfin, ?_, ?_⟩
  · rw [ne_eq, verifyKey_iff hS.u32]
    rw [generateFromCommitments_ok hS.u32 _ _ (by simp [comms]) (by simp [comms])]
    intro h
    simp only [Except.ok.injEq, IndividualSigningKey.toPublic, IndividualVerifyingKey.mk.injEq] at h
    have h := h.2
    simp only [comms, List.map_cons, List.map_nil, hL1, hL2, List.sum_cons, List.sum_nil, Spec.pointEval,
      List.length_cons, List.length_nil, zero_add, sum_range_one, pow_zero, one_smul, List.getD_cons_zero,
      add_zero, ← mul_smul, ← add_smul] at h
    exact hne (by have := hS.group.gen_inj _ _ h; linear_combination -this)
  · rw [hck, Spec.interpolateG, hfs, sum_pair (by decide), hL1, hL2]
    simp only [if_true, show ¬ ((2 : U32) = 1) from by decide, if_false, ← mul_smul, ← add_smul]
    intro h
    exact hne (by have := hS.group.gen_inj _ _ h; linear_combination this)

/-! ### C38 -/

/-- C38: `generate_from_commitments` does not depend on the order of the commitments (including which error). -/
theorem C38_generate_perm (hu : Suite.U32Inj F) (i : U32) (cs cs' : List (VssCommitment G)) (hp : cs.Perm cs') :
    (generateFromCommitments i cs : Out F G _) = generateFromCommitments i cs' := by
  unfold generateFromCommitments
  rw [fromCommitmentsLoop_eq hu, fromCommitmentsLoop_eq hu]
  have hpi : (cs.map (·.index)).Perm (cs'.map (·.index)) := hp.map _
  have h1 : cs = [] ↔ cs' = [] := ⟨fun h => by subst h; exact hp.nil_eq.symm, fun h => by subst h; exact hp.eq_nil⟩
  simp only [h1, hpi.nodup_iff, hpi.mem_iff]
  have hL : ∀ k, Spec.lagrange (F := F) (cs.map (·.index)) k = Spec.lagrange (cs'.map (·.index)) k :=
    fun k => spec_lagrange_congr (fun j => hpi.mem_iff) k
  simp only [hL]
  rw [(hp.map (fun c : VssCommitment G => Spec.lagrange (F := F) (cs'.map (·.index)) c.index •
    Spec.pointEval c.points (u32F F i))).sum_eq]

/-- C38: the complete table of `verify`: it fails where the generation fails, with the text of that error, and otherwise
compares the generated share. -/
theorem C38_verify_table (hu : Suite.U32Inj F) (k : IndividualVerifyingKey G) (cs : List (VssCommitment G)) :
    k.verify F cs = match (generateFromCommitments k.index cs : Out F G _) with
      | .error e => .error (.custom e.display)
      | .ok g => if k = g then .ok () else .error .shareVerificationError := by
  unfold IndividualVerifyingKey.verify generateFromCommitments
  rw [verifyKeyLoop_eq hu]
  cases h : (fromCommitmentsLoop (u32F F k.index) (cs.map (·.index)) cs 0 : Out F G G) with
  | error e => rfl
  | ok v =>
    obtain ⟨i, s⟩ := k
    simp only [IndividualVerifyingKey.mk.injEq, true_and]

/-- C38: nor does the answer of `verify` (including which error). -/
theorem C38_verify_perm (hu : Suite.U32Inj F) (k : IndividualVerifyingKey G) (cs cs' : List (VssCommitment G))
    (hp : cs.Perm cs') : k.verify F cs = k.verify F cs' := by
  rw [C38_verify_table hu, C38_verify_table hu, C38_generate_perm hu _ _ _ hp]

/-- C38: `verify` accepts exactly the generated key. -/
theorem C38_verify_iff_generated (hu : Suite.U32Inj F) (k : IndividualVerifyingKey G)
    (cs : List (VssCommitment G)) :
    k.verify F cs = .ok () ↔ (generateFromCommitments k.index cs : Out F G _) = .ok k :=
  verifyKey_iff hu k cs

/-- C38: the generated key is `∑ λ_l f_l(i)` in the exponent. -/
theorem C38_generated_value (hu : Suite.U32Inj F) (i : U32) (cs : List (VssCommitment G))
    (hn : (cs.map (·.index)).Nodup) (h0 : 0 ∉ cs.map (·.index)) :
    (generateFromCommitments i cs : Out F G _) =
      .ok ⟨i, (cs.map fun c => Spec.lagrange (F := F) (cs.map (·.index)) c.index •
        Spec.pointEval c.points (i.toNat : F)).sum⟩ :=
  generateFromCommitments_ok hu i cs hn h0

end IceFrost
