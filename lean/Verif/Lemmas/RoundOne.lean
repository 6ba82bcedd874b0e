import Verif.Lemmas.Shares
import Verif.Model.Participant

/-! # Participant creation and round one -/

set_option linter.unusedSectionVars false
set_option linter.unusedSimpArgs false

namespace IceFrost

open Classical in
attribute [local instance] Classical.propDecidable

variable {F G R : Type} [Field F] [DecidableEq F] [AddCommGroup G] [Module F G] [DecidableEq G]

theorem nizkVerify_ok_iff (S : Suite F G R) (p : Nizk F) (index : U32) (pk : G) :
    nizkVerify S p index pk = .ok () ↔ Spec.PokValid S index pk p := by
  have h : nizkVerify S p index pk = if p.s = S.fieldHash (S.contextString ++ strBytes "nizkpok")
      (u32le index ++ S.encG pk ++ S.encG (p.r • S.gen - p.s • pk)) then .ok ()
      else .error .invalidProofOfKnowledge := by
    unfold nizkVerify
    rw [msm_two, neg_smul, ← sub_eq_add_neg]
    rfl
  rw [h, Spec.PokValid]
  split
  · next he => exact ⟨fun _ => he, fun _ => rfl⟩
  · next he => exact ⟨fun hh => (nomatch hh), fun hh => absurd hh he⟩

theorem nizkVerify_error_iff (S : Suite F G R) (p : Nizk F) (index : U32) (pk : G) :
    (∃ e, nizkVerify S p index pk = .error e) ↔ ¬ Spec.PokValid S index pk p := by
  rw [← nizkVerify_ok_iff]
  cases h : nizkVerify S p index pk with
  | ok u => cases u; simp
  | error e => simp

theorem nizkProve_valid (S : Suite F G R) (index : U32) (sk : F) (rng : R) :
    Spec.PokValid S index (sk • S.gen) (nizkProve S index sk (sk • S.gen) rng).1 := by
  simp only [Spec.PokValid, nizkProve, Suite.h0, nizkMessage]
  congr 3
  module

/-! ### Creating participants -/

theorem randScalars_length (S : Suite F G R) (k : Nat) (rng : R) : (randScalars S k rng).1.length = k := by
  induction k generalizing rng with
  | zero => rfl
  | succ k ih => simp [randScalars, ih]

theorem commitLoop_ok (S : Suite F G R) (cs : List F) (j k : Nat) (h : j + k ≤ cs.length) :
    commitLoop S cs j k = .ok (commitPoints S ((cs.drop j).take k)) := by
  induction k generalizing j with
  | zero => simp [commitLoop, commitPoints]
  | succ k ih =>
    have hj : j < cs.length := by omega
    rw [commitLoop, List.getElem?_eq_getElem hj]
    simp only []
    rw [ih (j + 1) (by omega)]
    simp only [commitPoints]
    rw [List.drop_eq_getElem_cons hj, List.take_succ_cons, List.map_cons]

/-- The constant coefficient: given or drawn. -/
def firstCoeff (S : Suite F G R) (sk : Option F) (rng : R) : F × R :=
  match sk with
  | some s => (s, rng)
  | none => S.randScalar rng

theorem newInternal_dealer_eq (S : Suite F G R) (params : Params) (i : U32) (sk : Option F) (rng : R) :
    newInternal S params false i sk rng =
      if i = 0 then .error (.err .indexIsZero) else
      let dh := S.randScalar rng
      let pd := nizkProve S i dh.1 (dh.1 • S.gen) dh.2
      let a0 := firstCoeff S sk pd.2
      let as := randScalars S (params.t.toNat - 1) a0.2
      match commitLoop S (a0.1 :: as.1) 0 params.t.toNat with
      | .error f => .error f
      | .ok points =>
        match (VssCommitment.mk i points).publicKey with
        | none => .error (.panic .expectNone)
        | some pk =>
          let pf := nizkProve S i a0.1 pk as.2
          .ok ((⟨i, dh.1 • S.gen, some ⟨i, points⟩, some pf.1, pd.1⟩, some (a0.1 :: as.1), dh.1), pf.2) := by
  cases sk <;> rfl

/-- The full effect of creating a dealer. -/
theorem newInternal_dealer (S : Suite F G R) (params : Params) (ht : params.t ≠ 0) (i : U32) (hi : i ≠ 0)
    (sk : Option F) (rng : R) :
    ∃ (p : Participant F G) (cs : List F) (dh : F) (rng' : R),
      newInternal S params false i sk rng = .ok ((p, some cs, dh), rng') ∧
      p.index = i ∧ cs.length = params.t.toNat ∧ (∀ s, sk = some s → cs.head? = some s) ∧
      p.commitments = some ⟨i, commitPoints S cs⟩ ∧ p.dhPublicKey = dh • S.gen ∧
      Spec.DealerValid S p := by
  have ht' : params.t.toNat ≠ 0 := fun h => ht (UInt32.toNat_inj.mp (by simpa using h))
  obtain ⟨k, hk⟩ := Nat.exists_eq_succ_of_ne_zero ht'
  rw [newInternal_dealer_eq, if_neg hi]
  set dh := (S.randScalar rng).1 with hdh
  set r1 := (S.randScalar rng).2
  set pd := nizkProve S i dh (dh • S.gen) r1 with hpd
  set a0r : F × R := firstCoeff S sk pd.2 with ha0
  set as := randScalars S (params.t.toNat - 1) a0r.2 with has
  have hlen : (a0r.1 :: as.1).length = params.t.toNat := by
    rw [List.length_cons, has, randScalars_length]; omega
  have hcl : commitLoop S (a0r.1 :: as.1) 0 params.t.toNat = .ok (commitPoints S (a0r.1 :: as.1)) := by
    rw [commitLoop_ok S _ _ _ (by rw [hlen]; omega), List.drop_zero, ← hlen, List.take_length]
  have hpf := nizkProve_valid S i a0r.1 as.2
  set pf := nizkProve S i a0r.1 (a0r.1 • S.gen) as.2 with hpfd
  refine ⟨⟨i, dh • S.gen, some ⟨i, commitPoints S (a0r.1 :: as.1)⟩, some pf.1, pd.1⟩, a0r.1 :: as.1, dh, pf.2, ?_,
    rfl, hlen, ?_, rfl, rfl, ?_, ?_⟩
  · show (match commitLoop S (a0r.1 :: as.1) 0 params.t.toNat with
      | .error f => _
      | .ok points => _) = _
    rw [hcl]
    rfl
  · rintro s rfl; rfl
  · exact nizkProve_valid S i dh r1
  · exact ⟨_, a0r.1 • S.gen, pf.1, rfl, rfl, rfl, hpf⟩

theorem newInternal_signer (S : Suite F G R) (params : Params) (i : U32) (hi : i ≠ 0)
    (sk : Option F) (rng : R) :
    ∃ (p : Participant F G) (dh : F) (rng' : R),
      newInternal S params true i sk rng = .ok ((p, none, dh), rng') ∧ p.index = i ∧ p.commitments = none ∧
      p.proofOfSecretKey = none ∧ p.dhPublicKey = dh • S.gen ∧ Spec.DhValid S p := by
  unfold newInternal
  simp only [if_neg hi]
  exact ⟨⟨i, (S.randScalar rng).1 • S.gen, none, none, _⟩, (S.randScalar rng).1, _, rfl, rfl, rfl, rfl, rfl,
    nizkProve_valid S i _ _⟩

/-! ### The participant loop -/

/-- Acceptance of a broadcast in the three modes of `new_state_internal`. -/
def Accepts (S : Suite F G R) (params : Params) (fd fs : Bool) (p : Participant F G) : Prop :=
  if fs then Spec.DealerValid S p ∧ (fd = true → Spec.DegreeOk params.t p) else Spec.DhValid S p

/-- The accumulator after an accepted broadcast. -/
def RoundOneAcc.accept (fs : Bool) (acc : RoundOneAcc F G) (p : Participant F G) : RoundOneAcc F G :=
  { acc with
    valid := acc.valid ++ [p]
    commitments := match fs, p.commitments with
      | true, some c => acc.commitments.insert p.index c
      | _, _ => acc.commitments
    dhPublicKeys := acc.dhPublicKeys.insert p.index p.dhPublicKey }

theorem checkDegree_toBool (c : VssCommitment G) (params : Params) :
    (c.checkDegree (F := F) params).toBool = decide (c.points.length = params.t.toNat) := by
  unfold VssCommitment.checkDegree
  split <;> simp_all [Except.toBool]

theorem checkParticipant_eq (S : Suite F G R) (dbg : Bool) (params : Params) (fd fs : Bool)
    (hmode : fs = true ∨ fd = true) (acc : RoundOneAcc F G) (p : Participant F G) :
    checkParticipant S dbg params fd fs acc p =
      if fs = true ∧ Spec.LacksProof S p then .error (.panic .expectNone)
      else if Accepts S params fd fs p then .ok (acc.accept fs p)
      else .ok (acc.blame p) := by
  unfold checkParticipant
  have hdh := nizkVerify_ok_iff S p.proofOfDhPrivateKey p.index p.dhPublicKey
  cases hv : nizkVerify S p.proofOfDhPrivateKey p.index p.dhPublicKey with
  | error e =>
    have hn : ¬ Spec.DhValid S p := by
      intro h
      rw [hv] at hdh
      exact absurd (hdh.mpr h) (by simp)
    have h1 : ¬ (fs = true ∧ Spec.LacksProof S p) := fun h => hn h.2.1
    have h2 : ¬ Accepts S params fd fs p := by
      unfold Accepts
      split
      · exact fun h => hn h.1.1
      · exact hn
    simp [h1, h2]
  | ok u =>
    have hd : Spec.DhValid S p := hdh.mp (by rw [hv])
    cases fs with
    | false =>
      have hfd : fd = true := by simpa using hmode
      subst hfd
      have h2 : Accepts S params true false p := hd
      simp [h2, RoundOneAcc.accept]
    | true =>
      simp only [if_true, true_and]
      unfold Participant.publicKey
      cases hc : p.commitments with
      | none =>
        have h1 : ¬ Spec.LacksProof S p := by
          rintro ⟨_, _, c, pk, h, _⟩; rw [hc] at h; cases h
        have h2 : ¬ Accepts S params fd true p := by
          rintro ⟨⟨_, c, pk, pf, h, _⟩, _⟩; rw [hc] at h; cases h
        simp [h1, h2]
      | some c =>
        simp only [Option.bind_some, VssCommitment.publicKey]
        cases hh : c.points.head? with
        | none =>
          have h1 : ¬ Spec.LacksProof S p := by
            rintro ⟨_, _, c', pk, h, h'⟩; rw [hc] at h; cases h; rw [hh] at h'; cases h'
          have h2 : ¬ Accepts S params fd true p := by
            rintro ⟨⟨_, c', pk, pf, h, h', _⟩, _⟩; rw [hc] at h; cases h; rw [hh] at h'; cases h'
          simp [h1, h2]
        | some pk =>
          cases hp : p.proofOfSecretKey with
          | none =>
            have h1 : Spec.LacksProof S p := ⟨hd, hp, c, pk, hc, hh⟩
            simp [h1]
          | some pf =>
            have h1 : ¬ Spec.LacksProof S p := by
              rintro ⟨_, h, _⟩; rw [hp] at h; cases h
            have hpk := nizkVerify_ok_iff S pf p.index pk
            cases hvp : nizkVerify S pf p.index pk with
            | error e =>
              have h2 : ¬ Accepts S params fd true p := by
                rintro ⟨⟨_, c', pk', pf', h, h', h'', h'''⟩, _⟩
                rw [hc] at h; cases h; rw [hh] at h'; cases h'; rw [hp] at h''; cases h''
                rw [hvp] at hpk
                exact absurd (hpk.mpr h''') (by simp)
              simp [h1, h2, hvp]
            | ok u =>
              have hok : Spec.DealerValid S p := ⟨hd, c, pk, pf, hc, hh, hp, hpk.mp (by rw [hvp])⟩
              have hdeg : Spec.DegreeOk params.t p ↔ c.points.length = params.t.toNat := by
                unfold Spec.DegreeOk
                rw [hc]
                simp
              have h2 : Accepts S params fd true p ↔ (fd = true → c.points.length = params.t.toNat) := by
                unfold Accepts
                rw [if_pos rfl, hdeg]
                exact ⟨fun h => h.2, fun h => ⟨hok, h⟩⟩
              simp only [hvp, checkDegree_toBool, h1, if_false, h2, RoundOneAcc.accept, hc]
              cases fd with
              | false => simp
              | true => by_cases hl : c.points.length = params.t.toNat <;> simp [hl]

/-- The entries inserted in the commitment map. -/
def commEntries (ps : List (Participant F G)) : List (U32 × VssCommitment G) :=
  ps.filterMap fun p => p.commitments.map fun c => (p.index, c)

/-- The entries inserted in the DH key map. -/
def dhEntries (ps : List (Participant F G)) : List (U32 × G) := ps.map fun p => (p.index, p.dhPublicKey)

theorem commEntries_append (l l' : List (Participant F G)) :
    commEntries (l ++ l') = commEntries l ++ commEntries l' := by simp [commEntries]

theorem dhEntries_append (l l' : List (Participant F G)) : dhEntries (l ++ l') = dhEntries l ++ dhEntries l' := by
  simp [dhEntries]

/-- The accumulator after a list of broadcasts none of which makes the loop panic. -/
theorem foldlM_check (S : Suite F G R) (dbg : Bool) (params : Params) (fd fs : Bool)
    (hmode : fs = true ∨ fd = true) (ps : List (Participant F G))
    (hno : fs = true → ∀ p ∈ ps, ¬ Spec.LacksProof S p) :
    ps.foldlM (checkParticipant S dbg params fd fs) ⟨[], [], [], []⟩ =
      .ok ⟨if fs then BMap.ofList (commEntries (ps.filter (Accepts S params fd fs))) else [],
        BMap.ofList (dhEntries (ps.filter (Accepts S params fd fs))),
        ps.filter (Accepts S params fd fs),
        (ps.filter (fun p => ¬ Accepts S params fd fs p)).map (·.index)⟩ := by
  induction ps using List.reverseRecOn with
  | nil => cases fs <;> rfl
  | append_singleton l p ih =>
    rw [List.foldlM_append, ih (fun hf q hq => hno hf q (List.mem_append_left _ hq))]
    simp only [List.foldlM_cons, List.foldlM_nil, bind, Except.bind]
    rw [checkParticipant_eq S dbg params fd fs hmode]
    have h1 : ¬ (fs = true ∧ Spec.LacksProof S p) := fun h => hno h.1 p (by simp) h.2
    rw [if_neg h1]
    by_cases h2 : Accepts S params fd fs p
    · rw [if_pos h2]
      simp only [List.filter_append, List.filter_cons, List.filter_nil, h2, decide_true, not_true_eq_false,
        decide_false, if_true, Bool.false_eq_true, if_false, List.append_nil]
      show Except.ok _ = _
      congr 1
      simp only [RoundOneAcc.accept, dhEntries_append, commEntries_append]
      cases fs with
      | false => simp [dhEntries, BMap.ofList_append_one]
      | true =>
        cases hc : p.commitments with
        | none => simp [dhEntries, BMap.ofList_append_one, commEntries, hc]
        | some c => simp [dhEntries, BMap.ofList_append_one, commEntries, hc]
    · rw [if_neg h2]
      simp only [List.filter_append, List.filter_cons, List.filter_nil, h2, decide_false, not_false_eq_true,
        decide_true, if_true, Bool.false_eq_true, if_false, List.append_nil, List.map_append, List.map_cons,
        List.map_nil]
      rfl

/-- Otherwise the loop panics. -/
theorem foldlM_check_panic (S : Suite F G R) (dbg : Bool) (params : Params) (fd : Bool)
    (ps : List (Participant F G)) (hex : ∃ p ∈ ps, Spec.LacksProof S p) (acc : RoundOneAcc F G) :
    ps.foldlM (checkParticipant S dbg params fd true) acc = .error (.panic .expectNone) := by
  induction ps generalizing acc with
  | nil => simp at hex
  | cons p ps ih =>
    rw [List.foldlM_cons, checkParticipant_eq S dbg params fd true (.inl rfl)]
    by_cases h1 : Spec.LacksProof S p
    · rw [if_pos ⟨rfl, h1⟩]; rfl
    · rw [if_neg (by simp [h1])]
      have hex' : ∃ p ∈ ps, Spec.LacksProof S p := by
        obtain ⟨q, hq, hl⟩ := hex
        rcases List.mem_cons.mp hq with rfl | hq
        · exact absurd hl h1
        · exact ⟨q, hq, hl⟩
      split <;> exact ih hex' _

/-! ### Dealing shares -/

/-- What a dealer with index `i`, coefficients `cs` and DH key `x` sends to a participant. -/
def DealtTo (S : Suite F G R) (x : F) (i : U32) (cs : List F) (p : Participant F G) (e : EncShare) : Prop :=
  e.senderIndex = i ∧ e.receiverIndex = p.index ∧ e.nonce.length = S.nonceSize ∧
    decryptShare S e (S.encG (x • p.dhPublicKey)) = .ok ⟨i, p.index, Spec.polyEval cs (u32F F p.index)⟩

theorem dealShares_ok {S : Suite F G R} (hc : S.CipherLaws) (hd : S.CodecLaws) (x : F) (i : U32) (cs : List F)
    (ps : List (Participant F G)) (m : BMap EncShare) (rng : R) :
    ∃ (es : List EncShare) (rng' : R), es.length = ps.length ∧ List.Forall₂ (DealtTo S x i cs) ps es ∧
      dealShares S x i (some cs) ps m rng =
        .ok ((List.zip (ps.map (·.index)) es).foldl (fun m e => m.insert e.1 e.2) m, rng') := by
  induction ps generalizing m rng with
  | nil => exact ⟨[], rng, rfl, .nil, rfl⟩
  | cons p ps ih =>
    obtain ⟨e, rng1, h1, h2, h3, h4, h5⟩ := encryptShare_ok hc hd (evaluatePolynomial i p.index cs)
      (S.encG (x • p.dhPublicKey)) rng
    obtain ⟨es, rng', k1, k2, k3⟩ := ih (m.insert p.index e) rng1
    refine ⟨e :: es, rng', by simp [k1], .cons ?_ k2, ?_⟩
    · rw [evaluatePolynomial_eq] at h2 h3 h5
      exact ⟨h2, h3, h4, h5⟩
    · rw [dealShares]
      simp only [h1, k3, List.map_cons, List.zip_cons_cons, List.foldl_cons]

/-- The share map after dealing. -/
theorem dealShares_map {S : Suite F G R} (hc : S.CipherLaws) (hd : S.CodecLaws) (x : F) (i : U32) (cs : List F)
    (ps : List (Participant F G)) (rng : R) :
    ∃ (m : BMap EncShare) (rng' : R), dealShares S x i (some cs) ps [] rng = .ok (m, rng') ∧ m.WF ∧
      (∀ j, j ∈ m.keys ↔ ∃ p ∈ ps, p.index = j) ∧
      (∀ j e, m.get? j = some e → ∃ p ∈ ps, p.index = j ∧ DealtTo S x i cs p e) := by
  obtain ⟨es, rng', h1, h2, h3⟩ := dealShares_ok hc hd x i cs ps [] rng
  refine ⟨_, rng', h3, BMap.wf_ofList _, fun j => ?_, fun j e he => ?_⟩
  · rw [← BMap.ofList, BMap.mem_keys_ofList, List.map_fst_zip (by simp [h1])]
    simp
  · have := BMap.mem_of_get?_ofList he
    clear h3 he
    induction h2 with
    | nil => simp at this
    | cons hpe _ ih =>
      rw [List.map_cons, List.zip_cons_cons, List.mem_cons] at this
      rcases this with heq | hmem
      · cases heq; exact ⟨_, List.mem_cons_self, rfl, hpe⟩
      · obtain ⟨p, hp, h⟩ := ih (by simpa using h1) hmem
        exact ⟨p, List.mem_cons_of_mem _ hp, h⟩

/-! ### `new_state_internal` -/

theorem newParams_ok (dbg : Bool) {n t : U32} (ht : t ≠ 0) (h : t.toNat ≤ n.toNat) :
    (Params.new dbg n t : Res F G Params) = .ok ⟨n, t⟩ := by
  have hn : n ≠ 0 := by
    rintro rfl
    apply ht
    apply UInt32.toNat_inj.mp
    simpa using h
  have hle : t ≤ n := UInt32.le_iff_toNat_le.mpr h
  have hlt : ¬ n < t := by rw [UInt32.lt_iff_toNat_lt]; omega
  unfold Params.new
  simp [hn, ht, hle, hlt]

theorem u32Sub_ok (dbg : Bool) (n : U32) (a b : Nat) (h : n.toNat = a + b) :
    (u32Sub dbg n (UInt32.ofNat b) : Res F G U32) = .ok (UInt32.ofNat a) := by
  have hn := n.toNat_lt
  have hb : (UInt32.ofNat b).toNat = b := UInt32.toNat_ofNat_of_lt (by simp [UInt32.size]; omega)
  have ha : (UInt32.ofNat a).toNat = a := UInt32.toNat_ofNat_of_lt (by simp [UInt32.size]; omega)
  have hnl : ¬ n < UInt32.ofNat b := by rw [UInt32.lt_iff_toNat_lt, hb]; omega
  unfold u32Sub
  simp only [hnl, decide_false, Bool.and_false, Bool.false_eq_true, if_false]
  congr 1
  apply UInt32.toNat_inj.mp
  rw [UInt32.toNat_sub_of_le _ _ (UInt32.le_iff_toNat_le.mpr (by rw [hb]; omega)), hb, ha]
  omega

theorem filter_lengths (ps : List (Participant F G)) (q : Participant F G → Prop) :
    ps.length = (ps.filter q).length + ((ps.filter (fun p => ¬ q p)).map (·.index)).length := by
  rw [List.length_map]
  induction ps with
  | nil => rfl
  | cons p ps ih => by_cases h : q p <;> simp [List.filter_cons, h] <;> simp at ih <;> omega

variable (S : Suite F G R) (dbg : Bool) (params : Params) (x : F) (i : U32)

/-- The state after a successful round one. -/
def roundOneState (params : Params) (x : F) (i : U32) (fs : Bool) (valid : List (Participant F G))
    (shares : Option (BMap EncShare)) : DkgState F G :=
  { parameters := ⟨UInt32.ofNat valid.length, params.t⟩, index := i, dhPrivateKey := x, dhPublicKey := x • S.gen,
    theirCommitments := if fs then some (BMap.ofList (commEntries valid)) else none,
    theirDhPublicKeys := BMap.ofList (dhEntries valid), theirEncryptedSecretShares := shares,
    mySecretShares := none }

/-- `bootstrap` and `reshare` (dealing modes) on sound parameters, when nothing panics. -/
theorem newState_deal {S : Suite F G R} (hc : S.CipherLaws) (hd : S.CodecLaws) (cs : List F) (fs : Bool)
    (ps : List (Participant F G)) (rng : R)
    (ht : params.t ≠ 0) (hlen : ps.length = params.n.toNat)
    (hno : fs = true → ∀ p ∈ ps, ¬ Spec.LacksProof S p) :
    let valid := ps.filter (Accepts S params true fs)
    let bad := (ps.filter (fun p => ¬ Accepts S params true fs p)).map (·.index)
    (valid.length < params.t.toNat →
      newStateInternal S dbg params x i (some cs) ps true fs rng =
        .error (.err (.tooManyInvalidParticipants bad))) ∧
    (params.t.toNat ≤ valid.length → ∃ (m : BMap EncShare) (rng' : R),
      newStateInternal S dbg params x i (some cs) ps true fs rng =
        .ok ((⟨roundOneState S params x i fs valid (some m)⟩, participantList valid bad), rng') ∧ m.WF ∧
      (∀ j, j ∈ m.keys ↔ ∃ p ∈ ps, p.index = j) ∧
      (∀ j e, m.get? j = some e → ∃ p ∈ ps, p.index = j ∧ DealtTo S x i cs p e)) := by
  intro valid bad
  have hf := foldlM_check S dbg params true fs (.inr rfl) ps hno
  have hl := filter_lengths ps (Accepts S params true fs)
  obtain ⟨m, rng', h1, h2, h3, h4⟩ := dealShares_ok hc hd x i cs ps [] rng |>.elim fun es h =>
    dealShares_map hc hd x i cs ps rng
  constructor
  · intro hv
    unfold newStateInternal
    simp only [hlen, ne_eq, not_true_eq_false, if_false, hf]
    rw [if_pos hv]
  · intro hv
    refine ⟨m, rng', ?_, h2, h3, h4⟩
    have hvn : (UInt32.ofNat valid.length).toNat = valid.length := by
      apply UInt32.toNat_ofNat_of_lt
      have := params.n.toNat_lt
      have : valid.length ≤ ps.length := List.length_filter_le _ _
      simp [UInt32.size]; omega
    unfold newStateInternal
    simp only [hlen, ne_eq, not_true_eq_false, if_false, hf]
    rw [if_neg (show ¬ valid.length < _ from not_lt.mpr hv)]
    simp only [Bool.not_true, Bool.false_and, Bool.false_eq_true, if_false, h1]
    rw [u32Sub_ok dbg params.n valid.length bad.length (by rw [← hlen]; exact hl)]
    simp only []
    rw [newParams_ok dbg ht (by rw [hvn]; exact hv)]
    cases fs <;> rfl

/-- `new` (receiving mode) on sound parameters, when nothing panics. -/
theorem newState_receive {S : Suite F G R} (cs : Option (List F))
    (ps : List (Participant F G)) (rng : R)
    (ht : params.t ≠ 0) (hlen : ps.length = params.n.toNat)
    (hno : ∀ p ∈ ps, ¬ Spec.LacksProof S p) :
    let valid := ps.filter (Accepts S params false true)
    let bad := (ps.filter (fun p => ¬ Accepts S params false true p)).map (·.index)
    (valid.length < params.t.toNat →
      newStateInternal S dbg params x i cs ps false true rng =
        .error (.err (.tooManyInvalidParticipants bad))) ∧
    (params.t.toNat ≤ valid.length →
      newStateInternal S dbg params x i cs ps false true rng =
        .ok ((⟨roundOneState S params x i true valid none⟩, participantList valid bad), rng)) := by
  intro valid bad
  have hf := foldlM_check S dbg params false true (.inl rfl) ps (fun _ => hno)
  have hl := filter_lengths ps (Accepts S params false true)
  constructor
  · intro hv
    unfold newStateInternal
    simp only [hlen, ne_eq, not_true_eq_false, if_false, hf]
    rw [if_pos hv]
  · intro hv
    have hvn : (UInt32.ofNat valid.length).toNat = valid.length := by
      apply UInt32.toNat_ofNat_of_lt
      have := params.n.toNat_lt
      have : valid.length ≤ ps.length := List.length_filter_le _ _
      simp [UInt32.size]; omega
    unfold newStateInternal
    simp only [hlen, ne_eq, not_true_eq_false, if_false, hf]
    rw [if_neg (show ¬ valid.length < _ from not_lt.mpr hv)]
    simp only [Bool.not_false, Bool.and_self, if_true]
    rw [u32Sub_ok dbg params.n valid.length bad.length (by rw [← hlen]; exact hl)]
    simp only []
    rw [newParams_ok dbg ht (by rw [hvn]; exact hv)]
    rfl

theorem newState_length (cs : Option (List F)) (ps : List (Participant F G)) (fd fs : Bool) (rng : R)
    (h : ps.length ≠ params.n.toNat) :
    newStateInternal S dbg params x i cs ps fd fs rng =
      .error (.err (.invalidNumberOfParticipants ps.length params.n)) := by
  unfold newStateInternal
  simp only [h, ne_eq, not_false_eq_true, if_true]

theorem newState_panic (cs : Option (List F)) (ps : List (Participant F G)) (fd : Bool) (rng : R)
    (hlen : ps.length = params.n.toNat) (hex : ∃ p ∈ ps, Spec.LacksProof S p) :
    newStateInternal S dbg params x i cs ps fd true rng = .error (.panic .expectNone) := by
  unfold newStateInternal
  simp only [hlen, ne_eq, not_true_eq_false, if_false]
  rw [foldlM_check_panic S dbg params fd ps hex]

end IceFrost
