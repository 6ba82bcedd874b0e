import Verif.Toy
import Verif.Lemmas.RoundOne
import Verif.Lemmas.RoundTwo
import Verif.Props.RoundTwo

/-!
# C113: every random value is a fresh draw

Reusing a draw would be fatal (the nonce of a proof or complaint reused with another challenge reveals the secret) and
invisible to every check, since proofs made with reused nonces verify. `Spec.scalar S rng k` is the `k`-th scalar that a
random number generator started in state `rng` delivers, `Spec.bytes S rng k` the `k`-th block of nonce bytes.
-/

set_option linter.unusedSectionVars false
set_option linter.unusedSimpArgs false

namespace IceFrost

variable {F G R : Type} [Field F] [DecidableEq F] [AddCommGroup G] [Module F G] [DecidableEq G]

namespace Spec

/-- The state of the RNG after `k` draws of a scalar. -/
def afterScalars (S : Suite F G R) (rng : R) (k : Nat) : R := (fun r => (S.randScalar r).2)^[k] rng

/-- The scalar number `k` (from 0). -/
def scalar (S : Suite F G R) (rng : R) (k : Nat) : F := (S.randScalar (afterScalars S rng k)).1

/-- The block of AEAD nonce bytes number `k` (from 0). -/
def bytes (S : Suite F G R) (rng : R) (k : Nat) : Bytes :=
  (S.randBytes S.nonceSize ((fun r => (S.randBytes S.nonceSize r).2)^[k] rng)).1

/-- `pf` is the Schnorr proof of secret `x` made with nonce `k`. -/
def ProofWith (S : Suite F G R) (pf : Nizk F) (i : U32) (x k : F) : Prop :=
  pf.s = S.fieldHash (S.contextString ++ strBytes "nizkpok") (u32le i ++ S.encG (x • S.gen) ++ S.encG (k • S.gen)) ∧
    pf.r = k + x * pf.s

end Spec

theorem afterScalars_succ (S : Suite F G R) (rng : R) (k : Nat) :
    Spec.afterScalars S rng (k + 1) = (S.randScalar (Spec.afterScalars S rng k)).2 := by
  unfold Spec.afterScalars
  rw [Function.iterate_succ_apply']

theorem afterScalars_add (S : Suite F G R) (rng : R) (k j : Nat) :
    Spec.afterScalars S (Spec.afterScalars S rng k) j = Spec.afterScalars S rng (k + j) := by
  unfold Spec.afterScalars
  rw [← Function.iterate_add_apply, Nat.add_comm]

theorem scalar_add (S : Suite F G R) (rng : R) (k j : Nat) :
    Spec.scalar S (Spec.afterScalars S rng k) j = Spec.scalar S rng (k + j) := by
  unfold Spec.scalar
  rw [afterScalars_add]

theorem randScalars_fresh (S : Suite F G R) (k : Nat) (rng : R) :
    randScalars S k rng = ((List.range k).map (Spec.scalar S rng), Spec.afterScalars S rng k) := by
  induction k generalizing rng with
  | zero => rfl
  | succ k ih =>
    have e : randScalars S (k + 1) rng =
        ((S.randScalar rng).1 :: (randScalars S k (S.randScalar rng).2).1, (randScalars S k (S.randScalar rng).2).2) := rfl
    have h1 : (S.randScalar rng).2 = Spec.afterScalars S rng 1 := rfl
    rw [e, ih, h1, afterScalars_add, List.range_succ_eq_map, List.map_cons, List.map_map, Nat.add_comm 1 k]
    have hm : (List.range k).map (Spec.scalar S (Spec.afterScalars S rng 1)) =
        (List.range k).map (Spec.scalar S rng ∘ Nat.succ) :=
      List.map_congr_left fun j _ => by rw [scalar_add, Function.comp_apply, Nat.add_comm]
    rw [hm]
    rfl

theorem nizkProve_fresh (S : Suite F G R) (i : U32) (x : F) (rng : R) (k : Nat) :
    Spec.ProofWith S (nizkProve S i x (x • S.gen) (Spec.afterScalars S rng k)).1 i x (Spec.scalar S rng k) ∧
      (nizkProve S i x (x • S.gen) (Spec.afterScalars S rng k)).2 = Spec.afterScalars S rng (k + 1) :=
  ⟨⟨rfl, rfl⟩, (afterScalars_succ S rng k).symm⟩

/-- What `new_internal` draws for a dealer: the DH key is draw 0, the nonce of its proof draw 1; then, from draw
`2 + j` on, the coefficients other than a given secret key and the nonce of the proof of the secret key. -/
theorem newInternal_fresh (S : Suite F G R) (params : Params) (i : U32) (sk : Option F) (rng rng' : R)
    (p : Participant F G) (cs : List F) (dh : F)
    (h : newInternal S params false i sk rng = .ok ((p, some cs, dh), rng')) :
    let j := if sk = none then 1 else 0
    dh = Spec.scalar S rng 0 ∧ p.dhPublicKey = dh • S.gen ∧
      Spec.ProofWith S p.proofOfDhPrivateKey i dh (Spec.scalar S rng 1) ∧
      cs = sk.getD (Spec.scalar S rng 2) ::
        (List.range (params.t.toNat - 1)).map (fun k => Spec.scalar S rng (2 + j + k)) ∧
      (∃ pf, p.proofOfSecretKey = some pf ∧
        Spec.ProofWith S pf i (cs.headD 0) (Spec.scalar S rng (2 + j + (params.t.toNat - 1)))) ∧
      rng' = Spec.afterScalars S rng (2 + j + (params.t.toNat - 1) + 1) ∧
      p.commitments = some ⟨i, cs.map (· • S.gen)⟩ := by
  intro j
  by_cases ht : params.t = 0
  · exfalso
    rw [newInternal_dealer_eq] at h
    split at h
    · cases h
    · have : params.t.toNat = 0 := by rw [ht]; rfl
      simp only [this, commitLoop, VssCommitment.publicKey, List.head?_nil] at h
      cases h
  by_cases hi : i = 0
  · rw [newInternal_dealer_eq, if_pos hi] at h
    cases h
  obtain ⟨p', cs', dh', rng'', h', _, hlen, _, hcomm, hdh, _⟩ := newInternal_dealer S params ht i hi sk rng
  rw [h'] at h
  simp only [Except.ok.injEq, Prod.mk.injEq, Option.some.injEq] at h
  obtain ⟨⟨rfl, rfl, rfl⟩, rfl⟩ := h
  rw [newInternal_dealer_eq, if_neg hi] at h'
  simp only at h'
  have hr1 : (S.randScalar rng).2 = Spec.afterScalars S rng 1 := rfl
  have hs0 : (S.randScalar rng).1 = Spec.scalar S rng 0 := rfl
  rw [hr1, hs0] at h'
  obtain ⟨q1, q2⟩ := nizkProve_fresh S i (Spec.scalar S rng 0) rng 1
  rw [q2] at h'
  have hf : firstCoeff S sk (Spec.afterScalars S rng (1 + 1)) =
      (sk.getD (Spec.scalar S rng 2), Spec.afterScalars S rng (2 + j)) := by
    cases sk with
    | some s => rfl
    | none => exact Prod.ext rfl (afterScalars_succ S rng 2).symm
  rw [hf] at h'
  simp only [randScalars_fresh, afterScalars_add] at h'
  have hmap : (List.range (params.t.toNat - 1)).map (Spec.scalar S (Spec.afterScalars S rng (2 + j))) =
      (List.range (params.t.toNat - 1)).map fun k => Spec.scalar S rng (2 + j + k) :=
    List.map_congr_left fun k _ => scalar_add S rng _ _
  rw [hmap] at h'
  split at h'
  · cases h'
  · next points hp =>
    split at h'
    · cases h'
    · next pk hpk =>
      simp only [Except.ok.injEq, Prod.mk.injEq, Option.some.injEq] at h'
      obtain ⟨⟨rfl, rfl, rfl⟩, rfl⟩ := h'
      have hpk' : pk = sk.getD (Spec.scalar S rng 2) • S.gen := by
        simp only [Option.some.injEq, VssCommitment.mk.injEq, true_and] at hcomm
        rw [hcomm] at hpk
        simpa [VssCommitment.publicKey, commitPoints] using hpk.symm
      subst hpk'
      obtain ⟨q3, q4⟩ := nizkProve_fresh S i (sk.getD (Spec.scalar S rng 2)) rng (2 + j + (params.t.toNat - 1))
      exact ⟨rfl, hdh, q1, rfl, ⟨_, rfl, q3⟩, q4, hcomm⟩

/-- C113 for `new_dealer`: the DH key, the nonce of its proof, the `t` coefficients and the nonce of the proof of the
secret key are the draws number 0, 1, 2 to `t + 1`, and `t + 2`: no draw is used twice. -/
theorem C113_dealer (S : Suite F G R) (params : Params) (i : U32) (rng : R) (p : Participant F G) (cs : List F) (dh : F)
    (h : newDealer S params i rng = .ok (p, cs, dh)) :
    dh = Spec.scalar S rng 0 ∧
      Spec.ProofWith S p.proofOfDhPrivateKey i dh (Spec.scalar S rng 1) ∧
      cs = (List.range params.t.toNat).map (fun k => Spec.scalar S rng (2 + k)) ∧
      ∃ pf, p.proofOfSecretKey = some pf ∧
        Spec.ProofWith S pf i (cs.headD 0) (Spec.scalar S rng (2 + params.t.toNat)) := by
  have ht : params.t.toNat ≠ 0 := by
    intro ht
    unfold newDealer at h
    rw [newInternal_dealer_eq] at h
    by_cases hi : i = 0
    · rw [if_pos hi] at h; cases h
    · rw [if_neg hi] at h
      simp only [ht, commitLoop, VssCommitment.publicKey, List.head?_nil] at h
      cases h
  unfold newDealer at h
  split at h
  · cases h
  · next p' cs' dh' rng' hN =>
    simp only [Except.ok.injEq, Prod.mk.injEq] at h
    obtain ⟨rfl, rfl, rfl⟩ := h
    obtain ⟨h1, _, h3, h4, ⟨pf, h5, h6⟩, _⟩ := newInternal_fresh S params i none rng rng' _ _ _ hN
    obtain ⟨k, hk⟩ := Nat.exists_eq_succ_of_ne_zero ht
    refine ⟨h1, h3, ?_, pf, h5, ?_⟩
    · rw [h4, hk, List.range_succ_eq_map, List.map_cons, List.map_map]
      refine congrArg _ (List.map_congr_left fun j _ => ?_)
      simp only [if_pos, Function.comp_apply]
      congr 1
      omega
    · have : 2 + params.t.toNat = 2 + (if (none : Option F) = none then 1 else 0) + (params.t.toNat - 1) := by
        simp only [if_pos]; omega
      rw [this]
      exact h6
  · cases h

/-- C113 for `new_signer`: the DH key and the nonce of its proof are the draws 0 and 1. -/
theorem C113_signer (S : Suite F G R) (params : Params) (i : U32) (rng : R) (p : Participant F G) (dh : F)
    (h : newSigner S params i rng = .ok (p, dh)) :
    dh = Spec.scalar S rng 0 ∧ Spec.ProofWith S p.proofOfDhPrivateKey i dh (Spec.scalar S rng 1) := by
  unfold newSigner at h
  split at h
  · cases h
  · next p' o dh' rng' hN =>
    simp only [Except.ok.injEq, Prod.mk.injEq] at h
    obtain ⟨rfl, rfl⟩ := h
    unfold newInternal at hN
    split at hN
    · cases hN
    · simp only [if_true, Except.ok.injEq, Prod.mk.injEq] at hN
      obtain ⟨⟨rfl, _, rfl⟩, _⟩ := hN
      exact ⟨rfl, (nizkProve_fresh S i (Spec.scalar S rng 0) rng 1).1⟩

/-! ### The nonces of encrypted shares -/

theorem dealShares_fresh (S : Suite F G R) (x : F) (i : U32) (cs : List F) (ps : List (Participant F G))
    (m m' : BMap EncShare) (rng rng' : R) (h : dealShares S x i (some cs) ps m rng = .ok (m', rng')) :
    ∃ es : List EncShare, m' = (List.zip (ps.map (·.index)) es).foldl (fun m e => m.insert e.1 e.2) m ∧
      es.map (·.nonce) = (List.range ps.length).map (Spec.bytes S rng) := by
  induction ps generalizing m rng with
  | nil =>
    simp only [dealShares, Except.ok.injEq, Prod.mk.injEq] at h
    exact ⟨[], by simp [h.1], rfl⟩
  | cons p ps ih =>
    rw [dealShares] at h
    split at h
    · cases h
    · next enc rng1 he =>
      obtain ⟨es, h1, h2⟩ := ih _ _ h
      have hn : enc.nonce = Spec.bytes S rng 0 ∧ rng1 = (S.randBytes S.nonceSize rng).2 := by
        unfold encryptShare at he
        split at he
        · cases he
        · simp only at he
          split at he
          · cases he
          · simp only [Except.ok.injEq, Prod.mk.injEq] at he
            obtain ⟨rfl, rfl⟩ := he
            exact ⟨rfl, rfl⟩
      refine ⟨enc :: es, ?_, ?_⟩
      · rw [h1, List.map_cons, List.zip_cons_cons, List.foldl_cons]
      · rw [List.map_cons, h2, hn.1, List.length_cons, List.range_succ_eq_map, List.map_cons, List.map_map]
        congr 1
        refine List.map_congr_left fun k _ => ?_
        rw [hn.2]
        simp only [Function.comp_apply, Spec.bytes, Function.iterate_succ_apply]

/-- In a list with distinct indices the share for the `k`-th participant has the `k`-th block as nonce. -/
theorem zip_fresh (ps : List (Participant F G)) (hnd : (ps.map (·.index)).Nodup) (es : List EncShare) (f : Nat → Bytes)
    (hes : es.map (·.nonce) = (List.range ps.length).map f) (k : Nat) (hk : k < ps.length) :
    ∃ e, BMap.get? ps[k].index ((List.zip (ps.map (·.index)) es).foldl (fun m e => m.insert e.1 e.2) []) = some e ∧
      e.nonce = f k := by
  have hlen : es.length = ps.length := by
    have := congrArg List.length hes
    simpa using this
  have hk' : k < es.length := by omega
  refine ⟨es[k], ?_, ?_⟩
  · have hmem : (ps[k].index, es[k]) ∈ List.zip (ps.map (·.index)) es := by
      rw [List.mem_iff_getElem]
      exact ⟨k, by simp [hlen, hk], by simp⟩
    have hz : (List.zip (ps.map (·.index)) es).map Prod.fst = ps.map (·.index) := List.map_fst_zip (by simp [hlen])
    exact (BMap.get?_ofList (by rw [hz]; exact hnd) _ _).mpr hmem
  · have := congrArg (fun l => l[k]?) hes
    simp only [List.getElem?_map, List.getElem?_range hk, Option.map_some, List.getElem?_eq_getElem hk',
      Option.some.injEq] at this
    exact this

/-- A successful `new_state_internal` of a dealer keeps exactly the shares that the share loop made. -/
theorem newState_dealt (S : Suite F G R) (dbg : Bool) (params : Params) (x : F) (i : U32) (cs : List F)
    (ps : List (Participant F G)) (fs : Bool) (rng : R) (v : (RoundOne F G × ParticipantList F G) × R)
    (h : newStateInternal S dbg params x i (some cs) ps true fs rng = .ok v) :
    ∃ m rng', dealShares S x i (some cs) ps [] rng = .ok (m, rng') ∧
      v.1.1.state.theirEncryptedSecretShares = some m := by
  unfold newStateInternal at h
  simp only [Bool.not_true, Bool.false_and, Bool.false_eq_true, if_false] at h
  split at h
  · cases h
  · split at h
    · cases h
    · split at h
      · cases h
      · split at h
        · cases h
        · next m rng' hm =>
          split at h
          · cases h
          · split at h
            · cases h
            · simp only [Except.ok.injEq] at h
              subst h
              exact ⟨m, rng', hm, rfl⟩

/-- C113 for the shares dealt by `bootstrap`: with distinct indices, the share for the `k`-th participant is encrypted
under the `k`-th block of nonce bytes. -/
theorem C113_bootstrap_nonces (S : Suite F G R) (dbg : Bool) (params : Params) (x : F) (i : U32) (cs : List F)
    (ps : List (Participant F G)) (hnd : (ps.map (·.index)).Nodup) (rng : R) (d : RoundOne F G) (l : ParticipantList F G)
    (h : bootstrap S dbg params x i cs ps rng = .ok (d, l)) :
    ∃ m, d.theirEncryptedSecretShares = .ok m ∧ ∀ k (hk : k < ps.length),
      ∃ e, m.get? ps[k].index = some e ∧ e.nonce = Spec.bytes S rng k := by
  unfold bootstrap at h
  cases hn : newStateInternal S dbg params x i (some cs) ps true true rng with
  | error f => rw [hn] at h; cases h
  | ok v =>
    rw [hn] at h
    simp only [Except.map, Except.ok.injEq] at h
    obtain ⟨m, rng', hm, hd⟩ := newState_dealt S dbg params x i cs ps true rng v hn
    obtain ⟨es, rfl, h2⟩ := dealShares_fresh S x i cs ps [] m rng rng' hm
    refine ⟨_, ?_, fun k hk => zip_fresh ps hnd es _ h2 k hk⟩
    rw [← show v.1.1 = d from congrArg Prod.fst h]
    unfold RoundOne.theirEncryptedSecretShares
    rw [hd]

/-- C113 for `reshare`: the DH key, the nonce of its proof, the `t - 1` coefficients other than the key that is
reshared, the nonce of the proof of the key are the draws 0, 1, 2 to `t`, and `t + 1`; the nonces of the shares are the
blocks of bytes drawn after that. -/
theorem C113_reshare (S : Suite F G R) (dbg : Bool) (params : Params) (sk : IndividualSigningKey F)
    (ps : List (Participant F G)) (hnd : (ps.map (·.index)).Nodup) (rng : R) (p : Participant F G) (m : BMap EncShare)
    (l : ParticipantList F G) (h : reshare S dbg params sk ps rng = .ok (p, m, l)) :
    Spec.ProofWith S p.proofOfDhPrivateKey sk.index (Spec.scalar S rng 0) (Spec.scalar S rng 1) ∧
      p.dhPublicKey = Spec.scalar S rng 0 • S.gen ∧
      p.commitments = some ⟨sk.index, (sk.key ::
        (List.range (params.t.toNat - 1)).map (fun k => Spec.scalar S rng (2 + k))).map (· • S.gen)⟩ ∧
      (∃ pf, p.proofOfSecretKey = some pf ∧
        Spec.ProofWith S pf sk.index sk.key (Spec.scalar S rng (2 + (params.t.toNat - 1)))) ∧
      ∀ k (hk : k < ps.length), ∃ e, m.get? ps[k].index = some e ∧
        e.nonce = Spec.bytes S (Spec.afterScalars S rng (2 + (params.t.toNat - 1) + 1)) k := by
  unfold reshare at h
  split at h
  · cases h
  · cases h
  · next p' cs dh rng' hN =>
    obtain ⟨h1, h2, h3, h4, ⟨pf, h5, h6⟩, h7, h8⟩ := newInternal_fresh S params sk.index (some sk.key) rng rng' _ _ _ hN
    simp only [reduceCtorEq, if_false, Nat.add_zero, Option.getD_some] at h4 h6 h7
    split at h
    · cases h
    · next st lists rng'' hst =>
      obtain ⟨m', rng3, hm, hd⟩ := newState_dealt S dbg params dh sk.index cs ps false rng' _ hst
      unfold RoundOne.theirEncryptedSecretShares at h
      rw [hd] at h
      simp only [Except.ok.injEq, Prod.mk.injEq] at h
      obtain ⟨rfl, rfl, rfl⟩ := h
      obtain ⟨es, rfl, k2⟩ := dealShares_fresh S dh sk.index cs ps [] m' rng' rng3 hm
      rw [h1] at h3 h2
      refine ⟨h3, h2, by rw [h8, h4], ⟨pf, h5, ?_⟩, fun k hk => ?_⟩
      · rw [h4] at h6
        exact h6
      · rw [← h7]
        exact zip_fresh ps hnd es _ k2 k hk

/-! ### Complaints -/

/-- `c` is a complaint of the owner of DH key `x` made with nonce `r`. -/
def Spec.ComplaintWith (S : Suite F G R) (x : F) (c : Complaint F G) (r : F) : Prop :=
  ∃ pk h, c.proof = ⟨r • S.gen, r • pk, r + h * x⟩

theorem complaintLoop_fresh (S : Suite F G R) (pk : G) (x : F) (shared : G) (e : EncShare)
    (dec : Out F G (SecretShare F)) (comms : List (U32 × VssCommitment G)) (cs : List (Complaint F G)) (rng : R) :
    complaintLoop S pk x shared e dec comms cs rng = (cs, rng) ∨
      ∃ c, Spec.ComplaintWith S x c (S.randScalar rng).1 ∧
        complaintLoop S pk x shared e dec comms cs rng = (cs ++ [c], (S.randScalar rng).2) := by
  induction comms with
  | nil => exact .inl rfl
  | cons a comms ih =>
    obtain ⟨k, c⟩ := a
    unfold complaintLoop
    split
    · extract_lets bad
      cases hb : bad with
      | true =>
        refine .inr ⟨(Complaint.new S pk x shared e rng).1, ⟨pk, _, rfl⟩, ?_⟩
        rw [if_pos rfl]
        rfl
      | false =>
        rw [if_neg (by simp)]
        exact ih
    · exact ih

theorem roundTwoLoop_fresh (S : Suite F G R) (dbg : Bool) (st : DkgState F G) (rng : R) (es : List EncShare)
    (m m' : BMap (SecretShare F)) (cs cs' : List (Complaint F G))
    (hcs : ∀ k (hk : k < cs.length), Spec.ComplaintWith S st.dhPrivateKey cs[k] (Spec.scalar S rng k))
    (h : roundTwoLoop S dbg st es m cs (Spec.afterScalars S rng cs.length) = .ok (m', cs')) :
    ∀ k (hk : k < cs'.length), Spec.ComplaintWith S st.dhPrivateKey cs'[k] (Spec.scalar S rng k) := by
  induction es generalizing m cs with
  | nil =>
    simp only [roundTwoLoop, Except.ok.injEq, Prod.mk.injEq] at h
    obtain ⟨_, rfl⟩ := h
    exact hcs
  | cons e es ih =>
    unfold roundTwoLoop at h
    split at h
    · cases h
    · split at h
      · cases h
      · next pk hpk =>
        simp only at h
        split at h
        · cases h
        · next comms hcomms =>
          rcases complaintLoop_fresh S pk st.dhPrivateKey (st.dhPrivateKey • pk) e
              (decryptShare S e (S.encG (st.dhPrivateKey • pk))) comms cs (Spec.afterScalars S rng cs.length) with
            hl | ⟨c, hc, hl⟩
          · rw [hl] at h
            exact ih _ _ hcs h
          · rw [hl] at h
            simp only at h
            rw [← afterScalars_succ, show cs.length + 1 = (cs ++ [c]).length by simp] at h
            refine ih _ _ (fun k hk => ?_) h
            rw [List.getElem_append]
            split
            · next hk' => exact hcs k hk'
            · next hk' =>
              have : k = cs.length := by simp at hk; omega
              subst this
              simpa [Spec.scalar] using hc

theorem roundTwoLoop_not_complaint (S : Suite F G R) (dbg : Bool) (st : DkgState F G) (es : List EncShare)
    (m : BMap (SecretShare F)) (cs : List (Complaint F G)) (rng : R) (cs' : List (Complaint F G)) :
    roundTwoLoop S dbg st es m cs rng ≠ .error (.err (.complaint cs')) := by
  induction es generalizing m cs rng with
  | nil => simp [roundTwoLoop]
  | cons e es ih =>
    unfold roundTwoLoop
    split
    · simp
    · split
      · simp
      · simp only
        split
        · simp
        · exact ih _ _ _

/-- C113 for `to_round_two`: the `k`-th complaint is made with draw number `k`, whether the call succeeds or aborts
with its complaints. (Two complaints with one nonce would reveal the DH private key: C48.) -/
theorem C113_complaints (S : Suite F G R) (dbg : Bool) (d : RoundOne F G) (es : List EncShare) (rng : R)
    (cs : List (Complaint F G))
    (h : (∃ d', d.toRoundTwo S dbg es rng = .ok (d', cs)) ∨ d.toRoundTwo S dbg es rng = .error (.err (.complaint cs)))
    (k : Nat) (hk : k < cs.length) :
    Spec.ComplaintWith S d.state.dhPrivateKey cs[k] (Spec.scalar S rng k) := by
  unfold RoundOne.toRoundTwo at h
  simp only at h
  split at h
  · rcases h with ⟨d', h⟩ | h <;> cases h
  · split at h
    · next f hf =>
      rcases h with ⟨d', h⟩ | h
      · cases h
      · simp only [Except.error.injEq] at h
        subst h
        exact absurd hf (roundTwoLoop_not_complaint S dbg _ _ _ _ _ _)
    · next shares cs' hl =>
      have key := roundTwoLoop_fresh S dbg { d.state with theirEncryptedSecretShares := none } rng es [] shares [] cs'
        (by simp) hl
      suffices cs = cs' by subst this; exact key k hk
      split at h
      · next f hf =>
        rcases h with ⟨d', h⟩ | h <;> cases h
        exact absurd hf (u32Sub_not_err dbg _ _ _)
      · split at h
        · rcases h with ⟨d', h⟩ | h <;> cases h
          rfl
        · rcases h with ⟨d', h⟩ | h
          · simp only [Except.ok.injEq, Prod.mk.injEq] at h
            exact h.2.symm
          · cases h

/-! ### Independence -/

/-- With a tape of random scalars as generator (the RNG state is the rest of the tape) the draws are its entries. -/
theorem scalar_tape (S : Suite F G (Nat → F)) (hS : ∀ ρ, S.randScalar ρ = (ρ 0, fun n => ρ (n + 1))) (ρ : Nat → F)
    (k : Nat) : Spec.scalar S ρ k = ρ k := by
  have h : ∀ k ρ, Spec.afterScalars S ρ k = fun n => ρ (n + k) := by
    intro k
    induction k with
    | zero => intro ρ; rfl
    | succ k ih =>
      intro ρ
      rw [afterScalars_succ, ih, hS]
      funext n
      show ρ (n + 1 + k) = ρ (n + (k + 1))
      congr 1
      omega
  unfold Spec.scalar
  rw [h, hS]
  show ρ (0 + k) = ρ k
  rw [Nat.zero_add]

/-- C113: the secrets and nonces of a dealer are independent and uniform. A tape of `t + 3` random scalars determines
them, and every combination of a DH key `x`, coefficients `cs` and nonces `k₁`, `k₂` of the two proofs comes from
exactly one such tape. -/
theorem C113_independent (S : Suite F G (Nat → F)) (hS : ∀ ρ, S.randScalar ρ = (ρ 0, fun n => ρ (n + 1)))
    (params : Params) (ht : params.t ≠ 0) (i : U32) (hi : i ≠ 0) (x k₁ k₂ : F) (cs : List F)
    (hcs : cs.length = params.t.toNat) :
    ∃ ρ₀ : Nat → F, ∀ ρ : Nat → F,
      (∃ p pf, newDealer S params i ρ = .ok (p, cs, x) ∧ ρ 1 = k₁ ∧ ρ (params.t.toNat + 2) = k₂ ∧
        Spec.ProofWith S p.proofOfDhPrivateKey i x k₁ ∧ p.proofOfSecretKey = some pf ∧
        Spec.ProofWith S pf i (cs.headD 0) k₂) ↔ ∀ k < params.t.toNat + 3, ρ k = ρ₀ k := by
  refine ⟨fun n => (x :: k₁ :: (cs ++ [k₂])).getD n 0, fun ρ => ⟨?_, fun h => ?_⟩⟩
  · rintro ⟨p, pf, h, h1, h2, -⟩ k hk
    obtain ⟨e1, -, e3, -⟩ := C113_dealer S params i ρ p cs x h
    rw [scalar_tape S hS] at e1
    match k with
    | 0 => rw [e1]; rfl
    | 1 => rw [h1]; rfl
    | k + 2 =>
      by_cases hkt : k < params.t.toNat
      · have hk2 : k < cs.length := by omega
        have : cs[k] = ρ (2 + k) := by
          rw [List.getElem_of_eq e3]
          simp [scalar_tape S hS]
        simp only [List.getD_eq_getElem?_getD, List.getElem?_cons_succ, List.getElem?_append_left hk2,
          List.getElem?_eq_getElem hk2, Option.getD_some, this]
        rw [Nat.add_comm]
      · have : k = params.t.toNat := by omega
        subst this
        rw [h2]
        simp [List.getD_eq_getElem?_getD, ← hcs]
  · have htn : params.t.toNat ≠ 0 := fun h => ht (UInt32.toNat_inj.mp (by simpa using h))
    obtain ⟨p, cs', dh, rng', hN, _⟩ := newInternal_dealer S params ht i hi none ρ
    have hD : newDealer S params i ρ = .ok (p, cs', dh) := by unfold newDealer; rw [hN]
    obtain ⟨e1, e2, e3, pf, e4, e5⟩ := C113_dealer S params i ρ p cs' dh hD
    have hx : dh = x := by
      rw [e1, scalar_tape S hS, h 0 (by omega)]; rfl
    have hc : cs' = cs := by
      rw [e3]
      refine List.ext_getElem (by simp [hcs]) fun k hk1 hk2 => ?_
      have hk3 : k < params.t.toNat := by omega
      simp only [List.getElem_map, List.getElem_range, scalar_tape S hS]
      rw [Nat.add_comm, h (k + 2) (by omega)]
      simp only [List.getD_eq_getElem?_getD, List.getElem?_cons_succ, List.getElem?_append_left hk2,
        List.getElem?_eq_getElem hk2, Option.getD_some]
    subst hx
    subst hc
    have hk1 : ρ 1 = k₁ := by rw [h 1 (by omega)]; rfl
    have hk2 : ρ (params.t.toNat + 2) = k₂ := by
      rw [h _ (by omega)]
      simp [List.getD_eq_getElem?_getD, ← hcs]
    rw [scalar_tape S hS, hk1] at e2
    rw [scalar_tape S hS, Nat.add_comm, hk2] at e5
    exact ⟨p, pf, hD, hk1, hk2, e2, e4, e5⟩

section Examples
open Toy
attribute [local instance] Classical.propDecidable

/-- A dealer of the toy suite, whose RNG delivers 7, 11, 17, 25, ...: DH key 7, proof nonce 11, coefficients 17 and 25. -/
example : ∃ p dh, newDealer suite ⟨3, 2⟩ 1 0 = .ok (p, [17, 25], dh) ∧ dh = 7 ∧
    Spec.ProofWith suite p.proofOfDhPrivateKey 1 7 11 := by
  obtain ⟨p, cs, dh, rng', hN, _⟩ := newInternal_dealer suite ⟨3, 2⟩ (by decide) 1 (by decide) none 0
  have hD : newDealer suite ⟨3, 2⟩ 1 0 = .ok (p, cs, dh) := by unfold newDealer; rw [hN]
  obtain ⟨e1, e2, e3, _⟩ := C113_dealer suite ⟨3, 2⟩ 1 0 p cs dh hD
  have hs : ∀ k, (Spec.scalar suite 0 k : Fp) = (k * k + 3 * k + 7 : Nat) := by
    have : ∀ k, Spec.afterScalars suite 0 k = k := by
      intro k
      induction k with
      | zero => rfl
      | succ k ih => rw [afterScalars_succ, ih]; rfl
    intro k
    unfold Spec.scalar
    rw [this]
    rfl
  have h2 : (⟨3, 2⟩ : Params).t.toNat = 2 := rfl
  rw [h2] at e3
  simp only [List.range_succ, List.range_zero, List.nil_append, List.map_cons, List.map_nil, List.cons_append, hs] at e3
  norm_num at e3
  rw [hs] at e1 e2
  norm_num at e1 e2
  subst e1
  subst e3
  exact ⟨p, _, hD, rfl, e2⟩

/-- Two bad shares: two complaints, with different nonces. -/
example : ∃ c1 c2 : Complaint Fp Fp,
    toyR1.toRoundTwo suite true [⟨1, 3, [], []⟩, ⟨2, 3, [], []⟩] 0 = .error (.err (.complaint [c1, c2])) ∧
      Spec.ComplaintWith suite 5 c1 (Spec.scalar suite 0 0) ∧ Spec.ComplaintWith suite 5 c2 (Spec.scalar suite 0 1) := by
  have hbad : ∀ (l : U32) (P : Fp) (c : List Fp), ¬ Spec.GoodShare suite P c ⟨l, 3, [], []⟩ := by
    rintro l P c ⟨v, hv, _⟩
    obtain ⟨key, pt, rest, h1, h2, h3⟩ := hv
    simp only [suite, Option.some.injEq] at h1 h2
    subst h1
    have hne : enc P ≠ [] := fun h => by
      have := enc_length P
      rw [h] at this
      cases this
    simp [hne] at h2
  have hes : KnownShares true toyR1.state [⟨1, 3, [], []⟩, ⟨2, 3, [], []⟩] := by
    intro e he
    simp only [List.mem_cons, List.not_mem_nil, or_false] at he
    rcases he with rfl | rfl <;> exact ⟨fun _ => rfl, by simp [toyR1, BMap.keys]⟩
  obtain ⟨cs, h1, h2⟩ := toRoundTwo_known suite true toyR1 _ rfl (by simp [BMap.keys])
    [⟨1, 3, [], []⟩, ⟨2, 3, [], []⟩] le_rfl hes 0
  have hf : ([⟨1, 3, [], []⟩, ⟨2, 3, [], []⟩] : List EncShare).filter (fun e => decide <| BadFor suite toyR1.state.dhPrivateKey toyR1.state.theirDhPublicKeys
      [(1, ⟨1, [(10 : Fp) • suite.gen, (11 : Fp) • suite.gen]⟩), (2, ⟨2, [(20 : Fp) • suite.gen, (21 : Fp) • suite.gen]⟩)] e)
      = [⟨1, 3, [], []⟩, ⟨2, 3, [], []⟩] := by
    rw [List.filter_eq_self]
    intro e he
    simp only [List.mem_cons, List.not_mem_nil, or_false] at he
    rcases he with rfl | rfl
    · exact decide_eq_true ⟨_, _, by simp [toyR1, BMap.get?]; rfl, by simp [BMap.get?]; rfl, hbad _ _ _⟩
    · exact decide_eq_true ⟨_, _, by simp [toyR1, BMap.get?]; rfl, by simp [BMap.get?]; rfl, hbad _ _ _⟩
  rw [hf] at h1
  cases h1 with
  | cons _ h1 =>
    cases h1 with
    | cons _ h1 =>
      cases h1
      rename_i c1 _ c2 _
      have h3 : toyR1.toRoundTwo suite true [⟨1, 3, [], []⟩, ⟨2, 3, [], []⟩] 0 = .error (.err (.complaint [c1, c2])) := by
        rw [u32Sub_le true toyR1.state.parameters.n [c1, c2].length le_rfl] at h2
        exact h2.trans (if_pos ((ofNat_lt_iff _ _ _).mpr (Nat.zero_lt_succ _)))
      exact ⟨c1, c2, h3, C113_complaints suite true toyR1 _ 0 _ (.inr h3) 0 (by simp),
        C113_complaints suite true toyR1 _ 0 _ (.inr h3) 1 (by simp)⟩

end Examples

end IceFrost
