import Verif.Props.RoundOne
import Verif.Lemmas.RoundTwo

/-! # C27–C31: round two -/

set_option linter.unusedSectionVars false
set_option linter.unusedSimpArgs false

namespace IceFrost

attribute [local instance] Classical.propDecidable

variable {F G R : Type} [Field F] [DecidableEq F] [AddCommGroup G] [Module F G] [DecidableEq G]

/-- An encrypted share that dealer `l` with DH secret `xl` and polynomial `cs` deals to the owner of the DH public
key `pk`, under some randomness. -/
def HonestlyDealt (S : Suite F G R) (l i : U32) (xl : F) (cs : List F) (pk : G) (e : EncShare) : Prop :=
  ∃ rng rng', encryptShare S (evaluatePolynomial l i cs) (S.encG (xl • pk)) rng = .ok (e, rng')

theorem honestlyDealt_opens {S : Suite F G R} (hc : S.CipherLaws) (hd : S.CodecLaws) {l i : U32} {xl : F}
    {cs : List F} {pk : G} {e : EncShare} (h : HonestlyDealt S l i xl cs pk e) :
    e.senderIndex = l ∧ e.receiverIndex = i ∧
      Spec.Opens S e (xl • pk) (Spec.polyEval cs (u32F F i)) := by
  obtain ⟨rng, rng', h⟩ := h
  obtain ⟨e', rng'', h1, h2, h3, _, h5⟩ := encryptShare_ok hc hd (evaluatePolynomial l i cs) (S.encG (xl • pk)) rng
  rw [h1] at h
  cases h
  rw [evaluatePolynomial_eq] at h2 h3 h5
  obtain ⟨v, hv, hv'⟩ := (decryptShare_ok_iff S e _ _).mp h5
  cases hv'
  exact ⟨h2, h3, hv⟩

/-- Good shares raise no complaint, and are stored. -/
theorem roundTwo_good {S : Suite F G R} (dbg : Bool)
    (d : RoundOne F G) (comms : BMap (VssCommitment G)) (hcomms : d.state.theirCommitments = some comms)
    (hn : comms.keys.Nodup) (es : List EncShare) (hlen : d.state.parameters.t.toNat ≤ es.length)
    (htn : d.state.parameters.t.toNat ≤ d.state.parameters.n.toNat)
    (hsend : (es.map (·.senderIndex)).Nodup) (pks : U32 → G) (polys : U32 → List F)
    (hhon : ∀ e ∈ es, d.state.theirDhPublicKeys.get? e.senderIndex = some (pks e.senderIndex) ∧
      (∃ c, comms.get? e.senderIndex = some c ∧ c.points = (polys e.senderIndex).map (· • S.gen)) ∧
      e.receiverIndex = d.state.index ∧
      Spec.Opens S e (d.state.dhPrivateKey • pks e.senderIndex)
        (Spec.polyEval (polys e.senderIndex) (u32F F d.state.index))) (rng : R) :
    d.toRoundTwo S dbg es rng = .ok (⟨roundTwoState S d.state es⟩, []) ∧
      ∃ m, (roundTwoState S d.state es).mySecretShares = some m ∧ m.WF ∧
      (∀ l, l ∈ m.keys ↔ l ∈ es.map (·.senderIndex)) ∧
      ∀ e ∈ es, m.get? e.senderIndex =
        some ⟨e.senderIndex, d.state.index, Spec.polyEval (polys e.senderIndex) (d.state.index.toNat : F)⟩ := by
  have hk : KnownShares dbg d.state es := fun e he => by
    obtain ⟨h1, h2, h3, h4⟩ := hhon e he
    exact ⟨fun _ => h3, BMap.mem_keys_of_get? h1⟩
  have hop : ∀ e ∈ es, opened S d.state.dhPrivateKey d.state.theirDhPublicKeys e =
      some (e.senderIndex, ⟨e.senderIndex, d.state.index,
        Spec.polyEval (polys e.senderIndex) (u32F F d.state.index)⟩) := fun e he => by
    obtain ⟨h1, h2, h3, h4⟩ := hhon e he
    refine opened_eq_some.mpr ⟨_, _, h1, h4, rfl, ?_⟩
    rw [h3]
  have hbad : es.filter (BadFor S d.state.dhPrivateKey d.state.theirDhPublicKeys comms) = [] := by
    refine List.filter_eq_nil_iff.mpr fun e he => ?_
    simp only [decide_eq_true_eq]
    rintro ⟨pk, c, h1, h2, h3⟩
    obtain ⟨k1, ⟨c', k2, k2'⟩, k5, k6⟩ := hhon e he
    rw [k1] at h1; cases h1
    rw [k2] at h2; cases h2
    refine h3 ⟨_, k6, ?_⟩
    rw [k2', k5]
    exact (pointEval_commitPoints S _ _).symm
  obtain ⟨cs, h1, h2⟩ := toRoundTwo_le S dbg d comms hcomms hn es hlen hk rng (by rw [hbad]; simp)
  rw [hbad] at h1
  cases h1
  have hl : List.filterMap (opened S d.state.dhPrivateKey d.state.theirDhPublicKeys) es =
      es.map fun e => (e.senderIndex, (⟨e.senderIndex, d.state.index,
        Spec.polyEval (polys e.senderIndex) (u32F F d.state.index)⟩ : SecretShare F)) := by
    rw [← List.filterMap_eq_map]
    exact List.filterMap_congr hop
  refine ⟨h2.trans (if_neg (by simpa using htn)), _, rfl, BMap.wf_ofList _, fun l => ?_, fun e he => ?_⟩
  · rw [BMap.mem_keys_ofList, hl]; simp
  · rw [BMap.get?_ofList (by rw [hl, List.map_map]; exact hsend), hl]
    exact List.mem_map.mpr ⟨e, he, rfl⟩

/-- C27: honest shares raise no complaint, and are stored. -/
theorem C27_honest_no_complaint {S : Suite F G R} (hc : S.CipherLaws) (hd : S.CodecLaws) (dbg : Bool)
    (d : RoundOne F G) (comms : BMap (VssCommitment G)) (hcomms : d.state.theirCommitments = some comms)
    (hn : comms.keys.Nodup) (es : List EncShare) (hlen : d.state.parameters.t.toNat ≤ es.length)
    (htn : d.state.parameters.t.toNat ≤ d.state.parameters.n.toNat)
    (hsend : (es.map (·.senderIndex)).Nodup) (xs : U32 → F) (polys : U32 → List F)
    (hhon : ∀ e ∈ es, d.state.theirDhPublicKeys.get? e.senderIndex = some (xs e.senderIndex • S.gen) ∧
      (∃ c, comms.get? e.senderIndex = some c ∧ c.points = (polys e.senderIndex).map (· • S.gen)) ∧
      HonestlyDealt S e.senderIndex d.state.index (xs e.senderIndex) (polys e.senderIndex)
        (d.state.dhPrivateKey • S.gen) e) (rng : R) :
    ∃ d', d.toRoundTwo S dbg es rng = .ok (d', []) ∧ ∃ m, d'.state.mySecretShares = some m ∧ m.WF ∧
      (∀ l, l ∈ m.keys ↔ l ∈ es.map (·.senderIndex)) ∧
      ∀ e ∈ es, m.get? e.senderIndex =
        some ⟨e.senderIndex, d.state.index, Spec.polyEval (polys e.senderIndex) (d.state.index.toNat : F)⟩ := by
  obtain ⟨h1, h2⟩ := roundTwo_good dbg d comms hcomms hn es hlen htn hsend (fun l => xs l • S.gen) polys
    (fun e he => by
      obtain ⟨h1, h2, h3⟩ := hhon e he
      obtain ⟨_, k2, k3⟩ := honestlyDealt_opens hc hd h3
      rw [smul_comm] at k3
      exact ⟨h1, h2, k2, k3⟩) rng
  exact ⟨_, h1, h2⟩

/-- C28: one complaint per bad share, in order, carrying the share, the maker's DH public key and the true shared
key, with a proof that verifies under the accused's key. -/
theorem C28_complaints (S : Suite F G R) (dbg : Bool) (d : RoundOne F G) (comms : BMap (VssCommitment G))
    (hcomms : d.state.theirCommitments = some comms) (hn : comms.keys.Nodup) (es : List EncShare) (rng : R)
    (cs : List (Complaint F G))
    (h : (∃ d', d.toRoundTwo S dbg es rng = .ok (d', cs)) ∨ d.toRoundTwo S dbg es rng = .error (.err (.complaint cs))) :
    List.Forall₂ (fun c e => c.encShare = e ∧ c.dhPublicKey = d.state.dhPrivateKey • S.gen ∧
        ∃ pk, d.state.theirDhPublicKeys.get? e.senderIndex = some pk ∧
          c.dhSharedKey = d.state.dhPrivateKey • pk ∧ c.verify S pk = .ok ()) cs
      (es.filter fun e => ∃ pk c, d.state.theirDhPublicKeys.get? e.senderIndex = some pk ∧
        comms.get? e.senderIndex = some c ∧ ¬ Spec.GoodShare S (d.state.dhPrivateKey • pk) c.points e) := by
  obtain ⟨hlen, hk⟩ := toRoundTwo_inv S dbg d comms hcomms es rng
    (h.elim (fun ⟨d', h⟩ => .inl ⟨_, h⟩) (fun h => .inr ⟨cs, h⟩))
  obtain ⟨cs', h1, h2⟩ := toRoundTwo_known S dbg d comms hcomms hn es hlen hk rng
  suffices cs = cs' by subst this; exact h1
  rw [h2] at h
  split at h
  · next f hf =>
    rcases h with ⟨d', h⟩ | h <;> cases h
    exact absurd hf (u32Sub_not_err dbg _ _ _)
  · split at h
    · rcases h with ⟨d', h⟩ | h <;> cases h
      rfl
    · rcases h with ⟨d', h⟩ | h <;> cases h
      rfl

/-! ### C29 -/

theorem roundTwoLoop_err_kind (S : Suite F G R) (dbg : Bool) (st : DkgState F G) (es : List EncShare)
    (m : BMap (SecretShare F)) (cs : List (Complaint F G)) (rng : R) (e : Error F G)
    (h : roundTwoLoop S dbg st es m cs rng = .error (.err e)) :
    e = .custom "to_round_two() was called with encrypted secret shares containing invalid indices" ∧
      ∃ e ∈ es, e.senderIndex ∉ st.theirDhPublicKeys.keys := by
  induction es generalizing m cs rng with
  | nil => cases h
  | cons a es ih =>
    unfold roundTwoLoop at h
    split at h
    · cases h
    · split at h
      · next hg => cases h; exact ⟨rfl, a, by simp, BMap.get?_eq_none.mp hg⟩
      · simp only [] at h
        split at h
        · cases h
        · obtain ⟨h1, b, hb, h2⟩ := ih _ _ _ h
          exact ⟨h1, b, List.mem_cons_of_mem _ hb, h2⟩

/-- C29: `MissingShares` exactly for fewer than `t` shares. -/
theorem C29_missing_shares (S : Suite F G R) (dbg : Bool) (d : RoundOne F G) (es : List EncShare) (rng : R) :
    d.toRoundTwo S dbg es rng = .error (.err .missingShares) ↔ es.length < d.state.parameters.t.toNat := by
  unfold RoundOne.toRoundTwo
  simp only []
  constructor
  · intro h
    by_contra hlen
    rw [if_neg hlen] at h
    split at h
    · next f hf =>
      cases h
      exact absurd (roundTwoLoop_err_kind S dbg _ es _ _ rng _ hf).1 (by simp)
    · split at h
      · next f hf => cases h; exact absurd hf (u32Sub_not_err dbg _ _ _)
      · split at h <;> cases h
  · intro h
    rw [if_pos h]

/-- C29: with at least `t` shares, all labelled for the holder (this is only looked at in debug builds), the custom
error is returned exactly when some share's sender is not an accepted participant. -/
theorem C29_foreign_share (S : Suite F G R) (dbg : Bool) (d : RoundOne F G) (comms : BMap (VssCommitment G))
    (hcomms : d.state.theirCommitments = some comms) (es : List EncShare) (rng : R)
    (hlen : d.state.parameters.t.toNat ≤ es.length)
    (hrec : dbg = true → ∀ e ∈ es, e.receiverIndex = d.state.index) :
    (∃ s, d.toRoundTwo S dbg es rng = .error (.err (.custom s))) ↔
      ∃ e ∈ es, e.senderIndex ∉ d.state.theirDhPublicKeys.keys := by
  unfold RoundOne.toRoundTwo
  simp only []
  rw [if_neg (by omega)]
  constructor
  · rintro ⟨s, h⟩
    split at h
    · next f hf =>
      cases h
      exact (roundTwoLoop_err_kind S dbg _ es _ _ rng _ hf).2
    · split at h
      · next f hf => cases h; exact absurd hf (u32Sub_not_err dbg _ _ _)
      · split at h <;> cases h
  · rintro ⟨e, he, hf⟩
    obtain ⟨f, h1, h2⟩ := roundTwoLoop_error S dbg { d.state with theirEncryptedSecretShares := none } comms hcomms es
      ⟨e, he, .inr hf⟩ [] [] rng
    rw [h1]
    rcases h2 with rfl | ⟨_, hd, e', he', hne⟩
    · exact ⟨_, rfl⟩
    · exact absurd (hrec hd e' he') hne

/-! ### C30 -/

/-- C30 when there are at most `n` bad shares: the call aborts exactly when `n` minus the number of complaints is
below `t`, and then returns all complaints.

Missing for the full C30: more bad shares than `n`, for which the subtraction overflows; see the next theorem. -/
theorem C30_aborts_iff_partial (S : Suite F G R) (dbg : Bool) (d : RoundOne F G) (comms : BMap (VssCommitment G))
    (hcomms : d.state.theirCommitments = some comms) (hn : comms.keys.Nodup) (es : List EncShare)
    (hlen : d.state.parameters.t.toNat ≤ es.length)
    (hes : ∀ e ∈ es, (dbg = true → e.receiverIndex = d.state.index) ∧
      e.senderIndex ∈ d.state.theirDhPublicKeys.keys) (rng : R)
    (bad : List EncShare)
    (hbad : bad = es.filter fun e => ∃ pk c, d.state.theirDhPublicKeys.get? e.senderIndex = some pk ∧
        comms.get? e.senderIndex = some c ∧ ¬ Spec.GoodShare S (d.state.dhPrivateKey • pk) c.points e)
    (hle : bad.length ≤ d.state.parameters.n.toNat) :
    ((∃ f, d.toRoundTwo S dbg es rng = .error f) ↔
      d.state.parameters.n.toNat - bad.length < d.state.parameters.t.toNat) ∧
    ∀ f, d.toRoundTwo S dbg es rng = .error f → ∃ cs : List (Complaint F G), f = .err (.complaint cs) ∧
      cs.map (·.encShare) = bad := by
  have hb : bad = es.filter (BadFor S d.state.dhPrivateKey d.state.theirDhPublicKeys comms) := hbad
  obtain ⟨cs, h1, h2⟩ := toRoundTwo_le S dbg d comms hcomms hn es hlen hes rng (by rw [← hb]; exact hle)
  rw [← hb] at h1
  rw [h2, h1.length_eq]
  have hmap : cs.map (·.encShare) = bad := by
    clear h2 hb hbad hle
    induction h1 with
    | nil => rfl
    | cons h _ ih => rw [List.map_cons, ih, h.1]
  by_cases hlt : d.state.parameters.n.toNat - bad.length < d.state.parameters.t.toNat
  · rw [if_pos hlt]
    exact ⟨⟨fun _ => hlt, fun _ => ⟨_, rfl⟩⟩, fun f hf => by cases hf; exact ⟨cs, rfl, hmap⟩⟩
  · rw [if_neg hlt]
    exact ⟨⟨fun ⟨f, hf⟩ => (nomatch hf), fun h => absurd h hlt⟩, fun f hf => (nomatch hf)⟩

/-- The bound of the previous theorem holds when each dealer sends at most one share and the session has no more
dealers than `n` (so after `bootstrap` and `new`). -/
theorem C30_bound (S : Suite F G R) (d : RoundOne F G) (comms : BMap (VssCommitment G)) (es : List EncShare)
    (hsend : (es.map (·.senderIndex)).Nodup) (hn : comms.length ≤ d.state.parameters.n.toNat) :
    (es.filter fun e => ∃ pk c, d.state.theirDhPublicKeys.get? e.senderIndex = some pk ∧
        comms.get? e.senderIndex = some c ∧ ¬ Spec.GoodShare S (d.state.dhPrivateKey • pk) c.points e).length ≤
      d.state.parameters.n.toNat := by
  refine le_trans ?_ hn
  have hk : comms.length = comms.keys.length := by simp [BMap.keys]
  rw [hk]
  set l := es.filter fun e => ∃ pk c, d.state.theirDhPublicKeys.get? e.senderIndex = some pk ∧
        comms.get? e.senderIndex = some c ∧ ¬ Spec.GoodShare S (d.state.dhPrivateKey • pk) c.points e with hl
  rw [← List.length_map (as := l) (·.senderIndex)]
  refine (List.Nodup.subperm (hsend.sublist (List.filter_sublist.map _)) ?_).length_le
  intro k hk
  obtain ⟨e, he, rfl⟩ := List.mem_map.mp hk
  have := (List.mem_filter.mp he).2
  simp only [decide_eq_true_eq] at this
  obtain ⟨_, c, _, hc, _⟩ := this
  exact BMap.mem_keys_of_get? hc

/-- C30, negation: with more than `n` bad shares the counter overflows. A debug build panics; a release build
*succeeds* with all its complaints, although no dealer may be left. -/
theorem C30_overflow (S : Suite F G R) (dbg : Bool) (d : RoundOne F G) (comms : BMap (VssCommitment G))
    (hcomms : d.state.theirCommitments = some comms) (hn : comms.keys.Nodup) (es : List EncShare)
    (hlen : d.state.parameters.t.toNat ≤ es.length)
    (hes : ∀ e ∈ es, (dbg = true → e.receiverIndex = d.state.index) ∧
      e.senderIndex ∈ d.state.theirDhPublicKeys.keys) (rng : R)
    (bad : List EncShare)
    (hbad : bad = es.filter fun e => ∃ pk c, d.state.theirDhPublicKeys.get? e.senderIndex = some pk ∧
        comms.get? e.senderIndex = some c ∧ ¬ Spec.GoodShare S (d.state.dhPrivateKey • pk) c.points e)
    (hgt : d.state.parameters.n.toNat < bad.length)
    (hup : bad.length + d.state.parameters.t.toNat ≤ 2 ^ 32) :
    (dbg = true → d.state.parameters.t ≠ 0 → d.toRoundTwo S dbg es rng = .error (.panic .overflow)) ∧
    (dbg = false → d.state.parameters.t ≠ 0 → ∃ d' cs, d.toRoundTwo S dbg es rng = .ok (d', cs) ∧
      cs.map (·.encShare) = bad) := by
  have hb : bad = es.filter (BadFor S d.state.dhPrivateKey d.state.theirDhPublicKeys comms) := hbad
  obtain ⟨cs, h1, h2⟩ := toRoundTwo_known S dbg d comms hcomms hn es hlen hes rng
  rw [← hb] at h1
  have hmap : cs.map (·.encShare) = bad := by
    clear h2 hb hbad hgt hup
    induction h1 with
    | nil => rfl
    | cons h _ ih => rw [List.map_cons, ih, h.1]
  have hlt : ∀ t : U32, t ≠ 0 → bad.length + t.toNat ≤ 2 ^ 32 →
      (UInt32.ofNat bad.length).toNat = bad.length := by
    intro t ht hup
    have : t.toNat ≠ 0 := fun h => ht (UInt32.toNat_inj.mp (by simpa using h))
    exact UInt32.toNat_ofNat_of_lt (by simp [UInt32.size]; omega)
  rw [h2, h1.length_eq]
  constructor
  · rintro rfl ht
    have hl := hlt _ ht hup
    unfold u32Sub
    have : d.state.parameters.n < UInt32.ofNat bad.length := by rw [UInt32.lt_iff_toNat_lt, hl]; exact hgt
    simp [this]
  · rintro rfl ht
    have hl := hlt _ ht hup
    refine ⟨⟨roundTwoState S d.state es⟩, cs, ?_, hmap⟩
    have hsub : (d.state.parameters.n - UInt32.ofNat bad.length).toNat =
        2 ^ 32 - bad.length + d.state.parameters.n.toNat := by
      rw [UInt32.toNat_sub, hl]
      have := d.state.parameters.n.toNat_lt
      rw [Nat.mod_eq_of_lt]
      omega
    have hnlt : ¬ (d.state.parameters.n - UInt32.ofNat bad.length) < d.state.parameters.t := by
      rw [UInt32.lt_iff_toNat_lt, hsub]; omega
    unfold u32Sub
    simp [hnlt]

/-! ### C31 -/

theorem roundTwo_stored (S : Suite F G R) (dbg : Bool) (d : RoundOne F G) (comms : BMap (VssCommitment G))
    (hcomms : d.state.theirCommitments = some comms) (hn : comms.keys.Nodup) (es : List EncShare) (rng : R)
    (d' : RoundTwo F G) (cs : List (Complaint F G)) (h : d.toRoundTwo S dbg es rng = .ok (d', cs)) :
    d'.state = roundTwoState S d.state es ∧ KnownShares dbg d.state es ∧
      List.Forall₂ (IsComplaint S d.state.dhPrivateKey d.state.theirDhPublicKeys) cs
        (es.filter (BadFor S d.state.dhPrivateKey d.state.theirDhPublicKeys comms)) := by
  obtain ⟨hlen, hk⟩ := toRoundTwo_inv S dbg d comms hcomms es rng (.inl ⟨_, h⟩)
  obtain ⟨cs', h1, h2⟩ := toRoundTwo_known S dbg d comms hcomms hn es hlen hk rng
  rw [h2] at h
  split at h
  · cases h
  · split at h
    · cases h
    · cases h
      exact ⟨rfl, hk, h1⟩

/-- A stored share whose sender has commitments and is not complained about, from a list of shares that are all
labelled for the holder. -/
theorem stored_share (S : Suite F G R) (dbg : Bool) (d : RoundOne F G) (comms : BMap (VssCommitment G))
    (hcomms : d.state.theirCommitments = some comms) (hn : comms.keys.Nodup) (es : List EncShare) (rng : R)
    (hlabel : ∀ e ∈ es, e.receiverIndex = d.state.index)
    (d' : RoundTwo F G) (cs : List (Complaint F G)) (h : d.toRoundTwo S dbg es rng = .ok (d', cs))
    (m : BMap (SecretShare F)) (hm : d'.state.mySecretShares = some m) (l : U32) (s : SecretShare F)
    (hs : m.get? l = some s) (hcs : ∀ c ∈ cs, c.encShare.senderIndex ≠ l)
    (c : VssCommitment G) (hc : comms.get? l = some c) :
    s.senderIndex = l ∧ s.receiverIndex = d.state.index ∧
      s.eval • S.gen = Spec.pointEval c.points (d.state.index.toNat : F) := by
  obtain ⟨h1, h2, h3⟩ := roundTwo_stored S dbg d comms hcomms hn es rng d' cs h
  rw [h1] at hm
  cases hm
  have hmem := BMap.mem_of_get?_ofList hs
  obtain ⟨e, he, ho⟩ := List.mem_filterMap.mp hmem
  obtain ⟨pk, v, hpk, hv, rfl, rfl⟩ := opened_eq_some.mp ho
  have hrec := hlabel e he
  refine ⟨rfl, hrec, ?_⟩
  by_cases hg : Spec.GoodShare S (d.state.dhPrivateKey • pk) c.points e
  · obtain ⟨w, hw, hw'⟩ := hg
    rw [hv.unique hw, ← hrec]; exact hw'
  · exfalso
    have hbad : e ∈ es.filter (BadFor S d.state.dhPrivateKey d.state.theirDhPublicKeys comms) :=
      List.mem_filter.mpr ⟨he, by simpa using ⟨pk, c, hpk, hc, hg⟩⟩
    clear ho hmem hs hrec h1 h
    generalize es.filter (BadFor S d.state.dhPrivateKey d.state.theirDhPublicKeys comms) = bad at h3 hbad
    induction h3 with
    | nil => cases hbad
    | cons hh _ ih =>
      rcases List.mem_cons.mp hbad with rfl | hb
      · exact hcs _ List.mem_cons_self (by rw [hh.1])
      · exact ih (fun c hc => hcs c (List.mem_cons_of_mem _ hc)) hb

/-- C31 for debug builds, and for release builds that are given correctly labelled shares: a stored share whose
sender has commitments and is not complained about is labelled for the holder and is the committed polynomial at the
holder's index.

Missing for the full C31: release builds with other labels, which are not checked; see the next theorem. -/
theorem C31_stored_share_partial (S : Suite F G R) (dbg : Bool) (d : RoundOne F G) (comms : BMap (VssCommitment G))
    (hcomms : d.state.theirCommitments = some comms) (hn : comms.keys.Nodup) (es : List EncShare) (rng : R)
    (hlabel : dbg = true ∨ ∀ e ∈ es, e.receiverIndex = d.state.index)
    (d' : RoundTwo F G) (cs : List (Complaint F G)) (h : d.toRoundTwo S dbg es rng = .ok (d', cs))
    (m : BMap (SecretShare F)) (hm : d'.state.mySecretShares = some m) (l : U32) (s : SecretShare F)
    (hs : m.get? l = some s) (hcs : ∀ c ∈ cs, c.encShare.senderIndex ≠ l)
    (c : VssCommitment G) (hc : comms.get? l = some c) :
    s.senderIndex = l ∧ s.receiverIndex = d.state.index ∧
      s.eval • S.gen = Spec.pointEval c.points (d.state.index.toNat : F) := by
  refine stored_share S dbg d comms hcomms hn es rng ?_ d' cs h m hm l s hs hcs c hc
  rcases hlabel with hd | hl
  · exact fun e he => ((toRoundTwo_inv S dbg d comms hcomms es rng (.inl ⟨_, h⟩)).2 e he).1 hd
  · exact hl

/-- C31, negation: a release build stores, without complaint, a share that an (otherwise honest) dealer dealt for
another index `j`: the holder keeps `f(j)` instead of `f(i)`. -/
theorem C31_release_misaddressed {S : Suite F G R} (hc : S.CipherLaws) (hd : S.CodecLaws)
    (d : RoundOne F G) (comms : BMap (VssCommitment G)) (hcomms : d.state.theirCommitments = some comms)
    (hn : comms.keys.Nodup) (ht : d.state.parameters.t = 1) (htn : 1 ≤ d.state.parameters.n.toNat)
    (l j : U32) (xl : F) (poly : List F) (hdh : d.state.theirDhPublicKeys.get? l = some (xl • S.gen))
    (c : VssCommitment G) (hcl : comms.get? l = some c) (hpts : c.points = poly.map (· • S.gen)) (e : EncShare)
    (he : HonestlyDealt S l j xl poly (d.state.dhPrivateKey • S.gen) e) (rng : R) :
    ∃ d' m, d.toRoundTwo S false [e] rng = .ok (d', []) ∧ d'.state.mySecretShares = some m ∧
      m.get? l = some ⟨l, j, Spec.polyEval poly (j.toNat : F)⟩ := by
  obtain ⟨rfl, rfl, h3⟩ := honestlyDealt_opens hc hd he
  rw [smul_comm] at h3
  have hbad : [e].filter (BadFor S d.state.dhPrivateKey d.state.theirDhPublicKeys comms) = [] := by
    refine List.filter_eq_nil_iff.mpr fun e' he' => ?_
    rw [List.mem_singleton] at he'; subst he'
    simp only [decide_eq_true_eq]
    rintro ⟨pk, c', h1, h2, h4⟩
    rw [hdh] at h1; cases h1
    rw [hcl] at h2; cases h2
    refine h4 ⟨_, h3, ?_⟩
    rw [hpts]
    exact (pointEval_commitPoints S _ _).symm
  obtain ⟨cs, h1, h2⟩ := toRoundTwo_le S false d comms hcomms hn [e] (by rw [ht]; simp)
    (fun e' he' => by
      rw [List.mem_singleton] at he'; subst he'
      exact ⟨by simp, BMap.mem_keys_of_get? hdh⟩) rng (by rw [hbad]; simp)
  rw [hbad] at h1
  cases h1
  refine ⟨_, _, h2.trans (if_neg (by rw [ht]; simp; omega)), rfl, ?_⟩
  have ho : opened S d.state.dhPrivateKey d.state.theirDhPublicKeys e =
      some (e.senderIndex, ⟨e.senderIndex, e.receiverIndex, Spec.polyEval poly (u32F F e.receiverIndex)⟩) :=
    opened_eq_some.mpr ⟨_, _, hdh, h3, rfl, rfl⟩
  simp only [List.filterMap_cons, List.filterMap_nil, ho]
  simp [BMap.ofList, BMap.insert, BMap.get?, u32F]

/-! ### Non-vacuity -/

section Examples
open Toy

/-- A round-one state of participant 3 with two dealers 1 and 2: `f₁ = 10 + 11x`, `f₂ = 20 + 21x`. -/
def toyR1 : RoundOne Fp Fp := ⟨{
  parameters := ⟨2, 2⟩, index := 3, dhPrivateKey := 5, dhPublicKey := (5 : Fp) • suite.gen,
  theirCommitments := some [(1, ⟨1, [(10 : Fp) • suite.gen, (11 : Fp) • suite.gen]⟩),
    (2, ⟨2, [(20 : Fp) • suite.gen, (21 : Fp) • suite.gen]⟩)],
  theirDhPublicKeys := [(1, (101 : Fp) • suite.gen), (2, (102 : Fp) • suite.gen)],
  theirEncryptedSecretShares := none, mySecretShares := none }⟩

/-- The hypotheses of C27 hold for honest shares of the two dealers. -/
example : ∃ e1 e2 d', toyR1.toRoundTwo suite true [e1, e2] 0 = .ok (d', []) := by
  obtain ⟨e1, r1, h1, k1, _⟩ := encryptShare_ok cipher_laws codec_laws
    (evaluatePolynomial (F := Fp) 1 3 [10, 11]) (suite.encG ((101 : Fp) • ((5 : Fp) • suite.gen))) 0
  obtain ⟨e2, r2, h2, k2, _⟩ := encryptShare_ok cipher_laws codec_laws
    (evaluatePolynomial (F := Fp) 2 3 [20, 21]) (suite.encG ((102 : Fp) • ((5 : Fp) • suite.gen))) 0
  have k1 : e1.senderIndex = 1 := k1
  have k2 : e2.senderIndex = 2 := k2
  obtain ⟨d', h, _⟩ := C27_honest_no_complaint cipher_laws codec_laws true toyR1 _ rfl (by decide) [e1, e2]
    le_rfl le_rfl (by simp [k1, k2])
    (fun l => if l = 1 then 101 else 102) (fun l => if l = 1 then [10, 11] else [20, 21])
    (by
      intro e he
      simp only [List.mem_cons, List.not_mem_nil, or_false] at he
      rcases he with rfl | rfl
      · rw [k1]
        exact ⟨by simp [toyR1, BMap.get?], ⟨_, by simp [BMap.get?]; rfl, by simp⟩, 0, r1, h1⟩
      · rw [k2]
        exact ⟨by simp [toyR1, BMap.get?], ⟨_, by simp [BMap.get?]; rfl, by simp⟩, 0, r2, h2⟩) 0
  exact ⟨e1, e2, d', h⟩

end Examples

end IceFrost
