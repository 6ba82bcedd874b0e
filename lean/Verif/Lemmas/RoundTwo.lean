import Verif.Lemmas.RoundOne

/-! # `to_round_two` -/

set_option linter.unusedSectionVars false
set_option linter.unusedSimpArgs false

namespace IceFrost

attribute [local instance] Classical.propDecidable

variable {F G R : Type} [Field F] [DecidableEq F] [AddCommGroup G] [Module F G] [DecidableEq G]

theorem decryptShare_ok_iff (S : Suite F G R) (e : EncShare) (P : G) (s : SecretShare F) :
    decryptShare S e (S.encG P) = .ok s ↔ ∃ v, Spec.Opens S e P v ∧ s = ⟨e.senderIndex, e.receiverIndex, v⟩ := by
  unfold decryptShare Spec.Opens
  constructor
  · intro h
    split at h
    · cases h
    · next key hk =>
      split at h
      · cases h
      · next pt hpt =>
        split at h
        · cases h
        · next v rest hv =>
          cases h
          exact ⟨v, ⟨key, pt, rest, hk, hpt, hv⟩, rfl⟩
  · rintro ⟨v, ⟨key, pt, rest, h1, h2, h3⟩, rfl⟩
    simp only [h1, h2, h3]

theorem Spec.Opens.unique {S : Suite F G R} {e : EncShare} {P : G} {v w : F} (h : Spec.Opens S e P v)
    (h' : Spec.Opens S e P w) : v = w := by
  obtain ⟨key, pt, rest, h1, h2, h3⟩ := h
  obtain ⟨key', pt', rest', k1, k2, k3⟩ := h'
  rw [h1] at k1; cases k1
  rw [h2] at k2; cases k2
  rw [h3] at k3; cases k3
  rfl

theorem goodShare_iff (S : Suite F G R) (e : EncShare) (P : G) (c : VssCommitment G) :
    Spec.GoodShare S P c.points e ↔ ∃ s, decryptShare S e (S.encG P) = .ok s ∧ s.verify S c = .ok () := by
  unfold Spec.GoodShare
  constructor
  · rintro ⟨v, h, hv⟩
    exact ⟨_, (decryptShare_ok_iff S e P _).mpr ⟨v, h, rfl⟩, (verify_ok_iff S _ c).mpr hv⟩
  · rintro ⟨s, h, hv⟩
    obtain ⟨v, h', rfl⟩ := (decryptShare_ok_iff S e P _).mp h
    exact ⟨v, h', (verify_ok_iff S _ c).mp hv⟩

/-! ### Complaints -/

theorem complaintVerify_iff (S : Suite F G R) (c : Complaint F G) (pk : G) :
    c.verify S pk = .ok () ↔
      c.proof.a1 + complaintHash S (complaintMessage S c.dhPublicKey pk c.dhSharedKey c.proof.a1 c.proof.a2
        c.encShare) • c.dhPublicKey = c.proof.z • S.gen ∧
      c.proof.a2 + complaintHash S (complaintMessage S c.dhPublicKey pk c.dhSharedKey c.proof.a1 c.proof.a2
        c.encShare) • c.dhSharedKey = c.proof.z • pk := by
  unfold Complaint.verify
  simp only []
  split
  · next h => simp [h]
  · next h =>
    rw [not_not] at h
    split
    · next h' => simp [h']
    · next h' => rw [not_not] at h'; simp [h, h']

theorem complaintNew_verify (S : Suite F G R) (pk : G) (x : F) (e : EncShare) (rng : R) :
    (Complaint.new S pk x (x • pk) e rng).1.verify S pk = .ok () := by
  rw [complaintVerify_iff]
  unfold Complaint.new
  simp only []
  constructor <;> module

/-- A complaint that `to_round_two` makes about the share `e`. -/
def IsComplaint (S : Suite F G R) (x : F) (dhs : BMap G) (c : Complaint F G) (e : EncShare) : Prop :=
  c.encShare = e ∧ c.dhPublicKey = x • S.gen ∧
    ∃ pk, dhs.get? e.senderIndex = some pk ∧ c.dhSharedKey = x • pk ∧ c.verify S pk = .ok ()

/-- The receiver's view of a bad share: it is from a dealer with commitments and is not good. -/
def BadFor (S : Suite F G R) (x : F) (dhs : BMap G) (comms : BMap (VssCommitment G)) (e : EncShare) : Prop :=
  ∃ pk c, dhs.get? e.senderIndex = some pk ∧ comms.get? e.senderIndex = some c ∧
    ¬ Spec.GoodShare S (x • pk) c.points e

/-- What is stored for a received share. -/
noncomputable def opened (S : Suite F G R) (x : F) (dhs : BMap G) (e : EncShare) : Option (U32 × SecretShare F) :=
  match dhs.get? e.senderIndex with
  | none => none
  | some pk =>
    match decryptShare S e (S.encG (x • pk)) with
    | .ok s => some (e.senderIndex, s)
    | .error _ => none

theorem opened_eq_some {S : Suite F G R} {x : F} {dhs : BMap G} {e : EncShare} {k : U32} {s : SecretShare F} :
    opened S x dhs e = some (k, s) ↔ ∃ pk v, dhs.get? e.senderIndex = some pk ∧ Spec.Opens S e (x • pk) v ∧
      k = e.senderIndex ∧ s = ⟨e.senderIndex, e.receiverIndex, v⟩ := by
  unfold opened
  cases h : dhs.get? e.senderIndex with
  | none => simp
  | some pk =>
    simp only [Option.some.injEq]
    cases h' : decryptShare S e (S.encG (x • pk)) with
    | ok s' =>
      obtain ⟨v, hv, rfl⟩ := (decryptShare_ok_iff S e _ _).mp h'
      simp only [Option.some.injEq, Prod.mk.injEq]
      constructor
      · rintro ⟨rfl, rfl⟩; exact ⟨pk, v, rfl, hv, rfl, rfl⟩
      · rintro ⟨pk', v', rfl, hv', rfl, rfl⟩
        exact ⟨rfl, by rw [hv.unique hv']⟩
    | error f =>
      simp only [reduceCtorEq, false_iff, not_exists, not_and]
      rintro pk' v rfl hv
      have := (decryptShare_ok_iff S e (x • pk) _).mpr ⟨v, hv, rfl⟩
      rw [h'] at this; cases this

theorem complaintLoop_eq (S : Suite F G R) (x : F) (pk : G) (e : EncShare) (comms : BMap (VssCommitment G))
    (hn : comms.keys.Nodup) (cs : List (Complaint F G)) (rng : R) :
    complaintLoop S pk x (x • pk) e (decryptShare S e (S.encG (x • pk))) comms cs rng =
      match comms.get? e.senderIndex with
      | none => (cs, rng)
      | some c => if Spec.GoodShare S (x • pk) c.points e then (cs, rng)
        else (cs ++ [(Complaint.new S pk x (x • pk) e rng).1], (Complaint.new S pk x (x • pk) e rng).2) := by
  induction comms with
  | nil => rfl
  | cons kc comms ih =>
    obtain ⟨k, c⟩ := kc
    simp only [BMap.keys_cons, List.nodup_cons] at hn
    unfold complaintLoop
    by_cases hk : k = e.senderIndex
    · subst hk
      have hnone : BMap.get? e.senderIndex comms = none := BMap.get?_eq_none.mpr hn.1
      have hg : BMap.get? e.senderIndex ((e.senderIndex, c) :: comms) = some c := by simp [BMap.get?]
      rw [hg]
      simp only [if_true]
      have ih' := ih hn.2
      rw [hnone] at ih'
      simp only [] at ih'
      by_cases hgood : Spec.GoodShare S (x • pk) c.points e
      · obtain ⟨s, h1, h2⟩ := (goodShare_iff S e (x • pk) c).mp hgood
        rw [if_pos hgood, h1] 
        rw [h1] at ih'
        simp only [h2, Bool.false_eq_true, if_false]
        exact ih'
      · rw [if_neg hgood]
        have hb : (match decryptShare S e (S.encG (x • pk)) with
            | .error _ => true
            | .ok share => match share.verify S c with
              | .error _ => true
              | .ok () => false) = true := by
          cases hd : decryptShare S e (S.encG (x • pk)) with
          | error _ => rfl
          | ok s =>
            simp only []
            cases hv : s.verify S c with
            | error _ => rfl
            | ok u => exact absurd ((goodShare_iff S e (x • pk) c).mpr ⟨s, hd, hv⟩) hgood
        exact if_pos hb
    · have hg : BMap.get? e.senderIndex ((k, c) :: comms) = BMap.get? e.senderIndex comms := by
        simp [BMap.get?, Ne.symm hk]
      rw [if_neg hk, hg]
      exact ih hn.2

/-- The outer loop when every share comes from a known dealer. -/
theorem roundTwoLoop_ok (S : Suite F G R) (dbg : Bool) (st : DkgState F G) (comms : BMap (VssCommitment G))
    (hcomms : st.theirCommitments = some comms) (hn : comms.keys.Nodup) (es : List EncShare)
    (hes : ∀ e ∈ es, (dbg = true → e.receiverIndex = st.index) ∧ e.senderIndex ∈ st.theirDhPublicKeys.keys)
    (m : BMap (SecretShare F)) (cs : List (Complaint F G)) (rng : R) :
    ∃ cs', roundTwoLoop S dbg st es m cs rng =
        .ok ((es.filterMap (opened S st.dhPrivateKey st.theirDhPublicKeys)).foldl (fun m e => m.insert e.1 e.2) m,
          cs ++ cs') ∧
      List.Forall₂ (IsComplaint S st.dhPrivateKey st.theirDhPublicKeys) cs'
        (es.filter (BadFor S st.dhPrivateKey st.theirDhPublicKeys comms)) := by
  induction es generalizing m cs rng with
  | nil => exact ⟨[], by simp [roundTwoLoop], .nil⟩
  | cons e es ih =>
    obtain ⟨he1, he2⟩ := hes e (by simp)
    have hes' := fun e' h => hes e' (List.mem_cons_of_mem _ h)
    obtain ⟨pk, hpk⟩ := BMap.exists_get? he2
    have hdbg : ¬ (dbg && e.receiverIndex != st.index) = true := by
      cases dbg
      · simp
      · simp [he1 rfl]
    unfold roundTwoLoop
    rw [if_neg hdbg, hpk]
    simp only [hcomms]
    rw [complaintLoop_eq S st.dhPrivateKey pk e comms hn cs rng]
    have hop : (match decryptShare S e (S.encG (st.dhPrivateKey • pk)) with
            | .ok share => m.insert share.senderIndex share
            | .error _ => m) =
        (List.filterMap (opened S st.dhPrivateKey st.theirDhPublicKeys) [e]).foldl (fun m e => m.insert e.1 e.2) m := by
      cases hd : decryptShare S e (S.encG (st.dhPrivateKey • pk)) with
      | ok s =>
        simp only [List.filterMap_cons, List.filterMap_nil, opened, hpk, hd, List.foldl_cons, List.foldl_nil]
        rw [(decryptShare_labels hd).1]
      | error f =>
        simp [opened, hpk, hd]
    have hcat : (e :: es).filterMap (opened S st.dhPrivateKey st.theirDhPublicKeys) =
        [e].filterMap (opened S st.dhPrivateKey st.theirDhPublicKeys) ++
          es.filterMap (opened S st.dhPrivateKey st.theirDhPublicKeys) := by
      rw [← List.filterMap_append]; rfl
    rw [hcat, List.foldl_append, ← hop]
    cases hc : comms.get? e.senderIndex with
    | none =>
      simp only []
      have hb : ¬ BadFor S st.dhPrivateKey st.theirDhPublicKeys comms e := by
        rintro ⟨_, c, _, h, _⟩; rw [hc] at h; cases h
      rw [List.filter_cons_of_neg (by simpa using hb)]
      exact ih hes' _ _ _
    | some c =>
      simp only []
      by_cases hg : Spec.GoodShare S (st.dhPrivateKey • pk) c.points e
      · rw [if_pos hg]
        have hb : ¬ BadFor S st.dhPrivateKey st.theirDhPublicKeys comms e := by
          rintro ⟨pk', c', h1, h2, h3⟩
          rw [hpk] at h1; cases h1
          rw [hc] at h2; cases h2
          exact h3 hg
        rw [List.filter_cons_of_neg (by simpa using hb)]
        exact ih hes' _ _ _
      · rw [if_neg hg]
        have hb : BadFor S st.dhPrivateKey st.theirDhPublicKeys comms e := ⟨pk, c, hpk, hc, hg⟩
        rw [List.filter_cons_of_pos (by simpa using hb)]
        obtain ⟨cs', h1, h2⟩ := ih hes' (match decryptShare S e (S.encG (st.dhPrivateKey • pk)) with
            | .ok share => m.insert share.senderIndex share
            | .error _ => m) (cs ++ [(Complaint.new S pk st.dhPrivateKey (st.dhPrivateKey • pk) e rng).1])
          (Complaint.new S pk st.dhPrivateKey (st.dhPrivateKey • pk) e rng).2
        refine ⟨(Complaint.new S pk st.dhPrivateKey (st.dhPrivateKey • pk) e rng).1 :: cs', ?_, .cons ?_ h2⟩
        · refine h1.trans ?_
          simp
        · exact ⟨rfl, rfl, pk, hpk, rfl, complaintNew_verify S pk st.dhPrivateKey e rng⟩

/-- The outer loop when some share is foreign, or (debug builds) mislabelled. -/
theorem roundTwoLoop_error (S : Suite F G R) (dbg : Bool) (st : DkgState F G) (comms : BMap (VssCommitment G))
    (hcomms : st.theirCommitments = some comms) (es : List EncShare)
    (hes : ∃ e ∈ es, (dbg = true ∧ e.receiverIndex ≠ st.index) ∨ e.senderIndex ∉ st.theirDhPublicKeys.keys)
    (m : BMap (SecretShare F)) (cs : List (Complaint F G)) (rng : R) :
    ∃ f, roundTwoLoop S dbg st es m cs rng = .error f ∧
      (f = .err (.custom "to_round_two() was called with encrypted secret shares containing invalid indices") ∨
        (f = .panic .debugAssert ∧ dbg = true ∧ ∃ e ∈ es, e.receiverIndex ≠ st.index)) := by
  induction es generalizing m cs rng with
  | nil => simp at hes
  | cons e es ih =>
    unfold roundTwoLoop
    by_cases hd : dbg = true ∧ e.receiverIndex ≠ st.index
    · rw [if_pos (by simp [hd])]
      exact ⟨_, rfl, .inr ⟨rfl, hd.1, e, by simp, hd.2⟩⟩
    · rw [if_neg (by simpa using hd)]
      cases hpk : st.theirDhPublicKeys.get? e.senderIndex with
      | none => exact ⟨_, rfl, .inl rfl⟩
      | some pk =>
        simp only [hcomms]
        have hes' : ∃ e ∈ es, (dbg = true ∧ e.receiverIndex ≠ st.index) ∨
            e.senderIndex ∉ st.theirDhPublicKeys.keys := by
          obtain ⟨e', he', h⟩ := hes
          rcases List.mem_cons.mp he' with rfl | he'
          · rcases h with h | h
            · exact absurd h hd
            · exact absurd (BMap.mem_keys_of_get? hpk) h
          · exact ⟨e', he', h⟩
        obtain ⟨f, h1, h2⟩ := ih hes' (match decryptShare S e (S.encG (st.dhPrivateKey • pk)) with
            | .ok share => m.insert share.senderIndex share
            | .error _ => m) (complaintLoop S pk st.dhPrivateKey (st.dhPrivateKey • pk) e
              (decryptShare S e (S.encG (st.dhPrivateKey • pk))) comms cs rng).1
            (complaintLoop S pk st.dhPrivateKey (st.dhPrivateKey • pk) e
              (decryptShare S e (S.encG (st.dhPrivateKey • pk))) comms cs rng).2
        refine ⟨f, h1, ?_⟩
        rcases h2 with h2 | ⟨h2, h3, e', he', h4⟩
        · exact .inl h2
        · exact .inr ⟨h2, h3, e', List.mem_cons_of_mem _ he', h4⟩

/-- All received shares come from known dealers (and, in debug builds, are labelled for the holder). -/
def KnownShares (dbg : Bool) (st : DkgState F G) (es : List EncShare) : Prop :=
  ∀ e ∈ es, (dbg = true → e.receiverIndex = st.index) ∧ e.senderIndex ∈ st.theirDhPublicKeys.keys

/-- The state after a successful `to_round_two`. -/
noncomputable def roundTwoState (S : Suite F G R) (st : DkgState F G) (es : List EncShare) : DkgState F G :=
  { st with
    theirEncryptedSecretShares := none
    mySecretShares := some (BMap.ofList (es.filterMap (opened S st.dhPrivateKey st.theirDhPublicKeys))) }

theorem toRoundTwo_known (S : Suite F G R) (dbg : Bool) (d : RoundOne F G) (comms : BMap (VssCommitment G))
    (hcomms : d.state.theirCommitments = some comms) (hn : comms.keys.Nodup) (es : List EncShare)
    (hlen : d.state.parameters.t.toNat ≤ es.length) (hes : KnownShares dbg d.state es) (rng : R) :
    ∃ cs, List.Forall₂ (IsComplaint S d.state.dhPrivateKey d.state.theirDhPublicKeys) cs
        (es.filter (BadFor S d.state.dhPrivateKey d.state.theirDhPublicKeys comms)) ∧
      d.toRoundTwo S dbg es rng =
        match (u32Sub dbg d.state.parameters.n (UInt32.ofNat cs.length) : Res F G U32) with
        | .error f => .error f
        | .ok remaining =>
          if remaining < d.state.parameters.t then .error (.err (.complaint cs))
          else .ok (⟨roundTwoState S d.state es⟩, cs) := by
  obtain ⟨cs, h1, h2⟩ := roundTwoLoop_ok S dbg { d.state with theirEncryptedSecretShares := none } comms hcomms hn es
    hes [] [] rng
  refine ⟨cs, h2, ?_⟩
  unfold RoundOne.toRoundTwo
  simp only []
  rw [if_neg (by omega), h1]
  rfl

/-- `u32Sub` without overflow. -/
theorem u32Sub_le (dbg : Bool) (n : U32) (b : Nat) (h : b ≤ n.toNat) :
    (u32Sub dbg n (UInt32.ofNat b) : Res F G U32) = .ok (UInt32.ofNat (n.toNat - b)) :=
  u32Sub_ok dbg n _ _ (by omega)

theorem ofNat_lt_iff (n t : U32) (b : Nat) : UInt32.ofNat (n.toNat - b) < t ↔ n.toNat - b < t.toNat := by
  have hn := n.toNat_lt
  have hb : (UInt32.ofNat (n.toNat - b)).toNat = n.toNat - b :=
    UInt32.toNat_ofNat_of_lt (by simp [UInt32.size]; omega)
  rw [UInt32.lt_iff_toNat_lt, hb]

theorem toRoundTwo_le (S : Suite F G R) (dbg : Bool) (d : RoundOne F G) (comms : BMap (VssCommitment G))
    (hcomms : d.state.theirCommitments = some comms) (hn : comms.keys.Nodup) (es : List EncShare)
    (hlen : d.state.parameters.t.toNat ≤ es.length) (hes : KnownShares dbg d.state es) (rng : R)
    (hle : (es.filter (BadFor S d.state.dhPrivateKey d.state.theirDhPublicKeys comms)).length ≤
      d.state.parameters.n.toNat) :
    ∃ cs, List.Forall₂ (IsComplaint S d.state.dhPrivateKey d.state.theirDhPublicKeys) cs
        (es.filter (BadFor S d.state.dhPrivateKey d.state.theirDhPublicKeys comms)) ∧
      d.toRoundTwo S dbg es rng =
        if d.state.parameters.n.toNat - cs.length < d.state.parameters.t.toNat then .error (.err (.complaint cs))
          else .ok (⟨roundTwoState S d.state es⟩, cs) := by
  obtain ⟨cs, h1, h2⟩ := toRoundTwo_known S dbg d comms hcomms hn es hlen hes rng
  refine ⟨cs, h1, ?_⟩
  rw [h2, u32Sub_le dbg _ _ (by rw [h1.length_eq]; exact hle)]
  simp only [ofNat_lt_iff]

/-- A successful `to_round_two` had enough shares, all from known dealers. -/
theorem toRoundTwo_inv (S : Suite F G R) (dbg : Bool) (d : RoundOne F G) (comms : BMap (VssCommitment G))
    (hcomms : d.state.theirCommitments = some comms) (es : List EncShare) (rng : R)
    (h : (∃ v, d.toRoundTwo S dbg es rng = .ok v) ∨ ∃ cs, d.toRoundTwo S dbg es rng = .error (.err (.complaint cs))) :
    d.state.parameters.t.toNat ≤ es.length ∧ KnownShares dbg d.state es := by
  have hlen : d.state.parameters.t.toNat ≤ es.length := by
    by_contra hlt
    unfold RoundOne.toRoundTwo at h
    simp only [] at h
    rw [if_pos (by omega)] at h
    rcases h with ⟨v, h⟩ | ⟨cs, h⟩ <;> cases h
  refine ⟨hlen, ?_⟩
  by_contra hk
  have : ∃ e ∈ es, (dbg = true ∧ e.receiverIndex ≠ d.state.index) ∨
      e.senderIndex ∉ d.state.theirDhPublicKeys.keys := by
    unfold KnownShares at hk
    push Not at hk
    obtain ⟨e, he, h⟩ := hk
    refine ⟨e, he, ?_⟩
    by_cases h1 : dbg = true ∧ e.receiverIndex ≠ d.state.index
    · exact .inl h1
    · exact .inr (h (fun hd => by by_contra hne; exact h1 ⟨hd, hne⟩))
  obtain ⟨f, h1, h2⟩ := roundTwoLoop_error S dbg { d.state with theirEncryptedSecretShares := none } comms hcomms es
    this [] [] rng
  unfold RoundOne.toRoundTwo at h
  simp only [] at h
  rw [if_neg (by omega), h1] at h
  rcases h2 with rfl | ⟨rfl, _⟩ <;> rcases h with ⟨v, h⟩ | ⟨cs, h⟩ <;> cases h

end IceFrost
