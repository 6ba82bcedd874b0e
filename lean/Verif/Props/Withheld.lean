import Verif.Props.RobustSign

/-! # C122: withheld shares -/

set_option linter.unusedSectionVars false
set_option linter.unusedSimpArgs false

namespace IceFrost

open Finset

variable {F G R : Type} [Field F] [DecidableEq F] [AddCommGroup G] [Module F G] [DecidableEq G]

/-- The value at index `l` of the polynomial through the values `v` at the indices `received`. -/
noncomputable def Spec.predicted (received : List U32) (v : U32 → F) (l : U32) : F :=
  (Lagrange.interpolate received.toFinset (fun k : U32 => (k.toNat : F)) v).eval (l.toNat : F)

/-- Combining the values at only some of the indices gives the full combination up to the weighted differences between
the missing values and what the others predict. -/
theorem interpolate_received (hu : Suite.U32Inj F) (D received : List U32) (hsub : received ⊆ D) (v : U32 → F) :
    Spec.interpolate D v - Spec.interpolate received v =
      ∑ l ∈ D.toFinset \ received.toFinset, Spec.lagrange D l * (v l - Spec.predicted received v l) := by
  have hs : received.toFinset ⊆ D.toFinset := fun l hl => List.mem_toFinset.mpr (hsub (List.mem_toFinset.mp hl))
  set q := Lagrange.interpolate received.toFinset (u32F F) v with hq
  have hdeg : q.degree < received.toFinset.card := Lagrange.degree_interpolate_lt v (u32F_injOn hu _)
  have hev : ∀ l ∈ received.toFinset, q.eval (u32F F l) = v l := fun l hl =>
    Lagrange.eval_interpolate_at_node v (u32F_injOn hu _) hl
  have h1 := interpolate_poly hu received q hdeg
  have h2 := interpolate_poly hu D q (lt_of_lt_of_le hdeg (by exact_mod_cast card_le_card hs))
  have h3 : Spec.interpolate received v = q.eval 0 := by
    rw [← h1]
    unfold Spec.interpolate
    exact sum_congr rfl fun l hl => by rw [hev l hl]
  rw [h3, ← h2]
  unfold Spec.interpolate
  rw [← sum_sub_distrib, ← sum_sdiff hs]
  have h4 : ∑ x ∈ received.toFinset, (Spec.lagrange D x * v x - Spec.lagrange D x * q.eval (u32F F x)) = 0 :=
    sum_eq_zero fun l hl => by rw [hev l hl, sub_self]
  rw [h4, add_zero]
  refine sum_congr rfl fun l _ => ?_
  rw [mul_sub]
  rfl

/-- C122, negation: everybody follows the protocol, except that participant `i` receives the shares of the dealers
`received` only, at least `t` of them. Then `to_round_two` succeeds without complaint and `finish` returns the right
group key, together with a signing key that belongs to the public key derived from the commitments (by everybody, or by
`i` with `verify`) if and only if the weighted differences between the missing shares and their predictions from the
received ones cancel. -/
theorem C122_withheld_unnoticed {S : Suite F G R} (hS : S.Lawful) (dbg : Bool) (params : Params) (ht : params.t ≠ 0)
    (idx : List U32) (hidx : idx.Nodup) (hlen : idx.length = params.n.toNat) (r1 : U32 → R)
    (P : U32 → Participant F G) (coeffs : U32 → List F) (x : U32 → F)
    (hP : ∀ l ∈ idx, newDealer S params l (r1 l) = .ok (P l, coeffs l, x l))
    (i : U32) (ord : List U32) (ho : ord.Perm idx) (r2 r3 : R) (d1 : RoundOne F G)
    (L : ParticipantList F G) (hboot : bootstrap S dbg params (x i) i (coeffs i) (ord.map P) r2 = .ok (d1, L))
    (E : U32 → EncShare) (received : List U32) (hrec : received.Nodup) (hsub : received ⊆ idx)
    (htr : params.t.toNat ≤ received.length)
    (hE : ∀ l ∈ received, HonestlyDealt S l i (x l) (coeffs l) (x i • S.gen) (E l)) :
    ∃ d2, d1.toRoundTwo S dbg (received.map E) r3 = .ok (d2, []) ∧
      d2.finish = .ok (Spec.groupSecret idx coeffs • S.gen,
        ⟨i, Spec.interpolate received fun l => Spec.polyEval (coeffs l) (i.toNat : F)⟩) ∧
      ∀ comms : List (VssCommitment G), comms.Perm (idx.map fun l => ⟨l, commitPoints S (coeffs l)⟩) →
        (generateFromCommitments i comms : Out F G _) = .ok ⟨i, Spec.signingKey idx coeffs i • S.gen⟩ ∧
        (((⟨i, Spec.interpolate received fun l => Spec.polyEval (coeffs l) (i.toNat : F)⟩ :
            IndividualSigningKey F).toPublic S).verify F comms = .ok () ↔
          ∑ l ∈ idx.toFinset \ received.toFinset, Spec.lagrange idx l *
            (Spec.polyEval (coeffs l) (i.toNat : F) -
              Spec.predicted received (fun l => Spec.polyEval (coeffs l) (i.toNat : F)) l) = 0) := by
  have hPg := fun l hl => newDealer_good ht (hP l hl)
  have htn : params.t.toNat ≤ params.n.toNat := by
    rw [← hlen]; exact htr.trans (hrec.subperm hsub).length_le
  have h0 : 0 ∉ idx := fun h => (hPg 0 h).1 rfl
  have hcs : ∀ l ∈ idx, coeffs l ≠ [] := by
    intro l hl h
    have := (hPg l hl).2.2.1
    rw [h] at this
    exact ht (UInt32.toNat_inj.mp (by simpa using this.symm))
  obtain ⟨m0, hb, _⟩ := bootstrap_honest hS.cipher hS.codec dbg params ht htn (ord.map P)
    (by rw [List.length_map, ho.length_eq, hlen])
    (by
      intro p hp
      obtain ⟨l, hl, rfl⟩ := List.mem_map.mp hp
      exact (hPg l (ho.mem_iff.mp hl)).2.2.2.2.2) (x i) i (coeffs i) r2
  rw [hb] at hboot
  simp only [Except.ok.injEq, Prod.mk.injEq] at hboot
  obtain ⟨rfl, -⟩ := hboot
  have hce : commEntries (ord.map P) = ord.map fun l => (l, ⟨l, commitPoints S (coeffs l)⟩) := by
    unfold commEntries
    rw [List.filterMap_map, ← List.filterMap_eq_map]
    refine List.filterMap_congr fun l hl => ?_
    obtain ⟨_, h1, _, h2, _⟩ := hPg l (ho.mem_iff.mp hl)
    simp only [Function.comp, h1, h2, Option.map_some]
  have hcomms : BMap.ofList (commEntries (ord.map P)) = dealerMap S idx coeffs := by
    rw [hce]
    exact BMap.ofList_congr (dealerMap_nodup (ho.nodup_iff.mpr hidx) _) (ho.map _)
  have hde : dhEntries (ord.map P) = ord.map fun l => (l, x l • S.gen) := by
    unfold dhEntries
    rw [List.map_map]
    refine List.map_congr_left fun l hl => ?_
    obtain ⟨_, h1, _, _, h3, _⟩ := hPg l (ho.mem_iff.mp hl)
    simp only [Function.comp, h1, h3]
  have hdh : ∀ l ∈ idx, (BMap.ofList (dhEntries (ord.map P))).get? l = some (x l • S.gen) := by
    intro l hl
    rw [hde, BMap.get?_ofList]
    · exact List.mem_map.mpr ⟨l, ho.mem_iff.mpr hl, rfl⟩
    · rw [List.map_map]
      have : (Prod.fst ∘ fun l : U32 => (l, x l • S.gen)) = id := rfl
      rw [this, List.map_id]
      exact ho.nodup_iff.mpr hidx
  have hlen' : (UInt32.ofNat (ord.map P).length).toNat = params.n.toNat := by
    rw [List.length_map, ho.length_eq, hlen]
    exact UInt32.toNat_ofNat_of_lt (by simpa [UInt32.size] using params.n.toNat_lt)
  have hop := fun l hl => honestlyDealt_opens hS.cipher hS.codec (hE l hl)
  have hEs : (received.map E).map (·.senderIndex) = received := by
    rw [List.map_map]
    conv_rhs => rw [← List.map_id received]
    exact List.map_congr_left fun l hl => (hop l hl).1
  obtain ⟨h1, m, h2, h3, h4, h5⟩ := roundTwo_good (S := S) dbg
    ⟨roundOneState S params (x i) i true (ord.map P) (some m0)⟩ (dealerMap S idx coeffs)
    (by simp only [roundOneState, if_true, hcomms]) (BMap.wf_ofList _).nodup (received.map E)
    (by simpa [roundOneState] using htr)
    (by simp only [roundOneState]; rw [hlen']; exact htn)
    (by rw [hEs]; exact hrec) (fun l => x l • S.gen) coeffs
    (by
      intro e he
      obtain ⟨l, hl, rfl⟩ := List.mem_map.mp he
      obtain ⟨k1, k2, k3⟩ := hop l hl
      rw [k1]
      rw [smul_comm] at k3
      exact ⟨hdh l (hsub hl), ⟨_, (dealerMap_get S hidx coeffs l _).mpr ⟨hsub hl, rfl⟩, rfl⟩, k2, k3⟩) r3
  have hD := dealerMap_ok S hidx h0 coeffs hcs
  have hmk : ∀ k, k ∈ m.keys ↔ k ∈ received := fun k => by rw [h4, hEs]
  refine ⟨_, h1, ?_, fun comms hperm => ?_⟩
  · have hf := finish_ok (hu := hS.u32) (d := ⟨roundTwoState S (roundOneState S params (x i) i true (ord.map P) (some m0))
      (received.map E)⟩) (comms := dealerMap S idx coeffs)
      (hc := by simp only [roundTwoState, roundOneState, if_true, hcomms]) (hn := hD.wf.nodup) (h0 := hD.zero)
      (pk := fun l => (coeffs l).headD 0 • S.gen)
      (hpk := by
        intro k c hc
        obtain ⟨hk, rfl⟩ := (dealerMap_get S hidx coeffs k c).mp hc
        cases h : coeffs k with
        | nil => exact absurd h (hcs k hk)
        | cons a as => simp [commitPoints, h]) (m := m) (hm := h2) (hmn := h3.nodup)
      (hm0 := by rw [hmk]; exact fun h => h0 (hsub h))
      (ev := fun l => Spec.polyEval (coeffs l) (i.toNat : F))
      (hev := by
        intro k s hs
        have hk : k ∈ received := (hmk k).mp (BMap.mem_keys_of_get? hs)
        have := h5 (E k) (List.mem_map.mpr ⟨k, hk, rfl⟩)
        rw [(hop k hk).1, hs] at this
        cases this
        rfl)
    rw [hf]
    have hk : (dealerMap S idx coeffs).keys.toFinset = idx.toFinset := by ext l; simp [dealerMap_keys]
    have hL : ∀ l, Spec.lagrange (F := F) (dealerMap S idx coeffs).keys l = Spec.lagrange idx l :=
      fun l => spec_lagrange_congr (dealerMap_keys S idx coeffs) l
    congr 2
    · unfold Spec.interpolateG Spec.groupSecret Spec.interpolate
      rw [hk, sum_smul]
      refine sum_congr rfl fun l hl => ?_
      beta_reduce
      rw [hL, mul_smul, Spec.polyEval_zero]
    · congr 1
      exact interpolate_list_congr hmk _
  · have hperm' : (comms.map (·.index)).Perm idx := by
      have := hperm.map (·.index)
      simpa only [List.map_map, Function.comp_def, List.map_id'] using this
    have hgen : (generateFromCommitments i comms : Out F G _) = .ok ⟨i, Spec.signingKey idx coeffs i • S.gen⟩ := by
      rw [generateFromCommitments_ok hS.u32 i comms (hperm'.nodup_iff.mpr hidx) (fun h => h0 (hperm'.mem_iff.mp h))]
      congr 2
      rw [(hperm.map _).sum_eq, List.map_map]
      unfold Spec.signingKey Spec.interpolate
      rw [sum_smul, List.sum_toFinset _ hidx]
      congr 1
      refine List.map_congr_left fun l _ => ?_
      simp only [Function.comp]
      rw [spec_lagrange_congr (fun k => hperm'.mem_iff) l, pointEval_commitPoints, mul_smul]
      rfl
    refine ⟨hgen, ?_⟩
    rw [verifyKey_iff hS.u32, ← interpolate_received hS.u32 idx received hsub, sub_eq_zero]
    simp only [IndividualSigningKey.toPublic]
    rw [hgen]
    simp only [Except.ok.injEq, IndividualVerifyingKey.mk.injEq, true_and]
    exact ⟨fun h => hS.group.gen_inj _ _ h, fun h => congrArg (· • S.gen) h⟩

/-- C122, one share missing: the key is right for exactly one value of the missing share, the one the other dealers'
shares predict. -/
theorem C122_one_missing (hu : Suite.U32Inj F) (idx received : List U32) (h0 : 0 ∉ idx) (l : U32) (hl : l ∈ idx)
    (hr : ∀ k, k ∈ received ↔ k ∈ idx ∧ k ≠ l) (v : U32 → F) :
    Spec.interpolate received v = Spec.interpolate idx v ↔ v l = Spec.predicted received v l := by
  have hset : idx.toFinset \ received.toFinset = {l} := by
    ext k
    simp only [mem_sdiff, List.mem_toFinset, hr, mem_singleton]
    constructor
    · rintro ⟨h1, h2⟩
      by_contra hne
      exact h2 ⟨h1, hne⟩
    · rintro rfl
      exact ⟨hl, fun h => h.2 rfl⟩
  have h := interpolate_received hu idx received (fun k hk => ((hr k).mp hk).1) v
  rw [hset, sum_singleton] at h
  rw [eq_comm, ← sub_eq_zero, h, mul_eq_zero, or_iff_right (lagrange_ne_zero hu idx h0 l), sub_eq_zero]

/-- C122, what holds: in the situation of `C122_withheld_unnoticed`, a participant that checks its key against the
commitments of all dealers notices a wrong key, and the key is right if no share is missing. Missing: `to_round_two` and
`finish` notice neither. -/
theorem C122_self_check_partial {S : Suite F G R} (hS : S.Lawful) (dbg : Bool) (params : Params) (ht : params.t ≠ 0)
    (idx : List U32) (hidx : idx.Nodup) (hlen : idx.length = params.n.toNat) (r1 : U32 → R)
    (P : U32 → Participant F G) (coeffs : U32 → List F) (x : U32 → F)
    (hP : ∀ l ∈ idx, newDealer S params l (r1 l) = .ok (P l, coeffs l, x l))
    (i : U32) (ord : List U32) (ho : ord.Perm idx) (r2 r3 : R) (d1 : RoundOne F G)
    (L : ParticipantList F G) (hboot : bootstrap S dbg params (x i) i (coeffs i) (ord.map P) r2 = .ok (d1, L))
    (E : U32 → EncShare) (received : List U32) (hrec : received.Nodup) (hsub : received ⊆ idx)
    (htr : params.t.toNat ≤ received.length)
    (hE : ∀ l ∈ received, HonestlyDealt S l i (x l) (coeffs l) (x i • S.gen) (E l)) :
    ∃ d2 sk, d1.toRoundTwo S dbg (received.map E) r3 = .ok (d2, []) ∧
      d2.finish = .ok (Spec.groupSecret idx coeffs • S.gen, sk) ∧ sk.index = i ∧
      (∀ comms : List (VssCommitment G), comms.Perm (idx.map fun l => ⟨l, commitPoints S (coeffs l)⟩) →
        ((sk.toPublic S).verify F comms = .ok () ↔ sk.key = Spec.signingKey idx coeffs i)) ∧
      (idx ⊆ received → sk.key = Spec.signingKey idx coeffs i) := by
  obtain ⟨d2, h1, h2, h3⟩ := C122_withheld_unnoticed hS dbg params ht idx hidx hlen r1 P coeffs x hP i ord ho r2 r3 d1 L
    hboot E received hrec hsub htr hE
  refine ⟨d2, _, h1, h2, rfl, fun comms hc => ?_, fun h => ?_⟩
  · rw [(h3 comms hc).2, ← interpolate_received hS.u32 idx received hsub, sub_eq_zero]
    exact eq_comm
  · exact interpolate_list_congr (fun l => ⟨fun hl => hsub hl, fun hl => h hl⟩) _

/-- C122, consequence: in a signing session of signers `J` with registered public keys `key j • gen`, signer `i` uses
another key than the registered one belongs to, as the victim of a withheld share does, and everything else follows the
protocol. Unless the challenge is zero, `aggregate` fails and reports exactly the victim. -/
theorem C122_victim_reported {S : Suite F G R} (hg : S.GroupLaws) (hu : Suite.U32Inj F) (dbg : U32 → Bool)
    (params : Params) (message : Bytes) (J : List U32) (hJ : J.Nodup) (h0 : 0 ∉ J) (hn : J.length ≤ params.n.toNat)
    (key : U32 → F) (s : F) (hs : Spec.interpolate J key = s) (i : U32) (hi : i ∈ J) (k : F) (hk : k ≠ key i)
    (L : U32 → List (CommitmentShare F G)) (hL : ∀ i ∈ J, (L i).length < 2 ^ 63) (pos : U32 → UInt64)
    (share : U32 → CommitmentShare F G) (hshare : ∀ i ∈ J, (L i)[(pos i).toNat]? = some (share i))
    (hcom : ∀ i ∈ J, (share i).hidingC.commit = (share i).hidingC.secret • S.gen ∧
      (share i).bindingC.commit = (share i).bindingC.secret • S.gen)
    (ops : List (AggOp F G))
    (hinc : ∀ e, e ∈ Spec.inclusions ops ↔ ∃ i ∈ J, e = (i, (share i).publish, key i • S.gen))
    (hchal : Spec.sessionChallenge S (s • S.gen) (Spec.messageHash S message)
      (session params (s • S.gen) message ops).state.signers ≠ 0) :
    ∃ p : U32 → PartialSignature F,
      (∀ j ∈ J, (sign S (dbg j) ⟨j, if j = i then k else key j⟩ (Spec.messageHash S message) (s • S.gen) (L j) (pos j)
        (session params (s • S.gen) message ops).state.signers).1 = .ok (p j) ∧ (p j).index = j) ∧
      ∀ ops' : List (AggOp F G), (∀ e ∈ Spec.inclusions ops', e ∈ Spec.inclusions ops) →
        (∀ j ∈ J, Spec.lastOf (Spec.partials (ops ++ ops')) j = some (p j).z) →
        ∃ f, (session params (s • S.gen) message (ops ++ ops')).finalize S = .ok f ∧
          f.aggregate S = .error (.err (.misbehavingParticipants [i])) := by
  obtain ⟨p, hp, hall⟩ := C66_deviators_reported hg hu dbg params message J hJ h0 (List.ne_nil_of_mem hi) hn key s hs L hL
    pos share hshare hcom ops hinc
  set signers := (session params (s • S.gen) message ops).state.signers with hsig
  have hsgn : ∀ j ∈ J, ∀ sk : F, ∃ q, (sign S (dbg j) ⟨j, sk⟩ (Spec.messageHash S message) (s • S.gen) (L j) (pos j)
      signers).1 = .ok q ∧ q.index = j ∧ q.z = (share j).hidingC.secret +
        (share j).bindingC.secret * Spec.rho S (Spec.messageHash S message) signers j +
          Spec.lagrange (signers.map (·.participantIndex)) j * sk *
            Spec.sessionChallenge S (s • S.gen) (Spec.messageHash S message) signers := by
    intro j hj sk
    obtain ⟨q, hq⟩ := (C55_success_iff hu S (dbg j) ⟨j, sk⟩ (Spec.messageHash S message) (s • S.gen) (L j) (pos j)
      (hL j hj) signers).mpr ((C55_success_iff hu S (dbg j) ⟨j, key j⟩ (Spec.messageHash S message) (s • S.gen) (L j)
        (pos j) (hL j hj) signers).mp ⟨p j, hp j hj⟩)
    refine ⟨q, hq, ?_⟩
    unfold sign at hq
    cases hc : signCore S (dbg j) ⟨j, sk⟩ (Spec.messageHash S message) (s • S.gen) (L j) (pos j) signers with
    | error f => rw [hc] at hq; cases hq
    | ok v =>
      rw [hc] at hq
      obtain ⟨h1, _, _, _, _, h2⟩ := signCore_ok S (dbg j) ⟨j, sk⟩ _ _ _ _ signers v.1 v.2 hc
      rw [hshare j hj] at h1
      simp only [Option.some.injEq] at h1
      simp only [Except.ok.injEq] at hq
      rw [← hq, h1]
      exact ⟨rfl, h2⟩
  have : Nonempty (PartialSignature F) := ⟨⟨0, 0⟩⟩
  have hq : ∀ j ∈ J, ∃ q, (sign S (dbg j) ⟨j, if j = i then k else key j⟩ (Spec.messageHash S message) (s • S.gen) (L j)
      (pos j) signers).1 = .ok q ∧ q.index = j ∧ (q.z ≠ (p j).z ↔ j = i) := by
    intro j hj
    obtain ⟨q, h1, hqi, h2⟩ := hsgn j hj (if j = i then k else key j)
    obtain ⟨q', h1', _, h2'⟩ := hsgn j hj (key j)
    rw [hp j hj] at h1'
    cases h1'
    refine ⟨q, h1, hqi, ?_⟩
    by_cases hji : j = i
    · subst hji
      rw [if_pos rfl] at h2
      refine ⟨fun _ => rfl, fun _ h => ?_⟩
      rw [h2, h2', add_right_inj] at h
      have h0' : 0 ∉ signers.map (·.participantIndex) := ((C55_success_iff hu S (dbg j) ⟨j, key j⟩ _ (s • S.gen) (L j)
        (pos j) (hL j hj) signers).mp ⟨p j, hp j hj⟩).2.2.2
      exact hk (mul_left_cancel₀ (lagrange_ne_zero hu _ h0' j) (mul_right_cancel₀ hchal h))
    · rw [if_neg hji] at h2
      exact ⟨fun h => absurd (h2.trans h2'.symm) h, fun h => absurd h hji⟩
  choose! q hq1 hqi hq2 using hq
  refine ⟨q, fun j hj => ⟨hq1 j hj, hqi j hj⟩, fun ops' hops' hpart => ?_⟩
  obtain ⟨f, hf, _, hbad⟩ := hall ops' (fun j => (q j).z) hops' hpart
  obtain ⟨l, hl1, hl2, hl3⟩ := hbad (by
    intro hsum
    rw [← List.sum_toFinset _ hJ, ← List.sum_toFinset _ hJ] at hsum
    have := sub_eq_zero.mpr hsum
    rw [← sum_sub_distrib, sum_eq_single_of_mem i (List.mem_toFinset.mpr hi)] at this
    · exact (hq2 i hi).mpr rfl (sub_eq_zero.mp this)
    · intro j hj hji
      by_contra hne
      exact hji ((hq2 j (List.mem_toFinset.mp hj)).mp fun h => hne (sub_eq_zero.mpr h)))
  refine ⟨f, hf, ?_⟩
  have : l = [i] := by
    refine eq_of_strict_of_mem hl2 (by simp) fun j => ?_
    rw [hl3, List.mem_singleton]
    exact ⟨fun h => (hq2 j h.1).mp h.2, fun h => h ▸ ⟨hi, (hq2 i hi).mpr rfl⟩⟩
  rw [hl1, this]

section Examples
open Toy

theorem toy_coeffs (i : U32) (r : Nat) (p : Participant Fp Fp) (cs : List Fp) (x : Fp)
    (h : newDealer suite ⟨3, 2⟩ i r = .ok (p, cs, x)) :
    cs = [(((r + 2) * (r + 2) + 3 * (r + 2) + 7 : Nat) : Fp), (((r + 3) * (r + 3) + 3 * (r + 3) + 7 : Nat) : Fp)] := by
  by_cases hi : i = 0
  · exact absurd hi (newDealer_good (by decide) h).1
  · unfold newDealer newInternal at h
    rw [if_neg hi] at h
    simp only [Except.ok.injEq, Prod.mk.injEq] at h
    obtain ⟨-, rfl, -⟩ := h
    rfl

/-- C122: in a session of three with threshold two, dealer 3 sends participant 1 nothing. Participant 1 finishes with
the group key of the session and a key that fails the check against the commitments. -/
example : ∃ (d1 : RoundOne Fp Fp) (d2 : RoundTwo Fp Fp) (e1 e2 : EncShare) (gk : Fp) (sk : IndividualSigningKey Fp)
    (comms : List (VssCommitment Fp)), d1.toRoundTwo suite true [e1, e2] 0 = .ok (d2, []) ∧
      d2.finish = .ok (gk, sk) ∧ comms.length = 3 ∧ (sk.toPublic suite).verify Fp comms ≠ .ok () := by
  have hdeal : ∀ i ∈ [(1 : U32), 2, 3], ∃ p cs x,
      newDealer suite ⟨3, 2⟩ i (if i = 3 then 10 else 0) = .ok (p, cs, x) := fun i hi => by
    obtain ⟨p, cs, dh, rng', hN, _⟩ := newInternal_dealer suite ⟨3, 2⟩ (by decide) i (by rintro rfl; simp at hi) none
      (if i = 3 then 10 else 0)
    exact ⟨p, cs, dh, by unfold newDealer; rw [hN]⟩
  choose! P coeffs x hP using hdeal
  have hE : ∀ l, ∃ e, HonestlyDealt suite l 1 (x l) (coeffs l) (x 1 • suite.gen) e := fun l => by
    obtain ⟨e, r, h, _⟩ := encryptShare_ok cipher_laws codec_laws (evaluatePolynomial l 1 (coeffs l))
      (suite.encG (x l • (x 1 • suite.gen))) 0
    exact ⟨e, 0, r, h⟩
  choose E hE using hE
  have hPg := fun l hl => newDealer_good (by decide) (hP l hl)
  obtain ⟨m0, hb, _⟩ := bootstrap_honest cipher_laws codec_laws true ⟨3, 2⟩ (by decide) (by decide) ([1, 2, 3].map P)
    (by simp) (by
      intro p hp
      obtain ⟨l, hl, rfl⟩ := List.mem_map.mp hp
      exact (hPg l hl).2.2.2.2.2) (x 1) 1 (coeffs 1) 0
  obtain ⟨d2, h1, h2, h3⟩ := C122_withheld_unnoticed lawful true ⟨3, 2⟩ (by decide) [1, 2, 3] (by decide) rfl _ P coeffs x
    hP 1 [1, 2, 3] (List.Perm.refl _) 0 0 _ _ hb E [1, 2] (by decide) (by decide) (by decide) (fun l _ => hE l)
  refine ⟨_, d2, E 1, E 2, _, _, [1, 2, 3].map fun l => ⟨l, commitPoints suite (coeffs l)⟩, h1, h2, rfl, fun h => ?_⟩
  have h4 := (h3 _ (List.Perm.refl _)).2.mp h
  rw [← interpolate_received u32_inj [1, 2, 3] [1, 2] (by decide), sub_eq_zero, eq_comm,
    C122_one_missing u32_inj [1, 2, 3] [1, 2] (by decide) 3 (by decide) (by
      intro k
      simp only [List.mem_cons, List.not_mem_nil, or_false]
      constructor
      · rintro (rfl | rfl) <;> simp
      · rintro ⟨rfl | rfl | rfl, h⟩ <;> simp at h ⊢)] at h4
  have c1 : coeffs 1 = [17, 25] := (toy_coeffs 1 0 _ _ _ (by simpa using hP 1 (by decide))).trans (by norm_num)
  have c2 : coeffs 2 = [17, 25] := (toy_coeffs 2 0 _ _ _ (by simpa using hP 2 (by decide))).trans (by norm_num)
  have c3 : coeffs 3 = [187, 215] := (toy_coeffs 3 10 _ _ _ (by simpa using hP 3 (by decide))).trans (by norm_num)
  have hpred : Spec.predicted [1, 2] (fun l => Spec.polyEval (coeffs l) ((1 : U32).toNat : Fp)) 3 =
      Spec.polyEval ([17, 25] : List Fp) ((1 : U32).toNat : Fp) := by
    unfold Spec.predicted
    have := Lagrange.eq_interpolate_of_eval_eq (s := [(1 : U32), 2].toFinset) (v := u32F Fp)
      (f := Polynomial.C (Spec.polyEval ([17, 25] : List Fp) ((1 : U32).toNat : Fp)))
      (fun l => Spec.polyEval (coeffs l) ((1 : U32).toNat : Fp)) (u32F_injOn u32_inj _)
      (lt_of_le_of_lt Polynomial.degree_C_le (by decide)) (by
        intro l hl
        simp only [List.mem_toFinset, List.mem_cons, List.not_mem_nil, or_false] at hl
        rcases hl with rfl | rfl <;> simp [c1, c2])
    refine (congrArg (Polynomial.eval _) this.symm).trans (Polynomial.eval_C)
  rw [hpred, c3] at h4
  simp [Spec.polyEval, Finset.sum_range_succ] at h4
  revert h4
  decide

/-- C122: signers 1 and 3 share 42 with the polynomial `42 + 7 x`, signer 1 signs with a key that is off by one, and is
reported. -/
example : ∃ p1 p3 ops' f,
    (sign suite true ⟨1, SigningExamples.key 1 + 1⟩ (Spec.messageHash suite (strBytes "hello"))
      (Spec.polyEval [(42 : Fp), 7] 0 • suite.gen) [SigningExamples.share 1] 0
      (session ⟨3, 2⟩ (Spec.polyEval [(42 : Fp), 7] 0 • suite.gen) (strBytes "hello")
        SigningExamples.ops).state.signers).1 = .ok p1 ∧
    ops' = [AggOp.partialSig p1, .partialSig p3] ∧
    (session ⟨3, 2⟩ (Spec.polyEval [(42 : Fp), 7] 0 • suite.gen) (strBytes "hello")
      (SigningExamples.ops ++ ops')).finalize suite = .ok f ∧
      f.aggregate suite = .error (.err (.misbehavingParticipants [1])) := by
  obtain ⟨p, hp, h⟩ := C122_victim_reported group_laws u32_inj (fun _ => true) ⟨3, 2⟩ (strBytes "hello") [1, 3]
    (by decide) (by decide) (by decide) SigningExamples.key _
    (SigningExamples.key_shares [1, 3] (by decide) (by decide)) 1 (by decide) (SigningExamples.key 1 + 1)
    (fun h => one_ne_zero (add_eq_left.mp h)) (fun i => [SigningExamples.share i]) (fun _ _ => by simp) (fun _ => 0)
    SigningExamples.share (fun _ _ => rfl) (fun _ _ => ⟨rfl, rfl⟩) SigningExamples.ops SigningExamples.hinc
    (by decide +kernel)
  obtain ⟨f, h1, h2⟩ := h [.partialSig (p 1), .partialSig (p 3)] (by simp [Spec.inclusions]) (by
      intro i hi
      have e1 := (hp 1 (by simp)).2
      have e3 := (hp 3 (by simp)).2
      simp only [List.mem_cons, List.not_mem_nil, or_false] at hi
      rcases hi with rfl | rfl <;> simp [Spec.partials, SigningExamples.ops, Spec.lastOf, Spec.firstOf, e1, e3])
  exact ⟨p 1, p 3, _, f, by simpa using (hp 1 (by decide)).1, rfl, h1, h2⟩

end Examples

end IceFrost
