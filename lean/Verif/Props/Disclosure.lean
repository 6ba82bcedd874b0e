import Verif.Props.Attacks
import Verif.Props.Exact

/-! # C123: what a complaint discloses -/

set_option linter.unusedSectionVars false
set_option linter.unusedSimpArgs false

namespace IceFrost

variable {F G R : Type} [Field F] [DecidableEq F] [AddCommGroup G] [Module F G] [DecidableEq G]

/-- C123, negation: participant `i` opens a session with `bootstrap` and later complains about a share of `l`. The shared
key in the complaint decrypts also the share that `i` dealt to `l`. -/
theorem C123_dealt_share_disclosed {S : Suite F G R} (hc : S.CipherLaws) (hd : S.CodecLaws) (dbg dbg' : Bool)
    (params : Params) (x : F) (i : U32) (poly : List F) (ps : List (Participant F G)) (rng : R)
    (hnd : (ps.map (·.index)).Nodup) (d : RoundOne F G) (L : ParticipantList F G)
    (hboot : bootstrap S dbg params x i poly ps rng = .ok (d, L)) (es : List EncShare) (rng' : R)
    (cs : List (Complaint F G)) (hmade : MadeBy S dbg' d es rng' cs) (m : BMap EncShare)
    (hm : d.theirEncryptedSecretShares = .ok m) (c : Complaint F G) (hcs : c ∈ cs) :
    ∃ e, m.get? c.encShare.senderIndex = some e ∧
      decryptShare S e (S.encG c.dhSharedKey) =
        .ok ⟨i, c.encShare.senderIndex,
          ∑ k ∈ Finset.range poly.length, poly.getD k 0 * (c.encShare.senderIndex.toNat : F) ^ k⟩ := by
  obtain ⟨comms, hcomms, _, hdh⟩ := C90_last_record hc hd dbg params x i poly ps rng d L (.inl hboot)
  obtain ⟨hv, _, _, _, hcm, _, _, hx, _⟩ := C20_bootstrap_classifies hc hd dbg params x i poly ps rng d L hboot
  rw [hcomms] at hcm
  simp only [Option.some.injEq] at hcm
  have hwf : comms.WF := hcm ▸ BMap.wf_ofList _
  obtain ⟨e0, _, rfl, _, pk, h2, h3, _⟩ := forall₂_mem_left
    (C28_complaints S dbg' d comms hcomms hwf.nodup es rng' cs hmade) c hcs
  obtain ⟨l1, p, l2, hl, hp, rfl, _⟩ := (hdh _ _).mp h2
  have hps : p ∈ ps := by
    have : p ∈ L.valid := by rw [hl]; simp
    rw [hv] at this
    exact List.mem_of_mem_filter this
  obtain ⟨m', k1, _, k3, k4⟩ := bootstrap_shares hc hd dbg params x i poly ps rng d L hboot
  rw [k1] at hm
  cases hm
  obtain ⟨e, he⟩ := BMap.exists_get? ((k3 c.encShare.senderIndex).mpr ⟨p, hps, hp⟩)
  obtain ⟨q, hq, hqi, hdt⟩ := k4 _ e he
  have : q = p := List.inj_on_of_nodup_map hnd hq hps (hqi.trans hp.symm)
  subst this
  refine ⟨e, he, ?_⟩
  rw [h3, hx, hdt.2.2.2, hqi]
  rfl

/-- C123, consequence: whoever sees the complaints of `i` and the encrypted shares dealt by `i`, and holds some of the
shares of `i`, for as many participants together as the polynomial of `i` has coefficients, computes the secret that
`i` contributes to the group secret. -/
theorem C123_secret_disclosed {S : Suite F G R} (hc : S.CipherLaws) (hd : S.CodecLaws) (hu : Suite.U32Inj F)
    (dbg dbg' : Bool) (params : Params) (x : F) (i : U32) (poly : List F) (ps : List (Participant F G)) (rng : R)
    (hnd : (ps.map (·.index)).Nodup) (d : RoundOne F G) (L : ParticipantList F G)
    (hboot : bootstrap S dbg params x i poly ps rng = .ok (d, L)) (es : List EncShare) (rng' : R)
    (cs : List (Complaint F G)) (hmade : MadeBy S dbg' d es rng' cs) (m : BMap EncShare)
    (hm : d.theirEncryptedSecretShares = .ok m) (K : List U32) (hK : K.Nodup) (hlen : poly.length ≤ K.length) (v : U32 → F)
    (hv : ∀ k ∈ K, v k = Spec.polyEval poly (k.toNat : F) ∨ ∃ c ∈ cs, ∃ e s r, c.encShare.senderIndex = k ∧
      m.get? k = some e ∧ decryptShare S e (S.encG c.dhSharedKey) = .ok ⟨s, r, v k⟩) :
    Spec.interpolate K v = poly.headD 0 := by
  rw [← Spec.polyEval_zero, ← interpolate_polyEval hu hK poly hlen]
  unfold Spec.interpolate
  refine Finset.sum_congr rfl fun k hk => ?_
  congr 1
  rcases hv k (List.mem_toFinset.mp hk) with h | ⟨c, hcs, e, s, r, rfl, he, hdec⟩
  · exact h
  · obtain ⟨e', he', hdec'⟩ := C123_dealt_share_disclosed hc hd dbg dbg' params x i poly ps rng hnd d L hboot es rng' cs
      hmade m hm c hcs
    rw [he] at he'
    cases he'
    rw [hdec] at hdec'
    simp only [Except.ok.injEq, SecretShare.mk.injEq] at hdec'
    exact hdec'.2.2

/-- C123, what holds: the accused with private key `y` knows the disclosed key already, and the proof says nothing more
to anybody: for each challenge the responses correspond one to one to the random choices of the maker, and the first
messages are determined by public data, challenge and response. -/
theorem C123_accused_learns_nothing_partial (S : Suite F G R) (x y : F) (e : EncShare) (rng : R) :
    let c := (Complaint.new S (y • S.gen) x (x • (y • S.gen)) e rng).1
    c.dhSharedKey = y • c.dhPublicKey ∧ c.encShare = e ∧ c.dhPublicKey = x • S.gen ∧
    (let k := (S.randScalar rng).1
     let h := S.sha256FieldHash (strBytes "Complaint Context") (S.encG (x • S.gen) ++ S.encG (y • S.gen) ++
       S.encG (x • (y • S.gen)) ++ S.encG (k • S.gen) ++ S.encG (k • (y • S.gen)) ++ (encShareCodec S).enc e)
     c.proof = ⟨k • S.gen, k • (y • S.gen), k + h * x⟩) ∧
    ∀ h : F, Function.Bijective (fun r : F => r + h * x) ∧
      ∀ r : F, r • S.gen = (r + h * x) • S.gen - h • c.dhPublicKey ∧
        r • (y • S.gen) = (r + h * x) • (y • S.gen) - h • c.dhSharedKey := by
  refine ⟨smul_comm _ _ _, rfl, rfl, rfl, fun h => ⟨⟨fun a b hab => add_right_cancel hab, fun z => ⟨z - h * x, by simp⟩⟩,
    fun r => ⟨?_, ?_⟩⟩⟩
  · show r • S.gen = (r + h * x) • S.gen - h • (x • S.gen)
    module
  · show r • (y • S.gen) = (r + h * x) • (y • S.gen) - h • (x • (y • S.gen))
    module

/-- C123: the transcript of `Complaint::new` is the one of `C123_accused_learns_nothing_partial` for the drawn number and
the hashed challenge; with the hash replaced at one message, every transcript computed without `x` is accepted. -/
theorem C123_complaint_simulated (S : Suite F G R) (pk pkL shared : G) (e : EncShare) (h z : F) :
    let a1 := z • S.gen - h • pk
    let a2 := z • pkL - h • shared
    let S' : Suite F G R := { S with sha256FieldHash := (fun dst msg =>
      if dst = strBytes "Complaint Context" ∧ msg = complaintMessage S pk pkL shared a1 a2 e then h
      else S.sha256FieldHash dst msg) }
    (⟨shared, pk, e, ⟨a1, a2, z⟩⟩ : Complaint F G).verify S' pkL = .ok () := by
  intro a1 a2 S'
  rw [complaintVerify_iff]
  have : complaintHash S' (complaintMessage S' pk pkL shared a1 a2 e) = h := if_pos ⟨rfl, rfl⟩
  simp only [this]
  exact ⟨sub_add_cancel _ _, sub_add_cancel _ _⟩

section Examples
open Toy
attribute [local instance] Classical.propDecidable

/-- C123: four dealers, threshold two; participant 1 receives damaged shares of 3 and 4 and complains. The two complaints
and the shares that 1 dealt to 3 and 4 disclose its secret. -/
example : ∃ (d : RoundOne Fp Fp) (L : ParticipantList Fp Fp) (poly : List Fp) (x : Fp) (ps : List (Participant Fp Fp))
    (m : BMap EncShare) (c3 c4 : Complaint Fp Fp) (e3 e4 : EncShare) (v : U32 → Fp),
    bootstrap suite true ⟨4, 2⟩ x 1 poly ps 0 = .ok (d, L) ∧ poly.length = 2 ∧ d.theirEncryptedSecretShares = .ok m ∧
    (∃ d2, d.toRoundTwo suite true [⟨3, 1, [], []⟩, ⟨4, 1, [], []⟩] 0 = .ok (d2, [c3, c4])) ∧
    m.get? 3 = some e3 ∧ m.get? 4 = some e4 ∧
    decryptShare suite e3 (suite.encG c3.dhSharedKey) = .ok ⟨1, 3, v 3⟩ ∧
    decryptShare suite e4 (suite.encG c4.dhSharedKey) = .ok ⟨1, 4, v 4⟩ ∧
    Spec.interpolate [3, 4] v = poly.headD 0 := by
  have hbad : ∀ (l : U32) (P : Fp) (c : List Fp), ¬ Spec.GoodShare suite P c ⟨l, 1, [], []⟩ := by
    rintro l P c ⟨v, hv, _⟩
    obtain ⟨key, pt, rest, h1, h2, h3⟩ := hv
    simp only [suite, Option.some.injEq] at h1 h2
    subst h1
    have hne : enc P ≠ [] := fun h => by
      have := enc_length P
      rw [h] at this
      cases this
    simp [hne] at h2
  have hdeal : ∀ i ∈ [(1 : U32), 2, 3, 4], ∃ p cs x, newDealer suite ⟨4, 2⟩ i 0 = .ok (p, cs, x) := fun i hi => by
    obtain ⟨p, cs, x, h, _⟩ := C16_new_dealer suite ⟨4, 2⟩ (by simp) i (by rintro rfl; simp at hi) 0
    exact ⟨p, cs, x, h⟩
  choose! P coeffs x hP using hdeal
  have hPg := fun i hi => newDealer_good (params := ⟨4, 2⟩) (by simp) (hP i hi)
  obtain ⟨m, hb, _⟩ := bootstrap_honest cipher_laws codec_laws true ⟨4, 2⟩ (by decide) (by decide) ([1, 2, 3, 4].map P)
    (by simp) (by
      intro p hp
      obtain ⟨l, hl, rfl⟩ := List.mem_map.mp hp
      exact (hPg l hl).2.2.2.2.2) (x 1) 1 (coeffs 1) 0
  have hnd : (([1, 2, 3, 4].map P).map (·.index)).Nodup := by
    simp only [List.map_cons, List.map_nil]
    rw [(hPg 1 (by simp)).2.1, (hPg 2 (by simp)).2.1, (hPg 3 (by simp)).2.1, (hPg 4 (by simp)).2.1]
    decide
  obtain ⟨comms, hcomms, hcm, hdh⟩ := C90_last_record cipher_laws codec_laws true _ _ _ _ _ _ _ _ (.inl hb)
  set d : RoundOne Fp Fp := ⟨roundOneState suite ⟨4, 2⟩ (x 1) 1 true ([1, 2, 3, 4].map P) (some m)⟩ with hd
  have hcw : comms.WF := by
    have h := hcomms
    simp only [hd, roundOneState, if_true, Option.some.injEq] at h
    exact h ▸ BMap.wf_ofList _
  have hi := fun i hi => (hPg i hi).2.1
  have hk3 := (hdh 3 (P 3).dhPublicKey).mpr ⟨[P 1, P 2], P 3, [P 4], rfl, hi 3 (by simp), rfl, by
    intro q hq; rw [List.mem_singleton.mp hq, hi 4 (by simp)]; decide⟩
  have hk4 := (hdh 4 (P 4).dhPublicKey).mpr ⟨[P 1, P 2, P 3], P 4, [], rfl, hi 4 (by simp), rfl, by simp⟩
  have hc3 := (hcm 3 _).mpr ⟨[P 1, P 2], P 3, [P 4], rfl, hi 3 (by simp), (hPg 3 (by simp)).2.2.2.1, by
    intro q hq; rw [List.mem_singleton.mp hq, hi 4 (by simp)]; decide⟩
  have hc4 := (hcm 4 _).mpr ⟨[P 1, P 2, P 3], P 4, [], rfl, hi 4 (by simp), (hPg 4 (by simp)).2.2.2.1, by simp⟩
  obtain ⟨cs, h1, h2⟩ := toRoundTwo_known suite true d comms hcomms hcw.nodup [⟨3, 1, [], []⟩, ⟨4, 1, [], []⟩] le_rfl (by
    intro e he
    simp only [List.mem_cons, List.not_mem_nil, or_false] at he
    rcases he with rfl | rfl
    · exact ⟨fun _ => rfl, BMap.mem_keys_of_get? hk3⟩
    · exact ⟨fun _ => rfl, BMap.mem_keys_of_get? hk4⟩) 0
  rw [List.filter_eq_self.mpr (by
    intro e he
    simp only [List.mem_cons, List.not_mem_nil, or_false] at he
    rcases he with rfl | rfl
    · exact decide_eq_true ⟨_, _, hk3, hc3, hbad _ _ _⟩
    · exact decide_eq_true ⟨_, _, hk4, hc4, hbad _ _ _⟩)] at h1
  obtain ⟨c3, cs', i3, h3, rfl⟩ := List.forall₂_cons_right_iff.mp h1
  obtain ⟨c4, cs'', i4, h4, rfl⟩ := List.forall₂_cons_right_iff.mp h3
  cases List.forall₂_nil_right_iff.mp h4
  have hr2 : d.toRoundTwo suite true [⟨3, 1, [], []⟩, ⟨4, 1, [], []⟩] 0 =
      .ok (⟨roundTwoState suite d.state [⟨3, 1, [], []⟩, ⟨4, 1, [], []⟩]⟩, [c3, c4]) := by
    rw [h2, u32Sub_le true d.state.parameters.n [c3, c4].length (by show 2 ≤ (4 : U32).toNat; decide)]
    exact if_neg (by show ¬ (2 : U32) < 2; decide)
  have hmade : MadeBy suite true d [⟨3, 1, [], []⟩, ⟨4, 1, [], []⟩] 0 [c3, c4] := .inl ⟨_, hr2⟩
  obtain ⟨e3, k3, v3⟩ := C123_dealt_share_disclosed cipher_laws codec_laws true true _ _ _ _ _ _ hnd d _ hb _ 0 _ hmade m
    rfl c3 (by simp)
  obtain ⟨e4, k4, v4⟩ := C123_dealt_share_disclosed cipher_laws codec_laws true true _ _ _ _ _ _ hnd d _ hb _ 0 _ hmade m
    rfl c4 (by simp)
  rw [i3.1] at k3 v3
  rw [i4.1] at k4 v4
  refine ⟨d, _, coeffs 1, x 1, _, m, c3, c4, e3, e4, fun k => Spec.polyEval (coeffs 1) (k.toNat : Fp), hb,
    (hPg 1 (by simp)).2.2.1, rfl, ⟨_, hr2⟩, k3, k4, v3, v4, ?_⟩
  refine C123_secret_disclosed cipher_laws codec_laws u32_inj true true _ _ _ _ _ _ hnd d _ hb _ 0 _ hmade m rfl [3, 4]
    (by decide) (by rw [(hPg 1 (by simp)).2.2.1]; exact le_rfl) _ ?_
  intro k hk
  simp only [List.mem_cons, List.not_mem_nil, or_false] at hk
  rcases hk with rfl | rfl
  · exact .inr ⟨c3, by simp, e3, 1, 3, by rw [i3.1], k3, v3⟩
  · exact .inr ⟨c4, by simp, e4, 1, 4, by rw [i4.1], k4, v4⟩

end Examples

end IceFrost
