import Verif.Props.RecordOnWire
import Verif.Props.MobileForgery
import Verif.Props.Lifetime
import Verif.Props.Secp256k1

/-! # C160: the shipped suite in numbers

The theorems about forgeries and about the life of a key, for the suite over secp256k1 (C148), without assumptions on the suite
and with the size of its field put in.
-/

set_option linter.unusedSectionVars false
set_option linter.unusedSimpArgs false
set_option linter.unusedVariables false

namespace IceFrost

open Finset

/-- With `n + 1 ≤ 2^a` moves, `h ≤ 2^b` honest signers and a chance of at least `2^-c`, the losses of the fork are at most half
of its gain. -/
theorem concrete_bound {ε p : ℚ} {n h a b c N : ℕ} (hN : 2 ^ 255 ≤ N) (hn : n + 1 ≤ 2 ^ a) (hh : h ≤ 2 ^ b)
    (hε : 1 ≤ ε * 2 ^ c) (hε1 : ε ≤ 1) (habc : 3 * a + b + 2 * c + 3 ≤ 255)
    (hp : ε * (ε / ((n + 1 : ℕ) : ℚ) - 1 / (N : ℚ)) - 2 * (n : ℚ) ^ 2 * (h : ℚ) / (N : ℚ) ≤ p) :
    ε ^ 2 / (2 * ((n + 1 : ℕ) : ℚ)) ≤ p := by
  have hN0 : (0 : ℚ) < N := by
    have : 0 < N := lt_of_lt_of_le (by norm_num) hN
    exact_mod_cast this
  have hn0 : (0 : ℚ) < ((n + 1 : ℕ) : ℚ) := by exact_mod_cast Nat.succ_pos n
  have hNq : (2 : ℚ) ^ 255 ≤ N := by exact_mod_cast hN
  have hnq : ((n + 1 : ℕ) : ℚ) ≤ 2 ^ a := by exact_mod_cast hn
  have hnq' : (n : ℚ) ≤ 2 ^ a := by
    have : n ≤ 2 ^ a := by omega
    exact_mod_cast this
  have hhq : (h : ℚ) ≤ 2 ^ b := by exact_mod_cast hh
  have h2c : (0 : ℚ) < 2 ^ c := by positivity
  have hε0 : 0 < ε := by
    by_contra hc
    have : ε * 2 ^ c ≤ 0 := mul_nonpos_of_nonpos_of_nonneg (not_lt.mp hc) h2c.le
    linarith
  -- the losses
  have hl : 2 * ((n + 1 : ℕ) : ℚ) * (ε + 2 * (n : ℚ) ^ 2 * h) ≤ 2 ^ (3 * a + b + 3) := by
    have h1 : (n : ℚ) ^ 2 * h ≤ (2 ^ a) ^ 2 * 2 ^ b := by gcongr
    have h2 : ε + 2 * (n : ℚ) ^ 2 * h ≤ 4 * ((2 ^ a) ^ 2 * 2 ^ b) := by
      have h3 : (1 : ℚ) ≤ (2 ^ a) ^ 2 * 2 ^ b := by
        have : (1 : ℕ) ≤ (2 ^ a) ^ 2 * 2 ^ b := Nat.one_le_iff_ne_zero.mpr (by positivity)
        exact_mod_cast this
      linarith
    calc 2 * ((n + 1 : ℕ) : ℚ) * (ε + 2 * (n : ℚ) ^ 2 * h) ≤ 2 * 2 ^ a * (4 * ((2 ^ a) ^ 2 * 2 ^ b)) := by
          gcongr
      _ = 2 ^ (3 * a + b + 3) := by ring
  have hg : (2 : ℚ) ^ (3 * a + b + 3) ≤ ε ^ 2 * N := by
    have h1 : (1 : ℚ) ≤ (ε * 2 ^ c) ^ 2 := by nlinarith
    have h2 : (2 : ℚ) ^ (3 * a + b + 3) * 2 ^ (2 * c) ≤ N := by
      rw [← pow_add]
      exact le_trans (pow_le_pow_right₀ (by norm_num) (by omega)) hNq
    calc (2 : ℚ) ^ (3 * a + b + 3) ≤ 2 ^ (3 * a + b + 3) * (ε * 2 ^ c) ^ 2 := le_mul_of_one_le_right (by positivity) h1
      _ = ε ^ 2 * (2 ^ (3 * a + b + 3) * 2 ^ (2 * c)) := by ring
      _ ≤ ε ^ 2 * N := by gcongr
  have hfin : (ε + 2 * (n : ℚ) ^ 2 * h) / N ≤ ε ^ 2 / (2 * ((n + 1 : ℕ) : ℚ)) := by
    rw [div_le_div_iff₀ hN0 (by positivity)]
    linarith
  have e : ε * (ε / ((n + 1 : ℕ) : ℚ) - 1 / (N : ℚ)) - 2 * (n : ℚ) ^ 2 * (h : ℚ) / (N : ℚ) =
      2 * (ε ^ 2 / (2 * ((n + 1 : ℕ) : ℚ))) - (ε + 2 * (n : ℚ) ^ 2 * h) / N := by
    field_simp
    ring
  linarith

theorem chance_le_one {A : Type} [Fintype A] (E : A → Prop) : Spec.chance E ≤ 1 := by
  classical
  unfold Spec.chance
  refine div_le_one_of_le₀ ?_ (by positivity)
  exact_mod_cast Finset.card_le_univ _

theorem card_Fn [Fintype Secp.Fn] : 2 ^ 255 ≤ Fintype.card Secp.Fn := by
  have : Fintype.card Secp.Fn = Cases.secp256k1Order := by
    rw [← Nat.card_eq_fintype_card, Nat.card_zmod]
  rw [this]
  decide +kernel

section
variable {R ι K P : Type} [DecidableEq ι] {c : ℕ} {J : List U32} (X : Secp.Parts R)
variable [Fintype ι] [Fintype Secp.Fn] [Fintype Secp.Point] [Fintype K] [Nonempty K] [Fintype P] [Nonempty P] [Fintype U32]

set_option synthInstance.maxHeartbeats 400000 in
set_option synthInstance.maxSize 1000 in
/-- C160: forging with everything that is published and sent (C158), over secp256k1. With at most `2^a` moves, at most `2^b`
honest signers and a chance `ε` of at least `2^-e` that is not explained by breaking the wire, where `3a + b + 2e ≤ 252`, the
solver finds one more discrete logarithm than it asks for with chance at least `ε² / (2 (n + 1))`. -/
theorem C160_forgery {pair : Fin c → ι × ι} (hp : Spec.Pairs pair) (key : K → Bytes) (me : ι)
    (D : List U32) (h0 : 0 ∉ D) (l : U32) (hJ : J.Nodup) (hJ0 : 0 ∉ J) (t : ℕ) (ht : J.length + 1 = t)
    (H : List U32) (hH : H.Nodup) (htH : t ≤ H.length) (dbg : Bool) (n : ℕ) (a b e : ℕ) (hn : n + 1 ≤ 2 ^ a) (hb : H.length ≤ 2 ^ b)
    (habe : 3 * a + b + 2 * e ≤ 252) (ha : a ≤ 63)
    (letters : Spec.GameCoins Secp.Fn (P × Secp.Fn) t n → Fin c → List (Bytes × Bytes))
    (letters' : P → Fin c → List (Bytes × Bytes))
    (A : Spec.Colluders (Spec.Sight ι Secp.Fn Secp.Point (P × Nizk Secp.Fn) c J) Secp.Fn Secp.Point K) :
    let S := Secp.suite X
    let A' : Spec.Reader ι Secp.Fn Secp.Point K (Spec.GameCoins Secp.Fn (P × Secp.Fn) t n) _ c := A.fullReader S dbg me D l H
    let goal : Spec.Goal ι Secp.Fn Secp.Point (Spec.GameCoins Secp.Fn (P × Secp.Fn) t n) _ := Spec.forgedBy S D l J H
    let wire : ℚ := ∑ p, (Spec.dhChance S pair (Spec.reading S key letters A') p +
      Spec.cipherAdvantage S key letters (fun ρ => letters' ρ.1.1) A' goal p)
    let ε : ℚ := Spec.chance (A.FullSucceed S dbg key pair letters me D l H) - wire
    1 / 2 ^ e ≤ ε →
    ε ^ 2 / (2 * ((n + 1 : ℕ) : ℚ)) ≤
      Spec.chance fun y : ((Spec.FreeCoins ι Secp.Fn Secp.Point K (P × Secp.Fn × Secp.Fn) c × ({j // j ∈ J} → Secp.Fn)) ×
          Secp.Fn × Spec.Draw Secp.Fn (Secp.Fn × Secp.Fn)) × (Fin (n + 1) → Spec.Cell Secp.Fn (Secp.Fn × Secp.Fn)) ×
          (Fin (n + 1) → Spec.Cell Secp.Fn (Secp.Fn × Secp.Fn)) =>
        Spec.Insider.Solves ((A.fullBlank S key letters' me).afterView S t) S dbg H n
          (fun ω X => Spec.kitOfView D l J (fun k =>
            (A.fullBlankDeal S key letters' me (ω.1, Spec.simulatedDealerView S J t X ω.2) k).poly H t) ω.2)
          y.1.1 y.1.2.1 y.1.2.2 y.2.1 y.2.2 := by
  intro S A' goal wire ε hε
  have h := C158_forgery (C148_lawful X) hp key me D h0 l J hJ hJ0 t ht H hH htH dbg n
    (by have := Nat.pow_le_pow_right (n := 2) (by norm_num) ha; omega) letters letters' A
  simp only at h
  have hε0 : 0 < ε := lt_of_lt_of_le (by positivity) hε
  have hmax : max 0 ε = ε := max_eq_right hε0.le
  change max 0 ε * (max 0 ε / _ - _) - _ ≤ _ at h
  rw [hmax] at h
  have hw : 0 ≤ wire := Finset.sum_nonneg fun p _ => add_nonneg (chance_nonneg _) (by
    unfold Spec.cipherAdvantage
    exact abs_nonneg _)
  have hε1 : ε ≤ 1 := by
    have := chance_le_one (A.FullSucceed S dbg key pair letters me D l H)
    show _ - wire ≤ 1
    linarith
  refine concrete_bound card_Fn hn hb ?_ hε1 (by omega : 3 * a + b + 2 * e + 3 ≤ 255) h
  rwa [div_le_iff₀ (by positivity)] at hε

set_option synthInstance.maxHeartbeats 400000 in
set_option synthInstance.maxSize 1000 in
/-- C160: the same after a resharing (C147), for colluders of both epochs who take part in concurrent signing sessions. -/
theorem C160_reshared {Ω : Type} [Fintype Ω] [Nonempty Ω]
    (D : List U32) (hD : D.Nodup) (J : List U32) (hJ : J.Nodup) (hJ0 : 0 ∉ J) (t : ℕ) (ht : J.length + 1 = t)
    (htD : t ≤ D.length) (E : List U32) (hE : ∀ k, k ∈ E ↔ k ∈ D ∧ k ∉ J) (J' : List U32) (hJ' : J'.Nodup) (hJ0' : 0 ∉ J')
    (m : ℕ) (hm : J'.length = m) (H : List U32) (hH : H.Nodup) (hmH : m + 1 ≤ H.length)
    (deal : Ω × Spec.MobileView Secp.Fn Secp.Point J E J' → U32 → Spec.Dealing Secp.Fn Secp.Point) (dbg : Bool) (n : ℕ)
    (a b e : ℕ) (hn : n + 1 ≤ 2 ^ a) (hb : H.length ≤ 2 ^ b) (habe : 3 * a + b + 2 * e ≤ 252) (ha : a ≤ 63)
    (B : Spec.Insider (Ω × Spec.MobileView Secp.Fn Secp.Point J E J') Secp.Fn Secp.Point) :
    let S := Secp.suite X
    let ε : ℚ := Spec.chance fun z : (Ω × ((Fin t → Secp.Fn) × ({e // e ∈ E} → Fin m → Secp.Fn)) ×
        Spec.Draw Secp.Fn (Secp.Fn × Secp.Fn)) × (Fin (n + 1) → Spec.Cell Secp.Fn (Secp.Fn × Secp.Fn)) =>
      let v := (z.1.1, Spec.mobileView S J E J' z.1.2.1.1 z.1.2.1.2)
      Spec.ReshareAccepted S D E H (m + 1) (deal v) ∧
      B.Succeeds S dbg H n (Spec.mobileShare D (deal v) z.1.2.1.1 z.1.2.1.2) (Spec.mobileKey D (deal v) v.2) v z.1.2.2 z.2
    1 / 2 ^ e ≤ ε →
    ε ^ 2 / (2 * ((n + 1 : ℕ) : ℚ)) ≤
      Spec.chance fun y : ((Ω × ({j // j ∈ J} → Secp.Fn) × ({e // e ∈ E} → {j // j ∈ J'} → Secp.Fn)) × Secp.Fn ×
          Spec.Draw Secp.Fn (Secp.Fn × Secp.Fn)) × (Fin (n + 1) → Spec.Cell Secp.Fn (Secp.Fn × Secp.Fn)) ×
          (Fin (n + 1) → Spec.Cell Secp.Fn (Secp.Fn × Secp.Fn)) =>
        Spec.Insider.Solves (B.afterReshare S t m) S dbg H n
          (fun ω X => Spec.mobileKit D (Spec.polysOf H (m + 1)
            (deal (ω.1, Spec.simulatedMobile S J E J' t m X ω.2.1 ω.2.2))) ω.2.1 ω.2.2)
          y.1.1 y.1.2.1 y.1.2.2 y.2.1 y.2.2 := by
  intro S ε hε
  have h := C147_concurrent_sessions (C148_lawful X) D hD J hJ hJ0 t ht htD E hE J' hJ' hJ0' m hm H hH hmH deal dbg n
    (by have := Nat.pow_le_pow_right (n := 2) (by norm_num) ha; omega) B
  refine concrete_bound card_Fn hn hb ?_ (chance_le_one _) (by omega : 3 * a + b + 2 * e + 3 ≤ 255) h
  rwa [div_le_iff₀ (by positivity)] at hε

end

/-- C160: over secp256k1, for every committee and every number of resharings, there are executions on the network of C155 and
C157 after which the whole committee holds keys of the group key generated at the beginning. From every state of the signing
network any `t` of its members go on to sign any message, and the signature is valid. -/
theorem C160_life {R : Type} (X : Secp.Parts R) (dbg : Bool) (params : Params) (idx : List U32)
    (hok : ReshareOk idx params params idx) (hr : ∀ i ∈ idx, i.toNat ≤ params.n.toNat) (rng : U32 → R) (n : ℕ) :
    ∃ (Y : Secp.Point) (comms : BMap (VssCommitment Secp.Point)) (sk : U32 → IndividualSigningKey Secp.Fn),
      (∃ (old : PublicEpoch Secp.Point) (N : Spec.Group Secp.Fn Secp.Point) (w : Spec.Net Secp.Fn Secp.Point)
        (log : U32 → List (List (Complaint Secp.Fn Secp.Point))), Spec.Era (Secp.suite X) Y n old ∧ Spec.ReshareOf (Secp.suite X) old params.t.toNat N ∧
        Spec.Reached (Secp.suite X) dbg N w ∧ ∀ i ∈ idx, w.node i = .done (some comms) Y (sk i) (log i)) ∧
      (∀ i, (sk i).index = i) ∧
      ∀ (v : Spec.SignNet Secp.Fn Secp.Point), Spec.SignReached (Secp.suite X) dbg sk v →
      ∀ (J : List U32), J.Nodup → J ⊆ idx → params.t.toNat ≤ J.length → ∀ (sp : Params), J.length ≤ sp.n.toNat →
      ∀ (message : Bytes) (rng' : U32 → R), ∃ (v' : Spec.SignNet Secp.Fn Secp.Point)
        (e : U32 → Spec.Issued Secp.Fn Secp.Point) (f : FinalizedAggregator Secp.Fn Secp.Point)
        (sig : ThresholdSignature Secp.Fn Secp.Point) (pk : U32 → IndividualVerifyingKey Secp.Point),
        Spec.SignReached (Secp.suite X) dbg sk v' ∧
        v'.log = v.log ++ J.map e ∧
        (∀ i ∈ J, (generateFromCommitments i (comms.map (·.2)) : Out Secp.Fn Secp.Point _) = .ok (pk i)) ∧
        (session sp Y message ((J.map fun i => .signer i (e i).share.publish (pk i)) ++
          J.map fun i => .partialSig (e i).answer)).finalize (Secp.suite X) = .ok f ∧
        f.aggregate (Secp.suite X) = .ok sig ∧
        sig.verify (Secp.suite X) Y (Spec.messageHash (Secp.suite X) message) = .ok () := by
  obtain ⟨Y, old, h1, h2, N, h3, w, comms, sk, log, h4, h5, h6⟩ := C157_honest (C148_lawful X) (C148_short X) dbg params idx hok
    hr rng n
  let sk' : U32 → IndividualSigningKey Secp.Fn := fun i => ⟨i, (sk i).key⟩
  have hc0 : Spec.Committee (Secp.suite X) Y params.t.toNat comms idx sk := .reshared n old h2 dbg N w (fun _ => Y) log h3 h4 h6 h5
  have hsk' : ∀ i ∈ idx, sk' i = sk i := fun i hi =>
    congrArg (IndividualSigningKey.mk · (sk i).key) ((C159_keys (C148_lawful X) (C148_short X) hc0).2.1 i hi).1.symm
  have h6' : ∀ i ∈ idx, w.node i = .done (some comms) Y (sk' i) (log i) := fun i hi => by rw [hsk' i hi]; exact h6 i hi
  have hc : Spec.Committee (Secp.suite X) Y params.t.toNat comms idx sk' :=
    .reshared n old h2 dbg N w (fun _ => Y) log h3 h4 h6' h5
  refine ⟨Y, comms, sk', ⟨old, N, w, log, h2, h3, h4, h6'⟩, fun _ => rfl, fun v hv J hJ hJi htJ sp hsp message rng' => ?_⟩
  obtain ⟨v', a1, e, f, sig, pk, a2, a3, a4, a5, a6⟩ := C159_progress (C148_lawful X) (C148_short X) hc (fun _ => rfl) dbg hv J hJ
    hJi (fun h0 => hok.zeroD (hJi h0)) htJ sp hsp message rng'
  exact ⟨v', e, f, sig, pk, a1, a2, a3, a4, a5, (verify_iff _ _ _ _).mpr a6⟩

section Examples

/-- The hypotheses of `C160_life` for three participants with threshold two. -/
example : ReshareOk [1, 2, 3] ⟨3, 2⟩ ⟨3, 2⟩ [1, 2, 3] :=
  ⟨by decide, by decide, by decide, by decide, rfl, rfl, by decide, by decide, by decide, by decide⟩

/-- `2^40` moves, 4096 honest signers and chances from `2^-60` on are within the bounds. -/
example : 3 * 40 + 12 + 2 * 60 ≤ 252 := by norm_num

end Examples

end IceFrost
