import Verif.Props.TappedForgery

/-! # C158: everything that is published and sent during key generation

C153 with the proof of knowledge of the honest dealer's secret key in the view. Its hash `h0` is the random function of C152
that also makes the challenges of the proofs of DH keys.
-/

set_option linter.unusedSectionVars false
set_option linter.unusedSimpArgs false
set_option linter.unusedVariables false

namespace IceFrost

open Finset

variable {F G R : Type} [Field F] [DecidableEq F] [AddCommGroup G] [Module F G] [DecidableEq G]
variable {ι K P : Type} [DecidableEq ι] {c : ℕ} {J : List U32} {t n : ℕ}

/-- The proof of knowledge of the constant term of the polynomial `w` with the nonce `k`, of participant `me`. -/
def Spec.secretProof (S : Suite F G R) (χ : Spec.ProofHash ι F G) (me : ι) (w : Fin t → F) (k : F) : Nizk F :=
  let x := (List.ofFn w).headD 0
  ⟨χ me (x • S.gen, k • S.gen), k + x * χ me (x • S.gen, k • S.gen)⟩

/-- The coins that the colluders may know, with the proof in place of its nonce. -/
def Spec.published (S : Suite F G R) (χ : Spec.ProofHash ι F G) (me : ι) (ρ : Spec.GameCoins F (P × F) t n) :
    Spec.GameCoins F (P × Nizk F) t n :=
  ((ρ.1.1, Spec.secretProof S χ me ρ.2.1 ρ.1.2), ρ.2)

/-- The game of C153 with the proof in the view. -/
def Spec.Colluders.fullReader (A : Spec.Colluders (Spec.Sight ι F G (P × Nizk F) c J) F G K) (S : Suite F G R) (dbg : Bool)
    (me : ι) (D : List U32) (l : U32) (H : List U32) :
    Spec.Reader ι F G K (Spec.GameCoins F (P × F) t n)
      ((U32 → Spec.Dealing F G) × Spec.Board F G × Bytes × ThresholdSignature F G) c :=
  fun B π χ W ρ => A.reader S dbg D l H B π χ W (Spec.published S χ me ρ)

/-- What the colluders see: DH public keys with proofs, the commitments of the dealer with the proof, the answers of `h0`, all
ciphertexts, and their shares. -/
def Spec.fullSight (S : Suite F G R) (key : K → Bytes) (pair : Fin c → ι × ι)
    (letters : Spec.GameCoins F (P × F) t n → Fin c → List (Bytes × Bytes)) (J : List U32) (me : ι) (l : U32) (b k : ι → F)
    (χ : Spec.ProofHash ι F G) (κ : G → K) (ρ : Spec.GameCoins F (P × F) t n) : Spec.Sight ι F G (P × Nizk F) c J :=
  ((Spec.dhKeys S b, Spec.dhProofs S b k χ, χ,
    fun p => Spec.sealed S key (κ ((b (pair p).1 * b (pair p).2) • S.gen)) (letters ρ p),
    ρ.1.1, Spec.secretProof S χ me ρ.2.1 ρ.1.2), Spec.dealerView S J l ρ.2.1)

/-- Success of colluders who see all this. -/
def Spec.Colluders.FullSucceed (A : Spec.Colluders (Spec.Sight ι F G (P × Nizk F) c J) F G K) (S : Suite F G R) (dbg : Bool)
    (key : K → Bytes) (pair : Fin c → ι × ι) (letters : Spec.GameCoins F (P × F) t n → Fin c → List (Bytes × Bytes)) (me : ι)
    (D : List U32) (l : U32) (H : List U32) (x : Spec.TapCoins ι F G K (Spec.GameCoins F (P × F) t n)) : Prop :=
  let (b, k, χ, κ, ρ) := x
  let v := Spec.fullSight S key pair letters J me l b k χ κ ρ
  let deal := (A.deal v).run κ
  Spec.Accepted S D l H t deal ∧
    (A.insider κ).Succeeds S dbg H n (Spec.dealtShare D l deal ρ.2.1) (Spec.dealtKey D l deal v.2) v ρ.2.2.1 ρ.2.2.2

/-- C158: the number of questions that the colluders ask the key derivation. -/
theorem C158_questions (A : Spec.Colluders (Spec.Sight ι F G (P × Nizk F) c J) F G K) (q : ℕ) (hq : A.AtMost q) (S : Suite F G R)
    (dbg : Bool) (me : ι) (D : List U32) (l : U32) (H : List U32) (key : K → Bytes)
    (letters : Spec.GameCoins F (P × F) t n → Fin c → List (Bytes × Bytes)) (pair : Fin c → ι × ι) (p : Fin c) (X Y : G)
    (x : Spec.FreeCoins ι F G K (Spec.GameCoins F (P × F) t n) c) :
    (Spec.dhGuesses S pair (Spec.reading S key letters (A.fullReader S dbg me D l H)) p X Y x).length ≤
      c + (q + n * q + q) := by
  refine C152_guesses S pair _ _ (fun B π χ u ρ => ?_) p X Y x
  unfold Spec.reading Spec.Colluders.fullReader Spec.Colluders.reader
  refine Spec.Program.atMost_andThen q (q + n * q) _ _ (hq.1 _) fun deal => ?_
  refine Spec.Program.atMost_andThen (n * q) q _ _ (A.game_atMost S dbg H _ _ _ _ _ _ q hq n) fun st => ?_
  rw [← Nat.zero_add q]
  exact Spec.Program.atMost_andThen q 0 _ _ (hq.2.2 _ _) fun o => trivial

/-! ### The proof without the secret -/

/-- Answers of `h0`, nonce of the proof and an unused value; and the coins for which the proof made without the secret `x` is
the same. If the secret happens to be the DH key `y`, nothing has to be changed. -/
def proofShift (S : Suite F G R) (me : ι) (x y : F) : Spec.ProofHash ι F G × F × F ≃ Spec.ProofHash ι F G × F × F where
  toFun z := if x = y then z else
    (Function.update z.1 me (Function.update (z.1 me) (x • S.gen, z.2.1 • S.gen) z.2.2),
      z.2.1 + x * z.1 me (x • S.gen, z.2.1 • S.gen), z.1 me (x • S.gen, z.2.1 • S.gen))
  invFun z := if x = y then z else
    (Function.update z.1 me (Function.update (z.1 me) (x • S.gen, (z.2.1 - x * z.2.2) • S.gen) z.2.2),
      z.2.1 - x * z.2.2, z.1 me (x • S.gen, (z.2.1 - x * z.2.2) • S.gen))
  left_inv z := by
    obtain ⟨χ, k, a⟩ := z
    by_cases h : x = y <;> simp [h]
  right_inv z := by
    obtain ⟨χ, k, a⟩ := z
    by_cases h : x = y <;> simp [h]

/-- What the colluders see in the game without secrets, where the dealer's commitments start with `X`. -/
def Spec.blankFullSight (S : Suite F G R) (key : K → Bytes) (letters' : P → Fin c → List (Bytes × Bytes)) (me : ι)
    (x : Spec.FreeCoins ι F G K (P × F × F) c) (X : G) :
    (ι → G) × (ι → Nizk F) × Spec.ProofHash ι F G × (Fin c → List (Option Bytes)) × P × Nizk F :=
  let (b, s, r, χ, _, u, p, k, a) := x
  let B := Spec.dhKeys S b
  let χ' := Spec.programmed S B s r χ
  let W := fun i => Spec.sealed S key (u i) (letters' p i)
  if X = B me then
    (B, fun i => ⟨s i, r i⟩, χ', W, p, ⟨χ' me (X, k • S.gen), k + b me * χ' me (X, k • S.gen)⟩)
  else (B, fun i => ⟨s i, r i⟩, Function.update χ' me (Function.update (χ' me) (X, k • S.gen - a • X) a), W, p, ⟨a, k⟩)

theorem blankFullSight_eq {S : Suite F G R} (hg : S.GroupLaws) (key : K → Bytes) (letters' : P → Fin c → List (Bytes × Bytes))
    (me : ι) (w : Fin t → F) (b s r : ι → F) (χ : Spec.ProofHash ι F G) (κ : G → K) (u : Fin c → K) (p : P) (k a : F) :
    let z := proofShift S me ((List.ofFn w).headD 0) (b me) (χ, k, a)
    let χ' := Spec.programmed S (Spec.dhKeys S b) s r χ
    Spec.blankFullSight S key letters' me (b, s, r, z.1, κ, u, p, z.2) ((List.ofFn w).headD 0 • S.gen) =
      (Spec.dhKeys S b, fun i => ⟨s i, r i⟩, χ', fun i => Spec.sealed S key (u i) (letters' p i), p,
        Spec.secretProof S χ' me w k) := by
  intro z χ'
  unfold Spec.blankFullSight Spec.secretProof
  simp only [z]
  set x := (List.ofFn w).headD 0
  by_cases h : x = b me
  · have h1 : x • S.gen = Spec.dhKeys S b me := by rw [h]; rfl
    rw [if_pos h1]
    simp only [proofShift, Equiv.coe_fn_mk, if_pos h]
    rw [← h]
  · have h1 : x • S.gen ≠ Spec.dhKeys S b me := fun e => h (hg.gen_inj _ _ e)
    rw [if_neg h1]
    simp only [proofShift, Equiv.coe_fn_mk, if_neg h]
    have hq : ∀ M M' : G, (x • S.gen, M) ≠ (Spec.dhKeys S b me, M') := fun M M' e => h1 (Prod.mk.inj e).1
    have hv : χ' me (x • S.gen, k • S.gen) = χ me (x • S.gen, k • S.gen) := by
      show Function.update (χ me) _ _ _ = _
      rw [Function.update_of_ne (hq _ _)]
    have hM : (k + x * χ me (x • S.gen, k • S.gen)) • S.gen - χ me (x • S.gen, k • S.gen) • x • S.gen = k • S.gen := by
      rw [add_smul, mul_comm, mul_smul, add_sub_cancel_right]
    rw [hM, hv]
    congr 3
    funext i
    by_cases hi : i = me
    · subst hi
      rw [Function.update_self]
      show Function.update (Function.update (Function.update χ i _ i) _ _) _ _ = Function.update (χ i) _ _
      rw [Function.update_self, Function.update_comm (hq _ _), Function.update_idem]
      rw [Function.update_comm (hq _ _).symm, Function.update_eq_self]
    · rw [Function.update_of_ne hi]
      show Function.update (Function.update χ me _ i) _ _ = Function.update (χ i) _ _
      rw [Function.update_of_ne hi]

/-- The insider of C145 made from the colluders. -/
def Spec.Colluders.fullBlank (A : Spec.Colluders (Spec.Sight ι F G (P × Nizk F) c J) F G K) (S : Suite F G R) (key : K → Bytes)
    (letters' : P → Fin c → List (Bytes × Bytes)) (me : ι) :
    Spec.Insider (Spec.FreeCoins ι F G K (P × F × F) c × (List G × ({j // j ∈ J} → F))) F G where
  move y l := (A.move (Spec.blankFullSight S key letters' me y.1 (y.2.1.headD 0), y.2) l).run y.1.2.2.2.2.1
  result y l := (A.result (Spec.blankFullSight S key letters' me y.1 (y.2.1.headD 0), y.2) l).run y.1.2.2.2.2.1

/-- Its dealings. -/
def Spec.Colluders.fullBlankDeal (A : Spec.Colluders (Spec.Sight ι F G (P × Nizk F) c J) F G K) (S : Suite F G R)
    (key : K → Bytes) (letters' : P → Fin c → List (Bytes × Bytes)) (me : ι)
    (y : Spec.FreeCoins ι F G K (P × F × F) c × (List G × ({j // j ∈ J} → F))) : U32 → Spec.Dealing F G :=
  (A.deal (Spec.blankFullSight S key letters' me y.1 (y.2.1.headD 0), y.2)).run y.1.2.2.2.2.1

/-- The coins of the game on the wire without secrets, with an unused value, and those of C145. -/
def fullEquiv (S : Suite F G R) (me : ι) :
    Spec.FreeCoins ι F G K (Spec.GameCoins F (P × F) t n) c × F ≃
      (Spec.FreeCoins ι F G K (P × F × F) c × (Fin t → F) × Spec.Draw F (F × F)) × (Fin (n + 1) → Spec.Cell F (F × F)) where
  toFun x :=
    let ((b, s, r, χ, κ, u, (p, k), w, d, g), a) := x
    let z := proofShift S me ((List.ofFn w).headD 0) (b me) (χ, k, a)
    (((b, s, r, z.1, κ, u, p, z.2), w, d), g)
  invFun y :=
    let (((b, s, r, χ, κ, u, p, k, a), w, d), g) := y
    let z := (proofShift S me ((List.ofFn w).headD 0) (b me)).symm (χ, k, a)
    ((b, s, r, z.1, κ, u, (p, z.2.1), w, d, g), z.2.2)
  left_inv x := by
    obtain ⟨⟨b, s, r, χ, κ, u, ⟨p, k⟩, w, d, g⟩, a⟩ := x
    simp
  right_inv y := by
    obtain ⟨⟨⟨b, s, r, χ, κ, u, p, k, a⟩, w, d⟩, g⟩ := y
    simp

theorem commitPoints_headD (S : Suite F G R) (cs : List F) : (commitPoints S cs).headD 0 = cs.headD 0 • S.gen := by
  cases cs with
  | nil => simp [commitPoints]
  | cons a l => rfl

section
variable [Fintype ι] [Fintype F] [Fintype G] [Fintype K] [Nonempty K] [Fintype P] [Nonempty P] [Fintype U32]

/-- C158: if colluders who see all records and ciphertexts forge with chance `ε`, the bound of C153 holds for them too. -/
theorem C158_forgery {S : Suite F G R} (hS : S.Lawful) {pair : Fin c → ι × ι} (hp : Spec.Pairs pair) (key : K → Bytes) (me : ι)
    (D : List U32) (h0 : 0 ∉ D) (l : U32) (J : List U32) (hJ : J.Nodup) (hJ0 : 0 ∉ J) (t : ℕ) (ht : J.length + 1 = t)
    (H : List U32) (hH : H.Nodup) (htH : t ≤ H.length) (dbg : Bool) (n : ℕ) (hn : n ≤ 2 ^ 63)
    (letters : Spec.GameCoins F (P × F) t n → Fin c → List (Bytes × Bytes)) (letters' : P → Fin c → List (Bytes × Bytes))
    (A : Spec.Colluders (Spec.Sight ι F G (P × Nizk F) c J) F G K) :
    let A' : Spec.Reader ι F G K (Spec.GameCoins F (P × F) t n) _ c := A.fullReader S dbg me D l H
    let goal : Spec.Goal ι F G (Spec.GameCoins F (P × F) t n) _ := Spec.forgedBy S D l J H
    let wire : ℚ := ∑ p, (Spec.dhChance S pair (Spec.reading S key letters A') p +
      Spec.cipherAdvantage S key letters (fun ρ => letters' ρ.1.1) A' goal p)
    let forged : ℚ := max 0 (Spec.chance (A.FullSucceed S dbg key pair letters me D l H) - wire)
    forged * (forged / ((n + 1 : ℕ) : ℚ) - 1 / (Fintype.card F : ℚ)) -
        2 * (n : ℚ) ^ 2 * (H.length : ℚ) / (Fintype.card F : ℚ) ≤
      Spec.chance fun y : ((Spec.FreeCoins ι F G K (P × F × F) c × ({j // j ∈ J} → F)) × F × Spec.Draw F (F × F)) ×
          (Fin (n + 1) → Spec.Cell F (F × F)) × (Fin (n + 1) → Spec.Cell F (F × F)) =>
        Spec.Insider.Solves ((A.fullBlank S key letters' me).afterView S t) S dbg H n
          (fun ω X => Spec.kitOfView D l J (fun k =>
            (A.fullBlankDeal S key letters' me (ω.1, Spec.simulatedDealerView S J t X ω.2) k).poly H t) ω.2)
          y.1.1 y.1.2.1 y.1.2.2 y.2.1 y.2.2 := by
  intro A' goal wire forged
  have h := C145_concurrent_sessions hS D h0 l J hJ hJ0 t ht H hH htH (A.fullBlankDeal S key letters' me) dbg n hn
    (A.fullBlank S key letters' me)
  simp only at h
  refine fork_bound_mono (by positivity) (by positivity) (by positivity) (le_max_left _ _) (max_le (chance_nonneg _) ?_)
    (chance_nonneg _) h
  have hw := C152_wire S hp key letters (fun ρ => letters' ρ.1.1) A' goal
  have hw' := (abs_sub_le_iff.mp hw).1
  have e1 : Spec.chance (Spec.tapped S pair (Spec.reading S key letters A') goal) =
      Spec.chance (A.FullSucceed S dbg key pair letters me D l H) := by
    refine chance_congr ?_
    rintro ⟨b, k, χ, κ, ρ⟩
    exact reader_run A S dbg D l H _ _ _ _ (Spec.published S χ me ρ) κ
  have e2 : Spec.chance (Spec.untapped S (Spec.reading S key (fun ρ => letters' ρ.1.1) A') goal) =
      Spec.chance fun z : (Spec.FreeCoins ι F G K (P × F × F) c × (Fin t → F) × Spec.Draw F (F × F)) ×
          (Fin (n + 1) → Spec.Cell F (F × F)) =>
        Spec.Accepted S D l H t (A.fullBlankDeal S key letters' me (z.1.1, Spec.dealerView S J l z.1.2.1)) ∧
        (A.fullBlank S key letters' me).Succeeds S dbg H n
          (Spec.dealtShare D l (A.fullBlankDeal S key letters' me (z.1.1, Spec.dealerView S J l z.1.2.1)) z.1.2.1)
          (Spec.dealtKey D l (A.fullBlankDeal S key letters' me (z.1.1, Spec.dealerView S J l z.1.2.1))
            (Spec.dealerView S J l z.1.2.1)) (z.1.1, Spec.dealerView S J l z.1.2.1) z.1.2.2 z.2 := by
    rw [← chance_equiv (fullEquiv S me), ← chance_extra (B := F)]
    refine chance_congr ?_
    rintro ⟨⟨b, s, r, χ, κ, u, ⟨p, k⟩, w, d, g⟩, a⟩
    have hb := blankFullSight_eq hS.group key letters' me w b s r χ κ u p k a
    simp only at hb
    have hX : (Spec.dealerView S J l w).1.headD 0 = (List.ofFn w).headD 0 • S.gen := commitPoints_headD S _
    refine (reader_run A S dbg D l H _ _ _ _ (Spec.published S _ me ((p, k), w, d, g)) κ).trans ?_
    set ω : Spec.FreeCoins ι F G K (P × F × F) c :=
      (b, s, r, (proofShift S me ((List.ofFn w).headD 0) (b me) (χ, k, a)).1, κ, u, p,
        (proofShift S me ((List.ofFn w).headD 0) (b me) (χ, k, a)).2) with hω
    have hv := hb
    rw [← hX] at hv
    have hd := congrArg (fun v => (A.deal (v, Spec.dealerView S J l w)).run κ) hv
    change A.fullBlankDeal S key letters' me (ω, Spec.dealerView S J l w) = _ at hd
    show _ ↔ Spec.Accepted S D l H t (A.fullBlankDeal S key letters' me (ω, Spec.dealerView S J l w)) ∧
      (A.fullBlank S key letters' me).Succeeds S dbg H n
        (Spec.dealtShare D l (A.fullBlankDeal S key letters' me (ω, Spec.dealerView S J l w)) w)
        (Spec.dealtKey D l (A.fullBlankDeal S key letters' me (ω, Spec.dealerView S J l w)) (Spec.dealerView S J l w))
        (ω, Spec.dealerView S J l w) d g
    rw [hd]
    refine and_congr Iff.rfl ?_
    refine Spec.Insider.Succeeds_congr (A.insider κ) (A.fullBlank S key letters' me) S dbg H n _ _ _ _ ?_ ?_ _ _
    · exact congrArg (fun v => fun l' => (A.move (v, Spec.dealerView S J l w) l').run κ) hv.symm
    · exact congrArg (fun v => fun l' => (A.result (v, Spec.dealerView S J l w) l').run κ) hv.symm
  rw [e1, e2] at hw'
  linarith

end

/-- C158: what the dealer publishes is what the colluders see in the game: the DH public key with its proof, the commitments to
the polynomial and the proof of knowledge of its constant term. The values are drawn one after the other. -/
theorem C158_record {S : Suite F G R} (hd : S.CodecLaws) {idx : ι → U32} (hidx : Function.Injective idx) (key : K → Bytes)
    (χ : Spec.ProofHash ι F G) (κ : G → K) (params : Params) (me : ι) (rng : R) (p : Participant F G) (cs : List F) (dh : F)
    (h : newDealer (Spec.withFunctions S idx key χ κ) params (idx me) rng = .ok (p, cs, dh)) (b k : ι → F)
    (hb : b me = Spec.scalar S rng 0) (hk : k me = Spec.scalar S rng 1) (w : Fin params.t.toNat → F)
    (hw : ∀ i, w i = Spec.scalar S rng (2 + i)) (J : List U32) :
    cs = List.ofFn w ∧
    p = ⟨idx me, Spec.dhKeys S b me, some ⟨idx me, (Spec.dealerView S J (idx me) w).1⟩,
      some (Spec.secretProof S χ me w (Spec.scalar S rng (2 + params.t.toNat))), Spec.dhProofs S b k χ me⟩ := by
  obtain ⟨h1, h2, h3⟩ := C152_dealer hd hidx key χ κ params me rng p cs dh h b k hb hk
  obtain ⟨-, -, h4, pf, h5, h6, h7⟩ := C113_dealer _ params (idx me) rng p cs dh h
  have e : cs = List.ofFn w := by
    rw [h4]
    refine List.ext_getElem (by simp) fun i hi hi' => ?_
    simp only [List.getElem_map, List.getElem_range, List.getElem_ofFn, hw]
    rfl
  have hc : p.index = idx me ∧ p.commitments = some ⟨idx me, commitPoints S cs⟩ := by
    have ht : params.t ≠ 0 := by
      intro ht
      unfold newDealer at h
      rw [newInternal_dealer_eq] at h
      by_cases hi : idx me = 0
      · rw [if_pos hi] at h; cases h
      · rw [if_neg hi] at h
        simp only [ht, UInt32.toNat_zero, commitLoop, VssCommitment.publicKey, List.head?_nil] at h
        cases h
    have hi : idx me ≠ 0 := by
      intro hi
      unfold newDealer at h
      rw [newInternal_dealer_eq, if_pos hi] at h
      cases h
    obtain ⟨p', cs', dh', rng', hN, hx, -, -, hc, -⟩ :=
      newInternal_dealer (Spec.withFunctions S idx key χ κ) params ht (idx me) hi none rng
    unfold newDealer at h
    rw [hN] at h
    simp only [Except.ok.injEq, Prod.mk.injEq] at h
    obtain ⟨rfl, rfl, rfl⟩ := h
    exact ⟨hx, hc⟩
  refine ⟨e, ?_⟩
  have hs := h6.trans (withFunctions_hash hd hidx key χ κ me (cs.headD 0 • S.gen)
    (Spec.scalar S rng (2 + params.t.toNat) • S.gen))
  have hpf : pf = Spec.secretProof S χ me w (Spec.scalar S rng (2 + params.t.toNat)) := by
    have h7' : pf.r = Spec.scalar S rng (2 + params.t.toNat) + cs.headD 0 * pf.s := h7
    unfold Spec.secretProof
    rw [← e]
    simp only
    rw [← hs, ← h7']
  obtain ⟨i, X, C, π, π'⟩ := p
  simp only at h2 h3 h5 hc
  rw [h2, h3, h5, hc.1, hc.2, hpf, e]
  rfl

section Examples
open Toy

/-- The colluders of C153 who also look at the proof: they ask the key derivation about its response times the generator. -/
def fullWatchers : Spec.Colluders (Spec.Sight (Fin 3) Fp Fp (Unit × Nizk Fp) 3 colluders) Fp Fp (Fin 16) where
  deal v := .ask (v.1.2.2.2.2.2.r • suite.gen) fun _ => .done (colluderDeal ((), v.2))
  move v l := .done ((moonlighter dealtSecret).move ((), v.2) l)
  result v l := .done ((moonlighter dealtSecret).result ((), v.2) l)

example : fullWatchers.AtMost 1 := ⟨fun _ _ => trivial, fun _ _ => trivial, fun _ _ => trivial⟩

/-- The share that dealer 1 sends on the first wire. -/
def shareOnFullWire (ρ : Spec.GameCoins Fp (Unit × Fp) 3 3) (p : Fin 3) : List (Bytes × Bytes) :=
  if p = 0 then [([1], suite.encF (Spec.polyEval (List.ofFn ρ.2.1) 5))] else []

theorem fullWatchers_deal (κ : Fp → Fin 16) (v : Spec.Sight (Fin 3) Fp Fp (Unit × Nizk Fp) 3 colluders) :
    (fullWatchers.deal v).run κ = colluderDeal ((), v.2) := rfl

theorem fullWatchers_move (κ : Fp → Fin 16) (v : Spec.Sight (Fin 3) Fp Fp (Unit × Nizk Fp) 3 colluders) :
    (fullWatchers.insider κ).move v = (moonlighter dealtSecret).move ((), v.2) := rfl

theorem fullWatchers_result (κ : Fp → Fin 16) (v : Spec.Sight (Fin 3) Fp Fp (Unit × Nizk Fp) 3 colluders) :
    (fullWatchers.insider κ).result v = (moonlighter dealtSecret).result ((), v.2) := rfl

theorem fullWatchers_succeed (key : Fin 16 → Bytes)
    (x : Spec.TapCoins (Fin 3) Fp Fp (Fin 16) (Spec.GameCoins Fp (Unit × Fp) 3 3)) :
    fullWatchers.FullSucceed suite true key threePairs shareOnFullWire 0 [1, 2, 3] 1 [1, 3, 5] x := by
  obtain ⟨b, k, χ, κ, ρ⟩ := x
  unfold Spec.Colluders.FullSucceed
  simp only
  have hv : (Spec.fullSight suite key threePairs shareOnFullWire colluders 0 1 b k χ κ ρ).2 =
    Spec.dealerView suite colluders 1 ρ.2.1 := rfl
  generalize Spec.fullSight suite key threePairs shareOnFullWire colluders 0 1 b k χ κ ρ = v at hv ⊢
  rw [fullWatchers_deal κ v]
  have h := moonlighter_succeeds (Ω := Unit × (List Fp × ({j // j ∈ colluders} → Fp))) [1, 3, 5] (by decide) dealtSecret
    (Spec.dealtShare [1, 2, 3] 1 (colluderDeal ((), v.2)) ρ.2.1) ((), v.2) ρ.2.2.1 ρ.2.2.2
  exact ⟨colluderDeal_accepted ((), v.2), (Spec.Insider.Succeeds_congr (fullWatchers.insider κ) (moonlighter dealtSecret) suite
    true [1, 3, 5] 3 _ _ v ((), v.2) (fullWatchers_move κ v) (fullWatchers_result κ v) _ _).mpr h⟩

example [Fintype Fp] [Fintype U32] (key : Fin 16 → Bytes) :
    let A' : Spec.Reader (Fin 3) Fp Fp (Fin 16) (Spec.GameCoins Fp (Unit × Fp) 3 3) _ 3 :=
      fullWatchers.fullReader suite true 0 [1, 2, 3] 1 [1, 3, 5]
    let wire : ℚ := ∑ p, (Spec.dhChance suite threePairs (Spec.reading suite key shareOnFullWire A') p +
      Spec.cipherAdvantage suite key shareOnFullWire (fun ρ => nothingOnWire ρ.1.1) A'
        (Spec.forgedBy suite [1, 2, 3] 1 colluders [1, 3, 5]) p)
    let forged : ℚ := max 0 (1 - wire)
    forged * (forged / ((3 + 1 : ℕ) : ℚ) - 1 / (Fintype.card Fp : ℚ)) -
        2 * ((3 : ℕ) : ℚ) ^ 2 * (([1, 3, 5] : List U32).length : ℚ) / (Fintype.card Fp : ℚ) ≤
      Spec.chance fun y : ((Spec.FreeCoins (Fin 3) Fp Fp (Fin 16) (Unit × Fp × Fp) 3 × ({j // j ∈ colluders} → Fp)) × Fp ×
          Spec.Draw Fp (Fp × Fp)) × (Fin (3 + 1) → Spec.Cell Fp (Fp × Fp)) × (Fin (3 + 1) → Spec.Cell Fp (Fp × Fp)) =>
        Spec.Insider.Solves ((fullWatchers.fullBlank suite key nothingOnWire 0).afterView suite 3) suite true [1, 3, 5] 3
          (fun ω X => Spec.kitOfView [1, 2, 3] 1 colluders (fun k => (fullWatchers.fullBlankDeal suite key nothingOnWire 0
            (ω.1, Spec.simulatedDealerView suite colluders 3 X ω.2) k).poly [1, 3, 5] 3) ω.2)
          y.1.1 y.1.2.1 y.1.2.2 y.2.1 y.2.2 := by
  have h := C158_forgery lawful threePairs_pairs key 0 [1, 2, 3] (by decide) 1 colluders (by decide)
    (by decide) 3 rfl [1, 3, 5] (by decide) (by decide) true 3 (by norm_num) shareOnFullWire nothingOnWire fullWatchers
  rw [chance_one (fullWatchers_succeed key)] at h
  exact h

/-- The hypotheses of `C158_record` are met by a dealer of a 3-of-5 group. -/
example (key : Fin 16 → Bytes) (χ : Spec.ProofHash (Fin 2) Fp Fp) (κ : Fp → Fin 16) :
    ∃ p cs dh, newDealer (Spec.withFunctions suite (fun i : Fin 2 => if i = 0 then 1 else 2) key χ κ) ⟨5, 3⟩ 1 7 =
      .ok (p, cs, dh) := by
  obtain ⟨p, cs, dh, rng', hN, -⟩ := newInternal_dealer
    (Spec.withFunctions suite (fun i : Fin 2 => if i = 0 then 1 else 2) key χ κ) ⟨5, 3⟩ (by decide) 1 (by decide) none 7
  refine ⟨p, cs, dh, ?_⟩
  unfold newDealer
  rw [hN]

end Examples

end IceFrost
