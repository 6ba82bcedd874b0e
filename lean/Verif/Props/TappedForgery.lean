import Verif.Props.Eavesdrop

/-! # C153: reading the wire does not help to forge

`t - 1` colluders take part in a key generation and in concurrent signing sessions, as in C145, and see all ciphertexts that
honest participants send each other. Between their moves they may ask the key derivation about any points.
-/

set_option linter.unusedSectionVars false
set_option linter.unusedSimpArgs false
set_option linter.unusedVariables false

namespace IceFrost

open Finset

theorem Spec.Program.atMost_andThen {Q K X Z : Type} : ∀ (a b : ℕ) (p : Spec.Program Q K X) (f : X → Spec.Program Q K Z),
    p.AtMost a → (∀ x, (f x).AtMost b) → (p.andThen f).AtMost (b + a)
  | a, b, .done x, f, _, h => by
    have : ∀ (a b : ℕ) (p : Spec.Program Q K Z), p.AtMost b → p.AtMost (b + a) := by
      intro a b p
      induction p generalizing b with
      | done x =>
        intro _
        cases h : b + a <;> exact trivial
      | ask q next ih =>
        intro hp
        cases b with
        | zero => exact hp.elim
        | succ b =>
          rw [Nat.succ_add]
          exact fun v => ih v b (hp v)
    exact this a b _ (h x)
  | 0, b, .ask q next, f, hp, _ => hp.elim
  | a + 1, b, .ask q next, f, hp, h => fun v => Spec.Program.atMost_andThen a b (next v) f (hp v) h

variable {F G R : Type} [Field F] [DecidableEq F] [AddCommGroup G] [Module F G] [DecidableEq G]
variable {ι K P V : Type} [DecidableEq ι] {c : ℕ}

/-- Colluders who see `V`, deal, take part in signing sessions, return a signature, and ask the key derivation in between. -/
structure Spec.Colluders (V F G K : Type) where
  /-- the dealings of the other dealers -/
  deal : V → Spec.Program G K (U32 → Spec.Dealing F G)
  /-- the next move, given everything that came back so far -/
  move : V → List (Spec.Feedback F G) → Spec.Program G K (Spec.Action G)
  /-- the result -/
  result : V → List (Spec.Feedback F G) → Spec.Program G K (Bytes × ThresholdSignature F G)

/-- The colluders with the key derivation at hand are an insider of C143. -/
def Spec.Colluders.insider (A : Spec.Colluders V F G K) (κ : G → K) : Spec.Insider V F G where
  move v l := (A.move v l).run κ
  result v l := (A.result v l).run κ

/-- The colluders never ask more than `q` questions at a time. -/
def Spec.Colluders.AtMost (A : Spec.Colluders V F G K) (q : ℕ) : Prop :=
  (∀ v, (A.deal v).AtMost q) ∧ (∀ v l, (A.move v l).AtMost q) ∧ ∀ v l, (A.result v l).AtMost q

/-- What colluders see before they deal: DH public keys and proofs of honest participants, the answers of `h0`, the wire,
something else, and the commitments and shares of the honest dealer. -/
abbrev Spec.Sight (ι F G P : Type) (c : ℕ) (J : List U32) :=
  ((ι → G) × (ι → Nizk F) × Spec.ProofHash ι F G × (Fin c → List (Option Bytes)) × P) × (List G × ({j // j ∈ J} → F))

/-- The first `k` moves of the game as a program that asks the key derivation. -/
def Spec.Colluders.game (A : Spec.Colluders V F G K) (S : Suite F G R) (dbg : Bool) (H : List U32) (key : U32 → F) (Y : G)
    (v : V) (a : ℕ → F) (r : ℕ → U32 → F) (u : ℕ → F × F) :
    ℕ → Spec.Program G K (Spec.Board F G × (U32 → List (CommitmentShare F G)))
  | 0 => .done (⟨[], [], [], [], []⟩, fun _ => [])
  | k + 1 => (A.game S dbg H key Y v a r u k).andThen fun st => (A.move v st.1.replies).andThen fun mv =>
    .done (Spec.gameStep S dbg H key Y mv st (a k) (r k) (u k))

theorem Spec.Colluders.game_run (A : Spec.Colluders V F G K) (S : Suite F G R) (dbg : Bool) (H : List U32) (key : U32 → F)
    (Y : G) (v : V) (a : ℕ → F) (r : ℕ → U32 → F) (u : ℕ → F × F) (κ : G → K) (k : ℕ) :
    (A.game S dbg H key Y v a r u k).run κ = (A.insider κ).play S dbg H key Y v a r u k := by
  induction k with
  | zero => rfl
  | succ k ih =>
    rw [Spec.Colluders.game, Spec.Program.run_andThen, Spec.Program.run_andThen, ih]
    rfl

theorem Spec.Colluders.game_atMost (A : Spec.Colluders V F G K) (S : Suite F G R) (dbg : Bool) (H : List U32) (key : U32 → F)
    (Y : G) (v : V) (a : ℕ → F) (r : ℕ → U32 → F) (u : ℕ → F × F) (q : ℕ) (hq : A.AtMost q) (k : ℕ) :
    (A.game S dbg H key Y v a r u k).AtMost (k * q) := by
  induction k with
  | zero => exact (Nat.zero_mul q).symm ▸ trivial
  | succ k ih =>
    rw [Nat.succ_mul, Nat.add_comm]
    refine Spec.Program.atMost_andThen _ _ _ _ ih fun st => ?_
    rw [← Nat.zero_add q]
    refine Spec.Program.atMost_andThen _ _ _ _ (hq.2.1 _ _) fun mv => trivial

section
variable {J : List U32} {t n : ℕ}

/-- What is drawn besides DH keys and the functions: `P`, the polynomial of the honest dealer, nonces and answers of the
signing sessions. -/
abbrev Spec.GameCoins (F P : Type) (t n : ℕ) :=
  P × (Fin t → F) × Spec.Draw F (F × F) × (Fin (n + 1) → Spec.Cell F (F × F))

/-- The whole game as a reader of the wire. -/
def Spec.Colluders.reader (A : Spec.Colluders (Spec.Sight ι F G P c J) F G K) (S : Suite F G R) (dbg : Bool)
    (D : List U32) (l : U32) (H : List U32) :
    Spec.Reader ι F G K (Spec.GameCoins F P t n) ((U32 → Spec.Dealing F G) × Spec.Board F G × Bytes × ThresholdSignature F G) c :=
  fun B π χ W ρ =>
    let v : Spec.Sight ι F G P c J := ((B, π, χ, W, ρ.1), Spec.dealerView S J l ρ.2.1)
    (A.deal v).andThen fun deal =>
      (A.game S dbg H (Spec.dealtShare D l deal ρ.2.1) (Spec.dealtKey D l deal v.2) v (Spec.answers ρ.2.2.2)
        (fun a => (Spec.drawn ρ.2.2.1 ρ.2.2.2 a).1) (fun a => (Spec.drawn ρ.2.2.1 ρ.2.2.2 a).2) n).andThen fun st =>
      (A.result v st.1.replies).andThen fun o => .done (deal, st.1, o)

/-- The colluders reach their goal: the dealings pass the checks, and the result is a forgery. -/
def Spec.forgedBy (S : Suite F G R) (D : List U32) (l : U32) (J H : List U32) :
    Spec.Goal ι F G (Spec.GameCoins F P t n) ((U32 → Spec.Dealing F G) × Spec.Board F G × Bytes × ThresholdSignature F G) :=
  fun _ _ _ ρ o => Spec.Accepted S D l H t o.1 ∧
    o.2.1.Forged S (Spec.dealtKey D l o.1 (Spec.dealerView S J l ρ.2.1)) o.2.2 (Spec.answers ρ.2.2.2 n)

/-- What the colluders see, when ciphertexts are made under the keys `κ`. -/
def Spec.sight (S : Suite F G R) (key : K → Bytes) (pair : Fin c → ι × ι) (letters : Spec.GameCoins F P t n → Fin c → List (Bytes × Bytes))
    (J : List U32) (l : U32) (b k : ι → F) (χ : Spec.ProofHash ι F G) (κ : G → K) (ρ : Spec.GameCoins F P t n) :
    Spec.Sight ι F G P c J :=
  ((Spec.dhKeys S b, Spec.dhProofs S b k χ, χ,
    fun p => Spec.sealed S key (κ ((b (pair p).1 * b (pair p).2) • S.gen)) (letters ρ p), ρ.1), Spec.dealerView S J l ρ.2.1)

/-- The success of colluders who see the wire: their dealings pass the checks, and they forge as in C145. -/
def Spec.Colluders.Succeed (A : Spec.Colluders (Spec.Sight ι F G P c J) F G K) (S : Suite F G R) (dbg : Bool) (key : K → Bytes)
    (pair : Fin c → ι × ι) (letters : Spec.GameCoins F P t n → Fin c → List (Bytes × Bytes)) (D : List U32) (l : U32)
    (H : List U32) (x : Spec.TapCoins ι F G K (Spec.GameCoins F P t n)) : Prop :=
  let (b, k, χ, κ, ρ) := x
  let v := Spec.sight S key pair letters J l b k χ κ ρ
  let deal := (A.deal v).run κ
  Spec.Accepted S D l H t deal ∧
    (A.insider κ).Succeeds S dbg H n (Spec.dealtShare D l deal ρ.2.1) (Spec.dealtKey D l deal v.2) v ρ.2.2.1 ρ.2.2.2

theorem reader_run (A : Spec.Colluders (Spec.Sight ι F G P c J) F G K) (S : Suite F G R) (dbg : Bool) (D : List U32) (l : U32)
    (H : List U32) (B : ι → G) (π : ι → Nizk F) (χ : Spec.ProofHash ι F G) (W : Fin c → List (Option Bytes))
    (ρ : Spec.GameCoins F P t n) (κ : G → K) :
    let v : Spec.Sight ι F G P c J := ((B, π, χ, W, ρ.1), Spec.dealerView S J l ρ.2.1)
    let deal := (A.deal v).run κ
    Spec.forgedBy S D l J H B π χ ρ ((A.reader S dbg D l H B π χ W ρ).run κ) ↔
      Spec.Accepted S D l H t deal ∧
        (A.insider κ).Succeeds S dbg H n (Spec.dealtShare D l deal ρ.2.1) (Spec.dealtKey D l deal v.2) v ρ.2.2.1 ρ.2.2.2 := by
  intro v deal
  unfold Spec.Colluders.reader
  simp only [Spec.Program.run_andThen, Spec.Colluders.game_run]
  exact Iff.rfl

/-- C153: the number of questions that the colluders ask the key derivation during the game. -/
theorem C153_questions (A : Spec.Colluders (Spec.Sight ι F G P c J) F G K) (q : ℕ) (hq : A.AtMost q) (S : Suite F G R) (dbg : Bool)
    (D : List U32) (l : U32) (H : List U32) (key : K → Bytes) (letters : Spec.GameCoins F P t n → Fin c → List (Bytes × Bytes))
    (pair : Fin c → ι × ι) (p : Fin c) (X Y : G) (x : Spec.FreeCoins ι F G K (Spec.GameCoins F P t n) c) :
    (Spec.dhGuesses S pair (Spec.reading S key letters (A.reader S dbg D l H)) p X Y x).length ≤ c + (q + n * q + q) := by
  refine C152_guesses S pair _ _ (fun B π χ u ρ => ?_) p X Y x
  unfold Spec.reading Spec.Colluders.reader
  refine Spec.Program.atMost_andThen q (q + n * q) _ _ (hq.1 _) fun deal => ?_
  refine Spec.Program.atMost_andThen (n * q) q _ _ (A.game_atMost S dbg H _ _ _ _ _ _ q hq n) fun st => ?_
  rw [← Nat.zero_add q]
  exact Spec.Program.atMost_andThen q 0 _ _ (hq.2.2 _ _) fun o => trivial

end

/-- What the colluders see in the game without secrets on the wire. -/
def Spec.blankSight (S : Suite F G R) (key : K → Bytes) (letters' : P → Fin c → List (Bytes × Bytes))
    (x : Spec.FreeCoins ι F G K P c) :
    (ι → G) × (ι → Nizk F) × Spec.ProofHash ι F G × (Fin c → List (Option Bytes)) × P :=
  let (b, s, r, χ, _, u, ρ) := x
  let B := Spec.dhKeys S b
  (B, fun i => ⟨s i, r i⟩, Spec.programmed S B s r χ, fun p => Spec.sealed S key (u p) (letters' ρ p), ρ)

/-- The insider of C145 made from the colluders: everything else about the wire is part of its coins. -/
def Spec.Colluders.blank {J : List U32} (A : Spec.Colluders (Spec.Sight ι F G P c J) F G K) (S : Suite F G R) (key : K → Bytes)
    (letters' : P → Fin c → List (Bytes × Bytes)) :
    Spec.Insider (Spec.FreeCoins ι F G K P c × (List G × ({j // j ∈ J} → F))) F G where
  move y l := (A.move (Spec.blankSight S key letters' y.1, y.2) l).run y.1.2.2.2.2.1
  result y l := (A.result (Spec.blankSight S key letters' y.1, y.2) l).run y.1.2.2.2.2.1

/-- Its dealings. -/
def Spec.Colluders.blankDeal {J : List U32} (A : Spec.Colluders (Spec.Sight ι F G P c J) F G K) (S : Suite F G R)
    (key : K → Bytes) (letters' : P → Fin c → List (Bytes × Bytes))
    (y : Spec.FreeCoins ι F G K P c × (List G × ({j // j ∈ J} → F))) : U32 → Spec.Dealing F G :=
  (A.deal (Spec.blankSight S key letters' y.1, y.2)).run y.1.2.2.2.2.1

theorem Spec.Insider.Succeeds_congr {Ω Ω' : Type} (B : Spec.Insider Ω F G) (B' : Spec.Insider Ω' F G) (S : Suite F G R)
    (dbg : Bool) (H : List U32) (n : ℕ) (key : U32 → F) (Y : G) (ω : Ω) (ω' : Ω') (hm : B.move ω = B'.move ω')
    (hr : B.result ω = B'.result ω') (d : Spec.Draw F (F × F)) (h : Fin (n + 1) → Spec.Cell F (F × F)) :
    B.Succeeds S dbg H n key Y ω d h ↔ B'.Succeeds S dbg H n key Y ω' d h := by
  have hp : ∀ a r u k, B.play S dbg H key Y ω a r u k = B'.play S dbg H key Y ω' a r u k := by
    intro a r u k
    induction k with
    | zero => rfl
    | succ k ih => rw [Spec.Insider.play_succ, Spec.Insider.play_succ, ih, hm]
  unfold Spec.Insider.Succeeds
  rw [hp, hr]

section
variable [Fintype ι] [Fintype F] [Fintype G] [Fintype K] [Nonempty K] [Fintype P] [Nonempty P] [Fintype U32]

/-- C153: if colluders who see all ciphertexts between honest participants forge with chance `ε`, then the solver of C143
finds one more discrete logarithm than it asks for with chance at least `ε' (ε' / (n + 1) - 1 / |F|) - 2 n² |H| / |F|`, where
`ε'` is `ε` without the chances of the Diffie-Hellman solvers and the advantages of the tests for the cipher. -/
theorem C153_forgery {S : Suite F G R} (hS : S.Lawful) {pair : Fin c → ι × ι} (hp : Spec.Pairs pair) (key : K → Bytes)
    (D : List U32) (h0 : 0 ∉ D) (l : U32) (J : List U32) (hJ : J.Nodup) (hJ0 : 0 ∉ J) (t : ℕ) (ht : J.length + 1 = t)
    (H : List U32) (hH : H.Nodup) (htH : t ≤ H.length) (dbg : Bool) (n : ℕ) (hn : n ≤ 2 ^ 63)
    (letters : Spec.GameCoins F P t n → Fin c → List (Bytes × Bytes)) (letters' : P → Fin c → List (Bytes × Bytes))
    (A : Spec.Colluders (Spec.Sight ι F G P c J) F G K) :
    let A' : Spec.Reader ι F G K (Spec.GameCoins F P t n) _ c := A.reader S dbg D l H
    let goal : Spec.Goal ι F G (Spec.GameCoins F P t n) _ := Spec.forgedBy S D l J H
    let wire : ℚ := ∑ p, (Spec.dhChance S pair (Spec.reading S key letters A') p +
      Spec.cipherAdvantage S key letters (fun ρ => letters' ρ.1) A' goal p)
    let forged : ℚ := max 0 (Spec.chance (A.Succeed S dbg key pair letters D l H) - wire)
    forged * (forged / ((n + 1 : ℕ) : ℚ) - 1 / (Fintype.card F : ℚ)) -
        2 * (n : ℚ) ^ 2 * (H.length : ℚ) / (Fintype.card F : ℚ) ≤
      Spec.chance fun y : ((Spec.FreeCoins ι F G K P c × ({j // j ∈ J} → F)) × F × Spec.Draw F (F × F)) ×
          (Fin (n + 1) → Spec.Cell F (F × F)) × (Fin (n + 1) → Spec.Cell F (F × F)) =>
        Spec.Insider.Solves ((A.blank S key letters').afterView S t) S dbg H n
          (fun ω X => Spec.kitOfView D l J (fun k =>
            (A.blankDeal S key letters' (ω.1, Spec.simulatedDealerView S J t X ω.2) k).poly H t) ω.2)
          y.1.1 y.1.2.1 y.1.2.2 y.2.1 y.2.2 := by
  intro A' goal wire forged
  have h := C145_concurrent_sessions hS D h0 l J hJ hJ0 t ht H hH htH (A.blankDeal S key letters') dbg n hn
    (A.blank S key letters')
  simp only at h
  refine fork_bound_mono (by positivity) (by positivity) (by positivity) (le_max_left _ _) (max_le (chance_nonneg _) ?_)
    (chance_nonneg _) h
  have hw := C152_wire S hp key letters (fun ρ => letters' ρ.1) A' goal
  have hw' := (abs_sub_le_iff.mp hw).1
  have e1 : Spec.chance (Spec.tapped S pair (Spec.reading S key letters A') goal) =
      Spec.chance (A.Succeed S dbg key pair letters D l H) := by
    refine chance_congr ?_
    rintro ⟨b, k, χ, κ, ρ⟩
    exact reader_run A S dbg D l H _ _ _ _ ρ κ
  let e : Spec.FreeCoins ι F G K (Spec.GameCoins F P t n) c ≃
      (Spec.FreeCoins ι F G K P c × (Fin t → F) × Spec.Draw F (F × F)) × (Fin (n + 1) → Spec.Cell F (F × F)) :=
    { toFun := fun x => (((x.1, x.2.1, x.2.2.1, x.2.2.2.1, x.2.2.2.2.1, x.2.2.2.2.2.1, x.2.2.2.2.2.2.1), x.2.2.2.2.2.2.2.1,
        x.2.2.2.2.2.2.2.2.1), x.2.2.2.2.2.2.2.2.2)
      invFun := fun z => (z.1.1.1, z.1.1.2.1, z.1.1.2.2.1, z.1.1.2.2.2.1, z.1.1.2.2.2.2.1, z.1.1.2.2.2.2.2.1, z.1.1.2.2.2.2.2.2,
        z.1.2.1, z.1.2.2, z.2)
      left_inv := fun _ => rfl
      right_inv := fun _ => rfl }
  have e2 : Spec.chance (Spec.untapped S (Spec.reading S key (fun ρ => letters' ρ.1) A') goal) =
      Spec.chance fun z : (Spec.FreeCoins ι F G K P c × (Fin t → F) × Spec.Draw F (F × F)) ×
          (Fin (n + 1) → Spec.Cell F (F × F)) =>
        Spec.Accepted S D l H t (A.blankDeal S key letters' (z.1.1, Spec.dealerView S J l z.1.2.1)) ∧
        (A.blank S key letters').Succeeds S dbg H n
          (Spec.dealtShare D l (A.blankDeal S key letters' (z.1.1, Spec.dealerView S J l z.1.2.1)) z.1.2.1)
          (Spec.dealtKey D l (A.blankDeal S key letters' (z.1.1, Spec.dealerView S J l z.1.2.1))
            (Spec.dealerView S J l z.1.2.1)) (z.1.1, Spec.dealerView S J l z.1.2.1) z.1.2.2 z.2 := by
    rw [← chance_equiv e]
    refine chance_congr ?_
    rintro ⟨b, s, r, χ, κ, u, ρ⟩
    refine (reader_run A S dbg D l H _ _ _ _ ρ κ).trans (and_congr Iff.rfl ?_)
    exact Spec.Insider.Succeeds_congr (A.insider κ) (A.blank S key letters') S dbg H n _ _ _
      ((b, s, r, χ, κ, u, ρ.1), Spec.dealerView S J l ρ.2.1) rfl rfl _ _
  rw [e1, e2] at hw'
  linarith

end

section Examples
open Toy

/-- Colluders of C145 that also ask the key derivation about the DH public key of the first honest participant. -/
def watchers : Spec.Colluders (Spec.Sight (Fin 3) Fp Fp Unit 3 colluders) Fp Fp (Fin 16) where
  deal v := .ask (v.1.1 0) fun _ => .done (colluderDeal ((), v.2))
  move v l := .done ((moonlighter dealtSecret).move ((), v.2) l)
  result v l := .done ((moonlighter dealtSecret).result ((), v.2) l)

example : watchers.AtMost 1 := ⟨fun _ _ => trivial, fun _ _ => trivial, fun _ _ => trivial⟩

/-- The share that dealer 1 sends on the first wire. -/
def shareOnWire (ρ : Spec.GameCoins Fp Unit 3 3) (p : Fin 3) : List (Bytes × Bytes) :=
  if p = 0 then [([1], suite.encF (Spec.polyEval (List.ofFn ρ.2.1) 5))] else []

/-- Zero in its place. -/
def nothingOnWire (_ : Unit) (p : Fin 3) : List (Bytes × Bytes) := if p = 0 then [([1], suite.encF 0)] else []

theorem watchers_deal (κ : Fp → Fin 16) (v : Spec.Sight (Fin 3) Fp Fp Unit 3 colluders) :
    (watchers.deal v).run κ = colluderDeal ((), v.2) := rfl

theorem watchers_move (κ : Fp → Fin 16) (v : Spec.Sight (Fin 3) Fp Fp Unit 3 colluders) :
    (watchers.insider κ).move v = (moonlighter dealtSecret).move ((), v.2) := rfl

theorem watchers_result (κ : Fp → Fin 16) (v : Spec.Sight (Fin 3) Fp Fp Unit 3 colluders) :
    (watchers.insider κ).result v = (moonlighter dealtSecret).result ((), v.2) := rfl

theorem watchers_succeed (key : Fin 16 → Bytes) (x : Spec.TapCoins (Fin 3) Fp Fp (Fin 16) (Spec.GameCoins Fp Unit 3 3)) :
    watchers.Succeed suite true key threePairs shareOnWire [1, 2, 3] 1 [1, 3, 5] x := by
  obtain ⟨b, k, χ, κ, ρ⟩ := x
  unfold Spec.Colluders.Succeed
  simp only
  have hv : (Spec.sight suite key threePairs shareOnWire colluders 1 b k χ κ ρ).2 = Spec.dealerView suite colluders 1 ρ.2.1 := rfl
  generalize Spec.sight suite key threePairs shareOnWire colluders 1 b k χ κ ρ = v at hv ⊢
  rw [watchers_deal κ v]
  have h := moonlighter_succeeds (Ω := Unit × (List Fp × ({j // j ∈ colluders} → Fp))) [1, 3, 5] (by decide) dealtSecret
    (Spec.dealtShare [1, 2, 3] 1 (colluderDeal ((), v.2)) ρ.2.1) ((), v.2) ρ.2.2.1 ρ.2.2.2
  exact ⟨colluderDeal_accepted ((), v.2), (Spec.Insider.Succeeds_congr (watchers.insider κ) (moonlighter dealtSecret) suite true
    [1, 3, 5] 3 _ _ v ((), v.2) (watchers_move κ v) (watchers_result κ v) _ _).mpr h⟩

example [Fintype Fp] [Fintype U32] (key : Fin 16 → Bytes) :
    let A' : Spec.Reader (Fin 3) Fp Fp (Fin 16) (Spec.GameCoins Fp Unit 3 3) _ 3 :=
      watchers.reader suite true [1, 2, 3] 1 [1, 3, 5]
    let wire : ℚ := ∑ p, (Spec.dhChance suite threePairs (Spec.reading suite key shareOnWire A') p +
      Spec.cipherAdvantage suite key shareOnWire (fun ρ => nothingOnWire ρ.1) A'
        (Spec.forgedBy suite [1, 2, 3] 1 colluders [1, 3, 5]) p)
    let forged : ℚ := max 0 (1 - wire)
    forged * (forged / ((3 + 1 : ℕ) : ℚ) - 1 / (Fintype.card Fp : ℚ)) -
        2 * ((3 : ℕ) : ℚ) ^ 2 * (([1, 3, 5] : List U32).length : ℚ) / (Fintype.card Fp : ℚ) ≤
      Spec.chance fun y : ((Spec.FreeCoins (Fin 3) Fp Fp (Fin 16) Unit 3 × ({j // j ∈ colluders} → Fp)) × Fp ×
          Spec.Draw Fp (Fp × Fp)) × (Fin (3 + 1) → Spec.Cell Fp (Fp × Fp)) × (Fin (3 + 1) → Spec.Cell Fp (Fp × Fp)) =>
        Spec.Insider.Solves ((watchers.blank suite key nothingOnWire).afterView suite 3) suite true [1, 3, 5] 3
          (fun ω X => Spec.kitOfView [1, 2, 3] 1 colluders (fun k => (watchers.blankDeal suite key nothingOnWire
            (ω.1, Spec.simulatedDealerView suite colluders 3 X ω.2) k).poly [1, 3, 5] 3) ω.2)
          y.1.1 y.1.2.1 y.1.2.2 y.2.1 y.2.2 := by
  have h := C153_forgery lawful threePairs_pairs key [1, 2, 3] (by decide) 1 colluders (by decide)
    (by decide) 3 rfl [1, 3, 5] (by decide) (by decide) true 3 (by norm_num) shareOnWire nothingOnWire watchers
  rw [chance_one (watchers_succeed key)] at h
  exact h

end Examples

end IceFrost
