import Verif.Props.Fresh
import Verif.Props.Dealings
import Verif.Props.Dkg

/-! # C152: whoever reads the encrypted shares computes Diffie-Hellman secrets or breaks the cipher

The shares that honest participants send each other are encrypted under keys that both ends derive from their DH keys. Here the
key derivation and the hash of the proofs of knowledge are random functions. The keys of the wire can then be replaced with
random ones, one pair of participants after the other; whoever notices has asked the key derivation for a Diffie-Hellman secret.
-/

set_option linter.unusedSectionVars false
set_option linter.unusedSimpArgs false
set_option linter.unusedVariables false

namespace IceFrost

open Finset

/-! ### Programs that ask a random function -/

namespace Spec.Program

variable {Q K Out : Type}

/-- The program asks at most `q` questions. -/
def AtMost : ℕ → Spec.Program Q K Out → Prop
  | _, done _ => True
  | 0, ask _ _ => False
  | q + 1, ask _ next => ∀ a, (next a).AtMost q

theorem questions_length (κ : Q → K) : ∀ (q : ℕ) (p : Spec.Program Q K Out), p.AtMost q → (p.questions κ).length ≤ q
  | _, done _, _ => Nat.zero_le _
  | 0, ask _ _, h => h.elim
  | q + 1, ask x next, h => by
    rw [questions, List.length_cons]
    exact Nat.succ_le_succ (questions_length κ q (next (κ x)) (h _))

/-- Functions that agree on the questions asked give the same result and the same questions. -/
theorem run_congr {κ κ' : Q → K} : ∀ (p : Spec.Program Q K Out), (∀ x ∈ p.questions κ, κ' x = κ x) →
    p.run κ' = p.run κ ∧ p.questions κ' = p.questions κ
  | done o, _ => ⟨rfl, rfl⟩
  | ask x next, h => by
    have hx : κ' x = κ x := h x (by rw [questions]; exact List.mem_cons_self)
    obtain ⟨h1, h2⟩ := run_congr (next (κ x)) fun y hy => h y (by rw [questions]; exact List.mem_cons_of_mem _ hy)
    rw [run, run, questions, questions, hx, h1, h2]
    exact ⟨rfl, rfl⟩

end Spec.Program

/-! ### The game -/

variable {F G R : Type} [Field F] [DecidableEq F] [AddCommGroup G] [Module F G] [DecidableEq G]
variable {ι K P Out : Type} [DecidableEq ι] {c : ℕ}

/-- The answers of `h0` for the index of each honest participant, as a function of the key and the commitment. -/
abbrev Spec.ProofHash (ι F G : Type) := ι → G × G → F

/-- The DH public keys. -/
def Spec.dhKeys (S : Suite F G R) (b : ι → F) : ι → G := fun i => b i • S.gen

/-- The proofs of knowledge of the DH keys `b` with the nonces `k`, as `NizkPokOfSecretKey::prove` makes them. -/
def Spec.dhProofs (S : Suite F G R) (b k : ι → F) (χ : Spec.ProofHash ι F G) : ι → Nizk F := fun i =>
  ⟨χ i (b i • S.gen, k i • S.gen), k i + b i * χ i (b i • S.gen, k i • S.gen)⟩

/-- Someone who sees the DH public keys, the proofs, all answers of `h0`, something about the keys of `c` pairs of
participants and about other randomness `P`, asks the key derivation about points, and returns something. What exactly it
sees is up to the function. -/
abbrev Spec.Tap (ι F G K P Out : Type) (c : ℕ) :=
  (ι → G) → (ι → Nizk F) → Spec.ProofHash ι F G → (Fin c → K) → P → Spec.Program G K Out

/-- What it aims at. -/
abbrev Spec.Goal (ι F G P Out : Type) := (ι → G) → (ι → Nizk F) → Spec.ProofHash ι F G → P → Out → Prop

/-- The randomness of the real game: DH keys, nonces of the proofs, answers of `h0`, answers of the key derivation, the rest. -/
abbrev Spec.TapCoins (ι F G K P : Type) := (ι → F) × (ι → F) × Spec.ProofHash ι F G × (G → K) × P

/-- The real game: the key of a pair is what the key derivation returns for the Diffie-Hellman secret of the pair. -/
def Spec.tapped (S : Suite F G R) (pair : Fin c → ι × ι) (A : Spec.Tap ι F G K P Out c) (goal : Spec.Goal ι F G P Out)
    (x : Spec.TapCoins ι F G K P) : Prop :=
  let (b, k, χ, κ, ρ) := x
  let B := Spec.dhKeys S b
  let π := Spec.dhProofs S b k χ
  goal B π χ ρ ((A B π χ (fun p => κ ((b (pair p).1 * b (pair p).2) • S.gen)) ρ).run κ)

/-- The randomness of the games without DH secrets: DH keys (of which only the public keys are used), challenges and responses
of the proofs, answers of `h0` and of the key derivation, keys for the pairs, the rest. -/
abbrev Spec.FreeCoins (ι F G K P : Type) (c : ℕ) :=
  (ι → F) × (ι → F) × (ι → F) × Spec.ProofHash ι F G × (G → K) × (Fin c → K) × P

/-- The answers of `h0` for which the proofs with challenges `s` and responses `r` are valid. -/
def Spec.programmed (S : Suite F G R) (B : ι → G) (s r : ι → F) (χ : Spec.ProofHash ι F G) : Spec.ProofHash ι F G := fun i =>
  Function.update (χ i) (B i, r i • S.gen - s i • B i) (s i)

/-- The game in which the keys of all pairs are random. -/
def Spec.untapped (S : Suite F G R) (A : Spec.Tap ι F G K P Out c) (goal : Spec.Goal ι F G P Out)
    (x : Spec.FreeCoins ι F G K P c) : Prop :=
  let (b, s, r, χ, κ, u, ρ) := x
  let B := Spec.dhKeys S b
  let π : ι → Nizk F := fun i => ⟨s i, r i⟩
  let χ' := Spec.programmed S B s r χ
  goal B π χ' ρ ((A B π χ' u ρ).run κ)

/-- The Diffie-Hellman secret of the pair `p`, computed without the DH keys of the pair `(i, j)`. -/
def Spec.otherSecret (pair : Fin c → ι × ι) (i j : ι) (b : ι → F) (B : ι → G) (p : Fin c) : G :=
  if (pair p).1 = i ∨ (pair p).1 = j then b (pair p).2 • B (pair p).1 else b (pair p).1 • B (pair p).2

/-- The solver of the Diffie-Hellman problem for the pair number `n`: it runs the program with the given points as the DH
public keys of this pair, random keys for the pairs up to `n` and the right keys for the others, and returns the points that
were asked. -/
def Spec.dhGuesses (S : Suite F G R) (pair : Fin c → ι × ι) (A : Spec.Tap ι F G K P Out c) (n : Fin c) (X Y : G)
    (x : Spec.FreeCoins ι F G K P c) : List G :=
  let (b, s, r, χ, κ, u, ρ) := x
  let i := (pair n).1
  let j := (pair n).2
  let B := Function.update (Function.update (Spec.dhKeys S b) i X) j Y
  let π : ι → Nizk F := fun i => ⟨s i, r i⟩
  let χ' := Spec.programmed S B s r χ
  let secret := Spec.otherSecret pair i j b B
  ((List.finRange c).filter (n < ·)).map secret ++
    (A B π χ' (fun p => if p ≤ n then u p else κ (secret p)) ρ).questions κ

/-- The pairs are pairs of different participants, and all different also when the order is ignored. -/
def Spec.Pairs (pair : Fin c → ι × ι) : Prop :=
  (∀ p, (pair p).1 ≠ (pair p).2) ∧ ∀ p q, p ≠ q → pair p ≠ pair q ∧ pair p ≠ (pair q).swap

/-! ### Chances -/

theorem chance_extra {A B : Type} [Fintype A] [Fintype B] [Nonempty B] (E : A → Prop) :
    Spec.chance (fun x : A × B => E x.1) = Spec.chance E := by
  classical
  unfold Spec.chance
  have h : (univ.filter fun x : A × B => E x.1) = (univ.filter E) ×ˢ (univ : Finset B) := by
    ext x
    simp
  rw [h, Finset.card_product, Fintype.card_prod, Finset.card_univ, Nat.cast_mul, Nat.cast_mul,
    mul_div_mul_right]
  exact_mod_cast Fintype.card_ne_zero

theorem chance_equiv {A B : Type} [Fintype A] [Fintype B] (φ : A ≃ B) (E : B → Prop) :
    Spec.chance (fun a => E (φ a)) = Spec.chance E :=
  chance_bijective φ φ.bijective E

/-! ### Proofs without secrets -/

/-- The game in which the keys of the pairs before `n` are random. -/
def Spec.tappedFrom (S : Suite F G R) (pair : Fin c → ι × ι) (A : Spec.Tap ι F G K P Out c) (goal : Spec.Goal ι F G P Out)
    (n : ℕ) (x : Spec.FreeCoins ι F G K P c) : Prop :=
  let (b, s, r, χ, κ, u, ρ) := x
  let B := Spec.dhKeys S b
  let π : ι → Nizk F := fun i => ⟨s i, r i⟩
  let χ' := Spec.programmed S B s r χ
  goal B π χ' ρ ((A B π χ' (fun p => if p.1 < n then u p else κ ((b (pair p).1 * b (pair p).2) • S.gen)) ρ).run κ)

/-- Real coins, with unused values, and the coins for which the game without secrets looks the same. -/
def proofsEquiv (S : Suite F G R) :
    Spec.TapCoins ι F G K P × (ι → F) × (Fin c → K) ≃ Spec.FreeCoins ι F G K P c where
  toFun x :=
    let ((b, k, χ, κ, ρ), g, u) := x
    (b, fun i => χ i (b i • S.gen, k i • S.gen), fun i => k i + b i * χ i (b i • S.gen, k i • S.gen),
      fun i => Function.update (χ i) (b i • S.gen, k i • S.gen) (g i), κ, u, ρ)
  invFun y :=
    let (b, s, r, χ, κ, u, ρ) := y
    ((b, fun i => r i - b i * s i, fun i => Function.update (χ i) (b i • S.gen, (r i - b i * s i) • S.gen) (s i), κ, ρ),
      fun i => χ i (b i • S.gen, (r i - b i * s i) • S.gen), u)
  left_inv x := by
    obtain ⟨⟨b, k, χ, κ, ρ⟩, g, u⟩ := x
    simp
  right_inv y := by
    obtain ⟨b, s, r, χ, κ, u, ρ⟩ := y
    simp

theorem programmed_dhKeys (S : Suite F G R) (b s r : ι → F) (χ : Spec.ProofHash ι F G) :
    Spec.programmed S (Spec.dhKeys S b) s r χ =
      fun i => Function.update (χ i) (b i • S.gen, (r i - b i * s i) • S.gen) (s i) := by
  funext i
  unfold Spec.programmed Spec.dhKeys
  rw [sub_smul, mul_comm (b i), mul_smul]

section

variable [Fintype ι] [Fintype F] [Fintype G] [Fintype K] [Nonempty K] [Fintype P]

theorem tapped_chance (S : Suite F G R) (pair : Fin c → ι × ι) (A : Spec.Tap ι F G K P Out c) (goal : Spec.Goal ι F G P Out) :
    Spec.chance (Spec.tapped S pair A goal) = Spec.chance (Spec.tappedFrom S pair A goal 0) := by
  rw [← chance_extra (B := (ι → F) × (Fin c → K)) (Spec.tapped S pair A goal), ← chance_equiv (proofsEquiv S)]
  refine chance_congr fun x => ?_
  obtain ⟨⟨b, k, χ, κ, ρ⟩, g, u⟩ := x
  have h : Spec.programmed S (Spec.dhKeys S b) (fun i => χ i (b i • S.gen, k i • S.gen))
      (fun i => k i + b i * χ i (b i • S.gen, k i • S.gen))
      (fun i => Function.update (χ i) (b i • S.gen, k i • S.gen) (g i)) = χ := by
    rw [programmed_dhKeys]
    funext i
    simp
  show goal _ _ _ _ _ ↔ goal _ _ _ _ _
  unfold proofsEquiv
  simp only [Equiv.coe_fn_mk, h]
  exact Iff.rfl

/-! ### One pair after the other -/

/-- Exchanges the answer of the key derivation for the secret of the pair number `n` with the random key of this pair. -/
def exchange (S : Suite F G R) (pair : Fin c → ι × ι) (n : Fin c) : Spec.FreeCoins ι F G K P c ≃ Spec.FreeCoins ι F G K P c :=
  Function.Involutive.toPerm (fun x =>
    let (b, s, r, χ, κ, u, ρ) := x
    let Q := (b (pair n).1 * b (pair n).2) • S.gen
    (b, s, r, χ, Function.update κ Q (u n), Function.update u n (κ Q), ρ)) (by
      rintro ⟨b, s, r, χ, κ, u, ρ⟩
      simp)

theorem otherSecret_eq (S : Suite F G R) {pair : Fin c → ι × ι} (b : ι → F) (i j : ι) (p : Fin c) :
    Spec.otherSecret pair i j b (Spec.dhKeys S b) p = (b (pair p).1 * b (pair p).2) • S.gen := by
  unfold Spec.otherSecret Spec.dhKeys
  split
  · rw [smul_smul, mul_comm]
  · rw [smul_smul]

/-- The solver's points when the given points are those of the DH keys in its coins. -/
theorem dhGuesses_self (S : Suite F G R) (pair : Fin c → ι × ι) (A : Spec.Tap ι F G K P Out c) (n : Fin c)
    (b s r : ι → F) (χ : Spec.ProofHash ι F G) (κ : G → K) (u : Fin c → K) (ρ : P) :
    Spec.dhGuesses S pair A n (b (pair n).1 • S.gen) (b (pair n).2 • S.gen) (b, s, r, χ, κ, u, ρ) =
      ((List.finRange c).filter (n < ·)).map (fun p => (b (pair p).1 * b (pair p).2) • S.gen) ++
        (A (Spec.dhKeys S b) (fun i => ⟨s i, r i⟩) (Spec.programmed S (Spec.dhKeys S b) s r χ)
          (fun p => if p ≤ n then u p else κ ((b (pair p).1 * b (pair p).2) • S.gen)) ρ).questions κ := by
  have hB : Function.update (Function.update (Spec.dhKeys S b) (pair n).1 (b (pair n).1 • S.gen)) (pair n).2
      (b (pair n).2 • S.gen) = Spec.dhKeys S b := by
    have h1 : b (pair n).1 • S.gen = Spec.dhKeys S b (pair n).1 := rfl
    have h2 : b (pair n).2 • S.gen = Spec.dhKeys S b (pair n).2 := rfl
    rw [h1, Function.update_eq_self, h2, Function.update_eq_self]
  have hO : Spec.otherSecret pair (pair n).1 (pair n).2 b (Spec.dhKeys S b) =
      fun p => (b (pair p).1 * b (pair p).2) • S.gen := funext fun p => otherSecret_eq S b _ _ p
  unfold Spec.dhGuesses
  simp only [hB, hO]

/-- Both games agree unless the solver finds the secret of the pair. -/
theorem exchange_goal (S : Suite F G R) (pair : Fin c → ι × ι) (A : Spec.Tap ι F G K P Out c) (goal : Spec.Goal ι F G P Out)
    (n : Fin c) (x : Spec.FreeCoins ι F G K P c)
    (hx : (x.1 (pair n).1 * x.1 (pair n).2) • S.gen ∉
      Spec.dhGuesses S pair A n (x.1 (pair n).1 • S.gen) (x.1 (pair n).2 • S.gen) x) :
    Spec.tappedFrom S pair A goal n (exchange S pair n x) ↔ Spec.tappedFrom S pair A goal (n + 1) x := by
  obtain ⟨b, s, r, χ, κ, u, ρ⟩ := x
  rw [dhGuesses_self, List.mem_append, not_or] at hx
  obtain ⟨h1, h2⟩ := hx
  set Q := (b (pair n).1 * b (pair n).2) • S.gen with hQ
  have hx' : exchange S pair n (b, s, r, χ, κ, u, ρ) =
      (b, s, r, χ, Function.update κ Q (u n), Function.update u n (κ Q), ρ) := rfl
  have hk : (fun p : Fin c => if p.1 < n.1 then Function.update u n (κ Q) p
      else Function.update κ Q (u n) ((b (pair p).1 * b (pair p).2) • S.gen)) =
      fun p : Fin c => if p.1 < n.1 + 1 then u p else κ ((b (pair p).1 * b (pair p).2) • S.gen) := by
    funext p
    rcases lt_trichotomy p.1 n.1 with h | h | h
    · rw [if_pos h, if_pos (by omega), Function.update_of_ne (fun e => by rw [e] at h; exact lt_irrefl _ h)]
    · have : p = n := Fin.ext h
      subst this
      rw [if_neg (lt_irrefl _), if_pos (Nat.lt_succ_self _), ← hQ, Function.update_self]
    · rw [if_neg (by omega), if_neg (by omega), Function.update_of_ne]
      intro e
      refine h1 (List.mem_map.mpr ⟨p, ?_, e⟩)
      rw [List.mem_filter]
      exact ⟨List.mem_finRange _, by simpa using h⟩
  rw [hx']
  unfold Spec.tappedFrom
  simp only [hk]
  have hk' : (fun p : Fin c => if p ≤ n then u p else κ ((b (pair p).1 * b (pair p).2) • S.gen)) =
      fun p : Fin c => if p.1 < n.1 + 1 then u p else κ ((b (pair p).1 * b (pair p).2) • S.gen) := by
    funext p
    by_cases h : p ≤ n
    · rw [if_pos h, if_pos (Nat.lt_succ_of_le h)]
    · rw [if_neg h, if_neg (fun h' => h (Nat.lt_succ_iff.mp h'))]
  rw [hk'] at h2
  have := Spec.Program.run_congr (κ := κ) (κ' := Function.update κ Q (u n)) _ fun y hy =>
    Function.update_of_ne (fun e => by rw [e] at hy; exact h2 hy) _ _
  rw [this.1]

/-- The solver with points made from `y` and `z` in place of the DH keys of its coins. -/
theorem dhGuesses_update (S : Suite F G R) {pair : Fin c → ι × ι} (hp : Spec.Pairs pair) (A : Spec.Tap ι F G K P Out c)
    (n : Fin c) (X Y : G) (b s r : ι → F) (χ : Spec.ProofHash ι F G) (κ : G → K) (u : Fin c → K) (ρ : P) (y z : F) :
    Spec.dhGuesses S pair A n X Y (Function.update (Function.update b (pair n).1 y) (pair n).2 z, s, r, χ, κ, u, ρ) =
      Spec.dhGuesses S pair A n X Y (b, s, r, χ, κ, u, ρ) := by
  set b' := Function.update (Function.update b (pair n).1 y) (pair n).2 z with hb'
  have hne : ∀ l, l ≠ (pair n).1 → l ≠ (pair n).2 → b' l = b l := by
    intro l h1 h2
    rw [hb', Function.update_of_ne h2, Function.update_of_ne h1]
  have hB : Function.update (Function.update (Spec.dhKeys S b') (pair n).1 X) (pair n).2 Y =
      Function.update (Function.update (Spec.dhKeys S b) (pair n).1 X) (pair n).2 Y := by
    funext l
    by_cases h2 : l = (pair n).2
    · subst h2; simp
    · rw [Function.update_of_ne h2, Function.update_of_ne h2]
      by_cases h1 : l = (pair n).1
      · subst h1; simp
      · rw [Function.update_of_ne h1, Function.update_of_ne h1]
        unfold Spec.dhKeys
        rw [hne l h1 h2]
  have hs : ∀ p, n < p → ∀ B : ι → G, Spec.otherSecret pair (pair n).1 (pair n).2 b' B p =
      Spec.otherSecret pair (pair n).1 (pair n).2 b B p := by
    intro p hnp B
    obtain ⟨h3, h4⟩ := hp.2 p n (ne_of_gt hnp)
    have h5 := hp.1 p
    unfold Spec.otherSecret
    split
    · next h =>
      rw [hne]
      · rintro e
        rcases h with h | h
        · exact h5 (h.trans e.symm)
        · exact h4 (Prod.ext h e)
      · rintro e
        rcases h with h | h
        · exact h3 (Prod.ext h e)
        · exact h5 (h.trans e.symm)
    · next h =>
      rw [not_or] at h
      rw [hne _ h.1 h.2]
  unfold Spec.dhGuesses
  simp only [hB]
  have e1 : ((List.finRange c).filter (n < ·)).map (Spec.otherSecret pair (pair n).1 (pair n).2 b'
      (Function.update (Function.update (Spec.dhKeys S b) (pair n).1 X) (pair n).2 Y)) =
      ((List.finRange c).filter (n < ·)).map (Spec.otherSecret pair (pair n).1 (pair n).2 b
      (Function.update (Function.update (Spec.dhKeys S b) (pair n).1 X) (pair n).2 Y)) := by
    refine List.map_congr_left fun p hpm => hs p ?_ _
    rw [List.mem_filter] at hpm
    simpa using hpm.2
  have e2 : (fun p : Fin c => if p ≤ n then u p else κ (Spec.otherSecret pair (pair n).1 (pair n).2 b'
      (Function.update (Function.update (Spec.dhKeys S b) (pair n).1 X) (pair n).2 Y) p)) =
      fun p : Fin c => if p ≤ n then u p else κ (Spec.otherSecret pair (pair n).1 (pair n).2 b
      (Function.update (Function.update (Spec.dhKeys S b) (pair n).1 X) (pair n).2 Y) p) := by
    funext p
    by_cases h : p ≤ n
    · rw [if_pos h, if_pos h]
    · rw [if_neg h, if_neg h, hs p (not_le.mp h)]
  rw [e1, e2]

/-- Drawing the DH keys of one pair apart from the others. -/
def apart {i j : ι} (hij : i ≠ j) : F × F × (ι → F) ≃ (ι → F) × F × F where
  toFun x := (Function.update (Function.update x.2.2 i x.1) j x.2.1, x.2.2 i, x.2.2 j)
  invFun y := (y.1 i, y.1 j, Function.update (Function.update y.1 i y.2.1) j y.2.2)
  left_inv x := by
    obtain ⟨a, d, b⟩ := x
    refine Prod.ext ?_ (Prod.ext ?_ ?_)
    · simp [Function.update_of_ne hij]
    · simp
    · funext l
      by_cases h2 : l = j
      · subst h2; simp
      · by_cases h1 : l = i
        · subst h1; simp [Function.update_of_ne h2]
        · simp [Function.update_of_ne h1, Function.update_of_ne h2]
  right_inv y := by
    obtain ⟨b, a, d⟩ := y
    refine Prod.ext ?_ (Prod.ext ?_ ?_)
    · funext l
      by_cases h2 : l = j
      · subst h2; simp
      · by_cases h1 : l = i
        · subst h1; simp [Function.update_of_ne h2]
        · simp [Function.update_of_ne h1, Function.update_of_ne h2]
    · simp [Function.update_of_ne hij]
    · simp

/-- The chance that the solver finds the secret of the pair whose keys are in its coins is its chance against the
Diffie-Hellman problem. -/
theorem dhGuesses_chance (S : Suite F G R) {pair : Fin c → ι × ι} (hp : Spec.Pairs pair) (A : Spec.Tap ι F G K P Out c)
    (n : Fin c) :
    Spec.chance (fun x : Spec.FreeCoins ι F G K P c => (x.1 (pair n).1 * x.1 (pair n).2) • S.gen ∈
        Spec.dhGuesses S pair A n (x.1 (pair n).1 • S.gen) (x.1 (pair n).2 • S.gen) x) =
      Spec.chance fun x : F × F × Spec.FreeCoins ι F G K P c => (x.1 * x.2.1) • S.gen ∈
        Spec.dhGuesses S pair A n (x.1 • S.gen) (x.2.1 • S.gen) x.2.2 := by
  have hij := hp.1 n
  let e : F × F × Spec.FreeCoins ι F G K P c ≃ Spec.FreeCoins ι F G K P c × F × F :=
    { toFun := fun x => (((apart hij (x.1, x.2.1, x.2.2.1)).1, x.2.2.2), (apart hij (x.1, x.2.1, x.2.2.1)).2)
      invFun := fun y => (((apart hij).symm (y.1.1, y.2)).1, ((apart hij).symm (y.1.1, y.2)).2.1,
        ((apart hij).symm (y.1.1, y.2)).2.2, y.1.2)
      left_inv := fun x => by
        have := (apart hij).symm_apply_apply (x.1, x.2.1, x.2.2.1)
        simp only [Prod.mk.eta, this]
      right_inv := fun y => by
        have := (apart hij).apply_symm_apply (y.1.1, y.2)
        simp only [Prod.mk.eta, this] }
  rw [← chance_extra (B := F × F) (A := Spec.FreeCoins ι F G K P c), ← chance_equiv e]
  refine chance_congr fun x => ?_
  obtain ⟨a, d, b, s, r, χ, κ, u, ρ⟩ := x
  show (_ * _) • S.gen ∈ Spec.dhGuesses S pair A n _ _ (Function.update (Function.update b (pair n).1 a) (pair n).2 d, _) ↔ _
  rw [dhGuesses_update S hp]
  have e1 : (e (a, d, b, s, r, χ, κ, u, ρ)).1.1 (pair n).1 = a := by
    show Function.update (Function.update b (pair n).1 a) (pair n).2 d (pair n).1 = a
    rw [Function.update_of_ne hij, Function.update_self]
  have e2 : (e (a, d, b, s, r, χ, κ, u, ρ)).1.1 (pair n).2 = d := by
    show Function.update (Function.update b (pair n).1 a) (pair n).2 d (pair n).2 = d
    rw [Function.update_self]
  rw [e1, e2]

/-- The chance of the solver for the pair number `n` against the Diffie-Hellman problem. -/
noncomputable def Spec.dhChance (S : Suite F G R) (pair : Fin c → ι × ι) (A : Spec.Tap ι F G K P Out c) (n : Fin c) : ℚ :=
  Spec.chance fun x : F × F × Spec.FreeCoins ι F G K P c => (x.1 * x.2.1) • S.gen ∈
    Spec.dhGuesses S pair A n (x.1 • S.gen) (x.2.1 • S.gen) x.2.2

theorem tappedFrom_step (S : Suite F G R) {pair : Fin c → ι × ι} (hp : Spec.Pairs pair) (A : Spec.Tap ι F G K P Out c)
    (goal : Spec.Goal ι F G P Out) (n : Fin c) :
    |Spec.chance (Spec.tappedFrom S pair A goal n) - Spec.chance (Spec.tappedFrom S pair A goal (n + 1))| ≤
      Spec.dhChance S pair A n := by
  have h := dhGuesses_chance S hp A n
  unfold Spec.dhChance
  rw [← h, ← chance_equiv (exchange S pair n) (Spec.tappedFrom S pair A goal n), abs_sub_le_iff]
  constructor
  · rw [sub_le_iff_le_add]
    refine chance_or fun x hx => ?_
    by_cases hq : (x.1 (pair n).1 * x.1 (pair n).2) • S.gen ∈
        Spec.dhGuesses S pair A n (x.1 (pair n).1 • S.gen) (x.1 (pair n).2 • S.gen) x
    · exact Or.inl hq
    · exact Or.inr ((exchange_goal S pair A goal n x hq).mp hx)
  · rw [sub_le_iff_le_add]
    refine chance_or fun x hx => ?_
    by_cases hq : (x.1 (pair n).1 * x.1 (pair n).2) • S.gen ∈
        Spec.dhGuesses S pair A n (x.1 (pair n).1 • S.gen) (x.1 (pair n).2 • S.gen) x
    · exact Or.inl hq
    · exact Or.inr ((exchange_goal S pair A goal n x hq).mpr hx)

theorem telescope (f : ℕ → ℚ) (d : Fin c → ℚ) (h : ∀ n : Fin c, |f n - f (n + 1)| ≤ d n) : |f 0 - f c| ≤ ∑ n, d n := by
  induction c with
  | zero => simp
  | succ c ih =>
    rw [Fin.sum_univ_castSucc]
    have h1 := ih (fun n => d n.castSucc) fun n => h n.castSucc
    have h2 := h (Fin.last c)
    calc |f 0 - f (c + 1)| = |(f 0 - f c) + (f c - f (c + 1))| := by ring_nf
      _ ≤ |f 0 - f c| + |f c - f (c + 1)| := abs_add_le _ _
      _ ≤ _ := add_le_add h1 h2

/-- C152: the keys of the pairs can be replaced with random ones. The chance to reach any goal changes by at most the sum of
the chances of the solvers against the Diffie-Hellman problem, which know no DH key of their pair. -/
theorem C152_keys (S : Suite F G R) {pair : Fin c → ι × ι} (hp : Spec.Pairs pair) (A : Spec.Tap ι F G K P Out c)
    (goal : Spec.Goal ι F G P Out) :
    |Spec.chance (Spec.tapped S pair A goal) - Spec.chance (Spec.untapped S A goal)| ≤ ∑ n, Spec.dhChance S pair A n := by
  have h := telescope (fun n => Spec.chance (Spec.tappedFrom S pair A goal n)) _ (tappedFrom_step S hp A goal)
  rw [← tapped_chance] at h
  have e : Spec.tappedFrom S pair A goal c = Spec.untapped S A goal := by
    funext x
    obtain ⟨b, s, r, χ, κ, u, ρ⟩ := x
    unfold Spec.tappedFrom Spec.untapped
    simp only [Fin.is_lt, if_true]
  rwa [e] at h

omit [Fintype ι] [Fintype F] [Fintype G] [Fintype K] [Nonempty K] [Fintype P] in
/-- C152: a solver returns at most as many points as there are questions and later pairs. -/
theorem C152_guesses (S : Suite F G R) (pair : Fin c → ι × ι) (A : Spec.Tap ι F G K P Out c) (q : ℕ)
    (hq : ∀ B π χ u ρ, (A B π χ u ρ).AtMost q) (n : Fin c) (X Y : G) (x : Spec.FreeCoins ι F G K P c) :
    (Spec.dhGuesses S pair A n X Y x).length ≤ c + q := by
  unfold Spec.dhGuesses
  rw [List.length_append, List.length_map]
  refine Nat.add_le_add ?_ (Spec.Program.questions_length _ _ _ (hq _ _ _ _ _))
  refine (List.length_filter_le _ _).trans ?_
  rw [List.length_finRange]

/-! ### The cipher -/

/-- Nonces and plaintexts, encrypted under one key. -/
def Spec.sealed (S : Suite F G R) (key : K → Bytes) (v : K) (letters : List (Bytes × Bytes)) : List (Option Bytes) :=
  letters.map fun l => S.aeadEnc (key v) l.1 l.2

/-- Someone who sees the DH public keys, the proofs, all answers of `h0`, the ciphertexts of all pairs and something else. -/
abbrev Spec.Reader (ι F G K P Out : Type) (c : ℕ) :=
  (ι → G) → (ι → Nizk F) → Spec.ProofHash ι F G → (Fin c → List (Option Bytes)) → P → Spec.Program G K Out

/-- The reader, given letters `letters` that are encrypted under the keys of the pairs. -/
def Spec.reading (S : Suite F G R) (key : K → Bytes) (letters : P → Fin c → List (Bytes × Bytes))
    (A : Spec.Reader ι F G K P Out c) : Spec.Tap ι F G K P Out c := fun B π χ u ρ =>
  A B π χ (fun p => Spec.sealed S key (u p) (letters ρ p)) ρ

/-- A test for ciphertexts `C`, which are given to the reader as those of the pair number `n`. The pairs before get the
letters `letters'` and those after it the letters `letters`, encrypted under keys in the coins. -/
def Spec.cipherTest (S : Suite F G R) (key : K → Bytes) (letters letters' : P → Fin c → List (Bytes × Bytes))
    (A : Spec.Reader ι F G K P Out c) (goal : Spec.Goal ι F G P Out) (n : Fin c) (x : Spec.FreeCoins ι F G K P c)
    (C : List (Option Bytes)) : Prop :=
  let (b, s, r, χ, κ, u, ρ) := x
  let B := Spec.dhKeys S b
  let π : ι → Nizk F := fun i => ⟨s i, r i⟩
  let χ' := Spec.programmed S B s r χ
  goal B π χ' ρ ((A B π χ' (fun p => if p < n then Spec.sealed S key (u p) (letters' ρ p) else if p = n then C
    else Spec.sealed S key (u p) (letters ρ p)) ρ).run κ)

/-- How much better than chance the test tells ciphertexts of `letters` from ciphertexts of `letters'` under a fresh key. -/
noncomputable def Spec.cipherAdvantage (S : Suite F G R) (key : K → Bytes) (letters letters' : P → Fin c → List (Bytes × Bytes))
    (A : Spec.Reader ι F G K P Out c) (goal : Spec.Goal ι F G P Out) (n : Fin c) : ℚ :=
  |(Spec.chance fun x : K × Spec.FreeCoins ι F G K P c => Spec.cipherTest S key letters letters' A goal n x.2
      (Spec.sealed S key x.1 (letters x.2.2.2.2.2.2.2 n))) -
    Spec.chance fun x : K × Spec.FreeCoins ι F G K P c => Spec.cipherTest S key letters letters' A goal n x.2
      (Spec.sealed S key x.1 (letters' x.2.2.2.2.2.2.2 n))|

/-- The letters before pair `n` replaced. -/
def mixed (letters letters' : P → Fin c → List (Bytes × Bytes)) (n : ℕ) : P → Fin c → List (Bytes × Bytes) := fun ρ p =>
  if p.1 < n then letters' ρ p else letters ρ p

/-- Drawing the key of one pair apart from the others. -/
def keyApart (n : Fin c) : K × Spec.FreeCoins ι F G K P c ≃ Spec.FreeCoins ι F G K P c × K where
  toFun x :=
    let (v, b, s, r, χ, κ, u, ρ) := x
    ((b, s, r, χ, κ, Function.update u n v, ρ), u n)
  invFun y :=
    let ((b, s, r, χ, κ, u, ρ), v) := y
    (u n, b, s, r, χ, κ, Function.update u n v, ρ)
  left_inv x := by
    obtain ⟨v, b, s, r, χ, κ, u, ρ⟩ := x
    simp
  right_inv y := by
    obtain ⟨⟨b, s, r, χ, κ, u, ρ⟩, v⟩ := y
    simp

theorem cipherTest_chance (S : Suite F G R) (key : K → Bytes) (letters letters' : P → Fin c → List (Bytes × Bytes))
    (A : Spec.Reader ι F G K P Out c) (goal : Spec.Goal ι F G P Out) (n : Fin c) (f : P → List (Bytes × Bytes)) (m : ℕ)
    (hf : ∀ ρ p, mixed letters letters' m ρ p = if p < n then letters' ρ p else if p = n then f ρ else letters ρ p) :
    (Spec.chance fun x : K × Spec.FreeCoins ι F G K P c => Spec.cipherTest S key letters letters' A goal n x.2
      (Spec.sealed S key x.1 (f x.2.2.2.2.2.2.2))) =
      Spec.chance (Spec.untapped S (Spec.reading S key (mixed letters letters' m) A) goal) := by
  rw [← chance_extra (B := K) (Spec.untapped S (Spec.reading S key (mixed letters letters' m) A) goal),
    ← chance_equiv (keyApart n)]
  refine chance_congr fun x => ?_
  obtain ⟨v, b, s, r, χ, κ, u, ρ⟩ := x
  have hw : (fun p => if p < n then Spec.sealed S key (u p) (letters' ρ p) else if p = n then Spec.sealed S key v (f ρ)
      else Spec.sealed S key (u p) (letters ρ p)) =
      fun p => Spec.sealed S key (Function.update u n v p) (mixed letters letters' m ρ p) := by
    funext p
    rw [hf]
    rcases lt_trichotomy p n with h | h | h
    · rw [if_pos h, if_pos h, Function.update_of_ne (ne_of_lt h)]
    · subst h
      rw [if_neg (lt_irrefl _), if_pos rfl, if_neg (lt_irrefl _), if_pos rfl, Function.update_self]
    · rw [if_neg (not_lt_of_gt h), if_neg (ne_of_gt h), if_neg (not_lt_of_gt h), if_neg (ne_of_gt h),
        Function.update_of_ne (ne_of_gt h)]
  show goal _ _ _ _ _ ↔ goal _ _ _ _ _
  simp only [hw]
  exact Iff.rfl

/-- C152: whoever sees the ciphertexts between honest participants reaches no goal with more (or less) chance than someone who
is given ciphertexts of anything else under random keys, up to the chances of solvers against the Diffie-Hellman problem and
the advantages of tests against the cipher under a fresh random key. -/
theorem C152_wire (S : Suite F G R) {pair : Fin c → ι × ι} (hp : Spec.Pairs pair) (key : K → Bytes)
    (letters letters' : P → Fin c → List (Bytes × Bytes)) (A : Spec.Reader ι F G K P Out c) (goal : Spec.Goal ι F G P Out) :
    |Spec.chance (Spec.tapped S pair (Spec.reading S key letters A) goal) -
        Spec.chance (Spec.untapped S (Spec.reading S key letters' A) goal)| ≤
      ∑ n, (Spec.dhChance S pair (Spec.reading S key letters A) n +
        Spec.cipherAdvantage S key letters letters' A goal n) := by
  have h1 := C152_keys S hp (Spec.reading S key letters A) goal
  have h2 := telescope (fun n => Spec.chance (Spec.untapped S (Spec.reading S key (mixed letters letters' n) A) goal))
    (Spec.cipherAdvantage S key letters letters' A goal) fun n => by
      unfold Spec.cipherAdvantage
      rw [cipherTest_chance S key letters letters' A goal n (fun ρ => letters ρ n) n, 
        cipherTest_chance S key letters letters' A goal n (fun ρ => letters' ρ n) (n + 1)]
      · intro ρ p
        unfold mixed
        rcases lt_trichotomy p n with h | h | h
        · rw [if_pos (Nat.lt_succ_of_lt h), if_pos h]
        · subst h
          rw [if_pos (Nat.lt_succ_self _), if_neg (lt_irrefl _), if_pos rfl]
        · rw [if_neg (fun h' => absurd (Nat.lt_succ_iff.mp h') (not_le_of_gt h)), if_neg (not_lt_of_gt h), if_neg (ne_of_gt h)]
      · intro ρ p
        unfold mixed
        rcases lt_trichotomy p n with h | h | h
        · rw [if_pos h, if_pos (Fin.lt_def.mp h)]
        · subst h
          rw [if_neg (lt_irrefl _), if_neg (lt_irrefl _), if_pos rfl]
        · rw [if_neg (not_lt_of_gt h), if_neg (not_lt_of_gt (Fin.lt_def.mp h)), if_neg (ne_of_gt h)]
  have e0 : mixed letters letters' 0 = letters := by
    funext ρ p
    exact if_neg (Nat.not_lt_zero _)
  have ec : mixed letters letters' c = letters' := by
    funext ρ p
    exact if_pos p.2
  rw [e0, ec] at h2
  rw [Finset.sum_add_distrib]
  refine le_trans ?_ (add_le_add h1 h2)
  refine le_trans (le_of_eq ?_) (abs_add_le _ _)
  congr 1
  ring

/-! ### The secret of a dealer -/

/-- The solver for discrete logarithms: it shows the reader commitments and shares made from the point `X`, and ciphertexts of
letters that have nothing to do with them. -/
noncomputable def Spec.readerSolver (S : Suite F G R) (key : K → Bytes) (J : List U32) (t : ℕ)
    (letters' : P → Fin c → List (Bytes × Bytes)) (A : Spec.Reader ι F G K (P × (List G × ({j // j ∈ J} → F))) F c) (X : G)
    (y : {j // j ∈ J} → F) (x : Spec.FreeCoins ι F G K P c) : F :=
  let (b, s, r, χ, κ, u, ρ) := x
  let B := Spec.dhKeys S b
  (A B (fun i => ⟨s i, r i⟩) (Spec.programmed S B s r χ) (fun p => Spec.sealed S key (u p) (letters' ρ p))
    (ρ, Spec.simulatedDealerView S J t X y)).run κ

/-- C152: `t - 1` colluders who see the commitments of an honest dealer, their own shares, and all ciphertexts between honest
participants, compute the secret of the dealer only as often as discrete logarithms and Diffie-Hellman secrets can be computed
and the cipher can be broken. -/
theorem C152_secret {S : Suite F G R} (hu : Suite.U32Inj F) {pair : Fin c → ι × ι} (hp : Spec.Pairs pair) (key : K → Bytes)
    (l : U32) (J : List U32) (hJ : J.Nodup) (hJ0 : 0 ∉ J) (t : ℕ) (ht : J.length + 1 = t)
    (letters : P × (Fin t → F) → Fin c → List (Bytes × Bytes)) (letters' : P → Fin c → List (Bytes × Bytes))
    (A : Spec.Reader ι F G K (P × (List G × ({j // j ∈ J} → F))) F c) :
    let A' : Spec.Reader ι F G K (P × (Fin t → F)) F c := fun B π χ W ρ => A B π χ W (ρ.1, Spec.dealerView S J l ρ.2)
    let goal : Spec.Goal ι F G (P × (Fin t → F)) F := fun _ _ _ ρ o => o = Spec.polyEval (List.ofFn ρ.2) 0
    Spec.chance (Spec.tapped S pair (Spec.reading S key letters A') goal) ≤
      (Spec.chance fun x : F × ({j // j ∈ J} → F) × Spec.FreeCoins ι F G K P c =>
        Spec.readerSolver S key J t letters' A (x.1 • S.gen) x.2.1 x.2.2 = x.1) +
      ∑ n, (Spec.dhChance S pair (Spec.reading S key letters A') n +
        Spec.cipherAdvantage S key letters (fun ρ => letters' ρ.1) A' goal n) := by
  intro A' goal
  have h := C152_wire S hp key letters (fun ρ => letters' ρ.1) A' goal
  have h' := (abs_sub_le_iff.mp h).1
  have e : Spec.chance (Spec.untapped S (Spec.reading S key (fun ρ => letters' ρ.1) A') goal) =
      Spec.chance fun x : F × ({j // j ∈ J} → F) × Spec.FreeCoins ι F G K P c =>
        Spec.readerSolver S key J t letters' A (x.1 • S.gen) x.2.1 x.2.2 = x.1 := by
    let φ : Spec.FreeCoins ι F G K (P × (Fin t → F)) c → F × ({j // j ∈ J} → F) × Spec.FreeCoins ι F G K P c :=
      fun x => ((Spec.secretAndValues J x.2.2.2.2.2.2.2).1, (Spec.secretAndValues J x.2.2.2.2.2.2.2).2,
        x.1, x.2.1, x.2.2.1, x.2.2.2.1, x.2.2.2.2.1, x.2.2.2.2.2.1, x.2.2.2.2.2.2.1)
    have hb := secretAndValues_bijective hu J hJ hJ0 t ht
    have hφ : Function.Bijective φ := by
      constructor
      · rintro ⟨b, s, r, χ, κ, u, ρ, w⟩ ⟨b', s', r', χ', κ', u', ρ', w'⟩ hx
        simp only [φ, Prod.mk.injEq] at hx
        obtain ⟨h1, h2, rfl, rfl, rfl, rfl, rfl, rfl, rfl⟩ := hx
        rw [hb.1 (Prod.ext h1 h2)]
      · rintro ⟨x, y, b, s, r, χ, κ, u, ρ⟩
        obtain ⟨w, hw⟩ := hb.2 (x, y)
        refine ⟨(b, s, r, χ, κ, u, ρ, w), ?_⟩
        simp only [φ, hw]
    rw [← chance_bijective φ hφ]
    refine chance_congr ?_
    rintro ⟨b, s, r, χ, κ, u, ρ, w⟩
    have hv := simulatedDealerView_eq hu S J hJ hJ0 t ht l w
    show _ = Spec.polyEval (List.ofFn w) 0 ↔ Spec.readerSolver S key J t letters' A (Spec.polyEval (List.ofFn w) 0 • S.gen)
      (fun j : {j // j ∈ J} => Spec.polyEval (List.ofFn w) (j.1.toNat : F)) _ = Spec.polyEval (List.ofFn w) 0
    unfold Spec.readerSolver
    simp only [hv]
    exact Iff.rfl
  rw [e] at h'
  linarith

end

/-! ### What the dealers send -/

open Classical in
/-- The suite whose hash `h0` and whose key derivation are the given functions, for the participants with indices `idx`. Other
questions are answered as in `S`. -/
noncomputable def Spec.withFunctions (S : Suite F G R) (idx : ι → U32) (key : K → Bytes) (χ : Spec.ProofHash ι F G) (κ : G → K) :
    Suite F G R :=
  { S with
    fieldHash := fun dst m =>
      if h : dst = S.contextString ++ strBytes "nizkpok" ∧
          ∃ x : ι × G × G, m = u32le (idx x.1) ++ S.encG x.2.1 ++ S.encG x.2.2 then χ h.2.choose.1 h.2.choose.2
      else S.fieldHash dst m
    kdf := fun bs => if h : ∃ Z, bs = S.encG Z then some (key (κ h.choose)) else S.kdf bs }

omit [DecidableEq ι]

theorem withFunctions_hash {S : Suite F G R} (hd : S.CodecLaws) {idx : ι → U32} (hidx : Function.Injective idx)
    (key : K → Bytes) (χ : Spec.ProofHash ι F G) (κ : G → K) (i : ι) (X M : G) :
    (Spec.withFunctions S idx key χ κ).fieldHash (S.contextString ++ strBytes "nizkpok")
      (u32le (idx i) ++ S.encG X ++ S.encG M) = χ i (X, M) := by
  have h : S.contextString ++ strBytes "nizkpok" = S.contextString ++ strBytes "nizkpok" ∧
      ∃ x : ι × G × G, u32le (idx i) ++ S.encG X ++ S.encG M = u32le (idx x.1) ++ S.encG x.2.1 ++ S.encG x.2.2 :=
    ⟨rfl, (i, X, M), rfl⟩
  refine (dif_pos h).trans ?_
  obtain ⟨h1, h2, h3⟩ := C15_message_injective hd _ _ _ _ _ _ h.2.choose_spec
  rw [← hidx h1, show h.2.choose.2 = (X, M) from (Prod.ext h2 h3).symm]

theorem withFunctions_kdf {S : Suite F G R} (hd : S.CodecLaws) (idx : ι → U32) (key : K → Bytes) (χ : Spec.ProofHash ι F G)
    (κ : G → K) (Z : G) : (Spec.withFunctions S idx key χ κ).kdf (S.encG Z) = some (key (κ Z)) := by
  have h : ∃ Z', S.encG Z = S.encG Z' := ⟨Z, rfl⟩
  refine (dif_pos h).trans ?_
  rw [← hd.encG_inj h.choose_spec]

/-- The suite with random functions obeys the same laws. -/
theorem withFunctions_lawful {S : Suite F G R} (hS : S.Lawful) (idx : ι → U32) (key : K → Bytes)
    (hkey : ∀ v, ∃ ikm, S.kdf ikm = some (key v)) (χ : Spec.ProofHash ι F G) (κ : G → K) :
    (Spec.withFunctions S idx key χ κ).Lawful where
  group := ⟨hS.group.1, hS.group.2⟩
  codec := ⟨hS.codec.1, hS.codec.2, hS.codec.3, hS.codec.4⟩
  cipher := {
    kdf_ok := fun ikm => by
      by_cases h : ∃ Z, ikm = S.encG Z
      · exact ⟨_, dif_pos h⟩
      · obtain ⟨k, hk⟩ := hS.cipher.kdf_ok ikm
        exact ⟨k, (dif_neg h).trans hk⟩
    aead_ok := fun ikm k nonce pt h hn => by
      by_cases hZ : ∃ Z, ikm = S.encG Z
      · obtain ⟨ikm', h'⟩ := hkey (κ hZ.choose)
        obtain rfl : key (κ hZ.choose) = k := Option.some.inj ((dif_pos hZ).symm.trans h)
        exact hS.cipher.aead_ok ikm' _ nonce pt h' hn
      · exact hS.cipher.aead_ok ikm k nonce pt ((dif_neg hZ).symm.trans h) hn
    randBytes_length := hS.cipher.randBytes_length }
  u32 := hS.u32

/-- C152: the DH public key and its proof in the record of a dealer are those of the game. -/
theorem C152_dealer {S : Suite F G R} (hd : S.CodecLaws) {idx : ι → U32} (hidx : Function.Injective idx) (key : K → Bytes)
    (χ : Spec.ProofHash ι F G) (κ : G → K) (params : Params) (i : ι) (rng : R) (p : Participant F G) (cs : List F) (dh : F)
    (h : newDealer (Spec.withFunctions S idx key χ κ) params (idx i) rng = .ok (p, cs, dh)) (b k : ι → F)
    (hb : b i = Spec.scalar S rng 0) (hk : k i = Spec.scalar S rng 1) :
    dh = b i ∧ p.dhPublicKey = Spec.dhKeys S b i ∧ p.proofOfDhPrivateKey = Spec.dhProofs S b k χ i := by
  obtain ⟨h1, ⟨h2, h3⟩, -⟩ := C113_dealer _ params (idx i) rng p cs dh h
  have h1' : dh = b i := h1.trans hb.symm
  have e := withFunctions_hash hd hidx key χ κ i (dh • S.gen) (Spec.scalar S rng 1 • S.gen)
  have h2' : p.proofOfDhPrivateKey.s = χ i (dh • S.gen, Spec.scalar S rng 1 • S.gen) := h2.trans e
  have h3' : p.proofOfDhPrivateKey.r = Spec.scalar S rng 1 + dh * p.proofOfDhPrivateKey.s := h3
  refine ⟨h1', ?_, ?_⟩
  · unfold newDealer at h
    split at h
    · cases h
    · next p' cs' dh' rng' hN =>
      simp only [Except.ok.injEq, Prod.mk.injEq] at h
      obtain ⟨rfl, rfl, rfl⟩ := h
      obtain ⟨-, h4, -⟩ := newInternal_fresh _ params (idx i) none rng rng' _ _ _ hN
      rw [h4, h1']
      rfl
    · cases h
  · unfold Spec.dhProofs
    rw [hk, ← h1', ← h2', ← h3']

theorem dealShares_sent (S : Suite F G R) (x : F) (i : U32) (cs : List F) (ps : List (Participant F G))
    (m m' : BMap EncShare) (rng rng' : R) (h : dealShares S x i (some cs) ps m rng = .ok (m', rng')) :
    ∃ es : List EncShare, m' = (List.zip (ps.map (·.index)) es).foldl (fun m e => m.insert e.1 e.2) m ∧
      es.length = ps.length ∧ ∀ (k : ℕ) (hk : k < ps.length) (hk' : k < es.length), ∃ v ct,
        S.kdf (S.encG (x • ps[k].dhPublicKey)) = some v ∧
        S.aeadEnc v (Spec.bytes S rng k) (S.encF (evaluatePolynomial i ps[k].index cs).eval) = some ct ∧
        es[k] = ⟨i, ps[k].index, Spec.bytes S rng k, ct⟩ := by
  induction ps generalizing m rng with
  | nil =>
    simp only [dealShares, Except.ok.injEq, Prod.mk.injEq] at h
    exact ⟨[], by simp [h.1], rfl, fun k hk => absurd hk (Nat.not_lt_zero _)⟩
  | cons p ps ih =>
    rw [dealShares] at h
    split at h
    · cases h
    · next enc rng1 he =>
      obtain ⟨es, h1, h2, h3⟩ := ih _ _ h
      unfold encryptShare at he
      split at he
      · cases he
      · next v hv =>
        simp only at he
        split at he
        · cases he
        · next ct hct =>
          simp only [Except.ok.injEq, Prod.mk.injEq] at he
          obtain ⟨rfl, rfl⟩ := he
          refine ⟨⟨i, p.index, (S.randBytes S.nonceSize rng).1, ct⟩ :: es, ?_, ?_, ?_⟩
          · rw [h1, List.map_cons, List.zip_cons_cons, List.foldl_cons]
            rfl
          · rw [List.length_cons, List.length_cons, h2]
          · intro k hk hk'
            cases k with
            | zero => exact ⟨v, ct, hv, hct, rfl⟩
            | succ k =>
              obtain ⟨v', ct', a1, a2, a3⟩ := h3 k (by simpa using hk) (by simpa using hk')
              exact ⟨v', ct', a1, a2, a3⟩

/-- C152: the share that `bootstrap` makes for another participant is one letter of the pair, encrypted under the key of the
game; the nonce is a fresh block of random bytes and the plaintext is the value of the polynomial. -/
theorem C152_bootstrap {S : Suite F G R} (hd : S.CodecLaws) (idx : ι → U32) (key : K → Bytes)
    (χ : Spec.ProofHash ι F G) (κ : G → K) (dbg : Bool) (params : Params) (i j : ι) (b : ι → F) (cs : List F)
    (ps : List (Participant F G)) (hnd : (ps.map (·.index)).Nodup) (rng : R) (d : RoundOne F G) (l : ParticipantList F G)
    (h : bootstrap (Spec.withFunctions S idx key χ κ) dbg params (b i) (idx i) cs ps rng = .ok (d, l)) (k : ℕ)
    (hk : k < ps.length) (hj : ps[k].index = idx j) (hB : ps[k].dhPublicKey = Spec.dhKeys S b j) :
    ∃ m e, d.theirEncryptedSecretShares = .ok m ∧ m.get? (idx j) = some e ∧ e.senderIndex = idx i ∧ e.receiverIndex = idx j ∧
      e.nonce = Spec.bytes S rng k ∧
      [some e.ct] = Spec.sealed S key (κ ((b i * b j) • S.gen))
        [(e.nonce, S.encF (Spec.polyEval cs ((idx j).toNat : F)))] := by
  unfold bootstrap at h
  cases hn : newStateInternal (Spec.withFunctions S idx key χ κ) dbg params (b i) (idx i) (some cs) ps true true rng with
  | error f => rw [hn] at h; cases h
  | ok v =>
    rw [hn] at h
    simp only [Except.map, Except.ok.injEq] at h
    obtain ⟨m, rng', hm, hdealt⟩ := newState_dealt _ dbg params (b i) (idx i) cs ps true rng v hn
    obtain ⟨es, rfl, h2, h3⟩ := dealShares_sent _ (b i) (idx i) cs ps [] m rng rng' hm
    have hk' : k < es.length := by omega
    obtain ⟨v', ct, a1, a2, a3⟩ := h3 k hk hk'
    have hmem : (ps[k].index, es[k]) ∈ List.zip (ps.map (·.index)) es := by
      rw [List.mem_iff_getElem]
      exact ⟨k, by simp [h2, hk], by simp⟩
    have hz : (List.zip (ps.map (·.index)) es).map Prod.fst = ps.map (·.index) := List.map_fst_zip (by simp [h2])
    refine ⟨(List.zip (ps.map (·.index)) es).foldl (fun m e => m.insert e.1 e.2) [], es[k], ?_, ?_, by rw [a3], by rw [a3, ← hj], by rw [a3]; rfl, ?_⟩
    · rw [← show v.1.1 = d from congrArg Prod.fst h]
      unfold RoundOne.theirEncryptedSecretShares
      rw [hdealt]
    · rw [← hj]
      exact (BMap.get?_ofList (by rw [hz]; exact hnd) _ _).mpr hmem
    · have e1 := withFunctions_kdf hd idx key χ κ (b i • ps[k].dhPublicKey)
      have hv : v' = key (κ ((b i * b j) • S.gen)) := by
        rw [hB, Spec.dhKeys, smul_smul] at e1
        rw [hB, Spec.dhKeys, smul_smul] at a1
        exact Option.some.inj (a1.symm.trans e1)
      rw [evaluatePolynomial_eq, hj] at a2
      unfold Spec.sealed
      rw [List.map_singleton, a3, ← hv]
      exact congrArg (fun o => [o]) a2.symm

/-! ### Cases -/

namespace Toy

/-- Three participants and their three pairs. -/
def threePairs : Fin 3 → Fin 3 × Fin 3 := fun n => if n = 0 then (0, 1) else if n = 1 then (0, 2) else (1, 2)

theorem threePairs_pairs : Spec.Pairs threePairs := by
  unfold Spec.Pairs
  decide

/-- In the toy group the Diffie-Hellman secret of a pair is the product of the points; the one who asks for the key of the first
pair and tells whether it is the one in use is turned into a solver that always succeeds. -/
example [Fintype Fp] :
    Spec.dhChance (P := Unit) suite threePairs
      (fun B _ _ u _ => .ask (B 0 * B 1) fun v => .done (decide (v = u 0)) : Spec.Tap (Fin 3) Fp Fp (Fin 2) Unit Bool 3) 0 = 1 := by
  refine chance_one fun x => ?_
  obtain ⟨a, d, b, s, r, χ, κ, u, ρ⟩ := x
  unfold Spec.dhGuesses
  refine List.mem_append_right _ ?_
  show _ ∈ [_]
  rw [List.mem_singleton]
  have h : ∀ a : Fp, a • suite.gen = a := smul_gen
  simp only [threePairs, h, if_true, Function.update_self]
  rw [Function.update_of_ne (by decide), Function.update_self]

/-- With functions in place of the hash and the key derivation the toy participants 1 and 2 complete round 1. -/
example (χ : Spec.ProofHash (Fin 2) Fp Fp) (κ : Fp → Fp) :
    let U := Spec.withFunctions suite (fun i : Fin 2 => if i = 0 then 1 else 2) enc χ κ
    ∃ p p' cs cs' x x' d, newDealer U ⟨2, 2⟩ 1 5 = .ok (p, cs, x) ∧ newDealer U ⟨2, 2⟩ 2 9 = .ok (p', cs', x') ∧
      bootstrap U true ⟨2, 2⟩ x 1 cs [p, p'] 30 = .ok (d, ⟨[p, p'], none⟩) := by
  intro U
  have hU : U.Lawful := withFunctions_lawful lawful _ _ (fun v => ⟨enc v, rfl⟩) χ κ
  obtain ⟨P, cs, x, h1, d1, h2, -⟩ := C36_honest_dkg hU true ⟨2, 2⟩ (by decide) (by decide) [1, 2] (by decide) (by decide)
    (by decide) (fun _ => [1, 2]) (fun _ => [1, 2]) (fun _ _ => List.Perm.refl _) (fun _ _ => List.Perm.refl _)
    (fun i => if i = 1 then (5 : ℕ) else 9) (fun _ => 30) (fun _ => 40)
  exact ⟨P 1, P 2, cs 1, cs 2, x 1, x 2, d1 1, h1 1 (by decide), h1 2 (by decide), h2 1 (by decide)⟩

end Toy

end IceFrost
