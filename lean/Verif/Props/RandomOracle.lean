import Verif.Toy
import Verif.Props.Distribution
import Verif.Props.Blame
import Verif.Props.FinishExamples
import Mathlib.Algebra.Order.Chebyshev
import Mathlib.Algebra.BigOperators.Fin

/-!
# C140: forging means computing discrete logarithms

The forking argument for the proofs and signatures of the crate, with its field hash as a random oracle.
-/

set_option linter.unusedSectionVars false
set_option linter.unusedSimpArgs false
set_option linter.unusedVariables false

namespace IceFrost

open Finset

/-! ### Chances -/

/-- The fraction of the elements of a finite type that satisfy `E`: the probability of `E` under a uniform choice. -/
noncomputable def Spec.chance {A : Type} [Fintype A] (E : A → Prop) : ℚ :=
  open Classical in ((univ.filter E).card : ℚ) / Fintype.card A

section Fork

variable {Ω C : Type} [Fintype Ω] [Fintype C] {n : ℕ}

/-- The answers `h` before position `j` and the answers `h'` from there on. -/
def splice (j : Fin n) (h h' : Fin n → C) : Fin n → C := fun i => if i < j then h i else h' i

theorem splice_splice (j : Fin n) (a b c : Fin n → C) : splice j (splice j a b) c = splice j a c := by
  funext i
  unfold splice
  split <;> rfl

theorem sum_splice (j : Fin n) (g : (Fin n → C) → ℚ) :
    ∑ h, ∑ h', g (splice j h h') = Fintype.card (Fin n → C) * ∑ h, g h := by
  let e : (Fin n → C) × (Fin n → C) ≃ (Fin n → C) × (Fin n → C) :=
    Function.Involutive.toPerm (fun p => (splice j p.1 p.2, splice j p.2 p.1)) (by
      rintro ⟨a, b⟩
      refine Prod.ext ?_ ?_ <;> · funext i; simp only [splice]; split <;> rfl)
  rw [← Fintype.sum_prod_type' (fun h h' => g (splice j h h')),
    ← Equiv.sum_comp e (fun p : (Fin n → C) × (Fin n → C) => g (splice j p.1 p.2))]
  have : ∀ p, g (splice j (e p).1 (e p).2) = g p.1 := by
    rintro ⟨a, b⟩
    show g (splice j (splice j a b) (splice j b a)) = g a
    congr 1
    funext i
    simp only [splice]
    split <;> rfl
  rw [Finset.sum_congr rfl fun p _ => this p, Fintype.sum_prod_type]
  simp only [Finset.sum_const, Finset.card_univ, nsmul_eq_mul]
  rw [Finset.mul_sum]

theorem fork_square [Nonempty C] (j : Fin n) (f : Ω → (Fin n → C) → ℚ) :
    (∑ ω, ∑ h, f ω h) ^ 2 ≤ Fintype.card Ω * ∑ ω, ∑ h, ∑ h', f ω h * f ω (splice j h h') := by
  set P : ℚ := ((Fintype.card (Fin n → C) : ℕ) : ℚ) with hP
  have hP0 : 0 < P := by
    rw [hP]
    exact_mod_cast Fintype.card_pos
  set E : Ω → (Fin n → C) → ℚ := fun ω h => ∑ h', f ω (splice j h h') with hE
  have h1 : ∑ ω, ∑ h, E ω h = P * ∑ ω, ∑ h, f ω h := by
    rw [Finset.mul_sum]
    exact Finset.sum_congr rfl fun ω _ => sum_splice j (f ω)
  have h2 : ∑ ω, ∑ h, E ω h ^ 2 = P * ∑ ω, ∑ h, ∑ h', f ω h * f ω (splice j h h') := by
    rw [Finset.mul_sum]
    refine Finset.sum_congr rfl fun ω _ => ?_
    have h3 := sum_splice j fun h => f ω h * E ω h
    have h4 : ∀ h h', E ω (splice j h h') = E ω h := by
      intro h h'
      simp only [hE, splice_splice]
    simp only [h4] at h3
    rw [← hP] at h3
    simp only [← Finset.mul_sum]
    rw [← h3]
    refine Finset.sum_congr rfl fun h _ => ?_
    rw [← Finset.sum_mul, sq]
  have h5 := sq_sum_le_card_mul_sum_sq (s := (univ : Finset (Ω × (Fin n → C)))) (f := fun p => E p.1 p.2)
  rw [Finset.card_univ, Fintype.card_prod, Fintype.sum_prod_type, Fintype.sum_prod_type, h1, h2, Nat.cast_mul,
    ← hP] at h5
  have h6 : P ^ 2 * (∑ ω, ∑ h, f ω h) ^ 2 ≤
      P ^ 2 * (Fintype.card Ω * ∑ ω, ∑ h, ∑ h', f ω h * f ω (splice j h h')) := by
    calc _ = (P * ∑ ω, ∑ h, f ω h) ^ 2 := by ring
      _ ≤ _ := h5
      _ = _ := by ring
  exact le_of_mul_le_mul_left h6 (by positivity)

theorem sum_coord [DecidableEq C] (j : Fin n) (c : C) :
    (Fintype.card C : ℚ) * ∑ h : Fin n → C, (if h j = c then 1 else 0) = Fintype.card (Fin n → C) := by
  have key : ∀ c', ∑ h : Fin n → C, (if h j = c' then (1 : ℚ) else 0) =
      ∑ h : Fin n → C, (if h j = c then (1 : ℚ) else 0) := by
    intro c'
    rw [← Equiv.sum_comp (Equiv.arrowCongr (Equiv.refl (Fin n)) (Equiv.swap c c'))]
    refine Finset.sum_congr rfl fun h _ => ?_
    congr 1
    simp only [Equiv.arrowCongr_apply, Equiv.refl_symm, Equiv.coe_refl, Function.comp, id]
    rw [Equiv.swap_apply_eq_iff, Equiv.swap_apply_right]
  calc _ = ∑ c' : C, ∑ h : Fin n → C, (if h j = c' then (1 : ℚ) else 0) := by
        rw [Finset.sum_congr rfl fun c' _ => key c', Finset.sum_const, Finset.card_univ, nsmul_eq_mul]
    _ = ∑ h : Fin n → C, ∑ c' : C, (if h j = c' then (1 : ℚ) else 0) := Finset.sum_comm
    _ = _ := by simp

theorem sum_part {K V : Type} [Fintype K] [Fintype V] [DecidableEq K] (part : C ≃ K × V) (j : Fin n) (k : K) :
    (Fintype.card K : ℚ) * ∑ h : Fin n → C, (if (part (h j)).1 = k then 1 else 0) = Fintype.card (Fin n → C) := by
  classical
  have hC : (Fintype.card C : ℚ) = Fintype.card K * Fintype.card V := by
    rw [Fintype.card_congr part, Fintype.card_prod, Nat.cast_mul]
  by_cases hV : Fintype.card V = 0
  · have : IsEmpty (Fin n → C) := by
      have : IsEmpty V := Fintype.card_eq_zero_iff.mp hV
      exact ⟨fun h => this.elim (part (h j)).2⟩
    simp
  have hV0 : (Fintype.card V : ℚ) ≠ 0 := by exact_mod_cast hV
  have e : ∑ h : Fin n → C, (if (part (h j)).1 = k then (1 : ℚ) else 0) =
      ∑ v : V, ∑ h : Fin n → C, (if h j = part.symm (k, v) then (1 : ℚ) else 0) := by
    rw [Finset.sum_comm]
    refine Finset.sum_congr rfl fun h _ => ?_
    have : ∀ v, (h j = part.symm (k, v)) ↔ ((part (h j)).1 = k ∧ (part (h j)).2 = v) := by
      intro v
      rw [Equiv.eq_symm_apply, Prod.ext_iff]
    simp only [this, ite_and]
    split <;> simp
  refine mul_left_cancel₀ hV0 ?_
  rw [e, ← mul_assoc, mul_comm (Fintype.card V : ℚ), ← hC, Finset.mul_sum, Finset.sum_congr rfl fun v _ => sum_coord j _,
    Finset.sum_const, Finset.card_univ, nsmul_eq_mul]

/-- The general forking lemma for answers of which a part in `K` counts: an experiment with coins `ω` and answers `h`
that yields an index `j` with chance `acc` yields, when repeated with fresh answers from `j` on, the same index with
another part of the answer at `j` with chance at least `acc (acc / n - 1 / |K|)`. -/
theorem forking_part [Nonempty Ω] [Nonempty C] {K V : Type} [Fintype K] [Fintype V] (part : C ≃ K × V)
    (J : Ω → (Fin n → C) → Option (Fin n)) :
    (Spec.chance fun x : Ω × (Fin n → C) => (J x.1 x.2).isSome) *
        ((Spec.chance fun x : Ω × (Fin n → C) => (J x.1 x.2).isSome) / n - 1 / Fintype.card K) ≤
      Spec.chance fun x : Ω × (Fin n → C) × (Fin n → C) => ∃ j, J x.1 x.2.1 = some j ∧
        J x.1 (splice j x.2.1 x.2.2) = some j ∧ (part (x.2.2 j)).1 ≠ (part (x.2.1 j)).1 := by
  classical
  set P : ℚ := ((Fintype.card (Fin n → C) : ℕ) : ℚ) with hP
  have hP0 : 0 < P := by
    rw [hP]
    exact_mod_cast Fintype.card_pos
  set W : ℚ := ((Fintype.card Ω : ℕ) : ℚ) with hW
  have hW0 : 0 < W := by
    rw [hW]
    exact_mod_cast Fintype.card_pos
  have hKne : Nonempty K := ⟨(part (Classical.arbitrary C)).1⟩
  set Q : ℚ := ((Fintype.card K : ℕ) : ℚ) with hK
  have hK0 : 0 < Q := by
    rw [hK]
    exact_mod_cast Fintype.card_pos
  set f : Fin n → Ω → (Fin n → C) → ℚ := fun j ω h => if J ω h = some j then 1 else 0 with hf
  set a : Fin n → ℚ := fun j => ∑ ω, ∑ h, f j ω h with ha
  -- the chance to obtain an index
  have hacc : (Spec.chance fun x : Ω × (Fin n → C) => (J x.1 x.2).isSome) = (∑ j, a j) / (W * P) := by
    unfold Spec.chance
    rw [Fintype.card_prod, Nat.cast_mul, ← hW, ← hP]
    congr 1
    simp only [ha]
    rw [Finset.sum_comm, Finset.card_filter, Nat.cast_sum, Fintype.sum_prod_type]
    refine Finset.sum_congr rfl fun ω _ => ?_
    rw [Finset.sum_comm]
    refine Finset.sum_congr rfl fun h _ => ?_
    simp only [hf]
    rcases Option.eq_none_or_eq_some (J ω h) with hJ | ⟨j, hJ⟩
    · simp [hJ]
    · simp [hJ]
  -- the chance to fork
  have hfrk : (Spec.chance fun x : Ω × (Fin n → C) × (Fin n → C) => ∃ j, J x.1 x.2.1 = some j ∧
        J x.1 (splice j x.2.1 x.2.2) = some j ∧ (part (x.2.2 j)).1 ≠ (part (x.2.1 j)).1) =
      (∑ j, ∑ ω, ∑ h, ∑ h', f j ω h * f j ω (splice j h h') * (if (part (h' j)).1 ≠ (part (h j)).1 then 1 else 0)) / (W * (P * P)) := by
    unfold Spec.chance
    rw [Fintype.card_prod, Fintype.card_prod, Nat.cast_mul, Nat.cast_mul, ← hW, ← hP]
    congr 1
    rw [Finset.sum_comm, Finset.card_filter, Nat.cast_sum, Fintype.sum_prod_type]
    refine Finset.sum_congr rfl fun ω _ => ?_
    rw [Finset.sum_comm, Fintype.sum_prod_type]
    refine Finset.sum_congr rfl fun h _ => ?_
    rw [Finset.sum_comm]
    refine Finset.sum_congr rfl fun h' _ => ?_
    simp only [hf]
    rcases Option.eq_none_or_eq_some (J ω h) with hJ | ⟨i, hJ⟩
    · simp [hJ]
    · rw [Finset.sum_eq_single i]
      · by_cases h1 : J ω (splice i h h') = some i <;> by_cases h2 : (part (h' i)).1 = (part (h i)).1 <;> simp [hJ, h1, h2]
      · intro j _ hj
        rw [if_neg (by rw [hJ]; simpa using hj.symm)]
        simp
      · simp
  -- one index
  have hone : ∀ j, a j ^ 2 / W - a j * (P / Q) ≤
      ∑ ω, ∑ h, ∑ h', f j ω h * f j ω (splice j h h') * (if (part (h' j)).1 ≠ (part (h j)).1 then 1 else 0) := by
    intro j
    have h1 := fork_square j (f j)
    rw [← hW] at h1
    have h2 : ∑ ω, ∑ h, ∑ h' : Fin n → C, f j ω h * (if (part (h' j)).1 = (part (h j)).1 then 1 else 0) = a j * (P / Q) := by
      simp only [ha, Finset.sum_mul]
      refine Finset.sum_congr rfl fun ω _ => Finset.sum_congr rfl fun h _ => ?_
      rw [← Finset.mul_sum]
      congr 1
      rw [eq_div_iff hK0.ne', mul_comm, hP, hK]
      exact sum_part part j (part (h j)).1
    have h3 : ∑ ω, ∑ h, ∑ h', f j ω h * f j ω (splice j h h') ≤
        ∑ ω, ∑ h, ∑ h', (f j ω h * f j ω (splice j h h') * (if (part (h' j)).1 ≠ (part (h j)).1 then 1 else 0) +
          f j ω h * (if (part (h' j)).1 = (part (h j)).1 then 1 else 0)) := by
      refine Finset.sum_le_sum fun ω _ => Finset.sum_le_sum fun h _ => Finset.sum_le_sum fun h' _ => ?_
      simp only [hf]
      by_cases e1 : J ω h = some j <;> by_cases e2 : J ω (splice j h h') = some j <;> by_cases e3 : (part (h' j)).1 = (part (h j)).1 <;>
        simp [e1, e2, e3]
    simp only [Finset.sum_add_distrib] at h3
    rw [h2] at h3
    have h4 : a j ^ 2 / W ≤ ∑ ω, ∑ h, ∑ h', f j ω h * f j ω (splice j h h') := by
      rw [div_le_iff₀ hW0, mul_comm]
      exact h1
    linarith
  have hsum : (∑ j, a j) ^ 2 ≤ n * ∑ j, a j ^ 2 := by
    have := sq_sum_le_card_mul_sum_sq (s := (univ : Finset (Fin n))) (f := a)
    rwa [Finset.card_univ, Fintype.card_fin] at this
  rw [hacc, hfrk]
  set A := ∑ j, a j with hA
  rcases Nat.eq_zero_or_pos n with hn | hn
  · subst hn
    simp [hA]
  have hn0 : (0 : ℚ) < n := by exact_mod_cast hn
  have htot : A ^ 2 / n / W - A * (P / Q) ≤
      ∑ j, ∑ ω, ∑ h, ∑ h', f j ω h * f j ω (splice j h h') * (if (part (h' j)).1 ≠ (part (h j)).1 then 1 else 0) := by
    refine le_trans ?_ (Finset.sum_le_sum fun j _ => hone j)
    rw [Finset.sum_sub_distrib, ← Finset.sum_div, ← Finset.sum_mul, ← hA]
    have : A ^ 2 / n ≤ ∑ j, a j ^ 2 := by
      rw [div_le_iff₀ hn0, mul_comm]
      exact hsum
    have := div_le_div_of_nonneg_right this hW0.le
    linarith
  rw [le_div_iff₀ (by positivity)]
  refine le_trans (le_of_eq ?_) htot
  field_simp

/-- The general forking lemma: an experiment with coins `ω` and answers `h` that yields an index `j` with chance `acc`
yields, when repeated with fresh answers from `j` on, the same index with another answer at `j` with chance at least
`acc (acc / n - 1 / |C|)`. -/
theorem forking [Nonempty Ω] [Nonempty C] (J : Ω → (Fin n → C) → Option (Fin n)) :
    (Spec.chance fun x : Ω × (Fin n → C) => (J x.1 x.2).isSome) *
        ((Spec.chance fun x : Ω × (Fin n → C) => (J x.1 x.2).isSome) / n - 1 / Fintype.card C) ≤
      Spec.chance fun x : Ω × (Fin n → C) × (Fin n → C) => ∃ j, J x.1 x.2.1 = some j ∧
        J x.1 (splice j x.2.1 x.2.2) = some j ∧ x.2.2 j ≠ x.2.1 j :=
  forking_part (Equiv.prodPUnit C).symm J

end Fork

theorem chance_mono {A : Type} [Fintype A] {E E' : A → Prop} (h : ∀ a, E a → E' a) : Spec.chance E ≤ Spec.chance E' := by
  classical
  unfold Spec.chance
  refine div_le_div_of_nonneg_right ?_ (Nat.cast_nonneg _)
  exact_mod_cast Finset.card_le_card fun a ha => by
    rw [mem_filter] at ha ⊢
    exact ⟨ha.1, h a ha.2⟩

theorem chance_congr {A : Type} [Fintype A] {E E' : A → Prop} (h : ∀ a, E a ↔ E' a) : Spec.chance E = Spec.chance E' :=
  le_antisymm (chance_mono fun a => (h a).mp) (chance_mono fun a => (h a).mpr)

/-! ### The random oracle -/

/-- A question to one of the two hash functions of the crate that return scalars: the hash to a field behind `h0` to
`h3`, and the SHA-256 based one of complaints; with the domain separation tag and the message. With `coin` an attacker
asks for a random scalar instead, which no hash of the crate returns. -/
inductive Spec.Question
  | field (dst msg : Bytes)
  | sha256 (dst msg : Bytes)
  | coin (k : ℕ)
deriving DecidableEq

variable {F G R : Type} [Field F] [DecidableEq F] [AddCommGroup G] [Module F G] [DecidableEq G]

/-- The first `k` questions with their answers. `ask` chooses the next question from the answers so far. The answer to
the question number `k` is the cell `k` of the tape, but a question asked before gets the same answer again. -/
def Spec.oracle (ask : List F → Spec.Question) (h : ℕ → F) : ℕ → List (Spec.Question × F)
  | 0 => []
  | k + 1 =>
    let T := Spec.oracle ask h k
    let b := ask (T.map Prod.snd)
    T ++ [(b, (T.lookup b).getD (h k))]

/-- The suite with the answers of a table in place of its hashes. -/
def Spec.withTable (S : Suite F G R) (T : List (Spec.Question × F)) : Suite F G R :=
  { S with
    fieldHash := fun dst m => (T.lookup (.field dst m)).getD (S.fieldHash dst m)
    sha256FieldHash := fun dst m => (T.lookup (.sha256 dst m)).getD (S.sha256FieldHash dst m) }

/-- A program with coins `Ω` that asks the oracle and then returns something. -/
structure Spec.Attacker (Ω F Out : Type) where
  /-- the next question, given the answers so far -/
  ask : Ω → List F → Spec.Question
  /-- the result, given all answers -/
  result : Ω → List F → Out

namespace Spec.Attacker

variable {Ω Out : Type} (A : Spec.Attacker Ω F Out) (q : ℕ) (final : Ω → Out → Spec.Question)

/-- The questions of an experiment: `q` questions of the attacker, then the question `final` of whoever checks the
result. -/
def questions (ω : Ω) (answers : List F) : Spec.Question :=
  if answers.length < q then A.ask ω answers else final ω (A.result ω (answers.take q))

/-- All questions and answers of the experiment, `q + 1` in number. -/
def table (ω : Ω) (h : Fin (q + 1) → F) : List (Spec.Question × F) :=
  Spec.oracle (A.questions q final ω) (Spec.tape h) (q + 1)

/-- The result of the attacker in the experiment. -/
def output (ω : Ω) (h : Fin (q + 1) → F) : Out :=
  A.result ω (((A.table q final ω h).map Prod.snd).take q)

/-- The answer to the question of the check. -/
def challenge (ω : Ω) (h : Fin (q + 1) → F) : F :=
  ((A.table q final ω h).lookup (final ω (A.output q final ω h))).getD 0

/-- The number of that question in the order of first appearance. -/
def critical (ω : Ω) (h : Fin (q + 1) → F) : ℕ :=
  ((A.table q final ω h).map Prod.fst).idxOf (final ω (A.output q final ω h))

/-- Running the attacker twice, with the same coins and the same answers up to the critical question and fresh ones from
there on; and computing something from both results and challenges. -/
def rewind {X : Type} (extract : Out → F → Out → F → X) (ω : Ω) (h h' : Fin (q + 1) → F) : X :=
  let h2 : Fin (q + 1) → F := fun i => if i.1 < A.critical q final ω h then h i else h' i
  extract (A.output q final ω h) (A.challenge q final ω h) (A.output q final ω h2) (A.challenge q final ω h2)

end Spec.Attacker

theorem oracle_length (ask : List F → Spec.Question) (h : ℕ → F) (k : ℕ) : (Spec.oracle ask h k).length = k := by
  induction k with
  | zero => rfl
  | succ k ih => simp [Spec.oracle, ih]

theorem oracle_congr (ask : List F → Spec.Question) (h h' : ℕ → F) (k : ℕ) (e : ∀ i < k, h i = h' i) :
    Spec.oracle ask h k = Spec.oracle ask h' k := by
  induction k with
  | zero => rfl
  | succ k ih =>
    unfold Spec.oracle
    rw [ih fun i hi => e i (by omega), e k (by omega)]

theorem lookup_none {T : List (Spec.Question × F)} {b : Spec.Question} (h : b ∉ T.map Prod.fst) :
    T.lookup b = none := by
  rw [List.lookup_eq_none_iff]
  intro p hp
  have : b ≠ p.1 := fun e => h (e ▸ List.mem_map_of_mem hp)
  simpa using this

theorem lookup_append_left {T T' : List (Spec.Question × F)} {b : Spec.Question} (h : b ∈ T.map Prod.fst) :
    (T ++ T').lookup b = T.lookup b := by
  induction T with
  | nil => simp at h
  | cons p T ih =>
    rw [List.cons_append, List.lookup_cons, List.lookup_cons]
    by_cases hb : b = p.1
    · simp [hb]
    · have : (b == p.1) = false := by simpa using hb
      rw [this]
      refine ih ?_
      rw [List.map_cons, List.mem_cons] at h
      exact h.resolve_left hb

theorem lookup_append_right {T T' : List (Spec.Question × F)} {b : Spec.Question} (h : b ∉ T.map Prod.fst) :
    (T ++ T').lookup b = T'.lookup b := by
  induction T with
  | nil => rfl
  | cons p T ih =>
    rw [List.map_cons, List.mem_cons, not_or] at h
    rw [List.cons_append, List.lookup_cons]
    have : (b == p.1) = false := by simpa using h.1
    rw [this]
    exact ih h.2

/-- A question that was asked is answered by the cell of its first appearance, where it was asked on the answers
before. -/
theorem oracle_lookup (ask : List F → Spec.Question) (h : ℕ → F) (k : ℕ) (b : Spec.Question)
    (hb : b ∈ (Spec.oracle ask h k).map Prod.fst) :
    let j := ((Spec.oracle ask h k).map Prod.fst).idxOf b
    j < k ∧ (Spec.oracle ask h k).lookup b = some (h j) ∧ ask ((Spec.oracle ask h j).map Prod.snd) = b := by
  induction k with
  | zero => simp [Spec.oracle] at hb
  | succ k ih =>
    have e : Spec.oracle ask h (k + 1) = Spec.oracle ask h k ++ [(ask ((Spec.oracle ask h k).map Prod.snd),
      ((Spec.oracle ask h k).lookup (ask ((Spec.oracle ask h k).map Prod.snd))).getD (h k))] := rfl
    by_cases hm : b ∈ (Spec.oracle ask h k).map Prod.fst
    · obtain ⟨h1, h2, h3⟩ := ih hm
      have hi : ((Spec.oracle ask h (k + 1)).map Prod.fst).idxOf b = ((Spec.oracle ask h k).map Prod.fst).idxOf b := by
        rw [e, List.map_append, List.idxOf_append_of_mem hm]
      rw [hi, e, lookup_append_left hm]
      exact ⟨by omega, h2, h3⟩
    · have hb' : b = ask ((Spec.oracle ask h k).map Prod.snd) := by
        rw [e, List.map_append, List.mem_append] at hb
        simpa using hb.resolve_left hm
      have hi : ((Spec.oracle ask h (k + 1)).map Prod.fst).idxOf b = k := by
        rw [e, List.map_append, List.idxOf_append_of_notMem hm, List.length_map, oracle_length, List.map_cons,
          List.map_nil, ← hb', List.idxOf_cons_self, Nat.add_zero]
      simp only [hi]
      refine ⟨by omega, ?_, hb'.symm⟩
      rw [e, lookup_append_right hm, ← hb', lookup_none hm, List.lookup_cons]
      simp

namespace Spec.Attacker

variable {Ω Out : Type} (A : Spec.Attacker Ω F Out) (q : ℕ) (final : Ω → Out → Spec.Question)

theorem table_prefix (ω : Ω) (h : Fin (q + 1) → F) :
    A.table q final ω h = Spec.oracle (A.questions q final ω) (Spec.tape h) q ++
      [(final ω (A.output q final ω h), ((Spec.oracle (A.questions q final ω) (Spec.tape h) q).lookup
        (final ω (A.output q final ω h))).getD (Spec.tape h q))] := by
  have hl := oracle_length (A.questions q final ω) (Spec.tape h) q
  have e1 : ((A.table q final ω h).map Prod.snd).take q =
      (Spec.oracle (A.questions q final ω) (Spec.tape h) q).map Prod.snd := by
    unfold table
    rw [Spec.oracle, List.map_append, List.take_append_of_le_length (by simp [hl]), List.take_of_length_le (by simp [hl])]
  have e2 : A.questions q final ω ((Spec.oracle (A.questions q final ω) (Spec.tape h) q).map Prod.snd) =
      final ω (A.output q final ω h) := by
    unfold output
    rw [e1]
    show (if _ then _ else _) = _
    rw [if_neg (by simp [hl]), List.take_of_length_le (by simp [hl])]
  rw [← e2]
  rfl

theorem final_mem (ω : Ω) (h : Fin (q + 1) → F) :
    final ω (A.output q final ω h) ∈ (A.table q final ω h).map Prod.fst := by
  rw [table_prefix]
  simp

theorem critical_spec (ω : Ω) (h : Fin (q + 1) → F) :
    A.critical q final ω h < q + 1 ∧
    (A.table q final ω h).lookup (final ω (A.output q final ω h)) = some (A.challenge q final ω h) ∧
    A.challenge q final ω h = Spec.tape h (A.critical q final ω h) ∧
    A.questions q final ω ((Spec.oracle (A.questions q final ω) (Spec.tape h) (A.critical q final ω h)).map Prod.snd) =
      final ω (A.output q final ω h) := by
  obtain ⟨h1, h2, h3⟩ := oracle_lookup (A.questions q final ω) (Spec.tape h) (q + 1) _ (A.final_mem q final ω h)
  have h2' : (A.table q final ω h).lookup (final ω (A.output q final ω h)) =
      some (Spec.tape h (A.critical q final ω h)) := h2
  have h4 : A.challenge q final ω h = Spec.tape h (A.critical q final ω h) := by
    unfold challenge
    rw [h2', Option.getD_some]
  exact ⟨h1, by rw [h2', h4], h4, h3⟩

/-- The forking lemma for attackers: if two accepted results with the same question and different challenges yield
something good, then rewinding yields it with the chance of the forking lemma. -/
theorem rewind_good [Fintype F] [Fintype Ω] [Nonempty Ω] {X : Type} (accept : Ω → Out → F → Prop)
    (extract : Out → F → Out → F → X) (good : Ω → Out → X → Prop)
    (hsound : ∀ ω o o' c c', final ω o = final ω o' → accept ω o c → accept ω o' c' → c ≠ c' →
      good ω o (extract o c o' c')) :
    let won : ℚ := Spec.chance fun x : Ω × (Fin (q + 1) → F) =>
      accept x.1 (A.output q final x.1 x.2) (A.challenge q final x.1 x.2)
    won * (won / ((q + 1 : ℕ) : ℚ) - 1 / (Fintype.card F : ℚ)) ≤
      Spec.chance fun x : Ω × (Fin (q + 1) → F) × (Fin (q + 1) → F) =>
        good x.1 (A.output q final x.1 x.2.1) (A.rewind q final extract x.1 x.2.1 x.2.2) := by
  classical
  intro won
  let J : Ω → (Fin (q + 1) → F) → Option (Fin (q + 1)) := fun ω h =>
    if accept ω (A.output q final ω h) (A.challenge q final ω h) then
      some ⟨A.critical q final ω h, (A.critical_spec q final ω h).1⟩ else none
  have hJ : won = Spec.chance fun x : Ω × (Fin (q + 1) → F) => (J x.1 x.2).isSome := by
    refine chance_congr fun x => ?_
    simp only [J]
    split <;> simp [*]
  rw [hJ]
  refine le_trans (forking J) (chance_mono ?_)
  rintro ⟨ω, h, h'⟩ ⟨j, h1, h2, h3⟩
  simp only at h1 h2 h3 ⊢
  simp only [J] at h1 h2
  split at h1
  · next a1 =>
    split at h2
    · next a2 =>
      have hj := congrArg Fin.val (Option.some.inj h1)
      have hj' := congrArg Fin.val (Option.some.inj h2)
      simp only at hj hj'
      have e : (fun i => if i.1 < A.critical q final ω h then h i else h' i) = splice j h h' := by
        funext i
        unfold splice
        rw [hj]
        rfl
      unfold rewind
      rw [e]
      obtain ⟨l1, -, c1, q1⟩ := A.critical_spec q final ω h
      obtain ⟨l2, -, c2, q2⟩ := A.critical_spec q final ω (splice j h h')
      refine hsound ω _ _ _ _ ?_ a1 a2 ?_
      · rw [← q1, ← q2, hj, hj']
        congr 2
        refine oracle_congr _ _ _ _ fun i hi => ?_
        have hi' : i < q + 1 := by omega
        unfold Spec.tape
        rw [dif_pos hi', dif_pos hi']
        unfold splice
        rw [if_pos (by exact hi)]
      · rw [c1, c2, hj, hj']
        unfold Spec.tape
        rw [dif_pos j.2, dif_pos j.2]
        unfold splice
        rw [if_neg (by exact lt_irrefl j)]
        exact h3.symm
    · cases h2
  · cases h1

end Spec.Attacker

/-! ### Signatures -/

variable {Ω : Type}

/-- The question that verifying a signature asks, for a key that may depend on the coins. -/
def Spec.signatureQuestion (S : Suite F G R) (Y : Ω → G) (ω : Ω) (o : Bytes × ThresholdSignature F G) : Spec.Question :=
  .field (S.contextString ++ strBytes "challenge") (S.encG o.2.groupCommitment ++ S.encG (Y ω) ++ o.1)

/-- The secret key computed from two signatures with their challenges. -/
def Spec.extractKey (o : Bytes × ThresholdSignature F G) (c : F) (o' : Bytes × ThresholdSignature F G) (c' : F) : F :=
  (o.2.z - o'.2.z) / (c - c')

/-- Verification in the experiment uses the challenge of the experiment. -/
theorem verify_experiment (S : Suite F G R) (Y : Ω → G) (q : ℕ)
    (A : Spec.Attacker Ω F (Bytes × ThresholdSignature F G)) (ω : Ω) (h : Fin (q + 1) → F) :
    let o := A.output q (Spec.signatureQuestion S Y) ω h
    (o.2.verify (Spec.withTable S (A.table q (Spec.signatureQuestion S Y) ω h)) (Y ω) o.1 = .ok () ↔
      Spec.Schnorr S.gen o.2.groupCommitment (Y ω) (A.challenge q (Spec.signatureQuestion S Y) ω h) o.2.z) := by
  intro o
  rw [verify_iff]
  unfold Spec.SigValid
  have : Spec.challenge (Spec.withTable S (A.table q (Spec.signatureQuestion S Y) ω h)) o.2.groupCommitment (Y ω) o.1 =
      A.challenge q (Spec.signatureQuestion S Y) ω h := by
    have := (A.critical_spec q (Spec.signatureQuestion S Y) ω h).2.1
    show (((A.table q (Spec.signatureQuestion S Y) ω h).lookup
      (Spec.signatureQuestion S Y ω (A.output q (Spec.signatureQuestion S Y) ω h))).getD _) = _
    rw [this, Option.getD_some]
  rw [this]
  rfl

/-- C140: whoever forges signatures for a key `Y`, with the hash as a random oracle and `q` questions to it, computes the
discrete logarithm of `Y`: if `verify` accepts with chance `ε`, then rewinding yields the logarithm with chance at least
`ε (ε / (q + 1) - 1 / |F|)`. -/
theorem C140_forgery [Fintype F] [Fintype Ω] [Nonempty Ω] {S : Suite F G R} (hd : S.CodecLaws) (q : ℕ) (Y : Ω → G)
    (A : Spec.Attacker Ω F (Bytes × ThresholdSignature F G)) :
    let final := Spec.signatureQuestion S Y
    let forged : ℚ := Spec.chance fun x : Ω × (Fin (q + 1) → F) =>
      (A.output q final x.1 x.2).2.verify (Spec.withTable S (A.table q final x.1 x.2)) (Y x.1)
        (A.output q final x.1 x.2).1 = .ok ()
    forged * (forged / ((q + 1 : ℕ) : ℚ) - 1 / (Fintype.card F : ℚ)) ≤
      Spec.chance fun x : Ω × (Fin (q + 1) → F) × (Fin (q + 1) → F) =>
        A.rewind q final Spec.extractKey x.1 x.2.1 x.2.2 • S.gen = Y x.1 := by
  intro final forged
  have hf : forged = Spec.chance fun x : Ω × (Fin (q + 1) → F) =>
      Spec.Schnorr S.gen (A.output q final x.1 x.2).2.groupCommitment (Y x.1) (A.challenge q final x.1 x.2)
        (A.output q final x.1 x.2).2.z :=
    chance_congr fun x => verify_experiment S Y q A x.1 x.2
  rw [hf]
  refine A.rewind_good q final (fun ω o c => Spec.Schnorr S.gen o.2.groupCommitment (Y ω) c o.2.z) Spec.extractKey
    (fun ω _ x => x • S.gen = Y ω) ?_
  intro ω o o' c c' hq h1 h2 hne
  have hq' : S.encG o.2.groupCommitment ++ S.encG (Y ω) ++ o.1 = S.encG o'.2.groupCommitment ++ S.encG (Y ω) ++ o'.1 := by
    injection hq
  rw [List.append_assoc, List.append_assoc] at hq'
  obtain ⟨hR, -⟩ := hd.encG_append_inj hq'
  unfold Spec.Schnorr at h1 h2
  have hne' := sub_ne_zero.mpr hne
  have e : (c - c') • Y ω = (o.2.z - o'.2.z) • S.gen := by
    rw [sub_smul, sub_smul, h1, h2, hR]
    abel
  unfold Spec.extractKey
  rw [div_eq_inv_mul, mul_smul, ← e, inv_smul_smul₀ hne']

theorem chance_bijective {A B : Type} [Fintype A] [Fintype B] (φ : A → B) (hφ : Function.Bijective φ) (E : B → Prop) :
    Spec.chance (fun a => E (φ a)) = Spec.chance E := by
  classical
  unfold Spec.chance
  rw [Fintype.card_of_bijective hφ]
  congr 2
  refine Finset.card_bij (fun a _ => φ a) (fun a ha => ?_) (fun a _ a' _ h => hφ.1 h) fun b hb => ?_
  · rw [mem_filter] at ha ⊢
    exact ⟨mem_univ _, ha.2⟩
  · obtain ⟨a, rfl⟩ := hφ.2 b
    rw [mem_filter] at hb
    exact ⟨a, by rw [mem_filter]; exact ⟨mem_univ _, hb.2⟩, rfl⟩

/-- What the participants `J` see of the polynomial of dealer `l`: its commitments and their shares. -/
def Spec.dealerView (S : Suite F G R) (J : List U32) (l : U32) {t : ℕ} (w : Fin t → F) : List G × ({j // j ∈ J} → F) :=
  (commitPoints S (List.ofFn w), fun j => (evaluatePolynomial l j.1 (List.ofFn w)).eval)

/-- The same, computed from a point `P` and arbitrary shares. -/
noncomputable def Spec.simulatedDealerView (S : Suite F G R) (J : List U32) (t : ℕ) (P : G) (y : {j // j ∈ J} → F) :
    List G × ({j // j ∈ J} → F) :=
  (Spec.simulatedPoints S.gen t P J (fun j => if h : j ∈ J then y ⟨j, h⟩ else 0), y)

/-- The secrets of the dealers other than `l`, combined. -/
def Spec.othersSecret (D : List U32) (l : U32) (others : U32 → List F) : F :=
  ∑ k ∈ D.toFinset.erase l, Spec.lagrange D k * (others k).headD 0

/-- The group key, from the view of dealer `l` and the polynomials of the other dealers. -/
def Spec.keyOfView (S : Suite F G R) (D : List U32) (l : U32) (others : U32 → List F) {V : Type} (view : List G × V) : G :=
  Spec.lagrange (F := F) D l • view.1.headD 0 + Spec.othersSecret D l others • S.gen

/-- The key `keyOfView` is the one that `finish` returns. -/
theorem C140_key_of_view {S : Suite F G R} (hg : S.GroupLaws) (hu : Suite.U32Inj F) {t : ℕ} (ht : t ≠ 0) (D : List U32)
    (hD : D.Nodup) (h0 : 0 ∉ D) (l : U32) (hl : l ∈ D) (others : U32 → List F) (ho : ∀ k ∈ D, k ≠ l → others k ≠ [])
    (J : List U32) (w : Fin t → F) (d : RoundTwo F G) (m : BMap (SecretShare F))
    (hV : HoldsVerified S d (dealerMap S D (Spec.dealtBy l (List.ofFn w) others)) m) :
    ∃ sk, d.finish = .ok (Spec.keyOfView S D l others (Spec.dealerView S J l w), sk) := by
  have hcs : ∀ k ∈ D, Spec.dealtBy l (List.ofFn w) others k ≠ [] := by
    intro k hk
    unfold Spec.dealtBy
    split
    · exact fun h => ht (by simpa using congrArg List.length h)
    · next hkl => exact ho k hk hkl
  have e : Spec.interpolate D (fun k => (Spec.dealtBy l (List.ofFn w) others k).headD 0) • S.gen =
      Spec.keyOfView S D l others (Spec.dealerView S J l w) := ?_
  · rw [← e]
    exact ⟨_, finish_phase hg hu D hD h0 _ hcs d m hV⟩
  unfold Spec.interpolate Spec.keyOfView Spec.othersSecret Spec.dealerView
  rw [← Finset.add_sum_erase _ _ (List.mem_toFinset.mpr hl), add_smul, mul_smul]
  congr 2
  · simp only [Spec.dealtBy, if_true]
    obtain ⟨n, rfl⟩ := Nat.exists_eq_succ_of_ne_zero ht
    simp [List.ofFn_succ, commitPoints]
  · refine Finset.sum_congr rfl fun i hi => ?_
    simp only [Spec.dealtBy, if_neg (Finset.ne_of_mem_erase hi)]

theorem secretAndValues_bijective [Fintype F] (hu : Suite.U32Inj F) (J : List U32) (hJ : J.Nodup) (hJ0 : 0 ∉ J) (t : ℕ)
    (ht : J.length + 1 = t) : Function.Bijective (Spec.secretAndValues (F := F) (t := t) J) := by
  rw [Fintype.bijective_iff_surjective_and_card]
  refine ⟨secretAndValues_surj hu t J hJ hJ0 (by omega), ?_⟩
  have hc : Fintype.card {j // j ∈ J} = J.length := by
    rw [Fintype.card_of_subtype J.toFinset (fun x => List.mem_toFinset), List.toFinset_card_of_nodup hJ]
  rw [Fintype.card_prod, Fintype.card_fun, Fintype.card_fun, hc, Fintype.card_fin, ← ht, pow_succ, mul_comm]

/-- The simulated view, made from the public key and the shares, is the real one. -/
theorem simulatedDealerView_eq (hu : Suite.U32Inj F) (S : Suite F G R) (J : List U32) (hJ : J.Nodup) (hJ0 : 0 ∉ J) (t : ℕ)
    (ht : J.length + 1 = t) (l : U32) (w : Fin t → F) :
    Spec.simulatedDealerView S J t (Spec.polyEval (List.ofFn w) 0 • S.gen)
      (fun j : {j // j ∈ J} => Spec.polyEval (List.ofFn w) (j.1.toNat : F)) = Spec.dealerView S J l w := by
  have hhead : (List.ofFn w).headD 0 = Spec.polyEval (List.ofFn w) 0 := (Spec.polyEval_zero _).symm
  unfold Spec.simulatedDealerView Spec.dealerView
  refine Prod.ext ?_ (funext fun j => by simp only [evaluatePolynomial_eq]; rfl)
  simp only
  rw [C124_commitments_simulated hu S t J hJ hJ0 ht (List.ofFn w) (by simp), hhead]
  unfold Spec.simulatedPoints
  refine List.map_congr_left fun k _ => ?_
  congr 1
  refine Finset.sum_congr rfl fun j hj => ?_
  beta_reduce
  rw [dif_pos (List.mem_toFinset.mp hj)]

/-- The key of the view is the generator times the group secret. -/
theorem keyOfView_eq (S : Suite F G R) (D : List U32) (l : U32) (others : U32 → List F) (J : List U32) (t : ℕ)
    (ht : J.length + 1 = t) (w : Fin t → F) :
    Spec.keyOfView S D l others (Spec.dealerView S J l w) =
      (Spec.lagrange D l * Spec.polyEval (List.ofFn w) 0 + Spec.othersSecret D l others) • S.gen := by
  have hhead : (List.ofFn w).headD 0 = Spec.polyEval (List.ofFn w) 0 := (Spec.polyEval_zero _).symm
  unfold Spec.keyOfView Spec.dealerView
  obtain ⟨n, rfl⟩ : ∃ n, t = n + 1 := ⟨J.length, ht.symm⟩
  rw [add_smul, mul_smul, ← hhead]
  simp [List.ofFn_succ, commitPoints]

/-- The solver: given a point `P`, it plays dealer `l` with the public key `P` towards the attacker, rewinds it and
computes a logarithm of `P`. -/
noncomputable def Spec.solve (S : Suite F G R) (D : List U32) (l : U32) (J : List U32)
    (others : Ω × (List G × ({j // j ∈ J} → F)) → U32 → List F) (t q : ℕ)
    (A : Spec.Attacker (Ω × (List G × ({j // j ∈ J} → F))) F (Bytes × ThresholdSignature F G)) (P : G) (ω : Ω)
    (y : {j // j ∈ J} → F) (h h' : Fin (q + 1) → F) : F :=
  (Spec.lagrange D l)⁻¹ * (A.rewind q (Spec.signatureQuestion S fun x => Spec.keyOfView S D l (others x) x.2)
    Spec.extractKey (ω, Spec.simulatedDealerView S J t P y) h h' -
      Spec.othersSecret D l (others (ω, Spec.simulatedDealerView S J t P y)))

/-- C140: `t - 1` participants of a key generation with one honest dealer `l`, who know everything except the polynomial
of `l` and of that the commitments and their own shares, who choose the polynomials of all other dealers after seeing
these, and who forge a signature for the group key with chance `ε`,
compute discrete logarithms of random points: `solve`, which knows only the point, succeeds with chance at least
`ε (ε / (q + 1) - 1 / |F|)`. -/
theorem C140_below_threshold [Fintype F] [Fintype Ω] [Nonempty Ω] {S : Suite F G R} (hS : S.Lawful) (D : List U32)
    (h0 : 0 ∉ D) (l : U32) (J : List U32) (hJ : J.Nodup) (hJ0 : 0 ∉ J) (t : ℕ) (ht : J.length + 1 = t)
    (others : Ω × (List G × ({j // j ∈ J} → F)) → U32 → List F) (q : ℕ)
    (A : Spec.Attacker (Ω × (List G × ({j // j ∈ J} → F))) F (Bytes × ThresholdSignature F G)) :
    let key : Ω × (List G × ({j // j ∈ J} → F)) → G := fun x => Spec.keyOfView S D l (others x) x.2
    let final := Spec.signatureQuestion S key
    let forged : ℚ := Spec.chance fun x : (Ω × (Fin t → F)) × (Fin (q + 1) → F) =>
      let y := (x.1.1, Spec.dealerView S J l x.1.2)
      (A.output q final y x.2).2.verify (Spec.withTable S (A.table q final y x.2)) (key y) (A.output q final y x.2).1 =
        .ok ()
    forged * (forged / ((q + 1 : ℕ) : ℚ) - 1 / (Fintype.card F : ℚ)) ≤
      Spec.chance fun x : (Ω × (F × ({j // j ∈ J} → F))) × (Fin (q + 1) → F) × (Fin (q + 1) → F) =>
        Spec.solve S D l J others t q A (x.1.2.1 • S.gen) x.1.1 x.1.2.2 x.2.1 x.2.2 = x.1.2.1 := by
  intro key final forged
  let A' : Spec.Attacker (Ω × (Fin t → F)) F (Bytes × ThresholdSignature F G) :=
    ⟨fun x => A.ask (x.1, Spec.dealerView S J l x.2), fun x => A.result (x.1, Spec.dealerView S J l x.2)⟩
  have h := C140_forgery hS.codec q (fun x : Ω × (Fin t → F) => key (x.1, Spec.dealerView S J l x.2)) A'
  refine le_trans h ?_
  have hbij := secretAndValues_bijective hS.u32 J hJ hJ0 t ht
  let φ : (Ω × (Fin t → F)) × (Fin (q + 1) → F) × (Fin (q + 1) → F) →
      (Ω × (F × ({j // j ∈ J} → F))) × (Fin (q + 1) → F) × (Fin (q + 1) → F) :=
    Prod.map (Prod.map id (Spec.secretAndValues J)) id
  have hφ : Function.Bijective φ := (Function.bijective_id.prodMap hbij).prodMap Function.bijective_id
  rw [← chance_bijective φ hφ]
  refine chance_mono ?_
  rintro ⟨⟨ω, w⟩, h1, h2⟩ hx
  have hne : (Spec.lagrange D l : F) ≠ 0 := lagrange_ne_zero hS.u32 D h0 l
  have hview := simulatedDealerView_eq hS.u32 S J hJ hJ0 t ht l w
  have hx' : A.rewind q final Spec.extractKey (ω, Spec.dealerView S J l w) h1 h2 • S.gen =
      Spec.keyOfView S D l (others (ω, Spec.dealerView S J l w)) (Spec.dealerView S J l w) := hx
  show Spec.solve S D l J others t q A (Spec.polyEval (List.ofFn w) 0 • S.gen) ω
    (fun j : {j // j ∈ J} => Spec.polyEval (List.ofFn w) (j.1.toNat : F)) h1 h2 = Spec.polyEval (List.ofFn w) 0
  unfold Spec.solve
  rw [hview]
  rw [keyOfView_eq S D l _ J t ht w] at hx'
  have := hS.group.gen_inj _ _ hx'
  rw [show A.rewind q (Spec.signatureQuestion S fun x => Spec.keyOfView S D l (others x) x.2) Spec.extractKey
    (ω, Spec.dealerView S J l w) h1 h2 = _ from this, add_sub_cancel_right, inv_mul_cancel_left₀ hne]

/-! ### Proofs of knowledge -/

/-- The question that verifying a proof of knowledge asks: a result is an index, a public key and a proof. -/
def Spec.proofQuestion (S : Suite F G R) (_ : Ω) (o : U32 × G × Nizk F) : Spec.Question :=
  .field (S.contextString ++ strBytes "nizkpok")
    (u32le o.1 ++ S.encG o.2.1 ++ S.encG (o.2.2.r • S.gen - o.2.2.s • o.2.1))

/-- The secret key computed from two proofs. -/
def Spec.extractSecret (o : U32 × G × Nizk F) (_ : F) (o' : U32 × G × Nizk F) (_ : F) : F :=
  (o.2.2.r - o'.2.2.r) / (o.2.2.s - o'.2.2.s)

/-- C140: whoever publishes a public key of their choice with an accepted proof knows its logarithm: if `verify` accepts
with chance `ε`, then rewinding yields the logarithm of the published key with chance at least
`ε (ε / (q + 1) - 1 / |F|)`. -/
theorem C140_proof_of_knowledge [Fintype F] [Fintype Ω] [Nonempty Ω] {S : Suite F G R} (hd : S.CodecLaws) (q : ℕ)
    (A : Spec.Attacker Ω F (U32 × G × Nizk F)) :
    let final := Spec.proofQuestion S
    let accepted : ℚ := Spec.chance fun x : Ω × (Fin (q + 1) → F) =>
      nizkVerify (Spec.withTable S (A.table q final x.1 x.2)) (A.output q final x.1 x.2).2.2 (A.output q final x.1 x.2).1
        (A.output q final x.1 x.2).2.1 = .ok ()
    accepted * (accepted / ((q + 1 : ℕ) : ℚ) - 1 / (Fintype.card F : ℚ)) ≤
      Spec.chance fun x : Ω × (Fin (q + 1) → F) × (Fin (q + 1) → F) =>
        A.rewind q final Spec.extractSecret x.1 x.2.1 x.2.2 • S.gen = (A.output q final x.1 x.2.1).2.1 := by
  intro final accepted
  have hf : accepted = Spec.chance fun x : Ω × (Fin (q + 1) → F) =>
      (A.output q final x.1 x.2).2.2.s = A.challenge q final x.1 x.2 := by
    refine chance_congr fun x => ?_
    rw [C13_verify_iff]
    have : (Spec.withTable S (A.table q final x.1 x.2)).fieldHash
        ((Spec.withTable S (A.table q final x.1 x.2)).contextString ++ strBytes "nizkpok")
        (u32le (A.output q final x.1 x.2).1 ++ S.encG (A.output q final x.1 x.2).2.1 ++
          S.encG ((A.output q final x.1 x.2).2.2.r • S.gen - (A.output q final x.1 x.2).2.2.s •
            (A.output q final x.1 x.2).2.1)) = A.challenge q final x.1 x.2 := by
      show (((A.table q final x.1 x.2).lookup (final x.1 (A.output q final x.1 x.2))).getD _) = _
      rw [(A.critical_spec q final x.1 x.2).2.1, Option.getD_some]
    rw [show (Spec.withTable S (A.table q final x.1 x.2)).encG = S.encG from rfl,
      show (Spec.withTable S (A.table q final x.1 x.2)).gen = S.gen from rfl, this]
    split <;> simp_all
  rw [hf]
  refine A.rewind_good q final (fun ω o c => o.2.2.s = c) Spec.extractSecret (fun ω o x => x • S.gen = o.2.1) ?_
  intro ω o o' c c' hq h1 h2 hne
  have hq' : nizkMessage S o.1 o.2.1 (o.2.2.r • S.gen - o.2.2.s • o.2.1) =
      nizkMessage S o'.1 o'.2.1 (o'.2.2.r • S.gen - o'.2.2.s • o'.2.1) := by
    injection hq
  obtain ⟨-, hpk, hm⟩ := C15_message_injective hd _ _ _ _ _ _ hq'
  have hne' : o.2.2.s - o'.2.2.s ≠ 0 := sub_ne_zero.mpr (by rw [h1, h2]; exact hne)
  rw [← hpk] at hm
  have e : (o.2.2.s - o'.2.2.s) • o.2.1 = (o.2.2.r - o'.2.2.r) • S.gen := by
    rw [sub_smul, sub_smul]
    have : o.2.2.r • S.gen - o'.2.2.r • S.gen = o.2.2.s • o.2.1 - o'.2.2.s • o.2.1 := by
      rw [sub_eq_sub_iff_add_eq_add] at hm ⊢
      rw [hm]
      abel
    exact this.symm
  show ((o.2.2.r - o'.2.2.r) / (o.2.2.s - o'.2.2.s)) • S.gen = o.2.1
  rw [div_eq_inv_mul, mul_smul, ← e, inv_smul_smul₀ hne']

/-! ### Complaints -/

theorem chance_exists {A B : Type} [Fintype A] [Fintype B] (E : B → A → Prop) :
    Spec.chance (fun a => ∃ b, E b a) ≤ ∑ b, Spec.chance (E b) := by
  classical
  unfold Spec.chance
  rw [← Finset.sum_div]
  refine div_le_div_of_nonneg_right ?_ (Nat.cast_nonneg _)
  refine le_trans (Nat.cast_le.mpr (Finset.card_le_card (t := univ.biUnion fun b => univ.filter (E b)) fun a ha => ?_)) ?_
  · simpa using ha
  · exact_mod_cast Finset.card_biUnion_le

theorem chance_coord_le {C : Type} [Fintype C] [Nonempty C] [Fintype Ω] [Nonempty Ω] {n : ℕ} (j : Fin n)
    (φ : Ω → (Fin n → C) → C → Prop) (hφ : ∀ ω h c, φ ω (Function.update h j c) = φ ω h)
    (B : ℕ) (hB : ∀ ω h, ∃ s : Finset C, s.card ≤ B ∧ ∀ c, φ ω h c → c ∈ s) :
    Spec.chance (fun x : Ω × (Fin n → C) => φ x.1 x.2 (x.2 j)) ≤ (B : ℚ) / (Fintype.card C : ℚ) := by
  classical
  have hK0 : (0 : ℚ) < (Fintype.card C : ℚ) := by exact_mod_cast Fintype.card_pos
  have hN0 : (0 : ℚ) < (Fintype.card (Ω × (Fin n → C)) : ℚ) := by exact_mod_cast Fintype.card_pos
  unfold Spec.chance
  rw [div_le_div_iff₀ hN0 hK0]
  set g : Ω → (Fin n → C) → ℚ := fun ω h => if φ ω h (h j) then 1 else 0 with hg
  have hcard : ((univ.filter fun x : Ω × (Fin n → C) => φ x.1 x.2 (x.2 j)).card : ℚ) = ∑ ω, ∑ h, g ω h := by
    rw [Finset.card_filter, Nat.cast_sum, Fintype.sum_prod_type]
    refine Finset.sum_congr rfl fun ω _ => Finset.sum_congr rfl fun h _ => ?_
    simp only [hg]
    split <;> simp
  have hup : ∀ ω, (Fintype.card C : ℚ) * ∑ h, g ω h = ∑ h, ∑ c, g ω (Function.update h j c) := by
    intro ω
    let e : (Fin n → C) × C ≃ (Fin n → C) × C :=
      Function.Involutive.toPerm (fun p => (Function.update p.1 j p.2, p.1 j)) (by
        rintro ⟨h, c⟩
        simp)
    rw [← Fintype.sum_prod_type' (fun h c => g ω (Function.update h j c)),
      ← Equiv.sum_comp e (fun p : (Fin n → C) × C => g ω (Function.update p.1 j p.2))]
    have : ∀ p, g ω (Function.update (e p).1 j (e p).2) = g ω p.1 := by
      rintro ⟨h, c⟩
      show g ω (Function.update (Function.update h j c) j (h j)) = g ω h
      rw [Function.update_idem, Function.update_eq_self]
    rw [Finset.sum_congr rfl fun p _ => this p, Fintype.sum_prod_type]
    simp only [Finset.sum_const, Finset.card_univ, nsmul_eq_mul]
    rw [Finset.mul_sum]
  rw [hcard, mul_comm, Finset.mul_sum, Fintype.card_prod, Nat.cast_mul]
  refine le_trans (Finset.sum_le_card_nsmul univ _ ((Fintype.card (Fin n → C) : ℚ) * B) fun ω _ => ?_) (by
    rw [Finset.card_univ, nsmul_eq_mul]
    exact le_of_eq (by ring))
  rw [hup ω]
  refine le_trans (Finset.sum_le_card_nsmul univ _ (B : ℚ) fun h _ => ?_) (by
    rw [Finset.card_univ, nsmul_eq_mul])
  simp only [hg, hφ, Function.update_self]
  rw [Finset.sum_boole]
  obtain ⟨s, hs, hs'⟩ := hB ω h
  exact_mod_cast le_trans (Finset.card_le_card fun c hc => hs' c (mem_filter.mp hc).2) hs

theorem chance_coord {C : Type} [Fintype C] [Nonempty C] [Fintype Ω] [Nonempty Ω] {n : ℕ} (j : Fin n)
    (φ : Ω → (Fin n → C) → C → Prop) (hφ : ∀ ω h c, φ ω (Function.update h j c) = φ ω h)
    (hone : ∀ ω h c c', φ ω h c → φ ω h c' → c = c') :
    Spec.chance (fun x : Ω × (Fin n → C) => φ x.1 x.2 (x.2 j)) ≤ 1 / (Fintype.card C : ℚ) := by
  classical
  refine le_trans (chance_coord_le j φ hφ 1 fun ω h => ⟨univ.filter (φ ω h), ?_, fun c hc => by simpa using hc⟩) (by simp)
  exact Finset.card_le_one.mpr fun c hc c' hc' => by
    rw [mem_filter] at hc hc'
    exact hone ω h c c' hc.2 hc'.2

/-- If every question has at most one lucky answer, then the question of the check gets a lucky answer with chance at
most `(q + 1) / |F|`. -/
theorem lucky_bound [Fintype F] [Fintype Ω] [Nonempty Ω] {Out : Type} (A : Spec.Attacker Ω F Out) (q : ℕ)
    (final : Ω → Out → Spec.Question) (lucky : Spec.Question → F → Prop)
    (hone : ∀ b c c', lucky b c → lucky b c' → c = c') :
    Spec.chance (fun x : Ω × (Fin (q + 1) → F) =>
      lucky (final x.1 (A.output q final x.1 x.2)) (A.challenge q final x.1 x.2)) ≤
        ((q + 1 : ℕ) : ℚ) / (Fintype.card F : ℚ) := by
  let question : Ω → (Fin (q + 1) → F) → ℕ → Spec.Question := fun ω h k =>
    A.questions q final ω ((Spec.oracle (A.questions q final ω) (Spec.tape h) k).map Prod.snd)
  have h1 : Spec.chance (fun x : Ω × (Fin (q + 1) → F) =>
      lucky (final x.1 (A.output q final x.1 x.2)) (A.challenge q final x.1 x.2)) ≤
      Spec.chance (fun x : Ω × (Fin (q + 1) → F) => ∃ j : Fin (q + 1), lucky (question x.1 x.2 j) (x.2 j)) := by
    refine chance_mono ?_
    rintro ⟨ω, h⟩ hx
    obtain ⟨l1, -, c1, q1⟩ := A.critical_spec q final ω h
    refine ⟨⟨_, l1⟩, ?_⟩
    simp only at hx ⊢
    rw [show question ω h (A.critical q final ω h) = _ from q1]
    rw [c1, Spec.tape, dif_pos l1] at hx
    exact hx
  refine le_trans h1 (le_trans (chance_exists _) ?_)
  refine le_trans (Finset.sum_le_card_nsmul univ _ (1 / (Fintype.card F : ℚ)) fun j _ => ?_) (by
    rw [Finset.card_univ, Fintype.card_fin, nsmul_eq_mul, mul_one_div])
  refine chance_coord j (fun ω h c => lucky (question ω h j) c) (fun ω h c => ?_) fun ω h => hone _
  funext c'
  have : question ω (Function.update h j c) j = question ω h j := by
    simp only [question]
    congr 2
    refine oracle_congr _ _ _ _ fun i hi => ?_
    have hi' : i < q + 1 := by omega
    unfold Spec.tape
    rw [dif_pos hi', dif_pos hi', Function.update_of_ne]
    exact fun e => by rw [← e] at hi; exact lt_irrefl _ hi
  rw [this]

/-- The question that verifying a complaint asks: a result is the key of the accused and a complaint. -/
def Spec.complaintQuestion (S : Suite F G R) (_ : Ω) (o : G × Complaint F G) : Spec.Question :=
  .sha256 (strBytes "Complaint Context") (S.encG o.2.dhPublicKey ++ S.encG o.1 ++ S.encG o.2.dhSharedKey ++
    S.encG o.2.proof.a1 ++ S.encG o.2.proof.a2 ++ (encShareCodec S).enc o.2.encShare)

/-- C140: a complaint whose shared key is not the Diffie-Hellman key of the public key in it and the key of the accused
passes `verify` with chance at most `(q + 1) / |F|`, whatever its maker does with `q` questions to the hash. -/
theorem C140_false_complaint [Fintype F] [Fintype Ω] [Nonempty Ω] {S : Suite F G R} (hd : S.CodecLaws)
    (q : ℕ) (A : Spec.Attacker Ω F (G × Complaint F G)) :
    let final := Spec.complaintQuestion S
    Spec.chance (fun x : Ω × (Fin (q + 1) → F) =>
      let o := A.output q final x.1 x.2
      o.2.verify (Spec.withTable S (A.table q final x.1 x.2)) o.1 = .ok () ∧
        ¬ ∃ k : F, o.2.dhPublicKey = k • S.gen ∧ o.2.dhSharedKey = k • o.1) ≤
      ((q + 1 : ℕ) : ℚ) / (Fintype.card F : ℚ) := by
  intro final
  let lucky : Spec.Question → F → Prop := fun b c => ∃ o : G × Complaint F G, b = .sha256 (strBytes "Complaint Context")
    (S.encG o.2.dhPublicKey ++ S.encG o.1 ++ S.encG o.2.dhSharedKey ++ S.encG o.2.proof.a1 ++ S.encG o.2.proof.a2 ++
      (encShareCodec S).enc o.2.encShare) ∧
    Spec.CpAccepts S.gen o.2.dhPublicKey o.1 o.2.dhSharedKey o.2.proof.a1 o.2.proof.a2 c o.2.proof.z ∧
    ¬ ∃ k : F, o.2.dhPublicKey = k • S.gen ∧ o.2.dhSharedKey = k • o.1
  refine le_trans (chance_mono ?_) (lucky_bound A q final lucky ?_)
  · rintro ⟨ω, h⟩ ⟨h1, h2⟩
    simp only at h1 h2 ⊢
    refine ⟨A.output q final ω h, rfl, ?_, h2⟩
    rw [complaintVerify_iff] at h1
    have : A.challenge q final ω h = (Spec.withTable S (A.table q final ω h)).sha256FieldHash
        (strBytes "Complaint Context") (S.encG (A.output q final ω h).2.dhPublicKey ++
          S.encG (A.output q final ω h).1 ++ S.encG (A.output q final ω h).2.dhSharedKey ++
          S.encG (A.output q final ω h).2.proof.a1 ++ S.encG (A.output q final ω h).2.proof.a2 ++
          (encShareCodec S).enc (A.output q final ω h).2.encShare) := by
      show _ = (((A.table q final ω h).lookup (final ω (A.output q final ω h))).getD _)
      rw [(A.critical_spec q final ω h).2.1, Option.getD_some]
    rw [this]
    exact h1
  · rintro b c c' ⟨o, rfl, h1, h2⟩ ⟨o', hq, h1', -⟩
    have hq' : S.encG o.2.dhPublicKey ++ S.encG o.1 ++ S.encG o.2.dhSharedKey ++ S.encG o.2.proof.a1 ++
        S.encG o.2.proof.a2 ++ (encShareCodec S).enc o.2.encShare = S.encG o'.2.dhPublicKey ++ S.encG o'.1 ++
        S.encG o'.2.dhSharedKey ++ S.encG o'.2.proof.a1 ++ S.encG o'.2.proof.a2 ++
        (encShareCodec S).enc o'.2.encShare := by
      injection hq
    simp only [List.append_assoc] at hq'
    obtain ⟨e1, hq'⟩ := hd.encG_append_inj hq'
    obtain ⟨e2, hq'⟩ := hd.encG_append_inj hq'
    obtain ⟨e3, hq'⟩ := hd.encG_append_inj hq'
    obtain ⟨e4, hq'⟩ := hd.encG_append_inj hq'
    obtain ⟨e5, -⟩ := hd.encG_append_inj hq'
    rw [← e1, ← e2, ← e3, ← e4, ← e5] at h1'
    by_contra hne
    obtain ⟨k1, k2⟩ := C48_special_sound _ _ _ _ _ _ _ _ _ _ h1 h1' hne
    exact h2 ⟨_, k1, k2⟩

/-! ### Concrete attackers -/

theorem chance_one {A : Type} [Fintype A] [Nonempty A] {E : A → Prop} (h : ∀ a, E a) : Spec.chance E = 1 := by
  classical
  unfold Spec.chance
  rw [Finset.filter_true_of_mem fun a _ => h a, Finset.card_univ, div_self]
  exact_mod_cast Fintype.card_ne_zero

section Examples
open Toy

/-- An attacker that knows the secret key `x`: it signs the message `[1, 2]` with the nonce 5. -/
def insider (S : Suite Fp G R) [Module Fp G] (x : Fp) : Spec.Attacker Unit Fp (Bytes × ThresholdSignature Fp G) where
  ask _ _ := .field (S.contextString ++ strBytes "challenge")
    (S.encG ((5 : Fp) • S.gen) ++ S.encG (x • S.gen) ++ [1, 2])
  result _ answers := ([1, 2], ⟨(5 : Fp) • S.gen, 5 + answers.headD 0 * x⟩)

/-- It always succeeds. -/
theorem insider_wins [Fintype Fp] (x : Fp) (ω : Unit) (h : Fin (1 + 1) → Fp) :
    let final := Spec.signatureQuestion suite fun _ => x • suite.gen
    let A := insider suite x
    (A.output 1 final ω h).2.verify (Spec.withTable suite (A.table 1 final ω h)) (x • suite.gen)
      (A.output 1 final ω h).1 = .ok () := by
  intro final A
  have hv := verify_experiment suite (fun _ : Unit => x • suite.gen) 1 A ω h
  refine hv.mpr ?_
  have h1 : A.output 1 final ω h = ([1, 2], ⟨(5 : Fp) • suite.gen, 5 + h 0 * x⟩) := rfl
  have h2 : A.challenge 1 final ω h = h 0 := by
    have hm : final ω (A.output 1 final ω h) ∈
        (Spec.oracle (A.questions 1 final ω) (Spec.tape h) 1).map Prod.fst := by
      rw [h1]
      exact List.mem_singleton.mpr rfl
    unfold Spec.Attacker.challenge
    rw [Spec.Attacker.table_prefix, lookup_append_left hm]
    obtain ⟨k1, k2, -⟩ := oracle_lookup _ _ _ _ hm
    rw [k2, show List.idxOf _ _ = 0 from Nat.lt_one_iff.mp k1]
    rfl
  show Spec.Schnorr suite.gen (A.output 1 final ω h).2.groupCommitment (x • suite.gen) (A.challenge 1 final ω h)
    (A.output 1 final ω h).2.z
  rw [h1, h2]
  show (5 + h 0 * x) • suite.gen = (5 : Fp) • suite.gen + h 0 • (x • suite.gen)
  rw [add_smul, mul_smul]

/-- So rewinding it yields the key almost every second time. -/
example [Fintype Fp] :
    1 * (1 / ((1 + 1 : ℕ) : ℚ) - 1 / (Fintype.card Fp : ℚ)) ≤
      Spec.chance fun y : Unit × (Fin (1 + 1) → Fp) × (Fin (1 + 1) → Fp) =>
        (insider suite 9).rewind 1 (Spec.signatureQuestion suite fun _ => (9 : Fp) • suite.gen) Spec.extractKey y.1 y.2.1
          y.2.2 • suite.gen = (9 : Fp) • suite.gen := by
  have h := C140_forgery (Ω := Unit) codec_laws 1 (fun _ => (9 : Fp) • suite.gen) (insider suite 9)
  have h1 := chance_one (A := Unit × (Fin (1 + 1) → Fp)) fun x => insider_wins 9 x.1 x.2
  simp only at h h1
  rwa [h1] at h

/-- Two of the participants, with threshold three. -/
def colluders : List U32 := [2, 4]

/-- The dealers other than dealer 1: dealer 2 chooses its polynomial from the commitments of dealer 1. -/
def colluderOthers (x : Unit × (List Fp × ({j // j ∈ colluders} → Fp))) (k : U32) : List Fp :=
  if k = 2 then [7 - x.2.1.headD 0] else [4, 0, 9]

/-- In the toy group logarithms are easy, and these attackers use that: they read the group secret off the commitments of
dealer 1 and sign with it. -/
def readers : Spec.Attacker (Unit × (List Fp × ({j // j ∈ colluders} → Fp))) Fp (Bytes × ThresholdSignature Fp Fp) where
  ask x _ := .field (suite.contextString ++ strBytes "challenge")
    (suite.encG ((5 : Fp) • suite.gen) ++ suite.encG (Spec.keyOfView suite [1, 2, 3] 1 (colluderOthers x) x.2) ++ [1, 2])
  result x answers := ([1, 2], ⟨(5 : Fp) • suite.gen,
    5 + answers.headD 0 * Spec.keyOfView suite [1, 2, 3] 1 (colluderOthers x) x.2⟩)

theorem readers_win [Fintype Fp] (x : Unit × (List Fp × ({j // j ∈ colluders} → Fp))) (h : Fin (1 + 1) → Fp) :
    let key : Unit × (List Fp × ({j // j ∈ colluders} → Fp)) → Fp :=
      fun x => Spec.keyOfView suite [1, 2, 3] 1 (colluderOthers x) x.2
    let final := Spec.signatureQuestion suite key
    (readers.output 1 final x h).2.verify (Spec.withTable suite (readers.table 1 final x h)) (key x)
      (readers.output 1 final x h).1 = .ok () := by
  intro key final
  have hv := verify_experiment suite key 1 readers x h
  refine hv.mpr ?_
  have h1 : readers.output 1 final x h = ([1, 2], ⟨(5 : Fp) • suite.gen, 5 + h 0 * key x⟩) := rfl
  have h2 : readers.challenge 1 final x h = h 0 := by
    have hm : final x (readers.output 1 final x h) ∈
        (Spec.oracle (readers.questions 1 final x) (Spec.tape h) 1).map Prod.fst := by
      rw [h1]
      exact List.mem_singleton.mpr rfl
    unfold Spec.Attacker.challenge
    rw [Spec.Attacker.table_prefix, lookup_append_left hm]
    obtain ⟨k1, k2, -⟩ := oracle_lookup _ _ _ _ hm
    rw [k2, show List.idxOf _ _ = 0 from Nat.lt_one_iff.mp k1]
    rfl
  show Spec.Schnorr suite.gen (readers.output 1 final x h).2.groupCommitment (key x) (readers.challenge 1 final x h)
    (readers.output 1 final x h).2.z
  rw [h1, h2]
  show (5 + h 0 * key x) • suite.gen = (5 : Fp) • suite.gen + h 0 • key x
  rw [add_smul, smul_gen (h 0 * key x)]
  rfl

example [Fintype Fp] : 1 * (1 / ((1 + 1 : ℕ) : ℚ) - 1 / (Fintype.card Fp : ℚ)) ≤
    Spec.chance fun x : (Unit × (Fp × ({j // j ∈ colluders} → Fp))) × (Fin (1 + 1) → Fp) × (Fin (1 + 1) → Fp) =>
      Spec.solve suite [1, 2, 3] 1 colluders colluderOthers 3 1 readers (x.1.2.1 • suite.gen) x.1.1 x.1.2.2 x.2.1 x.2.2 =
        x.1.2.1 := by
  have h := C140_below_threshold (Ω := Unit) lawful [1, 2, 3] (by decide) 1 colluders (by decide) (by decide) 3 rfl
    colluderOthers 1 readers
  have h1 := chance_one (A := (Unit × (Fin 3 → Fp)) × (Fin (1 + 1) → Fp)) fun x =>
    readers_win (x.1.1, Spec.dealerView suite colluders 1 x.1.2) x.2
  simp only at h h1
  rwa [h1] at h

/-- The key of that attack is the group key. -/
example (w : Fin 3 → Fp) :
    let view := Spec.dealerView suite colluders 1 w
    ∃ sk, (honestState suite ⟨4, 3⟩ [1, 2, 3] (Spec.dealtBy 1 (List.ofFn w) (colluderOthers ((), view))) 4).finish =
      .ok (Spec.keyOfView suite [1, 2, 3] 1 (colluderOthers ((), view)) view, sk) :=
  C140_key_of_view group_laws u32_inj (by decide) [1, 2, 3] (by decide) (by decide) 1 (by decide) _
    (fun k _ _ => by unfold colluderOthers; split <;> simp) colluders w _ _ (honestState_holds suite ⟨4, 3⟩ (by decide) _ 4)

/-- An honest prover for participant 3 with the secret 9, as an attacker. -/
def prover : Spec.Attacker Unit Fp (U32 × Fp × Nizk Fp) where
  ask _ _ := .field (suite.contextString ++ strBytes "nizkpok")
    (u32le 3 ++ suite.encG ((9 : Fp) • suite.gen) ++ suite.encG ((5 : Fp) • suite.gen))
  result _ answers := (3, (9 : Fp) • suite.gen, ⟨answers.headD 0, 5 + 9 * answers.headD 0⟩)

theorem prover_wins [Fintype Fp] (ω : Unit) (h : Fin (1 + 1) → Fp) :
    let final : Unit → U32 × Fp × Nizk Fp → Spec.Question := Spec.proofQuestion suite
    nizkVerify (Spec.withTable suite (prover.table 1 final ω h)) (prover.output 1 final ω h).2.2
      (prover.output 1 final ω h).1 (prover.output 1 final ω h).2.1 = .ok () := by
  intro final
  have h1 : prover.output 1 final ω h = (3, (9 : Fp) • suite.gen, ⟨h 0, 5 + 9 * h 0⟩) := rfl
  have hfin : final ω (prover.output 1 final ω h) = prover.ask ω [] := by
    rw [h1]
    show Spec.Question.field _ (u32le 3 ++ suite.encG ((9 : Fp) • suite.gen) ++
      suite.encG ((5 + 9 * h 0) • suite.gen - h 0 • ((9 : Fp) • suite.gen))) = _
    rw [smul_smul, ← sub_smul, show (5 + 9 * h 0) - h 0 * 9 = (5 : Fp) by ring]
    rfl
  have h2 : prover.challenge 1 final ω h = h 0 := by
    have hm : final ω (prover.output 1 final ω h) ∈
        (Spec.oracle (prover.questions 1 final ω) (Spec.tape h) 1).map Prod.fst := by
      rw [hfin]
      exact List.mem_singleton.mpr rfl
    unfold Spec.Attacker.challenge
    rw [Spec.Attacker.table_prefix, lookup_append_left hm]
    obtain ⟨k1, k2, -⟩ := oracle_lookup _ _ _ _ hm
    rw [k2, show List.idxOf _ _ = 0 from Nat.lt_one_iff.mp k1]
    rfl
  rw [C13_verify_iff, if_pos]
  show (prover.output 1 final ω h).2.2.s =
    ((prover.table 1 final ω h).lookup (final ω (prover.output 1 final ω h))).getD _
  rw [(prover.critical_spec 1 final ω h).2.1, Option.getD_some, h2, h1]

example [Fintype Fp] : 1 * (1 / ((1 + 1 : ℕ) : ℚ) - 1 / (Fintype.card Fp : ℚ)) ≤
    Spec.chance fun x : Unit × (Fin (1 + 1) → Fp) × (Fin (1 + 1) → Fp) =>
      prover.rewind 1 (Spec.proofQuestion suite) Spec.extractSecret x.1 x.2.1 x.2.2 • suite.gen =
        (prover.output 1 (Spec.proofQuestion suite) x.1 x.2.1).2.1 := by
  have h := C140_proof_of_knowledge (Ω := Unit) codec_laws 1 prover
  have h1 := chance_one (A := Unit × (Fin (1 + 1) → Fp)) fun x => prover_wins x.1 x.2
  simp only at h h1
  rwa [h1] at h

/-- A complaint about the wrong shared key 1000 (the right one is 6 * 9), made like a right one with the answer to one
question. -/
def liar : Spec.Attacker Unit Fp (Fp × Complaint Fp Fp) where
  ask _ _ := .sha256 (strBytes "Complaint Context") (suite.encG (6 : Fp) ++ suite.encG (9 : Fp) ++ suite.encG (1000 : Fp) ++
    suite.encG (5 : Fp) ++ suite.encG (45 : Fp) ++ (encShareCodec suite).enc ⟨2, 3, [], []⟩)
  result _ answers := (9, ⟨1000, 6, ⟨2, 3, [], []⟩, ⟨5, 45, 5 + answers.headD 0 * 6⟩⟩)

example [Fintype Fp] : Spec.chance (fun x : Unit × (Fin (1 + 1) → Fp) =>
    let o := liar.output 1 (Spec.complaintQuestion suite) x.1 x.2
    o.2.verify (Spec.withTable suite (liar.table 1 (Spec.complaintQuestion suite) x.1 x.2)) o.1 = .ok () ∧
      ¬ ∃ k : Fp, o.2.dhPublicKey = k • suite.gen ∧ o.2.dhSharedKey = k • o.1) ≤
    ((1 + 1 : ℕ) : ℚ) / (Fintype.card Fp : ℚ) :=
  C140_false_complaint codec_laws 1 liar

/-- The statement of that complaint is indeed false. -/
example : ¬ ∃ k : Fp, (6 : Fp) = k • suite.gen ∧ (1000 : Fp) = k • (9 : Fp) := by
  rintro ⟨k, h1, h2⟩
  rw [smul_gen] at h1
  subst h1
  revert h2
  decide +kernel

end Examples

end IceFrost
