import Verif.Props.CipherIntegrity
import Mathlib.Logic.Equiv.Fintype
import Mathlib.Data.Fintype.Perm
import Mathlib.Data.Nat.Factorial.Basic

/-! # Random functions and random permutations

Whoever asks a random function at `q` places, each chosen after the answers before, tells it from a random permutation with an
advantage of at most `q (q - 1) / 2 N`. -/

set_option linter.unusedSectionVars false
set_option linter.unusedVariables false

namespace IceFrost

open Finset

variable {X : Type}

/-- The first `q` questions to `f`, with the answers; `next` chooses the next question. -/
def Spec.questions (next : List (X × X) → X) (f : X → X) : ℕ → List (X × X)
  | 0 => []
  | q + 1 => Spec.questions next f q ++ [(next (Spec.questions next f q), f (next (Spec.questions next f q)))]

/-- `D` is decided by the first `q` questions. -/
def Spec.Decided (next : List (X × X) → X) (q : ℕ) (D : (X → X) → Prop) : Prop :=
  ∀ f g : X → X, (∀ p ∈ Spec.questions next f q, g p.1 = p.2) → (D f ↔ D g)

theorem questions_length (next : List (X × X) → X) (f : X → X) (q : ℕ) : (Spec.questions next f q).length = q := by
  induction q with
  | zero => rfl
  | succ q ih => rw [Spec.questions, List.length_append, ih]; rfl

theorem questions_answer (next : List (X × X) → X) (f : X → X) (q : ℕ) : ∀ p ∈ Spec.questions next f q, p.2 = f p.1 := by
  induction q with
  | zero => intro p hp; cases hp
  | succ q ih =>
    intro p hp
    rw [Spec.questions, List.mem_append, List.mem_singleton] at hp
    rcases hp with hp | rfl
    · exact ih p hp
    · rfl

theorem questions_congr (next : List (X × X) → X) (f g : X → X) (q : ℕ) (h : ∀ p ∈ Spec.questions next f q, g p.1 = p.2) :
    Spec.questions next g q = Spec.questions next f q := by
  induction q with
  | zero => rfl
  | succ q ih =>
    rw [Spec.questions] at h
    have e := ih fun p hp => h p (List.mem_append_left _ hp)
    have e' := h _ (List.mem_append_right _ (List.mem_singleton.mpr rfl))
    rw [Spec.questions, Spec.questions, e]
    simp only at e'
    rw [e']

variable [DecidableEq X]

/-- The places asked. -/
def places (next : List (X × X) → X) (f : X → X) (q : ℕ) : Finset X := ((Spec.questions next f q).map Prod.fst).toFinset

theorem mem_places {next : List (X × X) → X} {f : X → X} {q : ℕ} {x : X} :
    x ∈ places next f q ↔ ∃ p ∈ Spec.questions next f q, p.1 = x := by
  unfold places
  rw [List.mem_toFinset, List.mem_map]

theorem agree_iff (next : List (X × X) → X) (f g : X → X) (q : ℕ) :
    (∀ x ∈ places next f q, g x = f x) ↔ ∀ p ∈ Spec.questions next f q, g p.1 = p.2 := by
  constructor
  · intro h p hp
    rw [h _ (mem_places.mpr ⟨p, hp, rfl⟩), questions_answer next f q p hp]
  · intro h x hx
    obtain ⟨p, hp, rfl⟩ := mem_places.mp hx
    rw [h p hp, questions_answer next f q p hp]

theorem places_congr (next : List (X × X) → X) (f g : X → X) (q : ℕ) (h : ∀ x ∈ places next f q, g x = f x) :
    places next g q = places next f q := by
  unfold places
  rw [questions_congr next f g q ((agree_iff next f g q).mp h)]

theorem places_card (next : List (X × X) → X) (f : X → X) (q : ℕ) : (places next f q).card ≤ q := by
  refine le_trans (List.toFinset_card_le _) ?_
  rw [List.length_map, questions_length]

/-! ### Collisions -/

section Collisions
variable [Fintype X] [AddCommGroup X]

/-- Question number `j` is new and its answer is not. -/
def Spec.Collides (next : List (X × X) → X) (f : X → X) (j : ℕ) : Prop :=
  next (Spec.questions next f j) ∉ places next f j ∧ f (next (Spec.questions next f j)) ∈ (places next f j).image f

theorem injOn_places (next : List (X × X) → X) (f : X → X) (q : ℕ) (h : ∀ j < q, ¬ Spec.Collides next f j) :
    Set.InjOn f (places next f q) := by
  induction q with
  | zero => intro x hx; simp [places, Spec.questions] at hx
  | succ q ih =>
    have ih' := ih fun j hj => h j (by omega)
    have e : places next f (q + 1) = insert (next (Spec.questions next f q)) (places next f q) := by
      unfold places
      rw [Spec.questions, List.map_append, List.toFinset_append]
      simp [Finset.union_comm]
    rw [e, Finset.coe_insert]
    by_cases hm : next (Spec.questions next f q) ∈ places next f q
    · rwa [Set.insert_eq_of_mem (Finset.mem_coe.mpr hm)]
    · rw [Set.injOn_insert (fun h => hm (Finset.mem_coe.mp h))]
      refine ⟨ih', fun hx => h q (by omega) ⟨hm, ?_⟩⟩
      obtain ⟨y, hy, hyx⟩ := hx
      exact Finset.mem_image.mpr ⟨y, Finset.mem_coe.mp hy, hyx⟩

/-- Adds `h` to the answer of question number `j`, if it is new. -/
def bump (next : List (X × X) → X) (j : ℕ) (h : X) (f : X → X) : X → X :=
  if next (Spec.questions next f j) ∈ places next f j then f
  else Function.update f (next (Spec.questions next f j)) (f (next (Spec.questions next f j)) + h)

theorem bump_agree (next : List (X × X) → X) (j : ℕ) (h : X) (f : X → X) : ∀ x ∈ places next f j, bump next j h f x = f x := by
  intro x hx
  unfold bump
  split
  · rfl
  · rename_i hm
    exact Function.update_of_ne (fun e : x = _ => hm (by rw [← e]; exact hx)) _ _

theorem bump_questions (next : List (X × X) → X) (j : ℕ) (h : X) (f : X → X) :
    Spec.questions next (bump next j h f) j = Spec.questions next f j :=
  questions_congr next f _ j ((agree_iff next f _ j).mp (bump_agree next j h f))

theorem bump_places (next : List (X × X) → X) (j : ℕ) (h : X) (f : X → X) :
    places next (bump next j h f) j = places next f j := places_congr next f _ j (bump_agree next j h f)

theorem bump_bump (next : List (X × X) → X) (j : ℕ) (h k : X) (f : X → X) :
    bump next j k (bump next j h f) = bump next j (h + k) f := by
  have e1 := bump_questions next j h f
  have e2 := bump_places next j h f
  rw [bump, e1, e2]
  split
  · rename_i hm
    unfold bump
    rw [if_pos hm, if_pos hm]
  · rename_i hm
    have e3 : bump next j h f = Function.update f (next (Spec.questions next f j)) (f (next (Spec.questions next f j)) + h) := by
      unfold bump; rw [if_neg hm]
    rw [e3, Function.update_self, Function.update_idem]
    unfold bump
    rw [if_neg hm, add_assoc]

theorem bump_zero (next : List (X × X) → X) (j : ℕ) (f : X → X) : bump next j 0 f = f := by
  unfold bump
  split
  · rfl
  · rw [add_zero, Function.update_eq_self]

theorem collides_chance (next : List (X × X) → X) (j : ℕ) :
    Spec.chance (fun f : X → X => Spec.Collides next f j) ≤ (j : ℚ) / Fintype.card X := by
  classical
  refine chance_le_of_orbits (fun h => bump next j h) (fun h => ?_) _ j fun f => ?_
  · refine Function.bijective_iff_has_inverse.mpr ⟨bump next j (-h), fun f => ?_, fun f => ?_⟩
    · rw [bump_bump, add_neg_cancel, bump_zero]
    · rw [bump_bump, neg_add_cancel, bump_zero]
  · by_cases hm : next (Spec.questions next f j) ∈ places next f j
    · rw [Finset.card_eq_zero.mpr]
      · omega
      · refine Finset.filter_eq_empty_iff.mpr fun h _ hc => ?_
        unfold Spec.Collides at hc
        rw [bump_questions, bump_places] at hc
        exact hc.1 hm
    · refine le_trans (Finset.card_le_card_of_injOn (t := (places next f j).image f)
        (fun h => f (next (Spec.questions next f j)) + h) (fun h hh => ?_) fun a _ b _ hab => add_left_cancel hab)
        (le_trans Finset.card_image_le (places_card next f j))
      rw [Finset.coe_filter, Set.mem_ofPred_eq] at hh
      have hc := hh.2.2
      rw [bump_questions, bump_places] at hc
      have e : bump next j h f (next (Spec.questions next f j)) = f (next (Spec.questions next f j)) + h := by
        unfold bump
        rw [if_neg hm, Function.update_self]
      rw [e] at hc
      rw [Finset.mem_coe]
      convert hc using 1
      exact Finset.image_congr fun x hx => (bump_agree next j h f x hx).symm

theorem injOn_chance (next : List (X × X) → X) (q : ℕ) :
    Spec.chance (fun f : X → X => ¬ Set.InjOn f (places next f q)) ≤ (q * (q - 1) : ℚ) / 2 / Fintype.card X := by
  have h1 : ∀ f : X → X, ¬ Set.InjOn f (places next f q) → ∃ j : Fin q, Spec.Collides next f j := by
    intro f hf
    by_contra hc
    push Not at hc
    exact hf (injOn_places next f q fun j hj => hc ⟨j, hj⟩)
  refine le_trans (chance_mono h1) (le_trans (chance_exists _) ?_)
  refine le_trans (Finset.sum_le_sum fun j _ => collides_chance next j.1) (le_of_eq ?_)
  rw [← Finset.sum_div]
  congr 1
  rw [Fin.sum_univ_eq_sum_range (fun j => (j : ℚ))]
  induction q with
  | zero => simp
  | succ q ih =>
    rw [Finset.sum_range_succ, ih fun f hf => ?_]
    · push_cast; ring
    · by_contra hc
      push Not at hc
      exact hf (injOn_places next f q fun j hj => hc ⟨j, hj⟩)

end Collisions

/-! ### Counting extensions -/

section Counting
variable [Fintype X]

theorem card_functions (Q : Finset X) (g : X → X) :
    (univ.filter fun f : X → X => ∀ x ∈ Q, f x = g x).card = Fintype.card X ^ (Fintype.card X - Q.card) := by
  have hset : (univ.filter fun f : X → X => ∀ x ∈ Q, f x = g x) = Fintype.piFinset fun x => if x ∈ Q then {g x} else univ := by
    ext f
    simp only [mem_filter, mem_univ, true_and, Fintype.mem_piFinset]
    constructor
    · intro h x
      split
      · rename_i hx; simpa using h x hx
      · simp
    · intro h x hx
      have := h x
      rw [if_pos hx] at this
      simpa using this
  rw [hset, Fintype.card_piFinset, ← Finset.prod_mul_prod_compl Q,
    Finset.prod_congr rfl (g := fun _ => 1) (fun x hx => by rw [if_pos hx]; rfl),
    Finset.prod_congr (s₁ := Qᶜ) rfl (g := fun _ => Fintype.card X) (fun x hx => by rw [if_neg (Finset.mem_compl.mp hx)]; rfl),
    Finset.prod_const_one, one_mul, Finset.prod_const, Finset.card_compl]

theorem card_permutations (Q : Finset X) (g : X → X) (hg : Set.InjOn g Q) :
    (univ.filter fun π : Equiv.Perm X => ∀ x ∈ Q, π x = g x).card = (Fintype.card X - Q.card).factorial := by
  classical
  -- a permutation that extends `g`
  obtain ⟨τ, hτ⟩ : ∃ τ : Equiv.Perm X, ∀ x ∈ Q, τ x = g x := by
    let e : {x // x ∈ Q} ≃ {y // y ∈ Q.image g} := Equiv.ofBijective
      (fun x => ⟨g x.1, Finset.mem_image_of_mem g x.2⟩) ⟨fun a b h => Subtype.ext (hg a.2 b.2 (congrArg Subtype.val h)), fun y => by
        obtain ⟨x, hx, hxy⟩ := Finset.mem_image.mp y.2
        exact ⟨⟨x, hx⟩, Subtype.ext hxy⟩⟩
    refine ⟨e.extendSubtype, fun x hx => ?_⟩
    rw [Equiv.extendSubtype_apply_of_mem e x hx]
    rfl
  have h1 : (univ.filter fun π : Equiv.Perm X => ∀ x ∈ Q, π x = g x).card =
      (univ.filter fun σ : Equiv.Perm X => ∀ x ∈ Q, σ x = x).card := by
    refine Finset.card_bij (fun π _ => π.trans τ.symm) (fun π hπ => ?_) (fun a _ b _ h => ?_) fun σ hσ => ?_
    · rw [mem_filter] at hπ ⊢
      refine ⟨mem_univ _, fun x hx => ?_⟩
      rw [Equiv.trans_apply, hπ.2 x hx, ← hτ x hx, Equiv.symm_apply_apply]
    · ext x
      have := congrArg (fun e : Equiv.Perm X => τ (e x)) h
      simpa using this
    · rw [mem_filter] at hσ
      refine ⟨σ.trans τ, mem_filter.mpr ⟨mem_univ _, fun x hx => ?_⟩, by ext x; simp⟩
      rw [Equiv.trans_apply, hσ.2 x hx, hτ x hx]
  rw [h1]
  have h2 := Fintype.card_congr (Equiv.Perm.subtypeEquivSubtypePerm fun x : X => x ∉ Q)
  rw [Fintype.card_perm] at h2
  have h3 : Fintype.card {x // x ∉ Q} = Fintype.card X - Q.card := by
    rw [Fintype.card_subtype_compl, Fintype.card_coe]
  rw [h3] at h2
  rw [h2, Fintype.card_subtype]
  congr 1
  ext σ
  simp only [mem_filter, mem_univ, true_and, not_not]

theorem switch_le [Nonempty X] (next : List (X × X) → X) (q : ℕ) (D : (X → X) → Prop) (hD : Spec.Decided next q D) :
    Spec.chance (fun f : X → X => D f ∧ Set.InjOn f (places next f q)) ≤ Spec.chance fun π : Equiv.Perm X => D π := by
  classical
  set N := Fintype.card X with hN
  have key : ((univ.filter fun f : X → X => D f ∧ Set.InjOn f (places next f q)).card : ℚ) ≤
      ((univ.filter fun π : Equiv.Perm X => D π).card : ℚ) * ((N : ℚ) ^ N / N.factorial) := by
    have hswap : ∀ (f : X → X) (π : Equiv.Perm X), (∀ x ∈ places next f q, π x = f x) ↔ ∀ x ∈ places next π q, f x = π x := by
      intro f π
      constructor
      · intro h
        rw [places_congr next f π q h]
        exact fun x hx => (h x hx).symm
      · intro h
        rw [places_congr next π f q h]
        exact fun x hx => (h x hx).symm
    calc ((univ.filter fun f : X → X => D f ∧ Set.InjOn f (places next f q)).card : ℚ)
        = ∑ f ∈ univ.filter (fun f : X → X => D f ∧ Set.InjOn f (places next f q)),
            ∑ π ∈ univ.filter (fun π : Equiv.Perm X => ∀ x ∈ places next f q, π x = f x),
              1 / ((N - (places next f q).card).factorial : ℚ) := by
          rw [Finset.card_eq_sum_ones, Nat.cast_sum]
          refine Finset.sum_congr rfl fun f hf => ?_
          rw [Finset.sum_const, card_permutations _ f (mem_filter.mp hf).2.2, nsmul_eq_mul, Nat.cast_one, mul_one_div_cancel]
          exact_mod_cast Nat.factorial_ne_zero _
      _ = ∑ π ∈ univ.filter (fun π : Equiv.Perm X => D π), ∑ f ∈ univ.filter (fun f : X → X => ∀ x ∈ places next π q, f x = π x),
              1 / ((N - (places next π q).card).factorial : ℚ) := by
          rw [Finset.sum_sigma', Finset.sum_sigma']
          refine Finset.sum_bij' (fun z _ => ⟨z.2, z.1⟩) (fun z _ => ⟨z.2, z.1⟩) (fun z hz => ?_) (fun z hz => ?_)
            (fun z hz => rfl) (fun z hz => rfl) fun z hz => ?_
          · rw [Finset.mem_sigma, mem_filter, mem_filter] at hz ⊢
            obtain ⟨⟨-, hd, hi⟩, -, ha⟩ := hz
            exact ⟨⟨mem_univ _, (hD z.1 z.2 ((agree_iff next z.1 z.2 q).mp ha)).mp hd⟩, mem_univ _, (hswap z.1 z.2).mp ha⟩
          · rw [Finset.mem_sigma, mem_filter, mem_filter] at hz ⊢
            obtain ⟨⟨-, hd⟩, -, ha⟩ := hz
            refine ⟨⟨mem_univ _, (hD z.1 z.2 ((agree_iff next z.1 z.2 q).mp ha)).mp hd, ?_⟩, mem_univ _, (hswap z.2 z.1).mpr ha⟩
            intro a h1 b h2 hab
            simp only [places_congr next z.1 z.2 q ha, Finset.mem_coe] at h1 h2
            simp only at hab
            rw [ha a h1, ha b h2] at hab
            exact z.1.injective hab
          · rw [Finset.mem_sigma, mem_filter, mem_filter] at hz
            rw [places_congr next z.1 z.2 q hz.2.2]
      _ ≤ ∑ π ∈ univ.filter (fun π : Equiv.Perm X => D π), (N : ℚ) ^ N / N.factorial := by
          refine Finset.sum_le_sum fun π _ => ?_
          rw [Finset.sum_const, card_functions, nsmul_eq_mul, ← hN, mul_one_div]
          have hq : (places next π q).card ≤ N := Finset.card_le_univ _
          generalize (places next π q).card = k at hq
          rw [div_le_div_iff₀ (by exact_mod_cast Nat.factorial_pos _) (by exact_mod_cast Nat.factorial_pos _)]
          have h1 : N.factorial = (N - k).factorial * N.descFactorial k := (Nat.factorial_mul_descFactorial hq).symm
          have h2 : N.descFactorial k ≤ N ^ k := Nat.descFactorial_le_pow N k
          have h3 : N ^ N = N ^ (N - k) * N ^ k := by rw [← pow_add, Nat.sub_add_cancel hq]
          have : N ^ (N - k) * N.factorial ≤ N ^ N * (N - k).factorial := by
            rw [h1, h3]
            calc N ^ (N - k) * ((N - k).factorial * N.descFactorial k) = N ^ (N - k) * (N - k).factorial * N.descFactorial k := by ring
              _ ≤ N ^ (N - k) * (N - k).factorial * N ^ k := Nat.mul_le_mul_left _ h2
              _ = N ^ (N - k) * N ^ k * (N - k).factorial := by ring
          exact_mod_cast this
      _ = _ := by rw [Finset.sum_const, nsmul_eq_mul]
  unfold Spec.chance
  rw [Fintype.card_fun, Fintype.card_perm, ← hN]
  have hp : (0 : ℚ) < (N : ℚ) ^ N := by
    have : 0 < N := Fintype.card_pos
    positivity
  have hf : (0 : ℚ) < (N.factorial : ℚ) := by exact_mod_cast Nat.factorial_pos _
  push_cast
  rw [div_le_div_iff₀ hp hf]
  rw [mul_div_assoc', le_div_iff₀ hf] at key
  convert key using 3
  congr 1
  ext f
  simp only [mem_filter]

end Counting

theorem chance_not {A : Type} [Fintype A] [Nonempty A] (E : A → Prop) : (Spec.chance fun a => ¬ E a) = 1 - Spec.chance E := by
  classical
  have h := Finset.card_filter_add_card_filter_not (s := (univ : Finset A)) E
  have hA : (Fintype.card A : ℚ) ≠ 0 := by exact_mod_cast Fintype.card_ne_zero
  have h' : ((univ.filter E).card : ℚ) + (univ.filter fun a => ¬ E a).card = Fintype.card A := by
    rw [← Finset.card_univ]; exact_mod_cast h
  have e1 : Spec.chance E = ((univ.filter E).card : ℚ) / Fintype.card A := by unfold Spec.chance; congr 2
  have e2 : (Spec.chance fun a => ¬ E a) = ((univ.filter fun a => ¬ E a).card : ℚ) / Fintype.card A := by
    unfold Spec.chance; congr 2; congr 1; ext a; simp only [mem_filter]
  rw [e1, e2, eq_sub_iff_add_eq, ← add_div, add_comm, h', div_self hA]

/-- The switching lemma. -/
theorem switching [Fintype X] [AddCommGroup X] (next : List (X × X) → X) (q : ℕ) (D : (X → X) → Prop)
    (hD : Spec.Decided next q D) :
    |Spec.chance D - Spec.chance fun π : Equiv.Perm X => D π| ≤ (q * (q - 1) : ℚ) / 2 / Fintype.card X := by
  have one : ∀ D : (X → X) → Prop, Spec.Decided next q D → Spec.chance D ≤ (Spec.chance fun π : Equiv.Perm X => D π) +
      (q * (q - 1) : ℚ) / 2 / Fintype.card X := by
    intro D hD
    refine le_trans (chance_or (E1 := fun f => D f ∧ Set.InjOn f (places next f q))
      (E2 := fun f => ¬ Set.InjOn f (places next f q)) fun f h => ?_) (add_le_add (switch_le next q D hD) (injOn_chance next q))
    by_cases hi : Set.InjOn f (places next f q)
    · exact Or.inl ⟨h, hi⟩
    · exact Or.inr hi
  have h1 := one D hD
  have h2 := one (fun f => ¬ D f) fun f g h => not_congr (hD f g h)
  rw [chance_not, chance_not] at h2
  rw [abs_le]
  constructor <;> linarith

end IceFrost
