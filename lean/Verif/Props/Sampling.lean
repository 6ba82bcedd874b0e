import Verif.Props.RealSuite
import Verif.Props.NonceHash
import Verif.Props.Distribution
import Verif.Model.Sampling
import Mathlib.Data.List.OfFn

/-!
# C170: scalars drawn from uniform bytes are uniform

C139 and the games of C140 to C160 draw uniform scalars. Here the generator is a tape of uniform bytes and scalars are drawn from
it by rejection, as the dependency does. The draws are uniform and independent except if the tape is used up, which a tape with
`k` blocks of 32 bytes per scalar is with a chance of at most `2^(-127 k)` per scalar.
-/

set_option linter.unusedSectionVars false
set_option linter.unusedSimpArgs false
set_option linter.unusedVariables false

namespace IceFrost

open Finset

/-! ### Rejection sampling in general -/

/-- The chance that `k` places of a uniform tape all satisfy a condition. -/
theorem chance_places {B : Type} [Fintype B] [Nonempty B] {N k : ℕ} (place : Fin k → Fin N) (hp : Function.Injective place)
    (P : B → Prop) :
    Spec.chance (fun v : Fin N → B => ∀ j, P (v (place j))) = ((Nat.card {b : B // P b} : ℚ) / Fintype.card B) ^ k := by
  classical
  have hset : (univ.filter fun v : Fin N → B => ∀ j, P (v (place j))) =
      Fintype.piFinset fun x => if x ∈ univ.image place then univ.filter P else univ := by
    ext v
    simp only [mem_filter, mem_univ, true_and, Fintype.mem_piFinset]
    constructor
    · intro h x
      split
      · rename_i hx
        obtain ⟨j, -, rfl⟩ := Finset.mem_image.mp hx
        simpa using h j
      · simp
    · intro h j
      have := h (place j)
      rw [if_pos (Finset.mem_image_of_mem _ (mem_univ j))] at this
      simpa using this
  have hn : (Fintype.card B : ℚ) ≠ 0 := by exact_mod_cast Fintype.card_ne_zero
  have hk : k ≤ N := by simpa using Fintype.card_le_of_injective place hp
  have hcard : (univ.filter fun v : Fin N → B => ∀ j, P (v (place j))).card =
    (univ.filter P).card ^ k * Fintype.card B ^ (N - k) := by
      rw [hset, Fintype.card_piFinset, ← Finset.prod_mul_prod_compl (univ.image place)]
      rw [Finset.prod_congr rfl (g := fun _ => (univ.filter P).card) (fun x hx => by rw [if_pos hx]),
        Finset.prod_congr (s₁ := (univ.image place)ᶜ) rfl (g := fun _ => Fintype.card B)
          (fun x hx => by rw [if_neg (Finset.mem_compl.mp hx)]; rfl),
        Finset.prod_const, Finset.prod_const, Finset.card_compl, Finset.card_image_of_injective _ hp]
      simp
  rw [show Spec.chance (fun v : Fin N → B => ∀ j, P (v (place j))) =
    ((univ.filter fun v : Fin N → B => ∀ j, P (v (place j))).card : ℚ) / Fintype.card (Fin N → B) by
      unfold Spec.chance; congr 2; congr 1; ext v; simp only [mem_filter], hcard]
  rw [show Nat.card {b : B // P b} = (univ.filter P).card by rw [Nat.card_eq_fintype_card, Fintype.card_subtype]]
  rw [Fintype.card_fun, Fintype.card_fin, div_pow]
  push_cast
  rw [show (Fintype.card B : ℚ) ^ N = Fintype.card B ^ k * Fintype.card B ^ (N - k) by rw [← pow_add]; congr 1; omega]
  rw [mul_div_mul_right _ _ (pow_ne_zero _ hn)]

section Rejection
variable {B A : Type} [AddCommGroup A]

/-- Adds `δ` to the scalars of the first accepted blocks. -/
def shiftAccepted (acc : B → Option A) (mk : A → B) : List A → List B → List B
  | [], l => l
  | _ :: _, [] => []
  | d :: δ, b :: l =>
    match acc b with
    | none => b :: shiftAccepted acc mk (d :: δ) l
    | some a => mk (a + d) :: shiftAccepted acc mk δ l

/-- Adds `δ` to the first scalars of a list. -/
def addOn : List A → List A → List A
  | [], l => l
  | _ :: _, [] => []
  | d :: δ, a :: l => (a + d) :: addOn δ l

variable {acc : B → Option A} {mk : A → B} (hmk : ∀ a, acc (mk a) = some a) (hacc : ∀ b a, acc b = some a → b = mk a)

theorem shiftAccepted_length (δ : List A) (l : List B) : (shiftAccepted acc mk δ l).length = l.length := by
  induction l generalizing δ with
  | nil => cases δ <;> rfl
  | cons b l ih =>
    cases δ with
    | nil => rfl
    | cons d δ =>
      unfold shiftAccepted
      split
      · simp [ih]
      · simp [ih]

include hmk in
theorem shiftAccepted_accepted (δ : List A) (l : List B) :
    (shiftAccepted acc mk δ l).filterMap acc = addOn δ (l.filterMap acc) := by
  induction l generalizing δ with
  | nil => cases δ <;> rfl
  | cons b l ih =>
    cases δ with
    | nil => rfl
    | cons d δ =>
      unfold shiftAccepted
      cases h : acc b with
      | none => simp only [List.filterMap_cons, h, ih]
      | some a => simp only [List.filterMap_cons, h, hmk, ih, addOn]

include hmk hacc in
theorem shiftAccepted_neg (δ : List A) (l : List B) :
    shiftAccepted acc mk (δ.map Neg.neg) (shiftAccepted acc mk δ l) = l := by
  induction l generalizing δ with
  | nil => cases δ <;> rfl
  | cons b l ih =>
    cases δ with
    | nil => rfl
    | cons d δ =>
      rw [shiftAccepted]
      cases h : acc b with
      | none =>
        simp only [List.map_cons]
        rw [shiftAccepted, h]
        simp only
        have := ih (d :: δ)
        rw [List.map_cons] at this
        rw [this]
      | some a =>
        simp only [List.map_cons]
        rw [shiftAccepted, hmk]
        simp only [ih, add_neg_cancel_right]
        rw [← hacc b a h]

theorem addOn_getD (δ l : List A) (h : δ.length ≤ l.length) (n : ℕ) (hn : n < δ.length) (x : A) :
    (addOn δ l).getD n x = l.getD n x + δ.getD n x := by
  induction δ generalizing l n with
  | nil => simp at hn
  | cons d δ ih =>
    cases l with
    | nil => simp at h
    | cons a l =>
      cases n with
      | zero => simp [addOn]
      | succ n =>
        simp only [addOn, List.getD_cons_succ]
        exact ih l (by simpa using h) n (by simpa using hn)

/-- The first `m` scalars that a list of blocks yields (0 where there are too few). -/
def drawn (acc : B → Option A) (m : ℕ) (l : List B) (i : Fin m) : A := (l.filterMap acc).getD i 0

/-- The shift of a tape of `N` blocks. -/
def shiftTape (acc : B → Option A) (mk : A → B) {N : ℕ} (δ : List A) (v : Fin N → B) (j : Fin N) : B :=
  (shiftAccepted acc mk δ (List.ofFn v))[j.1]'(by rw [shiftAccepted_length, List.length_ofFn]; exact j.2)

theorem shiftTape_list {N : ℕ} (δ : List A) (v : Fin N → B) :
    List.ofFn (shiftTape acc mk δ v) = shiftAccepted acc mk δ (List.ofFn v) := by
  refine List.ext_getElem (by rw [List.length_ofFn, shiftAccepted_length, List.length_ofFn]) fun n h1 h2 => ?_
  rw [List.getElem_ofFn]
  rfl

/-- The shift is a permutation of the tapes. -/
def shiftEquiv {N : ℕ} (δ : List A) : (Fin N → B) ≃ (Fin N → B) where
  toFun := shiftTape acc mk δ
  invFun := shiftTape acc mk (δ.map Neg.neg)
  left_inv v := by
    apply List.ofFn_injective
    rw [shiftTape_list, shiftTape_list, shiftAccepted_neg hmk hacc]
  right_inv v := by
    apply List.ofFn_injective
    rw [shiftTape_list, shiftTape_list]
    have := shiftAccepted_neg hmk hacc (δ.map Neg.neg) (List.ofFn v)
    rwa [List.map_map, show (Neg.neg ∘ Neg.neg : A → A) = id from funext fun a => neg_neg a, List.map_id] at this

variable [Fintype B] [Nonempty B] [Fintype A]

include hmk hacc in
/-- The scalars drawn from uniform blocks are distributed like uniform scalars, up to the chance that there are too few. -/
theorem rejection (m N : ℕ) (E : (Fin m → A) → Prop) :
    |Spec.chance (fun v : Fin N → B => E (drawn acc m (List.ofFn v))) - Spec.chance E| ≤
      Spec.chance fun v : Fin N → B => ((List.ofFn v).filterMap acc).length < m := by
  classical
  have h1 : Spec.chance (fun v : Fin N → B => E (drawn acc m (List.ofFn v))) =
      Spec.chance fun x : (Fin N → B) × (Fin m → A) => E (drawn acc m (List.ofFn (shiftTape acc mk (List.ofFn x.2) x.1))) := by
    rw [← chance_extra (B := Fin m → A)]
    refine (chance_equiv (A := (Fin N → B) × (Fin m → A)) (B := (Fin N → B) × (Fin m → A))
      ⟨fun x => (shiftEquiv hmk hacc (List.ofFn x.2) x.1, x.2),
        fun x => ((shiftEquiv hmk hacc (List.ofFn x.2)).symm x.1, x.2), fun x => by simp, fun x => by simp⟩
      fun x => E (drawn acc m (List.ofFn x.1))).symm
  have h2 : Spec.chance E =
      Spec.chance fun x : (Fin N → B) × (Fin m → A) => E (drawn acc m (List.ofFn x.1) + x.2) := by
    rw [← chance_extra (B := Fin N → B)]
    refine ((chance_equiv (A := (Fin N → B) × (Fin m → A)) (B := (Fin m → A) × (Fin N → B))
      ⟨fun x => (drawn acc m (List.ofFn x.1) + x.2, x.1), fun y => (y.2, y.1 - drawn acc m (List.ofFn y.2)),
        fun x => by simp, fun y => by simp⟩ fun y => E y.1)).symm
  rw [h1, h2]
  refine le_trans (chance_differ _ _) ?_
  rw [← chance_extra (B := Fin m → A) fun v : Fin N → B => ((List.ofFn v).filterMap acc).length < m]
  refine chance_mono fun x hx => ?_
  by_contra hlt
  apply hx
  rw [not_lt] at hlt
  have : drawn acc m (List.ofFn (shiftTape acc mk (List.ofFn x.2) x.1)) = drawn acc m (List.ofFn x.1) + x.2 := by
    funext i
    unfold drawn
    rw [shiftTape_list, shiftAccepted_accepted hmk, addOn_getD _ _ (by simpa using hlt) _ (by simp)]
    show _ = drawn acc m (List.ofFn x.1) i + x.2 i
    congr 1
    simp [List.getD_eq_getElem?_getD]
  rw [this]

/-- A tape of `m` times `k` blocks that yields fewer than `m` scalars has `k` rejected blocks in one of the `m` parts. -/
theorem too_few (m k : ℕ) :
    Spec.chance (fun v : Fin (m * k) → B => ((List.ofFn v).filterMap acc).length < m) ≤
      m * ((Nat.card {b : B // acc b = none} : ℚ) / Fintype.card B) ^ k := by
  classical
  let place : Fin m → Fin k → Fin (m * k) := fun i j => ⟨i.1 * k + j.1, by
    calc i.1 * k + j.1 < (i.1 + 1) * k := by rw [Nat.add_mul, Nat.one_mul]; omega
      _ ≤ m * k := Nat.mul_le_mul_right k i.2⟩
  have hinj : ∀ i, Function.Injective (place i) := by
    intro i a b h
    have := congrArg Fin.val h
    simp only [place] at this
    exact Fin.ext (by omega)
  have h1 : ∀ v : Fin (m * k) → B, ((List.ofFn v).filterMap acc).length < m → ∃ i : Fin m, ∀ j, acc (v (place i j)) = none := by
    intro v hv
    by_contra hne
    push Not at hne
    rw [List.ofFn_mul, List.filterMap_flatten, List.length_flatten, List.map_map, List.map_ofFn, List.sum_ofFn] at hv
    have : ∑ i : Fin m, 1 ≤ ∑ i : Fin m, ((List.length ∘ List.filterMap acc) ∘ fun i => List.ofFn fun j => v (place i j)) i := by
      refine Finset.sum_le_sum fun i _ => ?_
      obtain ⟨j, hj⟩ := hne i
      obtain ⟨a, ha⟩ := Option.ne_none_iff_exists'.mp hj
      simp only [Function.comp]
      refine List.length_pos_of_mem (a := a) (List.mem_filterMap.mpr ⟨v (place i j), ?_, ha⟩)
      exact (List.mem_ofFn' _ _).mpr ⟨j, rfl⟩
    simp only [Finset.sum_const, Finset.card_univ, Fintype.card_fin, smul_eq_mul, mul_one] at this
    exact absurd hv (not_lt.mpr this)
  refine le_trans (chance_mono h1) (le_trans (chance_exists _) ?_)
  rw [show (m : ℚ) * ((Nat.card {b : B // acc b = none} : ℚ) / Fintype.card B) ^ k =
    ∑ _i : Fin m, ((Nat.card {b : B // acc b = none} : ℚ) / Fintype.card B) ^ k by simp]
  refine Finset.sum_le_sum fun i _ => ?_
  exact le_of_eq (chance_places (place i) (hinj i) fun b => acc b = none)

end Rejection

/-! ### The scalars drawn by the crate -/

/-- A tape of `N` bytes. -/
def Spec.byteTape {N : ℕ} (v : Fin N → Fin 256) : Bytes := List.ofFn fun j => UInt8.ofFin (v j)

/-- The tape in blocks. -/
def blocks (a b : ℕ) (X : Type) : (Fin (a * b) → X) ≃ (Fin a → Fin b → X) :=
  (Equiv.arrowCongr (finProdFinEquiv (m := a) (n := b)).symm (Equiv.refl X)).trans (Equiv.curry (Fin a) (Fin b) X)

theorem blocks_apply {a b : ℕ} {X : Type} (f : Fin (a * b) → X) (i : Fin a) (j : Fin b) :
    blocks a b X f i j = f ⟨i.1 * b + j.1, by
      calc i.1 * b + j.1 < (i.1 + 1) * b := by rw [Nat.add_mul, Nat.one_mul]; omega
        _ ≤ a * b := Nat.mul_le_mul_right b i.2⟩ := by
  show f (finProdFinEquiv (i, j)) = _
  congr 1
  exact Fin.ext (by simp only [finProdFinEquiv_apply_val]; rw [Nat.mul_comm, Nat.add_comm])

theorem byteTape_blocks {a b : ℕ} (v : Fin (a * b) → Fin 256) :
    Spec.byteTape v = (List.ofFn (blocks a b (Fin 256) v)).flatMap Spec.byteTape := by
  unfold Spec.byteTape
  rw [List.ofFn_mul, List.flatMap_def, List.map_ofFn]
  congr 2
  funext i
  simp only [Function.comp]
  congr 1
  funext j
  rw [blocks_apply]

theorem byteTape_length {N : ℕ} (v : Fin N → Fin 256) : (Spec.byteTape v).length = N := List.length_ofFn

theorem byteTape_injective {N : ℕ} : Function.Injective (Spec.byteTape (N := N)) := by
  intro c c' h
  unfold Spec.byteTape at h
  have := List.ofFn_injective h
  funext k
  have h2 := congrFun this k
  simpa using congrArg UInt8.toFin h2

/-- The scalar in a block of 32 bytes, if it is not rejected. -/
def accepted (p : ℕ) (c : Fin 32 → Fin 256) : Option (ZMod p) :=
  if leNat (Spec.byteTape c) < p then some ((leNat (Spec.byteTape c) : ZMod p) * ((2 ^ 256 : ℕ) : ZMod p)⁻¹) else none

theorem exists_block (n : ℕ) (hn : n < 2 ^ 256) : ∃ c : Fin 32 → Fin 256, leNat (Spec.byteTape c) = n := by
  have hlen : (leBytes 32 n).length = 32 := leBytes_length _ _
  refine ⟨fun j => ((leBytes 32 n)[j.1]'(by rw [hlen]; exact j.2)).toFin, ?_⟩
  have : Spec.byteTape (fun j : Fin 32 => ((leBytes 32 n)[j.1]'(by rw [hlen]; exact j.2)).toFin) = leBytes 32 n := by
    refine List.ext_getElem (by rw [byteTape_length, hlen]) fun k h1 h2 => ?_
    simp only [Spec.byteTape, List.getElem_ofFn]
    rfl
  rw [this, leNat_leBytes, Nat.mod_eq_of_lt (by rw [show (256 : ℕ) ^ 32 = 2 ^ 256 by norm_num]; exact hn)]

section Draws
variable {p : ℕ} [Fact p.Prime]

/-- The block in which a scalar is found. -/
noncomputable def blockOf (hp : p < 2 ^ 256) (a : ZMod p) : Fin 32 → Fin 256 :=
  (exists_block (a * ((2 ^ 256 : ℕ) : ZMod p)).val (lt_trans (ZMod.val_lt _) hp)).choose

theorem blockOf_nat (hp : p < 2 ^ 256) (a : ZMod p) :
    leNat (Spec.byteTape (blockOf hp a)) = (a * ((2 ^ 256 : ℕ) : ZMod p)).val :=
  (exists_block (a * ((2 ^ 256 : ℕ) : ZMod p)).val (lt_trans (ZMod.val_lt _) hp)).choose_spec

theorem montgomery_ne (h2 : p ≠ 2) : ((2 ^ 256 : ℕ) : ZMod p) ≠ 0 := by
  rw [Ne, ZMod.natCast_eq_zero_iff]
  intro h
  exact h2 ((Nat.prime_dvd_prime_iff_eq Fact.out Nat.prime_two).mp ((Fact.out : p.Prime).dvd_of_dvd_pow h))

theorem accepted_blockOf (h2 : p ≠ 2) (hp : p < 2 ^ 256) (a : ZMod p) : accepted p (blockOf hp a) = some a := by
  unfold accepted
  rw [blockOf_nat, if_pos (ZMod.val_lt _), ZMod.natCast_zmod_val, mul_inv_cancel_right₀ (montgomery_ne h2)]

theorem blockOf_accepted (h2 : p ≠ 2) (hp : p < 2 ^ 256) (c : Fin 32 → Fin 256) (a : ZMod p) (h : accepted p c = some a) :
    c = blockOf hp a := by
  unfold accepted at h
  split at h
  · rename_i hlt
    rw [Option.some.injEq] at h
    apply byteTape_injective
    have e1 := leBytes_leNat (Spec.byteTape c)
    have e2 := leBytes_leNat (Spec.byteTape (blockOf hp a))
    rw [byteTape_length] at e1 e2
    rw [← e1, ← e2, blockOf_nat, ← h, inv_mul_cancel_right₀ (montgomery_ne h2), ZMod.val_natCast, Nat.mod_eq_of_lt hlt]
  · cases h

theorem rejected_le (h2 : p ≠ 2) (hp : p < 2 ^ 256) :
    (Nat.card {c : Fin 32 → Fin 256 // accepted p c = none} : ℚ) / Fintype.card (Fin 32 → Fin 256) ≤ (2 ^ 256 - p) / 2 ^ 256 := by
  classical
  have hcard : Fintype.card (Fin 32 → Fin 256) = 2 ^ 256 := by
    rw [Fintype.card_fun, Fintype.card_fin, Fintype.card_fin]; norm_num
  have h1 := Fintype.card_subtype_compl fun c : Fin 32 → Fin 256 => accepted p c = none
  have h3 : p ≤ Fintype.card {c : Fin 32 → Fin 256 // ¬ accepted p c = none} := by
    have := Fintype.card_le_of_injective (α := ZMod p) (β := {c : Fin 32 → Fin 256 // ¬ accepted p c = none})
      (fun a => ⟨blockOf hp a, by rw [accepted_blockOf h2 hp]; simp⟩) (fun a b h => by
        have := congrArg (fun c => accepted p c.1) h
        simpa [accepted_blockOf h2 hp] using this)
    rwa [ZMod.card] at this
  have h4 : Fintype.card {c : Fin 32 → Fin 256 // accepted p c = none} ≤ 2 ^ 256 :=
    hcard ▸ Fintype.card_subtype_le _
  rw [hcard] at h1 ⊢
  rw [Nat.card_eq_fintype_card]
  push_cast
  refine div_le_div_of_nonneg_right ?_ (by positivity)
  have : Fintype.card {c : Fin 32 → Fin 256 // accepted p c = none} + p ≤ 2 ^ 256 := by omega
  rw [le_sub_iff_add_le]
  exact_mod_cast this

theorem drawScalar_block (c : Fin 32 → Fin 256) (rest : Bytes) :
    drawScalar p (Spec.byteTape c ++ rest) = match accepted p c with
      | some a => (a, rest)
      | none => drawScalar p rest := by
  have hl := byteTape_length c
  rw [drawScalar, dif_neg (by rw [List.length_append, hl]; omega), List.take_left' hl, List.drop_left' hl]
  unfold accepted
  split <;> rfl

theorem drawScalar_nil : drawScalar p [] = (0, []) := by rw [drawScalar, dif_pos (by simp)]

variable {G : Type} [AddCommGroup G] [Module (ZMod p) G] [DecidableEq G]

/-- The scalars drawn from a tape are those of its accepted blocks. -/
theorem scalars_of_blocks (S : Suite (ZMod p) G Bytes) (hS : S.randScalar = drawScalar p) (l : List (Fin 32 → Fin 256)) (n : ℕ) :
    Spec.scalar S (l.flatMap Spec.byteTape) n = (l.filterMap (accepted p)).getD n 0 := by
  induction l generalizing n with
  | nil =>
    have : ∀ n, Spec.afterScalars S ([] : Bytes) n = [] := by
      intro n
      induction n with
      | zero => rfl
      | succ n ih => rw [afterScalars_succ, ih, hS, drawScalar_nil]
    unfold Spec.scalar
    rw [List.flatMap_nil, this, hS, drawScalar_nil]
    simp
  | cons c l ih =>
    have hd := drawScalar_block (p := p) c (l.flatMap Spec.byteTape)
    rw [List.flatMap_cons, List.filterMap_cons]
    cases h : accepted p c with
    | none =>
      rw [h] at hd
      simp only at hd ⊢
      rw [← ih]
      cases n with
      | zero => show (S.randScalar _).1 = (S.randScalar _).1; rw [hS]; exact congrArg Prod.fst hd
      | succ n =>
        rw [Nat.add_comm, ← scalar_add, ← scalar_add]
        congr 1
        show (S.randScalar _).2 = (S.randScalar _).2
        rw [hS]
        exact congrArg Prod.snd hd
    | some a =>
      rw [h] at hd
      simp only at hd ⊢
      cases n with
      | zero =>
        show (S.randScalar _).1 = _
        rw [hS]
        exact congrArg Prod.fst hd
      | succ n =>
        rw [List.getD_cons_succ, ← ih, Nat.add_comm, ← scalar_add]
        congr 1
        show (S.randScalar _).2 = _
        rw [hS, hd]

/-- C170: the first `m` scalars drawn from `32 m k` uniform bytes are distributed like `m` independent uniform scalars, up to `m`
times the `k`-th power of the chance that 32 bytes are rejected. -/
theorem C170_scalars (h2 : p ≠ 2) (hp : p < 2 ^ 256) (S : Suite (ZMod p) G Bytes) (hS : S.randScalar = drawScalar p) (m k : ℕ)
    (E : (Fin m → ZMod p) → Prop) :
    |Spec.chance (fun v : Fin (m * k * 32) → Fin 256 => E fun i => Spec.scalar S (Spec.byteTape v) i) - Spec.chance E| ≤
      m * ((2 ^ 256 - p) / 2 ^ 256) ^ k := by
  have h1 := chance_equiv (blocks (m * k) 32 (Fin 256)) fun w => E (drawn (accepted p) m (List.ofFn w))
  have h3 : Spec.chance (fun v : Fin (m * k * 32) → Fin 256 => E fun i => Spec.scalar S (Spec.byteTape v) i) =
      Spec.chance fun w : Fin (m * k) → Fin 32 → Fin 256 => E (drawn (accepted p) m (List.ofFn w)) := by
    rw [← h1]
    refine chance_congr fun v => iff_of_eq (congrArg E ?_)
    funext i
    rw [byteTape_blocks, scalars_of_blocks S hS]
    rfl
  rw [h3]
  refine le_trans (rejection (accepted_blockOf h2 hp) (blockOf_accepted h2 hp) m (m * k) E) ?_
  refine le_trans (too_few m k) (mul_le_mul_of_nonneg_left (pow_le_pow_left₀ (by positivity) (rejected_le h2 hp) k) (by positivity))

end Draws

/-! ### Participants made from bytes -/

section Participants
variable {F G R : Type} [Field F] [DecidableEq F] [AddCommGroup G] [Module F G] [DecidableEq G]

/-- The suite `S` with a generator that is a sequence of scalars (as in C139). -/
def Spec.overScalars (S : Suite F G R) : Suite F G (ℕ → F) :=
  { gen := S.gen, contextString := S.contextString, fieldHash := S.fieldHash, sha256FieldHash := S.sha256FieldHash,
    digest := S.digest, hashLen := S.hashLen, encG := S.encG, decG := S.decG, sizeG := S.sizeG, encF := S.encF, decF := S.decF,
    sizeF := S.sizeF, kdf := S.kdf, nonceSize := S.nonceSize, aeadEnc := S.aeadEnc, aeadDec := S.aeadDec,
    randScalar := fun ρ => (ρ 0, fun n => ρ (n + 1)), randBytes := fun k ρ => (List.replicate k 0, ρ) }

/-- The proof of knowledge made with the nonce `k`. -/
def proofFrom (S : Suite F G R) (i : U32) (x k : F) (pk : G) : Nizk F :=
  ⟨S.h0 (nizkMessage S i pk (k • S.gen)), k + x * S.h0 (nizkMessage S i pk (k • S.gen))⟩

/-- The dealer made from the scalars `f`. -/
def dealerFrom (S : Suite F G R) (params : Params) (i : U32) (f : ℕ → F) : Res F G (Participant F G × List F × F) :=
  if i = 0 then .error (.err .indexIsZero) else
    match commitLoop S (f 2 :: (List.range (params.t.toNat - 1)).map fun k => f (3 + k)) 0 params.t.toNat with
    | .error e => .error e
    | .ok points =>
      match (VssCommitment.mk i points).publicKey with
      | none => .error (.panic .expectNone)
      | some pk => .ok (⟨i, f 0 • S.gen, some ⟨i, points⟩, some (proofFrom S i (f 2) (f (3 + (params.t.toNat - 1))) pk),
          proofFrom S i (f 0) (f 1) (f 0 • S.gen)⟩, f 2 :: (List.range (params.t.toNat - 1)).map (fun k => f (3 + k)), f 0)

theorem newDealer_scalars (S : Suite F G R) (params : Params) (i : U32) (rng : R) :
    newDealer S params i rng = dealerFrom S params i (Spec.scalar S rng) := by
  unfold newDealer dealerFrom
  rw [newInternal_dealer_eq]
  by_cases hi : i = 0
  · rw [if_pos hi, if_pos hi]
  rw [if_neg hi, if_neg hi]
  have hn : ∀ k x pk, nizkProve S i x pk (Spec.afterScalars S rng k) =
      (proofFrom S i x (Spec.scalar S rng k) pk, Spec.afterScalars S rng (k + 1)) := fun k x pk =>
    Prod.ext rfl (afterScalars_succ S rng k).symm
  have h1 : S.randScalar rng = (Spec.scalar S rng 0, Spec.afterScalars S rng 1) := rfl
  have h3 : firstCoeff S none (Spec.afterScalars S rng (1 + 1)) = (Spec.scalar S rng 2, Spec.afterScalars S rng 3) :=
    Prod.ext rfl (afterScalars_succ S rng 2).symm
  have h4 : (List.range (params.t.toNat - 1)).map (Spec.scalar S (Spec.afterScalars S rng 3)) =
      (List.range (params.t.toNat - 1)).map fun k => Spec.scalar S rng (3 + k) :=
    List.map_congr_left fun k _ => scalar_add S rng _ _
  simp only [h1, hn, h3, randScalars_fresh, h4, afterScalars_add]
  cases commitLoop S (Spec.scalar S rng 2 :: (List.range (params.t.toNat - 1)).map fun k => Spec.scalar S rng (3 + k)) 0
    params.t.toNat with
  | error e => rfl
  | ok points =>
    simp only
    cases (VssCommitment.mk i points).publicKey with
    | none => rfl
    | some pk => rfl

theorem commitLoop_over (S : Suite F G R) (cs : List F) (j k : ℕ) :
    commitLoop (Spec.overScalars S) cs j k = commitLoop S cs j k := by
  induction k generalizing j with
  | zero => rfl
  | succ k ih => unfold commitLoop; rw [ih]; rfl

theorem dealerFrom_over (S : Suite F G R) (params : Params) (i : U32) (f : ℕ → F) :
    dealerFrom (Spec.overScalars S) params i f = dealerFrom S params i f := by
  unfold dealerFrom
  rw [commitLoop_over]
  rfl

theorem dealerFrom_congr (S : Suite F G R) (params : Params) (i : U32) (f g : ℕ → F) (h : ∀ n < params.t.toNat + 3, f n = g n) :
    dealerFrom S params i f = dealerFrom S params i g := by
  by_cases ht : params.t.toNat = 0
  · unfold dealerFrom
    rw [ht]
    simp only [commitLoop, VssCommitment.publicKey, List.head?_nil]
  have hm : (List.range (params.t.toNat - 1)).map (fun k => f (3 + k)) = (List.range (params.t.toNat - 1)).map fun k => g (3 + k) :=
    List.map_congr_left fun k hk => h _ (by have := List.mem_range.mp hk; omega)
  unfold dealerFrom
  rw [hm, h 0 (by omega), h 1 (by omega), h 2 (by omega), h (3 + (params.t.toNat - 1)) (by omega)]

end Participants

section DealersFromBytes
variable {p : ℕ} [Fact p.Prime] {G : Type} [AddCommGroup G] [Module (ZMod p) G] [DecidableEq G]

/-- C170: what `new_dealer` makes from uniform bytes is distributed as what it makes from uniform scalars, as C139 assumes. -/
theorem C170_dealer (h2 : p ≠ 2) (hp : p < 2 ^ 256) (S : Suite (ZMod p) G Bytes) (hS : S.randScalar = drawScalar p)
    (params : Params) (i : U32) (k : ℕ) (E : Res (ZMod p) G (Participant (ZMod p) G × List (ZMod p) × ZMod p) → Prop) :
    |Spec.chance (fun v : Fin ((params.t.toNat + 3) * k * 32) → Fin 256 => E (newDealer S params i (Spec.byteTape v))) -
      Spec.chance (fun u : Fin (params.t.toNat + 3) → ZMod p => E (newDealer (Spec.overScalars S) params i (Spec.tape u)))| ≤
      (params.t.toNat + 3) * ((2 ^ 256 - p) / 2 ^ 256) ^ k := by
  have h := C170_scalars h2 hp S hS (params.t.toNat + 3) k fun u => E (newDealer (Spec.overScalars S) params i (Spec.tape u))
  have e : ∀ v : Fin ((params.t.toNat + 3) * k * 32) → Fin 256,
      newDealer (Spec.overScalars S) params i (Spec.tape fun n : Fin (params.t.toNat + 3) => Spec.scalar S (Spec.byteTape v) n) =
        newDealer S params i (Spec.byteTape v) := by
    intro v
    rw [newDealer_scalars, newDealer_scalars, dealerFrom_over]
    refine dealerFrom_congr S params i _ _ fun n hn => ?_
    rw [scalar_tape _ (fun _ => rfl)]
    unfold Spec.tape
    rw [dif_pos hn]
  simp only [e] at h
  push_cast at h
  exact h

/-- C170: the same for `new_signer`, which draws two scalars. -/
theorem C170_signer (h2 : p ≠ 2) (hp : p < 2 ^ 256) (S : Suite (ZMod p) G Bytes) (hS : S.randScalar = drawScalar p)
    (params : Params) (i : U32) (k : ℕ) (E : Res (ZMod p) G (Participant (ZMod p) G × ZMod p) → Prop) :
    |Spec.chance (fun v : Fin (2 * k * 32) → Fin 256 => E (newSigner S params i (Spec.byteTape v))) -
      Spec.chance (fun u : Fin 2 → ZMod p => E (newSigner (Spec.overScalars S) params i (Spec.tape u)))| ≤
      2 * ((2 ^ 256 - p) / 2 ^ 256) ^ k := by
  have h := C170_scalars h2 hp S hS 2 k fun u => E (newSigner (Spec.overScalars S) params i (Spec.tape u))
  have e : ∀ v : Fin (2 * k * 32) → Fin 256,
      newSigner (Spec.overScalars S) params i (Spec.tape fun n : Fin 2 => Spec.scalar S (Spec.byteTape v) n) =
        newSigner S params i (Spec.byteTape v) := by
    intro v
    unfold newSigner newInternal
    by_cases hi : i = 0
    · simp only [if_pos hi]
    · simp only [if_neg hi]
      rfl
  simp only [e] at h
  push_cast at h
  exact h

/-- C170: the same for a complaint, which draws one scalar. -/
theorem C170_complaint (h2 : p ≠ 2) (hp : p < 2 ^ 256) (S : Suite (ZMod p) G Bytes) (hS : S.randScalar = drawScalar p)
    (accused : G) (dh : ZMod p) (shared : G) (e : EncShare) (k : ℕ) (E : Complaint (ZMod p) G → Prop) :
    |Spec.chance (fun v : Fin (1 * k * 32) → Fin 256 => E (Complaint.new S accused dh shared e (Spec.byteTape v)).1) -
      Spec.chance (fun u : Fin 1 → ZMod p => E (Complaint.new (Spec.overScalars S) accused dh shared e (Spec.tape u)).1)| ≤
      ((2 ^ 256 - p) / 2 ^ 256) ^ k := by
  have h := C170_scalars h2 hp S hS 1 k fun u => E (Complaint.new (Spec.overScalars S) accused dh shared e (Spec.tape u)).1
  refine le_trans (le_of_eq ?_) (le_trans h (le_of_eq (by rw [Nat.cast_one, one_mul])))
  rfl

end DealersFromBytes

/-! ### Guessing the secret of a dealer -/

theorem chance_measure {A : Type} [Fintype A] [Nonempty A] (E : A → Prop) (q : ℕ)
    (h : (PMF.uniformOfFintype A).toOuterMeasure {a | E a} = (q : ENNReal)⁻¹) : Spec.chance E = 1 / q := by
  classical
  rw [PMF.toOuterMeasure_uniformOfFintype_apply] at h
  have h1 := congrArg ENNReal.toReal h
  rw [ENNReal.toReal_div, ENNReal.toReal_natCast, ENNReal.toReal_natCast, ENNReal.toReal_inv, ENNReal.toReal_natCast] at h1
  have hc : (univ.filter E).card = Fintype.card {a | E a} := (Fintype.card_subtype E).symm
  unfold Spec.chance
  have : (((univ.filter E).card : ℚ) / Fintype.card A : ℚ) = 1 / q := by
    rw [hc, one_div]
    have h2 : (((Fintype.card {a | E a} : ℚ) / Fintype.card A : ℚ) : ℝ) = ((q : ℚ)⁻¹ : ℚ) := by push_cast; exact h1
    exact_mod_cast h2
  convert this

section Guess
variable {p : ℕ} [Fact p.Prime] {G : Type} [AddCommGroup G] [Module (ZMod p) G] [DecidableEq G]

/-- C170: whoever holds fewer than `t` shares of a dealer who draws from uniform bytes guesses its secret with a chance of at most
`1 / p`, up to the same error. -/
theorem C170_guess_secret (hu : Suite.U32Inj (ZMod p)) (h2 : p ≠ 2) (hp : p < 2 ^ 256) (S : Suite (ZMod p) G Bytes)
    (hS : S.randScalar = drawScalar p) (params : Params) (ht : params.t ≠ 0) (i : U32) (hi : i ≠ 0) (k : ℕ)
    (J : List U32) (hJ : J.Nodup) (h0 : 0 ∉ J) (hlt : J.length < params.t.toNat) (A : ({j // j ∈ J} → ZMod p) → ZMod p) :
    Spec.chance (fun v : Fin ((params.t.toNat + 3) * k * 32) → Fin 256 =>
      let cs := Spec.coefficientsOf (newDealer S params i (Spec.byteTape v))
      A (fun j => (evaluatePolynomial i j.1 cs).eval) = cs.headD 0) ≤
      1 / p + (params.t.toNat + 3) * ((2 ^ 256 - p) / 2 ^ 256) ^ k := by
  have h := C170_dealer h2 hp S hS params i k fun r =>
    A (fun j => (evaluatePolynomial i j.1 (Spec.coefficientsOf r)).eval) = (Spec.coefficientsOf r).headD 0
  have hm := C139_guess_secret hu (Spec.overScalars S) (fun _ => rfl) params ht i hi (N := params.t.toNat + 3) (by omega) J hJ h0
    hlt A
  rw [ZMod.card] at hm
  rw [chance_measure _ p hm] at h
  have := (abs_le.mp h).2
  simp only at this ⊢
  linarith

end Guess

/-! ### The bytes drawn by the crate -/

/-- C170: the strings of `L` bytes drawn from uniform bytes are uniform and independent. -/
theorem C170_bytes {F G : Type} (S : Suite F G Bytes) (hS : S.randBytes = drawBytes) (c L : ℕ) (E : (Fin c → Bytes) → Prop) :
    Spec.chance (fun v : Fin (c * L) → Fin 256 =>
      E fun i => (S.randBytes L ((fun r => (S.randBytes L r).2)^[i.1] (Spec.byteTape v))).1) =
      Spec.chance fun w : Fin c → Fin L → Fin 256 => E fun i => Spec.byteTape (w i) := by
  rw [← chance_equiv (blocks c L (Fin 256)) fun w => E fun i => Spec.byteTape (w i)]
  refine chance_congr fun v => iff_of_eq (congrArg E ?_)
  funext i
  rw [hS, byteTape_blocks]
  have key : ∀ (l : List (Fin L → Fin 256)) (n : ℕ) (hn : n < l.length),
      (drawBytes L ((fun r => (drawBytes L r).2)^[n] (l.flatMap Spec.byteTape))).1 = Spec.byteTape l[n] := by
    intro l
    induction l with
    | nil => intro n hn; simp at hn
    | cons b l ih =>
      intro n hn
      have hl := byteTape_length b
      have hd : drawBytes L (Spec.byteTape b ++ l.flatMap Spec.byteTape) = (Spec.byteTape b, l.flatMap Spec.byteTape) := by
        unfold drawBytes
        rw [List.take_left' hl, List.drop_left' hl, List.length_append, hl]
        simp
      rw [List.flatMap_cons]
      cases n with
      | zero => rw [Function.iterate_zero_apply, hd]; rfl
      | succ n =>
        rw [Function.iterate_succ_apply, hd, List.getElem_cons_succ]
        exact ih n (by simpa using hn)
  rw [key _ i.1 (by rw [List.length_ofFn]; exact i.2), List.getElem_ofFn]

/-! ### The shipped suite -/

namespace Secp

/-- Random numbers from a tape of bytes. -/
def byteSource : Source Bytes where
  scalar := drawScalar Cases.secp256k1Order
  bytes := drawBytes
  bytes_length k bs := by
    show (bs.take k ++ List.replicate (k - bs.length) 0).length = k
    rw [List.length_append, List.length_take, List.length_replicate]
    omega

end Secp

theorem close_instances {A B : Type} [Fintype A] (E : A → Prop) (E' : B → Prop) (i j : Fintype B) :
    |Spec.chance E - @Spec.chance B i E'| ≤ |Spec.chance E - @Spec.chance B j E'| := by
  rw [Subsingleton.elim i j]

/-- C170: with the shipped suite the error is below `2^(-127 k)` per scalar: with 128 bytes (`k = 4`) per scalar it is below
`2^-508`. -/
theorem C170_real (m k : ℕ) (E : (Fin m → Secp.Fn) → Prop) [Fintype Secp.Fn] :
    |Spec.chance (fun v : Fin (m * k * 32) → Fin 256 => E fun i => Spec.scalar (Secp.realSuite Secp.byteSource) (Spec.byteTape v) i) -
      Spec.chance E| ≤ m * (1 / 2 ^ 127) ^ k := by
  have h := C170_scalars (p := Cases.secp256k1Order) (by norm_num [Cases.secp256k1Order]) (by norm_num [Cases.secp256k1Order])
    (Secp.realSuite Secp.byteSource) rfl m k E
  have he : ((2 : ℚ) ^ 256 - (Cases.secp256k1Order : ℕ)) / 2 ^ 256 ≤ 1 / 2 ^ 127 := by norm_num [Cases.secp256k1Order]
  have h0 : (0 : ℚ) ≤ ((2 : ℚ) ^ 256 - (Cases.secp256k1Order : ℕ)) / 2 ^ 256 := by norm_num [Cases.secp256k1Order]
  refine le_trans ?_ (le_trans h (mul_le_mul_of_nonneg_left (pow_le_pow_left₀ h0 he k) (Nat.cast_nonneg m)))
  exact close_instances _ E _ _

/-- The hypotheses hold for the shipped suite: of a dealer with threshold 3 who draws six scalars from 768 bytes, two shareholders
guess the secret with a chance of at most `1 / n + 6 · 2^-508`. -/
example (A : ({j // j ∈ [(1 : U32), 2]} → Secp.Fn) → Secp.Fn) :
    Spec.chance (fun v : Fin ((3 + 3) * 4 * 32) → Fin 256 =>
      let cs := Spec.coefficientsOf (newDealer (Secp.realSuite Secp.byteSource) ⟨5, 3⟩ 1 (Spec.byteTape v))
      A (fun j => (evaluatePolynomial 1 j.1 cs).eval) = cs.headD 0) ≤
      1 / (Cases.secp256k1Order : ℕ) + 6 * (1 / 2 ^ 127) ^ 4 := by
  refine le_trans (C170_guess_secret (p := Cases.secp256k1Order) (C163_lawful Secp.byteSource).1.u32
    (by norm_num [Cases.secp256k1Order]) (by norm_num [Cases.secp256k1Order]) (Secp.realSuite Secp.byteSource) rfl ⟨5, 3⟩
    (by decide) 1 (by decide) 4 [1, 2] (by decide) (by decide) (by decide) A) ?_
  rw [show (UInt32.toNat 3 : ℚ) = 3 by exact_mod_cast (by decide : UInt32.toNat 3 = 3)]
  norm_num [Cases.secp256k1Order]

/-- 32 bytes 255 are rejected, and the scalar is taken from the next 32 bytes. -/
example : drawScalar 11 (List.replicate 32 255 ++ leBytes 32 5 ++ [1, 2]) = (5 * ((2 ^ 256 : ℕ) : ZMod 11)⁻¹, [1, 2]) := by
  rw [drawScalar, dif_neg (by decide), if_neg (by decide +kernel), drawScalar, dif_neg (by decide), if_pos (by decide +kernel)]
  refine Prod.ext ?_ (by decide +kernel)
  have h : leNat (((List.replicate 32 255 ++ leBytes 32 5 ++ [1, 2] : Bytes).drop 32).take 32) = 5 := by decide +kernel
  simp only [h]
  rfl

end IceFrost
