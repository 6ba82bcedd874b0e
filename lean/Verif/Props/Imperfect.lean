import Verif.Props.Sampling
import Verif.Props.HashBias
import Verif.Props.Dealings

/-! # C172: forging when no random number is exactly uniform

C143, C145 and C160 draw the polynomial of the honest dealer, the nonces of the honest signers and the answers of the hash
functions as uniform scalars. In the code the coefficients are drawn from bytes by rejection (C170), and nonces and answers are
48 bytes reduced modulo the order (C164, C168). Here both are put into the game. -/

set_option linter.unusedSectionVars false
set_option linter.unusedVariables false

namespace IceFrost

open Finset

/-! ### Sources of random values -/

/-- What `f` makes of a uniform element of `A` is uniform on `B`, up to a change of `δ` in the chance of any event. -/
def Spec.Near {A B : Type} [Fintype A] [Fintype B] (f : A → B) (δ : ℚ) : Prop :=
  ∀ E : B → Prop, |Spec.chance (fun a => E (f a)) - Spec.chance E| ≤ δ

section
variable {A B C D : Type} [Fintype A] [Fintype B] [Fintype C] [Fintype D] [Nonempty A] [Nonempty B] [Nonempty C] [Nonempty D]

theorem near_id : Spec.Near (id : A → A) 0 := fun E => by
  show |Spec.chance E - Spec.chance E| ≤ 0
  rw [sub_self, abs_zero]

/-- If the chances differ by at most `δ` for every value of a further random choice, they do so on the whole. -/
theorem near_average (E : A × B → Prop) (E' : A × C → Prop) (δ : ℚ)
    (h : ∀ a, |Spec.chance (fun b => E (a, b)) - Spec.chance (fun c => E' (a, c))| ≤ δ) :
    |Spec.chance E - Spec.chance E'| ≤ δ := by
  rw [chance_prod, chance_prod E', ← sub_div, ← Finset.sum_sub_distrib, abs_div, abs_of_pos
    (show (0 : ℚ) < Fintype.card A by exact_mod_cast Fintype.card_pos), div_le_iff₀ (by exact_mod_cast Fintype.card_pos)]
  refine le_trans (Finset.abs_sum_le_sum_abs _ _) ?_
  refine le_trans (Finset.sum_le_sum fun a _ => h a) ?_
  rw [Finset.sum_const, Finset.card_univ, nsmul_eq_mul, mul_comm]

/-- Two independent sources. -/
theorem near_prod {f : A → B} {g : C → D} {δ δ' : ℚ} (hf : Spec.Near f δ) (hg : Spec.Near g δ') :
    Spec.Near (fun x : A × C => (f x.1, g x.2)) (δ + δ') := by
  intro E
  have h1 : |Spec.chance (fun x : A × C => E (f x.1, g x.2)) - Spec.chance (fun x : A × D => E (f x.1, x.2))| ≤ δ' :=
    near_average _ _ _ fun a => hg fun d => E (f a, d)
  have h2 : |Spec.chance (fun x : D × A => E (f x.2, x.1)) - Spec.chance (fun x : D × B => E (x.2, x.1))| ≤ δ :=
    near_average _ _ _ fun d => hf fun b => E (b, d)
  have e1 : Spec.chance (fun x : D × A => E (f x.2, x.1)) = Spec.chance (fun x : A × D => E (f x.1, x.2)) :=
    chance_equiv (Equiv.prodComm D A) fun x : A × D => E (f x.1, x.2)
  have e2 : Spec.chance (fun x : D × B => E (x.2, x.1)) = Spec.chance E :=
    chance_equiv (Equiv.prodComm D B) E
  rw [e1, e2] at h2
  have h3 := abs_sub_le (Spec.chance (fun x : A × C => E (f x.1, g x.2))) (Spec.chance (fun x : A × D => E (f x.1, x.2)))
    (Spec.chance E)
  linarith

/-- Sources can be renamed. -/
theorem near_equiv {f : A → B} {δ : ℚ} (φ : C ≃ A) (ψ : B ≃ D) (h : Spec.Near f δ) : Spec.Near (fun c => ψ (f (φ c))) δ := by
  intro E
  have h1 := h fun b => E (ψ b)
  rw [chance_equiv ψ E] at h1
  rwa [chance_equiv φ fun a => E (ψ (f a))]

/-- Any finite number of values from one source. -/
theorem near_many {f : A → B} {δ : ℚ} (h : Spec.Near f δ) (N : ℕ) : Spec.Near (fun (c : Fin N → A) k => f (c k)) (N * δ) := by
  induction N with
  | zero =>
    intro E
    rw [chance_unit (fun c : Fin 0 → A => E fun k => f (c k)) Fin.elim0 (fun a => funext fun k => k.elim0),
      chance_unit E Fin.elim0 (fun a => funext fun k => k.elim0)]
    have : (fun k => f ((Fin.elim0 : Fin 0 → A) k)) = Fin.elim0 := funext fun k => k.elim0
    rw [this, sub_self, abs_zero, Nat.cast_zero, zero_mul]
  | succ N ih =>
    have h2 := near_equiv (Fin.consEquiv fun _ : Fin (N + 1) => A).symm (Fin.consEquiv fun _ : Fin (N + 1) => B) (near_prod h ih)
    have e : (fun (c : Fin (N + 1) → A) k => f (c k)) = fun c => (Fin.consEquiv fun _ : Fin (N + 1) => B)
        (f ((Fin.consEquiv fun _ : Fin (N + 1) => A).symm c).1, fun k => f (((Fin.consEquiv fun _ : Fin (N + 1) => A).symm c).2 k)) := by
      funext c k
      refine Fin.cases ?_ (fun k => ?_) k <;> rfl
    have e2 : ((N + 1 : ℕ) : ℚ) * δ = δ + N * δ := by
      push_cast
      ring
    rw [e, e2]
    exact h2

/-- The same for values that are named by the elements of any finite type. -/
theorem near_family {ι : Type} [Fintype ι] [DecidableEq ι] {f : A → B} {δ : ℚ} (h : Spec.Near f δ) :
    Spec.Near (fun (c : ι → A) k => f (c k)) (Fintype.card ι * δ) := by
  have e := Fintype.equivFin ι
  exact near_equiv (Equiv.arrowCongr e (Equiv.refl A)) (Equiv.arrowCongr e.symm (Equiv.refl B)) (near_many h (Fintype.card ι)) |>
    fun h => by
      have h2 : (fun (c : ι → A) k => f (c k)) = fun c => (Equiv.arrowCongr e.symm (Equiv.refl B))
          (fun k => f ((Equiv.arrowCongr e (Equiv.refl A)) c k)) := by
        funext c k
        simp
      rw [h2]
      exact h

theorem near_mono {f : A → B} {δ δ' : ℚ} (h : Spec.Near f δ) (hδ : δ ≤ δ') : Spec.Near f δ' := fun E => (h E).trans hδ

end

theorem near_instance {A B : Type} [Fintype A] {f : A → B} {δ : ℚ} (i j : Fintype B) (h : @Spec.Near A B _ i f δ) :
    @Spec.Near A B _ j f δ := by rwa [Subsingleton.elim j i]

/-- `L` bytes reduced modulo the order. -/
theorem near_bytes (q L : ℕ) [NeZero q] : Spec.Near (Spec.reduced q : (Fin L → Fin 256) → ZMod q) ((q : ℚ) / 256 ^ L) := by
  intro E
  have h1 := C164_calls (Ω := Unit) q L 1 fun x => E (x.2 0)
  rw [Nat.cast_one, one_mul] at h1
  have e1 : Spec.chance (fun x : Unit × (Fin 1 → Fin L → Fin 256) => E (Spec.reduced q (x.2 0))) =
      Spec.chance fun c : Fin L → Fin 256 => E (Spec.reduced q c) :=
    chance_equiv ((Equiv.punitProd _).trans (Equiv.funUnique (Fin 1) (Fin L → Fin 256))) fun c => E (Spec.reduced q c)
  have e2 : Spec.chance (fun x : Unit × (Fin 1 → ZMod q) => E (x.2 0)) = Spec.chance E :=
    chance_equiv ((Equiv.punitProd _).trans (Equiv.funUnique (Fin 1) (ZMod q))) E
  rwa [e1, e2] at h1

/-- 48 bytes reduced modulo an order of at most 256 bits. -/
theorem near_reduced (q : ℕ) [NeZero q] [i : Fintype (ZMod q)] (hq : q ≤ 2 ^ 256) :
    Spec.Near (Spec.reduced q : (Fin 48 → Fin 256) → ZMod q) (1 / 2 ^ 128) := by
  refine near_instance (ZMod.fintype q) i fun E => (near_bytes q 48 E).trans ?_
  rw [div_le_div_iff₀ (by positivity) (by positivity), one_mul]
  have h2 : (q : ℚ) ≤ 2 ^ 256 := by exact_mod_cast hq
  calc (q : ℚ) * 2 ^ 128 ≤ 2 ^ 256 * 2 ^ 128 := mul_le_mul_of_nonneg_right h2 (by positivity)
    _ = 256 ^ 48 := by norm_num

theorem card_U32 [i : Fintype U32] : Fintype.card U32 = 2 ^ 32 := by
  rw [Fintype.card_congr (⟨UInt32.toFin, UInt32.ofFin, fun _ => rfl, fun _ => rfl⟩ : U32 ≃ Fin UInt32.size), Fintype.card_fin]
  rfl

/-! ### The game -/

/-- A draw of the game (binding factors and a nonce pair), each scalar made by `f`. -/
def Spec.drawOf {A F : Type} (f : A → F) (d : Spec.Draw A (A × A)) : Spec.Draw F (F × F) := (fun i => f (d.1 i), f d.2.1, f d.2.2)

/-- A cell of the game (the answer to a question, and a draw), each scalar made by `f`. -/
def Spec.cellOf {A F : Type} (f : A → F) (c : Spec.Cell A (A × A)) : Spec.Cell F (F × F) := (f c.1, Spec.drawOf f c.2)

section
variable {A B C W : Type} [Fintype A] [Fintype B] [Fintype C] [Fintype W] [Nonempty A] [Nonempty B] [Nonempty C] [Nonempty W]
  [Fintype U32]

theorem near_draw {f : A → B} {δ : ℚ} (h : Spec.Near f δ) : Spec.Near (Spec.drawOf f) ((2 ^ 32 + 2) * δ) := by
  have h1 := near_prod (near_family (ι := U32) h) (near_prod h h)
  rw [card_U32] at h1
  have e : (((2 ^ 32 : ℕ) : ℚ) * δ + (δ + δ)) = (2 ^ 32 + 2) * δ := by
    push_cast
    ring
  rw [e] at h1
  exact h1

theorem near_cell {f : A → B} {δ : ℚ} (h : Spec.Near f δ) : Spec.Near (Spec.cellOf f) ((2 ^ 32 + 3) * δ) := by
  have h1 := near_prod h (near_draw h)
  have e : δ + (2 ^ 32 + 2) * δ = (2 ^ 32 + 3) * δ := by ring
  rw [e] at h1
  exact h1

/-- Everything random in the game. -/
theorem near_game {f : A → B} {g : C → W} {δ δ' : ℚ} (h0 : 0 ≤ δ) (h : Spec.Near f δ) (h' : Spec.Near g δ') (n : ℕ) :
    Spec.Near (fun x : (C × Spec.Draw A (A × A)) × (Fin (n + 1) → Spec.Cell A (A × A)) =>
      ((g x.1.1, Spec.drawOf f x.1.2), fun j => Spec.cellOf f (x.2 j)))
      (δ' + ((n + 2 : ℕ) : ℚ) * ((2 ^ 32 + 3) * δ)) := by
  have h1 := near_prod (near_prod h' (near_draw h)) (near_many (near_cell h) (n + 1))
  have e : δ' + (2 ^ 32 + 2) * δ + ((n + 1 : ℕ) : ℚ) * ((2 ^ 32 + 3) * δ) ≤ δ' + ((n + 2 : ℕ) : ℚ) * ((2 ^ 32 + 3) * δ) := by
    push_cast
    have : (2 ^ 32 + 2 : ℚ) * δ ≤ (2 ^ 32 + 3) * δ := by linarith
    linarith
  exact near_mono h1 e

end

section General
variable {F G R Ω A : Type} [Field F] [DecidableEq F] [AddCommGroup G] [Module F G] [DecidableEq G]

/-- C172: the attack of C145 where polynomial, nonces and answers come from any source that is uniform up to `δ`. A chance of
forging of at least `ε + δ` yields what C145 gives for `ε`. -/
theorem C172_source [Fintype F] [Fintype U32] [Fintype Ω] [Nonempty Ω] [Fintype A] [Nonempty A] {S : Suite F G R} (hS : S.Lawful)
    (D : List U32) (h0 : 0 ∉ D) (l : U32) (J : List U32) (hJ : J.Nodup) (hJ0 : 0 ∉ J) (t : ℕ) (ht : J.length + 1 = t)
    (H : List U32) (hH : H.Nodup) (htH : t ≤ H.length)
    (deal : Ω × (List G × ({j // j ∈ J} → F)) → U32 → Spec.Dealing F G) (dbg : Bool) (n : ℕ) (hn : n ≤ 2 ^ 63)
    (B : Spec.Insider (Ω × (List G × ({j // j ∈ J} → F))) F G)
    (f : A → ((Fin t → F) × Spec.Draw F (F × F)) × (Fin (n + 1) → Spec.Cell F (F × F))) (δ : ℚ) (hf : Spec.Near f δ)
    (ε : ℚ) (hε : 0 ≤ ε) :
    (ε + δ ≤ Spec.chance fun x : Ω × A =>
      let w := (f x.2).1.1
      let v := (x.1, Spec.dealerView S J l w)
      Spec.Accepted S D l H t (deal v) ∧
      B.Succeeds S dbg H n (Spec.dealtShare D l (deal v) w) (Spec.dealtKey D l (deal v) v.2) v (f x.2).1.2 (f x.2).2) →
    ε * (ε / ((n + 1 : ℕ) : ℚ) - 1 / (Fintype.card F : ℚ)) -
        2 * (n : ℚ) ^ 2 * (H.length : ℚ) / (Fintype.card F : ℚ) ≤
      Spec.chance fun y : ((Ω × ({j // j ∈ J} → F)) × F × Spec.Draw F (F × F)) × (Fin (n + 1) → Spec.Cell F (F × F)) ×
          (Fin (n + 1) → Spec.Cell F (F × F)) =>
        Spec.Insider.Solves (B.afterView S t) S dbg H n
          (fun ω X => Spec.kitOfView D l J (fun k => (deal (ω.1, Spec.simulatedDealerView S J t X ω.2) k).poly H t) ω.2)
          y.1.1 y.1.2.1 y.1.2.2 y.2.1 y.2.2 := by
  intro hforged
  have h := C145_concurrent_sessions hS D h0 l J hJ hJ0 t ht H hH htH deal dbg n hn B
  simp only at h
  refine fork_bound_mono (by positivity) (by positivity) (by positivity) hε ?_ (chance_nonneg _) h
  let W : Ω × (((Fin t → F) × Spec.Draw F (F × F)) × (Fin (n + 1) → Spec.Cell F (F × F))) → Prop := fun z =>
    let v := (z.1, Spec.dealerView S J l z.2.1.1)
    Spec.Accepted S D l H t (deal v) ∧
      B.Succeeds S dbg H n (Spec.dealtShare D l (deal v) z.2.1.1) (Spec.dealtKey D l (deal v) v.2) v z.2.1.2 z.2.2
  have h1 := near_prod (near_id (A := Ω)) hf W
  rw [zero_add] at h1
  have h2 := chance_equiv (A := Ω × (((Fin t → F) × Spec.Draw F (F × F)) × (Fin (n + 1) → Spec.Cell F (F × F))))
    ⟨fun z => ((z.1, z.2.1.1, z.2.1.2), z.2.2), fun z => (z.1.1, (z.1.2.1, z.1.2.2), z.2), fun _ => rfl, fun _ => rfl⟩
    (fun z : (Ω × (Fin t → F) × Spec.Draw F (F × F)) × (Fin (n + 1) → Spec.Cell F (F × F)) =>
      let v := (z.1.1, Spec.dealerView S J l z.1.2.1)
      Spec.Accepted S D l H t (deal v) ∧
      B.Succeeds S dbg H n (Spec.dealtShare D l (deal v) z.1.2.1) (Spec.dealtKey D l (deal v) v.2) v z.1.2.2 z.2)
  have h3 : ε + δ ≤ Spec.chance (fun x : Ω × A => W (id x.1, f x.2)) := hforged
  have h4 : Spec.chance W = _ := h2
  rw [← h4]
  have h5 := (abs_le.mp h1).2
  linarith

end General

/-! ### The shipped suite -/

/-- The bytes that the expander delivers for one scalar. -/
abbrev Spec.Expanded := Fin 48 → Fin 256

/-- The scalar made of them. -/
abbrev Spec.secpScalar (c : Spec.Expanded) : Secp.Fn := Spec.reduced Cases.secp256k1Order c

/-- The coefficients that `new_dealer` draws from a tape of bytes, after the DH key and the nonce of its proof (C113). -/
def Spec.coefficientsFrom {t N : ℕ} (v : Fin N → Fin 256) (i : Fin t) : Secp.Fn :=
  Spec.scalar (Secp.realSuite Secp.byteSource) (Spec.byteTape v) (2 + i)

/-- C172: these are the coefficients of the polynomial that the shipped `new_dealer` returns. -/
theorem C172_coefficients (params : Params) (ht : params.t ≠ 0) (i : U32) (hi : i ≠ 0) {N : ℕ} (v : Fin N → Fin 256) :
    Spec.coefficientsOf (newDealer (Secp.realSuite Secp.byteSource) params i (Spec.byteTape v)) =
      List.ofFn (Spec.coefficientsFrom (t := params.t.toNat) v) := by
  obtain ⟨p, cs, dh, rng', h, _⟩ := newInternal_dealer (Secp.realSuite Secp.byteSource) params ht i hi none (Spec.byteTape v)
  have hD : newDealer (Secp.realSuite Secp.byteSource) params i (Spec.byteTape v) = .ok (p, cs, dh) := by
    unfold newDealer
    rw [h]
  obtain ⟨-, -, e, -⟩ := C113_dealer (Secp.realSuite Secp.byteSource) params i (Spec.byteTape v) p cs dh hD
  rw [hD]
  show cs = _
  rw [e]
  refine List.ext_getElem (by simp) fun k h1 h2 => ?_
  simp only [List.getElem_map, List.getElem_range, List.getElem_ofFn]
  rfl

section Shipped
variable [Fintype Secp.Fn] [Fintype U32]

theorem near_secp : Spec.Near Spec.secpScalar (1 / 2 ^ 128) :=
  near_reduced Cases.secp256k1Order (by norm_num [Cases.secp256k1Order])

theorem near_later {B : Type} [Fintype B] [Nonempty B] (a b : ℕ) (E : (Fin b → B) → Prop) :
    Spec.chance (fun v : Fin (a + b) → B => E fun i => v (Fin.natAdd a i)) = Spec.chance E := by
  rw [← chance_equiv (Fin.appendEquiv a b), ← chance_extra (B := Fin a → B) E]
  refine (chance_equiv (Equiv.prodComm (Fin b → B) (Fin a → B)) _).symm.trans (chance_congr fun x => iff_of_eq (congrArg E ?_))
  funext i
  simp [Fin.appendEquiv]

theorem near_coefficients (t k : ℕ) :
    Spec.Near (Spec.coefficientsFrom (t := t) : (Fin ((2 + t) * k * 32) → Fin 256) → Fin t → Secp.Fn)
      (((2 + t : ℕ) : ℚ) * (1 / 2 ^ 127) ^ k) := fun E => by
  have h := C170_real (2 + t) k fun u => E fun i => u (Fin.natAdd 2 i)
  rw [near_later] at h
  exact h

/-- C172: the attack of C145 on secp256k1, with the coefficients of the honest dealer drawn from `32 (t + 2) k` bytes by
rejection, and every nonce and every answer of a hash function reduced from 48 uniform bytes. With at most `2^a` moves and `2^b`
honest signers, a chance of forging that is by `(t + 2) / 2^(127 k) + (n + 2) (2^32 + 3) / 2^128` larger than some `ε ≥ 2^-e` yields one more discrete logarithm than asked for with chance at least `ε² / (2 (n + 1))`. -/
theorem C172_forgery {R Ω : Type} [Fintype Ω] [Nonempty Ω] (X : Secp.Parts R)
    (D : List U32) (h0 : 0 ∉ D) (l : U32) (J : List U32) (hJ : J.Nodup) (hJ0 : 0 ∉ J) (t : ℕ) (ht : J.length + 1 = t)
    (H : List U32) (hH : H.Nodup) (htH : t ≤ H.length)
    (deal : Ω × (List Secp.Point × ({j // j ∈ J} → Secp.Fn)) → U32 → Spec.Dealing Secp.Fn Secp.Point) (dbg : Bool) (n k : ℕ)
    (a b e : ℕ) (hn : n + 1 ≤ 2 ^ a) (hb : H.length ≤ 2 ^ b) (habe : 3 * a + b + 2 * e ≤ 252) (ha : a ≤ 63)
    (B : Spec.Insider (Ω × (List Secp.Point × ({j // j ∈ J} → Secp.Fn))) Secp.Fn Secp.Point) (ε : ℚ) (hε : 1 / 2 ^ e ≤ ε) :
    let S := Secp.suite X
    (ε + (((2 + t : ℕ) : ℚ) * (1 / 2 ^ 127) ^ k + ((n + 2 : ℕ) : ℚ) * ((2 ^ 32 + 3) * (1 / 2 ^ 128))) ≤
      Spec.chance fun x : Ω × ((Fin ((2 + t) * k * 32) → Fin 256) × Spec.Draw Spec.Expanded (Spec.Expanded × Spec.Expanded)) ×
          (Fin (n + 1) → Spec.Cell Spec.Expanded (Spec.Expanded × Spec.Expanded)) =>
        let w : Fin t → Secp.Fn := Spec.coefficientsFrom x.2.1.1
        let v := (x.1, Spec.dealerView S J l w)
        Spec.Accepted S D l H t (deal v) ∧
        B.Succeeds S dbg H n (Spec.dealtShare D l (deal v) w) (Spec.dealtKey D l (deal v) v.2) v (Spec.drawOf Spec.secpScalar x.2.1.2)
          fun j => Spec.cellOf Spec.secpScalar (x.2.2 j)) →
    ε ^ 2 / (2 * ((n + 1 : ℕ) : ℚ)) ≤
      Spec.chance fun y : ((Ω × ({j // j ∈ J} → Secp.Fn)) × Secp.Fn × Spec.Draw Secp.Fn (Secp.Fn × Secp.Fn)) ×
          (Fin (n + 1) → Spec.Cell Secp.Fn (Secp.Fn × Secp.Fn)) × (Fin (n + 1) → Spec.Cell Secp.Fn (Secp.Fn × Secp.Fn)) =>
        Spec.Insider.Solves (B.afterView S t) S dbg H n
          (fun ω X => Spec.kitOfView D l J (fun k => (deal (ω.1, Spec.simulatedDealerView S J t X ω.2) k).poly H t) ω.2)
          y.1.1 y.1.2.1 y.1.2.2 y.2.1 y.2.2 := by
  intro S hf
  have hε0 : 0 ≤ ε := le_trans (by positivity) hε
  have h := C172_source (C148_lawful X) D h0 l J hJ hJ0 t ht H hH htH deal dbg n
    (by have := Nat.pow_le_pow_right (n := 2) (by norm_num) ha; omega) B _ _
    (near_game (by positivity) near_secp (near_coefficients t k) n) ε hε0 hf
  have hε1 : ε ≤ 1 := by
    have h1 := le_trans hf (chance_le_one _)
    have h2 : (0 : ℚ) ≤ ((2 + t : ℕ) : ℚ) * (1 / 2 ^ 127) ^ k + ((n + 2 : ℕ) : ℚ) * ((2 ^ 32 + 3) * (1 / 2 ^ 128)) := by positivity
    linarith
  refine concrete_bound card_Fn hn hb ?_ hε1 (by omega : 3 * a + b + 2 * e + 3 ≤ 255) h
  rwa [div_le_iff₀ (by positivity)] at hε

/-- C172: with at most `2^40` moves and `2^22` signers a forger loses at most half of its chance to the imperfect randomness, if
the chance is at least `2^-54`. -/
theorem C172_numbers {R Ω : Type} [Fintype Ω] [Nonempty Ω] (X : Secp.Parts R)
    (D : List U32) (h0 : 0 ∉ D) (l : U32) (J : List U32) (hJ : J.Nodup) (hJ0 : 0 ∉ J) (t : ℕ) (ht : J.length + 1 = t)
    (ht2 : t ≤ 2 ^ 32) (H : List U32) (hH : H.Nodup) (htH : t ≤ H.length) (hb : H.length ≤ 2 ^ 22)
    (deal : Ω × (List Secp.Point × ({j // j ∈ J} → Secp.Fn)) → U32 → Spec.Dealing Secp.Fn Secp.Point) (dbg : Bool) (n k : ℕ)
    (hk : 1 ≤ k) (hn : n + 1 ≤ 2 ^ 40)
    (B : Spec.Insider (Ω × (List Secp.Point × ({j // j ∈ J} → Secp.Fn))) Secp.Fn Secp.Point) :
    let S := Secp.suite X
    let forged : ℚ :=
      Spec.chance fun x : Ω × ((Fin ((2 + t) * k * 32) → Fin 256) × Spec.Draw Spec.Expanded (Spec.Expanded × Spec.Expanded)) ×
          (Fin (n + 1) → Spec.Cell Spec.Expanded (Spec.Expanded × Spec.Expanded)) =>
        let w : Fin t → Secp.Fn := Spec.coefficientsFrom x.2.1.1
        let v := (x.1, Spec.dealerView S J l w)
        Spec.Accepted S D l H t (deal v) ∧
        B.Succeeds S dbg H n (Spec.dealtShare D l (deal v) w) (Spec.dealtKey D l (deal v) v.2) v
          (Spec.drawOf Spec.secpScalar x.2.1.2) fun j => Spec.cellOf Spec.secpScalar (x.2.2 j)
    1 / 2 ^ 54 ≤ forged →
    forged ^ 2 / (8 * ((n + 1 : ℕ) : ℚ)) ≤
      Spec.chance fun y : ((Ω × ({j // j ∈ J} → Secp.Fn)) × Secp.Fn × Spec.Draw Secp.Fn (Secp.Fn × Secp.Fn)) ×
          (Fin (n + 1) → Spec.Cell Secp.Fn (Secp.Fn × Secp.Fn)) × (Fin (n + 1) → Spec.Cell Secp.Fn (Secp.Fn × Secp.Fn)) =>
        Spec.Insider.Solves (B.afterView S t) S dbg H n
          (fun ω X => Spec.kitOfView D l J (fun k => (deal (ω.1, Spec.simulatedDealerView S J t X ω.2) k).poly H t) ω.2)
          y.1.1 y.1.2.1 y.1.2.2 y.2.1 y.2.2 := by
  intro S forged hf
  have hδ : ((2 + t : ℕ) : ℚ) * (1 / 2 ^ 127) ^ k + ((n + 2 : ℕ) : ℚ) * ((2 ^ 32 + 3) * (1 / 2 ^ 128)) ≤ 1 / 2 ^ 55 := by
    have h1 : ((2 + t : ℕ) : ℚ) ≤ 2 ^ 33 := by
      have : 2 + t ≤ 2 ^ 33 := by omega
      exact_mod_cast this
    have h2 : ((1 : ℚ) / 2 ^ 127) ^ k ≤ 1 / 2 ^ 127 := by
      refine le_trans (pow_le_pow_of_le_one (by positivity) (by norm_num) hk) (le_of_eq (pow_one _))
    have h3 : ((n + 2 : ℕ) : ℚ) ≤ 2 ^ 40 + 1 := by
      have : n + 2 ≤ 2 ^ 40 + 1 := by omega
      exact_mod_cast this
    calc ((2 + t : ℕ) : ℚ) * (1 / 2 ^ 127) ^ k + ((n + 2 : ℕ) : ℚ) * ((2 ^ 32 + 3) * (1 / 2 ^ 128))
        ≤ 2 ^ 33 * (1 / 2 ^ 127) + (2 ^ 40 + 1) * ((2 ^ 32 + 3) * (1 / 2 ^ 128)) := by gcongr
      _ ≤ 1 / 2 ^ 55 := by norm_num
  have hε : 1 / 2 ^ 55 ≤ forged / 2 := by
    rw [show (1 : ℚ) / 2 ^ 55 = 1 / 2 ^ 54 / 2 by norm_num]
    exact div_le_div_of_nonneg_right hf (by norm_num)
  have h := C172_forgery X D h0 l J hJ hJ0 t ht H hH htH deal dbg n k 40 22 55 hn hb (by norm_num) (by norm_num) B (forged / 2) hε
    (by
      have : forged / 2 + (((2 + t : ℕ) : ℚ) * (1 / 2 ^ 127) ^ k + ((n + 2 : ℕ) : ℚ) * ((2 ^ 32 + 3) * (1 / 2 ^ 128))) ≤ forged := by
        linarith
      exact this)
  refine le_trans (le_of_eq ?_) h
  rw [div_pow]
  field_simp
  norm_num

end Shipped

/-! ### Examples -/

section Examples
open Toy

/-- A source that is not uniform: 48 bytes reduced modulo the order of the toy group. Colluders who can take logarithms there forge
always, so that the hypothesis of `C172_source` holds with `ε = 1 - δ`. -/
example [Fintype Fp] [Fintype U32] :
    let δ : ℚ := 3 * (1 / 2 ^ 128) + ((3 + 2 : ℕ) : ℚ) * ((2 ^ 32 + 3) * (1 / 2 ^ 128))
    (1 - δ) * ((1 - δ) / ((3 + 1 : ℕ) : ℚ) - 1 / (Fintype.card Fp : ℚ)) -
        2 * ((3 : ℕ) : ℚ) ^ 2 * (([1, 3, 5] : List U32).length : ℚ) / (Fintype.card Fp : ℚ) ≤
      Spec.chance fun y : ((Unit × ({j // j ∈ colluders} → Fp)) × Fp × Spec.Draw Fp (Fp × Fp)) ×
          (Fin (3 + 1) → Spec.Cell Fp (Fp × Fp)) × (Fin (3 + 1) → Spec.Cell Fp (Fp × Fp)) =>
        Spec.Insider.Solves ((moonlighter dealtSecret).afterView suite 3) suite true [1, 3, 5] 3
          (fun ω X => Spec.kitOfView [1, 2, 3] 1 colluders (fun k => (colluderDeal (ω.1, Spec.simulatedDealerView suite
            colluders 3 X ω.2) k).poly [1, 3, 5] 3) ω.2) y.1.1 y.1.2.1 y.1.2.2 y.2.1 y.2.2 := by
  intro δ
  have hr : Spec.Near (Spec.reduced _ : Spec.Expanded → Fp) (1 / 2 ^ 128) := near_reduced _ (by norm_num)
  have hc : Spec.Near (fun (c : Fin 3 → Spec.Expanded) k => (Spec.reduced _ (c k) : Fp)) (3 * (1 / 2 ^ 128)) := by
    have := near_many hr 3
    rwa [show ((3 : ℕ) : ℚ) = 3 from rfl] at this
  refine C172_source (Ω := Unit) lawful [1, 2, 3] (by decide) 1 colluders (by decide) (by decide) 3 rfl [1, 3, 5] (by decide)
    (by decide) colluderDeal true 3 (by norm_num) (moonlighter dealtSecret) _ δ (near_game (by positivity) hr hc 3) (1 - δ)
    (by norm_num [δ]) ?_
  rw [sub_add_cancel, chance_one fun z => ?_]
  exact ⟨colluderDeal_accepted _, moonlighter_succeeds [1, 3, 5] (by decide) dealtSecret _ _ _ _⟩

/-- The bound for the randomness in numbers: `2^40` moves. -/
example : ((2 : ℚ) ^ 40 + 1) * ((2 ^ 32 + 3) * (1 / 2 ^ 128)) < 1 / 2 ^ 55 := by norm_num

end Examples

end IceFrost
