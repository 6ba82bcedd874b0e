import Verif.Props.ConcurrentSolver

/-! # C143: the chance of the solver -/

set_option linter.unusedSectionVars false
set_option linter.unusedSimpArgs false
set_option linter.unusedVariables false

namespace IceFrost

open Finset

variable {F G R : Type} [Field F] [DecidableEq F] [AddCommGroup G] [Module F G] [DecidableEq G]
variable {Ω : Type}

/-- The insider plays `n` moves with honest signers that have the keys `key`, and forges a signature for the key `Y`. -/
def Spec.Insider.Succeeds (B : Spec.Insider Ω F G) (S : Suite F G R) (dbg : Bool) (H : List U32) (n : ℕ) (key : U32 → F)
    (Y : G) (ω : Ω) (d : Spec.Draw F (F × F)) (h : Fin (n + 1) → Spec.Cell F (F × F)) : Prop :=
  let st := (B.play S dbg H key Y ω (Spec.answers h) (fun a => (Spec.drawn d h a).1) (fun a => (Spec.drawn d h a).2) n).1
  st.Forged S Y (B.result ω st.replies) (Spec.answers h n)

/-- The insider succeeds: it is told the point `X = x • g`, plays `n` moves with honest signers whose keys come from `x`,
and forges. -/
def Spec.Insider.Wins (B : G → Spec.Insider Ω F G) (S : Suite F G R) (dbg : Bool) (H : List U32) (n : ℕ)
    (kit : Ω → G → Spec.Kit F) (ω : Ω) (x : F) (d : Spec.Draw F (F × F)) (h : Fin (n + 1) → Spec.Cell F (F × F)) : Prop :=
  (B (x • S.gen)).Succeeds S dbg H n ((kit ω (x • S.gen)).key x) ((kit ω (x • S.gen)).groupKey S (x • S.gen)) ω d h

/-- The solver knows all discrete logarithms in the end: that of `x • g` and those of all commitments. -/
def Spec.Insider.Solves (B : G → Spec.Insider Ω F G) (S : Suite F G R) (dbg : Bool) (H : List U32) (n : ℕ)
    (kit : Ω → G → Spec.Kit F) (ω : Ω) (x : F) (d : Spec.Draw F (F × F)) (h h' : Fin (n + 1) → Spec.Cell F (F × F)) :
    Prop :=
  ∀ dl : G → F, (∀ P, dl P • S.gen = P) →
    ((B (x • S.gen)).solver S dbg H n (kit ω (x • S.gen)) ω (x • S.gen) (Spec.Draw.public S d) (Spec.publicTape S h)
      (Spec.publicTape S h')).run dl = (x, (Spec.pairLabels n).map (Spec.atLabel d h h'))

/-! ### Coincidences -/

theorem chance_shift {A K : Type} [Fintype A] [Fintype K] [Nonempty A] [Nonempty K] (E : A → Prop) (σ : K → A ≃ A)
    (hE : ∀ a k k', E (σ k a) → E (σ k' a) → k = k') : Spec.chance E ≤ 1 / (Fintype.card K : ℚ) := by
  classical
  have hK0 : (0 : ℚ) < (Fintype.card K : ℚ) := by exact_mod_cast Fintype.card_pos
  have hN0 : (0 : ℚ) < (Fintype.card A : ℚ) := by exact_mod_cast Fintype.card_pos
  have h1 : ∀ k, (univ.filter fun a => E (σ k a)).card = (univ.filter E).card := by
    intro k
    refine Finset.card_bij (fun a _ => σ k a) ?_ ?_ ?_
    · intro a ha
      simpa using ha
    · intro a _ b _ h
      exact (σ k).injective h
    · intro b hb
      exact ⟨(σ k).symm b, by simpa using hb, by simp⟩
  have h2 : Fintype.card K * (univ.filter E).card ≤ Fintype.card A := by
    calc Fintype.card K * (univ.filter E).card = ∑ k : K, (univ.filter fun a => E (σ k a)).card := by
          rw [Finset.sum_congr rfl fun k _ => h1 k]
          simp
      _ = ∑ k : K, ∑ a : A, if E (σ k a) then 1 else 0 := by
          refine Finset.sum_congr rfl fun k _ => ?_
          rw [Finset.card_filter]
      _ = ∑ a : A, ∑ k : K, if E (σ k a) then 1 else 0 := Finset.sum_comm
      _ ≤ ∑ a : A, 1 := by
          refine Finset.sum_le_sum fun a _ => ?_
          rw [← Finset.card_filter]
          refine Finset.card_le_one.mpr fun k hk k' hk' => ?_
          exact hE a k k' (by simpa using hk) (by simpa using hk')
      _ = Fintype.card A := by simp
  have h3 : Spec.chance E = ((univ.filter E).card : ℚ) / Fintype.card A := by
    unfold Spec.chance
    congr 2
  rw [h3, div_le_div_iff₀ hN0 hK0, one_mul, mul_comm]
  exact_mod_cast h2

/-- A tape with `k` added to the binding factor of `i` in the cell `m`. -/
def Spec.bump {N : ℕ} (m : Fin N) (i : U32) (k : F) : (Fin N → Spec.Cell F (F × F)) ≃ (Fin N → Spec.Cell F (F × F)) :=
  Equiv.addRight (Pi.single m ((0, (Pi.single i k, 0)) : Spec.Cell F (F × F)))

theorem bump_drawn {N : ℕ} (m : Fin N) (i : U32) (k : F) (d : Spec.Draw F (F × F)) (h : Fin N → Spec.Cell F (F × F))
    (b : ℕ) (hb : b = m.val + 1) : (Spec.drawn d (Spec.bump m i k h) b).1 i = (Spec.drawn d h b).1 i + k := by
  subst hb
  show (if ha : m.val < N then _ else _ : Spec.Draw F (F × F)).1 i = (if ha : m.val < N then _ else _ : Spec.Draw F (F × F)).1 i + k
  rw [dif_pos m.isLt, dif_pos m.isLt]
  unfold Spec.bump
  simp

theorem bump_drawn_ne {N : ℕ} (m : Fin N) (i : U32) (k : F) (d : Spec.Draw F (F × F)) (h : Fin N → Spec.Cell F (F × F))
    (a : ℕ) (ha : a ≠ m.val + 1) : Spec.drawn d (Spec.bump m i k h) a = Spec.drawn d h a := by
  cases a with
  | zero => rfl
  | succ a =>
    show (if ha : a < N then _ else _) = (if ha : a < N then _ else _)
    split
    · next hN =>
      unfold Spec.bump
      have : (⟨a, hN⟩ : Fin N) ≠ m := by
        intro e
        exact ha (by rw [← e])
      simp [Pi.single_eq_of_ne this]
    · rfl

/-- Two binding factors of the same honest signer in the two tapes coincide. -/
def Spec.Coincide (H : List U32) (n : ℕ) (d : Spec.Draw F (F × F)) (h h' : Fin (n + 1) → Spec.Cell F (F × F)) : Prop :=
  ∃ v : Fin H.length × Fin n × Fin n × Bool,
    if v.2.2.2 then v.2.1 < v.2.2.1 ∧ (Spec.drawn d h v.2.1).1 (H.get v.1) = (Spec.drawn d h v.2.2.1).1 (H.get v.1)
    else 0 < v.2.2.1.val ∧ (Spec.drawn d h v.2.1).1 (H.get v.1) = (Spec.drawn d h' v.2.2.1).1 (H.get v.1)

theorem coincide_bound [Fintype F] [Fintype U32] [Fintype Ω] [Nonempty Ω] (H : List U32) (n : ℕ) :
    Spec.chance (fun y : (Ω × F × Spec.Draw F (F × F)) × (Fin (n + 1) → Spec.Cell F (F × F)) ×
        (Fin (n + 1) → Spec.Cell F (F × F)) => Spec.Coincide H n y.1.2.2 y.2.1 y.2.2) ≤
      2 * (n : ℚ) ^ 2 * (H.length : ℚ) / (Fintype.card F : ℚ) := by
  unfold Spec.Coincide
  refine le_trans (chance_exists _) ?_
  have each : ∀ v : Fin H.length × Fin n × Fin n × Bool,
      Spec.chance (fun y : (Ω × F × Spec.Draw F (F × F)) × (Fin (n + 1) → Spec.Cell F (F × F)) ×
        (Fin (n + 1) → Spec.Cell F (F × F)) =>
        if v.2.2.2 then v.2.1 < v.2.2.1 ∧
          (Spec.drawn y.1.2.2 y.2.1 v.2.1).1 (H.get v.1) = (Spec.drawn y.1.2.2 y.2.1 v.2.2.1).1 (H.get v.1)
        else 0 < v.2.2.1.val ∧
          (Spec.drawn y.1.2.2 y.2.1 v.2.1).1 (H.get v.1) = (Spec.drawn y.1.2.2 y.2.2 v.2.2.1).1 (H.get v.1)) ≤
      1 / (Fintype.card F : ℚ) := by
    rintro ⟨i, a, b, t⟩
    have hm : b.val - 1 < n + 1 := by omega
    cases t with
    | true =>
      refine chance_shift _ (fun k : F => Equiv.prodCongr (Equiv.refl _) (Equiv.prodCongr
        (Spec.bump ⟨b.val - 1, hm⟩ (H.get i) k) (Equiv.refl _))) ?_
      rintro ⟨y, h, h'⟩ k k' ⟨h1, h2⟩ ⟨h3, h4⟩
      simp only [Equiv.prodCongr_apply, Prod.map, Equiv.refl_apply] at h1 h2 h3 h4
      have hlt : a.val < b.val := h1
      have hb : b.val = (⟨b.val - 1, hm⟩ : Fin (n + 1)).val + 1 := by simp only; omega
      rw [bump_drawn_ne _ _ _ _ _ _ (by omega), bump_drawn _ _ _ _ _ _ hb] at h2 h4
      exact add_left_cancel (h2.symm.trans h4)
    | false =>
      refine chance_shift _ (fun k : F => Equiv.prodCongr (Equiv.refl _) (Equiv.prodCongr (Equiv.refl _)
        (Spec.bump ⟨b.val - 1, hm⟩ (H.get i) k))) ?_
      rintro ⟨y, h, h'⟩ k k' ⟨h1, h2⟩ ⟨h3, h4⟩
      simp only [Equiv.prodCongr_apply, Prod.map, Equiv.refl_apply] at h1 h2 h3 h4
      have hb : b.val = (⟨b.val - 1, hm⟩ : Fin (n + 1)).val + 1 := by simp only; omega
      rw [bump_drawn _ _ _ _ _ _ hb] at h2 h4
      exact add_left_cancel (h2.symm.trans h4)
  refine le_trans (Finset.sum_le_card_nsmul univ _ _ fun v _ => each v) ?_
  rw [Finset.card_univ, nsmul_eq_mul]
  simp only [Fintype.card_prod, Fintype.card_fin, Fintype.card_bool]
  refine le_of_eq ?_
  push_cast
  ring

/-! ### The theorem -/

theorem chance_or {A : Type} [Fintype A] {E E1 E2 : A → Prop} (h : ∀ a, E a → E1 a ∨ E2 a) :
    Spec.chance E ≤ Spec.chance E1 + Spec.chance E2 := by
  classical
  have := chance_exists (A := A) (B := Bool) fun b a => if b then E1 a else E2 a
  rw [Fintype.sum_bool] at this
  simp only [if_true, Bool.false_eq_true, if_false] at this
  refine le_trans (chance_mono fun a ha => ?_) this
  rcases h a ha with h | h
  · exact ⟨true, by simpa using h⟩
  · exact ⟨false, by simpa using h⟩

theorem splice_joined {N : ℕ} (j : Fin N) (h h' : Fin N → Spec.Cell F (F × F)) :
    splice j h h' = Spec.joined j.val h h' := by
  funext k
  unfold splice Spec.joined
  by_cases hk : k < j
  · rw [if_pos hk, if_pos (Fin.lt_def.mp hk)]
  · rw [if_neg hk, if_neg fun e => hk (Fin.lt_def.mpr e)]

/-- C143: whoever forges while taking part in signing sessions solves "one more discrete logarithm". The insider is told
`X = x • g`, makes `n` moves (hash questions, starting and finishing signing sessions with any of the honest signers `H`,
in any order) and forges a signature on a message that no honest signer signed with chance `ε`. Then the solver, which has
only `X` and the commitments, finds all their discrete logarithms with chance at least
`ε (ε / (n + 1) - 1 / |F|) - 2 n² |H| / |F|`. -/
theorem C143_concurrent_sessions [Fintype F] [Fintype U32] [Fintype Ω] [Nonempty Ω] {S : Suite F G R} (hd : S.CodecLaws)
    (hg : S.GroupLaws) (hu : Suite.U32Inj F) (dbg : Bool) (H : List U32) (n : ℕ) (hn : n ≤ 2 ^ 63)
    (kit : Ω → G → Spec.Kit F) (hs : ∀ ω X, (kit ω X).scale ≠ 0) (B : G → Spec.Insider Ω F G) :
    let forged : ℚ := Spec.chance fun y : (Ω × F × Spec.Draw F (F × F)) × (Fin (n + 1) → Spec.Cell F (F × F)) =>
      Spec.Insider.Wins B S dbg H n kit y.1.1 y.1.2.1 y.1.2.2 y.2
    forged * (forged / ((n + 1 : ℕ) : ℚ) - 1 / (Fintype.card F : ℚ)) -
        2 * (n : ℚ) ^ 2 * (H.length : ℚ) / (Fintype.card F : ℚ) ≤
      Spec.chance fun y : (Ω × F × Spec.Draw F (F × F)) × (Fin (n + 1) → Spec.Cell F (F × F)) ×
          (Fin (n + 1) → Spec.Cell F (F × F)) =>
        Spec.Insider.Solves B S dbg H n kit y.1.1 y.1.2.1 y.1.2.2 y.2.1 y.2.2 := by
  classical
  intro forged
  -- the move at which the first tape is left
  let state := fun (y : Ω × F × Spec.Draw F (F × F)) (h : Fin (n + 1) → Spec.Cell F (F × F)) =>
    (B (y.2.1 • S.gen)).state dbg H ((kit y.1 (y.2.1 • S.gen)).key y.2.1)
      ((kit y.1 (y.2.1 • S.gen)).groupKey S (y.2.1 • S.gen)) y.1 S (Spec.answers h)
      (fun a => (Spec.drawn y.2.2 h a).1) (fun a => (Spec.drawn y.2.2 h a).2) n
  let crit := fun (y : Ω × F × Spec.Draw F (F × F)) (h : Fin (n + 1) → Spec.Cell F (F × F)) =>
    (state y h).board.critical S ((kit y.1 (y.2.1 • S.gen)).groupKey S (y.2.1 • S.gen))
      ((B (y.2.1 • S.gen)).result y.1 (state y h).board.replies)
  have hcrit : ∀ y h, crit y h < n + 1 := by
    intro y h
    have k1 := ((B (y.2.1 • S.gen)).ledger_kept S dbg H (fun a => Spec.commitTo S (Spec.drawn y.2.2 h a).2)
      ((kit y.1 (y.2.1 • S.gen)).groupKey S (y.2.1 • S.gen)) y.1 (Spec.answers h) (fun a => (Spec.drawn y.2.2 h a).1)
      (Spec.respond ((kit y.1 (y.2.1 • S.gen)).key y.2.1) fun a => (Spec.drawn y.2.2 h a).2) n).sound.asked_length
    have := List.idxOf_le_length (l := (state y h).board.asked) (a := some (Spec.resultQuestion S
      ((kit y.1 (y.2.1 • S.gen)).groupKey S (y.2.1 • S.gen)) ((B (y.2.1 • S.gen)).result y.1 (state y h).board.replies)))
    rw [show (state y h).board.asked.length = n from k1] at this
    exact Nat.lt_succ_of_le this
  let J := fun (y : Ω × F × Spec.Draw F (F × F)) (h : Fin (n + 1) → Spec.Cell F (F × F)) =>
    if Spec.Insider.Wins B S dbg H n kit y.1 y.2.1 y.2.2 h then some (⟨crit y h, hcrit y h⟩ : Fin (n + 1)) else none
  have hJ : ∀ y h j, J y h = some j → Spec.Insider.Wins B S dbg H n kit y.1 y.2.1 y.2.2 h ∧ crit y h = j.val := by
    intro y h j e
    simp only [J] at e
    split at e
    · next hw => exact ⟨hw, by rw [← Option.some.inj e]⟩
    · cases e
  have hf : forged = Spec.chance fun y : (Ω × F × Spec.Draw F (F × F)) × (Fin (n + 1) → Spec.Cell F (F × F)) =>
      (J y.1 y.2).isSome := by
    refine chance_congr fun y => ?_
    simp only [J]
    split
    · next hw => exact ⟨fun _ => rfl, fun _ => hw⟩
    · next hw => exact ⟨fun e => absurd e hw, fun e => by cases e⟩
  have hfork := forking_part (Ω := Ω × F × Spec.Draw F (F × F)) (C := Spec.Cell F (F × F)) (n := n + 1)
    (Equiv.refl (F × Spec.Draw F (F × F))) J
  rw [← hf] at hfork
  rw [sub_le_iff_le_add]
  refine le_trans hfork (le_trans (chance_or ?_) (add_le_add le_rfl (coincide_bound H n)))
  rintro ⟨y, h, h'⟩ ⟨j, h1, h2, hne⟩
  simp only at h1 h2 hne
  by_cases hc : Spec.Coincide H n y.2.2 h h'
  · exact Or.inr hc
  refine Or.inl ?_
  rw [splice_joined] at h2
  obtain ⟨w1, c1⟩ := hJ _ _ _ h1
  obtain ⟨w2, c2⟩ := hJ _ _ _ h2
  intro dl hdl
  have win : ∀ g : Fin (n + 1) → Spec.Cell F (F × F), Spec.Insider.Wins B S dbg H n kit y.1 y.2.1 y.2.2 g →
      (state y g).board.Forged S ((kit y.1 (y.2.1 • S.gen)).groupKey S (y.2.1 • S.gen))
        ((B (y.2.1 • S.gen)).result y.1 (state y g).board.replies) (Spec.answers g n) := by
    intro g hw
    unfold Spec.Insider.Wins Spec.Insider.Succeeds at hw
    simp only at hw
    rw [Spec.Insider.play_ledger (B (y.2.1 • S.gen)) hg hu dbg H _ _ y.1 _ _ _ n hn] at hw
    exact hw
  have draw : ∀ i ∈ H, ∃ v : Fin H.length, H.get v = i := fun i hi => List.mem_iff_get.mp hi
  refine solver_run hd hg (B (y.2.1 • S.gen)) dbg H n (kit y.1 (y.2.1 • S.gen)) (hs _ _) y.1 y.2.1 y.2.2 h h' dl hdl j.val
    (by omega) (state y h) (state y (Spec.joined j.val h h')) rfl rfl c1 c2 (win h w1) (win _ w2) ?_ ?_ ?_
  · unfold Spec.answers
    rw [dif_pos j.isLt, dif_pos j.isLt]
    unfold Spec.joined
    rw [if_neg (lt_irrefl _)]
    exact fun e => hne e.symm
  · intro i hi a ha b hb hab
    obtain ⟨v, rfl⟩ := draw i hi
    by_contra hne'
    rcases lt_or_gt_of_ne hne' with hlt | hlt
    · exact hc ⟨(v, ⟨a, ha⟩, ⟨b, hb⟩, true), by simp only [if_true]; exact ⟨hlt, hab⟩⟩
    · exact hc ⟨(v, ⟨b, hb⟩, ⟨a, ha⟩, true), by simp only [if_true]; exact ⟨hlt, hab.symm⟩⟩
  · intro i hi a ha b hb hjb hab
    obtain ⟨v, rfl⟩ := draw i hi
    rw [joined_drawn_late _ _ _ _ _ hjb] at hab
    refine hc ⟨(v, ⟨a, ha⟩, ⟨b, hb⟩, false), ?_⟩
    simp only [Bool.false_eq_true, if_false]
    exact ⟨by omega, hab⟩

/-- C143: the solver always asks for exactly one discrete logarithm less than it finds: `2 (2 n + 3)` questions for
`2 n + 3` nonce pairs and one more point. -/
theorem C143_questions (B : Spec.Insider Ω F G) (S : Suite F G R) (dbg : Bool) (H : List U32) (n : ℕ) (kit : Spec.Kit F)
    (ω : Ω) (X : G) (d : Spec.Draw F (G × G)) (h h' : Fin (n + 1) → Spec.Cell F (G × G)) (dl : G → F) :
    ((B.solver S dbg H n kit ω X d h h').questions dl).length + 1 = 2 * (Spec.pairLabels n).length + 1 := by
  rw [solver_questions, pairLabels_length]

/-! ### Colluding participants of a key generation -/

/-- The value at `x` of the polynomial that is one at the index `i` and zero at the other indices of `l`. -/
noncomputable def Spec.basisAt (l : List U32) (i : U32) (x : F) : F :=
  (Lagrange.basis l.toFinset (fun j : U32 => (j.toNat : F)) i).eval x

/-- What the dealers other than `l` contribute to the key of participant `i`. -/
def Spec.othersShare (D : List U32) (l : U32) (others : U32 → List F) (i : U32) : F :=
  ∑ k ∈ D.toFinset.erase l, Spec.lagrange D k * Spec.polyEval (others k) (i.toNat : F)

/-- The key of participant `i`, from the polynomial `w` of dealer `l` and those of the other dealers. -/
def Spec.shareOfView (D : List U32) (l : U32) (others : U32 → List F) {t : ℕ} (w : Fin t → F) (i : U32) : F :=
  Spec.lagrange D l * Spec.polyEval (List.ofFn w) (i.toNat : F) + Spec.othersShare D l others i

/-- C143: these are the key and the share that `finish` returns. -/
theorem C143_keys {S : Suite F G R} (hg : S.GroupLaws) (hu : Suite.U32Inj F) {t : ℕ} (ht : t ≠ 0) (D : List U32)
    (hD : D.Nodup) (h0 : 0 ∉ D) (l : U32) (hl : l ∈ D) (others : U32 → List F) (ho : ∀ k ∈ D, k ≠ l → others k ≠ [])
    (J : List U32) (w : Fin t → F) (d : RoundTwo F G) (m : BMap (SecretShare F))
    (hV : HoldsVerified S d (dealerMap S D (Spec.dealtBy l (List.ofFn w) others)) m) :
    d.finish = .ok (Spec.keyOfView S D l others (Spec.dealerView S J l w),
      ⟨d.state.index, Spec.shareOfView D l others w d.state.index⟩) := by
  obtain ⟨sk, h1⟩ := C140_key_of_view hg hu ht D hD h0 l hl others ho J w d m hV
  have hcs : ∀ k ∈ D, Spec.dealtBy l (List.ofFn w) others k ≠ [] := by
    intro k hk
    unfold Spec.dealtBy
    split
    · exact fun h => ht (by simpa using congrArg List.length h)
    · next hkl => exact ho k hk hkl
  have h2 := finish_phase hg hu D hD h0 _ hcs d m hV
  rw [h1] at h2 ⊢
  have h3 := (Prod.mk.inj (Except.ok.inj h2)).2
  rw [h3]
  congr 3
  unfold Spec.shareOfView Spec.othersShare
  rw [← Finset.add_sum_erase _ _ (List.mem_toFinset.mpr hl)]
  congr 1
  · simp only [Spec.dealtBy, if_true]
    rfl
  · refine Finset.sum_congr rfl fun i hi => ?_
    simp only [Spec.dealtBy, if_neg (Finset.ne_of_mem_erase hi)]
    rfl

/-- How the keys depend on the secret of dealer `l`, given the shares `y` of the participants `J`. -/
noncomputable def Spec.kitOfView (D : List U32) (l : U32) (J : List U32) (others : U32 → List F) (y : {j // j ∈ J} → F) :
    Spec.Kit F where
  scale := Spec.lagrange D l
  shift := Spec.othersSecret D l others
  keyScale i := Spec.lagrange D l * Spec.basisAt (0 :: J) 0 (i.toNat : F)
  keyShift i := Spec.lagrange D l * (∑ j ∈ J.toFinset, Spec.basisAt (0 :: J) j (i.toNat : F) *
    (if h : j ∈ J then y ⟨j, h⟩ else 0)) + Spec.othersShare D l others i

/-- A polynomial from its secret and `t - 1` shares. -/
theorem polyEval_basis (hu : Suite.U32Inj F) (t : ℕ) (J : List U32) (hJ : J.Nodup) (h0 : 0 ∉ J) (ht : J.length + 1 = t)
    (w : Fin t → F) (x : F) :
    Spec.polyEval (List.ofFn w) x = Spec.basisAt (0 :: J) 0 x * Spec.polyEval (List.ofFn w) 0 +
      ∑ j ∈ J.toFinset, Spec.basisAt (0 :: J) j x * Spec.polyEval (List.ofFn w) (j.toNat : F) := by
  have hn : (0 :: J).Nodup := List.nodup_cons.mpr ⟨h0, hJ⟩
  have hcard : (0 :: J).toFinset.card = t := by rw [List.toFinset_card_of_nodup hn]; simpa using ht
  have hinj := u32F_injOn hu (0 :: J).toFinset
  have hdeg : (Lagrange.interpolate (0 :: J).toFinset (u32F F) fun i => Spec.polyEval (List.ofFn w) (u32F F i)).degree < t := by
    have := Lagrange.degree_interpolate_lt (fun i => Spec.polyEval (List.ofFn w) (u32F F i)) hinj
    rwa [hcard] at this
  have h := (ofPoly_interpolate hu t J hJ h0 ht (fun i => Spec.polyEval (List.ofFn w) (u32F F i)) (List.ofFn w)).mp
    ⟨by simp, by rw [u32F_zero, Spec.polyEval_zero], fun j _ => rfl⟩
  have h0' : (0 : U32) ∉ J.toFinset := fun h => h0 (List.mem_toFinset.mp h)
  have e : Spec.polyEval (List.ofFn w) x =
      (Lagrange.interpolate (0 :: J).toFinset (u32F F) fun i => Spec.polyEval (List.ofFn w) (u32F F i)).eval x := by
    conv_lhs => rw [h]
    exact ofPoly_eval _ _ hdeg x
  rw [e, Lagrange.interpolate_apply, Polynomial.eval_finset_sum]
  simp only [Polynomial.eval_mul, Polynomial.eval_C]
  unfold Spec.basisAt
  simp only [List.toFinset_cons]
  rw [Finset.sum_insert h0', u32F_zero, mul_comm]
  congr 1
  exact Finset.sum_congr rfl fun j _ => mul_comm _ _

/-- The insider that first gets a view of the polynomial of dealer `l`, computed from a point and shares. -/
noncomputable def Spec.Insider.afterView {J : List U32} (B : Spec.Insider (Ω × (List G × ({j // j ∈ J} → F))) F G)
    (S : Suite F G R) (t : ℕ) (X : G) : Spec.Insider (Ω × ({j // j ∈ J} → F)) F G where
  move ω := B.move (ω.1, Spec.simulatedDealerView S J t X ω.2)
  result ω := B.result (ω.1, Spec.simulatedDealerView S J t X ω.2)

/-- C143: the same for `t - 1` participants `J` of a key generation with one honest dealer `l`, as in C140 and C141: they
see their part of the polynomial of `l`, choose the polynomials of all other dealers, and then take part in any number of
signing sessions, at the same time, with the honest signers `H`, whose keys are those that `finish` returned. If they
forge a signature for the group key with chance `ε`, then the solver finds one more discrete logarithm than it asks for
with chance at least `ε (ε / (n + 1) - 1 / |F|) - 2 n² |H| / |F|`. -/
theorem C143_below_threshold [Fintype F] [Fintype U32] [Fintype Ω] [Nonempty Ω] {S : Suite F G R} (hS : S.Lawful)
    (D : List U32) (h0 : 0 ∉ D) (l : U32) (J : List U32) (hJ : J.Nodup) (hJ0 : 0 ∉ J) (t : ℕ) (ht : J.length + 1 = t)
    (others : Ω × (List G × ({j // j ∈ J} → F)) → U32 → List F) (dbg : Bool) (H : List U32) (n : ℕ) (hn : n ≤ 2 ^ 63)
    (B : Spec.Insider (Ω × (List G × ({j // j ∈ J} → F))) F G) :
    let forged : ℚ := Spec.chance fun z : (Ω × (Fin t → F) × Spec.Draw F (F × F)) × (Fin (n + 1) → Spec.Cell F (F × F)) =>
      let v := (z.1.1, Spec.dealerView S J l z.1.2.1)
      B.Succeeds S dbg H n (Spec.shareOfView D l (others v) z.1.2.1) (Spec.keyOfView S D l (others v) v.2) v z.1.2.2 z.2
    forged * (forged / ((n + 1 : ℕ) : ℚ) - 1 / (Fintype.card F : ℚ)) -
        2 * (n : ℚ) ^ 2 * (H.length : ℚ) / (Fintype.card F : ℚ) ≤
      Spec.chance fun y : ((Ω × ({j // j ∈ J} → F)) × F × Spec.Draw F (F × F)) × (Fin (n + 1) → Spec.Cell F (F × F)) ×
          (Fin (n + 1) → Spec.Cell F (F × F)) =>
        Spec.Insider.Solves (B.afterView S t) S dbg H n
          (fun ω X => Spec.kitOfView D l J (others (ω.1, Spec.simulatedDealerView S J t X ω.2)) ω.2)
          y.1.1 y.1.2.1 y.1.2.2 y.2.1 y.2.2 := by
  intro forged
  have h := C143_concurrent_sessions (Ω := Ω × ({j // j ∈ J} → F)) hS.codec hS.group hS.u32 dbg H n hn
    (fun ω X => Spec.kitOfView D l J (others (ω.1, Spec.simulatedDealerView S J t X ω.2)) ω.2)
    (fun ω X => lagrange_ne_zero hS.u32 D h0 l) (B.afterView S t)
  refine le_trans (le_of_eq ?_) h
  have hbij := secretAndValues_bijective hS.u32 J hJ hJ0 t ht
  let e := Equiv.ofBijective _ hbij
  let φ : (Ω × (Fin t → F) × Spec.Draw F (F × F)) × (Fin (n + 1) → Spec.Cell F (F × F)) ≃
      ((Ω × ({j // j ∈ J} → F)) × F × Spec.Draw F (F × F)) × (Fin (n + 1) → Spec.Cell F (F × F)) :=
    { toFun := fun z => (((z.1.1, (e z.1.2.1).2), (e z.1.2.1).1, z.1.2.2), z.2)
      invFun := fun z => ((z.1.1.1, e.symm (z.1.2.1, z.1.1.2), z.1.2.2), z.2)
      left_inv := fun z => by simp
      right_inv := fun z => by simp }
  have hw : forged = Spec.chance fun y : ((Ω × ({j // j ∈ J} → F)) × F × Spec.Draw F (F × F)) ×
      (Fin (n + 1) → Spec.Cell F (F × F)) =>
      Spec.Insider.Wins (B.afterView S t) S dbg H n
        (fun ω X => Spec.kitOfView D l J (others (ω.1, Spec.simulatedDealerView S J t X ω.2)) ω.2)
        y.1.1 y.1.2.1 y.1.2.2 y.2 := by
    rw [← chance_bijective φ φ.bijective]
    refine chance_congr ?_
    rintro ⟨⟨ω, w, d⟩, g⟩
    have he1 : (e w).1 = Spec.polyEval (List.ofFn w) 0 := rfl
    have he2 : (e w).2 = fun j : {j // j ∈ J} => Spec.polyEval (List.ofFn w) (j.1.toNat : F) := rfl
    have hview := simulatedDealerView_eq hS.u32 S J hJ hJ0 t ht l w
    rw [← he1, ← he2] at hview
    have hkey : (Spec.kitOfView D l J (others (ω, Spec.dealerView S J l w)) (e w).2).key (e w).1 =
        Spec.shareOfView D l (others (ω, Spec.dealerView S J l w)) w := by
      funext i
      unfold Spec.Kit.key Spec.kitOfView Spec.shareOfView
      simp only
      rw [polyEval_basis hS.u32 t J hJ hJ0 ht w (i.toNat : F), he1]
      have : ∀ j ∈ J.toFinset, Spec.basisAt (0 :: J) j (i.toNat : F) * (if h : j ∈ J then (e w).2 ⟨j, h⟩ else 0) =
          Spec.basisAt (0 :: J) j (i.toNat : F) * Spec.polyEval (List.ofFn w) (j.toNat : F) := by
        intro j hj
        rw [dif_pos (List.mem_toFinset.mp hj)]
        rfl
      rw [Finset.sum_congr rfl this]
      ring
    have hgk : (Spec.kitOfView D l J (others (ω, Spec.dealerView S J l w)) (e w).2).groupKey S ((e w).1 • S.gen) =
        Spec.keyOfView S D l (others (ω, Spec.dealerView S J l w)) (Spec.dealerView S J l w) := by
      rw [Spec.Kit.groupKey_eq, keyOfView_eq S D l _ J t ht w]
      rfl
    have hplay : ∀ key Y c r u k, (B.afterView S t ((e w).1 • S.gen)).play S dbg H key Y (ω, (e w).2) c r u k =
        B.play S dbg H key Y (ω, Spec.dealerView S J l w) c r u k := by
      intro key Y c r u k
      induction k with
      | zero => rfl
      | succ k ih =>
        rw [Spec.Insider.play_succ, Spec.Insider.play_succ, ih]
        show Spec.gameStep S dbg H key Y (B.move (ω, Spec.simulatedDealerView S J t _ (e w).2) _) _ _ _ _ = _
        rw [hview]
    have hres : ∀ l', (B.afterView S t ((e w).1 • S.gen)).result (ω, (e w).2) l' =
        B.result (ω, Spec.dealerView S J l w) l' := by
      intro l'
      show B.result (ω, Spec.simulatedDealerView S J t _ (e w).2) l' = _
      rw [hview]
    show _ ↔ Spec.Insider.Wins (B.afterView S t) S dbg H n _ (ω, (e w).2) (e w).1 d g
    unfold Spec.Insider.Wins
    beta_reduce
    rw [hview, hkey, hgk]
    unfold Spec.Insider.Succeeds
    simp only [hplay, hres]
  rw [hw]

/-! ### A concrete insider -/

section Examples
open Toy

/-- An insider that knows the secret of the group (in the toy group it is the group key): it lets signer 1 announce a
nonce pair and sign `[7]` with it, and then signs `[1, 2]` itself. -/
def moonlighter {Ω : Type} (Y : Ω → Fp) : Spec.Insider Ω Fp Fp where
  move ω replies := match replies with
    | [] => .announce 1
    | [.commitments P] => .sign 1 0 [7] [⟨1, P⟩]
    | _ => .hash (Spec.challengeQuestion suite 5 (Y ω) [1, 2])
  result ω replies := match replies with
    | [_, _, .answer c] => ([1, 2], ⟨5, 5 + c * Y ω⟩)
    | _ => ([], ⟨0, 0⟩)

theorem moonlighter_succeeds {Ω : Type} (H : List U32) (hH : 1 ∈ H) (Y : Ω → Fp) (key : U32 → Fp) (ω : Ω)
    (d : Spec.Draw Fp (Fp × Fp)) (h : Fin (3 + 1) → Spec.Cell Fp (Fp × Fp)) :
    (moonlighter Y).Succeeds suite true H 3 key (Y ω) ω d h := by
  unfold Spec.Insider.Succeeds
  generalize Spec.answers h = c
  generalize (fun a => (Spec.drawn d h a).1) = r
  generalize (fun a => (Spec.drawn d h a).2) = u
  have hbf : (Spec.challengeQuestion suite 5 (Y ω) [1, 2]).isFactor suite = false := challenge_isFactor suite _ _ _
  obtain ⟨out, h1, h2, h3⟩ : ∃ out : Res Fp Fp Fp,
      ((moonlighter Y).play suite true H key (Y ω) ω c r u 2).1.replies =
        [.commitments ((u 0).1 • suite.gen, (u 0).2 • suite.gen), .response out] ∧
      ((moonlighter Y).play suite true H key (Y ω) ω c r u 2).1.named =
        [none, some ([7], [⟨1, ((u 0).1 • suite.gen, (u 0).2 • suite.gen)⟩])] ∧
      ∀ m ∈ ((moonlighter Y).play suite true H key (Y ω) ω c r u 2).1.signed, m = [7] := by
    rw [Spec.Insider.play_succ]
    have hm : (moonlighter Y).move ω ((moonlighter Y).play suite true H key (Y ω) ω c r u 1).1.replies =
        .sign 1 0 [7] [⟨1, ((u 0).1 • suite.gen, (u 0).2 • suite.gen)⟩] := rfl
    rw [hm]
    unfold Spec.gameStep
    simp only [hH, if_true]
    generalize (IceFrost.sign (Spec.withTable suite _) true _ _ _ _ _ _) = o
    refine ⟨o.1.map (·.z), ?_, ?_, ?_⟩
    · split_ifs <;> rfl
    · split_ifs <;> rfl
    · split_ifs
      · intro m hm
        exact List.mem_singleton.mp hm
      · intro m hm
        exact absurd hm (by show m ∉ []; simp)
  rw [Spec.Insider.play_succ, h1]
  have hm : (moonlighter Y).move ω [.commitments ((u 0).1 • suite.gen, (u 0).2 • suite.gen), .response out] =
    .hash (Spec.challengeQuestion suite 5 (Y ω) [1, 2]) := rfl
  rw [hm]
  generalize hst : (moonlighter Y).play suite true H key (Y ω) ω c r u 2 = st at h1 h2 h3 ⊢
  unfold Spec.gameStep Spec.Board.hash
  simp only [hbf, Bool.false_eq_true, if_false, h1, h2]
  generalize ha : (st.1.table.lookup (Spec.challengeQuestion suite 5 (Y ω) [1, 2])).getD (c 2) = a
  have hres : (moonlighter Y).result ω ([.commitments ((u 0).1 • suite.gen, (u 0).2 • suite.gen), .response out] ++
    [.answer a]) = ([1, 2], ⟨5, 5 + a * Y ω⟩) := rfl
  rw [hres]
  have hl : (st.1.table ++ [(Spec.challengeQuestion suite 5 (Y ω) [1, 2], a)]).lookup
      (Spec.challengeQuestion suite 5 (Y ω) [1, 2]) = some a := by
    rw [List.lookup_append]
    cases hc : st.1.table.lookup (Spec.challengeQuestion suite 5 (Y ω) [1, 2]) with
    | none => simp
    | some a' => rw [hc] at ha; simpa using ha
  refine ⟨?_, ?_, ?_⟩
  · refine (verify_iff _ _ _ _).mpr ?_
    have e := challenge_eq suite _ 5 (Y ω) [1, 2]
      (lookup_append_self (T := st.1.table ++ [(Spec.challengeQuestion suite 5 (Y ω) [1, 2], a)])
        (b := Spec.challengeQuestion suite 5 (Y ω) [1, 2]) (c := c 3))
    unfold Spec.SigValid
    show Spec.Schnorr suite.gen 5 (Y ω) (Spec.challenge _ 5 (Y ω) [1, 2]) (5 + a * Y ω)
    rw [show Spec.challenge (Spec.withTable suite (st.1.table ++ [(Spec.challengeQuestion suite 5 (Y ω) [1, 2], a)] ++
      [(Spec.resultQuestion suite (Y ω) ([1, 2], ⟨5, 5 + a * Y ω⟩), ((st.1.table ++ [(Spec.challengeQuestion suite 5 (Y ω)
      [1, 2], a)]).lookup (Spec.resultQuestion suite (Y ω) ([1, 2], ⟨5, 5 + a * Y ω⟩))).getD (c 3))])) 5 (Y ω) [1, 2] = _
      from e, hl]
    unfold Spec.Schnorr
    rw [smul_gen]
    rfl
  · intro hin
    exact absurd (h3 _ hin) (by show ¬([1, 2] : Bytes) = [7]; decide)
  · intro m B m' B' i hm hm'
    simp at hm hm'
    rw [hm.1, hm.2, hm'.1, hm'.2]
    exact fun _ => ⟨rfl, rfl⟩

/-- In this game the honest signer does sign. -/
example : ((moonlighter fun _ : Unit => (9 : Fp)).play suite true [1] (fun _ => 9) 9 () (fun _ => 5) (fun _ _ => 8)
    (fun _ => (3, 4)) 3).1.signed = [[7]] := by decide +kernel

/-- Keys `x + 4 i` of participants, and the group key of `x`. -/
def lineKit : Spec.Kit Fp where
  scale := 1
  shift := 0
  keyScale _ := 1
  keyShift i := 4 * (i.toNat : Fp)

theorem lineKit_groupKey (X : Fp) : lineKit.groupKey suite X = X := by
  have := Spec.Kit.groupKey_eq suite lineKit X
  rw [smul_gen] at this
  rw [this, smul_gen]
  simp [Spec.Kit.secret, lineKit]

example [Fintype Fp] [Fintype U32] :
    1 * (1 / ((3 + 1 : ℕ) : ℚ) - 1 / (Fintype.card Fp : ℚ)) - 2 * ((3 : ℕ) : ℚ) ^ 2 * (([1] : List U32).length : ℚ) /
        (Fintype.card Fp : ℚ) ≤
      Spec.chance fun y : (Unit × Fp × Spec.Draw Fp (Fp × Fp)) × (Fin (3 + 1) → Spec.Cell Fp (Fp × Fp)) ×
          (Fin (3 + 1) → Spec.Cell Fp (Fp × Fp)) =>
        Spec.Insider.Solves (fun X => moonlighter fun _ => X) suite true [1] 3 (fun _ _ => lineKit) y.1.1 y.1.2.1 y.1.2.2
          y.2.1 y.2.2 := by
  have h := C143_concurrent_sessions (Ω := Unit) codec_laws group_laws u32_inj true [1] 3 (by norm_num)
    (fun _ _ => lineKit) (fun _ _ => one_ne_zero) (fun X => moonlighter fun _ => X)
  have h1 := chance_one (A := (Unit × Fp × Spec.Draw Fp (Fp × Fp)) × (Fin (3 + 1) → Spec.Cell Fp (Fp × Fp)))
    (E := fun y => Spec.Insider.Wins (fun X => moonlighter fun _ => X) suite true [1] 3 (fun _ _ => lineKit) y.1.1 y.1.2.1
      y.1.2.2 y.2) fun y => by
    unfold Spec.Insider.Wins
    rw [lineKit_groupKey]
    exact moonlighter_succeeds [1] (by decide) (fun _ => y.1.2.1 • suite.gen) _ _ _ _
  simp only at h
  rw [h1] at h
  exact h

example (d : Spec.Draw Fp (Fp × Fp)) (h h' : Fin (3 + 1) → Spec.Cell Fp (Fp × Fp)) :
    (((moonlighter fun _ : Unit => (9 : Fp)).solver suite true [1] 3 lineKit () 9 d h h').questions fun P => P).length + 1 =
      2 * (Spec.pairLabels 3).length + 1 :=
  C143_questions _ suite true [1] 3 lineKit () 9 d h h' fun P => P

/-- The same for colluders in a key generation. -/
example [Fintype Fp] [Fintype U32] :
    1 * (1 / ((3 + 1 : ℕ) : ℚ) - 1 / (Fintype.card Fp : ℚ)) - 2 * ((3 : ℕ) : ℚ) ^ 2 * (([1] : List U32).length : ℚ) /
        (Fintype.card Fp : ℚ) ≤
      Spec.chance fun y : ((Unit × ({j // j ∈ colluders} → Fp)) × Fp × Spec.Draw Fp (Fp × Fp)) ×
          (Fin (3 + 1) → Spec.Cell Fp (Fp × Fp)) × (Fin (3 + 1) → Spec.Cell Fp (Fp × Fp)) =>
        Spec.Insider.Solves ((moonlighter colluderSecret).afterView suite 3) suite true [1] 3
          (fun ω X => Spec.kitOfView [1, 2, 3] 1 colluders (colluderOthers (ω.1, Spec.simulatedDealerView suite colluders 3 X
            ω.2)) ω.2) y.1.1 y.1.2.1 y.1.2.2 y.2.1 y.2.2 := by
  have h := C143_below_threshold (Ω := Unit) lawful [1, 2, 3] (by decide) 1 colluders (by decide) (by decide) 3 rfl
    colluderOthers true [1] 3 (by norm_num) (moonlighter colluderSecret)
  have h1 := chance_one (A := (Unit × (Fin 3 → Fp) × Spec.Draw Fp (Fp × Fp)) × (Fin (3 + 1) → Spec.Cell Fp (Fp × Fp)))
    (E := fun z => (moonlighter colluderSecret).Succeeds suite true [1] 3
      (Spec.shareOfView [1, 2, 3] 1 (colluderOthers (z.1.1, Spec.dealerView suite colluders 1 z.1.2.1)) z.1.2.1)
      (Spec.keyOfView suite [1, 2, 3] 1 (colluderOthers (z.1.1, Spec.dealerView suite colluders 1 z.1.2.1))
        (Spec.dealerView suite colluders 1 z.1.2.1)) (z.1.1, Spec.dealerView suite colluders 1 z.1.2.1) z.1.2.2 z.2) fun z =>
    moonlighter_succeeds [1] (by decide) colluderSecret _ _ _ _
  simp only at h
  rw [h1] at h
  exact h

/-- The keys of that game are those of the key generation. -/
example (w : Fin 3 → Fp) :
    let view := Spec.dealerView suite colluders 1 w
    (honestState suite ⟨4, 3⟩ [1, 2, 3] (Spec.dealtBy 1 (List.ofFn w) (colluderOthers ((), view))) 4).finish =
      .ok (Spec.keyOfView suite [1, 2, 3] 1 (colluderOthers ((), view)) view,
        ⟨4, Spec.shareOfView [1, 2, 3] 1 (colluderOthers ((), view)) w 4⟩) :=
  C143_keys group_laws u32_inj (by decide) [1, 2, 3] (by decide) (by decide) 1 (by decide) _
    (fun k _ _ => by unfold colluderOthers; split <;> simp) colluders w _ _ (honestState_holds suite ⟨4, 3⟩ (by decide) _ 4)

end Examples

end IceFrost
