import Verif.Props.CipherSecrecy
import Verif.Lemmas.Switching

/-!
# C171: AES-128 compared with a random permutation

C165 and C166 compare AES-128 with a random function. AES-128 is a permutation for every key (C167), and what is assumed of it is
that it cannot be told from a random permutation. Here the advantage of C165 and C166 is bounded by the advantage against a random
permutation, and by the number of calls of the block cipher.
-/

set_option linter.unusedSectionVars false
set_option linter.unusedSimpArgs false
set_option linter.unusedVariables false

namespace IceFrost

open Finset

/-- How well the test `D` tells AES-128 under a random key from a random permutation of the blocks. -/
noncomputable def Spec.permutationAdvantage {Ω : Type} [Fintype Ω] (D : Ω → (Bytes → Bytes) → Prop) : ℚ :=
  |(Spec.chance fun x : Ω × (Fin 16 → Fin 256) => D x.1 (Aes.encrypt (List.ofFn fun k => UInt8.ofFin (x.2 k)))) -
    Spec.chance fun x : Ω × Equiv.Perm Spec.Block => D x.1 (Spec.cipherOf x.2)|

/-! ### Questions that are fixed before -/

section Fixed
variable {X : Type}

/-- The function that answers as recorded. -/
def recalled [DecidableEq X] [Inhabited X] (t : List (X × X)) (x : X) : X := (t.lookup x).getD default

theorem recalled_eq [DecidableEq X] [Inhabited X] (f : X → X) (l : List X) (x : X) (hx : x ∈ l) :
    recalled (l.map fun x => (x, f x)) x = f x := by
  unfold recalled
  induction l with
  | nil => cases hx
  | cons a l ih =>
    rw [List.map_cons, List.lookup_cons]
    by_cases h : x = a
    · subst h; simp
    · rw [beq_false_of_ne h]
      exact ih ((List.mem_cons.mp hx).resolve_left h)

/-- The questions `pts`, then one that depends on the answers. -/
def thenAsk [DecidableEq X] [Inhabited X] (pts : List X) (z : (X → X) → X) (t : List (X × X)) : X :=
  if h : t.length < pts.length then pts[t.length] else z (recalled t)

theorem questions_fixed [DecidableEq X] [Inhabited X] (pts : List X) (z : (X → X) → X) (f : X → X) (j : ℕ) (hj : j ≤ pts.length) :
    Spec.questions (thenAsk pts z) f j = (pts.take j).map fun x => (x, f x) := by
  induction j with
  | zero => rfl
  | succ j ih =>
    have hl : ((pts.take j).map fun x => (x, f x)).length = j := by rw [List.length_map, List.length_take]; omega
    rw [Spec.questions, ih (by omega)]
    have e : thenAsk pts z ((pts.take j).map fun x => (x, f x)) = pts[j] := by
      unfold thenAsk
      rw [dif_pos (by omega)]
      simp only [hl]
    rw [e, List.take_succ_eq_append_getElem (by omega), List.map_append]
    rfl

theorem decided_fixed [DecidableEq X] [Inhabited X] (pts : List X) (z : (X → X) → X) (D : (X → X) → Prop)
    (h : ∀ f g : X → X, (∀ x ∈ pts, g x = f x) → (D f ↔ D g)) : Spec.Decided (thenAsk pts z) pts.length D := by
  intro f g hfg
  rw [questions_fixed pts z f _ le_rfl, List.take_length] at hfg
  exact h f g fun x hx => hfg (x, f x) (List.mem_map.mpr ⟨x, hx, rfl⟩)

theorem decided_then [DecidableEq X] [Inhabited X] (pts : List X) (z : (X → X) → X)
    (hz : ∀ f g : X → X, (∀ x ∈ pts, g x = f x) → z g = z f) (D : (X → X) → Prop)
    (h : ∀ f g : X → X, (∀ x ∈ pts, g x = f x) → g (z f) = f (z f) → (D f ↔ D g)) :
    Spec.Decided (thenAsk pts z) (pts.length + 1) D := by
  intro f g hfg
  have e : thenAsk pts z (pts.map fun x => (x, f x)) = z f := by
    unfold thenAsk
    rw [dif_neg (by rw [List.length_map]; omega)]
    exact hz f _ fun x hx => recalled_eq f pts x hx
  rw [Spec.questions, questions_fixed pts z f _ le_rfl, List.take_length, e] at hfg
  refine h f g (fun x hx => hfg (x, f x) (List.mem_append_left _ (List.mem_map.mpr ⟨x, hx, rfl⟩))) ?_
  exact hfg (z f, f (z f)) (List.mem_append_right _ (List.mem_singleton.mpr rfl))

end Fixed

/-! ### The switch -/

section
variable {Ω : Type} [Fintype Ω] [Nonempty Ω]

theorem switch_each {X : Type} [Fintype X] [DecidableEq X] [AddCommGroup X] (next : Ω → List (X × X) → X) (q : ℕ)
    (D : Ω → (X → X) → Prop) (hD : ∀ ω, Spec.Decided (next ω) q (D ω)) :
    |(Spec.chance fun x : Ω × (X → X) => D x.1 x.2) - Spec.chance fun x : Ω × Equiv.Perm X => D x.1 x.2| ≤
      (q * (q - 1) : ℚ) / 2 / Fintype.card X := by
  rw [chance_prod, chance_prod, ← sub_div, ← Finset.sum_sub_distrib, abs_div, Nat.abs_cast]
  have hΩ : (0 : ℚ) < Fintype.card Ω := by exact_mod_cast Fintype.card_pos
  rw [div_le_iff₀ hΩ]
  refine le_trans (Finset.abs_sum_le_sum_abs _ _) (le_trans (Finset.sum_le_sum fun ω _ => switching (next ω) q (D ω) (hD ω)) ?_)
  rw [Finset.sum_const, Finset.card_univ, nsmul_eq_mul, mul_comm]

/-- C171: a test that calls the block cipher `q` times, with blocks chosen after the results before, tells AES-128 from a random
function at most as well as from a random permutation, up to `q (q - 1) / 2^129`. -/
theorem C171_switch (next : Ω → List (Spec.Block × Spec.Block) → Spec.Block) (q : ℕ) (D : Ω → (Bytes → Bytes) → Prop)
    (hD : ∀ ω, Spec.Decided (next ω) q fun f => D ω (Spec.cipherOf f)) :
    Spec.aesAdvantage D ≤ Spec.permutationAdvantage D + (q * (q - 1) : ℚ) / 2 ^ 129 := by
  have h := switch_each next q (fun ω f => D ω (Spec.cipherOf f)) hD
  rw [Fintype.card_fin] at h
  have e : (q * (q - 1) : ℚ) / 2 / ((2 ^ 128 : ℕ) : ℚ) = (q * (q - 1) : ℚ) / 2 ^ 129 := by
    rw [div_div]; norm_num
  rw [e] at h
  unfold Spec.aesAdvantage Spec.permutationAdvantage
  refine le_trans (abs_sub_le _ (Spec.chance fun x : Ω × Equiv.Perm Spec.Block => D x.1 (Spec.cipherOf x.2)) _) ?_
  refine add_le_add le_rfl ?_
  rw [abs_sub_comm]
  exact h

/-- The number of calls of the block cipher when letters are encrypted: one for the key of the tags, and for each letter one for
the tag and one for every 16 bytes begun. -/
def Spec.blockCalls (letters : List (Bytes × Bytes)) : ℕ := 1 + (letters.map fun l => (l.2.length + 15) / 16 + 1).sum

/-- The blocks. -/
def callsOf (letters : List (Bytes × Bytes)) : List Spec.Block :=
  Gf.origin :: letters.flatMap fun l => (List.range ((l.2.length + 15) / 16 + 1)).map fun i => Gf.point l.1 (i + 1)

theorem callsOf_length (letters : List (Bytes × Bytes)) : (callsOf letters).length = Spec.blockCalls letters := by
  unfold callsOf Spec.blockCalls
  rw [List.length_cons, List.length_flatMap, Nat.add_comm]
  simp only [List.length_map, List.length_range]

theorem sealWith_congr {f g : Spec.Block → Spec.Block} (n p : Bytes) (h0 : g Gf.origin = f Gf.origin)
    (h : ∀ i < (p.length + 15) / 16 + 1, g (Gf.point n (i + 1)) = f (Gf.point n (i + 1))) :
    Spec.sealWith (Spec.cipherOf g) n p = Spec.sealWith (Spec.cipherOf f) n p := by
  unfold Spec.sealWith
  rw [Gf.stream_congr fun i hi => h (i + 1) (by omega)]
  exact Prod.ext rfl (Gf.tag_congr (h 0 (by omega)) h0)

theorem sealedWith_congr {f g : Spec.Block → Spec.Block} (letters : List (Bytes × Bytes)) (h : ∀ x ∈ callsOf letters, g x = f x) :
    Spec.sealedWith (Spec.cipherOf g) letters = Spec.sealedWith (Spec.cipherOf f) letters := by
  unfold Spec.sealedWith
  refine List.map_congr_left fun l hl => ?_
  rw [sealWith_congr l.1 l.2 (h _ (List.mem_cons_self)) fun i hi => h _ (List.mem_cons_of_mem _ (List.mem_flatMap.mpr
    ⟨l, hl, List.mem_map.mpr ⟨i, List.mem_range.mpr hi, rfl⟩⟩))]

theorem questions_more {X : Type} {next : List (X × X) → X} {q q' : ℕ} (hq : q ≤ q') {D : (X → X) → Prop}
    (hD : Spec.Decided next q D) : Spec.Decided next q' D := by
  intro f g h
  refine hD f g fun p hp => h p ?_
  obtain ⟨k, rfl⟩ := Nat.exists_eq_add_of_le hq
  clear h hq
  induction k with
  | zero => exact hp
  | succ k ih => exact List.mem_append_left _ ih

/-- C171: the tests of C166 call the block cipher at most `q` times if the letters need at most `q` calls. -/
theorem C171_sealed (letters : Ω → List (Bytes × Bytes)) (q : ℕ) (hq : ∀ ω, Spec.blockCalls (letters ω) ≤ q)
    (D : Ω → List (Option Bytes) → Prop) :
    (Spec.aesAdvantage fun ω E => D ω (Spec.sealedWith E (letters ω))) ≤
      (Spec.permutationAdvantage fun ω E => D ω (Spec.sealedWith E (letters ω))) + (q * (q - 1) : ℚ) / 2 ^ 129 := by
  have : Inhabited Spec.Block := ⟨Gf.origin⟩
  refine C171_switch (fun ω => thenAsk (callsOf (letters ω)) fun _ => Gf.origin) q _ fun ω => ?_
  refine questions_more (le_trans (le_of_eq (callsOf_length (letters ω))) (hq ω)) (decided_fixed _ _ _ fun f g h => ?_)
  rw [sealedWith_congr _ h]

/-- C171: ciphertexts tell nothing but their length, up to the advantage against a random permutation. -/
theorem C171_hidden (letters letters' : Ω → List (Bytes × Bytes)) (h : ∀ ω, Spec.SameShape (letters ω) (letters' ω))
    (q : ℕ) (hq : ∀ ω, Spec.blockCalls (letters ω) ≤ q) (D : Ω → List (Option Bytes) → Prop) :
    |(Spec.chance fun x : Ω × (Fin 16 → Fin 256) =>
        D x.1 (Spec.sealedWith (Aes.encrypt (List.ofFn fun k => UInt8.ofFin (x.2 k))) (letters x.1))) -
      Spec.chance fun x : Ω × (Fin 16 → Fin 256) =>
        D x.1 (Spec.sealedWith (Aes.encrypt (List.ofFn fun k => UInt8.ofFin (x.2 k))) (letters' x.1))| ≤
      (Spec.permutationAdvantage fun ω E => D ω (Spec.sealedWith E (letters ω))) +
        (Spec.permutationAdvantage fun ω E => D ω (Spec.sealedWith E (letters' ω))) + (q * (q - 1) : ℚ) / 2 ^ 128 := by
  have hq' : ∀ ω, Spec.blockCalls (letters' ω) ≤ q := by
    intro ω
    refine le_trans (le_of_eq ?_) (hq ω)
    unfold Spec.blockCalls
    have e : ∀ l : List (Bytes × Bytes), (l.map fun x => (x.2.length + 15) / 16 + 1) =
        (l.map fun x => (x.1, x.2.length)).map fun y => (y.2 + 15) / 16 + 1 := fun l => by rw [List.map_map]; rfl
    rw [e, e, (h ω).shape]
  have h1 := C166_aes letters letters' h D
  have h2 := C171_sealed letters q hq D
  have h3 := C171_sealed letters' q hq' D
  have e : (q * (q - 1) : ℚ) / 2 ^ 128 = (q * (q - 1) : ℚ) / 2 ^ 129 + (q * (q - 1) : ℚ) / 2 ^ 129 := by
    rw [← add_div, ← two_mul, show (2 : ℚ) ^ 129 = 2 * 2 ^ 128 by norm_num, mul_div_mul_left _ _ (by norm_num)]
  rw [e]
  linarith

end

/-! ### Altered shares -/

section
variable {Ω R : Type} [Fintype Ω] [Nonempty Ω]

/-- C171: an altered share is not opened, up to the advantage against a random permutation: with `N` shares under one key the
block cipher is called `3 N + 1` times, and once more for the tag of what is presented. -/
theorem C171_altered (Z : Secp.Source R) (ikm : Bytes) {N : ℕ} (share : Ω → Fin N → SecretShare Secp.Fn)
    (rng : Ω → Fin N → R) (hn : ∀ ω, Function.Injective fun k => (Z.bytes 12 (rng ω k)).1)
    (T : Ω → (Fin N → EncShare) → EncShare) {L : ℕ} (h2 : 2 ≤ L) (hL : L ≤ 2 ^ 32 - 2) :
    (Spec.chance fun x : Ω × (Fin 16 → Fin 256) => Spec.Altered Z ikm (share x.1) (rng x.1) (T x.1) L
      (Aes.encrypt (List.ofFn fun k => UInt8.ofFin (x.2 k)))) ≤
      ((L + 1 : ℕ) : ℚ) / 2 ^ 128 + ((3 * N + 2 : ℕ) * (3 * N + 1 : ℕ) : ℚ) / 2 ^ 129 +
        Spec.permutationAdvantage fun ω E => Spec.Altered Z ikm (share ω) (rng ω) (T ω) L E := by
  have : Inhabited Spec.Block := ⟨Gf.origin⟩
  choose T' hT using fun ω => altered_wins Z ikm (share ω) (rng ω) (T ω) L
  let n : Ω → Fin N → Bytes := fun ω k => (Z.bytes 12 (rng ω k)).1
  let p : Ω → Fin N → Bytes := fun ω k => Secp.encScalar (share ω k).eval
  let letters : Ω → List (Bytes × Bytes) := fun ω => List.ofFn fun k => (n ω k, p ω k)
  have hcalls : ∀ ω, (callsOf (letters ω)).length = 3 * N + 1 := by
    intro ω
    rw [callsOf_length]
    unfold Spec.blockCalls
    simp only [letters, List.map_ofFn, List.sum_ofFn, Function.comp, p, Secp.encScalar_length]
    simp
    omega
  have hview : ∀ ω (f g : Spec.Block → Spec.Block), (∀ x ∈ callsOf (letters ω), g x = f x) →
      Gf.view (n ω) (p ω) g = Gf.view (n ω) (p ω) f := by
    intro ω f g h
    funext k
    refine sealWith_congr _ _ (h _ List.mem_cons_self) fun i hi => h _ (List.mem_cons_of_mem _ (List.mem_flatMap.mpr
      ⟨(n ω k, p ω k), (List.mem_ofFn' _ _).mpr ⟨k, rfl⟩, List.mem_map.mpr ⟨i, List.mem_range.mpr hi, rfl⟩⟩))
  have hw : ∀ ω, Spec.Decided (thenAsk (callsOf (letters ω)) fun f => Gf.point (T' ω (Gf.view (n ω) (p ω) f)).1 1) (3 * N + 2)
      (Gf.Wins (n ω) (p ω) (T' ω) L) := by
    intro ω
    have := decided_then (callsOf (letters ω)) (fun f => Gf.point (T' ω (Gf.view (n ω) (p ω) f)).1 1)
      (fun f g h => by simp only [hview ω f g h]) (Gf.Wins (n ω) (p ω) (T' ω) L) (fun f g h hz => by
        unfold Gf.Wins
        simp only [hview ω f g h]
        rw [Gf.tag_congr hz (h _ List.mem_cons_self)])
    rwa [hcalls ω] at this
  have h3 := switch_each (fun ω => thenAsk (callsOf (letters ω)) fun f => Gf.point (T' ω (Gf.view (n ω) (p ω) f)).1 1) (3 * N + 2)
    (fun ω => Gf.Wins (n ω) (p ω) (T' ω) L) hw
  have h4 : (Spec.chance fun x : Ω × (Spec.Block → Spec.Block) => Gf.Wins (n x.1) (p x.1) (T' x.1) L x.2) ≤
      ((L + 1 : ℕ) : ℚ) / 2 ^ 128 := by
    rw [chance_prod]
    have hΩ : (0 : ℚ) < Fintype.card Ω := by exact_mod_cast Fintype.card_pos
    rw [div_le_iff₀ hΩ, mul_comm]
    refine le_trans (Finset.sum_le_sum (g := fun _ => ((L + 1 : ℕ) : ℚ) / 2 ^ 128) fun ω _ => ?_) (le_of_eq ?_)
    · refine Gf.wins_chance (n ω) (p ω) (fun k => Z.bytes_length _ _) (hn ω) (fun k => ?_) hL (T' ω)
      have hk : (p ω k).length = 32 := Secp.encScalar_length _
      rw [hk]
      omega
    · rw [Finset.sum_const, Finset.card_univ, nsmul_eq_mul]
  have h5 : (Spec.chance fun x : Ω × Equiv.Perm Spec.Block => Spec.Altered Z ikm (share x.1) (rng x.1) (T x.1) L (Spec.cipherOf x.2)) ≤
      Spec.chance fun x : Ω × Equiv.Perm Spec.Block => Gf.Wins (n x.1) (p x.1) (T' x.1) L x.2 :=
    chance_mono fun x hx => hT x.1 x.2 hx
  rw [Fintype.card_fin] at h3
  have e : (((3 * N + 2 : ℕ) : ℚ) * (((3 * N + 2 : ℕ) : ℚ) - 1)) / 2 / ((2 ^ 128 : ℕ) : ℚ) =
      ((3 * N + 2 : ℕ) * (3 * N + 1 : ℕ) : ℚ) / 2 ^ 129 := by
    rw [div_div, show (2 : ℚ) * ((2 ^ 128 : ℕ) : ℚ) = 2 ^ 129 by norm_num]
    congr 2
    push_cast
    ring
  rw [e] at h3
  have h6 := (abs_le.mp h3).1
  have h7 := le_abs_self ((Spec.chance fun x : Ω × (Fin 16 → Fin 256) =>
    Spec.Altered Z ikm (share x.1) (rng x.1) (T x.1) L (Aes.encrypt (List.ofFn fun k => UInt8.ofFin (x.2 k)))) -
    Spec.chance fun x : Ω × Equiv.Perm Spec.Block =>
      Spec.Altered Z ikm (share x.1) (rng x.1) (T x.1) L (Spec.cipherOf x.2))
  unfold Spec.permutationAdvantage
  linarith

end

/-! ### The eavesdropper -/

section
variable {ι P Out R : Type} {c : ℕ} [Fintype ι] [DecidableEq ι] [Fintype Secp.Fn] [Fintype Secp.Point] [Fintype P]

/-- C171: whoever reads the wire (C166_wire), up to advantages against a random permutation. -/
theorem C171_wire [Nonempty (Spec.FreeCoins ι Secp.Fn Secp.Point Spec.AesKey P c)] (Z : Secp.Source R) {pair : Fin c → ι × ι}
    (hp : Spec.Pairs pair) (letters letters' : P → Fin c → List (Bytes × Bytes))
    (h : ∀ ρ n, Spec.SameShape (letters ρ n) (letters' ρ n)) (q : ℕ) (hq : ∀ ρ n, Spec.blockCalls (letters ρ n) ≤ q)
    (hq' : ∀ ρ n, Spec.blockCalls (letters' ρ n) ≤ q)
    (A : Spec.Reader ι Secp.Fn Secp.Point Spec.AesKey P Out c) (goal : Spec.Goal ι Secp.Fn Secp.Point P Out) :
    |Spec.chance (Spec.tapped (Secp.realSuite Z) pair (Spec.reading (Secp.realSuite Z) Spec.aesKey letters A) goal) -
        Spec.chance (Spec.untapped (Secp.realSuite Z) (Spec.reading (Secp.realSuite Z) Spec.aesKey letters' A) goal)| ≤
      ∑ n, (Spec.dhChance (Secp.realSuite Z) pair (Spec.reading (Secp.realSuite Z) Spec.aesKey letters A) n +
        (((Spec.permutationAdvantage fun x : Spec.FreeCoins ι Secp.Fn Secp.Point Spec.AesKey P c => fun E =>
          Spec.cipherTest (Secp.realSuite Z) Spec.aesKey letters letters' A goal n x
            (Spec.sealedWith E (letters x.2.2.2.2.2.2 n))) + (q * (q - 1) : ℚ) / 2 ^ 129) +
        ((Spec.permutationAdvantage fun x : Spec.FreeCoins ι Secp.Fn Secp.Point Spec.AesKey P c => fun E =>
          Spec.cipherTest (Secp.realSuite Z) Spec.aesKey letters letters' A goal n x
            (Spec.sealedWith E (letters' x.2.2.2.2.2.2 n))) + (q * (q - 1) : ℚ) / 2 ^ 129))) := by
  refine (C166_wire Z hp letters letters' h A goal).trans (Finset.sum_le_sum fun n _ => add_le_add le_rfl (add_le_add ?_ ?_))
  · exact C171_sealed (Ω := Spec.FreeCoins ι Secp.Fn Secp.Point Spec.AesKey P c) (fun x => letters x.2.2.2.2.2.2 n) q
      (fun x => hq _ n) fun x C => Spec.cipherTest (Secp.realSuite Z) Spec.aesKey letters letters' A goal n x C
  · exact C171_sealed (Ω := Spec.FreeCoins ι Secp.Fn Secp.Point Spec.AesKey P c) (fun x => letters' x.2.2.2.2.2.2 n) q
      (fun x => hq' _ n) fun x C => Spec.cipherTest (Secp.realSuite Z) Spec.aesKey letters letters' A goal n x C

end

/-- Two shares are sent between two participants, one in each direction: seven calls, and the bound is `42 / 2^128`. -/
example (n n' : Bytes) (x y : Secp.Fn) : Spec.blockCalls [(n, Secp.encScalar x), (n', Secp.encScalar y)] = 7 := by
  unfold Spec.blockCalls
  simp only [List.map_cons, List.map_nil, List.sum_cons, List.sum_nil, Secp.encScalar_length]
  rfl

/-- A test that is decided by two questions, the second being the answer to the first. -/
example {X : Type} (x₀ : X) : Spec.Decided (fun t => (t.head?.map Prod.snd).getD x₀) 2 (fun f : X → X => f (f x₀) = x₀) := by
  intro f g h
  have h1 := h (x₀, f x₀) (by simp [Spec.questions])
  have h2 := h (f x₀, f (f x₀)) (by simp [Spec.questions])
  simp only at h1 h2 ⊢
  rw [h1, h2]

end IceFrost
