import Verif.Lemmas.Ghash
import Verif.Props.HashBias

/-! # C165: an altered encrypted share is not opened

The shares go over the network under AES-128-GCM (`src/dkg/secret_share.rs:292-384`). Here the block cipher is a random
function; then whoever sees any number of encrypted shares under one key cannot make another ciphertext that the receiver
opens, except with the chance of a blind guess times the length of the ciphertext. That the block cipher under a random key
cannot be told from a random function is the usual assumption about AES; it enters as the advantage of the test that plays
the game. -/

set_option linter.unusedSectionVars false
set_option linter.unusedSimpArgs false
set_option linter.unusedVariables false
set_option maxRecDepth 8000

namespace IceFrost

open Finset Polynomial

attribute [local instance] Classical.propDecidable

/-- A block as a number. -/
abbrev Spec.Block : Type := Fin (2 ^ 128)

/-- The block function `f` on byte strings of 16 bytes, most significant byte first. -/
def Spec.cipherOf (f : Spec.Block → Spec.Block) (bs : Bytes) : Bytes := beBytes 16 (f (Fin.ofNat (2 ^ 128) (beNat bs))).val

/-- What is sent for the plaintext `pt` under the nonce: the ciphertext and the tag. -/
def Spec.sealWith (E : Bytes → Bytes) (nonce pt : Bytes) : Bytes × Bytes :=
  (xorBytes pt (Gcm.streamWith E nonce pt.length), Gcm.tagWith E nonce (xorBytes pt (Gcm.streamWith E nonce pt.length)))

/-! ### An averaging argument -/

/-- If maps `Φ h` permute the space, and at every point at most `c` of them lead into the event, then its chance is at most
`c` divided by the number of maps. -/
theorem chance_le_of_orbits {A I : Type} [Fintype A] [Fintype I] [Nonempty I] (Φ : I → A → A)
    (hΦ : ∀ h, Function.Bijective (Φ h)) (E : A → Prop) (c : ℕ) (hc : ∀ a, (univ.filter fun h => E (Φ h a)).card ≤ c) :
    Spec.chance E ≤ (c : ℚ) / Fintype.card I := by
  have h1 : ∀ h, Spec.chance E = (∑ a, if E (Φ h a) then (1 : ℚ) else 0) / Fintype.card A := by
    intro h
    rw [← chance_bijective (Φ h) (hΦ h) E, chance_as_average]
  have hI : (0 : ℚ) < Fintype.card I := by exact_mod_cast Fintype.card_pos
  rw [le_div_iff₀ hI]
  have h2 : Spec.chance E * Fintype.card I = (∑ a, ∑ h : I, if E (Φ h a) then (1 : ℚ) else 0) / Fintype.card A := by
    rw [Finset.sum_comm, Finset.sum_div, ← Finset.sum_congr rfl fun h _ => h1 h, Finset.sum_const, Finset.card_univ,
      nsmul_eq_mul, mul_comm]
  rw [h2]
  rcases isEmpty_or_nonempty A with hA | hA
  · simp
  have hA' : (0 : ℚ) < Fintype.card A := by exact_mod_cast Fintype.card_pos
  rw [div_le_iff₀ hA']
  calc (∑ a, ∑ h : I, if E (Φ h a) then (1 : ℚ) else 0) ≤ ∑ _a : A, (c : ℚ) := by
        refine Finset.sum_le_sum fun a _ => ?_
        rw [Finset.sum_boole]
        exact_mod_cast hc a
    _ = c * Fintype.card A := by rw [Finset.sum_const, Finset.card_univ, nsmul_eq_mul, mul_comm]

/-! ### Blocks -/

namespace Gf

/-- Sum modulo 2. -/
def bx (a b : Spec.Block) : Spec.Block := ⟨a.val ^^^ b.val, Nat.xor_lt_two_pow a.isLt b.isLt⟩

theorem bx_self (a b : Spec.Block) : bx (bx a b) b = a := Fin.ext (by
  show (a.val ^^^ b.val) ^^^ b.val = a.val
  rw [Nat.xor_assoc, Nat.xor_self, Nat.xor_zero])

theorem xor_cancel {a b c : ℕ} (h : a ^^^ b = a ^^^ c) : b = c := by
  have := congrArg (a ^^^ ·) h
  simpa only [← Nat.xor_assoc, Nat.xor_self, Nat.zero_xor] using this

theorem xor_cancel' {a b c : ℕ} (h : b ^^^ a = c ^^^ a) : b = c := by
  rw [Nat.xor_comm b, Nat.xor_comm c] at h
  exact xor_cancel h

/-- The point at which the block function is asked for counter `c`. -/
def point (nonce : Bytes) (c : ℕ) : Spec.Block := Fin.ofNat (2 ^ 128) (beNat (nonce ++ beBytes 4 c))

theorem point_val {nonce : Bytes} (hn : nonce.length = 12) {c : ℕ} (hc : c < 2 ^ 32) :
    (point nonce c).val = beNat nonce * 2 ^ 32 + c := by
  have h4 : (beBytes 4 c).length = 4 := beBytes_length _ _
  have hlt : beNat (nonce ++ beBytes 4 c) < 2 ^ 128 := block_lt (by rw [List.length_append, hn, h4])
  show beNat (nonce ++ beBytes 4 c) % 2 ^ 128 = _
  rw [Nat.mod_eq_of_lt hlt, beNat_append, h4, beNat_beBytes, Nat.mod_eq_of_lt (lt_of_lt_of_le hc (by norm_num))]
  norm_num

theorem point_inj {n n' : Bytes} (hn : n.length = 12) (hn' : n'.length = 12) {c c' : ℕ} (hc : c < 2 ^ 32) (hc' : c' < 2 ^ 32)
    (h : point n c = point n' c') : n = n' ∧ c = c' := by
  have h1 := congrArg Fin.val h
  rw [point_val hn hc, point_val hn' hc'] at h1
  have h2 : beNat n = beNat n' := by omega
  exact ⟨beNat_inj (hn.trans hn'.symm) h2, by omega⟩

/-- The point of the subkey. -/
def origin : Spec.Block := ⟨0, by norm_num⟩

theorem point_ne_origin {n : Bytes} (hn : n.length = 12) {c : ℕ} (hc : c < 2 ^ 32) (h0 : c ≠ 0) : point n c ≠ origin := by
  intro h
  have h1 := congrArg Fin.val h
  rw [point_val hn hc] at h1
  have h2 : beNat n * 2 ^ 32 + c = 0 := h1
  omega

theorem cipherOf_point (f : Spec.Block → Spec.Block) (n : Bytes) (c : ℕ) :
    Spec.cipherOf f (n ++ beBytes 4 c) = beBytes 16 (f (point n c)).val := rfl

theorem cipherOf_length (f : Spec.Block → Spec.Block) (b : Bytes) : (Spec.cipherOf f b).length = 16 := beBytes16_length _

theorem beNat_replicate (k : ℕ) : beNat (List.replicate k 0) = 0 := by
  unfold beNat
  rw [List.reverse_replicate]
  induction k with
  | zero => rfl
  | succ k ih =>
    rw [List.replicate_succ]
    simp only [leNat, ih]
    rfl

theorem cipherOf_origin (f : Spec.Block → Spec.Block) :
    beNat (Spec.cipherOf f (List.replicate 16 0)) = (f origin).val := by
  unfold Spec.cipherOf
  rw [beNat_block (Fin.isLt _), beNat_replicate]
  rfl

/-- The tag as a number. -/
theorem tag_number (f : Spec.Block → Spec.Block) (n ct : Bytes) :
    beNat (Gcm.tagWith (Spec.cipherOf f) n ct) = (f (point n 1)).val ^^^ Gcm.ghash (f origin).val ct := by
  unfold Gcm.tagWith
  rw [addKey_eq _ _ (cipherOf_length _ _) (beBytes16_length _), beNat_xor _ _ (by rw [cipherOf_length, beBytes16_length]),
    cipherOf_origin, beNat_block (ghash_lt (Fin.isLt _) _), cipherOf_point, beNat_block (Fin.isLt _)]

theorem tag_eq_iff (f : Spec.Block → Spec.Block) (n ct t : Bytes) (ht : t.length = 16) :
    t = Gcm.tagWith (Spec.cipherOf f) n ct ↔ beNat t = (f (point n 1)).val ^^^ Gcm.ghash (f origin).val ct := by
  rw [← tag_number]
  exact ⟨fun h => h ▸ rfl, fun h => beNat_inj (ht.trans (tagWith_length _ _ _).symm) h⟩

/-- The key stream depends only on the values at its counters. -/
theorem stream_congr {f g : Spec.Block → Spec.Block} {n : Bytes} {k : ℕ}
    (h : ∀ i, i < (k + 15) / 16 → f (point n (i + 2)) = g (point n (i + 2))) :
    Gcm.streamWith (Spec.cipherOf f) n k = Gcm.streamWith (Spec.cipherOf g) n k := by
  unfold Gcm.streamWith
  congr 2
  refine List.map_congr_left fun i hi => ?_
  rw [cipherOf_point, cipherOf_point, h i (List.mem_range.mp hi)]

theorem tag_congr {f g : Spec.Block → Spec.Block} {n ct : Bytes} (h1 : f (point n 1) = g (point n 1)) (h0 : f origin = g origin) :
    Gcm.tagWith (Spec.cipherOf f) n ct = Gcm.tagWith (Spec.cipherOf g) n ct := by
  refine beNat_inj ((tagWith_length _ _ _).trans (tagWith_length _ _ _).symm) ?_
  rw [tag_number, tag_number, h1, h0]

/-! ### The game with a random function -/

section Game

variable {N : ℕ} (n p : Fin N → Bytes) (hn : ∀ k, (n k).length = 12) (hinj : Function.Injective n) {L : ℕ}
  (hp : ∀ k, (p k).length ≤ 16 * L) (hL : L ≤ 2 ^ 32 - 2) (T : (Fin N → Bytes × Bytes) → Bytes × Bytes × Bytes)

/-- What is sent. -/
def view (f : Spec.Block → Spec.Block) (k : Fin N) : Bytes × Bytes := Spec.sealWith (Spec.cipherOf f) (n k) (p k)

theorem view_congr {f g : Spec.Block → Spec.Block} (h : ∀ k i, i < ((p k).length + 15) / 16 →
    f (point (n k) (i + 2)) = g (point (n k) (i + 2)))
    (ht : ∀ k ct, ct = (view n p g k).1 →
      Gcm.tagWith (Spec.cipherOf f) (n k) ct = Gcm.tagWith (Spec.cipherOf g) (n k) ct) : view n p f = view n p g := by
  funext k
  unfold view Spec.sealWith
  rw [stream_congr (h k)]
  exact Prod.ext rfl (ht k _ rfl)

/-- The mask of a tag that was sent, changed so that the tag stays when the subkey is changed. -/
def masked (h : Spec.Block) (f : Spec.Block → Spec.Block) (k : Fin N) : Spec.Block :=
  ⟨(f (point (n k) 1)).val ^^^ (Gcm.ghash (f origin).val (view n p f k).1 ^^^
      Gcm.ghash (bx (f origin) h).val (view n p f k).1),
    Nat.xor_lt_two_pow (Fin.isLt _) (Nat.xor_lt_two_pow (ghash_lt (Fin.isLt _) _) (ghash_lt (Fin.isLt _) _))⟩

/-- The first family of maps: another subkey, with the masks of the tags changed so that the tags stay. -/
noncomputable def shift (h : Spec.Block) (f : Spec.Block → Spec.Block) : Spec.Block → Spec.Block := fun x =>
  if x = origin then bx (f origin) h else if hk : ∃ k, x = point (n k) 1 then masked n p h f hk.choose else f x

include hn hinj in
theorem shift_mask (h : Spec.Block) (f : Spec.Block → Spec.Block) (k : Fin N) :
    (shift n p h f (point (n k) 1)).val = (f (point (n k) 1)).val ^^^ (Gcm.ghash (f origin).val (view n p f k).1 ^^^
      Gcm.ghash (bx (f origin) h).val (view n p f k).1) := by
  have hk : ∃ k', point (n k) 1 = point (n k') 1 := ⟨k, rfl⟩
  have hc : hk.choose = k := hinj (point_inj (hn k) (hn _) (by norm_num) (by norm_num) hk.choose_spec).1.symm
  have hs : shift n p h f (point (n k) 1) = masked n p h f k := by
    unfold shift
    rw [if_neg (point_ne_origin (hn k) (by norm_num) (by norm_num)), dif_pos hk, hc]
  rw [hs]
  rfl

theorem shift_origin (h : Spec.Block) (f : Spec.Block → Spec.Block) : shift n p h f origin = bx (f origin) h := if_pos rfl

theorem shift_other (h : Spec.Block) (f : Spec.Block → Spec.Block) (x : Spec.Block) (h0 : x ≠ origin)
    (hk : ¬ ∃ k, x = point (n k) 1) : shift n p h f x = f x := by
  unfold shift
  rw [if_neg h0, dif_neg hk]

include hn hinj hp hL in
theorem view_shift (h : Spec.Block) (f : Spec.Block → Spec.Block) : view n p (shift n p h f) = view n p f := by
  refine view_congr n p (fun k i hi => ?_) fun k ct hct => ?_
  · have := hp k
    have hi' : i + 2 < 2 ^ 32 := by omega
    refine shift_other n p h f _ (point_ne_origin (hn k) hi' (by omega)) ?_
    rintro ⟨k', hk'⟩
    have := (point_inj (hn k) (hn k') hi' (by norm_num) hk').2
    omega
  · refine beNat_inj ((tagWith_length _ _ _).trans (tagWith_length _ _ _).symm) ?_
    rw [tag_number, tag_number, shift_mask n p hn hinj, shift_origin, hct, Nat.xor_assoc]
    congr 1
    rw [Nat.xor_assoc, Nat.xor_self, Nat.xor_zero]

include hn hinj hp hL in
theorem shift_shift (h : Spec.Block) (f : Spec.Block → Spec.Block) : shift n p h (shift n p h f) = f := by
  funext x
  by_cases h0 : x = origin
  · rw [h0, shift_origin, shift_origin, bx_self]
  · by_cases hk : ∃ k, x = point (n k) 1
    · obtain ⟨k, rfl⟩ := hk
      refine Fin.ext ?_
      rw [shift_mask n p hn hinj, shift_mask n p hn hinj, view_shift n p hn hinj hp hL, shift_origin, bx_self, Nat.xor_assoc,
        Nat.xor_comm (Gcm.ghash (bx (f origin) h).val _), Nat.xor_self, Nat.xor_zero]
    · rw [shift_other _ _ _ _ _ h0 hk, shift_other _ _ _ _ _ h0 hk]

/-- The second family: another value at the mask for a fresh nonce. -/
noncomputable def touch (x h : Spec.Block) (f : Spec.Block → Spec.Block) : Spec.Block → Spec.Block :=
  Function.update f x (bx (f x) h)

include hn hp hL in
theorem view_touch {n' : Bytes} (hn' : n'.length = 12) (hf : ∀ k, n' ≠ n k) (h : Spec.Block) (f : Spec.Block → Spec.Block) :
    view n p (touch (point n' 1) h f) = view n p f := by
  have hne : ∀ x, x ≠ point n' 1 → touch (point n' 1) h f x = f x := fun x hx => Function.update_of_ne hx _ _
  refine view_congr n p (fun k i hi => hne _ fun e => ?_) fun k ct _ => tag_congr (hne _ fun e => ?_) (hne _ fun e => ?_)
  · have := hp k
    exact hf k (point_inj (hn k) hn' (by omega) (by norm_num) e).1.symm
  · exact hf k (point_inj (hn k) hn' (by norm_num) (by norm_num) e).1.symm
  · exact point_ne_origin hn' (by norm_num) (by norm_num) e.symm

theorem touch_touch (x h : Spec.Block) (f : Spec.Block → Spec.Block) : touch x h (touch x h f) = f := by
  unfold touch
  rw [Function.update_idem, Function.update_self, bx_self, Function.update_eq_self]

/-- The attacker presents a nonce, a ciphertext and a tag that were not sent together, and the tag is right. -/
def Wins (L : ℕ) (f : Spec.Block → Spec.Block) : Prop :=
  let o := T (view n p f)
  o.1.length = 12 ∧ o.2.1.length ≤ 16 * L ∧ o.2.2 = Gcm.tagWith (Spec.cipherOf f) o.1 o.2.1 ∧
    ∀ k, o.1 = n k → o.2 ≠ view n p f k

/-- One of the two families, depending on the nonce that the attacker presents. -/
noncomputable def move (h : Spec.Block) (f : Spec.Block → Spec.Block) : Spec.Block → Spec.Block :=
  if (T (view n p f)).1.length = 12 ∧ ∀ k, (T (view n p f)).1 ≠ n k then touch (point (T (view n p f)).1 1) h f
  else shift n p h f

include hn hinj hp hL in
theorem view_move (h : Spec.Block) (f : Spec.Block → Spec.Block) : view n p (move n p T h f) = view n p f := by
  unfold move
  split
  · next hc => exact view_touch n p hn hp hL hc.1 hc.2 h f
  · exact view_shift n p hn hinj hp hL h f

include hn hinj hp hL in
theorem move_move (h : Spec.Block) (f : Spec.Block → Spec.Block) : move n p T h (move n p T h f) = f := by
  have hv := view_move n p hn hinj hp hL T h f
  rw [move, hv]
  unfold move
  split
  · exact touch_touch _ _ _
  · exact shift_shift n p hn hinj hp hL _ _

include hn hinj hp hL in
theorem move_bijective (h : Spec.Block) : Function.Bijective (move n p T h) :=
  Function.Involutive.bijective (move_move n p hn hinj hp hL T h)

include hn hinj hp hL in
theorem wins_few (f : Spec.Block → Spec.Block) : (univ.filter fun h => Wins n p T L (move n p T h f)).card ≤ L + 1 := by
  have hview := fun h => view_move n p hn hinj hp hL T h f
  by_cases hc : (T (view n p f)).1.length = 12 ∧ ∀ k, (T (view n p f)).1 ≠ n k
  · refine le_trans (Finset.card_le_one.mpr fun a ha b hb => ?_) (by omega)
    have key : ∀ h, Wins n p T L (move n p T h f) → beNat (T (view n p f)).2.2 =
        ((f (point (T (view n p f)).1 1)).val ^^^ h.val) ^^^ Gcm.ghash (f origin).val (T (view n p f)).2.1 := by
      intro h hw
      have h3 := hw.2.2.1
      rw [hview h] at h3
      have h4 := congrArg beNat h3
      rw [tag_number] at h4
      have hm : move n p T h f = touch (point (T (view n p f)).1 1) h f := if_pos hc
      rw [hm] at h4
      have e1 : touch (point (T (view n p f)).1 1) h f (point (T (view n p f)).1 1) =
          bx (f (point (T (view n p f)).1 1)) h := Function.update_self _ _ _
      have e2 : touch (point (T (view n p f)).1 1) h f origin = f origin :=
        Function.update_of_ne (fun e => point_ne_origin hc.1 (by norm_num) (by norm_num) e.symm) _ _
      rw [e1, e2] at h4
      exact h4
    have h1 := key a (Finset.mem_filter.mp ha).2
    have h2 := key b (Finset.mem_filter.mp hb).2
    rw [h1] at h2
    exact Fin.ext (xor_cancel (xor_cancel' h2))
  · by_cases hw0 : (univ.filter fun h => Wins n p T L (move n p T h f)).card = 0
    · omega
    obtain ⟨h0, hh0⟩ := Finset.card_pos.mp (Nat.pos_of_ne_zero hw0)
    have hw := (Finset.mem_filter.mp hh0).2
    have hlen := hw.1
    have hct := hw.2.1
    rw [hview h0] at hlen hct
    have hex : ∃ k, (T (view n p f)).1 = n k := by
      by_contra hall
      exact hc ⟨hlen, fun k e => hall ⟨k, e⟩⟩
    obtain ⟨k, hk⟩ := hex
    have hm : ∀ h, move n p T h f = shift n p h f := fun h => if_neg hc
    generalize hc' : (T (view n p f)).2.1 = c' at hct
    generalize ht' : (T (view n p f)).2.2 = t'
    have hck : ((view n p f k).1).length ≤ 16 * L := by
      show (xorBytes (p k) (Gcm.streamWith _ (n k) (p k).length)).length ≤ _
      refine le_trans ?_ (hp k)
      unfold xorBytes
      rw [List.length_zipWith]
      exact min_le_left _ _
    generalize hck' : (view n p f k).1 = c at hck
    have eqn : ∀ h, Wins n p T L (move n p T h f) → c' ≠ c ∧ beNat t' =
        ((f (point (n k) 1)).val ^^^ (Gcm.ghash (f origin).val c ^^^ Gcm.ghash (bx (f origin) h).val c)) ^^^
          Gcm.ghash (bx (f origin) h).val c' := by
      intro h hw
      have h3 := hw.2.2.1
      have h4 := hw.2.2.2 k
      rw [hview h] at h3 h4
      rw [hc', ht', hk, hm h] at h3
      have h5 := congrArg beNat h3
      rw [tag_number, shift_mask n p hn hinj, shift_origin, hck'] at h5
      refine ⟨fun e => ?_, h5⟩
      refine h4 hk (Prod.ext (hc'.trans (e.trans hck'.symm)) ?_)
      rw [ht', h3, e]
      have hv2 : view n p (shift n p h f) k = view n p f k := congrFun (view_shift n p hn hinj hp hL h f) k
      rw [← hv2, ← hck', ← hv2]
      rfl
    have hne := (eqn h0 hw).1
    have hlen61 : ∀ x : Bytes, x.length ≤ 16 * L → x.length < 2 ^ 61 := fun x hx => by omega
    set Q : Spec.Gf[X] := ctPoly c + ctPoly c' +
      C (Spec.element (beNat t') + Spec.element (f (point (n k) 1)).val + Spec.element (Gcm.ghash (f origin).val c)) with hQ
    have hQne : Q ≠ 0 := by
      intro hz
      refine hne (ctPoly_inj (hlen61 _ hct) (hlen61 _ hck) fun j hj => ?_)
      have h6 := congrArg (fun P => P.coeff j) hz
      simp only [hQ, coeff_add, coeff_zero, coeff_C, if_neg (show j ≠ 0 by omega), add_zero] at h6
      rw [← sub_eq_zero, sub_eq, add_comm]
      exact h6
    have hdeg : Q.natDegree ≤ L + 1 := by
      rw [hQ]
      refine (natDegree_add_le _ _).trans (max_le ((natDegree_add_le _ _).trans (max_le (ctPoly_degree hck) (ctPoly_degree hct))) ?_)
      rw [natDegree_C]
      omega
    have hroot : ∀ h, Wins n p T L (move n p T h f) → Q.eval (Spec.element (bx (f origin) h).val) = 0 := by
      intro h hw
      have h7 := congrArg Spec.element (eqn h hw).2
      rw [element_xor, element_xor, element_xor, element_ghash (Fin.isLt _) c', element_ghash (bx (f origin) h).isLt c] at h7
      rw [hQ, eval_add, eval_add, eval_C, h7]
      generalize (ctPoly c).eval _ = A
      generalize (ctPoly c').eval _ = B
      generalize Spec.element (f (point (n k) 1)).val = M
      generalize Spec.element (Gcm.ghash (f origin).val c) = G
      have : A + B + (M + (G + A) + B + M + G) = (A + A) + (B + B) + (M + M) + (G + G) := by ring
      rw [this, add_self A, add_self B, add_self M, add_self G, add_zero, add_zero, add_zero]
    calc (univ.filter fun h => Wins n p T L (move n p T h f)).card
        ≤ Q.roots.toFinset.card := by
          refine Finset.card_le_card_of_injOn (fun h => Spec.element (bx (f origin) h).val) (fun h hh => ?_) ?_
          · rw [Finset.mem_coe, Multiset.mem_toFinset, mem_roots hQne]
            exact hroot h (Finset.mem_filter.mp hh).2
          · intro a _ b _ e
            have h8 := element_injective (Fin.isLt _) (Fin.isLt _) e
            exact Fin.ext (xor_cancel h8)
      _ ≤ Multiset.card Q.roots := Multiset.toFinset_card_le _
      _ ≤ Q.natDegree := card_roots' _
      _ ≤ L + 1 := hdeg

include hn hinj hp hL in
theorem wins_chance : Spec.chance (Wins n p T L) ≤ ((L + 1 : ℕ) : ℚ) / 2 ^ 128 := by
  have h := chance_le_of_orbits (move n p T) (move_bijective n p hn hinj hp hL T) (Wins n p T L) (L + 1)
    (wins_few n p hn hinj hp hL T)
  have hcard : Fintype.card Spec.Block = 2 ^ 128 := Fintype.card_fin _
  rw [hcard] at h
  exact_mod_cast h

end Game

end Gf

/-! ### Encrypted shares -/

/-- The shipped suite with another block cipher in place of AES-128. The key derivation is that of the suite. -/
def Secp.blockSuite {R : Type} (Z : Secp.Source R) (E : Bytes → Bytes → Bytes) (hE : ∀ key b, (E key b).length = 16) :
    Suite Secp.Fn Secp.Point R :=
  Secp.suite { Secp.real Z with
    stream := fun key => Gcm.streamWith (E key)
    tag := fun key => Gcm.tagWith (E key)
    stream_length := fun key => streamWith_length (hE key)
    tag_length := fun key => tagWith_length (E key) }

/-- With AES-128 it is the shipped suite. -/
theorem blockSuite_aes {R : Type} (Z : Secp.Source R) : Secp.blockSuite Z Aes.encrypt aes_length = Secp.realSuite Z := rfl

/-- The shipped suite with the block function `E`, whatever the key is. -/
def Secp.fixedSuite {R : Type} (Z : Secp.Source R) (E : Bytes → Bytes) (hE : ∀ b, (E b).length = 16) :
    Suite Secp.Fn Secp.Point R := Secp.blockSuite Z (fun _ => E) fun _ => hE

section
variable {R : Type} (Z : Secp.Source R) (E : Bytes → Bytes) (hE : ∀ b, (E b).length = 16)

theorem encrypt_fixed (share : SecretShare Secp.Fn) (ikm : Bytes) (rng : R) :
    encryptShare (Secp.fixedSuite Z E hE) share ikm rng = .ok (⟨share.senderIndex, share.receiverIndex, (Z.bytes 12 rng).1,
      (Spec.sealWith E (Z.bytes 12 rng).1 (Secp.encScalar share.eval)).1 ++
        (Spec.sealWith E (Z.bytes 12 rng).1 (Secp.encScalar share.eval)).2⟩, (Z.bytes 12 rng).2) := by
  have hn := Z.bytes_length 12 rng
  have hkdf : (Secp.fixedSuite Z E hE).kdf ikm = some (Secp.realKey ikm) := rfl
  unfold encryptShare
  rw [hkdf]
  have hr : (Secp.fixedSuite Z E hE).randBytes (Secp.fixedSuite Z E hE).nonceSize rng = Z.bytes 12 rng := rfl
  simp only [hr]
  generalize Z.bytes 12 rng = r at hn
  obtain ⟨nonce, rng'⟩ := r
  have he : (Secp.fixedSuite Z E hE).aeadEnc (Secp.realKey ikm) nonce ((Secp.fixedSuite Z E hE).encF share.eval) =
      some ((Spec.sealWith E nonce (Secp.encScalar share.eval)).1 ++ (Spec.sealWith E nonce (Secp.encScalar share.eval)).2) :=
    if_pos hn
  rw [he]

theorem decrypt_fixed (e : EncShare) (ikm : Bytes) (s : SecretShare Secp.Fn)
    (h : decryptShare (Secp.fixedSuite Z E hE) e ikm = .ok s) :
    ∃ body, e.ct = body ++ Gcm.tagWith E e.nonce body := by
  have hkdf : (Secp.fixedSuite Z E hE).kdf ikm = some (Secp.realKey ikm) := rfl
  have hdec : (Secp.fixedSuite Z E hE).aeadDec (Secp.realKey ikm) e.nonce e.ct = if e.ct.length < 16 then none
      else if e.ct.drop (e.ct.length - 16) = Gcm.tagWith E e.nonce (e.ct.take (e.ct.length - 16)) then
        some (xorBytes (e.ct.take (e.ct.length - 16)) (Gcm.streamWith E e.nonce (e.ct.length - 16)))
      else none := rfl
  unfold decryptShare at h
  rw [hkdf] at h
  simp only at h
  rw [hdec] at h
  by_cases h16 : e.ct.length < 16
  · rw [if_pos h16] at h
    cases h
  rw [if_neg h16] at h
  by_cases ht : e.ct.drop (e.ct.length - 16) = Gcm.tagWith E e.nonce (e.ct.take (e.ct.length - 16))
  · exact ⟨e.ct.take (e.ct.length - 16), by rw [← ht, List.take_append_drop]⟩
  · rw [if_neg ht] at h
    cases h

end

section
variable {Ω R : Type} [Fintype Ω] [Nonempty Ω]

/-- The attack: the shares `share` are encrypted for the same two participants, the attacker sees what is sent and presents
something else, with at most `16 * (L + 1)` bytes, and it is opened. Nonces have 12 bytes by their type. -/
def Spec.Altered (Z : Secp.Source R) (ikm : Bytes) {N : ℕ} (share : Fin N → SecretShare Secp.Fn) (rng : Fin N → R)
    (T : (Fin N → EncShare) → EncShare) (L : ℕ) (E : Bytes → Bytes) : Prop :=
  ∃ (hE : ∀ b, (E b).length = 16) (sent : Fin N → EncShare),
    (∀ k, ∃ rng', encryptShare (Secp.fixedSuite Z E hE) (share k) ikm (rng k) = .ok (sent k, rng')) ∧
    (T sent).nonce.length = 12 ∧ (T sent).ct.length ≤ 16 * (L + 1) ∧
    (∃ s, decryptShare (Secp.fixedSuite Z E hE) (T sent) ikm = .ok s) ∧
    ∀ k, ¬ ((T sent).nonce = (sent k).nonce ∧ (T sent).ct = (sent k).ct)

theorem altered_wins (Z : Secp.Source R) (ikm : Bytes) {N : ℕ} (share : Fin N → SecretShare Secp.Fn) (rng : Fin N → R)
    (T : (Fin N → EncShare) → EncShare) (L : ℕ) :
    ∃ T' : (Fin N → Bytes × Bytes) → Bytes × Bytes × Bytes, ∀ f : Spec.Block → Spec.Block,
      Spec.Altered Z ikm share rng T L (Spec.cipherOf f) →
        Gf.Wins (fun k => (Z.bytes 12 (rng k)).1) (fun k => Secp.encScalar (share k).eval) T' L f := by
  let pack (v : Fin N → Bytes × Bytes) (k : Fin N) : EncShare :=
    ⟨(share k).senderIndex, (share k).receiverIndex, (Z.bytes 12 (rng k)).1, (v k).1 ++ (v k).2⟩
  refine ⟨fun v => ((T (pack v)).nonce, (T (pack v)).ct.take ((T (pack v)).ct.length - 16),
    (T (pack v)).ct.drop ((T (pack v)).ct.length - 16)), ?_⟩
  rintro f ⟨hE, sent, hsent, hn, hl, ⟨s, hs⟩, hnew⟩
  have hp : sent = pack (Gf.view (fun k => (Z.bytes 12 (rng k)).1) (fun k => Secp.encScalar (share k).eval) f) := by
    funext k
    obtain ⟨rng', h⟩ := hsent k
    rw [encrypt_fixed] at h
    exact (congrArg Prod.fst (Except.ok.inj h)).symm
  obtain ⟨body, hb⟩ := decrypt_fixed Z _ hE _ ikm s hs
  have hlen : (T sent).ct.length - 16 = body.length := by
    rw [hb, List.length_append, tagWith_length]
    omega
  have h1 : (T sent).ct.take ((T sent).ct.length - 16) = body := by rw [hlen, hb, List.take_left]
  have h2 : (T sent).ct.drop ((T sent).ct.length - 16) = Gcm.tagWith (Spec.cipherOf f) (T sent).nonce body := by
    rw [hlen, hb, List.drop_left]
  unfold Gf.Wins
  simp only [← hp]
  refine ⟨hn, ?_, by rw [h1, h2], fun k hk he => ?_⟩
  · rw [List.length_take]
    omega
  · refine hnew k ⟨by rw [hk, hp], ?_⟩
    have h3 : (sent k).ct = (Gf.view (fun k => (Z.bytes 12 (rng k)).1) (fun k => Secp.encScalar (share k).eval) f k).1 ++
        (Gf.view (fun k => (Z.bytes 12 (rng k)).1) (fun k => Secp.encScalar (share k).eval) f k).2 := by
      rw [hp]
    rw [h3, ← he, List.take_append_drop]

/-- C165: with a random function as block cipher, whoever sees any number of encrypted shares under one key, with different
nonces, and presents another nonce or ciphertext to the receiver sees it opened with chance at most `(L + 1) / 2 ^ 128`,
where `L` is the number of blocks. -/
theorem C165_altered (Z : Secp.Source R) (ikm : Bytes) {N : ℕ} (share : Ω → Fin N → SecretShare Secp.Fn)
    (rng : Ω → Fin N → R) (hn : ∀ ω, Function.Injective fun k => (Z.bytes 12 (rng ω k)).1)
    (T : Ω → (Fin N → EncShare) → EncShare) {L : ℕ} (h2 : 2 ≤ L) (hL : L ≤ 2 ^ 32 - 2) :
    (Spec.chance fun x : Ω × (Spec.Block → Spec.Block) =>
      Spec.Altered Z ikm (share x.1) (rng x.1) (T x.1) L (Spec.cipherOf x.2)) ≤ ((L + 1 : ℕ) : ℚ) / 2 ^ 128 := by
  rw [chance_prod]
  have hΩ : (0 : ℚ) < Fintype.card Ω := by exact_mod_cast Fintype.card_pos
  rw [div_le_iff₀ hΩ, mul_comm]
  refine le_trans (Finset.sum_le_sum (g := fun _ => ((L + 1 : ℕ) : ℚ) / 2 ^ 128) fun ω _ => ?_) (le_of_eq ?_)
  · obtain ⟨T', hT⟩ := altered_wins Z ikm (share ω) (rng ω) (T ω) L
    refine le_trans (chance_mono fun f h => hT f h) (Gf.wins_chance _ _ (fun k => Z.bytes_length _ _) (hn ω) (fun k => ?_) hL T')
    rw [Secp.encScalar_length]
    omega
  · rw [Finset.sum_const, Finset.card_univ, nsmul_eq_mul]

/-- How well a test tells AES-128 under a random key from a random function. -/
noncomputable def Spec.aesAdvantage (D : Ω → (Bytes → Bytes) → Prop) : ℚ :=
  |(Spec.chance fun x : Ω × (Fin 16 → Fin 256) => D x.1 (Aes.encrypt (List.ofFn fun k => UInt8.ofFin (x.2 k)))) -
    Spec.chance fun x : Ω × (Spec.Block → Spec.Block) => D x.1 (Spec.cipherOf x.2)|

/-- C165: with AES-128 under a random key, the chance is larger by at most the advantage of the test that plays the game. -/
theorem C165_aes (Z : Secp.Source R) (ikm : Bytes) {N : ℕ} (share : Ω → Fin N → SecretShare Secp.Fn)
    (rng : Ω → Fin N → R) (hn : ∀ ω, Function.Injective fun k => (Z.bytes 12 (rng ω k)).1)
    (T : Ω → (Fin N → EncShare) → EncShare) {L : ℕ} (h2 : 2 ≤ L) (hL : L ≤ 2 ^ 32 - 2) :
    (Spec.chance fun x : Ω × (Fin 16 → Fin 256) => Spec.Altered Z ikm (share x.1) (rng x.1) (T x.1) L
      (Aes.encrypt (List.ofFn fun k => UInt8.ofFin (x.2 k)))) ≤
      ((L + 1 : ℕ) : ℚ) / 2 ^ 128 + Spec.aesAdvantage fun ω E => Spec.Altered Z ikm (share ω) (rng ω) (T ω) L E := by
  have h1 := C165_altered Z ikm share rng hn T h2 hL
  unfold Spec.aesAdvantage
  have h3 := le_abs_self ((Spec.chance fun x : Ω × (Fin 16 → Fin 256) =>
    Spec.Altered Z ikm (share x.1) (rng x.1) (T x.1) L (Aes.encrypt (List.ofFn fun k => UInt8.ofFin (x.2 k)))) -
    Spec.chance fun x : Ω × (Spec.Block → Spec.Block) =>
      Spec.Altered Z ikm (share x.1) (rng x.1) (T x.1) L (Spec.cipherOf x.2))
  linarith

end

/-- C165: the two indices are not protected. Whatever is written there, the share is opened and carries these indices: the
cipher gets no associated data (`src/dkg/secret_share.rs:315-317`, `:346-348`). -/
theorem C165_indices {F G R : Type} [Field F] [DecidableEq F] [AddCommGroup G] [Module F G] [DecidableEq G] (S : Suite F G R)
    (e : EncShare) (ikm : Bytes) (s : SecretShare F) (h : decryptShare S e ikm = .ok s) (i j : U32) :
    decryptShare S ⟨i, j, e.nonce, e.ct⟩ ikm = .ok ⟨i, j, s.eval⟩ := by
  unfold decryptShare at h ⊢
  simp only at h ⊢
  cases hk : S.kdf ikm with
  | none => rw [hk] at h; cases h
  | some key =>
    rw [hk] at h
    simp only at h ⊢
    cases hd : S.aeadDec key e.nonce e.ct with
    | none => rw [hd] at h; cases h
    | some bs =>
      rw [hd] at h
      simp only at h ⊢
      cases hf : S.decF bs with
      | none => rw [hf] at h; cases h
      | some v =>
        rw [hf] at h
        obtain ⟨v, rest⟩ := v
        simp only at h ⊢
        rw [← Except.ok.inj h]

namespace Examples

/-- Two shares between the same participants, with the nonces 5 and 6; the attacker flips a bit of the first ciphertext. -/
def flip (v : Fin 2 → EncShare) : EncShare := { v 0 with ct := xorBytes (v 0).ct (1 :: List.replicate 47 0) }

example : (Spec.chance fun x : Unit × (Spec.Block → Spec.Block) =>
    Spec.Altered Secp.counter (strBytes "key") ![⟨1, 2, 7⟩, ⟨2, 1, 8⟩] ![5, 6] flip 2 (Spec.cipherOf x.2)) ≤
      ((2 + 1 : ℕ) : ℚ) / 2 ^ 128 :=
  C165_altered (Ω := Unit) Secp.counter (strBytes "key") (fun _ => ![⟨1, 2, 7⟩, ⟨2, 1, 8⟩]) (fun _ => ![5, 6])
    (fun _ => by decide) (fun _ => flip) le_rfl (by norm_num)

/-- Every function with blocks of 16 bytes lets these shares be sent, and the attack is within the length. -/
example (E : Bytes → Bytes) (hE : ∀ b, (E b).length = 16) : ∃ e rng',
    encryptShare (Secp.fixedSuite Secp.counter E hE) ⟨1, 2, 7⟩ (strBytes "key") 5 = .ok (e, rng') ∧ e.nonce.length = 12 ∧
      e.ct.length = 48 := by
  refine ⟨_, _, encrypt_fixed _ _ _ _ _ _, Secp.counter.bytes_length _ _, ?_⟩
  rw [List.length_append]
  unfold Spec.sealWith
  rw [tagWith_length, Secp.xorBytes_length _ _ (streamWith_length hE _ _), Secp.encScalar_length]

end Examples

end IceFrost
