import Mathlib.Data.Fintype.Pi
import Mathlib.Order.Interval.Finset.Fin
import Mathlib.Algebra.BigOperators.Intervals
import Verif.Props.Eavesdrop
import Verif.Props.Concrete

/-!
# C161: nonces of the cipher

The two shares that a pair of participants exchange are encrypted under the same key, derived from their Diffie-Hellman
secret. A key together with a nonce must never be used twice. Nothing in the code compares nonces: that no nonce is used
twice rests on their randomness alone.
-/

set_option linter.unusedSectionVars false
set_option linter.unusedSimpArgs false
set_option linter.unusedVariables false

namespace IceFrost

open Finset

section
variable {F G R : Type} [Field F] [DecidableEq F] [AddCommGroup G] [Module F G] [DecidableEq G]

/-- A group of participants in a key generation: indices, records, DH private keys, polynomials, and the order in which
each of them has sorted the records. -/
structure Spec.Circle (F G : Type) (n : ℕ) where
  idx : Fin n → U32
  book : Fin n → Participant F G
  dh : Fin n → F
  poly : Fin n → List F
  order : Fin n → Equiv.Perm (Fin n)

/-- The indices are distinct, and the records carry the indices and the public keys. -/
def Spec.Circle.Proper {n : ℕ} (T : Spec.Circle F G n) (S : Suite F G R) : Prop :=
  Function.Injective T.idx ∧ ∀ i, (T.book i).index = T.idx i ∧ (T.book i).dhPublicKey = T.dh i • S.gen

/-- The records in the order of participant `i`. -/
def Spec.Circle.records {n : ℕ} (T : Spec.Circle F G n) (i : Fin n) : List (Participant F G) :=
  List.ofFn fun k => T.book (T.order i k)

/-- The share that participant `i` has made for `j` when its random number generator was in state `rng`. -/
def Spec.Circle.letter {n : ℕ} (T : Spec.Circle F G n) (S : Suite F G R) (dbg : Bool) (params : Params) (rng : R)
    (i j : Fin n) : Option EncShare :=
  match bootstrap S dbg params (T.dh i) (T.idx i) (T.poly i) (T.records i) rng with
  | .ok (d, _) => (d.state.theirEncryptedSecretShares).bind fun m => m.get? (T.idx j)
  | .error _ => none

/-- The key of the cipher for the shares between `i` and `j`. -/
def Spec.Circle.key {n : ℕ} (T : Spec.Circle F G n) (S : Suite F G R) (i j : Fin n) : Option Bytes :=
  S.kdf (S.encG ((T.dh i * T.dh j) • S.gen))

theorem letter_sent {n : ℕ} (T : Spec.Circle F G n) {S : Suite F G R} (hT : T.Proper S) (dbg : Bool) (params : Params)
    (rng : R) (i j : Fin n) (e : EncShare) (h : T.letter S dbg params rng i j = some e) :
    ∃ key ct, T.key S i j = some key ∧
      S.aeadEnc key (Spec.bytes S rng ((T.order i).symm j)) (S.encF (Spec.polyEval (T.poly i) ((T.idx j).toNat : F))) =
        some ct ∧
      e = ⟨T.idx i, T.idx j, Spec.bytes S rng ((T.order i).symm j), ct⟩ := by
  unfold Spec.Circle.letter at h
  cases hb : bootstrap S dbg params (T.dh i) (T.idx i) (T.poly i) (T.records i) rng with
  | error f => rw [hb] at h; cases h
  | ok w =>
    obtain ⟨d, L⟩ := w
    rw [hb] at h
    simp only at h
    unfold bootstrap at hb
    cases hn : newStateInternal S dbg params (T.dh i) (T.idx i) (some (T.poly i)) (T.records i) true true rng with
    | error f => rw [hn] at hb; cases hb
    | ok v =>
      rw [hn] at hb
      simp only [Except.map, Except.ok.injEq] at hb
      obtain ⟨m, rng', hm, hdealt⟩ := newState_dealt S dbg params _ _ _ _ true rng v hn
      obtain ⟨es, rfl, h2, h3⟩ := dealShares_sent S _ _ _ _ [] m rng rng' hm
      have hlen : (T.records i).length = n := by simp [Spec.Circle.records]
      have hget : ∀ (k : ℕ) (hk : k < (T.records i).length), (T.records i)[k] = T.book (T.order i ⟨k, by omega⟩) := by
        intro k hk
        simp [Spec.Circle.records]
      set k := (T.order i).symm j with hkdef
      have hk : (k : ℕ) < (T.records i).length := by omega
      have hk' : (k : ℕ) < es.length := by omega
      have hrk : (T.records i)[(k : ℕ)] = T.book j := by
        rw [hget k hk]
        exact congrArg T.book ((T.order i).apply_symm_apply j)
      obtain ⟨key, ct, a1, a2, a3⟩ := h3 k hk hk'
      rw [hrk] at a1 a2 a3
      have hnd : ((T.records i).map (·.index)).Nodup := by
        unfold Spec.Circle.records
        rw [List.map_ofFn, List.nodup_ofFn]
        intro a b hab
        simp only [Function.comp_apply, (hT.2 _).1] at hab
        exact (T.order i).injective (hT.1 hab)
      have hz : (List.zip ((T.records i).map (·.index)) es).map Prod.fst = (T.records i).map (·.index) :=
        List.map_fst_zip (by simp [h2])
      have hmem : (T.idx j, es[(k : ℕ)]) ∈ List.zip ((T.records i).map (·.index)) es := by
        rw [List.mem_iff_getElem]
        refine ⟨k, by simp [h2, hk], ?_⟩
        rw [List.getElem_zip, List.getElem_map, hrk, (hT.2 j).1]
      have hg := (BMap.get?_ofList (by rw [hz]; exact hnd) (T.idx j) es[(k : ℕ)]).mpr hmem
      rw [← show v.1.1 = d from congrArg Prod.fst hb, hdealt] at h
      have he : e = es[(k : ℕ)] := Option.some.inj (h.symm.trans hg)
      rw [(hT.2 j).2, smul_smul] at a1
      rw [evaluatePolynomial_eq, (hT.2 j).1] at a2
      exact ⟨key, ct, a1, a2, by rw [he, a3, (hT.2 j).1]⟩

/-- C161: the share that `i` makes for `j` and the one that `j` makes for `i` are encrypted under the same key, whatever
randomness they use. -/
theorem C161_one_key {n : ℕ} (T : Spec.Circle F G n) {S : Suite F G R} (hT : T.Proper S) (dbg : Bool) (params : Params)
    (r r' : R) (i j : Fin n) (e e' : EncShare) (h : T.letter S dbg params r i j = some e)
    (h' : T.letter S dbg params r' j i = some e') :
    ∃ key, S.kdf (S.encG ((T.dh i * T.dh j) • S.gen)) = some key ∧
      S.aeadEnc key e.nonce (S.encF (Spec.polyEval (T.poly i) ((T.idx j).toNat : F))) = some e.ct ∧
      S.aeadEnc key e'.nonce (S.encF (Spec.polyEval (T.poly j) ((T.idx i).toNat : F))) = some e'.ct := by
  obtain ⟨key, ct, a1, a2, rfl⟩ := letter_sent T hT dbg params r i j e h
  obtain ⟨key', ct', b1, b2, rfl⟩ := letter_sent T hT dbg params r' j i e' h'
  have hkk : key' = key := by
    unfold Spec.Circle.key at a1 b1
    rw [mul_comm] at b1
    exact Option.some.inj (b1.symm.trans a1)
  subst hkk
  exact ⟨key', a1, a2, b2⟩

/-- Two different shares of the key generation have the same key and the same nonce. -/
def Spec.Circle.Reuse {n : ℕ} (T : Spec.Circle F G n) (S : Suite F G R) (dbg : Bool) (params : Params) (rng : Fin n → R) :
    Prop :=
  ∃ i j i' j' e e', (i, j) ≠ (i', j') ∧ T.letter S dbg params (rng i) i j = some e ∧
    T.letter S dbg params (rng i') i' j' = some e' ∧ T.key S i j = T.key S i' j' ∧ e.nonce = e'.nonce

/-! ### Chances -/

theorem chance_same {A C : Type} [Fintype A] [DecidableEq A] [Fintype C] [Nonempty C] {a b : A} (hab : a ≠ b) :
    Spec.chance (fun c : A → C => c a = c b) = 1 / (Fintype.card C : ℚ) := by
  classical
  have h1 := chance_equiv (Equiv.funSplitAt a C) fun p : C × ({k // k ≠ a} → C) => p.1 = p.2 ⟨b, hab.symm⟩
  have h2 : Spec.chance (fun c : A → C => c a = c b) =
      Spec.chance (fun p : C × ({k // k ≠ a} → C) => p.1 = p.2 ⟨b, hab.symm⟩) := by
    rw [← h1]
    rfl
  rw [h2]
  unfold Spec.chance
  have hcard : (univ.filter fun p : C × ({k // k ≠ a} → C) => p.1 = p.2 ⟨b, hab.symm⟩).card =
      Fintype.card ({k // k ≠ a} → C) := by
    rw [← Finset.card_univ]
    refine Finset.card_bij (fun p _ => p.2) (fun _ _ => mem_univ _) ?_ ?_
    · rintro ⟨x, f⟩ hx ⟨y, g⟩ hy hfg
      simp only [mem_filter, mem_univ, true_and] at hx hy
      simp only at hfg
      rw [hx, hy, hfg]
    · intro f _
      exact ⟨(f ⟨b, hab.symm⟩, f), by simp, rfl⟩
  rw [Fintype.card_prod, Nat.cast_mul]
  have hne : ((Fintype.card ({k // k ≠ a} → C) : ℕ) : ℚ) ≠ 0 := by exact_mod_cast Fintype.card_ne_zero
  have hC : ((Fintype.card C : ℕ) : ℚ) ≠ 0 := by exact_mod_cast Fintype.card_ne_zero
  rw [div_eq_div_iff (mul_ne_zero hC hne) hC, one_mul, mul_comm]
  refine congrArg (_ * ·) ?_
  have := congrArg (Nat.cast (R := ℚ)) hcard
  convert this

theorem chance_pairs {A B C : Type} [Fintype A] [DecidableEq A] [Fintype B] [Fintype C] [Nonempty C] (a b : B → A)
    (hab : ∀ p, a p ≠ b p) :
    Spec.chance (fun c : A → C => ∃ p, c (a p) = c (b p)) ≤ (Fintype.card B : ℚ) / (Fintype.card C : ℚ) := by
  refine le_trans (chance_exists _) ?_
  refine le_trans (Finset.sum_le_card_nsmul univ _ (1 / (Fintype.card C : ℚ)) fun p _ => (chance_same (hab p)).le) ?_
  rw [Finset.card_univ, nsmul_eq_mul, mul_one_div]

theorem card_lt_pairs (n : ℕ) :
    (Fintype.card {p : Fin n × Fin n // p.1 < p.2} : ℚ) = (n : ℚ) * (n - 1) / 2 := by
  have h1 : Fintype.card {p : Fin n × Fin n // p.1 < p.2} = ∑ j : Fin n, (j : ℕ) := by
    rw [Fintype.card_subtype, Finset.card_filter, Fintype.sum_prod_type_right]
    refine Finset.sum_congr rfl fun j _ => ?_
    rw [← Finset.card_filter, ← Fin.card_Iio j]
    congr 1
    ext i
    simp
  have h2 : ∑ j : Fin n, (j : ℕ) = ∑ k ∈ range n, k := Fin.sum_univ_eq_sum_range (fun k => k) n
  have h3 := Finset.sum_range_id_mul_two n
  rw [h1, h2]
  rw [eq_div_iff two_ne_zero]
  cases n with
  | zero => simp
  | succ n =>
    rw [Nat.add_sub_cancel] at h3
    have := congrArg (Nat.cast (R := ℚ)) h3
    push_cast at this ⊢
    rw [this]
    ring

/-- C161: the chance that a key generation uses a key with the same nonce twice. Each participant has its own block of
random bytes for each of its shares. If the keys of different pairs differ, the chance is at most the number of pairs divided
by the number of blocks; if nothing is known about the keys, at most the number of pairs of shares divided by the number of
blocks. -/
theorem C161_reuse {n : ℕ} (T : Spec.Circle F G n) {S : Suite F G R} (hT : T.Proper S) (dbg : Bool) (params : Params)
    {C : Type} [Fintype C] [Nonempty C] (block : C → Bytes) (hblock : Function.Injective block) (gen : (Fin n → C) → R)
    (hgen : ∀ (c : Fin n → C) (k : Fin n), Spec.bytes S (gen c) k = block (c k)) :
    let reuse : ℚ := Spec.chance fun c : Fin n × Fin n → C => T.Reuse S dbg params fun i => gen fun k => c (i, k)
    reuse ≤ ((n : ℚ) ^ 2 * ((n : ℚ) ^ 2 - 1) / 2) / (Fintype.card C : ℚ) ∧
    ((∀ i j i' j', T.key S i j = T.key S i' j' → (i = i' ∧ j = j') ∨ (i = j' ∧ j = i')) →
      reuse ≤ ((n : ℚ) * (n - 1) / 2) / (Fintype.card C : ℚ)) := by
  have key : ∀ (c : Fin n × Fin n → C), (T.Reuse S dbg params fun i => gen fun k => c (i, k)) →
      ∃ i j i' j', (i, j) ≠ (i', j') ∧ T.key S i j = T.key S i' j' ∧
        c (i, (T.order i).symm j) = c (i', (T.order i').symm j') := by
    rintro c ⟨i, j, i', j', e, e', hne, h, h', hk, hn⟩
    obtain ⟨_, _, -, -, rfl⟩ := letter_sent T hT dbg params _ i j e h
    obtain ⟨_, _, -, -, rfl⟩ := letter_sent T hT dbg params _ i' j' e' h'
    simp only [hgen] at hn
    exact ⟨i, j, i', j', hne, hk, hblock hn⟩
  have hpos : ∀ {i j i' j' : Fin n}, (i, j) ≠ (i', j') → (i, (T.order i).symm j) ≠ (i', (T.order i').symm j') := by
    intro i j i' j' hne he
    obtain ⟨rfl, h2⟩ := Prod.mk.inj he
    exact hne (by rw [(T.order i).symm.injective h2])
  refine ⟨?_, fun hk => ?_⟩
  · let ε : Fin n × Fin n ≃ Fin (n * n) := finProdFinEquiv
    let a : {p : Fin (n * n) × Fin (n * n) // p.1 < p.2} → Fin n × Fin n :=
      fun p => ((ε.symm p.1.1).1, (T.order (ε.symm p.1.1).1).symm (ε.symm p.1.1).2)
    let b : {p : Fin (n * n) × Fin (n * n) // p.1 < p.2} → Fin n × Fin n :=
      fun p => ((ε.symm p.1.2).1, (T.order (ε.symm p.1.2).1).symm (ε.symm p.1.2).2)
    have h := chance_pairs (C := C) a b fun p => hpos fun he => (ne_of_lt p.2) (ε.symm.injective he)
    rw [card_lt_pairs] at h
    refine le_trans (chance_mono fun c hc => ?_) (le_trans h (le_of_eq (by push_cast; ring)))
    obtain ⟨i, j, i', j', hne, -, he⟩ := key c hc
    rcases lt_or_gt_of_ne (fun h : ε (i, j) = ε (i', j') => hne (ε.injective h)) with hlt | hlt
    · refine ⟨⟨(ε (i, j), ε (i', j')), hlt⟩, ?_⟩
      simpa [a, b] using he
    · refine ⟨⟨(ε (i', j'), ε (i, j)), hlt⟩, ?_⟩
      simpa [a, b] using he.symm
  · let a : {p : Fin n × Fin n // p.1 < p.2} → Fin n × Fin n := fun p => (p.1.1, (T.order p.1.1).symm p.1.2)
    let b : {p : Fin n × Fin n // p.1 < p.2} → Fin n × Fin n := fun p => (p.1.2, (T.order p.1.2).symm p.1.1)
    have h := chance_pairs (C := C) a b fun p he => (ne_of_lt p.2) (Prod.mk.inj he).1
    rw [card_lt_pairs] at h
    refine le_trans (chance_mono fun c hc => ?_) h
    obtain ⟨i, j, i', j', hne, hkey, he⟩ := key c hc
    rcases hk i j i' j' hkey with ⟨rfl, rfl⟩ | ⟨rfl, rfl⟩
    · exact absurd rfl hne
    · rcases lt_or_gt_of_ne (fun h : i = j => hne (by rw [h])) with hlt | hlt
      · exact ⟨⟨(i, j), hlt⟩, he⟩
      · exact ⟨⟨(j, i), hlt⟩, he.symm⟩

theorem letter_honest {n : ℕ} (T : Spec.Circle F G n) {S : Suite F G R} (hc : S.CipherLaws) (hd : S.CodecLaws)
    (hT : T.Proper S) (dbg : Bool) (params : Params) (ht : params.t ≠ 0) (htn : params.t.toNat ≤ params.n.toNat)
    (hn : params.n.toNat = n) (hgood : ∀ i, GoodDealer S params.t (T.book i)) (r : R) (a b : Fin n) :
    ∃ e, T.letter S dbg params r a b = some e := by
  obtain ⟨m, hb, -, hkeys, -⟩ := bootstrap_honest hc hd dbg params ht htn (T.records a)
    (by simp [Spec.Circle.records, hn]) (fun p hp => by
      obtain ⟨k, rfl⟩ := List.mem_ofFn.mp hp
      exact hgood _) (T.dh a) (T.idx a) (T.poly a) r
  have hmem : T.idx b ∈ m.keys :=
    (hkeys _).mpr ⟨T.book b, List.mem_ofFn.mpr ⟨(T.order a).symm b, by simp⟩, (hT.2 b).1⟩
  obtain ⟨e, he⟩ := BMap.exists_get? hmem
  refine ⟨e, ?_⟩
  unfold Spec.Circle.letter
  rw [hb]
  exact he

/-- C161: for two given participants the chance is exactly one divided by the number of blocks: nothing but chance keeps
their nonces apart. -/
theorem C161_pair {n : ℕ} (T : Spec.Circle F G n) {S : Suite F G R} (hc : S.CipherLaws) (hd : S.CodecLaws)
    (hT : T.Proper S) (dbg : Bool) (params : Params) (ht : params.t ≠ 0) (htn : params.t.toNat ≤ params.n.toNat)
    (hn : params.n.toNat = n) (hgood : ∀ i, GoodDealer S params.t (T.book i))
    {C : Type} [Fintype C] [Nonempty C] (block : C → Bytes) (hblock : Function.Injective block) (gen : (Fin n → C) → R)
    (hgen : ∀ (c : Fin n → C) (k : Fin n), Spec.bytes S (gen c) k = block (c k)) (i j : Fin n) (hij : i ≠ j) :
    (Spec.chance fun c : Fin n × Fin n → C => ∃ e e',
      T.letter S dbg params (gen fun k => c (i, k)) i j = some e ∧
      T.letter S dbg params (gen fun k => c (j, k)) j i = some e' ∧ e.nonce = e'.nonce) = 1 / (Fintype.card C : ℚ) := by
  have hex := letter_honest T hc hd hT dbg params ht htn hn hgood
  rw [← chance_same (C := C) (a := (i, (T.order i).symm j)) (b := (j, (T.order j).symm i))
    (fun h => hij (Prod.mk.inj h).1)]
  refine chance_congr fun c => ⟨?_, fun h => ?_⟩
  · rintro ⟨e, e', h, h', hne⟩
    obtain ⟨_, _, -, -, rfl⟩ := letter_sent T hT dbg params _ i j e h
    obtain ⟨_, _, -, -, rfl⟩ := letter_sent T hT dbg params _ j i e' h'
    simp only [hgen] at hne
    exact hblock hne
  · obtain ⟨e, he⟩ := hex (gen fun k => c (i, k)) i j
    obtain ⟨e', he'⟩ := hex (gen fun k => c (j, k)) j i
    refine ⟨e, e', he, he', ?_⟩
    obtain ⟨_, _, -, -, rfl⟩ := letter_sent T hT dbg params _ i j e he
    obtain ⟨_, _, -, -, rfl⟩ := letter_sent T hT dbg params _ j i e' he'
    simp only [hgen]
    exact congrArg block h

end

/-! ### With the suite of the tests -/

section
open Secp (Fn Parts)

/-- Twelve random bytes. -/
def Spec.twelve (c : Fin 12 → Fin 256) : Bytes := List.ofFn fun k => UInt8.ofFin (c k)

theorem twelve_injective : Function.Injective Spec.twelve := by
  intro c c' h
  unfold Spec.twelve at h
  have := List.ofFn_injective h
  funext k
  have hk := congrFun this k
  simpa using congrArg UInt8.toFin hk

/-- C161 for secp256k1: the chance that some key is used twice with the same nonce in a key generation of `n` participants
whose pairs have different keys is at most `n (n - 1) / 2 ^ 97`. -/
theorem C161_secp {R : Type} (X : Parts R) {n : ℕ} (T : Spec.Circle Fn Secp.Point n) (hT : T.Proper (Secp.suite X)) (dbg : Bool)
    (params : Params) (gen : (Fin n → (Fin 12 → Fin 256)) → R)
    (hgen : ∀ c (k : Fin n), Spec.bytes (Secp.suite X) (gen c) k = Spec.twelve (c k))
    (hk : ∀ i j i' j', T.key (Secp.suite X) i j = T.key (Secp.suite X) i' j' → (i = i' ∧ j = j') ∨ (i = j' ∧ j = i')) :
    (Spec.chance fun c : Fin n × Fin n → (Fin 12 → Fin 256) =>
      T.Reuse (Secp.suite X) dbg params fun i => gen fun k => c (i, k)) ≤ (n : ℚ) * (n - 1) / 2 ^ 97 := by
  have h := (C161_reuse T hT dbg params Spec.twelve twelve_injective gen hgen).2 hk
  refine le_trans h (le_of_eq ?_)
  rw [Fintype.card_fun, Fintype.card_fin, Fintype.card_fin]
  norm_num
  ring

theorem xorBytes_cancel (a b s : Bytes) (ha : a.length = s.length) (hb : b.length = s.length) :
    xorBytes (xorBytes (xorBytes a s) (xorBytes b s)) a = b := by
  unfold xorBytes
  induction s generalizing a b with
  | nil =>
    rw [List.length_eq_zero_iff.mp ha, List.length_eq_zero_iff.mp hb]
    rfl
  | cons z s ih =>
    cases a with
    | nil => cases ha
    | cons x a =>
      cases b with
      | nil => cases hb
      | cons y b =>
        simp only [List.zipWith_cons_cons]
        rw [ih a b (by simpa using ha) (by simpa using hb)]
        congr 1
        rw [UInt8.xor_comm x z, UInt8.xor_comm y z, UInt8.xor_assoc, UInt8.xor_assoc, UInt8.xor_comm x,
          ← UInt8.xor_assoc, ← UInt8.xor_assoc, ← UInt8.xor_assoc, UInt8.xor_self, UInt8.zero_xor, UInt8.xor_assoc,
          UInt8.xor_self, UInt8.xor_zero]

/-- C161: what a repeated nonce gives away with the suite of the tests. From the two ciphertexts between `i` and `j`, anybody
who learns one of the two values computes the other, without any key. -/
theorem C161_leak {R : Type} (X : Parts R) {n : ℕ} (T : Spec.Circle Fn Secp.Point n) (hT : T.Proper (Secp.suite X)) (dbg : Bool)
    (params : Params) (r r' : R) (i j : Fin n) (e e' : EncShare)
    (h : T.letter (Secp.suite X) dbg params r i j = some e) (h' : T.letter (Secp.suite X) dbg params r' j i = some e')
    (hn : e.nonce = e'.nonce) :
    (Secp.suite X).decF (xorBytes (xorBytes (e.ct.take 32) (e'.ct.take 32))
        ((Secp.suite X).encF (Spec.polyEval (T.poly i) ((T.idx j).toNat : Fn)))) =
      some (Spec.polyEval (T.poly j) ((T.idx i).toNat : Fn), []) := by
  obtain ⟨key, -, a, b⟩ := C161_one_key T hT dbg params r r' i j e e' h h'
  rw [← hn] at b
  generalize Spec.polyEval (T.poly i) ((T.idx j).toNat : Fn) = v at a ⊢
  generalize Spec.polyEval (T.poly j) ((T.idx i).toNat : Fn) = v' at b ⊢
  have hlen : ∀ w : Fn, ((Secp.suite X).encF w).length = 32 := fun w => Secp.encScalar_length w
  have split : ∀ (w : Fn) (ct : Bytes), (Secp.suite X).aeadEnc key e.nonce ((Secp.suite X).encF w) = some ct →
      ct.take 32 = xorBytes ((Secp.suite X).encF w) (X.stream key e.nonce 32) := by
    intro w ct hct
    unfold Secp.suite at hct
    simp only at hct
    split at hct
    · have hl : (Secp.encScalar w).length = 32 := Secp.encScalar_length w
      rw [hl] at hct
      rw [← Option.some.inj hct]
      rw [List.take_left' (by rw [Secp.xorBytes_length _ _ (by rw [X.stream_length, hl]), hl])]
      rfl
    · cases hct
  rw [split v _ a, split v' _ b]
  generalize hs : X.stream key e.nonce 32 = s
  have hsl : s.length = 32 := by rw [← hs, X.stream_length]
  have : xorBytes (xorBytes (xorBytes ((Secp.suite X).encF v) s) (xorBytes ((Secp.suite X).encF v') s))
      ((Secp.suite X).encF v) = (Secp.suite X).encF v' :=
    xorBytes_cancel _ _ _ (by rw [hlen, hsl]) (by rw [hlen, hsl])
  rw [this]
  have := (C148_lawful X).codec.decF_encF v' []
  rwa [List.append_nil] at this

end

/-! ### Cases -/

section
variable {F G R : Type} [Field F] [DecidableEq F] [AddCommGroup G] [Module F G] [DecidableEq G]

/-- Participants made by `new_dealer` with any indices and any randomness. -/
theorem exists_circle (S : Suite F G R) (params : Params) (ht : params.t ≠ 0) {n : ℕ} (idx : Fin n → U32)
    (hidx : Function.Injective idx) (h0 : ∀ i, idx i ≠ 0) (r : Fin n → R) :
    ∃ T : Spec.Circle F G n, T.Proper S ∧ (∀ i, T.dh i = Spec.scalar S (r i) 0) ∧
      ∀ i, GoodDealer S params.t (T.book i) := by
  have h : ∀ i, ∃ p cs dh, newDealer S params (idx i) (r i) = .ok (p, cs, dh) := by
    intro i
    obtain ⟨p, cs, dh, rng', hN, -⟩ := newInternal_dealer S params ht (idx i) (h0 i) none (r i)
    exact ⟨p, cs, dh, by unfold newDealer; rw [hN]⟩
  choose p cs dh hp using h
  refine ⟨⟨idx, p, dh, cs, fun _ => Equiv.refl _⟩, ⟨hidx, fun i => ?_⟩, fun i => ?_, fun i => ?_⟩
  · obtain ⟨-, a, -, -, b, -⟩ := newDealer_good ht (hp i)
    exact ⟨a, b⟩
  · exact (C113_dealer S params (idx i) (r i) _ _ _ (hp i)).1
  · exact (newDealer_good ht (hp i)).2.2.2.2.2

end

namespace Toy

/-- The toy suite with random numbers from a tape. -/
def taped : Suite Fp Fp (ℕ → Fin 65536) :=
  { suite with
    randScalar := fun r => ((r 0 : ℕ), fun k => r (k + 1))
    randBytes := fun k r => (leBytes k (r 0), fun k => r (k + 1)) }

theorem taped_cipher : taped.CipherLaws :=
  ⟨cipher_laws.kdf_ok, cipher_laws.aead_ok, fun _ _ => leBytes_length _ _⟩

theorem taped_encG : taped.encG = enc := rfl
theorem taped_decG : taped.decG = dec := rfl
theorem taped_encF : taped.encF = enc := rfl
theorem taped_decF : taped.decF = dec := rfl

theorem taped_codec : taped.CodecLaws := by
  refine ⟨?_, ?_, ?_, ?_⟩
  · rw [taped_decG, taped_encG]; exact dec_enc
  · rw [taped_decF, taped_encF]; exact dec_enc
  · rw [taped_encG]; exact enc_length
  · rw [taped_encF]; exact enc_length

theorem taped_bytes (r : ℕ → Fin 65536) (k : ℕ) : Spec.bytes taped r k = leBytes 2 (r k) := by
  unfold Spec.bytes
  have : ∀ (k : ℕ) (r : ℕ → Fin 65536), ((fun r : ℕ → Fin 65536 => (taped.randBytes taped.nonceSize r).2)^[k] r) 0 = r k := by
    intro k
    induction k with
    | zero => exact fun r => rfl
    | succ k ih =>
      intro r
      rw [Function.iterate_succ_apply, ih]
      rfl
  exact congrArg (fun v : Fin 65536 => leBytes 2 v) (this k r)

/-- A tape that continues a finite one with zeros. -/
def longTape {n : ℕ} (c : Fin n → Fin 65536) : ℕ → Fin 65536 := fun k => if h : k < n then c ⟨k, h⟩ else 0

/-- Three participants of the toy suite with DH keys 2, 3 and 5, so that the six keys differ. -/
example : ∃ T : Spec.Circle Fp Fp 3, T.Proper taped ∧
    (∀ i j i' j', T.key taped i j = T.key taped i' j' → (i = i' ∧ j = j') ∨ (i = j' ∧ j = i')) ∧
    (Spec.chance fun c : Fin 3 × Fin 3 → Fin 65536 =>
      T.Reuse taped false ⟨3, 2⟩ fun i => longTape fun k => c (i, k)) ≤ ((3 : ℚ) * (3 - 1) / 2) / 65536 ∧
    (Spec.chance fun c : Fin 3 × Fin 3 → Fin 65536 => ∃ e e',
      T.letter taped false ⟨3, 2⟩ (longTape fun k => c (0, k)) 0 1 = some e ∧
      T.letter taped false ⟨3, 2⟩ (longTape fun k => c (1, k)) 1 0 = some e' ∧ e.nonce = e'.nonce) = 1 / 65536 := by
  let key : Fin 3 → ℕ := fun i => if i = 0 then 2 else if i = 1 then 3 else 5
  obtain ⟨T, hT, hdh, hgood⟩ := exists_circle taped ⟨3, 2⟩ (by decide) (fun i : Fin 3 => UInt32.ofNat (i.val + 1))
    (by decide) (by decide) (fun i => fun _ => Fin.ofNat 65536 (key i))
  have hdh' : ∀ i, T.dh i = (key i : Fp) := by
    intro i
    rw [hdh i]
    show (((Fin.ofNat 65536 (key i)) : ℕ) : Fp) = _
    fin_cases i <;> rfl
  have hblock : Function.Injective fun c : Fin 65536 => leBytes 2 c := by
    intro a b hab
    have := congrArg leNat hab
    simp only [leNat_leBytes] at this
    exact Fin.ext (by omega)
  have hgen : ∀ (c : Fin 3 → Fin 65536) (k : Fin 3), Spec.bytes taped (longTape c) k = leBytes 2 (c k) := by
    intro c k
    rw [taped_bytes, longTape, dif_pos k.2]
  have hkey : ∀ i j i' j', T.key taped i j = T.key taped i' j' → (i = i' ∧ j = j') ∨ (i = j' ∧ j = i') := by
    intro i j i' j' h
    have h1 : (T.dh i * T.dh j) • taped.gen = (T.dh i' * T.dh j') • taped.gen :=
      taped_codec.encG_inj (Option.some.inj h)
    have h2 : T.dh i * T.dh j = T.dh i' * T.dh j' := by simpa [taped, suite] using h1
    simp only [hdh', ← Nat.cast_mul] at h2
    have h3 : key i * key j = key i' * key j' := by
      have := (ZMod.natCast_eq_natCast_iff' _ _ _).mp h2
      have hb : ∀ a b : Fin 3, key a * key b < 6597069766657 := by decide
      rwa [Nat.mod_eq_of_lt (hb _ _), Nat.mod_eq_of_lt (hb _ _)] at this
    have h4 : ∀ i j i' j' : Fin 3, key i * key j = key i' * key j' → (i = i' ∧ j = j') ∨ (i = j' ∧ j = i') := by decide
    exact h4 i j i' j' h3
  refine ⟨T, hT, hkey, ?_, ?_⟩
  · have := (C161_reuse T hT false ⟨3, 2⟩ _ hblock longTape hgen).2 hkey
    simpa using this
  · have := C161_pair T taped_cipher taped_codec hT false ⟨3, 2⟩ (by decide) (by decide) rfl hgood _ hblock longTape hgen 0 1
      (by decide)
    simpa using this

end Toy

namespace Secp

/-- Random numbers from a tape of blocks of twelve bytes. -/
def tapeParts : Parts (ℕ → Fin 12 → Fin 256) where
  hashToField _ b := (leNat b : Fn)
  sha256 b := leBytes 32 (leNat b)
  hkdf b := b
  stream key nonce k := leBytes k (leNat (key ++ nonce))
  tag key nonce ct := leBytes 16 (leNat (key ++ nonce ++ ct))
  randScalar r := (((r 0 0 : ℕ) : Fn), fun k => r (k + 1))
  randBytes k r := (if k = 12 then Spec.twelve (r 0) else leBytes k 0, fun k => r (k + 1))
  stream_length _ _ _ := leBytes_length _ _
  tag_length _ _ _ := leBytes_length _ _
  randBytes_length k r := by
    by_cases h : k = 12
    · simp [h, Spec.twelve]
    · simp only [if_neg h]
      exact leBytes_length _ _

theorem tapeParts_bytes (r : ℕ → Fin 12 → Fin 256) (k : ℕ) : Spec.bytes (suite tapeParts) r k = Spec.twelve (r k) := by
  unfold Spec.bytes
  have : ∀ (k : ℕ) (r : ℕ → Fin 12 → Fin 256),
      ((fun r : ℕ → Fin 12 → Fin 256 => ((suite tapeParts).randBytes (suite tapeParts).nonceSize r).2)^[k] r) 0 = r k := by
    intro k
    induction k with
    | zero => exact fun r => rfl
    | succ k ih =>
      intro r
      rw [Function.iterate_succ_apply, ih]
      rfl
  exact congrArg Spec.twelve (this k r)

/-- A tape that continues a finite one with zeros. -/
def longTape {n : ℕ} (c : Fin n → Fin 12 → Fin 256) : ℕ → Fin 12 → Fin 256 := fun k => if h : k < n then c ⟨k, h⟩ else fun _ => 0

/-- Two participants with DH keys 2 and 3 on secp256k1. If both draw the same block, they use one key with one nonce twice. -/
example : ∃ T : Spec.Circle Fn Point 2, T.Proper (suite tapeParts) ∧
    (∀ i j i' j', T.key (suite tapeParts) i j = T.key (suite tapeParts) i' j' → (i = i' ∧ j = j') ∨ (i = j' ∧ j = i')) ∧
    (Spec.chance fun c : Fin 2 × Fin 2 → (Fin 12 → Fin 256) =>
      T.Reuse (suite tapeParts) false ⟨2, 2⟩ fun i => longTape fun k => c (i, k)) ≤ ((2 : ℕ) : ℚ) * (((2 : ℕ) : ℚ) - 1) / 2 ^ 97 ∧
    ∃ r e e', T.letter (suite tapeParts) false ⟨2, 2⟩ r 0 1 = some e ∧ T.letter (suite tapeParts) false ⟨2, 2⟩ r 1 0 = some e' ∧
      e.nonce = e'.nonce := by
  let key : Fin 2 → ℕ := fun i => if i = 0 then 2 else 3
  obtain ⟨T, hT, hdh, hgood⟩ := exists_circle (suite tapeParts) ⟨2, 2⟩ (by decide) (fun i : Fin 2 => UInt32.ofNat (i.val + 1))
    (by decide) (by decide) (fun i => fun _ _ => Fin.ofNat 256 (key i))
  have hdh' : ∀ i, T.dh i = (key i : Fn) := by
    intro i
    rw [hdh i]
    show (((Fin.ofNat 256 (key i)) : ℕ) : Fn) = _
    fin_cases i <;> rfl
  have hgen : ∀ (c : Fin 2 → Fin 12 → Fin 256) (k : Fin 2), Spec.bytes (suite tapeParts) (longTape c) k = Spec.twelve (c k) := by
    intro c k
    rw [tapeParts_bytes, longTape, dif_pos k.2]
  have hkey : ∀ i j i' j', T.key (suite tapeParts) i j = T.key (suite tapeParts) i' j' →
      (i = i' ∧ j = j') ∨ (i = j' ∧ j = i') := by
    intro i j i' j' h
    have h1 : (T.dh i * T.dh j) • (suite tapeParts).gen = (T.dh i' * T.dh j') • (suite tapeParts).gen :=
      (C148_codec tapeParts).encG_inj (Option.some.inj h)
    have h2 : T.dh i * T.dh j = T.dh i' * T.dh j' := (C148_group tapeParts).gen_inj _ _ h1
    simp only [hdh', ← Nat.cast_mul] at h2
    have h3 : key i * key j = key i' * key j' := by
      have := (ZMod.natCast_eq_natCast_iff' _ _ _).mp h2
      have hb : ∀ a b : Fin 2, key a * key b < 10 := by decide
      rwa [Nat.mod_eq_of_lt (lt_trans (hb _ _) (by norm_num [Cases.secp256k1Order])), Nat.mod_eq_of_lt (lt_trans (hb _ _) (by norm_num [Cases.secp256k1Order]))] at this
    have h4 : ∀ i j i' j' : Fin 2, key i * key j = key i' * key j' → (i = i' ∧ j = j') ∨ (i = j' ∧ j = i') := by decide
    exact h4 i j i' j' h3
  refine ⟨T, hT, hkey, C161_secp tapeParts T hT false ⟨2, 2⟩ longTape hgen hkey, ?_⟩
  have hex := letter_honest T (C148_cipher tapeParts) (C148_codec tapeParts) hT false ⟨2, 2⟩ (by decide) (by decide) rfl hgood
    (fun _ _ => 0)
  obtain ⟨e, he⟩ := hex 0 1
  obtain ⟨e', he'⟩ := hex 1 0
  have hn : e.nonce = e'.nonce := by
    obtain ⟨_, _, -, -, rfl⟩ := letter_sent T hT false ⟨2, 2⟩ _ 0 1 e he
    obtain ⟨_, _, -, -, rfl⟩ := letter_sent T hT false ⟨2, 2⟩ _ 1 0 e' he'
    simp only [tapeParts_bytes]
  have _ := C161_leak tapeParts T hT false ⟨2, 2⟩ _ _ 0 1 e e' he he' hn
  exact ⟨_, e, e', he, he', hn⟩

end Secp

end IceFrost
