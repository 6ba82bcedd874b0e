import Verif.Props.Dealings

/-! # C146: forgers who see the whole record of the honest dealer

In C140 to C145 the colluders see the commitments of the honest dealer and their shares. Here they also see the rest of what
`Participant::new_dealer` publishes: the DH public key and both proofs of knowledge. The hash that made these proofs is the
same random oracle that the colluders ask, so the game starts with some answers already given. -/

set_option linter.unusedSectionVars false
set_option linter.unusedSimpArgs false
set_option linter.unusedVariables false

namespace IceFrost

open Finset

variable {F G R : Type} [Field F] [DecidableEq F] [AddCommGroup G] [Module F G] [DecidableEq G]
variable {Ω Ω' : Type}

/-! ### Answers given before -/

/-- Neither for a binding factor nor for a challenge. -/
def Spec.Question.Aside (S : Suite F G R) : Spec.Question → Prop
  | .field dst _ => dst ≠ S.contextString ++ strBytes "rho" ∧ dst ≠ S.contextString ++ strBytes "challenge"
  | _ => True

theorem lookup_or (T T' : List (Spec.Question × F)) (b : Spec.Question) :
    (T ++ T').lookup b = (T.lookup b).or (T'.lookup b) := by
  by_cases h : b ∈ T.map Prod.fst
  · rw [lookup_append_left h]
    cases e : T.lookup b with
    | some a => rfl
    | none =>
      rw [List.lookup_eq_none_iff] at e
      obtain ⟨p, hp, rfl⟩ := List.mem_map.mp h
      have := e p hp
      simp at this
  · rw [lookup_append_right h, lookup_none h]
    rfl

theorem lookup_aside {S : Suite F G R} {K : List (Spec.Question × F)} (hK : ∀ p ∈ K, p.1.Aside S) {b : Spec.Question}
    (hb : ¬ b.Aside S) : K.lookup b = none := by
  refine lookup_none fun h => ?_
  obtain ⟨p, hp, rfl⟩ := List.mem_map.mp h
  exact hb (hK p hp)

theorem factor_not_aside (S : Suite F G R) (m : Bytes) :
    ¬ (Spec.Question.field (S.contextString ++ strBytes "rho") m).Aside S := fun h => h.1 rfl

theorem challenge_not_aside (S : Suite F G R) (m : Bytes) :
    ¬ (Spec.Question.field (S.contextString ++ strBytes "challenge") m).Aside S := fun h => h.2 rfl

/-- Like `Spec.oracle`, with the answers `K` given before. -/
def Spec.oracleAfter (K : List (Spec.Question × F)) (ask : List F → Spec.Question) (h : ℕ → F) :
    ℕ → List (Spec.Question × F)
  | 0 => []
  | k + 1 =>
    let T := Spec.oracleAfter K ask h k
    let b := ask (T.map Prod.snd)
    T ++ [(b, ((K ++ T).lookup b).getD (h k))]

theorem oracleAfter_succ (K : List (Spec.Question × F)) (ask : List F → Spec.Question) (h : ℕ → F) (k : ℕ) :
    Spec.oracleAfter K ask h (k + 1) = Spec.oracleAfter K ask h k ++ [(ask ((Spec.oracleAfter K ask h k).map Prod.snd),
      ((K ++ Spec.oracleAfter K ask h k).lookup (ask ((Spec.oracleAfter K ask h k).map Prod.snd))).getD (h k))] := rfl

theorem oracleAfter_length (K : List (Spec.Question × F)) (ask : List F → Spec.Question) (h : ℕ → F) (k : ℕ) :
    (Spec.oracleAfter K ask h k).length = k := by
  induction k with
  | zero => rfl
  | succ k ih => simp [oracleAfter_succ, ih]

/-- Answers, with those in `K` put right. -/
def Spec.putRight (K : List (Spec.Question × F)) (ask : List F → Spec.Question) (answers : List F) : List F :=
  answers.foldl (fun acc a => acc ++ [(K.lookup (ask acc)).getD a]) []

theorem putRight_snoc (K : List (Spec.Question × F)) (ask : List F → Spec.Question) (answers : List F) (a : F) :
    Spec.putRight K ask (answers ++ [a]) =
      Spec.putRight K ask answers ++ [(K.lookup (ask (Spec.putRight K ask answers))).getD a] := by
  unfold Spec.putRight
  rw [List.foldl_append]
  rfl

namespace Spec.Attacker

variable {Out : Type} (A : Spec.Attacker Ω F Out) (q : ℕ) (final : Ω → Out → Spec.Question)
  (K : Ω → List (Spec.Question × F))

/-- All questions and answers of the experiment in which the answers `K` are given before. -/
def tableAfter (ω : Ω) (h : Fin (q + 1) → F) : List (Spec.Question × F) :=
  K ω ++ Spec.oracleAfter (K ω) (A.questions q final ω) (Spec.tape h) (q + 1)

/-- The result of the attacker in that experiment. -/
def outputAfter (ω : Ω) (h : Fin (q + 1) → F) : Out :=
  A.result ω (((Spec.oracleAfter (K ω) (A.questions q final ω) (Spec.tape h) (q + 1)).map Prod.snd).take q)

/-- The attacker who does not need to be given the answers `K`, because it knows them. -/
def knowing : Spec.Attacker Ω F Out where
  ask ω answers := A.ask ω (Spec.putRight (K ω) (A.ask ω) answers)
  result ω answers := A.result ω (Spec.putRight (K ω) (A.ask ω) answers)

/-- The attacker with coins computed from other coins. -/
def comap (f : Ω' → Ω) : Spec.Attacker Ω' F Out where
  ask ω := A.ask (f ω)
  result ω := A.result (f ω)

theorem comap_table (f : Ω' → Ω) (final' : Ω' → Out → Spec.Question) (ω : Ω') (hf : final' ω = final (f ω))
    (h : Fin (q + 1) → F) : (A.comap f).table q final' ω h = A.table q final (f ω) h := by
  unfold table
  have : (A.comap f).questions q final' ω = A.questions q final (f ω) := by
    funext answers
    unfold questions
    rw [hf]
    rfl
  rw [this]

theorem comap_output (f : Ω' → Ω) (final' : Ω' → Out → Spec.Question) (ω : Ω') (hf : final' ω = final (f ω))
    (h : Fin (q + 1) → F) : (A.comap f).output q final' ω h = A.output q final (f ω) h := by
  unfold output
  rw [A.comap_table q final f final' ω hf]
  rfl

theorem knowing_oracle (ω : Ω) (h : ℕ → F) (k : ℕ) (hk : k ≤ q) :
    let T := Spec.oracle ((A.knowing K).questions q final ω) h k
    let T' := Spec.oracleAfter (K ω) (A.questions q final ω) h k
    T'.map Prod.snd = Spec.putRight (K ω) (A.ask ω) (T.map Prod.snd) ∧
      ∀ b, (K ω).lookup b = none → T'.lookup b = T.lookup b := by
  induction k with
  | zero => exact ⟨rfl, fun _ _ => rfl⟩
  | succ k ih =>
    obtain ⟨h1, h2⟩ := ih (by omega)
    intro T T'
    set T₀ := Spec.oracle ((A.knowing K).questions q final ω) h k with hT₀
    set T₀' := Spec.oracleAfter (K ω) (A.questions q final ω) h k with hT₀'
    have l1 : T₀.length = k := oracle_length _ _ _
    have l2 : T₀'.length = k := oracleAfter_length _ _ _ _
    have e1 : (A.knowing K).questions q final ω (T₀.map Prod.snd) = A.ask ω (T₀'.map Prod.snd) := by
      show (if _ then A.ask ω (Spec.putRight (K ω) (A.ask ω) (T₀.map Prod.snd)) else _) = _
      rw [if_pos (by rw [List.length_map]; omega), h1]
    have e2 : A.questions q final ω (T₀'.map Prod.snd) = A.ask ω (T₀'.map Prod.snd) := by
      show (if _ then _ else _) = _
      rw [if_pos (by rw [List.length_map]; omega)]
    have hT : T = T₀ ++ [(A.ask ω (T₀'.map Prod.snd), (T₀.lookup (A.ask ω (T₀'.map Prod.snd))).getD (h k))] := by
      rw [← e1]
      rfl
    have hT' : T' = T₀' ++ [(A.ask ω (T₀'.map Prod.snd),
        ((K ω ++ T₀').lookup (A.ask ω (T₀'.map Prod.snd))).getD (h k))] := by
      rw [← e2]
      rfl
    generalize hb : A.ask ω (T₀'.map Prod.snd) = b at hT hT'
    have ha : ((K ω ++ T₀').lookup b).getD (h k) = ((K ω).lookup b).getD ((T₀.lookup b).getD (h k)) := by
      rw [lookup_or]
      cases hc : (K ω).lookup b with
      | some a => rfl
      | none => rw [Option.none_or, h2 b hc, Option.getD_none]
    rw [hT, hT']
    constructor
    · rw [List.map_append, List.map_append, List.map_singleton, List.map_singleton, putRight_snoc, ← h1, hb, ha]
    · intro x hx
      rw [ha, lookup_or T₀', lookup_or T₀, h2 x hx]
      congr 1
      rw [List.lookup_cons, List.lookup_cons]
      by_cases hxb : x = b
      · subst hxb
        rw [hx, Option.getD_none]
      · have : (x == b) = false := by simpa using hxb
        rw [this]

theorem knowing_output (ω : Ω) (h : Fin (q + 1) → F) :
    A.outputAfter q final K ω h = (A.knowing K).output q final ω h := by
  have l1 := oracle_length ((A.knowing K).questions q final ω) (Spec.tape h) q
  have l2 := oracleAfter_length (K ω) (A.questions q final ω) (Spec.tape h) q
  have e := (A.knowing_oracle q final K ω (Spec.tape h) q le_rfl).1
  unfold outputAfter output
  rw [oracleAfter_succ, List.map_append, List.take_append_of_le_length (by simp [l2]),
    List.take_of_length_le (by simp [l2]), e, table_prefix, List.map_append,
    List.take_append_of_le_length (by simp [l1]), List.take_of_length_le (by simp [l1])]
  rfl

/-- Every question that is not in `K` has the same answer in both experiments, once it is asked. -/
theorem knowing_lookup (ω : Ω) (h : Fin (q + 1) → F)
    (hK : (K ω).lookup (final ω (A.outputAfter q final K ω h)) = none) :
    (A.tableAfter q final K ω h).lookup (final ω (A.outputAfter q final K ω h)) =
      ((A.knowing K).table q final ω h).lookup (final ω (A.outputAfter q final K ω h)) := by
  have l2 := oracleAfter_length (K ω) (A.questions q final ω) (Spec.tape h) q
  have e := (A.knowing_oracle q final K ω (Spec.tape h) q le_rfl).2
  have e2 : A.questions q final ω ((Spec.oracleAfter (K ω) (A.questions q final ω) (Spec.tape h) q).map Prod.snd) =
      final ω (A.outputAfter q final K ω h) := by
    unfold outputAfter
    show (if _ then _ else _) = _
    rw [if_neg (by simp [l2]), oracleAfter_succ, List.map_append, List.take_append_of_le_length (by simp [l2])]
  unfold tableAfter
  rw [lookup_or, hK, Option.none_or, oracleAfter_succ, e2, table_prefix, ← A.knowing_output q final K, lookup_or,
    lookup_or, e _ hK, lookup_or, hK, Option.none_or]

/-- Verification succeeds in both experiments or in none. -/
theorem knowing_verify {S : Suite F G R} (Y : Ω → G) (A : Spec.Attacker Ω F (Bytes × ThresholdSignature F G))
    (hK : ∀ ω, ∀ p ∈ K ω, p.1.Aside S) (ω : Ω) (h : Fin (q + 1) → F) :
    let final := Spec.signatureQuestion S Y
    let o := A.outputAfter q final K ω h
    let o' := (A.knowing K).output q final ω h
    o.2.verify (Spec.withTable S (A.tableAfter q final K ω h)) (Y ω) o.1 = .ok () ↔
      o'.2.verify (Spec.withTable S ((A.knowing K).table q final ω h)) (Y ω) o'.1 = .ok () := by
  intro final o o'
  have ho : o = o' := A.knowing_output q final K ω h
  have hl := A.knowing_lookup q final K ω h (lookup_aside (hK ω) (challenge_not_aside S _))
  rw [← ho, verify_iff, verify_iff]
  unfold Spec.SigValid
  have : Spec.challenge (Spec.withTable S (A.tableAfter q final K ω h)) o.2.groupCommitment (Y ω) o.1 =
      Spec.challenge (Spec.withTable S ((A.knowing K).table q final ω h)) o.2.groupCommitment (Y ω) o.1 := by
    show ((A.tableAfter q final K ω h).lookup (final ω o)).getD _ = (((A.knowing K).table q final ω h).lookup (final ω o)).getD _
    rw [hl]
    rfl
  rw [this]
  rfl

end Spec.Attacker

/-! ### The record of the honest dealer -/

/-- The question for the challenge of a proof of knowledge for the key `X` with the commitment `M`. -/
def Spec.pokQuestion (S : Suite F G R) (l : U32) (X M : G) : Spec.Question :=
  .field (S.contextString ++ strBytes "nizkpok") (u32le l ++ S.encG X ++ S.encG M)

/-- What a record tells about the hash: the challenges of its two proofs. -/
def Spec.recordTable (S : Suite F G R) (p : Participant F G) : List (Spec.Question × F) :=
  (Spec.pokQuestion S p.index p.dhPublicKey
      (p.proofOfDhPrivateKey.r • S.gen - p.proofOfDhPrivateKey.s • p.dhPublicKey), p.proofOfDhPrivateKey.s) ::
    match p.commitments, p.proofOfSecretKey with
    | some v, some π => [(Spec.pokQuestion S p.index (v.points.headD 0) (π.r • S.gen - π.s • v.points.headD 0), π.s)]
    | _, _ => []

/-- The randomness of a record besides the polynomial: the DH key, the nonces of the proofs, and the answers of the hash. -/
structure Spec.RecordCoins (F : Type) where
  dh : F
  dhNonce : F
  dhAnswer : F
  nonce : F
  answer : F

def Spec.RecordCoins.equiv : F × F × F × F × F ≃ Spec.RecordCoins F where
  toFun x := ⟨x.1, x.2.1, x.2.2.1, x.2.2.2.1, x.2.2.2.2⟩
  invFun κ := (κ.dh, κ.dhNonce, κ.dhAnswer, κ.nonce, κ.answer)
  left_inv _ := rfl
  right_inv _ := rfl

instance [Fintype F] : Fintype (Spec.RecordCoins F) := Fintype.ofEquiv _ Spec.RecordCoins.equiv

instance : Nonempty (Spec.RecordCoins F) := ⟨⟨0, 0, 0, 0, 0⟩⟩

/-- The answer to the second question: the same as to the first one, if it is the same question. -/
def Spec.RecordCoins.second (S : Suite F G R) (κ : Spec.RecordCoins F) (l : U32) (X : G) : F :=
  if Spec.pokQuestion S l X (κ.nonce • S.gen) = Spec.pokQuestion S l (κ.dh • S.gen) (κ.dhNonce • S.gen) then κ.dhAnswer
  else κ.answer

/-- The record of dealer `l` with the commitments `P` to a polynomial with the secret `x`. -/
def Spec.recordWith (S : Suite F G R) (l : U32) (P : List G) (x : F) (κ : Spec.RecordCoins F) : Participant F G :=
  ⟨l, κ.dh • S.gen, some ⟨l, P⟩, some ⟨κ.second S l (x • S.gen), κ.nonce + x * κ.second S l (x • S.gen)⟩,
    ⟨κ.dhAnswer, κ.dhNonce + κ.dh * κ.dhAnswer⟩⟩

/-- The record of dealer `l` with the polynomial `w`. -/
def Spec.dealerRecord (S : Suite F G R) (l : U32) {t : ℕ} (w : Fin t → F) (κ : Spec.RecordCoins F) : Participant F G :=
  Spec.recordWith S l (commitPoints S (List.ofFn w)) ((List.ofFn w).headD 0) κ

/-- The record computed without the polynomial. -/
def Spec.simulatedRecord (S : Suite F G R) (l : U32) (P : List G) (κ : Spec.RecordCoins F) : Participant F G :=
  if P.headD 0 = κ.dh • S.gen then Spec.recordWith S l P κ.dh κ
  else ⟨l, κ.dh • S.gen, some ⟨l, P⟩, some ⟨κ.answer, κ.nonce⟩, ⟨κ.dhAnswer, κ.dhNonce + κ.dh * κ.dhAnswer⟩⟩

/-- The coins with which the simulation gives the record of the dealer with the secret `x`. -/
def Spec.RecordCoins.shift (x : F) : Spec.RecordCoins F ≃ Spec.RecordCoins F where
  toFun κ := if x = κ.dh then κ else { κ with nonce := κ.nonce + x * κ.answer }
  invFun κ := if x = κ.dh then κ else { κ with nonce := κ.nonce - x * κ.answer }
  left_inv κ := by
    by_cases h : x = κ.dh
    · simp only [h, if_true]
    · simp only [h, if_false, add_sub_cancel_right]
  right_inv κ := by
    by_cases h : x = κ.dh
    · simp only [h, if_true]
    · simp only [h, if_false, sub_add_cancel]

theorem shift_same {x : F} {κ : Spec.RecordCoins F} (h : x = κ.dh) : Spec.RecordCoins.shift x κ = κ := if_pos h

theorem shift_other {x : F} {κ : Spec.RecordCoins F} (h : x ≠ κ.dh) :
    Spec.RecordCoins.shift x κ = { κ with nonce := κ.nonce + x * κ.answer } := if_neg h

theorem simulated_shift {S : Suite F G R} (hg : S.GroupLaws) (hd : S.CodecLaws) (l : U32) (P : List G) (x : F)
    (hP : P.headD 0 = x • S.gen) (κ : Spec.RecordCoins F) :
    Spec.simulatedRecord S l P (Spec.RecordCoins.shift x κ) = Spec.recordWith S l P x κ := by
  unfold Spec.simulatedRecord
  rw [hP]
  by_cases h : x = κ.dh
  · rw [shift_same h, if_pos (by rw [h]), h]
  · have hne : x • S.gen ≠ κ.dh • S.gen := fun e => h (hg.gen_inj _ _ e)
    rw [shift_other h]
    rw [if_neg hne]
    have h2 : κ.second S l (x • S.gen) = κ.answer := by
      unfold Spec.RecordCoins.second
      refine if_neg fun e => hne ?_
      injection e with _ e
      rw [List.append_assoc, List.append_assoc] at e
      exact (hd.encG_append_inj (List.append_cancel_left e)).1
    unfold Spec.recordWith
    rw [h2]

theorem recordTable_aside (S : Suite F G R) (p : Participant F G) : ∀ e ∈ Spec.recordTable S p, e.1.Aside S := by
  have h : ∀ l X M, (Spec.pokQuestion S l X M).Aside S := by
    intro l X M
    exact ⟨fun e => absurd (List.append_cancel_left e) (by decide +kernel),
      fun e => absurd (List.append_cancel_left e) (by decide +kernel)⟩
  intro e he
  unfold Spec.recordTable at he
  rcases List.mem_cons.mp he with rfl | he
  · exact h _ _ _
  · split at he
    · rw [List.mem_singleton] at he
      subst he
      exact h _ _ _
    · cases he

theorem recordWith_table (S : Suite F G R) (l : U32) (P : List G) (x : F) (hP : P.headD 0 = x • S.gen)
    (κ : Spec.RecordCoins F) :
    Spec.recordTable S (Spec.recordWith S l P x κ) =
      [(Spec.pokQuestion S l (κ.dh • S.gen) (κ.dhNonce • S.gen), κ.dhAnswer),
        (Spec.pokQuestion S l (x • S.gen) (κ.nonce • S.gen), κ.second S l (x • S.gen))] := by
  have h : ∀ k y c : F, (k + y * c) • S.gen - c • y • S.gen = k • S.gen := by
    intro k y c
    rw [add_smul, mul_comm y, mul_smul, add_sub_cancel_right]
  show [(_, _), (Spec.pokQuestion S l (P.headD 0) (_ - _ • P.headD 0), _)] = _
  rw [hP]
  show [(Spec.pokQuestion S l _ ((κ.dhNonce + κ.dh * κ.dhAnswer) • S.gen - κ.dhAnswer • κ.dh • S.gen), _),
    (Spec.pokQuestion S l _ ((κ.nonce + x * κ.second S l (x • S.gen)) • S.gen - κ.second S l (x • S.gen) • x • S.gen), _)] = _
  rw [h, h]
  rfl

/-- C146: with these answers of the hash and these draws, `new_dealer` publishes exactly this record. -/
theorem C146_record (S : Suite F G (Nat → F)) (hS : ∀ ρ, S.randScalar ρ = (ρ 0, fun n => ρ (n + 1))) (params : Params)
    (ht : params.t ≠ 0) (l : U32) (hl : l ≠ 0) (ρ : Nat → F) (s s' : F) :
    let w : Fin params.t.toNat → F := fun k => ρ (2 + k)
    let p := Spec.dealerRecord S l w ⟨ρ 0, ρ 1, s', ρ (2 + params.t.toNat), s⟩
    newDealer (Spec.withTable S (Spec.recordTable S p)) params l ρ = .ok (p, List.ofFn w, ρ 0) := by
  intro w p
  have hx : (commitPoints S (List.ofFn w)).headD 0 = (List.ofFn w).headD 0 • S.gen := by
    cases List.ofFn w with
    | nil => simp [commitPoints]
    | cons a l => rfl
  have hT := recordWith_table S l _ _ hx ⟨ρ 0, ρ 1, s', ρ (2 + params.t.toNat), s⟩
  set U := Spec.withTable S (Spec.recordTable S p) with hU
  have hUS : ∀ ρ, U.randScalar ρ = (ρ 0, fun n => ρ (n + 1)) := hS
  obtain ⟨p', cs, dh, rng', hN, h1, -, -, h4, h5, -⟩ := newInternal_dealer U params ht l hl none ρ
  have hD : newDealer U params l ρ = .ok (p', cs, dh) := by unfold newDealer; rw [hN]
  obtain ⟨e1, ⟨e2, e2'⟩, e3, pf, e4, e5, e5'⟩ := C113_dealer U params l ρ p' cs dh hD
  have hcs : cs = List.ofFn w := by
    rw [e3]
    refine List.ext_getElem (by simp) fun k h1 h2 => ?_
    simp only [List.getElem_map, List.getElem_range, scalar_tape U hUS, List.getElem_ofFn, w]
  rw [scalar_tape U hUS] at e1 e2 e2' e5 e5'
  subst hcs
  subst e1
  rw [hD]
  congr 2
  have a1 : p'.proofOfDhPrivateKey.s = s' := by
    rw [e2]
    show ((Spec.recordTable S p).lookup (Spec.pokQuestion S l (ρ 0 • S.gen) (ρ 1 • S.gen))).getD _ = _
    rw [show Spec.recordTable S p = _ from hT, List.lookup_cons]
    simp
  have a2 : pf.s = (⟨ρ 0, ρ 1, s', ρ (2 + params.t.toNat), s⟩ : Spec.RecordCoins F).second S l
      ((List.ofFn w).headD 0 • S.gen) := by
    rw [e5]
    show ((Spec.recordTable S p).lookup (Spec.pokQuestion S l ((List.ofFn w).headD 0 • S.gen)
      (ρ (2 + params.t.toNat) • S.gen))).getD _ = _
    rw [show Spec.recordTable S p = _ from hT, List.lookup_cons, List.lookup_cons]
    unfold Spec.RecordCoins.second
    split_ifs with hq
    · have : (Spec.pokQuestion S l ((List.ofFn w).headD 0 • S.gen) (ρ (2 + params.t.toNat) • S.gen) ==
        Spec.pokQuestion S l (ρ 0 • S.gen) (ρ 1 • S.gen)) = true := by simpa using hq
      rw [this]
      rfl
    · have : (Spec.pokQuestion S l ((List.ofFn w).headD 0 • S.gen) (ρ (2 + params.t.toNat) • S.gen) ==
        Spec.pokQuestion S l (ρ 0 • S.gen) (ρ 1 • S.gen)) = false := by simpa using hq
      rw [this]
      simp
  obtain ⟨i', d', c', f', g'⟩ := p'
  obtain ⟨gs, gr⟩ := g'
  obtain ⟨fs, fr⟩ := pf
  simp only at h1 h4 h5 e2' e4 e5' a1 a2
  subst h1 h4 h5 e4 a1 a2 e2' e5'
  rfl

/-! ### Forging -/

/-- The commitments in a record. -/
def Spec.recordPoints (p : Participant F G) : List G := (p.commitments.map (·.points)).getD []

/-- What the colluders compute from the points, the shares and other coins: the record in place of the points. -/
def Spec.withRecord {V : Type} (S : Suite F G R) (l : U32) (v : (Ω × Spec.RecordCoins F) × (List G × V)) :
    Ω × (Participant F G × V) :=
  (v.1.1, Spec.simulatedRecord S l v.2.1 v.1.2, v.2.2)

theorem simulated_points (S : Suite F G R) (l : U32) (P : List G) (κ : Spec.RecordCoins F) :
    Spec.recordPoints (Spec.simulatedRecord S l P κ) = P := by
  unfold Spec.simulatedRecord
  split_ifs <;> rfl

theorem withRecord_view {S : Suite F G R} (hg : S.GroupLaws) (hd : S.CodecLaws) (l : U32) (J : List U32) {t : ℕ}
    (w : Fin t → F) (ω : Ω) (κ : Spec.RecordCoins F) :
    Spec.withRecord S l ((ω, Spec.RecordCoins.shift ((List.ofFn w).headD 0) κ), Spec.dealerView S J l w) =
      (ω, Spec.dealerRecord S l w κ, (Spec.dealerView S J l w).2) := by
  have hx : (commitPoints S (List.ofFn w)).headD 0 = (List.ofFn w).headD 0 • S.gen := by
    cases List.ofFn w with
    | nil => simp [commitPoints]
    | cons a l => rfl
  unfold Spec.withRecord
  rw [show (Spec.dealerView S J l w).1 = commitPoints S (List.ofFn w) from rfl, simulated_shift hg hd l _ _ hx κ]
  rfl

/-- C146: C145 for colluders who see the whole record that `new_dealer` of the honest dealer `l` publishes, and who know
answers `known` of the hash, other than binding factors and challenges, before they deal. -/
theorem C146_forgery [Fintype F] [Fintype Ω] [Nonempty Ω] {S : Suite F G R} (hS : S.Lawful) (D : List U32)
    (h0 : 0 ∉ D) (l : U32) (J : List U32) (hJ : J.Nodup) (hJ0 : 0 ∉ J) (t : ℕ) (ht : J.length + 1 = t)
    (H : List U32) (hH : H.Nodup) (htH : t ≤ H.length)
    (known : Ω × (Participant F G × ({j // j ∈ J} → F)) → List (Spec.Question × F))
    (hK : ∀ y, ∀ e ∈ known y, e.1.Aside S)
    (deal : Ω × (Participant F G × ({j // j ∈ J} → F)) → U32 → Spec.Dealing F G) (q : ℕ)
    (A : Spec.Attacker (Ω × (Participant F G × ({j // j ∈ J} → F))) F (Bytes × ThresholdSignature F G)) :
    let key : Ω × (Participant F G × ({j // j ∈ J} → F)) → G := fun y =>
      Spec.dealtKey D l (deal y) (Spec.recordPoints y.2.1, y.2.2)
    let final := Spec.signatureQuestion S key
    let K : Ω × (Participant F G × ({j // j ∈ J} → F)) → List (Spec.Question × F) := fun y =>
      Spec.recordTable S y.2.1 ++ known y
    let forged : ℚ := Spec.chance fun x : (Ω × Spec.RecordCoins F × (Fin t → F)) × (Fin (q + 1) → F) =>
      let y := (x.1.1, Spec.dealerRecord S l x.1.2.2 x.1.2.1, (Spec.dealerView S J l x.1.2.2).2)
      Spec.Accepted S D l H t (deal y) ∧
      (A.outputAfter q final K y x.2).2.verify (Spec.withTable S (A.tableAfter q final K y x.2)) (key y)
        (A.outputAfter q final K y x.2).1 = .ok ()
    forged * (forged / ((q + 1 : ℕ) : ℚ) - 1 / (Fintype.card F : ℚ)) ≤
      Spec.chance fun x : ((Ω × Spec.RecordCoins F) × (F × ({j // j ∈ J} → F))) × (Fin (q + 1) → F) × (Fin (q + 1) → F) =>
        Spec.solve S D l J (fun v k => (deal (Spec.withRecord S l v) k).poly H t) t q
          ((A.knowing K).comap (Spec.withRecord S l)) (x.1.2.1 • S.gen) x.1.1 x.1.2.2 x.2.1 x.2.2 = x.1.2.1 := by
  intro key final K forged
  have h := C145_forgery (Ω := Ω × Spec.RecordCoins F) hS D h0 l J hJ hJ0 t ht H hH htH
    (fun v => deal (Spec.withRecord S l v)) q ((A.knowing K).comap (Spec.withRecord S l))
  simp only at h
  refine le_trans (le_of_eq ?_) h
  let φ : (Ω × Spec.RecordCoins F × (Fin t → F)) × (Fin (q + 1) → F) ≃
      ((Ω × Spec.RecordCoins F) × (Fin t → F)) × (Fin (q + 1) → F) :=
    { toFun := fun z => (((z.1.1, Spec.RecordCoins.shift ((List.ofFn z.1.2.2).headD 0) z.1.2.1), z.1.2.2), z.2)
      invFun := fun z => ((z.1.1.1, (Spec.RecordCoins.shift ((List.ofFn z.1.2).headD 0)).symm z.1.1.2, z.1.2), z.2)
      left_inv := fun z => by simp
      right_inv := fun z => by simp }
  have hf : forged = Spec.chance fun x : ((Ω × Spec.RecordCoins F) × (Fin t → F)) × (Fin (q + 1) → F) =>
      let v := (x.1.1, Spec.dealerView S J l x.1.2)
      let B := (A.knowing K).comap (Spec.withRecord S l)
      let final' := Spec.signatureQuestion S fun v : (Ω × Spec.RecordCoins F) × (List G × ({j // j ∈ J} → F)) =>
        Spec.dealtKey D l (deal (Spec.withRecord S l v)) v.2
      Spec.Accepted S D l H t (deal (Spec.withRecord S l v)) ∧
      (B.output q final' v x.2).2.verify (Spec.withTable S (B.table q final' v x.2))
        (Spec.dealtKey D l (deal (Spec.withRecord S l v)) v.2) (B.output q final' v x.2).1 = .ok () := by
    rw [← chance_bijective φ φ.bijective]
    refine chance_congr ?_
    rintro ⟨⟨ω, κ, w⟩, g⟩
    simp only
    have hy := withRecord_view hS.group hS.codec l J w ω κ
    set v : (Ω × Spec.RecordCoins F) × (List G × ({j // j ∈ J} → F)) :=
      ((ω, Spec.RecordCoins.shift ((List.ofFn w).headD 0) κ), Spec.dealerView S J l w) with hv
    have hkey : ∀ v : (Ω × Spec.RecordCoins F) × (List G × ({j // j ∈ J} → F)),
        Spec.dealtKey D l (deal (Spec.withRecord S l v)) v.2 = key (Spec.withRecord S l v) := by
      intro v
      show _ = Spec.dealtKey D l (deal (Spec.withRecord S l v)) (Spec.recordPoints (Spec.simulatedRecord S l v.2.1 v.1.2), v.2.2)
      rw [simulated_points]
    have hfin : (Spec.signatureQuestion S fun v : (Ω × Spec.RecordCoins F) × (List G × ({j // j ∈ J} → F)) =>
        Spec.dealtKey D l (deal (Spec.withRecord S l v)) v.2) v = final (Spec.withRecord S l v) := by
      funext o
      show Spec.Question.field _ (_ ++ S.encG (Spec.dealtKey D l _ _) ++ _) = _
      rw [hkey]
      rfl
    rw [← hy]
    refine and_congr Iff.rfl ?_
    show _ ↔ (((A.knowing K).comap (Spec.withRecord S l)).output q _ v g).2.verify
      (Spec.withTable S (((A.knowing K).comap (Spec.withRecord S l)).table q _ v g)) (Spec.dealtKey D l (deal (Spec.withRecord S l v)) v.2)
      (((A.knowing K).comap (Spec.withRecord S l)).output q _ v g).1 = .ok ()
    rw [(A.knowing K).comap_output q final _ _ v hfin, (A.knowing K).comap_table q final _ _ v hfin, hkey]
    refine Spec.Attacker.knowing_verify q K key A (fun y e he => ?_) _ g
    rcases List.mem_append.mp he with he | he
    · exact recordTable_aside S _ e he
    · exact hK y e he
  rw [hf]

/-! ### The same for insiders -/

namespace Spec.Insider

variable (B : Spec.Insider Ω F G)

/-- The first `k` moves of the game in which the answers `K` are given before. -/
def playAfter (K : List (Spec.Question × F)) (S : Suite F G R) (dbg : Bool) (H : List U32) (key : U32 → F) (Y : G) (ω : Ω)
    (c : ℕ → F) (r : ℕ → U32 → F) (u : ℕ → F × F) : ℕ → Spec.Board F G × (U32 → List (CommitmentShare F G))
  | 0 => (⟨K, [], [], [], []⟩, fun _ => [])
  | k + 1 =>
    let st := playAfter K S dbg H key Y ω c r u k
    Spec.gameStep S dbg H key Y (B.move ω st.1.replies) st (c k) (r k) (u k)

/-- Success in that game. -/
def SucceedsAfter (K : List (Spec.Question × F)) (S : Suite F G R) (dbg : Bool) (H : List U32) (n : ℕ) (key : U32 → F)
    (Y : G) (ω : Ω) (d : Spec.Draw F (F × F)) (h : Fin (n + 1) → Spec.Cell F (F × F)) : Prop :=
  let st := (B.playAfter K S dbg H key Y ω (Spec.answers h) (fun a => (Spec.drawn d h a).1)
    (fun a => (Spec.drawn d h a).2) n).1
  st.Forged S Y (B.result ω st.replies) (Spec.answers h n)

end Spec.Insider

/-- What comes back for a move, with answers in `K` put right. -/
def Spec.correct (S : Suite F G R) (K : List (Spec.Question × F)) (mv : Spec.Action G) (a : Spec.Feedback F G) :
    Spec.Feedback F G :=
  match mv with
  | .hash b => if b.isFactor S then a else ((K.lookup b).map Spec.Feedback.answer).getD a
  | _ => a

namespace Spec.Insider

variable (B : Spec.Insider Ω F G)

/-- Everything that came back, with answers in `K` put right. -/
def heard (S : Suite F G R) (K : List (Spec.Question × F)) (ω : Ω) (replies : List (Spec.Feedback F G)) :
    List (Spec.Feedback F G) :=
  replies.foldl (fun acc a => acc ++ [Spec.correct S K (B.move ω acc) a]) []

theorem heard_snoc (S : Suite F G R) (K : List (Spec.Question × F)) (ω : Ω) (replies : List (Spec.Feedback F G))
    (a : Spec.Feedback F G) :
    B.heard S K ω (replies ++ [a]) =
      B.heard S K ω replies ++ [Spec.correct S K (B.move ω (B.heard S K ω replies)) a] := by
  unfold heard
  rw [List.foldl_append]
  rfl

/-- The insider who knows the answers `K`. -/
def knowing (S : Suite F G R) (K : Ω → List (Spec.Question × F)) : Spec.Insider Ω F G where
  move ω replies := B.move ω (B.heard S (K ω) ω replies)
  result ω replies := B.result ω (B.heard S (K ω) ω replies)

/-- The insider with coins computed from other coins. -/
def comap (f : Ω' → Ω) : Spec.Insider Ω' F G where
  move ω := B.move (f ω)
  result ω := B.result (f ω)

end Spec.Insider

/-- Two tables that agree on all questions that are not in `K`. -/
def Spec.AgreeBut (K T T' : List (Spec.Question × F)) : Prop := ∀ b, K.lookup b = none → T'.lookup b = T.lookup b

theorem agree_append {K T T' : List (Spec.Question × F)} (h : Spec.AgreeBut K T T') (E : List (Spec.Question × F)) :
    Spec.AgreeBut K (T ++ E) (T' ++ E) := by
  intro b hb
  rw [lookup_or, lookup_or, h b hb]

section Agree

variable {S : Suite F G R} {K T T' : List (Spec.Question × F)} (hK : ∀ p ∈ K, p.1.Aside S) (h : Spec.AgreeBut K T T')

include hK h

theorem agree_h1 : (Spec.withTable S T').h1 = (Spec.withTable S T).h1 := by
  funext m
  show (T'.lookup (.field (S.contextString ++ strBytes "rho") m)).getD _ =
    (T.lookup (.field (S.contextString ++ strBytes "rho") m)).getD _
  rw [h _ (lookup_aside hK (factor_not_aside S m))]
  rfl

theorem agree_h2 : (Spec.withTable S T').h2 = (Spec.withTable S T).h2 := by
  funext m
  show (T'.lookup (.field (S.contextString ++ strBytes "challenge") m)).getD _ =
    (T.lookup (.field (S.contextString ++ strBytes "challenge") m)).getD _
  rw [h _ (lookup_aside hK (challenge_not_aside S m))]
  rfl

theorem agree_rho (msg : Bytes) (signers : List (Signer G)) (i : U32) :
    Spec.rho (Spec.withTable S T') msg signers i = Spec.rho (Spec.withTable S T) msg signers i :=
  congrFun (agree_h1 hK h) (Spec.rhoInput S msg signers i)

theorem agree_groupCommitment (msg : Bytes) (signers : List (Signer G)) :
    Spec.groupCommitment (Spec.withTable S T') msg signers = Spec.groupCommitment (Spec.withTable S T) msg signers := by
  unfold Spec.groupCommitment
  congr 1
  refine List.map_congr_left fun s _ => ?_
  unfold Spec.signerCommitment
  rw [agree_rho hK h]

theorem agree_challenge (P Y : G) (msg : Bytes) :
    Spec.challenge (Spec.withTable S T') P Y msg = Spec.challenge (Spec.withTable S T) P Y msg :=
  congrFun (agree_h2 hK h) (S.encG P ++ S.encG Y ++ msg)

theorem agree_session (Y : G) (msg : Bytes) (signers : List (Signer G)) :
    Spec.sessionChallenge (Spec.withTable S T') Y msg signers = Spec.sessionChallenge (Spec.withTable S T) Y msg signers := by
  unfold Spec.sessionChallenge
  rw [agree_groupCommitment hK h, agree_challenge hK h]

theorem agree_factors (msg : Bytes) (signers : List (Signer G)) (r : U32 → F) :
    Spec.AgreeBut K (Spec.Board.withFactors S T msg signers r) (Spec.Board.withFactors S T' msg signers r) := by
  unfold Spec.Board.withFactors
  have : (signers.map fun s => (Spec.factorQuestion S msg signers s.participantIndex,
      (T'.lookup (Spec.factorQuestion S msg signers s.participantIndex)).getD (r s.participantIndex))) =
      signers.map fun s => (Spec.factorQuestion S msg signers s.participantIndex,
        (T.lookup (Spec.factorQuestion S msg signers s.participantIndex)).getD (r s.participantIndex)) := by
    refine List.map_congr_left fun s _ => ?_
    rw [h (Spec.factorQuestion S msg signers s.participantIndex) (lookup_aside hK (factor_not_aside S _))]
  rw [this]
  exact agree_append h _

theorem agree_sign (dbg : Bool) (sk : IndividualSigningKey F) (msg : Bytes) (Y : G) (list : List (CommitmentShare F G))
    (k : UInt64) (signers : List (Signer G)) :
    sign (Spec.withTable S T') dbg sk msg Y list k signers = sign (Spec.withTable S T) dbg sk msg Y list k signers := by
  unfold sign signCore computeBindingFactors computeChallenge
  rw [agree_h1 hK h, agree_h2 hK h]
  rfl

end Agree

/-- Two states of the game, without and with the answers `K`. -/
structure Spec.Alike (K : List (Spec.Question × F)) (heard : List (Spec.Feedback F G) → List (Spec.Feedback F G))
    (b b' : Spec.Board F G) : Prop where
  replies : b'.replies = heard b.replies
  signed : b'.signed = b.signed
  named : b'.named = b.named
  asked : b'.asked = b.asked
  agree : Spec.AgreeBut K b.table b'.table
  known : ∀ x a, K.lookup x = some a → b'.table.lookup x = some a

theorem known_append {K T E : List (Spec.Question × F)} (h : ∀ x a, K.lookup x = some a → T.lookup x = some a) :
    ∀ x a, K.lookup x = some a → (T ++ E).lookup x = some a := by
  intro x a hx
  rw [lookup_or, h x a hx]
  rfl

theorem alike_name {S : Suite F G R} {K : List (Spec.Question × F)} (hK : ∀ p ∈ K, p.1.Aside S)
    {heard : List (Spec.Feedback F G) → List (Spec.Feedback F G)} {b b' : Spec.Board F G} (h : Spec.Alike K heard b b')
    (Y : G) (msg : Bytes) (signers : List (Signer G)) (c : F) (r : U32 → F) :
    Spec.Alike K heard (b.name S Y msg signers c r) (b'.name S Y msg signers c r) := by
  have h1 := agree_factors hK h.agree msg signers r
  have h2 := agree_groupCommitment hK h1 msg signers
  refine ⟨h.replies, h.signed, ?_, ?_, ?_, ?_⟩
  · show b'.named ++ _ = b.named ++ _
    rw [h.named]
  · show b'.asked ++ [some (Spec.challengeQuestion S _ Y msg)] = b.asked ++ [some (Spec.challengeQuestion S _ Y msg)]
    rw [h.asked, h2]
  · show Spec.AgreeBut K (_ ++ [(Spec.challengeQuestion S _ Y msg, (List.lookup (Spec.challengeQuestion S _ Y msg) _).getD c)])
      (_ ++ [(Spec.challengeQuestion S _ Y msg, (List.lookup (Spec.challengeQuestion S _ Y msg) _).getD c)])
    rw [h2, h1 (Spec.challengeQuestion S _ Y msg) (lookup_aside hK (challenge_not_aside S _))]
    exact agree_append h1 _
  · exact known_append (known_append h.known)

theorem Spec.Insider.knowing_play (B : Spec.Insider Ω F G) (S : Suite F G R) (K : Ω → List (Spec.Question × F)) (ω : Ω)
    (hK : ∀ p ∈ K ω, p.1.Aside S) (dbg : Bool) (H : List U32) (key : U32 → F) (Y : G) (c : ℕ → F) (r : ℕ → U32 → F)
    (u : ℕ → F × F) (k : ℕ) :
    let st := (B.knowing S K).play S dbg H key Y ω c r u k
    let st' := B.playAfter (K ω) S dbg H key Y ω c r u k
    st'.2 = st.2 ∧ Spec.Alike (K ω) (B.heard S (K ω) ω) st.1 st'.1 := by
  induction k with
  | zero =>
    exact ⟨rfl, rfl, rfl, rfl, rfl, fun b hb => hb, fun x a hx => hx⟩
  | succ k ih =>
    obtain ⟨h1, h2⟩ := ih
    intro st st'
    set s := (B.knowing S K).play S dbg H key Y ω c r u k with hs
    set s' := B.playAfter (K ω) S dbg H key Y ω c r u k with hs'
    have hm : (B.knowing S K).move ω s.1.replies = B.move ω s'.1.replies := by rw [h2.replies]; rfl
    have e : st = Spec.gameStep S dbg H key Y (B.move ω s'.1.replies) s (c k) (r k) (u k) := by rw [← hm]; rfl
    have e' : st' = Spec.gameStep S dbg H key Y (B.move ω s'.1.replies) s' (c k) (r k) (u k) := rfl
    rw [e, e']
    have hh : ∀ a, B.heard S (K ω) ω (s.1.replies ++ [a]) =
        s'.1.replies ++ [Spec.correct S (K ω) (B.move ω s'.1.replies) a] := by
      intro a
      rw [B.heard_snoc, h2.replies]
    generalize B.move ω s'.1.replies = mv at hh
    clear_value s s'
    obtain ⟨b, pr⟩ := s
    obtain ⟨b', pr'⟩ := s'
    simp only at h1 h2 hh
    subst h1
    cases mv with
    | hash x =>
      refine ⟨rfl, ?_⟩
      show Spec.Alike (K ω) _ (b.hash S x (c k)) (b'.hash S x (c k))
      unfold Spec.Board.hash
      by_cases hx : x.isFactor S
      · rw [if_pos hx, if_pos hx]
        refine ⟨?_, h2.signed, ?_, ?_, h2.agree, h2.known⟩
        · show _ = B.heard S (K ω) ω (b.replies ++ [.answer 0])
          rw [hh]
          unfold Spec.correct
          simp only [hx, if_true]
        · simp only [h2.named]
        · simp only [h2.asked]
      · rw [if_neg hx, if_neg hx]
        have ha : (b'.table.lookup x).getD (c k) = ((K ω).lookup x).getD ((b.table.lookup x).getD (c k)) := by
          cases hl : (K ω).lookup x with
          | some a => rw [h2.known x a hl]; rfl
          | none => rw [h2.agree x hl]; rfl
        refine ⟨?_, h2.signed, ?_, ?_, ?_, known_append h2.known⟩
        · show _ = B.heard S (K ω) ω (b.replies ++ [.answer ((b.table.lookup x).getD (c k))])
          rw [hh]
          unfold Spec.correct
          simp only [hx, ha, Bool.false_eq_true, if_false]
          cases (K ω).lookup x <;> rfl
        · simp only [h2.named]
        · simp only [h2.asked]
        · intro y hy
          show (b'.table ++ [(x, _)]).lookup y = (b.table ++ [(x, _)]).lookup y
          rw [ha, lookup_or b'.table, lookup_or b.table, h2.agree y hy]
          congr 1
          rw [List.lookup_cons, List.lookup_cons]
          by_cases hxy : y = x
          · subst hxy
            rw [hy, Option.getD_none]
          · have : (y == x) = false := by simpa using hxy
            rw [this]
    | factors msg signers =>
      have h3 := alike_name hK h2 Y msg signers (c k) (r k)
      refine ⟨rfl, ?_, h3.signed, h3.named, h3.asked, h3.agree, h3.known⟩
      show b'.replies ++ [Spec.Feedback.factors _ _] = B.heard S (K ω) ω (b.replies ++ [Spec.Feedback.factors _ _])
      rw [hh]
      show _ ++ [_] = _ ++ [Spec.Feedback.factors _ _]
      rw [agree_session hK h3.agree, List.map_congr_left fun s _ => agree_rho hK h3.agree msg signers _]
    | announce i =>
      refine ⟨rfl, ?_, h2.signed, ?_, ?_, h2.agree, h2.known⟩
      · show _ = B.heard S (K ω) ω (b.replies ++ [_])
        rw [hh]
        rfl
      · show b'.named ++ _ = b.named ++ _
        rw [h2.named]
      · show b'.asked ++ _ = b.asked ++ _
        rw [h2.asked]
    | sign i j msg signers =>
      unfold Spec.gameStep
      by_cases hi : i ∈ H
      · have h3 := alike_name hK h2 Y msg signers (c k) (r k)
        simp only [hi, if_true]
        rw [agree_sign hK h3.agree]
        refine ⟨rfl, ?_⟩
        generalize IceFrost.sign (Spec.withTable S (b.name S Y msg signers (c k) (r k)).table) dbg ⟨i, key i⟩ msg Y (pr' i) j
          signers = out
        have h4 : Spec.Alike (K ω) (B.heard S (K ω) ω)
            ((b.name S Y msg signers (c k) (r k)).reply (.response (out.1.map (·.z))))
            ((b'.name S Y msg signers (c k) (r k)).reply (.response (out.1.map (·.z)))) := by
          refine ⟨?_, h3.signed, h3.named, h3.asked, h3.agree, h3.known⟩
          show _ = B.heard S (K ω) ω (b.replies ++ [_])
          rw [hh]
          rfl
        split_ifs
        · refine ⟨h4.replies, ?_, h4.named, h4.asked, h4.agree, h4.known⟩
          show _ ++ _ = _ ++ _
          rw [h4.signed]
        · exact h4
      · simp only [hi, if_false]
        refine ⟨trivial, ?_, h2.signed, ?_, ?_, h2.agree, h2.known⟩
        · show _ = B.heard S (K ω) ω (b.replies ++ [_])
          rw [hh]
          rfl
        · show b'.named ++ _ = b.named ++ _
          rw [h2.named]
        · show b'.asked ++ _ = b.asked ++ _
          rw [h2.asked]

theorem Spec.Insider.knowing_succeeds (B : Spec.Insider Ω F G) (S : Suite F G R) (K : Ω → List (Spec.Question × F)) (ω : Ω)
    (hK : ∀ p ∈ K ω, p.1.Aside S) (dbg : Bool) (H : List U32) (n : ℕ) (key : U32 → F) (Y : G)
    (d : Spec.Draw F (F × F)) (h : Fin (n + 1) → Spec.Cell F (F × F)) :
    B.SucceedsAfter (K ω) S dbg H n key Y ω d h ↔ (B.knowing S K).Succeeds S dbg H n key Y ω d h := by
  obtain ⟨-, ha⟩ := B.knowing_play S K ω hK dbg H key Y (Spec.answers h) (fun a => (Spec.drawn d h a).1)
    (fun a => (Spec.drawn d h a).2) n
  unfold Spec.Insider.SucceedsAfter Spec.Insider.Succeeds Spec.Board.Forged Spec.Board.NoCollision
  simp only
  rw [ha.replies, ha.signed, ha.named]
  refine and_congr ?_ Iff.rfl
  set st := (B.knowing S K).play S dbg H key Y ω (Spec.answers h) (fun a => (Spec.drawn d h a).1)
    (fun a => (Spec.drawn d h a).2) n
  have hr : (B.knowing S K).result ω st.1.replies = B.result ω (B.heard S (K ω) ω st.1.replies) := rfl
  rw [hr]
  generalize B.result ω (B.heard S (K ω) ω st.1.replies) = o
  rw [verify_iff, verify_iff]
  unfold Spec.SigValid
  have hq : (K ω).lookup (Spec.resultQuestion S Y o) = none := lookup_aside hK (challenge_not_aside S _)
  rw [ha.agree _ hq, agree_challenge hK (agree_append ha.agree _)]
  rfl


theorem Spec.Insider.comap_play (B : Spec.Insider Ω F G) (f : Ω' → Ω) (S : Suite F G R) (dbg : Bool) (H : List U32)
    (key : U32 → F) (Y : G) (ω : Ω') (c : ℕ → F) (r : ℕ → U32 → F) (u : ℕ → F × F) (k : ℕ) :
    (B.comap f).play S dbg H key Y ω c r u k = B.play S dbg H key Y (f ω) c r u k := by
  induction k with
  | zero => rfl
  | succ k ih =>
    rw [Spec.Insider.play_succ, Spec.Insider.play_succ, ih]
    rfl

/-- C146: the same for colluders who then take part in concurrent signing sessions, as in C143 and C145. -/
theorem C146_concurrent_sessions [Fintype F] [Fintype U32] [Fintype Ω] [Nonempty Ω] {S : Suite F G R} (hS : S.Lawful)
    (D : List U32) (h0 : 0 ∉ D) (l : U32) (J : List U32) (hJ : J.Nodup) (hJ0 : 0 ∉ J) (t : ℕ) (ht : J.length + 1 = t)
    (H : List U32) (hH : H.Nodup) (htH : t ≤ H.length)
    (known : Ω × (Participant F G × ({j // j ∈ J} → F)) → List (Spec.Question × F))
    (hK : ∀ y, ∀ e ∈ known y, e.1.Aside S)
    (deal : Ω × (Participant F G × ({j // j ∈ J} → F)) → U32 → Spec.Dealing F G) (dbg : Bool) (n : ℕ) (hn : n ≤ 2 ^ 63)
    (B : Spec.Insider (Ω × (Participant F G × ({j // j ∈ J} → F))) F G) :
    let K : Ω × (Participant F G × ({j // j ∈ J} → F)) → List (Spec.Question × F) := fun y =>
      Spec.recordTable S y.2.1 ++ known y
    let forged : ℚ := Spec.chance fun z : (Ω × Spec.RecordCoins F × (Fin t → F) × Spec.Draw F (F × F)) ×
        (Fin (n + 1) → Spec.Cell F (F × F)) =>
      let w := z.1.2.2.1
      let y := (z.1.1, Spec.dealerRecord S l w z.1.2.1, (Spec.dealerView S J l w).2)
      Spec.Accepted S D l H t (deal y) ∧
      B.SucceedsAfter (K y) S dbg H n (Spec.dealtShare D l (deal y) w)
        (Spec.dealtKey D l (deal y) (Spec.recordPoints y.2.1, y.2.2)) y z.1.2.2.2 z.2
    forged * (forged / ((n + 1 : ℕ) : ℚ) - 1 / (Fintype.card F : ℚ)) -
        2 * (n : ℚ) ^ 2 * (H.length : ℚ) / (Fintype.card F : ℚ) ≤
      Spec.chance fun y : (((Ω × Spec.RecordCoins F) × ({j // j ∈ J} → F)) × F × Spec.Draw F (F × F)) ×
          (Fin (n + 1) → Spec.Cell F (F × F)) × (Fin (n + 1) → Spec.Cell F (F × F)) =>
        Spec.Insider.Solves (((B.knowing S K).comap (Spec.withRecord S l)).afterView S t) S dbg H n
          (fun ω X => Spec.kitOfView D l J (fun k => (deal (Spec.withRecord S l (ω.1,
            Spec.simulatedDealerView S J t X ω.2)) k).poly H t) ω.2)
          y.1.1 y.1.2.1 y.1.2.2 y.2.1 y.2.2 := by
  intro K forged
  have h := C145_concurrent_sessions (Ω := Ω × Spec.RecordCoins F) hS D h0 l J hJ hJ0 t ht H hH htH
    (fun v => deal (Spec.withRecord S l v)) dbg n hn ((B.knowing S K).comap (Spec.withRecord S l))
  simp only at h
  refine le_trans (le_of_eq ?_) h
  let φ : (Ω × Spec.RecordCoins F × (Fin t → F) × Spec.Draw F (F × F)) × (Fin (n + 1) → Spec.Cell F (F × F)) ≃
      ((Ω × Spec.RecordCoins F) × (Fin t → F) × Spec.Draw F (F × F)) × (Fin (n + 1) → Spec.Cell F (F × F)) :=
    { toFun := fun z => (((z.1.1, Spec.RecordCoins.shift ((List.ofFn z.1.2.2.1).headD 0) z.1.2.1), z.1.2.2), z.2)
      invFun := fun z => ((z.1.1.1, (Spec.RecordCoins.shift ((List.ofFn z.1.2.1).headD 0)).symm z.1.1.2, z.1.2), z.2)
      left_inv := fun z => by simp
      right_inv := fun z => by simp }
  have hf : forged = Spec.chance fun z : ((Ω × Spec.RecordCoins F) × (Fin t → F) × Spec.Draw F (F × F)) ×
      (Fin (n + 1) → Spec.Cell F (F × F)) =>
      let v := (z.1.1, Spec.dealerView S J l z.1.2.1)
      Spec.Accepted S D l H t (deal (Spec.withRecord S l v)) ∧
      ((B.knowing S K).comap (Spec.withRecord S l)).Succeeds S dbg H n
        (Spec.dealtShare D l (deal (Spec.withRecord S l v)) z.1.2.1)
        (Spec.dealtKey D l (deal (Spec.withRecord S l v)) v.2) v z.1.2.2 z.2 := by
    rw [← chance_bijective φ φ.bijective]
    refine chance_congr ?_
    rintro ⟨⟨ω, κ, w, d⟩, g⟩
    have hy := withRecord_view hS.group hS.codec l J w ω κ
    set v : (Ω × Spec.RecordCoins F) × (List G × ({j // j ∈ J} → F)) :=
      ((ω, Spec.RecordCoins.shift ((List.ofFn w).headD 0) κ), Spec.dealerView S J l w) with hv
    show (Spec.Accepted S D l H t (deal (ω, Spec.dealerRecord S l w κ, (Spec.dealerView S J l w).2)) ∧
        B.SucceedsAfter (K (ω, Spec.dealerRecord S l w κ, (Spec.dealerView S J l w).2)) S dbg H n
          (Spec.dealtShare D l (deal (ω, Spec.dealerRecord S l w κ, (Spec.dealerView S J l w).2)) w)
          (Spec.dealtKey D l (deal (ω, Spec.dealerRecord S l w κ, (Spec.dealerView S J l w).2)) (Spec.dealerView S J l w))
          (ω, Spec.dealerRecord S l w κ, (Spec.dealerView S J l w).2) d g) ↔
      Spec.Accepted S D l H t (deal (Spec.withRecord S l v)) ∧
        ((B.knowing S K).comap (Spec.withRecord S l)).Succeeds S dbg H n
          (Spec.dealtShare D l (deal (Spec.withRecord S l v)) w)
          (Spec.dealtKey D l (deal (Spec.withRecord S l v)) (Spec.dealerView S J l w)) v d g
    rw [← hy]
    refine and_congr Iff.rfl ?_
    rw [B.knowing_succeeds S K]
    · unfold Spec.Insider.Succeeds
      simp only [Spec.Insider.comap_play]
      rfl
    · intro e he
      rcases List.mem_append.mp he with he | he
      · exact recordTable_aside S _ e he
      · exact hK _ e he
  rw [hf]

section Examples
open Toy

theorem putRight_id (K : List (Spec.Question × F)) (ask : List F → Spec.Question) (h : ∀ a, K.lookup (ask a) = none)
    (answers : List F) : Spec.putRight K ask answers = answers := by
  induction answers using List.reverseRecOn with
  | nil => rfl
  | append_singleton l a ih => rw [putRight_snoc, ih, h, Option.getD_none]

theorem heard_id (B : Spec.Insider Ω F G) (S : Suite F G R) (K : List (Spec.Question × F)) (ω : Ω)
    (h : ∀ l a, Spec.correct S K (B.move ω l) a = a) (replies : List (Spec.Feedback F G)) :
    B.heard S K ω replies = replies := by
  induction replies using List.reverseRecOn with
  | nil => rfl
  | append_singleton l a ih => rw [B.heard_snoc, ih, h]

/-- Dealings of the dealers other than dealer 1; that of dealer 2 depends on the record of dealer 1. -/
def recordDeal (y : Unit × (Participant Fp Fp × ({j // j ∈ colluders} → Fp))) (k : U32) : Spec.Dealing Fp Fp :=
  let cs : List Fp := if k = 2 then [7 - (Spec.recordPoints y.2.1).headD 0, y.2.1.proofOfDhPrivateKey.r, y.2.1.dhPublicKey]
    else [4, 0, 9]
  ⟨commitPoints suite cs, fun i => Spec.polyEval cs (i.toNat : Fp)⟩

theorem recordDeal_accepted (y : Unit × (Participant Fp Fp × ({j // j ∈ colluders} → Fp))) :
    Spec.Accepted suite [1, 2, 3] 1 [1, 3, 5] 3 (recordDeal y) := by
  intro k _ _
  unfold recordDeal
  refine ⟨?_, fun i _ => (pointEval_commitPoints suite _ _).symm⟩
  simp only [commitPoints_length]
  split <;> rfl

/-- They have asked for the challenge of a proof of their own before dealing. -/
def recordKnown (y : Unit × (Participant Fp Fp × ({j // j ∈ colluders} → Fp))) : List (Spec.Question × Fp) :=
  [(Spec.pokQuestion suite 2 y.2.1.dhPublicKey 3, 8)]

theorem recordKnown_aside (y : Unit × (Participant Fp Fp × ({j // j ∈ colluders} → Fp))) :
    ∀ e ∈ recordKnown y, e.1.Aside suite := by
  intro e he
  rw [recordKnown, List.mem_singleton] at he
  subst he
  exact ⟨fun e => absurd (List.append_cancel_left e) (by decide +kernel),
    fun e => absurd (List.append_cancel_left e) (by decide +kernel)⟩

def recordKey (y : Unit × (Participant Fp Fp × ({j // j ∈ colluders} → Fp))) : Fp :=
  Spec.dealtKey [1, 2, 3] 1 (recordDeal y) (Spec.recordPoints y.2.1, y.2.2)

theorem record_aside (y : Unit × (Participant Fp Fp × ({j // j ∈ colluders} → Fp))) :
    ∀ e ∈ Spec.recordTable suite y.2.1 ++ recordKnown y, e.1.Aside suite := by
  intro e he
  rcases List.mem_append.mp he with he | he
  · exact recordTable_aside suite _ e he
  · exact recordKnown_aside y e he

theorem openReaders_knowing : (openReaders recordKey).knowing (fun y => Spec.recordTable suite y.2.1 ++ recordKnown y) =
    openReaders recordKey := by
  have : ∀ y a, Spec.putRight (Spec.recordTable suite y.2.1 ++ recordKnown y) ((openReaders recordKey).ask y) a = a :=
    fun y a => putRight_id _ _ (fun _ => lookup_aside (record_aside y) (challenge_not_aside suite _)) a
  show (⟨_, _⟩ : Spec.Attacker _ _ _) = ⟨_, _⟩
  congr 1
  funext y a
  rw [this]
  rfl

theorem moonlighter_knowing : (moonlighter recordKey).knowing suite (fun y => Spec.recordTable suite y.2.1 ++ recordKnown y) =
    moonlighter recordKey := by
  have : ∀ y a, (moonlighter recordKey).heard suite (Spec.recordTable suite y.2.1 ++ recordKnown y) y a = a := by
    intro y a
    refine heard_id _ _ _ _ (fun l a => ?_) a
    unfold moonlighter
    simp only
    split
    · rfl
    · rfl
    · unfold Spec.correct
      simp only
      rw [lookup_aside (b := Spec.challengeQuestion suite 5 (recordKey y) [1, 2]) (record_aside y)
        (challenge_not_aside suite _)]
      split <;> rfl
  show (⟨_, _⟩ : Spec.Insider _ _ _) = ⟨_, _⟩
  congr 1
  · funext y a
    rw [this]
    rfl
  · funext y a
    rw [this]
    rfl

example [Fintype Fp] : 1 * (1 / ((1 + 1 : ℕ) : ℚ) - 1 / (Fintype.card Fp : ℚ)) ≤
    Spec.chance fun x : ((Unit × Spec.RecordCoins Fp) × (Fp × ({j // j ∈ colluders} → Fp))) × (Fin (1 + 1) → Fp) ×
        (Fin (1 + 1) → Fp) =>
      Spec.solve suite [1, 2, 3] 1 colluders (fun v k => (recordDeal (Spec.withRecord suite 1 v) k).poly [1, 3, 5] 3) 3 1
        (((openReaders recordKey).knowing fun y => Spec.recordTable suite y.2.1 ++ recordKnown y).comap
          (Spec.withRecord suite 1)) (x.1.2.1 • suite.gen) x.1.1 x.1.2.2 x.2.1 x.2.2 = x.1.2.1 := by
  have h := C146_forgery (Ω := Unit) lawful [1, 2, 3] (by decide) 1 colluders (by decide) (by decide) 3 rfl [1, 3, 5]
    (by decide) (by decide) recordKnown recordKnown_aside recordDeal 1 (openReaders recordKey)
  refine of_chance_one (P := fun f => f * (f / ((1 + 1 : ℕ) : ℚ) - 1 / (Fintype.card Fp : ℚ)) ≤ _) (fun x =>
    ⟨recordDeal_accepted _, ?_⟩) h
  refine (Spec.Attacker.knowing_verify 1 _ recordKey (openReaders recordKey) record_aside _ x.2).mpr ?_
  rw [openReaders_knowing]
  exact openReaders_win recordKey _ x.2

example [Fintype Fp] [Fintype U32] :
    1 * (1 / ((3 + 1 : ℕ) : ℚ) - 1 / (Fintype.card Fp : ℚ)) - 2 * ((3 : ℕ) : ℚ) ^ 2 * (([1, 3, 5] : List U32).length : ℚ) /
        (Fintype.card Fp : ℚ) ≤
      Spec.chance fun y : (((Unit × Spec.RecordCoins Fp) × ({j // j ∈ colluders} → Fp)) × Fp × Spec.Draw Fp (Fp × Fp)) ×
          (Fin (3 + 1) → Spec.Cell Fp (Fp × Fp)) × (Fin (3 + 1) → Spec.Cell Fp (Fp × Fp)) =>
        Spec.Insider.Solves ((((moonlighter recordKey).knowing suite fun y => Spec.recordTable suite y.2.1 ++ recordKnown y).comap
          (Spec.withRecord suite 1)).afterView suite 3) suite true [1, 3, 5] 3
          (fun ω X => Spec.kitOfView [1, 2, 3] 1 colluders (fun k => (recordDeal (Spec.withRecord suite 1 (ω.1,
            Spec.simulatedDealerView suite colluders 3 X ω.2)) k).poly [1, 3, 5] 3) ω.2)
          y.1.1 y.1.2.1 y.1.2.2 y.2.1 y.2.2 := by
  have h := C146_concurrent_sessions (Ω := Unit) lawful [1, 2, 3] (by decide) 1 colluders (by decide) (by decide) 3 rfl
    [1, 3, 5] (by decide) (by decide) recordKnown recordKnown_aside recordDeal true 3 (by norm_num) (moonlighter recordKey)
  refine of_chance_one (P := fun f => f * (f / ((3 + 1 : ℕ) : ℚ) - 1 / (Fintype.card Fp : ℚ)) - _ ≤ _) (fun z =>
    ⟨recordDeal_accepted _, ?_⟩) h
  refine ((moonlighter recordKey).knowing_succeeds suite (fun y => Spec.recordTable suite y.2.1 ++ recordKnown y) _
    (record_aside _) true _ 3 _ _ _ _).mpr ?_
  rw [moonlighter_knowing]
  exact moonlighter_succeeds [1, 3, 5] (by decide) recordKey _ _ _ _

/-- A dealer with draws 2, 3, 5, 7, 11 for the DH key, the nonce of its proof, a polynomial of degree one, and the other nonce. -/
example :
    let w : Fin 2 → Fp := ![5, 7]
    let p := Spec.dealerRecord tapeSuite 4 w ⟨2, 3, 6, 11, 9⟩
    newDealer (Spec.withTable tapeSuite (Spec.recordTable tapeSuite p)) ⟨3, 2⟩ 4 (fun n => [2, 3, 5, 7, 11].getD n 0) =
      .ok (p, [5, 7], 2) ∧ p.proofOfSecretKey = some ⟨9, 11 + 5 * 9⟩ := by
  refine ⟨?_, by decide +kernel⟩
  have h := C146_record tapeSuite (fun _ => rfl) ⟨3, 2⟩ (by decide) 4 (by decide) (fun n => [2, 3, 5, 7, 11].getD n 0) 9 6
  have hw : (fun k : Fin 2 => ([2, 3, 5, 7, 11] : List Fp).getD (2 + k) 0) = ![5, 7] := by
    funext k
    match k with
    | 0 => rfl
    | 1 => rfl
  exact hw ▸ h

end Examples

end IceFrost
