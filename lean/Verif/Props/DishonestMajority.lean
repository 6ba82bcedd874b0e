import Verif.Lemmas.StarFork
import Verif.Props.DealerRecord

/-! # C150: forgers who deal for all dealers but one

In C145 at least `t` honest participants check the shares. Here nobody but one dealer is honest, and all that is known of the
other dealers is that their proofs of knowledge verify. -/

set_option linter.unusedSectionVars false
set_option linter.unusedSimpArgs false
set_option linter.unusedVariables false

namespace IceFrost

open Finset

variable {F G R : Type} [Field F] [DecidableEq F] [AddCommGroup G] [Module F G] [DecidableEq G]
variable {Ω Ω' Out : Type}

/-! ### Attackers whose result is checked with several questions -/

namespace Spec.Attacker

variable (A : Spec.Attacker Ω F Out) (q m : ℕ) (checks : Ω → Out → Fin m → Spec.Question)

/-- The questions of an experiment: `q` questions of the attacker, then the `m` questions of whoever checks the result. -/
def questionsAll (ω : Ω) (answers : List F) : Spec.Question :=
  if answers.length < q then A.ask ω answers
  else if h : answers.length - q < m then checks ω (A.result ω (answers.take q)) ⟨answers.length - q, h⟩
  else .coin 0

/-- All questions and answers of the experiment, `q + m` in number. -/
def tableAll (ω : Ω) (h : Fin (q + m) → F) : List (Spec.Question × F) :=
  Spec.oracle (A.questionsAll q m checks ω) (Spec.tape h) (q + m)

/-- The result of the attacker in the experiment. -/
def outputAll (ω : Ω) (h : Fin (q + m) → F) : Out :=
  A.result ω (((A.tableAll q m checks ω h).map Prod.snd).take q)

/-- The answers to the questions of the check. -/
def challengeAll (ω : Ω) (h : Fin (q + m) → F) (k : Fin m) : F :=
  ((A.tableAll q m checks ω h).lookup (checks ω (A.outputAll q m checks ω h) k)).getD 0

/-- The numbers of these questions in the order of first appearance. -/
def criticalAll (ω : Ω) (h : Fin (q + m) → F) (k : Fin m) : ℕ :=
  ((A.tableAll q m checks ω h).map Prod.fst).idxOf (checks ω (A.outputAll q m checks ω h) k)

/-- A run: the result and the answers to the questions of the check. -/
def run (ω : Ω) (h : Fin (q + m) → F) : Out × (Fin m → F) :=
  (A.outputAll q m checks ω h, A.challengeAll q m checks ω h)

/-- Running the attacker `m + 1` times: once, and then for every question of the check with the same answers up to that
question and fresh ones from there on; and computing something from all runs. -/
def rewindAll {X : Type} (extract : Out × (Fin m → F) → (Fin m → Out × (Fin m → F)) → X) (ω : Ω) (h : Fin (q + m) → F)
    (h' : Fin m → Fin (q + m) → F) : X :=
  extract (A.run q m checks ω h) fun k =>
    A.run q m checks ω fun i => if i.1 < A.criticalAll q m checks ω h k then h i else h' k i

theorem oracle_take (ask : List F → Spec.Question) (h : ℕ → F) (k n : ℕ) (hk : k ≤ n) :
    (Spec.oracle ask h n).take k = Spec.oracle ask h k := by
  induction n with
  | zero => rw [Nat.le_zero.mp hk]; rfl
  | succ n ih =>
    have e : Spec.oracle ask h (n + 1) = Spec.oracle ask h n ++ [(ask ((Spec.oracle ask h n).map Prod.snd),
      ((Spec.oracle ask h n).lookup (ask ((Spec.oracle ask h n).map Prod.snd))).getD (h n))] := rfl
    rcases Nat.lt_or_ge n k with hlt | hge
    · rw [show k = n + 1 by omega, List.take_of_length_le (by rw [oracle_length])]
    · rw [e, List.take_append_of_le_length (by rw [oracle_length]; exact hge), ih hge]

theorem questionsAll_check (ω : Ω) (answers : List F) (k : Fin m) (hl : answers.length = q + k.1) :
    A.questionsAll q m checks ω answers = checks ω (A.result ω (answers.take q)) k := by
  unfold questionsAll
  rw [if_neg (by omega), dif_pos (by omega)]
  congr 1
  exact Fin.ext (by show answers.length - q = k.1; omega)

theorem outputAll_eq (ω : Ω) (h : Fin (q + m) → F) (n : ℕ) (hn : q ≤ n) (hnm : n ≤ q + m) :
    A.result ω (((Spec.oracle (A.questionsAll q m checks ω) (Spec.tape h) n).map Prod.snd).take q) =
      A.outputAll q m checks ω h := by
  unfold outputAll tableAll
  rw [← List.map_take, ← List.map_take, oracle_take _ _ _ _ hn, oracle_take _ _ _ _ (by omega)]

theorem checks_mem (ω : Ω) (h : Fin (q + m) → F) (k : Fin m) :
    checks ω (A.outputAll q m checks ω h) k ∈ (A.tableAll q m checks ω h).map Prod.fst := by
  have hk : q + k.1 + 1 ≤ q + m := by omega
  have h1 : (Spec.oracle (A.questionsAll q m checks ω) (Spec.tape h) (q + k.1 + 1)).map Prod.fst ⊆
      (A.tableAll q m checks ω h).map Prod.fst := by
    unfold tableAll
    rw [← oracle_take (A.questionsAll q m checks ω) (Spec.tape h) _ _ hk, List.map_take]
    exact List.take_subset _ _
  refine h1 ?_
  have e : Spec.oracle (A.questionsAll q m checks ω) (Spec.tape h) (q + k.1 + 1) =
    Spec.oracle (A.questionsAll q m checks ω) (Spec.tape h) (q + k.1) ++ [(A.questionsAll q m checks ω
      ((Spec.oracle (A.questionsAll q m checks ω) (Spec.tape h) (q + k.1)).map Prod.snd), _)] := rfl
  rw [e, List.map_append, List.mem_append]
  right
  rw [List.map_singleton, List.mem_singleton]
  rw [questionsAll_check A q m checks ω _ k (by rw [List.length_map, oracle_length]),
    A.outputAll_eq q m checks ω h (q + k.1) (by omega) (by omega)]

theorem criticalAll_spec (ω : Ω) (h : Fin (q + m) → F) (k : Fin m) :
    A.criticalAll q m checks ω h k < q + m ∧
    (A.tableAll q m checks ω h).lookup (checks ω (A.outputAll q m checks ω h) k) = some (A.challengeAll q m checks ω h k) ∧
    A.challengeAll q m checks ω h k = Spec.tape h (A.criticalAll q m checks ω h k) ∧
    A.questionsAll q m checks ω ((Spec.oracle (A.questionsAll q m checks ω) (Spec.tape h)
      (A.criticalAll q m checks ω h k)).map Prod.snd) = checks ω (A.outputAll q m checks ω h) k := by
  obtain ⟨h1, h2, h3⟩ := oracle_lookup (A.questionsAll q m checks ω) (Spec.tape h) (q + m) _ (A.checks_mem q m checks ω h k)
  have h2' : (A.tableAll q m checks ω h).lookup (checks ω (A.outputAll q m checks ω h) k) =
      some (Spec.tape h (A.criticalAll q m checks ω h k)) := h2
  have h4 : A.challengeAll q m checks ω h k = Spec.tape h (A.criticalAll q m checks ω h k) := by
    unfold challengeAll
    rw [h2', Option.getD_some]
  exact ⟨h1, by rw [h2', h4], h4, h3⟩

/-- The forking lemma for attackers whose result is checked with `m` questions: if accepted results, of which the first one
and each other one share one of the questions and have different answers to it, yield something good, then rewinding yields it
with the chance of the forking lemma. -/
theorem rewindAll_good [Fintype F] [Fintype Ω] [Nonempty Ω] {X : Type} (accept : Ω → Out × (Fin m → F) → Prop)
    (extract : Out × (Fin m → F) → (Fin m → Out × (Fin m → F)) → X) (good : Ω → Out → X → Prop)
    (hsound : ∀ ω r r', accept ω r → (∀ k, accept ω (r' k) ∧ checks ω r.1 k = checks ω (r' k).1 k ∧ r.2 k ≠ (r' k).2 k) →
      good ω r.1 (extract r r')) :
    let won : ℚ := Spec.chance fun x : Ω × (Fin (q + m) → F) => accept x.1 (A.run q m checks x.1 x.2)
    won ^ (m + 1) / ((q + m : ℕ) : ℚ) ^ (m * m) - m * won / (Fintype.card F : ℚ) ≤
      Spec.chance fun x : Ω × (Fin (q + m) → F) × (Fin m → Fin (q + m) → F) =>
        good x.1 (A.outputAll q m checks x.1 x.2.1) (A.rewindAll q m checks extract x.1 x.2.1 x.2.2) := by
  classical
  intro won
  let J : Ω → (Fin (q + m) → F) → Option (Fin m → Fin (q + m)) := fun ω h =>
    if accept ω (A.run q m checks ω h) then
      some fun k => ⟨A.criticalAll q m checks ω h k, (A.criticalAll_spec q m checks ω h k).1⟩ else none
  have hJ : won = Spec.chance fun x : Ω × (Fin (q + m) → F) => (J x.1 x.2).isSome := by
    refine chance_congr fun x => ?_
    simp only [J]
    split <;> simp [*]
  rw [hJ]
  refine le_trans (star_forking J) (chance_mono ?_)
  rintro ⟨ω, h, h'⟩ ⟨j, h1, h2⟩
  simp only at h1 h2 ⊢
  have hJs : ∀ h j, J ω h = some j → accept ω (A.run q m checks ω h) ∧ ∀ k, A.criticalAll q m checks ω h k = (j k).1 := by
    intro h j hj
    simp only [J] at hj
    split at hj
    · next a => exact ⟨a, fun k => congrArg (fun f : Fin m → Fin (q + m) => (f k).1) (Option.some.inj hj)⟩
    · cases hj
  obtain ⟨a1, c1⟩ := hJs h j h1
  unfold rewindAll
  have hr : (A.outputAll q m checks ω h) = (A.run q m checks ω h).1 := rfl
  rw [hr]
  refine hsound ω _ _ a1 fun k => ?_
  have e : (fun i => if i.1 < A.criticalAll q m checks ω h k then h i else h' k i) = splice (j k) h (h' k) := by
    funext i
    unfold splice
    rw [c1 k]
    rfl
  beta_reduce
  rw [e]
  obtain ⟨a2, c2⟩ := hJs _ j (h2 k).1
  obtain ⟨-, -, d1, q1⟩ := A.criticalAll_spec q m checks ω h k
  obtain ⟨-, -, d2, q2⟩ := A.criticalAll_spec q m checks ω (splice (j k) h (h' k)) k
  refine ⟨a2, ?_, ?_⟩
  · show checks ω (A.outputAll q m checks ω h) k = checks ω (A.outputAll q m checks ω (splice (j k) h (h' k))) k
    rw [← q1, ← q2, c1, c2]
    congr 2
    refine oracle_congr _ _ _ _ fun i hi => ?_
    have hi' : i < q + m := by omega
    unfold Spec.tape
    rw [dif_pos hi', dif_pos hi']
    unfold splice
    rw [if_pos (by exact hi)]
  · show A.challengeAll q m checks ω h k ≠ A.challengeAll q m checks ω (splice (j k) h (h' k)) k
    rw [d1, d2, c1, c2]
    unfold Spec.tape
    rw [dif_pos (j k).2, dif_pos (j k).2]
    unfold splice
    rw [if_neg (by exact lt_irrefl (j k))]
    exact (h2 k).2.symm

end Spec.Attacker

/-! ### The game -/

/-- The dealers other than `l`. -/
def Spec.otherDealers (D : List U32) (l : U32) : List U32 := D.filter (· ≠ l)

/-- The secret key proof of a record. -/
def Spec.recordProof (p : Participant F G) : Nizk F := p.proofOfSecretKey.getD ⟨0, 0⟩

/-- A record has commitments, and a proof of knowledge of the secret key for the first one that dealer `k` can use. -/
def Spec.Proven (S : Suite F G R) (k : U32) (p : Participant F G) : Prop :=
  ∃ c pk pf, p.commitments = some c ∧ c.points.head? = some pk ∧ p.proofOfSecretKey = some pf ∧ Spec.PokValid S k pk pf

/-- The group key from the points of dealer `l` and the records of the other dealers. -/
def Spec.recordsKey (D : List U32) (l : U32) (rec : U32 → Participant F G) (points : List G) : G :=
  Spec.lagrange (F := F) D l • points.headD 0 +
    ∑ k ∈ D.toFinset.erase l, Spec.lagrange (F := F) D k • (Spec.recordPoints (rec k)).headD 0

/-- What the colluders hand over in the end: records of all dealers but `l`, a message and a signature. -/
abbrev Spec.Loot (F G : Type) := (U32 → Participant F G) × Bytes × ThresholdSignature F G

/-- The records are proven, and the signature is valid for the group key. -/
def Spec.Loot.Valid (S : Suite F G R) (D : List U32) (l : U32) (points : List G) (o : Spec.Loot F G) : Prop :=
  (∀ k ∈ D, k ≠ l → Spec.Proven S k (o.1 k)) ∧ o.2.2.verify S (Spec.recordsKey D l o.1 points) o.2.1 = .ok ()

/-- The question for the proof of knowledge in a record of dealer `k`. -/
def Spec.recordQuestion (S : Suite F G R) (k : U32) (p : Participant F G) : Spec.Question :=
  Spec.pokQuestion S k ((Spec.recordPoints p).headD 0)
    ((Spec.recordProof p).r • S.gen - (Spec.recordProof p).s • (Spec.recordPoints p).headD 0)

/-- The questions that checking the result asks: that of the signature, and that of the proof of every dealer but `l`. -/
def Spec.lootQuestions (S : Suite F G R) (D : List U32) (l : U32) (points : Ω → List G) (ω : Ω) (o : Spec.Loot F G) :
    Fin ((Spec.otherDealers D l).length + 1) → Spec.Question :=
  Fin.cons (Spec.signatureQuestion S (fun _ : Unit => Spec.recordsKey D l o.1 (points ω)) () o.2)
    fun i => Spec.recordQuestion S (Spec.otherDealers D l)[i] (o.1 (Spec.otherDealers D l)[i])

/-- From `m + 1` runs: the logarithm of the group key from the signatures, less those of the first points of the other
dealers from the proofs. -/
def Spec.lootSecret (D : List U32) (l : U32)
    (r : Spec.Loot F G × (Fin ((Spec.otherDealers D l).length + 1) → F))
    (r' : Fin ((Spec.otherDealers D l).length + 1) → Spec.Loot F G × (Fin ((Spec.otherDealers D l).length + 1) → F)) : F :=
  (r.1.2.2.z - (r' 0).1.2.2.z) / (r.2 0 - (r' 0).2 0) -
    ∑ i : Fin (Spec.otherDealers D l).length, Spec.lagrange D (Spec.otherDealers D l)[i] *
      (((Spec.recordProof (r.1.1 (Spec.otherDealers D l)[i])).r -
          (Spec.recordProof ((r' i.succ).1.1 (Spec.otherDealers D l)[i])).r) /
        ((Spec.recordProof (r.1.1 (Spec.otherDealers D l)[i])).s -
          (Spec.recordProof ((r' i.succ).1.1 (Spec.otherDealers D l)[i])).s))

/-- Valid results, in terms of the answers to the questions of the check. -/
def Spec.LootOk (S : Suite F G R) (D : List U32) (l : U32) (points : List G)
    (r : Spec.Loot F G × (Fin ((Spec.otherDealers D l).length + 1) → F)) : Prop :=
  (∀ i : Fin (Spec.otherDealers D l).length, ∃ c pk pf, (r.1.1 (Spec.otherDealers D l)[i]).commitments = some c ∧
    c.points.head? = some pk ∧ (r.1.1 (Spec.otherDealers D l)[i]).proofOfSecretKey = some pf ∧ pf.s = r.2 i.succ) ∧
  Spec.Schnorr S.gen r.1.2.2.groupCommitment (Spec.recordsKey D l r.1.1 points) (r.2 0) r.1.2.2.z

theorem recordPoints_head {p : Participant F G} {c : VssCommitment G} {pk : G} (h1 : p.commitments = some c)
    (h2 : c.points.head? = some pk) : (Spec.recordPoints p).headD 0 = pk := by
  unfold Spec.recordPoints
  rw [h1]
  show c.points.headD 0 = pk
  cases hp : c.points with
  | nil => rw [hp] at h2; cases h2
  | cons a l => rw [hp] at h2; exact Option.some.inj h2

theorem mem_otherDealers {D : List U32} {l k : U32} : k ∈ Spec.otherDealers D l ↔ k ∈ D ∧ k ≠ l := by
  unfold Spec.otherDealers
  rw [List.mem_filter, decide_eq_true_iff]

theorem loot_valid_iff (S : Suite F G R) (D : List U32) (l : U32) (points : Ω → List G) (ω : Ω) (o : Spec.Loot F G)
    (T : List (Spec.Question × F)) (ch : Fin ((Spec.otherDealers D l).length + 1) → F)
    (hT : ∀ k, T.lookup (Spec.lootQuestions S D l points ω o k) = some (ch k)) :
    o.Valid (Spec.withTable S T) D l (points ω) ↔ Spec.LootOk S D l (points ω) (o, ch) := by
  unfold Spec.Loot.Valid Spec.LootOk
  refine and_congr ?_ ?_
  · have key : ∀ i : Fin (Spec.otherDealers D l).length, ∀ c pk pf,
        (o.1 (Spec.otherDealers D l)[i]).commitments = some c → c.points.head? = some pk →
        (o.1 (Spec.otherDealers D l)[i]).proofOfSecretKey = some pf →
        (Spec.PokValid (Spec.withTable S T) (Spec.otherDealers D l)[i] pk pf ↔ pf.s = ch i.succ) := by
      intro i c pk pf h1 h2 h3
      have e := hT i.succ
      have e2 : Spec.lootQuestions S D l points ω o i.succ =
          Spec.pokQuestion S (Spec.otherDealers D l)[i] pk (pf.r • S.gen - pf.s • pk) := by
        show Spec.recordQuestion S (Spec.otherDealers D l)[i] (o.1 (Spec.otherDealers D l)[i]) = _
        unfold Spec.recordQuestion Spec.recordProof
        rw [recordPoints_head h1 h2, h3]
        rfl
      rw [e2] at e
      unfold Spec.PokValid
      have e3 : (Spec.withTable S T).fieldHash ((Spec.withTable S T).contextString ++ strBytes "nizkpok")
          (u32le (Spec.otherDealers D l)[i] ++ (Spec.withTable S T).encG pk ++
            (Spec.withTable S T).encG (pf.r • (Spec.withTable S T).gen - pf.s • pk)) = ch i.succ := by
        show ((T.lookup (Spec.pokQuestion S (Spec.otherDealers D l)[i] pk (pf.r • S.gen - pf.s • pk))).getD _) = _
        rw [e, Option.getD_some]
      rw [e3]
    constructor
    · intro h i
      have hi := mem_otherDealers.mp (List.getElem_mem i.2 : (Spec.otherDealers D l)[i] ∈ _)
      obtain ⟨c, pk, pf, h1, h2, h3, h4⟩ := h _ hi.1 hi.2
      exact ⟨c, pk, pf, h1, h2, h3, (key i c pk pf h1 h2 h3).mp h4⟩
    · intro h k hk hkl
      obtain ⟨i, hi, rfl⟩ := List.getElem_of_mem (mem_otherDealers.mpr ⟨hk, hkl⟩)
      obtain ⟨c, pk, pf, h1, h2, h3, h4⟩ := h ⟨i, hi⟩
      exact ⟨c, pk, pf, h1, h2, h3, (key ⟨i, hi⟩ c pk pf h1 h2 h3).mpr h4⟩
  · rw [verify_iff]
    unfold Spec.SigValid
    have : Spec.challenge (Spec.withTable S T) o.2.2.groupCommitment (Spec.recordsKey D l o.1 (points ω)) o.2.1 = ch 0 := by
      show ((T.lookup (Spec.lootQuestions S D l points ω o 0)).getD _) = _
      rw [hT 0, Option.getD_some]
    rw [this]
    rfl

theorem otherDealers_sum {M : Type} [AddCommMonoid M] {D : List U32} (hD : D.Nodup) (l : U32) (f : U32 → M) :
    ∑ i : Fin (Spec.otherDealers D l).length, f (Spec.otherDealers D l)[i] = ∑ k ∈ D.toFinset.erase l, f k := by
  have h1 : D.toFinset.erase l = (Spec.otherDealers D l).toFinset := by
    ext k
    rw [List.mem_toFinset, mem_otherDealers, Finset.mem_erase, List.mem_toFinset, and_comm]
  have h2 : (Spec.otherDealers D l).Nodup := hD.filter _
  rw [h1, List.sum_toFinset f h2]
  exact Fin.sum_univ_fun_getElem _ f

theorem loot_sound {S : Suite F G R} (hd : S.CodecLaws) {D : List U32} (hD : D.Nodup) (l : U32) (points : Ω → List G) (ω : Ω)
    (r : Spec.Loot F G × (Fin ((Spec.otherDealers D l).length + 1) → F))
    (r' : Fin ((Spec.otherDealers D l).length + 1) → Spec.Loot F G × (Fin ((Spec.otherDealers D l).length + 1) → F))
    (h : Spec.LootOk S D l (points ω) r)
    (h' : ∀ k, Spec.LootOk S D l (points ω) (r' k) ∧
      Spec.lootQuestions S D l points ω r.1 k = Spec.lootQuestions S D l points ω (r' k).1 k ∧ r.2 k ≠ (r' k).2 k) :
    Spec.lootSecret D l r r' • S.gen = Spec.lagrange (F := F) D l • (points ω).headD 0 := by
  have hY : ((r.1.2.2.z - (r' 0).1.2.2.z) / (r.2 0 - (r' 0).2 0)) • S.gen = Spec.recordsKey D l r.1.1 (points ω) := by
    obtain ⟨⟨-, g2⟩, g3, g4⟩ := h' 0
    have hq : S.encG r.1.2.2.groupCommitment ++ S.encG (Spec.recordsKey D l r.1.1 (points ω)) ++ r.1.2.1 =
        S.encG (r' 0).1.2.2.groupCommitment ++ S.encG (Spec.recordsKey D l (r' 0).1.1 (points ω)) ++ (r' 0).1.2.1 := by
      injection (show Spec.Question.field _ _ = Spec.Question.field _ _ from g3)
    rw [List.append_assoc, List.append_assoc] at hq
    obtain ⟨hR, hq⟩ := hd.encG_append_inj hq
    obtain ⟨hYY, -⟩ := hd.encG_append_inj hq
    have g1 := h.2
    unfold Spec.Schnorr at g1 g2
    have hne' := sub_ne_zero.mpr g4
    rw [← hYY] at g2
    have e : (r.2 0 - (r' 0).2 0) • Spec.recordsKey D l r.1.1 (points ω) = (r.1.2.2.z - (r' 0).1.2.2.z) • S.gen := by
      rw [sub_smul, sub_smul, g1, g2, hR]
      abel
    rw [div_eq_inv_mul, mul_smul, ← e, inv_smul_smul₀ hne']
  have hP : ∀ i : Fin (Spec.otherDealers D l).length,
      (((Spec.recordProof (r.1.1 (Spec.otherDealers D l)[i])).r -
          (Spec.recordProof ((r' i.succ).1.1 (Spec.otherDealers D l)[i])).r) /
        ((Spec.recordProof (r.1.1 (Spec.otherDealers D l)[i])).s -
          (Spec.recordProof ((r' i.succ).1.1 (Spec.otherDealers D l)[i])).s)) • S.gen =
      (Spec.recordPoints (r.1.1 (Spec.otherDealers D l)[i])).headD 0 := by
    intro i
    obtain ⟨⟨g1, -⟩, g3, g4⟩ := h' i.succ
    obtain ⟨c, pk, pf, a1, a2, a3, a4⟩ := h.1 i
    obtain ⟨c', pk', pf', b1, b2, b3, b4⟩ := g1 i
    have hq : nizkMessage S (Spec.otherDealers D l)[i] pk (pf.r • S.gen - pf.s • pk) =
        nizkMessage S (Spec.otherDealers D l)[i] pk' (pf'.r • S.gen - pf'.s • pk') := by
      have g3' : Spec.recordQuestion S (Spec.otherDealers D l)[i] (r.1.1 (Spec.otherDealers D l)[i]) =
        Spec.recordQuestion S (Spec.otherDealers D l)[i] ((r' i.succ).1.1 (Spec.otherDealers D l)[i]) := g3
      unfold Spec.recordQuestion Spec.recordProof at g3'
      rw [recordPoints_head a1 a2, recordPoints_head b1 b2, a3, b3] at g3'
      injection g3'
    obtain ⟨-, hpk, hm⟩ := C15_message_injective hd _ _ _ _ _ _ hq
    have hne' : pf.s - pf'.s ≠ 0 := sub_ne_zero.mpr (by rw [a4, b4]; exact g4)
    rw [← hpk] at hm
    have e : (pf.s - pf'.s) • pk = (pf.r - pf'.r) • S.gen := by
      rw [sub_smul, sub_smul]
      have : pf.r • S.gen - pf'.r • S.gen = pf.s • pk - pf'.s • pk := by
        rw [sub_eq_sub_iff_add_eq_add] at hm ⊢
        rw [hm]
        abel
      exact this.symm
    rw [recordPoints_head a1 a2]
    unfold Spec.recordProof
    rw [a3, b3]
    show ((pf.r - pf'.r) / (pf.s - pf'.s)) • S.gen = pk
    rw [div_eq_inv_mul, mul_smul, ← e, inv_smul_smul₀ hne']
  unfold Spec.lootSecret
  rw [sub_smul, hY, sum_smul]
  rw [sum_congr rfl fun i _ => by rw [mul_smul, hP i]]
  rw [otherDealers_sum hD l fun k => Spec.lagrange (F := F) D k • (Spec.recordPoints (r.1.1 k)).headD 0]
  unfold Spec.recordsKey
  rw [add_sub_cancel_right]

/-- Forging with records of all dealers but one, for any way to get the points of that one. -/
theorem loot_forking [Fintype F] [Fintype Ω] [Nonempty Ω] {S : Suite F G R} (hd : S.CodecLaws) {D : List U32}
    (hD : D.Nodup) (l : U32) (points : Ω → List G) (q : ℕ) (A : Spec.Attacker Ω F (Spec.Loot F G)) :
    let m := (Spec.otherDealers D l).length + 1
    let checks := Spec.lootQuestions S D l points
    let won : ℚ := Spec.chance fun x : Ω × (Fin (q + m) → F) =>
      (A.outputAll q m checks x.1 x.2).Valid (Spec.withTable S (A.tableAll q m checks x.1 x.2)) D l (points x.1)
    won ^ (m + 1) / ((q + m : ℕ) : ℚ) ^ (m * m) - m * won / (Fintype.card F : ℚ) ≤
      Spec.chance fun x : Ω × (Fin (q + m) → F) × (Fin m → Fin (q + m) → F) =>
        A.rewindAll q m checks (Spec.lootSecret D l) x.1 x.2.1 x.2.2 • S.gen =
          Spec.lagrange (F := F) D l • (points x.1).headD 0 := by
  intro m checks won
  have hw : won = Spec.chance fun x : Ω × (Fin (q + m) → F) => Spec.LootOk S D l (points x.1) (A.run q m checks x.1 x.2) :=
    chance_congr fun x => loot_valid_iff S D l points x.1 _ _ _ fun k => (A.criticalAll_spec q m checks x.1 x.2 k).2.1
  rw [hw]
  exact A.rewindAll_good q m checks (fun ω r => Spec.LootOk S D l (points ω) r) (Spec.lootSecret D l)
    (fun ω _ x => x • S.gen = Spec.lagrange (F := F) D l • (points ω).headD 0)
    fun ω r r' h h' => loot_sound hd hD l points ω r r' h h'

/-- Computing a discrete logarithm with the colluders: the view for the point `P` and arbitrary shares, and `m + 1` runs. -/
noncomputable def Spec.solveLoot (S : Suite F G R) (D : List U32) (l : U32) (J : List U32) (t q : ℕ)
    (A : Spec.Attacker (Ω × (List G × ({j // j ∈ J} → F))) F (Spec.Loot F G)) (P : G) (ω : Ω) (y : {j // j ∈ J} → F)
    (h : Fin (q + ((Spec.otherDealers D l).length + 1)) → F)
    (h' : Fin ((Spec.otherDealers D l).length + 1) → Fin (q + ((Spec.otherDealers D l).length + 1)) → F) : F :=
  (Spec.lagrange D l)⁻¹ * A.rewindAll q _ (Spec.lootQuestions S D l fun x => x.2.1) (Spec.lootSecret D l)
    (ω, Spec.simulatedDealerView S J t P y) h h'

theorem dealerView_head {S : Suite F G R} (J : List U32) {t : ℕ} (l : U32) (w : Fin t → F) :
    (Spec.dealerView S J l w).1.headD 0 = Spec.polyEval (List.ofFn w) 0 • S.gen := by
  rw [← pointEval_zero_head (F := F)]
  exact pointEval_commitPoints S _ 0

/-- C150: a key generation in which all dealers but `l` may be dishonest, and any number of participants. `t - 1` colluders
`J`, who see the commitments of `l` and their shares, choose the records of all other dealers. If the proofs of knowledge in
these verify and the colluders forge a signature for the group key, together with chance `ε`, then running them `m + 1` times,
where `m` is the number of dealers, yields discrete logarithms of random points with chance at least
`ε ^ (m + 1) / (q + m) ^ (m * m) - m * ε / |F|`. -/
theorem C150_forgery [Fintype F] [Fintype Ω] [Nonempty Ω] {S : Suite F G R} (hS : S.Lawful) {D : List U32} (hD : D.Nodup)
    (h0 : 0 ∉ D) (l : U32) (J : List U32) (hJ : J.Nodup) (hJ0 : 0 ∉ J) (t : ℕ) (ht : J.length + 1 = t) (q : ℕ)
    (A : Spec.Attacker (Ω × (List G × ({j // j ∈ J} → F))) F (Spec.Loot F G)) :
    let m := (Spec.otherDealers D l).length + 1
    let checks := Spec.lootQuestions S D l fun x : Ω × (List G × ({j // j ∈ J} → F)) => x.2.1
    let forged : ℚ := Spec.chance fun x : (Ω × (Fin t → F)) × (Fin (q + m) → F) =>
      let y := (x.1.1, Spec.dealerView S J l x.1.2)
      (A.outputAll q m checks y x.2).Valid (Spec.withTable S (A.tableAll q m checks y x.2)) D l y.2.1
    forged ^ (m + 1) / ((q + m : ℕ) : ℚ) ^ (m * m) - m * forged / (Fintype.card F : ℚ) ≤
      Spec.chance fun x : (Ω × (F × ({j // j ∈ J} → F))) × (Fin (q + m) → F) × (Fin m → Fin (q + m) → F) =>
        Spec.solveLoot S D l J t q A (x.1.2.1 • S.gen) x.1.1 x.1.2.2 x.2.1 x.2.2 = x.1.2.1 := by
  intro m checks forged
  let A' : Spec.Attacker (Ω × (Fin t → F)) F (Spec.Loot F G) :=
    ⟨fun x => A.ask (x.1, Spec.dealerView S J l x.2), fun x => A.result (x.1, Spec.dealerView S J l x.2)⟩
  have h := loot_forking hS.codec hD l (fun x : Ω × (Fin t → F) => (Spec.dealerView S J l x.2).1) q A'
  refine le_trans h ?_
  have hbij := secretAndValues_bijective hS.u32 J hJ hJ0 t ht
  let φ : (Ω × (Fin t → F)) × (Fin (q + m) → F) × (Fin m → Fin (q + m) → F) →
      (Ω × (F × ({j // j ∈ J} → F))) × (Fin (q + m) → F) × (Fin m → Fin (q + m) → F) :=
    Prod.map (Prod.map id (Spec.secretAndValues J)) id
  have hφ : Function.Bijective φ := (Function.bijective_id.prodMap hbij).prodMap Function.bijective_id
  rw [← chance_bijective φ hφ]
  refine chance_mono ?_
  rintro ⟨⟨ω, w⟩, h1, h2⟩ hx
  have hne : (Spec.lagrange D l : F) ≠ 0 := lagrange_ne_zero hS.u32 D h0 l
  have hview := simulatedDealerView_eq hS.u32 S J hJ hJ0 t ht l w
  have hx' : A.rewindAll q m checks (Spec.lootSecret D l) (ω, Spec.dealerView S J l w) h1 h2 • S.gen =
      Spec.lagrange (F := F) D l • (Spec.dealerView S J l w).1.headD 0 := hx
  show Spec.solveLoot S D l J t q A (Spec.polyEval (List.ofFn w) 0 • S.gen) ω
    (fun j : {j // j ∈ J} => Spec.polyEval (List.ofFn w) (j.1.toNat : F)) h1 h2 = Spec.polyEval (List.ofFn w) 0
  unfold Spec.solveLoot
  rw [hview]
  rw [dealerView_head J l w, smul_smul] at hx'
  rw [hS.group.gen_inj _ _ hx', inv_mul_cancel_left₀ hne]

/-! ### The records and the key in the code -/

/-- C150: what `bootstrap` accepts is proven. -/
theorem C150_bootstrap {S : Suite F G R} (hc : S.CipherLaws) (hd : S.CodecLaws) (dbg : Bool) (params : Params) (x : F)
    (i : U32) (cs : List F) (ps : List (Participant F G)) (rng : R) (d : RoundOne F G) (L : ParticipantList F G)
    (h : bootstrap S dbg params x i cs ps rng = .ok (d, L)) (p : Participant F G) (hp : p ∈ L.valid) :
    Spec.Proven S p.index p := by
  classical
  rw [(C20_bootstrap_classifies hc hd dbg params x i cs ps rng d L h).1, List.mem_filter, decide_eq_true_iff] at hp
  exact hp.2.1.2

/-- The commitments on file: those of dealer `l`, and those in the records of the others. -/
def Spec.recordsMap (D : List U32) (l : U32) (rec : U32 → Participant F G) (points : List G) : BMap (VssCommitment G) :=
  BMap.ofList (D.map fun k => (k, ⟨k, if k = l then points else Spec.recordPoints (rec k)⟩))

theorem recordsMap_get? {D : List U32} (hD : D.Nodup) (l : U32) (rec : U32 → Participant F G) (points : List G) (k : U32)
    (c : VssCommitment G) : (Spec.recordsMap D l rec points).get? k = some c ↔
      k ∈ D ∧ c = ⟨k, if k = l then points else Spec.recordPoints (rec k)⟩ := by
  unfold Spec.recordsMap
  rw [BMap.get?_ofList (dealerMap_nodup hD _)]
  simp only [List.mem_map, Prod.mk.injEq]
  constructor
  · rintro ⟨k, hk, rfl, rfl⟩; exact ⟨hk, rfl⟩
  · rintro ⟨h, rfl⟩; exact ⟨k, h, rfl, rfl⟩

theorem recordsMap_keys (D : List U32) (l : U32) (rec : U32 → Participant F G) (points : List G) (k : U32) :
    k ∈ (Spec.recordsMap D l rec points).keys ↔ k ∈ D := by
  unfold Spec.recordsMap
  rw [BMap.mem_keys_ofList]
  simp

/-- C150: `finish` of whoever holds verified shares for these commitments returns this group key. -/
theorem C150_group_key {S : Suite F G R} (hu : Suite.U32Inj F) {D : List U32} (hD : D.Nodup) (h0 : 0 ∉ D) {l : U32}
    (hl : l ∈ D) (rec : U32 → Participant F G) (points : List G) (hp : points ≠ [])
    (hr : ∀ k ∈ D, k ≠ l → Spec.Proven S k (rec k)) (d : RoundTwo F G) (m : BMap (SecretShare F))
    (hV : HoldsVerified S d (Spec.recordsMap D l rec points) m) :
    ∃ sk, d.finish = .ok (Spec.recordsKey D l rec points, sk) := by
  have hok : DealersOk (Spec.recordsMap D l rec points) := by
    refine ⟨BMap.wf_ofList _, by rw [recordsMap_keys]; exact h0, fun k c hc => ?_⟩
    obtain ⟨hk, rfl⟩ := (recordsMap_get? hD l rec points k c).mp hc
    show (if k = l then points else Spec.recordPoints (rec k)) ≠ []
    split_ifs with hkl
    · exact hp
    · obtain ⟨c, pk, pf, h1, h2, -, -⟩ := hr k hk hkl
      unfold Spec.recordPoints
      rw [h1]
      intro e
      rw [show c.points = [] from e] at h2
      cases h2
  obtain ⟨sk, h⟩ := C34_group_key_value hu d _ m hok hV
  refine ⟨sk, ?_⟩
  rw [h]
  congr 2
  have hset : (Spec.recordsMap D l rec points).keys.toFinset = D.toFinset := by
    ext k
    rw [List.mem_toFinset, List.mem_toFinset, recordsMap_keys]
  unfold Spec.interpolateG Spec.recordsKey
  rw [hset, ← Finset.add_sum_erase _ _ (List.mem_toFinset.mpr hl)]
  have e : ∀ k, (Spec.lagrange (Spec.recordsMap D l rec points).keys k : F) = Spec.lagrange D k :=
    fun k => spec_lagrange_congr (recordsMap_keys D l rec points) k
  have g : ∀ k ∈ D, (((Spec.recordsMap D l rec points).get? k).map fun c => c.points.headD 0).getD 0 =
      (if k = l then points else Spec.recordPoints (rec k)).headD 0 := by
    intro k hk
    rw [(recordsMap_get? hD l rec points k _).mpr ⟨hk, rfl⟩]
    rfl
  beta_reduce
  rw [e, g l hl, if_pos rfl]
  congr 1
  refine sum_congr rfl fun k hk => ?_
  beta_reduce
  rw [e, g k (List.mem_toFinset.mp (Finset.mem_of_mem_erase hk)), if_neg (Finset.ne_of_mem_erase hk)]

/-! ### Seeing the whole record of the honest dealer -/

theorem oracle_ask_congr {ask ask' : List F → Spec.Question} (h : ℕ → F) (k : ℕ)
    (e : ∀ a : List F, a.length < k → ask a = ask' a) : Spec.oracle ask h k = Spec.oracle ask' h k := by
  induction k with
  | zero => rfl
  | succ k ih =>
    have e1 : ∀ ask : List F → Spec.Question, Spec.oracle ask h (k + 1) = Spec.oracle ask h k ++
      [(ask ((Spec.oracle ask h k).map Prod.snd),
        ((Spec.oracle ask h k).lookup (ask ((Spec.oracle ask h k).map Prod.snd))).getD (h k))] := fun _ => rfl
    rw [e1, e1, ih fun a ha => e a (by omega), e _ (by rw [List.length_map, oracle_length]; omega)]

theorem oracleAfter_ask_congr (K : List (Spec.Question × F)) {ask ask' : List F → Spec.Question} (h : ℕ → F) (k : ℕ)
    (e : ∀ a : List F, a.length < k → ask a = ask' a) : Spec.oracleAfter K ask h k = Spec.oracleAfter K ask' h k := by
  induction k with
  | zero => rfl
  | succ k ih =>
    rw [oracleAfter_succ, oracleAfter_succ, ih fun a ha => e a (by omega),
      e _ (by rw [List.length_map, oracleAfter_length]; omega)]

theorem oracleAfter_take (K : List (Spec.Question × F)) (ask : List F → Spec.Question) (h : ℕ → F) (k n : ℕ) (hk : k ≤ n) :
    (Spec.oracleAfter K ask h n).take k = Spec.oracleAfter K ask h k := by
  induction n with
  | zero => rw [Nat.le_zero.mp hk]; rfl
  | succ n ih =>
    rcases Nat.lt_or_ge n k with hlt | hge
    · rw [show k = n + 1 by omega, List.take_of_length_le (by rw [oracleAfter_length])]
    · rw [oracleAfter_succ, List.take_append_of_le_length (by rw [oracleAfter_length]; exact hge), ih hge]

namespace Spec.Attacker

variable (A : Spec.Attacker Ω F Out) (q m : ℕ) (checks : Ω → Out → Fin m → Spec.Question)
  (K : Ω → List (Spec.Question × F))

/-- All questions and answers of the experiment in which the answers `K` are given before. -/
def tableAllAfter (ω : Ω) (h : Fin (q + m) → F) : List (Spec.Question × F) :=
  K ω ++ Spec.oracleAfter (K ω) (A.questionsAll q m checks ω) (Spec.tape h) (q + m)

/-- The result of the attacker in that experiment. -/
def outputAllAfter (ω : Ω) (h : Fin (q + m) → F) : Out :=
  A.result ω (((Spec.oracleAfter (K ω) (A.questionsAll q m checks ω) (Spec.tape h) (q + m)).map Prod.snd).take q)

theorem knowing_prefix (ω : Ω) (h : ℕ → F) :
    let T := Spec.oracle ((A.knowing K).questionsAll q m checks ω) h q
    let T' := Spec.oracleAfter (K ω) (A.questionsAll q m checks ω) h q
    T'.map Prod.snd = Spec.putRight (K ω) (A.ask ω) (T.map Prod.snd) ∧
      ∀ b, (K ω).lookup b = none → T'.lookup b = T.lookup b := by
  have e := A.knowing_oracle q (fun _ _ => .coin 0) K ω h q le_rfl
  have e1 : Spec.oracle ((A.knowing K).questionsAll q m checks ω) h q =
      Spec.oracle ((A.knowing K).questions q (fun _ _ => .coin 0) ω) h q := by
    refine oracle_ask_congr h q fun a ha => ?_
    unfold questionsAll questions
    rw [if_pos ha, if_pos ha]
  have e2 : Spec.oracleAfter (K ω) (A.questionsAll q m checks ω) h q =
      Spec.oracleAfter (K ω) (A.questions q (fun _ _ => .coin 0) ω) h q := by
    refine oracleAfter_ask_congr _ h q fun a ha => ?_
    unfold questionsAll questions
    rw [if_pos ha, if_pos ha]
  rw [e1, e2]
  exact e

theorem outputAllAfter_eq (ω : Ω) (h : Fin (q + m) → F) (n : ℕ) (hn : q ≤ n) (hnm : n ≤ q + m) :
    A.result ω (((Spec.oracleAfter (K ω) (A.questionsAll q m checks ω) (Spec.tape h) n).map Prod.snd).take q) =
      A.outputAllAfter q m checks K ω h := by
  unfold outputAllAfter
  rw [← List.map_take, ← List.map_take, oracleAfter_take _ _ _ _ _ hn, oracleAfter_take _ _ _ _ _ (by omega)]

theorem knowing_outputAll (ω : Ω) (h : Fin (q + m) → F) :
    A.outputAllAfter q m checks K ω h = (A.knowing K).outputAll q m checks ω h := by
  rw [← A.outputAllAfter_eq q m checks K ω h q le_rfl (by omega),
    ← (A.knowing K).outputAll_eq q m checks ω h q le_rfl (by omega), List.take_of_length_le, List.take_of_length_le,
    (A.knowing_prefix q m checks K ω _).1]
  · rfl
  · rw [List.length_map, oracle_length]
  · rw [List.length_map, oracleAfter_length]

/-- Every question that is not in `K` has the same answer in both experiments, once it is asked. -/
theorem knowing_lookupAll (ω : Ω) (h : Fin (q + m) → F)
    (hK : ∀ k, (K ω).lookup (checks ω ((A.knowing K).outputAll q m checks ω h) k) = none) (n : ℕ) (hn : n ≤ m)
    (b : Spec.Question) (hb : (K ω).lookup b = none) :
    (Spec.oracleAfter (K ω) (A.questionsAll q m checks ω) (Spec.tape h) (q + n)).lookup b =
      (Spec.oracle ((A.knowing K).questionsAll q m checks ω) (Spec.tape h) (q + n)).lookup b := by
  induction n generalizing b with
  | zero => exact (A.knowing_prefix q m checks K ω _).2 b hb
  | succ n ih =>
    have ih := ih (by omega)
    set T := Spec.oracle ((A.knowing K).questionsAll q m checks ω) (Spec.tape h) (q + n) with hT
    set T' := Spec.oracleAfter (K ω) (A.questionsAll q m checks ω) (Spec.tape h) (q + n) with hT'
    have l1 : T.length = q + n := oracle_length _ _ _
    have l2 : T'.length = q + n := oracleAfter_length _ _ _ _
    set c := checks ω ((A.knowing K).outputAll q m checks ω h) ⟨n, by omega⟩ with hc
    have e1 : (A.knowing K).questionsAll q m checks ω (T.map Prod.snd) = c := by
      rw [(A.knowing K).questionsAll_check q m checks ω _ ⟨n, by omega⟩ (by rw [List.length_map, l1]),
        (A.knowing K).outputAll_eq q m checks ω h (q + n) (by omega) (by omega)]
    have e2 : A.questionsAll q m checks ω (T'.map Prod.snd) = c := by
      rw [A.questionsAll_check q m checks ω _ ⟨n, by omega⟩ (by rw [List.length_map, l2]),
        A.outputAllAfter_eq q m checks K ω h (q + n) (by omega) (by omega), A.knowing_outputAll]
    have s1 : Spec.oracle ((A.knowing K).questionsAll q m checks ω) (Spec.tape h) (q + (n + 1)) =
        T ++ [(c, (T.lookup c).getD (Spec.tape h (q + n)))] := by
      rw [← e1]
      rfl
    have s2 : Spec.oracleAfter (K ω) (A.questionsAll q m checks ω) (Spec.tape h) (q + (n + 1)) =
        T' ++ [(c, (T.lookup c).getD (Spec.tape h (q + n)))] := by
      rw [← ih c (hK _)]
      have : ((K ω ++ T').lookup c).getD (Spec.tape h (q + n)) = (T'.lookup c).getD (Spec.tape h (q + n)) := by
        rw [lookup_or, hK, Option.none_or]
      rw [← this, ← e2]
      rfl
    rw [s1, s2, lookup_or T', lookup_or T, ih b hb]

theorem comap_tableAll (f : Ω' → Ω) (checks' : Ω' → Out → Fin m → Spec.Question) (ω : Ω') (hf : checks' ω = checks (f ω))
    (h : Fin (q + m) → F) : (A.comap f).tableAll q m checks' ω h = A.tableAll q m checks (f ω) h := by
  unfold tableAll
  have : (A.comap f).questionsAll q m checks' ω = A.questionsAll q m checks (f ω) := by
    funext answers
    unfold questionsAll
    rw [hf]
    rfl
  rw [this]

theorem comap_outputAll (f : Ω' → Ω) (checks' : Ω' → Out → Fin m → Spec.Question) (ω : Ω') (hf : checks' ω = checks (f ω))
    (h : Fin (q + m) → F) : (A.comap f).outputAll q m checks' ω h = A.outputAll q m checks (f ω) h := by
  unfold outputAll
  rw [A.comap_tableAll q m checks f checks' ω hf]
  rfl

end Spec.Attacker

/-- The record of one dealer answers none of the questions about the others. -/
theorem recordTable_other (S : Suite F G R) (D : List U32) (l : U32) (points : Ω → List G) (ω : Ω) (o : Spec.Loot F G)
    (p : Participant F G) (hp : p.index = l) (k : Fin ((Spec.otherDealers D l).length + 1)) :
    (Spec.recordTable S p).lookup (Spec.lootQuestions S D l points ω o k) = none := by
  refine Fin.cases ?_ (fun i => ?_) k
  · exact lookup_aside (recordTable_aside S p) (challenge_not_aside S _)
  · have hi := (mem_otherDealers.mp (List.getElem_mem i.2 : (Spec.otherDealers D l)[i] ∈ _)).2
    have hne : ∀ X M X' M', Spec.pokQuestion S (Spec.otherDealers D l)[i] X M ≠ Spec.pokQuestion S p.index X' M' := by
      intro X M X' M' e
      injection e with _ e
      rw [List.append_assoc, List.append_assoc] at e
      exact hi ((u32le_append_inj e).1.trans hp)
    refine lookup_none fun h => ?_
    obtain ⟨e, he, h⟩ := List.mem_map.mp h
    have hq : Spec.lootQuestions S D l points ω o i.succ = Spec.recordQuestion S (Spec.otherDealers D l)[i]
      (o.1 (Spec.otherDealers D l)[i]) := rfl
    rw [hq] at h
    unfold Spec.recordTable at he
    rcases List.mem_cons.mp he with rfl | he
    · exact hne _ _ _ _ h.symm
    · split at he
      · rw [List.mem_singleton] at he
        subst he
        exact hne _ _ _ _ h.symm
      · cases he

/-- C150: the same for colluders who see the whole record that `new_dealer` of the honest dealer `l` publishes, before they
choose the records of the others. -/
theorem C150_forgery_after_record [Fintype F] [Fintype Ω] [Nonempty Ω] {S : Suite F G R} (hS : S.Lawful) {D : List U32}
    (hD : D.Nodup) (h0 : 0 ∉ D) (l : U32) (J : List U32) (hJ : J.Nodup) (hJ0 : 0 ∉ J) (t : ℕ) (ht : J.length + 1 = t) (q : ℕ)
    (A : Spec.Attacker (Ω × (Participant F G × ({j // j ∈ J} → F))) F (Spec.Loot F G)) :
    let m := (Spec.otherDealers D l).length + 1
    let checks := Spec.lootQuestions S D l fun y : Ω × (Participant F G × ({j // j ∈ J} → F)) => Spec.recordPoints y.2.1
    let K : Ω × (Participant F G × ({j // j ∈ J} → F)) → List (Spec.Question × F) := fun y => Spec.recordTable S y.2.1
    let forged : ℚ := Spec.chance fun x : (Ω × Spec.RecordCoins F × (Fin t → F)) × (Fin (q + m) → F) =>
      let y := (x.1.1, Spec.dealerRecord S l x.1.2.2 x.1.2.1, (Spec.dealerView S J l x.1.2.2).2)
      (A.outputAllAfter q m checks K y x.2).Valid (Spec.withTable S (A.tableAllAfter q m checks K y x.2)) D l
        (Spec.recordPoints y.2.1)
    forged ^ (m + 1) / ((q + m : ℕ) : ℚ) ^ (m * m) - m * forged / (Fintype.card F : ℚ) ≤
      Spec.chance fun x : ((Ω × Spec.RecordCoins F) × (F × ({j // j ∈ J} → F))) × (Fin (q + m) → F) ×
          (Fin m → Fin (q + m) → F) =>
        Spec.solveLoot S D l J t q ((A.knowing K).comap (Spec.withRecord S l)) (x.1.2.1 • S.gen) x.1.1 x.1.2.2 x.2.1 x.2.2 =
          x.1.2.1 := by
  intro m checks K forged
  have h := C150_forgery (Ω := Ω × Spec.RecordCoins F) hS hD h0 l J hJ hJ0 t ht q ((A.knowing K).comap (Spec.withRecord S l))
  simp only at h
  refine le_trans (le_of_eq ?_) h
  let φ : (Ω × Spec.RecordCoins F × (Fin t → F)) × (Fin (q + m) → F) ≃
      ((Ω × Spec.RecordCoins F) × (Fin t → F)) × (Fin (q + m) → F) :=
    { toFun := fun z => (((z.1.1, Spec.RecordCoins.shift ((List.ofFn z.1.2.2).headD 0) z.1.2.1), z.1.2.2), z.2)
      invFun := fun z => ((z.1.1.1, (Spec.RecordCoins.shift ((List.ofFn z.1.2).headD 0)).symm z.1.1.2, z.1.2), z.2)
      left_inv := fun z => by simp
      right_inv := fun z => by simp }
  have hf : forged = Spec.chance fun x : ((Ω × Spec.RecordCoins F) × (Fin t → F)) × (Fin (q + m) → F) =>
      let v := (x.1.1, Spec.dealerView S J l x.1.2)
      let B := (A.knowing K).comap (Spec.withRecord S l)
      let checks' := Spec.lootQuestions S D l fun v : (Ω × Spec.RecordCoins F) × (List G × ({j // j ∈ J} → F)) => v.2.1
      (B.outputAll q m checks' v x.2).Valid (Spec.withTable S (B.tableAll q m checks' v x.2)) D l v.2.1 := by
    rw [← chance_bijective φ φ.bijective]
    refine chance_congr ?_
    rintro ⟨⟨ω, κ, w⟩, g⟩
    simp only
    have hy := withRecord_view hS.group hS.codec l J w ω κ
    set v : (Ω × Spec.RecordCoins F) × (List G × ({j // j ∈ J} → F)) :=
      ((ω, Spec.RecordCoins.shift ((List.ofFn w).headD 0) κ), Spec.dealerView S J l w) with hv
    have hpts : Spec.recordPoints (Spec.withRecord S l v).2.1 = v.2.1 := simulated_points S l _ _
    have hidx : (Spec.withRecord S l v).2.1.index = l := by
      rw [hy]
      rfl
    have hchk : (Spec.lootQuestions S D l fun v : (Ω × Spec.RecordCoins F) × (List G × ({j // j ∈ J} → F)) => v.2.1) v =
        checks (Spec.withRecord S l v) := by
      funext o
      show Spec.lootQuestions S D l (fun _ : Unit => v.2.1) () o = Spec.lootQuestions S D l
        (fun _ : Unit => Spec.recordPoints (Spec.withRecord S l v).2.1) () o
      rw [hpts]
    rw [← hy]
    show _ ↔ (((A.knowing K).comap (Spec.withRecord S l)).outputAll q m _ v g).Valid
      (Spec.withTable S (((A.knowing K).comap (Spec.withRecord S l)).tableAll q m _ v g)) D l v.2.1
    rw [(A.knowing K).comap_outputAll q m checks _ _ v hchk, (A.knowing K).comap_tableAll q m checks _ _ v hchk,
      A.knowing_outputAll, ← hpts, show Spec.recordPoints (Spec.dealerRecord S l w κ) =
        Spec.recordPoints (Spec.withRecord S l v).2.1 by rw [hy]]
    generalize Spec.withRecord S l v = y at hidx
    have hK : ∀ k, (K y).lookup (checks y ((A.knowing K).outputAll q m checks y g) k) = none :=
      fun k => recordTable_other S D l _ y _ y.2.1 hidx k
    have h2 := fun k => ((A.knowing K).criticalAll_spec q m checks y g k).2.1
    have h1 : ∀ k, (A.tableAllAfter q m checks K y g).lookup (checks y ((A.knowing K).outputAll q m checks y g) k) =
        some ((A.knowing K).challengeAll q m checks y g k) := by
      intro k
      rw [← h2 k]
      unfold Spec.Attacker.tableAllAfter
      rw [lookup_or, hK, Option.none_or, A.knowing_lookupAll q m checks K y g hK m le_rfl _ (hK k)]
      rfl
    rw [loot_valid_iff S D l (fun y : Ω × (Participant F G × ({j // j ∈ J} → F)) => Spec.recordPoints y.2.1) y _ _ _ h1,
      loot_valid_iff S D l (fun y : Ω × (Participant F G × ({j // j ∈ J} → F)) => Spec.recordPoints y.2.1) y _ _ _ h2]
  rw [hf]

section Examples
open Toy

/-- Answers agree with the table. -/
theorem oracle_answer (ask : List F → Spec.Question) (h : ℕ → F) (n j : ℕ) (hj : j < n) :
    (Spec.oracle ask h n).lookup (ask (((Spec.oracle ask h n).map Prod.snd).take j)) =
      ((Spec.oracle ask h n).map Prod.snd)[j]? := by
  have e1 : Spec.oracle ask h (j + 1) = Spec.oracle ask h j ++ [(ask ((Spec.oracle ask h j).map Prod.snd),
    ((Spec.oracle ask h j).lookup (ask ((Spec.oracle ask h j).map Prod.snd))).getD (h j))] := rfl
  have e2 := Spec.Attacker.oracle_take ask h (j + 1) n (by omega)
  have e3 := Spec.Attacker.oracle_take ask h j n (by omega)
  have l1 := oracle_length ask h j
  rw [← List.map_take, e3]
  conv_lhs => rw [← List.take_append_drop (j + 1) (Spec.oracle ask h n), e2]
  rw [lookup_append_left (by rw [e1]; simp), e1, lookup_or]
  have e4 : ((Spec.oracle ask h n).map Prod.snd)[j]? = ((Spec.oracle ask h (j + 1)).map Prod.snd)[j]? := by
    rw [← e2, List.map_take, List.getElem?_take_of_lt (by omega)]
  rw [e4, e1]
  simp only [List.lookup_cons, beq_self_eq_true, List.map_append, List.map_cons, List.map_nil]
  rw [List.getElem?_append_right (by rw [List.length_map, l1]), List.length_map, l1, Nat.sub_self]
  cases (Spec.oracle ask h j).lookup (ask ((Spec.oracle ask h j).map Prod.snd)) <;> rfl

/-- Colluders deal for dealers 2 and 3; the polynomial of dealer 2 depends on the points of dealer 1. -/
def lootPoly (points : List Fp) (k : U32) : List Fp := if k = 2 then [7 - points.headD 0, 1, 2] else [4, 0, 9]

def lootRecord (points : List Fp) (k : U32) (s : Fp) : Participant Fp Fp :=
  ⟨k, 3, some ⟨k, commitPoints suite (lootPoly points k)⟩, some ⟨s, 5 + (lootPoly points k).headD 0 * s⟩, ⟨0, 0⟩⟩

/-- The group key with these records; in the toy group it is the group secret, too. -/
def lootKey (points : List Fp) : Fp := Spec.recordsKey [1, 2, 3] 1 (fun k => lootRecord points k 0) points

/-- Colluders that make proofs for dealers 2 and 3, and a signature with the key that they compute. -/
def looters {Ω : Type} (points : Ω → List Fp) : Spec.Attacker Ω Fp (Spec.Loot Fp Fp) where
  ask ω answers :=
    if answers.length = 0 then
      Spec.pokQuestion suite 2 ((lootPoly (points ω) 2).headD 0 • suite.gen) ((5 : Fp) • suite.gen)
    else if answers.length = 1 then
      Spec.pokQuestion suite 3 ((lootPoly (points ω) 3).headD 0 • suite.gen) ((5 : Fp) • suite.gen)
    else .field (suite.contextString ++ strBytes "challenge")
      (suite.encG ((5 : Fp) • suite.gen) ++ suite.encG (lootKey (points ω)) ++ [1, 2])
  result ω answers :=
    (fun k => lootRecord (points ω) k (if k = 2 then answers[0]?.getD 0 else answers[1]?.getD 0), [1, 2],
      ⟨(5 : Fp) • suite.gen, 5 + answers[2]?.getD 0 * lootKey (points ω)⟩)

theorem looters_win {Ω : Type} (points : Ω → List Fp) (ω : Ω)
    (h : Fin (3 + ((Spec.otherDealers [1, 2, 3] 1).length + 1)) → Fp) :
    ((looters points).outputAll 3 _ (Spec.lootQuestions suite [1, 2, 3] 1 points) ω h).Valid
      (Spec.withTable suite ((looters points).tableAll 3 _ (Spec.lootQuestions suite [1, 2, 3] 1 points) ω h))
      [1, 2, 3] 1 (points ω) := by
  generalize hm : (Spec.lootQuestions suite [1, 2, 3] 1 points) = checks
  clear hm
  revert checks h
  generalize (Spec.otherDealers [1, 2, 3] 1).length + 1 = m
  intro h checks
  set T := (looters points).tableAll 3 m checks ω h with hT
  set a := T.map Prod.snd with ha
  have hl : a.length = 3 + m := by rw [ha, List.length_map]; exact oracle_length _ _ _
  have hq : ∀ j, j < 3 → T.lookup ((looters points).ask ω (a.take j)) = a[j]? := by
    intro j hj
    have := oracle_answer ((looters points).questionsAll 3 m checks ω) (Spec.tape h) (3 + m) j (by omega)
    have e : (looters points).questionsAll 3 m checks ω (a.take j) = (looters points).ask ω (a.take j) := by
      unfold Spec.Attacker.questionsAll
      rw [if_pos (by rw [List.length_take]; omega)]
    rw [← e]
    exact this
  obtain ⟨a0, a1, a2, rest, hA⟩ : ∃ a0 a1 a2 rest, a = a0 :: a1 :: a2 :: rest := by
    match a, hl with
    | [], h => simp at h; omega
    | [_], h => simp at h; omega
    | [_, _], h => simp at h; omega
    | a0 :: a1 :: a2 :: rest, _ => exact ⟨a0, a1, a2, rest, rfl⟩
  have q0 := hq 0 (by omega)
  have q1 := hq 1 (by omega)
  have q2 := hq 2 (by omega)
  rw [hA] at q0 q1 q2
  have ho : (looters points).outputAll 3 m checks ω h = (looters points).result ω (a.take 3) := rfl
  rw [ho, hA]
  have hpt : ∀ k s, (Spec.recordPoints (lootRecord (points ω) k s)).headD 0 = (lootPoly (points ω) k).headD 0 • suite.gen := by
    intro k s
    show (commitPoints suite (lootPoly (points ω) k)).headD 0 = _
    unfold lootPoly
    split <;> rfl
  have hkey : ∀ s : U32 → Fp, Spec.recordsKey [1, 2, 3] 1 (fun k => lootRecord (points ω) k (s k)) (points ω) =
      lootKey (points ω) := by
    intro s
    unfold lootKey Spec.recordsKey
    rfl
  have hnonce : ∀ x s : Fp, (5 + x * s) • suite.gen - s • x • suite.gen = (5 : Fp) • suite.gen := by
    intro x s
    rw [smul_smul, ← sub_smul, show (5 + x * s) - s * x = (5 : Fp) by ring]
  constructor
  · intro k hk hkl
    have hk' : k = 2 ∨ k = 3 := by
      rcases List.mem_cons.mp hk with e | hk
      · exact absurd e hkl
      · rcases List.mem_cons.mp hk with e | hk
        · exact Or.inl e
        · exact Or.inr (List.mem_singleton.mp hk)
    refine ⟨⟨k, commitPoints suite (lootPoly (points ω) k)⟩, (lootPoly (points ω) k).headD 0 • suite.gen, _, rfl, ?_, rfl, ?_⟩
    · show (commitPoints suite (lootPoly (points ω) k)).head? = _
      unfold lootPoly
      split <;> rfl
    · unfold Spec.PokValid
      show (if k = 2 then a0 else a1) = (T.lookup (Spec.pokQuestion suite k ((lootPoly (points ω) k).headD 0 • suite.gen)
        ((5 + (lootPoly (points ω) k).headD 0 * (if k = 2 then a0 else a1)) • suite.gen -
          (if k = 2 then a0 else a1) • (lootPoly (points ω) k).headD 0 • suite.gen))).getD _
      rw [hnonce]
      rcases hk' with rfl | rfl
      · rw [show T.lookup (Spec.pokQuestion suite 2 ((lootPoly (points ω) 2).headD 0 • suite.gen) ((5 : Fp) • suite.gen)) =
          some a0 from q0]
        rfl
      · rw [show T.lookup (Spec.pokQuestion suite 3 ((lootPoly (points ω) 3).headD 0 • suite.gen) ((5 : Fp) • suite.gen)) =
          some a1 from q1]
        rfl
  · show (⟨(5 : Fp) • suite.gen, 5 + a2 * lootKey (points ω)⟩ : ThresholdSignature Fp Fp).verify (Spec.withTable suite T)
      (Spec.recordsKey [1, 2, 3] 1 (fun k => lootRecord (points ω) k (if k = 2 then a0 else a1)) (points ω)) [1, 2] = .ok ()
    rw [hkey, verify_iff]
    unfold Spec.SigValid
    have hc : Spec.challenge (Spec.withTable suite T) ((5 : Fp) • suite.gen) (lootKey (points ω)) [1, 2] = a2 := by
      show (T.lookup (.field (suite.contextString ++ strBytes "challenge")
        (suite.encG ((5 : Fp) • suite.gen) ++ suite.encG (lootKey (points ω)) ++ [1, 2]))).getD _ = _
      rw [show T.lookup (.field (suite.contextString ++ strBytes "challenge")
        (suite.encG ((5 : Fp) • suite.gen) ++ suite.encG (lootKey (points ω)) ++ [1, 2])) = some a2 from q2]
      rfl
    show Spec.Schnorr suite.gen ((5 : Fp) • suite.gen) (lootKey (points ω))
      (Spec.challenge (Spec.withTable suite T) ((5 : Fp) • suite.gen) (lootKey (points ω)) [1, 2]) _
    rw [hc]
    show (5 + a2 * lootKey (points ω)) • suite.gen = (5 : Fp) • suite.gen + a2 • lootKey (points ω)
    rw [add_smul, smul_gen (a2 * lootKey (points ω))]
    rfl

/-- `C150_forgery` for colluders who always succeed. -/
theorem forgery_certain [Fintype F] [Fintype Ω] [Nonempty Ω] {S : Suite F G R} (hS : S.Lawful) {D : List U32} (hD : D.Nodup)
    (h0 : 0 ∉ D) (l : U32) (J : List U32) (hJ : J.Nodup) (hJ0 : 0 ∉ J) (t : ℕ) (ht : J.length + 1 = t) (q : ℕ)
    (A : Spec.Attacker (Ω × (List G × ({j // j ∈ J} → F))) F (Spec.Loot F G))
    (hA : ∀ y x, (A.outputAll q _ (Spec.lootQuestions S D l fun x : Ω × (List G × ({j // j ∈ J} → F)) => x.2.1) y x).Valid
      (Spec.withTable S (A.tableAll q _ (Spec.lootQuestions S D l fun x => x.2.1) y x)) D l y.2.1) :
    let m := (Spec.otherDealers D l).length + 1
    (1 : ℚ) ^ (m + 1) / ((q + m : ℕ) : ℚ) ^ (m * m) - m * 1 / (Fintype.card F : ℚ) ≤
      Spec.chance fun x : (Ω × (F × ({j // j ∈ J} → F))) × (Fin (q + m) → F) × (Fin m → Fin (q + m) → F) =>
        Spec.solveLoot S D l J t q A (x.1.2.1 • S.gen) x.1.1 x.1.2.2 x.2.1 x.2.2 = x.1.2.1 := by
  intro m
  have h := C150_forgery hS hD h0 l J hJ hJ0 t ht q A
  simp only at h
  rwa [chance_one fun x => hA _ _] at h

example [Fintype Fp] :
    let m := (Spec.otherDealers [1, 2, 3] 1).length + 1
    (1 : ℚ) ^ (m + 1) / ((3 + m : ℕ) : ℚ) ^ (m * m) - (m : ℚ) * 1 / (Fintype.card Fp : ℚ) ≤
      Spec.chance fun x : (Unit × (Fp × ({j // j ∈ colluders} → Fp))) × (Fin (3 + m) → Fp) × (Fin m → Fin (3 + m) → Fp) =>
        Spec.solveLoot suite [1, 2, 3] 1 colluders 3 3 (looters fun x => x.2.1) (x.1.2.1 • suite.gen) x.1.1 x.1.2.2 x.2.1
          x.2.2 = x.1.2.1 :=
  forgery_certain (Ω := Unit) lawful (D := [1, 2, 3]) (by decide) (by decide) 1 colluders (by decide) (by decide) 3 rfl 3
    (looters fun x => x.2.1) (looters_win fun x : Unit × (List Fp × ({j // j ∈ colluders} → Fp)) => x.2.1)

/-- There are three dealers: the bound is `1 / 6 ^ 9 - 3 / |F|`. -/
example : (Spec.otherDealers [1, 2, 3] 1).length + 1 = 3 := by decide

/-- Colluders who see the record: the same ones, who do not look at more than the points. -/
example [Fintype Fp] :
    let m := (Spec.otherDealers [1, 2, 3] 1).length + 1
    let A := looters fun y : Unit × (Participant Fp Fp × ({j // j ∈ colluders} → Fp)) => Spec.recordPoints y.2.1
    let checks := Spec.lootQuestions suite [1, 2, 3] 1
      fun y : Unit × (Participant Fp Fp × ({j // j ∈ colluders} → Fp)) => Spec.recordPoints y.2.1
    let K : Unit × (Participant Fp Fp × ({j // j ∈ colluders} → Fp)) → List (Spec.Question × Fp) :=
      fun y => Spec.recordTable suite y.2.1
    let forged : ℚ := Spec.chance fun x : (Unit × Spec.RecordCoins Fp × (Fin 3 → Fp)) × (Fin (3 + m) → Fp) =>
      let y := (x.1.1, Spec.dealerRecord suite 1 x.1.2.2 x.1.2.1, (Spec.dealerView suite colluders 1 x.1.2.2).2)
      (A.outputAllAfter 3 m checks K y x.2).Valid (Spec.withTable suite (A.tableAllAfter 3 m checks K y x.2)) [1, 2, 3] 1
        (Spec.recordPoints y.2.1)
    forged ^ (m + 1) / ((3 + m : ℕ) : ℚ) ^ (m * m) - m * forged / (Fintype.card Fp : ℚ) ≤
      Spec.chance fun x : ((Unit × Spec.RecordCoins Fp) × (Fp × ({j // j ∈ colluders} → Fp))) × (Fin (3 + m) → Fp) ×
          (Fin m → Fin (3 + m) → Fp) =>
        Spec.solveLoot suite [1, 2, 3] 1 colluders 3 3 ((A.knowing K).comap (Spec.withRecord suite 1)) (x.1.2.1 • suite.gen)
          x.1.1 x.1.2.2 x.2.1 x.2.2 = x.1.2.1 :=
  C150_forgery_after_record (Ω := Unit) lawful (D := [1, 2, 3]) (by decide) (by decide) 1 colluders (by decide) (by decide) 3
    rfl 3 _

/-- The key is the one that participant 5 gets in a key generation with these records. -/
example (w : Fin 3 → Fp) (s : U32 → Fp) (hr : ∀ k ∈ ([1, 2, 3] : List U32), k ≠ 1 →
      Spec.Proven suite k (lootRecord (commitPoints suite (List.ofFn w)) k (s k))) :
    let points := commitPoints suite (List.ofFn w)
    ∃ sk, (honestState suite ⟨5, 3⟩ [1, 2, 3] (Spec.dealtBy 1 (List.ofFn w) (lootPoly points)) 5).finish =
      .ok (Spec.recordsKey [1, 2, 3] 1 (fun k => lootRecord points k (s k)) points, sk) := by
  intro points
  have h := honestState_holds suite ⟨5, 3⟩ (D := [1, 2, 3]) (by decide) (Spec.dealtBy 1 (List.ofFn w) (lootPoly points)) 5
  have e : dealerMap suite [1, 2, 3] (Spec.dealtBy 1 (List.ofFn w) (lootPoly points)) =
      Spec.recordsMap [1, 2, 3] 1 (fun k => lootRecord points k (s k)) points := by
    unfold dealerMap Spec.recordsMap
    congr 1
  rw [e] at h
  refine C150_group_key u32_inj (by decide) (by decide) (by decide) _ points (fun e => ?_) hr _ _ h
  have := congrArg List.length e
  rw [commitPoints_length, List.length_ofFn] at this
  cases this

end Examples

end IceFrost
