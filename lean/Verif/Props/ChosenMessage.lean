import Verif.Props.RandomOracle
import Verif.Props.SignatureTheory

/-!
# C141: forging after seeing signatures

The forking argument of C140 for forgers who obtain signatures of the group on messages of their choice.
-/

set_option linter.unusedSectionVars false
set_option linter.unusedSimpArgs false
set_option linter.unusedVariables false

namespace IceFrost

open Finset

/-- A move of a forger: a question to one of the two hash functions, or a message to be signed by the group. -/
inductive Spec.Move
  | field (dst msg : Bytes)
  | sha256 (dst msg : Bytes)
  | sign (msg : Bytes)

/-- What the forger gets for a move. -/
inductive Spec.Reply (F G : Type)
  | answer (c : F)
  | signature (sig : ThresholdSignature F G)

/-- A program with coins `Ω` that asks for hashes and signatures and then returns a message with a signature. -/
structure Spec.Forger (Ω F G : Type) where
  /-- the next move, given the replies so far -/
  move : Ω → List (Spec.Reply F G) → Spec.Move
  /-- the result, given all replies -/
  result : Ω → List (Spec.Reply F G) → Bytes × ThresholdSignature F G

/-- The course of the game so far: the answers of the hash functions, the replies to the forger, and the signatures
given out. -/
structure Spec.Play (F G : Type) where
  table : List (Spec.Question × F)
  replies : List (Spec.Reply F G)
  signed : List (Bytes × ThresholdSignature F G)

variable {F G R : Type} [Field F] [DecidableEq F] [AddCommGroup G] [Module F G] [DecidableEq G]
variable {Ω : Type}

/-- A hash question gets the answer in the table, or the fresh scalar `c` if it is new. -/
def Spec.Play.hash (st : Spec.Play F G) (b : Spec.Question) (c : F) : Spec.Play F G :=
  let a := (st.table.lookup b).getD c
  ⟨st.table ++ [(b, a)], st.replies ++ [.answer a], st.signed⟩

/-- The question about a nonce commitment, a key and a message that signing and verifying ask. -/
def Spec.challengeQuestion (S : Suite F G R) (P Y : G) (msg : Bytes) : Spec.Question :=
  .field (S.contextString ++ strBytes "challenge") (S.encG P ++ S.encG Y ++ msg)

/-- The group with the secret `x` signs with the nonce `u`, where `c` is the answer of the hash if the question is new.
By C83 this is what honest signers produce. -/
def Spec.Play.sign (S : Suite F G R) (x : F) (st : Spec.Play F G) (msg : Bytes) (u c : F) : Spec.Play F G :=
  let b := Spec.challengeQuestion S (u • S.gen) (x • S.gen) msg
  let T := st.table ++ [(b, (st.table.lookup b).getD c)]
  let sig := Spec.schnorrSign (Spec.withTable S T) x u msg
  ⟨T, st.replies ++ [.signature sig], st.signed ++ [(msg, sig)]⟩

/-- A signature computed from the key `Y` alone: response `u` and challenge `c` come first. -/
def Spec.Play.signSimulated (S : Suite F G R) (Y : G) (st : Spec.Play F G) (msg : Bytes) (u c : F) : Spec.Play F G :=
  let b := Spec.challengeQuestion S (u • S.gen - c • Y) Y msg
  let sig : ThresholdSignature F G := ⟨u • S.gen - c • Y, u⟩
  ⟨st.table ++ [(b, c)], st.replies ++ [.signature sig], st.signed ++ [(msg, sig)]⟩

/-- One move, with the signing given. -/
def Spec.Play.step (signing : Spec.Play F G → Bytes → F → F → Spec.Play F G) (mv : Spec.Move) (st : Spec.Play F G)
    (u c : F) : Spec.Play F G :=
  match mv with
  | .field dst m => st.hash (.field dst m) c
  | .sha256 dst m => st.hash (.sha256 dst m) c
  | .sign m => signing st m u c

namespace Spec.Forger

variable (B : Spec.Forger Ω F G)

/-- The first `k` moves: move number `k` uses the scalars `u k` and `h k`. -/
def play (signing : Spec.Play F G → Bytes → F → F → Spec.Play F G) (ω : Ω) (u h : ℕ → F) : ℕ → Spec.Play F G
  | 0 => ⟨[], [], []⟩
  | k + 1 =>
    let st := play signing ω u h k
    st.step signing (B.move ω st.replies) (u k) (h k)

/-- The forger succeeds against the group with secret `x`: after `n` moves its result passes `verify`, where a new
question of `verify` is answered by `h n`, and the group did not give out this signature for this message. -/
def Wins (S : Suite F G R) (n : ℕ) (x : F) (ω : Ω) (u h : ℕ → F) : Prop :=
  let st := B.play (Spec.Play.sign S x) ω u h n
  let o := B.result ω st.replies
  let b := Spec.challengeQuestion S o.2.groupCommitment (x • S.gen) o.1
  o.2.verify (Spec.withTable S (st.table ++ [(b, (st.table.lookup b).getD (h n))])) (x • S.gen) o.1 = .ok () ∧
    o ∉ st.signed

/-- The attacker of C140 made from a forger: it makes the signatures itself, from the key `Y`. -/
def alone (S : Suite F G R) (n : ℕ) (Y : Ω → G) :
    Spec.Attacker (Ω × (Fin n → F)) F (Bytes × ThresholdSignature F G) where
  ask := fun ω answers =>
    let st := B.play (Spec.Play.signSimulated S (Y ω.1)) ω.1 (Spec.tape ω.2) (fun k => answers.getD k 0) answers.length
    match B.move ω.1 st.replies with
    | .field dst m => .field dst m
    | .sha256 dst m => .sha256 dst m
    | .sign _ => .coin answers.length
  result := fun ω answers =>
    B.result ω.1 (B.play (Spec.Play.signSimulated S (Y ω.1)) ω.1 (Spec.tape ω.2) (fun k => answers.getD k 0) n).replies

/-- Some signature was made with a nonce whose question had been asked before. -/
def Repeats (S : Suite F G R) (x : F) (ω : Ω) (u h : ℕ → F) (k : ℕ) : Prop :=
  let st := B.play (Spec.Play.sign S x) ω u h k
  match B.move ω st.replies with
  | .sign m => Spec.challengeQuestion S (u k • S.gen) (x • S.gen) m ∈ st.table.map Prod.fst
  | _ => False

theorem play_succ (signing : Spec.Play F G → Bytes → F → F → Spec.Play F G) (ω : Ω) (u h : ℕ → F) (k : ℕ) :
    B.play signing ω u h (k + 1) =
      (B.play signing ω u h k).step signing (B.move ω (B.play signing ω u h k).replies) (u k) (h k) := rfl

theorem play_congr (signing : Spec.Play F G → Bytes → F → F → Spec.Play F G) (ω : Ω) {u u' h h' : ℕ → F} (k : ℕ)
    (hu : ∀ i < k, u i = u' i) (hh : ∀ i < k, h i = h' i) : B.play signing ω u h k = B.play signing ω u' h' k := by
  induction k with
  | zero => rfl
  | succ k ih =>
    rw [play_succ, play_succ]
    rw [ih (fun i hi => hu i (by omega)) fun i hi => hh i (by omega), hu k (by omega), hh k (by omega)]

theorem play_length (S : Suite F G R) (x : F) (ω : Ω) (u h : ℕ → F) (k : ℕ) :
    (B.play (Spec.Play.sign S x) ω u h k).table.length = k := by
  induction k with
  | zero => rfl
  | succ k ih =>
    rw [play_succ]
    unfold Spec.Play.step
    split <;> simp [Spec.Play.hash, Spec.Play.sign, ih]

end Spec.Forger

/-- The signature made in the game: nonce commitment and response for the challenge in the table. -/
theorem sign_in_play (S : Suite F G R) (x u c : F) (msg : Bytes) (T : List (Spec.Question × F)) :
    let b := Spec.challengeQuestion S (u • S.gen) (x • S.gen) msg
    Spec.schnorrSign (Spec.withTable S (T ++ [(b, (T.lookup b).getD c)])) x u msg =
      ⟨u • S.gen, u + (T.lookup b).getD c * x⟩ := by
  intro b
  unfold Spec.schnorrSign Spec.challenge
  have : (T ++ [(b, (T.lookup b).getD c)]).lookup b = some ((T.lookup b).getD c) := by
    by_cases hb : b ∈ T.map Prod.fst
    · rw [lookup_append_left hb]
      cases hl : T.lookup b with
      | none =>
        rw [List.lookup_eq_none_iff] at hl
        obtain ⟨p, hp, he⟩ := List.mem_map.mp hb
        exact absurd (hl p hp) (by simp [he])
      | some v => rfl
    · rw [lookup_append_right hb]
      simp
  show (⟨u • S.gen, u + (((T ++ [(b, (T.lookup b).getD c)]).lookup b).getD _) * x⟩ : ThresholdSignature F G) = _
  rw [this, Option.getD_some]

theorem play_sign (S : Suite F G R) (x : F) (st : Spec.Play F G) (msg : Bytes) (u c : F) :
    Spec.Play.sign S x st msg u c =
      let b := Spec.challengeQuestion S (u • S.gen) (x • S.gen) msg
      let a := (st.table.lookup b).getD c
      ⟨st.table ++ [(b, a)], st.replies ++ [.signature ⟨u • S.gen, u + a * x⟩],
        st.signed ++ [(msg, ⟨u • S.gen, u + a * x⟩)]⟩ := by
  unfold Spec.Play.sign
  simp only
  rw [sign_in_play]

namespace Spec.Forger

variable (B : Spec.Forger Ω F G)

/-- As long as no nonce repeats a question, the game with the secret is the game with the key alone, with other random
scalars. -/
theorem play_alone (S : Suite F G R) (x : F) (ω : Ω) (u h : ℕ → F) (k : ℕ) (hk : ∀ i < k, ¬ B.Repeats S x ω u h i) :
    B.play (Spec.Play.sign S x) ω u h k =
      B.play (Spec.Play.signSimulated S (x • S.gen)) ω (fun i => u i + h i * x) h k := by
  induction k with
  | zero => rfl
  | succ k ih =>
    have hb := hk k (by omega)
    rw [play_succ, play_succ, ← ih fun i hi => hk i (by omega)]
    unfold Repeats at hb
    simp only at hb
    cases hm : B.move ω (B.play (Spec.Play.sign S x) ω u h k).replies with
    | field dst m => rfl
    | sha256 dst m => rfl
    | sign m =>
      rw [hm] at hb
      simp only at hb
      show Spec.Play.sign S x _ m _ _ = Spec.Play.signSimulated S _ _ m _ _
      rw [play_sign]
      unfold Spec.Play.signSimulated
      simp only
      rw [lookup_none hb]
      have e : (u k + h k * x) • S.gen - h k • x • S.gen = u k • S.gen := by
        rw [add_smul, mul_smul, add_sub_cancel_right]
      rw [e, Option.getD_none]

/-- Every signature given out is valid for the answers of the game. -/
theorem signed_valid (S : Suite F G R) (x : F) (ω : Ω) (u h : ℕ → F) (k : ℕ) :
    ∀ o ∈ (B.play (Spec.Play.sign S x) ω u h k).signed, ∃ c,
      (B.play (Spec.Play.sign S x) ω u h k).table.lookup
        (Spec.challengeQuestion S o.2.groupCommitment (x • S.gen) o.1) = some c ∧
      o.2.z • S.gen = o.2.groupCommitment + c • x • S.gen := by
  induction k with
  | zero => intro o ho; cases ho
  | succ k ih =>
    have keep : ∀ (T T' : List (Spec.Question × F)) b (c : F), T.lookup b = some c → (T ++ T').lookup b = some c := by
      intro T T' b c hc
      rw [lookup_append_left, hc]
      by_contra hb
      rw [lookup_none hb] at hc
      cases hc
    rw [play_succ]
    cases hm : B.move ω (B.play (Spec.Play.sign S x) ω u h k).replies with
    | field dst m =>
      intro o ho
      obtain ⟨c, h1, h2⟩ := ih o ho
      exact ⟨c, keep _ _ _ _ h1, h2⟩
    | sha256 dst m =>
      intro o ho
      obtain ⟨c, h1, h2⟩ := ih o ho
      exact ⟨c, keep _ _ _ _ h1, h2⟩
    | sign m =>
      intro o ho
      rw [show ∀ st : Spec.Play F G, st.step (Spec.Play.sign S x) (.sign m) (u k) (h k) =
        Spec.Play.sign S x st m (u k) (h k) from fun _ => rfl, play_sign] at ho ⊢
      simp only at ho ⊢
      rw [List.mem_append] at ho
      rcases ho with ho | ho
      · obtain ⟨c, h1, h2⟩ := ih o ho
        exact ⟨c, keep _ _ _ _ h1, h2⟩
      · rw [List.mem_singleton] at ho
        subst ho
        set T := (B.play (Spec.Play.sign S x) ω u h k).table
        set b := Spec.challengeQuestion S (u k • S.gen) (x • S.gen) m
        refine ⟨(T.lookup b).getD (h k), ?_, ?_⟩
        · show (T ++ [(b, (T.lookup b).getD (h k))]).lookup b = _
          by_cases hb : b ∈ T.map Prod.fst
          · cases hl : T.lookup b with
            | none =>
              rw [List.lookup_eq_none_iff] at hl
              obtain ⟨p, hp, he⟩ := List.mem_map.mp hb
              exact absurd (hl p hp) (by simp [he])
            | some v => exact keep _ _ _ _ hl
          · rw [lookup_append_right hb]
            simp
        · show (u k + (T.lookup b).getD (h k) * x) • S.gen = _
          rw [add_smul, mul_smul]

/-- The lone attacker with the random answers `h` goes through the game with the key alone. -/
theorem alone_oracle (S : Suite F G R) (n : ℕ) (Y : Ω → G) (final : Ω × (Fin n → F) → _ → Spec.Question) (ω : Ω)
    (u : Fin n → F) (h : ℕ → F) (k : ℕ) (hk : k ≤ n) :
    let O := Spec.oracle ((B.alone S n Y).questions n final (ω, u)) h k
    let st := B.play (Spec.Play.signSimulated S (Y ω)) ω (Spec.tape u) h k
    B.play (Spec.Play.signSimulated S (Y ω)) ω (Spec.tape u) (fun i => (O.map Prod.snd).getD i 0) k = st ∧
    (∀ i, .coin i ∈ O.map Prod.fst → i < k) ∧
    (∀ b, (∀ i, b ≠ .coin i) → b ∈ O.map Prod.fst → b ∈ st.table.map Prod.fst) ∧
    (∀ b, (∀ i, b ≠ .coin i) →
      (∀ o ∈ st.signed, b ≠ Spec.challengeQuestion S o.2.groupCommitment (Y ω) o.1) → st.table.lookup b = O.lookup b) := by
  induction k with
  | zero => exact ⟨rfl, by simp [Spec.oracle], by simp [Spec.oracle], fun _ _ _ => rfl⟩
  | succ k ih =>
    obtain ⟨i1, i2, i3, i4⟩ := ih (by omega)
    intro O st
    set O0 := Spec.oracle ((B.alone S n Y).questions n final (ω, u)) h k with hO0
    set st0 := B.play (Spec.Play.signSimulated S (Y ω)) ω (Spec.tape u) h k with hst0
    have hl : O0.length = k := oracle_length _ _ _
    -- the question number `k`
    set b0 := (B.alone S n Y).questions n final (ω, u) (O0.map Prod.snd) with hb0
    have hO : O = O0 ++ [(b0, (O0.lookup b0).getD (h k))] := rfl
    have hq : b0 = match B.move ω st0.replies with
        | .field dst m => .field dst m
        | .sha256 dst m => .sha256 dst m
        | .sign _ => .coin k := by
      rw [hb0]
      unfold Spec.Attacker.questions
      rw [if_pos (by rw [List.length_map, hl]; omega)]
      unfold alone
      simp only [List.length_map, hl]
      rw [i1]
    have hans : ∀ i < k, (O.map Prod.snd).getD i 0 = (O0.map Prod.snd).getD i 0 := by
      intro i hi
      rw [hO, List.map_append, List.getD_append _ _ _ _ (by rw [List.length_map, hl]; exact hi)]
    have hansk : (O.map Prod.snd).getD k 0 = (O0.lookup b0).getD (h k) := by
      rw [hO, List.map_append, List.getD_append_right _ _ _ _ (by rw [List.length_map, hl]), List.length_map, hl,
        Nat.sub_self]
      rfl
    have hpl : B.play (Spec.Play.signSimulated S (Y ω)) ω (Spec.tape u) (fun i => (O.map Prod.snd).getD i 0) (k + 1) =
        st0.step (Spec.Play.signSimulated S (Y ω)) (B.move ω st0.replies) (Spec.tape u k)
          ((O0.lookup b0).getD (h k)) := by
      rw [play_succ, B.play_congr _ ω (u' := Spec.tape u) (h' := fun i => (O0.map Prod.snd).getD i 0) k (fun _ _ => rfl) hans, i1,
        hansk]
    have hst : st = st0.step (Spec.Play.signSimulated S (Y ω)) (B.move ω st0.replies) (Spec.tape u k) (h k) := rfl
    -- a hash question
    have hash : ∀ b, (∀ i, b ≠ .coin i) → b0 = b → st0.hash b ((O0.lookup b0).getD (h k)) = st0.hash b (h k) ∧
        (∀ i, .coin i ∈ O.map Prod.fst → i < k + 1) ∧
        (∀ b', (∀ i, b' ≠ .coin i) → b' ∈ O.map Prod.fst → b' ∈ (st0.hash b (h k)).table.map Prod.fst) ∧
        (∀ b', (∀ i, b' ≠ .coin i) →
          (∀ o ∈ (st0.hash b (h k)).signed, b' ≠ Spec.challengeQuestion S o.2.groupCommitment (Y ω) o.1) →
          (st0.hash b (h k)).table.lookup b' = O.lookup b') := by
      intro b hb e
      refine ⟨?_, ?_, ?_, ?_⟩
      · unfold Spec.Play.hash
        simp only
        by_cases hm : b ∈ st0.table.map Prod.fst
        · cases hlk : st0.table.lookup b with
          | none =>
            rw [List.lookup_eq_none_iff] at hlk
            obtain ⟨p, hp, he⟩ := List.mem_map.mp hm
            exact absurd (hlk p hp) (by simp [he])
          | some v => rfl
        · have : b ∉ O0.map Prod.fst := fun hc => hm (i3 b hb hc)
          rw [e, lookup_none this, lookup_none hm]
          rfl
      · intro i hi
        rw [hO, List.map_append, List.mem_append] at hi
        rcases hi with hi | hi
        · exact (i2 i hi).trans (by omega)
        · rw [List.map_cons, List.map_nil, List.mem_singleton, e] at hi
          exact absurd hi.symm (hb i)
      · intro b' hb' hm
        unfold Spec.Play.hash
        rw [hO, List.map_append, List.mem_append] at hm
        simp only [List.map_append, List.mem_append]
        rcases hm with hm | hm
        · exact Or.inl (i3 b' hb' hm)
        · rw [List.map_cons, List.map_nil, List.mem_singleton, e] at hm
          subst hm
          exact Or.inr (by simp)
      · intro b' hb' hs
        have h4 := i4 b' hb' hs
        unfold Spec.Play.hash
        simp only
        rw [hO]
        by_cases h5 : (O0.lookup b').isSome
        · obtain ⟨v, hv⟩ := Option.isSome_iff_exists.mp h5
          have keep : ∀ (T T' : List (Spec.Question × F)) b (c : F), T.lookup b = some c →
              (T ++ T').lookup b = some c := by
            intro T T' b c hc
            rw [lookup_append_left, hc]
            by_contra hb
            rw [lookup_none hb] at hc
            cases hc
          rw [keep _ _ _ _ hv, keep _ _ _ _ (h4.trans hv)]
        · have hv : O0.lookup b' = none := Option.not_isSome_iff_eq_none.mp h5
          have nm : ∀ (T : List (Spec.Question × F)), T.lookup b' = none → b' ∉ T.map Prod.fst := by
            intro T hT hm
            rw [List.lookup_eq_none_iff] at hT
            obtain ⟨p, hp, he⟩ := List.mem_map.mp hm
            exact absurd (hT p hp) (by simp [he])
          rw [lookup_append_right (nm _ hv), lookup_append_right (nm _ (h4.trans hv)), e]
          by_cases hbb : b' = b
          · subst hbb
            rw [hv, h4, hv]
          · rw [List.lookup_cons, List.lookup_cons]
            have : (b' == b) = false := by simpa using hbb
            rw [this]
    cases hm : B.move ω st0.replies with
    | field dst m =>
      rw [hm] at hq hpl hst
      rw [hpl, hst]
      exact hash (.field dst m) (fun i => by simp) hq
    | sha256 dst m =>
      rw [hm] at hq hpl hst
      rw [hpl, hst]
      exact hash (.sha256 dst m) (fun i => by simp) hq
    | sign m =>
      rw [hm] at hq hpl hst
      simp only at hq
      have hfresh : O0.lookup b0 = none := by
        refine lookup_none fun hc => ?_
        rw [hq] at hc
        exact lt_irrefl _ (i2 k hc)
      rw [hpl, hst, hfresh, Option.getD_none]
      refine ⟨rfl, ?_, ?_, ?_⟩
      · intro i hi
        rw [hO, List.map_append, List.mem_append] at hi
        rcases hi with hi | hi
        · exact (i2 i hi).trans (by omega)
        · rw [List.map_cons, List.map_nil, List.mem_singleton, hq] at hi
          injection hi with hi
          omega
      · intro b' hb' hm'
        rw [hO, List.map_append, List.mem_append] at hm'
        show b' ∈ (st0.table ++ _).map Prod.fst
        rw [List.map_append, List.mem_append]
        rcases hm' with hm' | hm'
        · exact Or.inl (i3 b' hb' hm')
        · rw [List.map_cons, List.map_nil, List.mem_singleton, hq] at hm'
          exact absurd hm' (hb' k)
      · intro b' hb' hs
        have hs' : (∀ o ∈ st0.signed, b' ≠ Spec.challengeQuestion S o.2.groupCommitment (Y ω) o.1) ∧
            b' ≠ Spec.challengeQuestion S (Spec.tape u k • S.gen - h k • Y ω) (Y ω) m := by
          refine ⟨fun o ho => hs o ?_, hs (m, ⟨Spec.tape u k • S.gen - h k • Y ω, Spec.tape u k⟩) ?_⟩
          · show o ∈ st0.signed ++ _
            exact List.mem_append_left _ ho
          · show _ ∈ st0.signed ++ _
            exact List.mem_append_right _ (List.mem_singleton.mpr rfl)
        have h4 := i4 b' hb' hs'.1
        have drop : ∀ (T : List (Spec.Question × F)) (b : Spec.Question) (c : F), b' ≠ b →
            (T ++ [(b, c)]).lookup b' = T.lookup b' := by
          intro T b c hne
          by_cases hm' : b' ∈ T.map Prod.fst
          · exact lookup_append_left hm'
          · rw [lookup_append_right hm', lookup_none hm', List.lookup_cons]
            have : (b' == b) = false := by simpa using hne
            rw [this]
            rfl
        rw [hO, drop _ _ _ (by rw [hq]; exact hb' k)]
        show (st0.table ++ [(_, h k)]).lookup b' = _
        rw [drop _ _ _ hs'.2, h4]

/-- A forgery that does not depend on a repeated question is a result of the lone attacker that is accepted. -/
theorem wins_alone {S : Suite F G R} (hd : S.CodecLaws) (hg : S.GroupLaws) (n : ℕ) (x : Ω → F) (ω : Ω) (u : Fin n → F)
    (h : Fin (n + 1) → F) (hn : ∀ i < n, ¬ B.Repeats S (x ω) ω (Spec.tape u) (Spec.tape h) i)
    (hw : B.Wins S n (x ω) ω (Spec.tape u) (Spec.tape h)) :
    let final := Spec.signatureQuestion (Ω := Ω × (Fin n → F)) S fun y => x y.1 • S.gen
    let A := B.alone S n fun ω => x ω • S.gen
    let v : Ω × (Fin n → F) := (ω, fun i => u i + h i.castSucc * x ω)
    (A.output n final v h).2.verify (Spec.withTable S (A.table n final v h)) (x ω • S.gen) (A.output n final v h).1 =
      .ok () := by
  intro final A v
  obtain ⟨hw, hnew⟩ := hw
  -- the game is the simulated one
  have hv : ∀ i < n, Spec.tape v.2 i = Spec.tape u i + Spec.tape h i * x ω := by
    intro i hi
    simp only [Spec.tape, dif_pos hi, dif_pos (show i < n + 1 by omega), v]
    rfl
  have hplay := B.play_alone S (x ω) ω (Spec.tape u) (Spec.tape h) n hn
  have hval := B.signed_valid S (x ω) ω (Spec.tape u) (Spec.tape h) n
  rw [B.play_congr _ ω (u' := Spec.tape v.2) (h' := Spec.tape h) n (fun i hi => (hv i hi).symm) (fun _ _ => rfl)] at hplay
  rw [hplay] at hw hnew hval
  set st := B.play (Spec.Play.signSimulated S (x ω • S.gen)) ω (Spec.tape v.2) (Spec.tape h) n with hst
  obtain ⟨i1, -, -, i4⟩ := B.alone_oracle S n (fun ω => x ω • S.gen) final ω v.2 (Spec.tape h) n le_rfl
  set O := Spec.oracle (A.questions n final v) (Spec.tape h) n with hO
  have hlen : O.length = n := oracle_length _ _ _
  -- and so is the result
  have hout : A.output n final v h = B.result ω st.replies := by
    have e : ((A.table n final v h).map Prod.snd).take n = O.map Prod.snd := by
      rw [Spec.Attacker.table_prefix, List.map_append, List.take_append_of_le_length (by simp [← hO, hlen]),
        List.take_of_length_le (by simp [← hO, hlen])]
    unfold Spec.Attacker.output
    rw [e]
    show B.result ω (B.play _ ω (Spec.tape v.2) (fun k => (O.map Prod.snd).getD k 0) n).replies = _
    rw [show B.play (Spec.Play.signSimulated S (x ω • S.gen)) ω (Spec.tape v.2) (fun k => (O.map Prod.snd).getD k 0) n =
      st from i1]
  set o := B.result ω st.replies with ho
  have hv2 := verify_experiment S (fun y : Ω × (Fin n → F) => x y.1 • S.gen) n A v h
  refine hv2.mpr ?_
  rw [hout]
  -- the challenge
  have hfin : final v o = Spec.challengeQuestion S o.2.groupCommitment (x ω • S.gen) o.1 := rfl
  set b := Spec.challengeQuestion S o.2.groupCommitment (x ω • S.gen) o.1 with hb
  have hlook : ∀ (T : List (Spec.Question × F)) (c : F), (T ++ [(b, (T.lookup b).getD c)]).lookup b =
      some ((T.lookup b).getD c) := by
    intro T c
    by_cases hm : b ∈ T.map Prod.fst
    · rw [lookup_append_left hm]
      cases hl : T.lookup b with
      | none =>
        rw [List.lookup_eq_none_iff] at hl
        obtain ⟨p, hp, he⟩ := List.mem_map.mp hm
        exact absurd (hl p hp) (by simp [he])
      | some v => rfl
    · rw [lookup_append_right hm]
      simp
  have hc : A.challenge n final v h = (O.lookup b).getD (Spec.tape h n) := by
    unfold Spec.Attacker.challenge
    rw [Spec.Attacker.table_prefix, hout, hfin, hlook, Option.getD_some]
  have hw' : Spec.Schnorr S.gen o.2.groupCommitment (x ω • S.gen) ((st.table.lookup b).getD (Spec.tape h n)) o.2.z := by
    rw [verify_iff] at hw
    unfold Spec.SigValid at hw
    have : Spec.challenge (Spec.withTable S (st.table ++ [(b, (st.table.lookup b).getD (Spec.tape h n))]))
        o.2.groupCommitment (x ω • S.gen) o.1 = (st.table.lookup b).getD (Spec.tape h n) := by
      show (((st.table ++ [(b, (st.table.lookup b).getD (Spec.tape h n))]).lookup b).getD _) = _
      rw [hlook, Option.getD_some]
    rw [this] at hw
    exact hw
  rw [hc, ← i4 b (fun i => by rw [hb]; unfold Spec.challengeQuestion; simp) ?_]
  · exact hw'
  · -- the question of the forgery is not one of a signature given out
    intro o' ho' he
    refine hnew ?_
    obtain ⟨c, h1, h2⟩ := hval o' ho'
    rw [hb] at he
    have he' : S.encG o.2.groupCommitment ++ S.encG (x ω • S.gen) ++ o.1 =
        S.encG o'.2.groupCommitment ++ S.encG (x ω • S.gen) ++ o'.1 := by
      injection he
    rw [List.append_assoc, List.append_assoc] at he'
    obtain ⟨e1, he'⟩ := hd.encG_append_inj he'
    obtain ⟨-, e2⟩ := hd.encG_append_inj he'
    rw [← e1, ← e2, ← hb] at h1
    rw [h1, Option.getD_some] at hw'
    unfold Spec.Schnorr at hw'
    have e3 : o.2.z = o'.2.z := hg.gen_inj _ _ (by rw [h2, ← e1, ← hw'])
    have : o = o' := Prod.ext e2 (by
      cases h3 : o.2; cases h4 : o'.2
      rw [h3, h4] at e1 e3
      simp only at e1 e3
      rw [e1, e3])
    rw [this]
    exact ho'

/-- The chance that some signature repeats a question. -/
theorem repeats_bound [Fintype F] [Fintype Ω] [Nonempty Ω] {S : Suite F G R} (hd : S.CodecLaws) (hg : S.GroupLaws) (n : ℕ)
    (x : Ω → F) :
    Spec.chance (fun y : (Ω × (Fin n → F)) × (Fin (n + 1) → F) =>
      ∃ i : Fin n, B.Repeats S (x y.1.1) y.1.1 (Spec.tape y.1.2) (Spec.tape y.2) i) ≤
        ((n * (n - 1) / 2 : ℕ) : ℚ) / (Fintype.card F : ℚ) := by
  classical
  refine le_trans (chance_exists _) ?_
  have hone : ∀ i : Fin n, Spec.chance (fun y : (Ω × (Fin n → F)) × (Fin (n + 1) → F) =>
      B.Repeats S (x y.1.1) y.1.1 (Spec.tape y.1.2) (Spec.tape y.2) i) ≤ (i.1 : ℚ) / (Fintype.card F : ℚ) := by
    intro i
    let φ : (Ω × (Fin (n + 1) → F)) × (Fin n → F) → (Ω × (Fin n → F)) × (Fin (n + 1) → F) :=
      fun y => ((y.1.1, y.2), y.1.2)
    have hφ : Function.Bijective φ := Function.bijective_iff_has_inverse.mpr
      ⟨fun y => ((y.1.1, y.2), y.1.2), fun _ => rfl, fun _ => rfl⟩
    rw [← chance_bijective φ hφ]
    let st : Ω × (Fin (n + 1) → F) → (Fin n → F) → Spec.Play F G := fun ω u =>
      B.play (Spec.Play.sign S (x ω.1)) ω.1 (Spec.tape u) (Spec.tape ω.2) i
    let ψ : Ω × (Fin (n + 1) → F) → (Fin n → F) → F → Prop := fun ω u c =>
      match B.move ω.1 (st ω u).replies with
      | .sign m => Spec.challengeQuestion S (c • S.gen) (x ω.1 • S.gen) m ∈ (st ω u).table.map Prod.fst
      | _ => False
    have hst : ∀ ω u c, st ω (Function.update u i c) = st ω u := by
      intro ω u c
      refine B.play_congr _ _ _ (fun j hj => ?_) fun _ _ => rfl
      have hj' : j < n := by omega
      unfold Spec.tape
      rw [dif_pos hj', dif_pos hj', Function.update_of_ne]
      exact fun e => by rw [← e] at hj; exact lt_irrefl _ hj
    refine le_trans (chance_mono ?_) (chance_coord_le i ψ (fun ω u c => ?_) i.1 fun ω u => ?_)
    · rintro ⟨ω, u⟩ hx
      have e : Spec.tape u i.1 = u i := by simp [Spec.tape]
      simp only [φ, Repeats] at hx
      rw [e] at hx
      exact hx
    · simp only [ψ, hst]
    · cases hm : B.move ω.1 (st ω u).replies with
      | field dst m => exact ⟨∅, by simp, fun c hc => by simp only [ψ, hm] at hc⟩
      | sha256 dst m => exact ⟨∅, by simp, fun c hc => by simp only [ψ, hm] at hc⟩
      | sign m =>
        refine ⟨univ.filter fun c => Spec.challengeQuestion S (c • S.gen) (x ω.1 • S.gen) m ∈
          (st ω u).table.map Prod.fst, ?_, fun c hc => by simp only [ψ, hm] at hc; simpa using hc⟩
        have hl : ((st ω u).table.map Prod.fst).length = i.1 := by
          rw [List.length_map]
          exact B.play_length _ _ _ _ _ _
        rw [← hl]
        refine le_trans (Finset.card_le_card_of_injOn (t := ((st ω u).table.map Prod.fst).toFinset)
          (fun c => Spec.challengeQuestion S (c • S.gen) (x ω.1 • S.gen) m) (fun c hc => ?_) ?_) (List.toFinset_card_le _)
        · rw [Finset.mem_coe, mem_filter] at hc
          exact Finset.mem_coe.mpr (List.mem_toFinset.mpr hc.2)
        · intro c _ c' _ he
          have he' : S.encG (c • S.gen) ++ S.encG (x ω.1 • S.gen) ++ m =
              S.encG (c' • S.gen) ++ S.encG (x ω.1 • S.gen) ++ m := by
            injection he
          rw [List.append_assoc, List.append_assoc] at he'
          exact hg.gen_inj _ _ (hd.encG_append_inj he').1
  refine le_trans (Finset.sum_le_sum fun i _ => hone i) (le_of_eq ?_)
  rw [← Finset.sum_div]
  congr 1
  rw [← Finset.sum_range_id, Nat.cast_sum, ← Fin.sum_univ_eq_sum_range (fun i => (i : ℚ))]

end Spec.Forger

/-- The solver for forgers: given the key `Y ω` it answers the requests for signatures itself, rewinds the forger and
computes a logarithm of the key. -/
def Spec.solveForger (S : Suite F G R) (n : ℕ) (Y : Ω → G) (B : Spec.Forger Ω F G) (ω : Ω) (u : Fin n → F)
    (h h' : Fin (n + 1) → F) : F :=
  (B.alone S n Y).rewind n (Spec.signatureQuestion S fun y => Y y.1) Spec.extractKey (ω, u) h h'

/-- C141: whoever obtains signatures of the group on messages of their choice and forges another signature computes the
secret key from the public one. With `n` moves and success `ε`, and `e = ε - n (n - 1) / 2|F|`, the solver, which knows
only the public key, finds the secret with chance at least `e (e / (n + 1) - 1 / |F|)`. -/
theorem C141_chosen_message [Fintype F] [Fintype Ω] [Nonempty Ω] {S : Suite F G R} (hd : S.CodecLaws) (hg : S.GroupLaws)
    (n : ℕ) (x : Ω → F) (B : Spec.Forger Ω F G) :
    let forged : ℚ := Spec.chance fun y : (Ω × (Fin n → F)) × (Fin (n + 1) → F) =>
      B.Wins S n (x y.1.1) y.1.1 (Spec.tape y.1.2) (Spec.tape y.2)
    let e : ℚ := forged - ((n * (n - 1) / 2 : ℕ) : ℚ) / (Fintype.card F : ℚ)
    0 ≤ e → e * (e / ((n + 1 : ℕ) : ℚ) - 1 / (Fintype.card F : ℚ)) ≤
      Spec.chance fun y : (Ω × (Fin n → F)) × (Fin (n + 1) → F) × (Fin (n + 1) → F) =>
        Spec.solveForger S n (fun ω => x ω • S.gen) B y.1.1 y.1.2 y.2.1 y.2.2 = x y.1.1 := by
  classical
  intro forged e he
  have h := C140_forgery hd n (fun y : Ω × (Fin n → F) => x y.1 • S.gen) (B.alone S n fun ω => x ω • S.gen)
  simp only at h
  set t : ℚ := Spec.chance fun y : (Ω × (Fin n → F)) × (Fin (n + 1) → F) => _ with ht
  have hsol : ∀ y : (Ω × (Fin n → F)) × (Fin (n + 1) → F) × (Fin (n + 1) → F),
      (Spec.solveForger S n (fun ω => x ω • S.gen) B y.1.1 y.1.2 y.2.1 y.2.2 = x y.1.1 ↔
        (B.alone S n fun ω => x ω • S.gen).rewind n (Spec.signatureQuestion S fun y => x y.1 • S.gen) Spec.extractKey
          y.1 y.2.1 y.2.2 • S.gen = x y.1.1 • S.gen) := by
    intro y
    exact ⟨fun e => congrArg (· • S.gen) e, fun e => hg.gen_inj _ _ e⟩
  rw [chance_congr hsol]
  -- success with the secret is success alone, except for repeated questions
  have hle : e ≤ t := by
    let φ : (Ω × (Fin n → F)) × (Fin (n + 1) → F) → (Ω × (Fin n → F)) × (Fin (n + 1) → F) :=
      fun y => ((y.1.1, fun i => y.1.2 i + y.2 i.castSucc * x y.1.1), y.2)
    have hφ : Function.Bijective φ := Function.bijective_iff_has_inverse.mpr
      ⟨fun y => ((y.1.1, fun i => y.1.2 i - y.2 i.castSucc * x y.1.1), y.2), fun y => by simp [φ], fun y => by simp [φ]⟩
    rw [ht, ← chance_bijective φ hφ]
    have hor : forged ≤ Spec.chance (fun y : (Ω × (Fin n → F)) × (Fin (n + 1) → F) => ∃ a : Bool, if a then
        (∃ i : Fin n, B.Repeats S (x y.1.1) y.1.1 (Spec.tape y.1.2) (Spec.tape y.2) i) else
        (((B.alone S n fun ω => x ω • S.gen).output n (Spec.signatureQuestion S fun y => x y.1 • S.gen) (φ y).1
          (φ y).2).2.verify (Spec.withTable S ((B.alone S n fun ω => x ω • S.gen).table n
            (Spec.signatureQuestion S fun y => x y.1 • S.gen) (φ y).1 (φ y).2)) (x (φ y).1.1 • S.gen)
          ((B.alone S n fun ω => x ω • S.gen).output n (Spec.signatureQuestion S fun y => x y.1 • S.gen) (φ y).1
            (φ y).2).1 = .ok ())) := by
      refine chance_mono ?_
      rintro ⟨⟨ω, u⟩, h⟩ hw
      by_cases hr : ∃ i : Fin n, B.Repeats S (x ω) ω (Spec.tape u) (Spec.tape h) i
      · exact ⟨true, by simpa using hr⟩
      · refine ⟨false, ?_⟩
        simp only [Bool.false_eq_true, if_false]
        exact B.wins_alone hd hg n x ω u h (fun i hi hc => hr ⟨⟨i, hi⟩, hc⟩) hw
    have := le_trans hor (chance_exists _)
    rw [Fintype.sum_bool] at this
    simp only [if_true, Bool.false_eq_true, if_false] at this
    have h2 := B.repeats_bound hd hg n x
    simp only [e]
    linarith
  by_cases hs : e / ((n + 1 : ℕ) : ℚ) - 1 / (Fintype.card F : ℚ) ≤ 0
  · refine le_trans (mul_nonpos_of_nonneg_of_nonpos he hs) ?_
    unfold Spec.chance
    positivity
  · refine le_trans ?_ h
    have h3 : e / ((n + 1 : ℕ) : ℚ) ≤ t / ((n + 1 : ℕ) : ℚ) := div_le_div_of_nonneg_right hle (by positivity)
    exact mul_le_mul hle (by linarith) (by linarith) (le_trans he hle)

/-- The signatures given out in the game are valid: `verify` accepts each of them, with the answers of the game. -/
theorem C141_given_out (B : Spec.Forger Ω F G) (S : Suite F G R) (x : F) (ω : Ω) (u h : ℕ → F) (n : ℕ) :
    let st := B.play (Spec.Play.sign S x) ω u h n
    ∀ o ∈ st.signed, o.2.verify (Spec.withTable S st.table) (x • S.gen) o.1 = .ok () := by
  intro st o ho
  obtain ⟨c, h1, h2⟩ := B.signed_valid S x ω u h n o ho
  rw [verify_iff]
  unfold Spec.SigValid
  have : Spec.challenge (Spec.withTable S st.table) o.2.groupCommitment (x • S.gen) o.1 = c := by
    show ((st.table.lookup (Spec.challengeQuestion S o.2.groupCommitment (x • S.gen) o.1)).getD _) = c
    rw [h1, Option.getD_some]
  rw [this]
  exact h2

/-- The group secret, from the polynomial `w` of dealer `l` and those of the other dealers. -/
def Spec.secretOfView (D : List U32) (l : U32) (others : U32 → List F) {t : ℕ} (w : Fin t → F) : F :=
  Spec.lagrange D l * Spec.polyEval (List.ofFn w) 0 + Spec.othersSecret D l others

/-- The solver for colluding participants: given a point `P`, it plays dealer `l` with the public key `P` and later the
signers towards the forger, rewinds it and computes a logarithm of `P`. -/
noncomputable def Spec.solveColluders (S : Suite F G R) (D : List U32) (l : U32) (J : List U32)
    (others : Ω × (List G × ({j // j ∈ J} → F)) → U32 → List F) (t n : ℕ) (B : Spec.Forger (Ω × (List G × ({j // j ∈ J} → F))) F G) (P : G) (ω : Ω) (y : {j // j ∈ J} → F)
    (u : Fin n → F) (h h' : Fin (n + 1) → F) : F :=
  (Spec.lagrange D l)⁻¹ * (Spec.solveForger S n (fun x => Spec.keyOfView S D l (others x) x.2) B
    (ω, Spec.simulatedDealerView S J t P y) u h h' -
      Spec.othersSecret D l (others (ω, Spec.simulatedDealerView S J t P y)))

/-- C141: the same for `t - 1` participants of a key generation with one honest dealer `l`, as in C140, who also obtain
signatures of the group on messages of their choice, and who choose the polynomials of all other dealers after seeing
their part of the polynomial of `l`: if they forge another signature with chance `ε`, they compute
discrete logarithms of random points. -/
theorem C141_below_threshold [Fintype F] [Fintype Ω] [Nonempty Ω] {S : Suite F G R} (hS : S.Lawful) (D : List U32)
    (h0 : 0 ∉ D) (l : U32) (J : List U32) (hJ : J.Nodup) (hJ0 : 0 ∉ J) (t : ℕ) (ht : J.length + 1 = t)
    (others : Ω × (List G × ({j // j ∈ J} → F)) → U32 → List F) (n : ℕ) (B : Spec.Forger (Ω × (List G × ({j // j ∈ J} → F))) F G) :
    let forged : ℚ := Spec.chance fun x : ((Ω × (Fin t → F)) × (Fin n → F)) × (Fin (n + 1) → F) =>
      let y := (x.1.1.1, Spec.dealerView S J l x.1.1.2)
      B.Wins S n (Spec.secretOfView D l (others y) x.1.1.2) y (Spec.tape x.1.2) (Spec.tape x.2)
    let e : ℚ := forged - ((n * (n - 1) / 2 : ℕ) : ℚ) / (Fintype.card F : ℚ)
    0 ≤ e → e * (e / ((n + 1 : ℕ) : ℚ) - 1 / (Fintype.card F : ℚ)) ≤
      Spec.chance fun x : ((Ω × (F × ({j // j ∈ J} → F))) × (Fin n → F)) × (Fin (n + 1) → F) × (Fin (n + 1) → F) =>
        Spec.solveColluders S D l J others t n B (x.1.1.2.1 • S.gen) x.1.1.1 x.1.1.2.2 x.1.2 x.2.1 x.2.2 =
          x.1.1.2.1 := by
  intro forged e he
  let view : Ω × (Fin t → F) → Ω × (List G × ({j // j ∈ J} → F)) := fun x => (x.1, Spec.dealerView S J l x.2)
  let B' : Spec.Forger (Ω × (Fin t → F)) F G := ⟨fun x => B.move (view x), fun x => B.result (view x)⟩
  have hplay : ∀ signing x (u h : ℕ → F) k, B'.play signing x u h k = B.play signing (view x) u h k := by
    intro signing x u h k
    induction k with
    | zero => rfl
    | succ k ih => rw [Spec.Forger.play_succ, Spec.Forger.play_succ, ih]
  have h := C141_chosen_message hS.codec hS.group n (fun x : Ω × (Fin t → F) => Spec.secretOfView D l (others (view x)) x.2) B'
  have hw : (Spec.chance fun y : ((Ω × (Fin t → F)) × (Fin n → F)) × (Fin (n + 1) → F) =>
      B'.Wins S n (Spec.secretOfView D l (others (view y.1.1)) y.1.1.2) y.1.1 (Spec.tape y.1.2) (Spec.tape y.2)) = forged := by
    refine chance_congr fun y => ?_
    unfold Spec.Forger.Wins
    simp only [hplay]
    rfl
  simp only at h
  rw [hw] at h
  refine le_trans (h he) ?_
  have hbij := secretAndValues_bijective hS.u32 J hJ hJ0 t ht
  let φ : ((Ω × (Fin t → F)) × (Fin n → F)) × (Fin (n + 1) → F) × (Fin (n + 1) → F) →
      ((Ω × (F × ({j // j ∈ J} → F))) × (Fin n → F)) × (Fin (n + 1) → F) × (Fin (n + 1) → F) :=
    Prod.map (Prod.map (Prod.map id (Spec.secretAndValues J)) id) id
  have hφ : Function.Bijective φ :=
    ((Function.bijective_id.prodMap hbij).prodMap Function.bijective_id).prodMap Function.bijective_id
  rw [← chance_bijective φ hφ]
  refine chance_mono ?_
  rintro ⟨⟨⟨ω, w⟩, u⟩, h1, h2⟩ hx
  have hne : (Spec.lagrange D l : F) ≠ 0 := lagrange_ne_zero hS.u32 D h0 l
  have hkey : ∀ x : Ω × (Fin t → F), Spec.secretOfView D l (others (view x)) x.2 • S.gen =
      Spec.keyOfView S D l (others (view x)) (view x).2 := fun x => (keyOfView_eq S D l _ J t ht x.2).symm
  have hk1 : Spec.secretOfView D l (others (view (ω, w))) w • S.gen = Spec.keyOfView S D l (others (view (ω, w))) (view (ω, w)).2 := hkey (ω, w)
  -- the attackers made from `B` and from `B'` are the same
  have hask : ∀ ω' u' answers, (B'.alone S n fun x => Spec.secretOfView D l (others (view x)) x.2 • S.gen).ask (ω', u') answers =
      (B.alone S n fun x => Spec.keyOfView S D l (others x) x.2).ask (view ω', u') answers := by
    intro ω' u' answers
    unfold Spec.Forger.alone
    simp only [hplay, hkey]
    rfl
  have hres : ∀ ω' u' answers, (B'.alone S n fun x => Spec.secretOfView D l (others (view x)) x.2 • S.gen).result (ω', u') answers =
      (B.alone S n fun x => Spec.keyOfView S D l (others x) x.2).result (view ω', u') answers := by
    intro ω' u' answers
    unfold Spec.Forger.alone
    simp only [hplay, hkey]
    rfl
  have hsol : Spec.solveForger S n (fun x => Spec.secretOfView D l (others (view x)) x.2 • S.gen) B' (ω, w) u h1 h2 =
      Spec.solveForger S n (fun x => Spec.keyOfView S D l (others x) x.2) B (view (ω, w)) u h1 h2 := by
    unfold Spec.solveForger Spec.Attacker.rewind Spec.Attacker.critical Spec.Attacker.challenge Spec.Attacker.output
      Spec.Attacker.table
    have hq : (B'.alone S n fun x => Spec.secretOfView D l (others (view x)) x.2 • S.gen).questions n
        (Spec.signatureQuestion S fun y => Spec.secretOfView D l (others (view y.1)) y.1.2 • S.gen) ((ω, w), u) =
        (B.alone S n fun x => Spec.keyOfView S D l (others x) x.2).questions n
          (Spec.signatureQuestion S fun y => Spec.keyOfView S D l (others y.1) y.1.2) (view (ω, w), u) := by
      funext answers
      unfold Spec.Attacker.questions
      rw [hask, hres]
      unfold Spec.signatureQuestion
      simp only [hk1]
    have hf : ∀ o, Spec.signatureQuestion S (fun y : (Ω × (Fin t → F)) × (Fin n → F) =>
        Spec.secretOfView D l (others (view y.1)) y.1.2 • S.gen) ((ω, w), u) o =
        Spec.signatureQuestion S (fun y : (Ω × (List G × ({j // j ∈ J} → F))) × (Fin n → F) =>
          Spec.keyOfView S D l (others y.1) y.1.2) (view (ω, w), u) o := by
      intro o
      unfold Spec.signatureQuestion
      simp only [hk1]
    simp only [hq, hf, hres]
  have hx' : Spec.solveForger S n (fun x => Spec.secretOfView D l (others (view x)) x.2 • S.gen) B' (ω, w) u h1 h2 =
      Spec.secretOfView D l (others (view (ω, w))) w := hx
  show Spec.solveColluders S D l J others t n B (Spec.polyEval (List.ofFn w) 0 • S.gen) ω
    (fun j : {j // j ∈ J} => Spec.polyEval (List.ofFn w) (j.1.toNat : F)) u h1 h2 = Spec.polyEval (List.ofFn w) 0
  unfold Spec.solveColluders
  rw [simulatedDealerView_eq hS.u32 S J hJ hJ0 t ht l w,
    show Spec.solveForger S n (fun x => Spec.keyOfView S D l (others x) x.2) B (ω, Spec.dealerView S J l w) u h1 h2 = _ from
      hsol.symm.trans hx']
  unfold Spec.secretOfView
  rw [add_sub_cancel_right, inv_mul_cancel_left₀ hne]

/-! ### A concrete forger -/

section Examples
open Toy

/-- A forger that knows the secret: it lets the group sign `[7]`, asks for the challenge of a nonce of its own, and
signs `[1, 2]` itself. -/
def counterfeiter {Ω : Type} (x : Ω → Fp) : Spec.Forger Ω Fp Fp where
  move ω replies := match replies with
    | [] => .sign [7]
    | _ => .field (suite.contextString ++ strBytes "challenge")
      (suite.encG ((5 : Fp) • suite.gen) ++ suite.encG (x ω • suite.gen) ++ [1, 2])
  result ω replies := match replies with
    | [_, .answer c] => ([1, 2], ⟨(5 : Fp) • suite.gen, 5 + c * x ω⟩)
    | _ => ([], ⟨0, 0⟩)

theorem counterfeiter_wins {Ω : Type} (x : Ω → Fp) (ω : Ω) (u h : ℕ → Fp) :
    (counterfeiter x).Wins suite 2 (x ω) ω u h := by
  set b1 := Spec.challengeQuestion suite ((5 : Fp) • suite.gen) (x ω • suite.gen) [1, 2] with hb1
  set b0 := Spec.challengeQuestion suite (u 0 • suite.gen) (x ω • suite.gen) [7] with hb0
  have hne : b1 ≠ b0 := by
    intro he
    have he' : suite.encG ((5 : Fp) • suite.gen) ++ suite.encG (x ω • suite.gen) ++ [1, 2] =
        suite.encG (u 0 • suite.gen) ++ suite.encG (x ω • suite.gen) ++ [7] := by
      injection he
    rw [List.append_assoc, List.append_assoc] at he'
    obtain ⟨-, he'⟩ := codec_laws.encG_append_inj he'
    obtain ⟨-, he'⟩ := codec_laws.encG_append_inj he'
    cases he'
  have h1 : (counterfeiter x).play (Spec.Play.sign suite (x ω)) ω u h 1 =
      ⟨[(b0, h 0)], [.signature ⟨u 0 • suite.gen, u 0 + h 0 * x ω⟩], [([7], ⟨u 0 • suite.gen, u 0 + h 0 * x ω⟩)]⟩ := by
    rw [Spec.Forger.play_succ]
    show Spec.Play.sign suite (x ω) ⟨[], [], []⟩ [7] (u 0) (h 0) = _
    rw [play_sign]
    rfl
  have h2 : (counterfeiter x).play (Spec.Play.sign suite (x ω)) ω u h 2 =
      ⟨[(b0, h 0), (b1, h 1)], [.signature ⟨u 0 • suite.gen, u 0 + h 0 * x ω⟩, .answer (h 1)],
        [([7], ⟨u 0 • suite.gen, u 0 + h 0 * x ω⟩)]⟩ := by
    rw [Spec.Forger.play_succ, h1]
    show Spec.Play.hash _ b1 (h 1) = _
    unfold Spec.Play.hash
    have : List.lookup b1 [(b0, h 0)] = none := lookup_none (by simpa using hne)
    simp only
    rw [this]
    rfl
  unfold Spec.Forger.Wins
  rw [h2]
  refine ⟨?_, ?_⟩
  · rw [verify_iff]
    have : List.lookup b1 ([(b0, h 0), (b1, h 1)] ++ [(b1, (List.lookup b1 [(b0, h 0), (b1, h 1)]).getD (h 2))]) =
        some (h 1) := by
      rw [show [(b0, h 0), (b1, h 1)] = [(b0, h 0)] ++ [(b1, h 1)] from rfl, List.append_assoc,
        lookup_append_right (by simpa using hne)]
      simp
    show (5 + h 1 * x ω) • suite.gen = (5 : Fp) • suite.gen + (List.lookup b1
      ([(b0, h 0), (b1, h 1)] ++ [(b1, (List.lookup b1 [(b0, h 0), (b1, h 1)]).getD (h 2))])).getD _ • (x ω • suite.gen)
    rw [this, Option.getD_some, add_smul, mul_smul]
  · rw [List.mem_singleton]
    intro hc
    have := congrArg Prod.fst hc
    cases this

example (u h : ℕ → Fp) :
    let st := (counterfeiter fun _ : Unit => (9 : Fp)).play (Spec.Play.sign suite 9) () u h 2
    ∀ o ∈ st.signed, o.2.verify (Spec.withTable suite st.table) ((9 : Fp) • suite.gen) o.1 = .ok () :=
  C141_given_out _ suite 9 () u h 2

/-- Rewinding it yields the key with the chance of the theorem. -/
example [Fintype Fp] :
    let e : ℚ := 1 - ((1 : ℕ) : ℚ) / (Fintype.card Fp : ℚ)
    e * (e / ((2 + 1 : ℕ) : ℚ) - 1 / (Fintype.card Fp : ℚ)) ≤
      Spec.chance fun y : (Fin 4 × (Fin 2 → Fp)) × (Fin (2 + 1) → Fp) × (Fin (2 + 1) → Fp) =>
        Spec.solveForger suite 2 (fun ω : Fin 4 => (ω.1 : Fp) • suite.gen) (counterfeiter fun ω => (ω.1 : Fp)) y.1.1 y.1.2
          y.2.1 y.2.2 = (y.1.1.1 : Fp) := by
  intro e
  have h := C141_chosen_message (Ω := Fin 4) codec_laws group_laws 2 (fun ω => (ω.1 : Fp)) (counterfeiter fun ω => (ω.1 : Fp))
  have h1 := chance_one (A := (Fin 4 × (Fin 2 → Fp)) × (Fin (2 + 1) → Fp)) fun y =>
    counterfeiter_wins (fun ω : Fin 4 => (ω.1 : Fp)) y.1.1 (Spec.tape y.1.2) (Spec.tape y.2)
  simp only at h
  rw [h1] at h
  refine h ?_
  have hbig : 1 < Fintype.card Fp := Fintype.one_lt_card
  have : (1 : ℚ) ≤ (Fintype.card Fp : ℚ) := by exact_mod_cast hbig.le
  rw [sub_nonneg, div_le_one (by linarith)]
  exact_mod_cast hbig.le

/-- Colluders who read the group secret off the commitments, which is easy in the toy group. -/
def colluderSecret (x : Unit × (List Fp × ({j // j ∈ colluders} → Fp))) : Fp :=
  Spec.keyOfView suite [1, 2, 3] 1 (colluderOthers x) x.2

theorem colluderSecret_eq (w : Fin 3 → Fp) :
    colluderSecret ((), Spec.dealerView suite colluders 1 w) =
      Spec.secretOfView [1, 2, 3] 1 (colluderOthers ((), Spec.dealerView suite colluders 1 w)) w := by
  unfold colluderSecret
  rw [keyOfView_eq suite [1, 2, 3] 1 _ colluders 3 rfl w, smul_gen]
  rfl

example [Fintype Fp] :
    let e : ℚ := 1 - ((1 : ℕ) : ℚ) / (Fintype.card Fp : ℚ)
    e * (e / ((2 + 1 : ℕ) : ℚ) - 1 / (Fintype.card Fp : ℚ)) ≤
      Spec.chance fun x : ((Unit × (Fp × ({j // j ∈ colluders} → Fp))) × (Fin 2 → Fp)) × (Fin (2 + 1) → Fp) ×
          (Fin (2 + 1) → Fp) =>
        Spec.solveColluders suite [1, 2, 3] 1 colluders colluderOthers 3 2 (counterfeiter colluderSecret)
          (x.1.1.2.1 • suite.gen) x.1.1.1 x.1.1.2.2 x.1.2 x.2.1 x.2.2 = x.1.1.2.1 := by
  intro e
  have h := C141_below_threshold (Ω := Unit) lawful [1, 2, 3] (by decide) 1 colluders (by decide) (by decide) 3 rfl
    colluderOthers 2 (counterfeiter colluderSecret)
  have h1 := chance_one (A := ((Unit × (Fin 3 → Fp)) × (Fin 2 → Fp)) × (Fin (2 + 1) → Fp)) fun y => by
    have := counterfeiter_wins colluderSecret (y.1.1.1, Spec.dealerView suite colluders 1 y.1.1.2) (Spec.tape y.1.2)
      (Spec.tape y.2)
    rw [show (y.1.1.1, Spec.dealerView suite colluders 1 y.1.1.2) = ((), Spec.dealerView suite colluders 1 y.1.1.2) from rfl,
      colluderSecret_eq] at this
    exact this
  simp only at h
  rw [h1] at h
  refine h ?_
  have hbig : 1 < Fintype.card Fp := Fintype.one_lt_card
  have : (1 : ℚ) ≤ (Fintype.card Fp : ℚ) := by exact_mod_cast hbig.le
  rw [sub_nonneg, div_le_one (by linarith)]
  exact_mod_cast hbig.le

end Examples
end IceFrost
