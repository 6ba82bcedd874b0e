import Verif.Props.ChosenMessage
import Verif.Props.NonInterference

/-!
# C143: forging while taking part in signing sessions

The forking argument for forgers who run any number of signing sessions with the honest signers at the same time, under
the assumption for which FROST was proposed: one more discrete logarithm is hard to find.
-/

set_option linter.unusedSectionVars false
set_option linter.unusedSimpArgs false
set_option linter.unusedVariables false

namespace IceFrost

open Finset

/-! ### Programs that ask questions -/

/-- A program that may ask questions `Q`, gets answers `A`, and ends with a result. -/
inductive Spec.Program (Q A X : Type)
  | done (x : X)
  | ask (q : Q) (next : A → Spec.Program Q A X)

namespace Spec.Program

variable {Q A X Z Q' A' : Type}

/-- One program after the other. -/
def andThen : Spec.Program Q A X → (X → Spec.Program Q A Z) → Spec.Program Q A Z
  | done x, f => f x
  | ask q next, f => ask q fun a => (next a).andThen f

/-- The result, if questions are answered by `f`. -/
def run (f : Q → A) : Spec.Program Q A X → X
  | done x => x
  | ask q next => (next (f q)).run f

/-- The questions asked, if questions are answered by `f`. -/
def questions (f : Q → A) : Spec.Program Q A X → List Q
  | done _ => []
  | ask q next => q :: (next (f q)).questions f

/-- The program in which every question is replaced by a program that finds the answer. -/
def translate (t : Q → Spec.Program Q' A' A) : Spec.Program Q A X → Spec.Program Q' A' X
  | done x => done x
  | ask q next => (t q).andThen fun a => (next a).translate t

/-- The same program for every element of a list. -/
def each {Y : Type} (f : Y → Spec.Program Q A X) : List Y → Spec.Program Q A (List X)
  | [] => done []
  | y :: l => (f y).andThen fun x => (each f l).andThen fun xs => done (x :: xs)

theorem run_andThen (f : Q → A) (p : Spec.Program Q A X) (g : X → Spec.Program Q A Z) :
    (p.andThen g).run f = (g (p.run f)).run f := by
  induction p with
  | done x => rfl
  | ask q next ih => exact ih _

theorem questions_andThen (f : Q → A) (p : Spec.Program Q A X) (g : X → Spec.Program Q A Z) :
    (p.andThen g).questions f = p.questions f ++ (g (p.run f)).questions f := by
  induction p with
  | done x => rfl
  | ask q next ih => exact congrArg (q :: ·) (ih _)

theorem run_translate (f : Q' → A') (t : Q → Spec.Program Q' A' A) (p : Spec.Program Q A X) :
    (p.translate t).run f = p.run fun q => (t q).run f := by
  induction p with
  | done x => rfl
  | ask q next ih =>
    show ((t q).andThen fun a => (next a).translate t).run f = _
    rw [run_andThen, ih]
    rfl

theorem questions_translate (f : Q' → A') (t : Q → Spec.Program Q' A' A) (p : Spec.Program Q A X) :
    ((p.translate t).questions f).length =
      ((p.questions fun q => (t q).run f).map fun q => ((t q).questions f).length).sum := by
  induction p with
  | done x => rfl
  | ask q next ih =>
    show (((t q).andThen fun a => (next a).translate t).questions f).length = _
    rw [questions_andThen, List.length_append, ih]
    rfl

theorem run_each {Y : Type} (f : Q → A) (g : Y → Spec.Program Q A X) (l : List Y) :
    (each g l).run f = l.map fun y => (g y).run f := by
  induction l with
  | nil => rfl
  | cons y l ih =>
    show ((g y).andThen fun x => (each g l).andThen fun xs => done (x :: xs)).run f = _
    rw [run_andThen, run_andThen, ih]
    rfl

theorem questions_each {Y : Type} (f : Q → A) (g : Y → Spec.Program Q A X) (l : List Y) :
    ((each g l).questions f).length = (l.map fun y => ((g y).questions f).length).sum := by
  induction l with
  | nil => rfl
  | cons y l ih =>
    show (((g y).andThen fun x => (each g l).andThen fun xs => done (x :: xs)).questions f).length = _
    rw [questions_andThen, questions_andThen, List.length_append, List.length_append, ih]
    simp [questions]

end Spec.Program

/-! ### The game -/

/-- A move of somebody who takes part in signing sessions. -/
inductive Spec.Action (G : Type)
  /-- a question to a hash function, other than for binding factors -/
  | hash (b : Spec.Question)
  /-- the binding factors and the challenge for a message and a list of signers -/
  | factors (msg : Bytes) (signers : List (Signer G))
  /-- the honest signer `i` makes a nonce pair and publishes its commitments -/
  | announce (i : U32)
  /-- the honest signer `i` signs with its nonce pair number `k` -/
  | sign (i : U32) (k : UInt64) (msg : Bytes) (signers : List (Signer G))

/-- What comes back. -/
inductive Spec.Feedback (F G : Type)
  | answer (c : F)
  | factors (ρ : List F) (c : F)
  | commitments (P : G × G)
  | response (z : Res F G F)

/-- A program with coins `Ω` that takes part in signing sessions and then returns a message with a signature. -/
structure Spec.Insider (Ω F G : Type) where
  /-- the next move, given everything that came back so far -/
  move : Ω → List (Spec.Feedback F G) → Spec.Action G
  /-- the result -/
  result : Ω → List (Spec.Feedback F G) → Bytes × ThresholdSignature F G

/-- What everybody can see of the game so far. -/
structure Spec.Board (F G : Type) where
  /-- the questions to the hash functions and their answers -/
  table : List (Spec.Question × F)
  /-- what came back from the moves -/
  replies : List (Spec.Feedback F G)
  /-- the messages signed by honest signers -/
  signed : List Bytes
  /-- for every move the message and the list of signers it names -/
  named : List (Option (Bytes × List (Signer G)))
  /-- for every move the question it asks, other than for binding factors -/
  asked : List (Option Spec.Question)

variable {F G R : Type} [Field F] [DecidableEq F] [AddCommGroup G] [Module F G] [DecidableEq G]
variable {Ω : Type}

/-- The question for a binding factor. -/
def Spec.factorQuestion (S : Suite F G R) (msg : Bytes) (signers : List (Signer G)) (i : U32) : Spec.Question :=
  .field (S.contextString ++ strBytes "rho") (Spec.rhoInput S msg signers i)

/-- Whether a question is for a binding factor. -/
def Spec.Question.isFactor (S : Suite F G R) : Spec.Question → Bool
  | .field dst _ => decide (dst = S.contextString ++ strBytes "rho")
  | _ => false

namespace Spec.Board

/-- A hash question gets the answer in the table, or the fresh scalar `c` if it is new. -/
def hash (S : Suite F G R) (st : Spec.Board F G) (b : Spec.Question) (c : F) : Spec.Board F G :=
  if b.isFactor S then
    { st with replies := st.replies ++ [.answer 0], named := st.named ++ [none], asked := st.asked ++ [none] }
  else
    let a := (st.table.lookup b).getD c
    { st with table := st.table ++ [(b, a)], replies := st.replies ++ [.answer a], named := st.named ++ [none],
              asked := st.asked ++ [some b] }

/-- The table with the binding factors of a list of signers. -/
def withFactors (S : Suite F G R) (T : List (Spec.Question × F)) (msg : Bytes) (signers : List (Signer G)) (r : U32 → F) :
    List (Spec.Question × F) :=
  T ++ signers.map fun s => (Spec.factorQuestion S msg signers s.participantIndex,
    (T.lookup (Spec.factorQuestion S msg signers s.participantIndex)).getD (r s.participantIndex))

/-- A message and a list of signers are named: all binding factors are asked for, then the challenge. Fresh answers are
`r` and `c`. -/
def name (S : Suite F G R) (Y : G) (st : Spec.Board F G) (msg : Bytes) (signers : List (Signer G)) (c : F) (r : U32 → F) :
    Spec.Board F G :=
  let T := withFactors S st.table msg signers r
  let b := Spec.challengeQuestion S (Spec.groupCommitment (Spec.withTable S T) msg signers) Y msg
  { st with table := T ++ [(b, (T.lookup b).getD c)], named := st.named ++ [some (msg, signers)],
            asked := st.asked ++ [some b] }

/-- Something comes back. -/
def reply (st : Spec.Board F G) (a : Spec.Feedback F G) : Spec.Board F G := { st with replies := st.replies ++ [a] }

/-- A move without questions. -/
def pass (st : Spec.Board F G) : Spec.Board F G := { st with named := st.named ++ [none], asked := st.asked ++ [none] }

/-- What comes back for `factors`. -/
def factorsOf (S : Suite F G R) (Y : G) (st : Spec.Board F G) (msg : Bytes) (signers : List (Signer G)) :
    Spec.Feedback F G :=
  .factors (signers.map fun s => Spec.rho (Spec.withTable S st.table) msg signers s.participantIndex)
    (Spec.sessionChallenge (Spec.withTable S st.table) Y msg signers)

end Spec.Board

/-- A nonce pair with its commitments. -/
def Spec.pairOf (S : Suite F G R) (u : F × F) : CommitmentShare F G := ⟨⟨u.1, u.1 • S.gen⟩, ⟨u.2, u.2 • S.gen⟩⟩

/-- One move of the game: the honest signers `H` have the keys `key` and keep their nonce pairs in lists; they use
`IndividualSigningKey::sign`. Fresh answers of the hashes are `c` and `r`, a fresh nonce pair is `u`. -/
def Spec.gameStep (S : Suite F G R) (dbg : Bool) (H : List U32) (key : U32 → F) (Y : G) (mv : Spec.Action G)
    (st : Spec.Board F G × (U32 → List (CommitmentShare F G))) (c : F) (r : U32 → F) (u : F × F) :
    Spec.Board F G × (U32 → List (CommitmentShare F G)) :=
  match mv with
  | .hash b => (st.1.hash S b c, st.2)
  | .factors msg signers =>
    let b := st.1.name S Y msg signers c r
    (b.reply (b.factorsOf S Y msg signers), st.2)
  | .announce i =>
    (st.1.pass.reply (.commitments (u.1 • S.gen, u.2 • S.gen)), Function.update st.2 i (st.2 i ++ [Spec.pairOf S u]))
  | .sign i k msg signers =>
    if i ∈ H then
      let b := st.1.name S Y msg signers c r
      let out := IceFrost.sign (Spec.withTable S b.table) dbg ⟨i, key i⟩ msg Y (st.2 i) k signers
      let b := b.reply (.response (out.1.map (·.z)))
      (if out.1.isOk then { b with signed := b.signed ++ [msg] } else b, Function.update st.2 i out.2)
    else (st.1.pass.reply (.answer 0), st.2)

namespace Spec.Insider

variable (B : Spec.Insider Ω F G)

/-- The first `k` moves of the game. -/
def play (S : Suite F G R) (dbg : Bool) (H : List U32) (key : U32 → F) (Y : G) (ω : Ω) (c : ℕ → F) (r : ℕ → U32 → F)
    (u : ℕ → F × F) : ℕ → Spec.Board F G × (U32 → List (CommitmentShare F G))
  | 0 => (⟨[], [], [], [], []⟩, fun _ => [])
  | k + 1 =>
    let st := play S dbg H key Y ω c r u k
    Spec.gameStep S dbg H key Y (B.move ω st.1.replies) st (c k) (r k) (u k)

end Spec.Insider

/-- No two different messages or lists in the game have the same digests. -/
def Spec.Board.NoCollision (S : Suite F G R) (st : Spec.Board F G) : Prop :=
  ∀ m B m' B' i, some (m, B) ∈ st.named → some (m', B') ∈ st.named →
    Spec.rhoInput S m B i = Spec.rhoInput S m' B' i → m = m' ∧ B = B'

/-- The question for the challenge of a result. -/
def Spec.resultQuestion (S : Suite F G R) (Y : G) (o : Bytes × ThresholdSignature F G) : Spec.Question :=
  Spec.challengeQuestion S o.2.groupCommitment Y o.1

/-- Success at the end of the game: `verify` accepts the result, where a new question of `verify` is answered by `c`, no
honest signer has signed the message, and no digests collided. -/
def Spec.Board.Forged (S : Suite F G R) (Y : G) (st : Spec.Board F G) (o : Bytes × ThresholdSignature F G) (c : F) : Prop :=
  let b := Spec.resultQuestion S Y o
  o.2.verify (Spec.withTable S (st.table ++ [(b, (st.table.lookup b).getD c)])) Y o.1 = .ok () ∧ o.1 ∉ st.signed ∧
    st.NoCollision S

/-! ### The game without secrets

The same game for somebody who has only public keys and commitments, and asks for the responses of the honest signers. -/

/-- A request for a response: `d + ρ e + w k` for the nonce pair `(d, e)` number `pair`, the binding factor `ρ`, the weight
`w` (Lagrange coefficient times challenge) and the key `k` of the signer. -/
structure Spec.Request (F G : Type) where
  pair : ℕ
  signer : U32
  msg : Bytes
  signers : List (Signer G)
  factor : F
  weight : F
  deriving DecidableEq

/-- The state of the game without secrets: nonce pairs are kept as the number of the move that made them. -/
structure Spec.Ledger (F G : Type) where
  board : Spec.Board F G
  pairs : U32 → List ℕ
  /-- requests and responses so far -/
  uses : List (Spec.Request F G × F)

/-- Removes the last element with a property. -/
def Spec.takeLast (p : ℕ → Bool) : List ℕ → Option (ℕ × List ℕ)
  | [] => none
  | a :: l => match Spec.takeLast p l with
    | some (b, l') => some (b, a :: l')
    | none => if p a then some (a, l) else none

/-- The request for a response under the answers of a table. -/
def Spec.requestOf (S : Suite F G R) (Y : G) (T : List (Spec.Question × F)) (a : ℕ) (i : U32) (msg : Bytes)
    (signers : List (Signer G)) : Spec.Request F G :=
  ⟨a, i, msg, signers, Spec.rho (Spec.withTable S T) msg signers i,
    Spec.lagrange (signers.map (·.participantIndex)) i * Spec.sessionChallenge (Spec.withTable S T) Y msg signers⟩

/-- The state after a response. -/
def Spec.Ledger.use (st : Spec.Ledger F G) (b : Spec.Board F G) (q : Spec.Request F G) (l : List ℕ) (z : F) :
    Spec.Ledger F G :=
  let b := b.reply (.response (.ok z))
  ⟨{ b with signed := b.signed ++ [q.msg] }, Function.update st.pairs q.signer l, st.uses ++ [(q, z)]⟩

/-- Move number `n` of the game without secrets; `pts` are the commitments of the nonce pairs. Whether `sign` fails does
not depend on secrets, so it is found out with zeros in their place. -/
def Spec.ledgerStep (S : Suite F G R) (dbg : Bool) (H : List U32) (pts : ℕ → G × G) (Y : G) (mv : Spec.Action G)
    (st : Spec.Ledger F G) (n : ℕ) (c : F) (r : U32 → F) : Spec.Program (Spec.Request F G) F (Spec.Ledger F G) :=
  match mv with
  | .hash b => .done { st with board := st.board.hash S b c }
  | .factors msg signers =>
    let b := st.board.name S Y msg signers c r
    .done { st with board := b.reply (b.factorsOf S Y msg signers) }
  | .announce i =>
    .done { st with board := st.board.pass.reply (.commitments (pts n)),
                    pairs := Function.update st.pairs i (st.pairs i ++ [n]) }
  | .sign i k msg signers =>
    if i ∈ H then
      let b := st.board.name S Y msg signers c r
      match (IceFrost.sign (Spec.withTable S b.table) dbg ⟨i, 0⟩ msg Y ((st.pairs i).map fun _ => Spec.pairOf S 0) k
          signers).1 with
      | .error e => .done { st with board := b.reply (.response (.error e)) }
      | .ok _ =>
        match Spec.takeLast (fun a => decide (pts a = pts ((st.pairs i).getD k.toNat 0))) (st.pairs i) with
        | none => .done { st with board := b.reply (.answer 0) }
        | some (a, l) => .ask (Spec.requestOf S Y b.table a i msg signers) fun z =>
            .done (st.use b (Spec.requestOf S Y b.table a i msg signers) l z)
    else .done { st with board := st.board.pass.reply (.answer 0) }

namespace Spec.Insider

variable (B : Spec.Insider Ω F G)

/-- The first `k` moves of the game without secrets. -/
def ledger (S : Suite F G R) (dbg : Bool) (H : List U32) (pts : ℕ → G × G) (Y : G) (ω : Ω) (c : ℕ → F) (r : ℕ → U32 → F) :
    ℕ → Spec.Program (Spec.Request F G) F (Spec.Ledger F G)
  | 0 => .done ⟨⟨[], [], [], [], []⟩, fun _ => [], []⟩
  | k + 1 => (ledger S dbg H pts Y ω c r k).andThen fun st =>
    Spec.ledgerStep S dbg H pts Y (B.move ω st.board.replies) st k (c k) (r k)

theorem ledger_succ (S : Suite F G R) (dbg : Bool) (H : List U32) (pts : ℕ → G × G) (Y : G) (ω : Ω) (c : ℕ → F)
    (r : ℕ → U32 → F) (f : Spec.Request F G → F) (k : ℕ) :
    (B.ledger S dbg H pts Y ω c r (k + 1)).run f =
      (Spec.ledgerStep S dbg H pts Y (B.move ω ((B.ledger S dbg H pts Y ω c r k).run f).board.replies)
        ((B.ledger S dbg H pts Y ω c r k).run f) k (c k) (r k)).run f :=
  Spec.Program.run_andThen _ _ _

theorem play_succ (S : Suite F G R) (dbg : Bool) (H : List U32) (key : U32 → F) (Y : G) (ω : Ω) (c : ℕ → F)
    (r : ℕ → U32 → F) (u : ℕ → F × F) (k : ℕ) :
    B.play S dbg H key Y ω c r u (k + 1) =
      Spec.gameStep S dbg H key Y (B.move ω (B.play S dbg H key Y ω c r u k).1.replies)
        (B.play S dbg H key Y ω c r u k) (c k) (r k) (u k) := rfl

end Spec.Insider

/-- The response to a request. -/
def Spec.respond (key : U32 → F) (u : ℕ → F × F) (q : Spec.Request F G) : F :=
  (u q.pair).1 + (u q.pair).2 * q.factor + q.weight * key q.signer

/-- The commitments of nonce pairs. -/
def Spec.commitTo (S : Suite F G R) (u : F × F) : G × G := (u.1 • S.gen, u.2 • S.gen)

theorem takeLast_some (p : ℕ → Bool) (l : List ℕ) (b : ℕ) (l' : List ℕ) (h : Spec.takeLast p l = some (b, l')) :
    ∃ pre post, l = pre ++ b :: post ∧ l' = pre ++ post ∧ p b = true ∧ ∀ x ∈ post, p x = false := by
  induction l generalizing l' with
  | nil => cases h
  | cons a l ih =>
    unfold Spec.takeLast at h
    cases hl : Spec.takeLast p l with
    | some v =>
      obtain ⟨b', l''⟩ := v
      rw [hl] at h
      simp only [Option.some.injEq, Prod.mk.injEq] at h
      obtain ⟨rfl, rfl⟩ := h
      obtain ⟨pre, post, h1, h2, h3, h4⟩ := ih l'' hl
      exact ⟨a :: pre, post, by rw [h1]; rfl, by rw [h2]; rfl, h3, h4⟩
    | none =>
      rw [hl] at h
      simp only at h
      split at h
      · next hp =>
        simp only [Option.some.injEq, Prod.mk.injEq] at h
        obtain ⟨rfl, rfl⟩ := h
        refine ⟨[], l, rfl, rfl, hp, ?_⟩
        clear ih
        induction l with
        | nil => intro x hx; cases hx
        | cons y l ih2 =>
          unfold Spec.takeLast at hl
          cases hl2 : Spec.takeLast p l with
          | some v => rw [hl2] at hl; cases hl
          | none =>
            rw [hl2] at hl
            simp only at hl
            split at hl
            · cases hl
            · next hy =>
              intro x hx
              rcases List.mem_cons.mp hx with rfl | hx
              · simpa using hy
              · exact ih2 hl2 x hx
      · cases h

theorem takeLast_exists (p : ℕ → Bool) (l : List ℕ) (h : ∃ x ∈ l, p x = true) : ∃ v, Spec.takeLast p l = some v := by
  induction l with
  | nil => simp at h
  | cons a l ih =>
    unfold Spec.takeLast
    cases hl : Spec.takeLast p l with
    | some v => exact ⟨_, rfl⟩
    | none =>
      obtain ⟨x, hx, hp⟩ := h
      rcases List.mem_cons.mp hx with rfl | hx
      · exact ⟨(x, l), by simp only [hp, if_true]⟩
      · obtain ⟨v, hv⟩ := ih ⟨x, hx, hp⟩
        rw [hl] at hv
        cases hv

theorem last_split {α : Type} {x : α} : ∀ {pre post pre' post' : List α}, pre ++ x :: post = pre' ++ x :: post' →
    x ∉ post → x ∉ post' → pre = pre' ∧ post = post'
  | [], post, [], post', h, _, _ => ⟨rfl, by simpa using h⟩
  | [], post, a :: pre', post', h, h1, _ => by
    simp only [List.nil_append, List.cons_append, List.cons.injEq] at h
    exact absurd (by rw [h.2]; simp) h1
  | a :: pre, post, [], post', h, _, h2 => by
    simp only [List.nil_append, List.cons_append, List.cons.injEq] at h
    exact absurd (by rw [← h.2]; simp) h2
  | a :: pre, post, b :: pre', post', h, h1, h2 => by
    simp only [List.cons_append, List.cons.injEq] at h
    obtain ⟨e1, e2⟩ := last_split h.2 h1 h2
    exact ⟨by rw [h.1, e1], e2⟩

/-- Dropping a used pair, in the list of pairs and in the list of numbers. -/
theorem dropShare_takeLast {S : Suite F G R} (hg : S.GroupLaws) (u : ℕ → F × F) (l : List ℕ) (x : ℕ) (hx : x ∈ l) :
    ∃ a l', Spec.takeLast (fun a => decide (Spec.commitTo S (u a) = Spec.commitTo S (u x))) l = some (a, l') ∧
      u a = u x ∧ dropShare (l.map fun a => Spec.pairOf S (u a)) (Spec.pairOf S (u x)) =
        l'.map fun a => Spec.pairOf S (u a) := by
  have hinj : ∀ a b : ℕ, Spec.commitTo S (u a) = Spec.commitTo S (u b) → u a = u b := by
    intro a b h
    unfold Spec.commitTo at h
    rw [Prod.mk.injEq] at h
    exact Prod.ext (hg.gen_inj _ _ h.1) (hg.gen_inj _ _ h.2)
  obtain ⟨⟨a, l'⟩, h1⟩ := takeLast_exists (fun a => decide (Spec.commitTo S (u a) = Spec.commitTo S (u x))) l
    ⟨x, hx, by simp⟩
  obtain ⟨pre, post, h2, h3, h4, h5⟩ := takeLast_some _ _ _ _ h1
  have h4' : u a = u x := hinj _ _ (by simpa using h4)
  refine ⟨a, l', h1, h4', ?_⟩
  obtain ⟨pre', post', e1, e2, e3⟩ := dropShare_mem (l.map fun a => Spec.pairOf S (u a)) (Spec.pairOf S (u x))
    (List.mem_map_of_mem (f := fun a => Spec.pairOf S (u a)) hx)
  rw [e3, h3, List.map_append]
  rw [h2, List.map_append, List.map_cons, h4'] at e1
  obtain ⟨f1, f2⟩ := last_split e1 (by
    intro hm
    obtain ⟨y, hy, he⟩ := List.mem_map.mp hm
    have := h5 y hy
    have : ¬ Spec.commitTo S (u y) = Spec.commitTo S (u x) := by simpa using this
    refine this ?_
    unfold Spec.pairOf at he
    simp only [CommitmentShare.mk.injEq, Commitment.mk.injEq] at he
    unfold Spec.commitTo
    rw [he.1.1, he.2.1]) e2
  rw [f1, f2]

theorem update_map {α β : Type} (f : α → β) (st : U32 → α) (i : U32) (l : α) (j : U32) :
    Function.update (fun i => f (st i)) i (f l) j = f (Function.update st i l j) := by
  by_cases hj : j = i
  · subst hj
    rw [Function.update_self, Function.update_self]
  · rw [Function.update_of_ne hj, Function.update_of_ne hj]

/-- One move with and without the secrets. -/
theorem gameStep_ledgerStep {S : Suite F G R} (hg : S.GroupLaws) (hu : Suite.U32Inj F) (dbg : Bool) (H : List U32)
    (key : U32 → F) (Y : G) (mv : Spec.Action G) (st : Spec.Ledger F G) (n : ℕ) (c : F) (r : U32 → F) (u : ℕ → F × F)
    (hlen : ∀ i, (st.pairs i).length < 2 ^ 63) :
    Spec.gameStep S dbg H key Y mv (st.board, fun i => (st.pairs i).map fun a => Spec.pairOf S (u a)) c r (u n) =
      let st' := (Spec.ledgerStep S dbg H (fun a => Spec.commitTo S (u a)) Y mv st n c r).run (Spec.respond key u)
      (st'.board, fun i => (st'.pairs i).map fun a => Spec.pairOf S (u a)) := by
  cases mv with
  | hash b => rfl
  | factors msg signers => rfl
  | announce i =>
    unfold Spec.gameStep Spec.ledgerStep
    refine Prod.ext rfl (funext fun j => ?_)
    have := update_map (List.map fun a => Spec.pairOf S (u a)) st.pairs i (st.pairs i ++ [n]) j
    rw [List.map_append] at this
    exact this
  | sign i k msg signers =>
    unfold Spec.gameStep Spec.ledgerStep
    simp only
    by_cases hi : i ∈ H
    · rw [if_pos hi, if_pos hi]
      set b := st.board.name S Y msg signers c r with hb
      set L := (st.pairs i).map fun a => Spec.pairOf S (u a) with hL
      have hN := (C128_sign hu (Spec.withTable S b.table) dbg ⟨i, key i⟩ ⟨i, 0⟩ rfl msg Y L
        ((st.pairs i).map fun _ => Spec.pairOf S 0) (by simp [hL]) (by rw [hL, List.length_map]; exact hlen i) k signers).1
      cases hz : (IceFrost.sign (Spec.withTable S b.table) dbg ⟨i, 0⟩ msg Y
          ((st.pairs i).map fun _ => Spec.pairOf S 0) k signers).1 with
      | error e =>
        rw [hz] at hN
        have hr : IceFrost.sign (Spec.withTable S b.table) dbg ⟨i, key i⟩ msg Y L k signers = (.error e, L) := by
          unfold IceFrost.sign at hN ⊢
          cases hc : signCore (Spec.withTable S b.table) dbg ⟨i, key i⟩ msg Y L k signers with
          | error e' =>
            rw [hc] at hN
            simp only [Except.map] at hN
            rw [Except.error.inj hN]
          | ok v => rw [hc] at hN; cases hN
        rw [hr]
        refine Prod.ext rfl (funext fun j => ?_)
        have := update_map (List.map fun a => Spec.pairOf S (u a)) st.pairs i (st.pairs i) j
        exact this.trans (by rw [Function.update_eq_self]; rfl)
      | ok v =>
        rw [hz] at hN
        cases hc : signCore (Spec.withTable S b.table) dbg ⟨i, key i⟩ msg Y L k signers with
        | error e' =>
          unfold IceFrost.sign at hN
          rw [hc] at hN
          cases hN
        | ok v' =>
          obtain ⟨z, share⟩ := v'
          obtain ⟨h1, -, -, -, -, h2⟩ := signCore_ok _ dbg ⟨i, key i⟩ msg Y L k signers z share hc
          have hr : IceFrost.sign (Spec.withTable S b.table) dbg ⟨i, key i⟩ msg Y L k signers =
              (.ok ⟨i, z⟩, dropShare L share) := by
            unfold IceFrost.sign
            rw [hc]
          obtain ⟨x, hx, hxs⟩ : ∃ x, (st.pairs i)[k.toNat]? = some x ∧ share = Spec.pairOf S (u x) := by
            rw [hL, List.getElem?_map] at h1
            cases hx : (st.pairs i)[k.toNat]? with
            | none => rw [hx] at h1; cases h1
            | some x => rw [hx] at h1; exact ⟨x, rfl, (Option.some.inj h1).symm⟩
          obtain ⟨a, l', ht, ha, hd⟩ := dropShare_takeLast hg u (st.pairs i) x (List.mem_of_getElem? hx)
          have hget : (st.pairs i).getD k.toNat 0 = x := by
            rw [List.getD_eq_getElem?_getD, hx, Option.getD_some]
          rw [hr]
          simp only [hget]
          rw [ht]
          have hres : Spec.respond key u (Spec.requestOf S Y b.table a i msg signers) = z := by
            unfold Spec.respond Spec.requestOf
            simp only
            rw [h2, ha, hxs]
            show _ = (u x).1 + (u x).2 * _ + _ * key i * _
            ring
          simp only [Spec.Program.run]
          rw [hres]
          refine Prod.ext rfl (funext fun j => ?_)
          have := update_map (List.map fun a => Spec.pairOf S (u a)) st.pairs i l' j
          rw [← hd, ← hxs] at this
          exact this
    · rw [if_neg hi, if_neg hi]
      rfl

end IceFrost
