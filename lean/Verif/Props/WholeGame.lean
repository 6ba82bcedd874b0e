import Verif.Props.RecordOnWire
import Verif.Props.NonceGame

/-! # C180: key generation, nonces and signing together

C158 shows `t - 1` colluders everything that is published and sent during key generation, C179 takes the nonces of the honest
signers from their commitment share lists. Here both happen in one game: the colluders see the records and all ciphertexts,
deal, learn all random bytes that go into nonces, take part in concurrent signing sessions, and ask the key derivation and the
hash function for nonces whatever they like in between.
-/

set_option linter.unusedSectionVars false
set_option linter.unusedSimpArgs false
set_option linter.unusedVariables false

namespace IceFrost

open Finset

/-! ### Programs that ask two functions -/

/-- A program that asks two functions. -/
inductive Spec.Duo (Q A Q' A' X : Type)
  | done (x : X)
  | ask (q : Q) (next : A → Spec.Duo Q A Q' A' X)
  | also (q : Q') (next : A' → Spec.Duo Q A Q' A' X)

namespace Spec.Duo

variable {Q A Q' A' X : Type}

/-- The program that asks the first function, if questions to the second one are answered by `g`. -/
def first (g : Q' → A') : Spec.Duo Q A Q' A' X → Spec.Program Q A X
  | done x => .done x
  | ask q next => .ask q fun a => (next a).first g
  | also q next => (next (g q)).first g

/-- The program that asks the second function, if questions to the first one are answered by `f`. -/
def second (f : Q → A) : Spec.Duo Q A Q' A' X → Spec.Program Q' A' X
  | done x => .done x
  | ask q next => (next (f q)).second f
  | also q next => .ask q fun a => (next a).second f

theorem first_run (f : Q → A) (g : Q' → A') (d : Spec.Duo Q A Q' A' X) : (d.first g).run f = (d.second f).run g := by
  induction d with
  | done x => rfl
  | ask q next ih => exact ih (f q)
  | also q next ih => exact ih (g q)

end Spec.Duo

variable {F G R : Type} [Field F] [DecidableEq F] [AddCommGroup G] [Module F G] [DecidableEq G]
variable {ι K P V Ω C : Type} [DecidableEq ι] {c : ℕ} {J : List U32} {t n : ℕ}

/-! ### The game -/

/-- Colluders who see `V`, deal, take part in signing sessions and return a signature. They ask the key derivation at any time,
and the hash function for nonces once keys have been generated. -/
structure Spec.Conspiracy (V F G K : Type) where
  /-- the dealings of the other dealers -/
  deal : V → Spec.Program G K (U32 → Spec.Dealing F G)
  /-- the next move, given everything that came back so far -/
  move : V → List (Spec.Feedback F G) → Spec.Duo G K Bytes F (Spec.Action G)
  /-- the result -/
  result : V → List (Spec.Feedback F G) → Spec.Duo G K Bytes F (Bytes × ThresholdSignature F G)

namespace Spec.Conspiracy

/-- With the key derivation at hand the colluders are an asker of C179. -/
def asker (A : Spec.Conspiracy V F G K) (κ : G → K) : Spec.Asker V F G where
  move v l := (A.move v l).second κ
  result v l := (A.result v l).second κ

/-- The colluders ask the key derivation at most `q` times before a move. -/
def AtMost (A : Spec.Conspiracy V F G K) (q : ℕ) : Prop :=
  (∀ v, (A.deal v).AtMost q) ∧ (∀ v l g, ((A.move v l).first g).AtMost q) ∧ ∀ v l g, ((A.result v l).first g).AtMost q

/-- The first `k` moves as a program that asks the key derivation, when the hash function for nonces is `g`. -/
def game (A : Spec.Conspiracy V F G K) (S : Suite F G R) (dbg : Bool) (H : List U32) (key : U32 → F) (Y : G) (v : V)
    (a : ℕ → F) (r : ℕ → U32 → F) (u : ℕ → F × F) (L : U32 → List (CommitmentShare F G)) (g : Bytes → F) :
    ℕ → Spec.Program G K (Spec.Board F G × (U32 → List (CommitmentShare F G)))
  | 0 => .done (⟨[], [], [], [], []⟩, fun _ => [])
  | k + 1 => (A.game S dbg H key Y v a r u L g k).andThen fun st => ((A.move v st.1.replies).first g).andThen fun mv =>
    .done (Spec.gameStep S dbg H key Y mv st (a k) (r k) (Spec.nonceFor H L k (u k) mv))

theorem game_run (A : Spec.Conspiracy V F G K) (S : Suite F G R) (dbg : Bool) (H : List U32) (key : U32 → F) (Y : G) (v : V)
    (a : ℕ → F) (r : ℕ → U32 → F) (u : ℕ → F × F) (L : U32 → List (CommitmentShare F G)) (g : Bytes → F) (κ : G → K) (k : ℕ) :
    (A.game S dbg H key Y v a r u L g k).run κ = ((A.asker κ).play S dbg H key Y v a r u L k).run g := by
  induction k with
  | zero => rfl
  | succ k ih =>
    rw [game, Spec.Program.run_andThen, Spec.Program.run_andThen, ih, Spec.Duo.first_run]
    show _ = (((A.asker κ).play S dbg H key Y v a r u L k).andThen _).run g
    rw [Spec.Program.run_andThen, Spec.Program.run_andThen]
    rfl

theorem game_atMost (A : Spec.Conspiracy V F G K) (S : Suite F G R) (dbg : Bool) (H : List U32) (key : U32 → F) (Y : G) (v : V)
    (a : ℕ → F) (r : ℕ → U32 → F) (u : ℕ → F × F) (L : U32 → List (CommitmentShare F G)) (g : Bytes → F) (q : ℕ)
    (hq : A.AtMost q) (k : ℕ) : (A.game S dbg H key Y v a r u L g k).AtMost (k * q) := by
  induction k with
  | zero => exact (Nat.zero_mul q).symm ▸ trivial
  | succ k ih =>
    rw [Nat.succ_mul, Nat.add_comm]
    refine Spec.Program.atMost_andThen _ _ _ _ ih fun st => ?_
    rw [← Nat.zero_add q]
    refine Spec.Program.atMost_andThen _ _ _ _ (hq.2.1 _ _ _) fun mv => trivial

/-- The whole game as a reader of the wire. The coins are those of C158 and the answers of the hash function for nonces. -/
def reader (A : Spec.Conspiracy (Spec.Sight ι F G (P × Nizk F) c J) F G K) (S : Suite F G R) (dbg : Bool)
    (me : ι) (D : List U32) (l : U32) (H : List U32) (red : C → F) (Q : Finset Bytes) (rng : P → Fin H.length → R) :
    Spec.Reader ι F G K (Spec.GameCoins F (P × F) t n × ({q // q ∈ Q} → C))
      ((U32 → Spec.Dealing F G) × Spec.Board F G × Bytes × ThresholdSignature F G) c :=
  fun B π χ W ρ =>
    let v : Spec.Sight ι F G (P × Nizk F) c J :=
      ((B, π, χ, W, ρ.1.1.1, Spec.secretProof S χ me ρ.1.2.1 ρ.1.1.2), Spec.dealerView S J l ρ.1.2.1)
    let g := Spec.drawnHash S Q red ρ.2
    (A.deal v).andThen fun deal =>
      (A.game S dbg H (Spec.dealtShare D l deal ρ.1.2.1) (Spec.dealtKey D l deal v.2) v (Spec.answers ρ.1.2.2.2)
        (fun a => (Spec.drawn ρ.1.2.2.1 ρ.1.2.2.2 a).1) (fun a => (Spec.drawn ρ.1.2.2.1 ρ.1.2.2.2 a).2)
        (Spec.ownLists S H n g (rng ρ.1.1.1) (Spec.dealtShare D l deal ρ.1.2.1)) g n).andThen fun st =>
      ((A.result v st.1.replies).first g).andThen fun o => .done (deal, st.1, o)

/-- Success of the colluders: their dealings pass the checks of the honest participants `H`, and after `n` moves with honest
signers who take their nonces from the lists that `generate_commitment_share_lists` made with their signing keys, they return a
signature for a message that nobody signed. -/
def Succeed (A : Spec.Conspiracy (Spec.Sight ι F G (P × Nizk F) c J) F G K) (S : Suite F G R) (dbg : Bool)
    (key : K → Bytes) (pair : Fin c → ι × ι) (letters : Spec.GameCoins F (P × F) t n → Fin c → List (Bytes × Bytes)) (me : ι)
    (D : List U32) (l : U32) (H : List U32) (red : C → F) (Q : Finset Bytes) (rng : P → Fin H.length → R)
    (x : Spec.TapCoins ι F G K (Spec.GameCoins F (P × F) t n × ({q // q ∈ Q} → C))) : Prop :=
  let (b, k, χ, κ, ρ, f) := x
  let v := Spec.fullSight S key pair letters J me l b k χ κ ρ
  let deal := (A.deal v).run κ
  let sk := Spec.dealtShare D l deal ρ.2.1
  let g := Spec.drawnHash S Q red f
  Spec.Accepted S D l H t deal ∧
    ((A.asker κ).succeeds S dbg H n sk (Spec.dealtKey D l deal v.2) v ρ.2.2.1 ρ.2.2.2
      (Spec.ownLists S H n g (rng ρ.1.1) sk)).run g

theorem reader_run (A : Spec.Conspiracy (Spec.Sight ι F G (P × Nizk F) c J) F G K) (S : Suite F G R) (dbg : Bool)
    (me : ι) (D : List U32) (l : U32) (H : List U32) (red : C → F) (Q : Finset Bytes) (rng : P → Fin H.length → R)
    (B : ι → G) (π : ι → Nizk F) (χ : Spec.ProofHash ι F G) (W : Fin c → List (Option Bytes))
    (ρ : Spec.GameCoins F (P × F) t n) (f : {q // q ∈ Q} → C) (κ : G → K) :
    let v : Spec.Sight ι F G (P × Nizk F) c J :=
      ((B, π, χ, W, ρ.1.1, Spec.secretProof S χ me ρ.2.1 ρ.1.2), Spec.dealerView S J l ρ.2.1)
    let deal := (A.deal v).run κ
    let sk := Spec.dealtShare D l deal ρ.2.1
    let g := Spec.drawnHash S Q red f
    Spec.forgedBy S D l J H B π χ ρ ((A.reader S dbg me D l H red Q rng B π χ W (ρ, f)).run κ) ↔
      Spec.Accepted S D l H t deal ∧
        ((A.asker κ).succeeds S dbg H n sk (Spec.dealtKey D l deal v.2) v ρ.2.2.1 ρ.2.2.2
          (Spec.ownLists S H n g (rng ρ.1.1) sk)).run g := by
  intro v deal sk g
  unfold Spec.Conspiracy.reader Spec.Asker.succeeds
  simp only [Spec.Program.run_andThen, game_run, Spec.Duo.first_run]
  exact Iff.rfl

/-- The asker of C179 made from the colluders: everything about the wire is part of its coins. -/
def blank (A : Spec.Conspiracy (Spec.Sight ι F G (P × Nizk F) c J) F G K) (S : Suite F G R) (key : K → Bytes)
    (letters' : P → Fin c → List (Bytes × Bytes)) (me : ι) :
    Spec.Asker (Spec.FreeCoins ι F G K (P × F × F) c × (List G × ({j // j ∈ J} → F))) F G where
  move y l := (A.move (Spec.blankFullSight S key letters' me y.1 (y.2.1.headD 0), y.2) l).second y.1.2.2.2.2.1
  result y l := (A.result (Spec.blankFullSight S key letters' me y.1 (y.2.1.headD 0), y.2) l).second y.1.2.2.2.2.1

/-- Its dealings. -/
def blankDeal (A : Spec.Conspiracy (Spec.Sight ι F G (P × Nizk F) c J) F G K) (S : Suite F G R)
    (key : K → Bytes) (letters' : P → Fin c → List (Bytes × Bytes)) (me : ι)
    (y : Spec.FreeCoins ι F G K (P × F × F) c × (List G × ({j // j ∈ J} → F))) : U32 → Spec.Dealing F G :=
  (A.deal (Spec.blankFullSight S key letters' me y.1 (y.2.1.headD 0), y.2)).run y.1.2.2.2.2.1

/-- The kit of C143 made from its dealings. -/
noncomputable def blankKit (A : Spec.Conspiracy (Spec.Sight ι F G (P × Nizk F) c J) F G K) (S : Suite F G R)
    (key : K → Bytes) (letters' : P → Fin c → List (Bytes × Bytes)) (me : ι) (D : List U32) (l : U32) (H : List U32) (t : ℕ)
    (ω : Spec.FreeCoins ι F G K (P × F × F) c × ({j // j ∈ J} → F)) (X : G) : Spec.Kit F :=
  Spec.kitOfView D l J (fun k => (A.blankDeal S key letters' me (ω.1, Spec.simulatedDealerView S J t X ω.2) k).poly H t) ω.2

end Spec.Conspiracy

/-- C180: the number of guesses of the Diffie-Hellman solvers. -/
theorem C180_questions (A : Spec.Conspiracy (Spec.Sight ι F G (P × Nizk F) c J) F G K) (q : ℕ) (hq : A.AtMost q)
    (S : Suite F G R) (dbg : Bool) (me : ι) (D : List U32) (l : U32) (H : List U32) (key : K → Bytes) (red : C → F)
    (Q : Finset Bytes) (rng : P → Fin H.length → R)
    (letters : Spec.GameCoins F (P × F) t n → Fin c → List (Bytes × Bytes)) (pair : Fin c → ι × ι) (p : Fin c) (X Y : G)
    (x : Spec.FreeCoins ι F G K (Spec.GameCoins F (P × F) t n × ({q // q ∈ Q} → C)) c) :
    (Spec.dhGuesses S pair (Spec.reading S key (fun ρ => letters ρ.1) (A.reader S dbg me D l H red Q rng)) p X Y x).length ≤
      c + (q + n * q + q) := by
  refine C152_guesses S pair _ _ (fun B π χ u ρ => ?_) p X Y x
  unfold Spec.reading Spec.Conspiracy.reader
  refine Spec.Program.atMost_andThen q (q + n * q) _ _ (hq.1 _) fun deal => ?_
  refine Spec.Program.atMost_andThen (n * q) q _ _ (A.game_atMost S dbg H _ _ _ _ _ _ _ _ q hq n) fun st => ?_
  rw [← Nat.zero_add q]
  exact Spec.Program.atMost_andThen q 0 _ _ (hq.2.2 _ _ _) fun o => trivial

/-! ### Lemmas -/

/-- The game depends on the moves after the actual view only. -/
theorem asker_succeeds_congr {Ω Ω' : Type} (B : Spec.Asker Ω F G) (B' : Spec.Asker Ω' F G) (S : Suite F G R)
    (dbg : Bool) (H : List U32) (n : ℕ) (key : U32 → F) (Y : G) (ω : Ω) (ω' : Ω') (hm : B.move ω = B'.move ω')
    (hr : B.result ω = B'.result ω') (d : Spec.Draw F (F × F)) (h : Fin (n + 1) → Spec.Cell F (F × F))
    (L : U32 → List (CommitmentShare F G)) :
    B.succeeds S dbg H n key Y ω d h L = B'.succeeds S dbg H n key Y ω' d h L := by
  have hp : ∀ a r u k, B.play S dbg H key Y ω a r u L k = B'.play S dbg H key Y ω' a r u L k := by
    intro a r u k
    induction k with
    | zero => rfl
    | succ k ih =>
      show (B.play S dbg H key Y ω a r u L k).andThen _ = (B'.play S dbg H key Y ω' a r u L k).andThen _
      rw [ih, hm]
  unfold Spec.Asker.succeeds
  rw [hp, hr]

/-- The game depends on the keys of honest signers only. -/
theorem asker_succeeds_keys (B : Spec.Asker Ω F G) (S : Suite F G R) (dbg : Bool) (H : List U32) (n : ℕ) {key key' : U32 → F}
    (hk : ∀ i ∈ H, key i = key' i) (Y : G) (ω : Ω) (d : Spec.Draw F (F × F)) (h : Fin (n + 1) → Spec.Cell F (F × F))
    (rng : Fin H.length → R) (g : Bytes → F) :
    (B.succeeds S dbg H n key Y ω d h (Spec.ownLists S H n g rng key)).run g ↔
      (B.succeeds S dbg H n key' Y ω d h (Spec.ownLists S H n g rng key')).run g := by
  have hK : Spec.keysOf H key = Spec.keysOf H key' := by
    funext c
    exact congrArg (IndividualSigningKey.mk _) (hk _ (List.getElem_mem _))
  rw [ownLists_eq, ownLists_eq, hK]
  unfold Spec.Asker.succeeds
  simp only [Spec.Program.run_andThen, asker_play]
  have hl : ∀ (A : Spec.Insider Ω F G) (c : ℕ → F) (r : ℕ → U32 → F) (u : ℕ → F × F) (L : U32 → List (CommitmentShare F G)) (k : ℕ),
      A.listed S dbg H key Y ω c r u L k = A.listed S dbg H key' Y ω c r u L k := by
    intro A c r u L k
    induction k with
    | zero => rfl
    | succ k ih =>
      show Spec.gameStep _ _ _ _ _ (A.move ω (A.listed S dbg H key Y ω c r u L k).1.replies)
        (A.listed S dbg H key Y ω c r u L k) _ _ _ =
        Spec.gameStep _ _ _ _ _ (A.move ω (A.listed S dbg H key' Y ω c r u L k).1.replies)
        (A.listed S dbg H key' Y ω c r u L k) _ _ _
      rw [ih]
      unfold Spec.gameStep
      split
      · rfl
      · rfl
      · rfl
      · split_ifs with hi
        · rw [hk _ hi]
        · rfl
  rw [hl]

/-- Two nonces of one signer get the same random bytes. -/
def Spec.BytesRepeat (S : Suite F G R) (H : List U32) (n : ℕ) (rng : Fin H.length → R) : Prop :=
  ∃ s s' : Spec.Places H n, s ≠ s' ∧ s.1 = s'.1 ∧ Spec.nonceBytes S rng s = Spec.nonceBytes S rng s'

theorem repeats_bytes (S : Suite F G R) (H : List U32) (hH : H.Nodup) (n : ℕ) (rng : Fin H.length → R) (key : U32 → F)
    (h : Spec.Repeats S (fun _ => n) rng (Spec.keysOf H key)) : Spec.BytesRepeat S H n rng := by
  obtain ⟨s, s', h1, h2, h3⟩ := h
  refine ⟨s, s', h1, ?_, h3⟩
  have : H[s.1] = H[s'.1] := congrArg IndividualSigningKey.index h2
  exact Fin.ext ((List.Nodup.getElem_inj_iff hH).mp this)

/-- The coins of the game on the wire without secrets, with an unused value, and those of C179. -/
def wholeEquiv (S : Suite F G R) (me : ι) {T : Type} :
    Spec.FreeCoins ι F G K (Spec.GameCoins F (P × F) t n × T) c × F ≃
      ((Spec.FreeCoins ι F G K (P × F × F) c × (Fin t → F) × Spec.Draw F (F × F)) × (Fin (n + 1) → Spec.Cell F (F × F))) × T where
  toFun x := (fullEquiv S me ((x.1.1, x.1.2.1, x.1.2.2.1, x.1.2.2.2.1, x.1.2.2.2.2.1, x.1.2.2.2.2.2.1, x.1.2.2.2.2.2.2.1), x.2),
    x.1.2.2.2.2.2.2.2)
  invFun y :=
    let z := (fullEquiv S me).symm y.1
    ((z.1.1, z.1.2.1, z.1.2.2.1, z.1.2.2.2.1, z.1.2.2.2.2.1, z.1.2.2.2.2.2.1, z.1.2.2.2.2.2.2, y.2), z.2)
  left_inv x := by
    simp only [Equiv.symm_apply_apply]
  right_inv y := by
    simp only [Prod.mk.eta, Equiv.apply_symm_apply]

section
variable [Fintype ι] [Fintype F] [Fintype G] [Fintype K] [Nonempty K] [Fintype P] [Nonempty P] [Fintype U32]
variable [Fintype C] [Nonempty C]

theorem chance_known (E : P → Prop) :
    Spec.chance (fun y : Spec.FreeCoins ι F G K (P × F × F) c × (Fin t → F) => E y.1.2.2.2.2.2.2.1) = Spec.chance E := by
  rw [chance_extra (fun x : Spec.FreeCoins ι F G K (P × F × F) c => E x.2.2.2.2.2.2.1)]
  let e : Spec.FreeCoins ι F G K (P × F × F) c ≃
      P × ((ι → F) × (ι → F) × (ι → F) × Spec.ProofHash ι F G × (G → K) × (Fin c → K) × F × F) :=
    { toFun := fun x => (x.2.2.2.2.2.2.1, x.1, x.2.1, x.2.2.1, x.2.2.2.1, x.2.2.2.2.1, x.2.2.2.2.2.1, x.2.2.2.2.2.2.2)
      invFun := fun z => (z.2.1, z.2.2.1, z.2.2.2.1, z.2.2.2.2.1, z.2.2.2.2.2.1, z.2.2.2.2.2.2.1, z.1, z.2.2.2.2.2.2.2)
      left_inv := fun _ => rfl
      right_inv := fun _ => rfl }
  rw [← chance_extra (B := (ι → F) × (ι → F) × (ι → F) × Spec.ProofHash ι F G × (G → K) × (Fin c → K) × F × F) E,
    ← chance_equiv e]
  rfl

theorem five_parts {a b w x y r e : ℚ} (h : a ≤ w + b) (h' : b ≤ x + y + r + e) : a ≤ w + (x + y) + r + e := by
  linarith

/-- C180: the chance that colluders forge is at most that of the two insiders of C143, the chances of the Diffie-Hellman solvers
and the advantages of the tests for the cipher, the chance that random bytes for nonces repeat, and `4 n |H| δ`. -/
theorem C180_forgery {S : Suite F G R} (hS : S.Lawful) {pair : Fin c → ι × ι} (hp : Spec.Pairs pair) (key : K → Bytes) (me : ι)
    (D : List U32) (h0 : 0 ∉ D) (l : U32) (J : List U32) (hJ : J.Nodup) (hJ0 : 0 ∉ J) (t : ℕ) (ht : J.length + 1 = t)
    (H : List U32) (hH : H.Nodup) (htH : t ≤ H.length) (hHJ : ∀ i ∈ H, i ∉ J) (dbg : Bool) (n : ℕ)
    (letters : Spec.GameCoins F (P × F) t n → Fin c → List (Bytes × Bytes)) (letters' : P → Fin c → List (Bytes × Bytes))
    (red : C → F) (δ : ℚ) (hδ : Spec.Near red δ) (rng : P → Fin H.length → R) (Q : Finset Bytes)
    (hQ : ∀ p (sk : U32 → F) (s : Spec.Places H n), Spec.nonceString S (rng p) (Spec.keysOf H sk) s ∈ Q)
    (A : Spec.Conspiracy (Spec.Sight ι F G (P × Nizk F) c J) F G K) :
    let A' : Spec.Reader ι F G K (Spec.GameCoins F (P × F) t n × ({q // q ∈ Q} → C)) _ c := A.reader S dbg me D l H red Q rng
    let goal : Spec.Goal ι F G (Spec.GameCoins F (P × F) t n × ({q // q ∈ Q} → C)) _ :=
      fun B π χ ρ => Spec.forgedBy S D l J H B π χ ρ.1
    let wire : ℚ := ∑ p, (Spec.dhChance S pair (Spec.reading S key (fun ρ => letters ρ.1) A') p +
      Spec.cipherAdvantage S key (fun ρ => letters ρ.1) (fun ρ => letters' ρ.1.1.1) A' goal p)
    let B := A.blank S key letters' me
    let kit := A.blankKit S key letters' me D l H t
    Spec.chance (A.Succeed S dbg key pair letters me D l H red Q rng) ≤
      wire +
      (Spec.chance (fun y : (((Spec.FreeCoins ι F G K (P × F × F) c × ({j // j ∈ J} → F)) × ({q // q ∈ Q} → C)) × F ×
          Spec.Draw F (F × F)) × (Fin (n + 1) → Spec.Cell F (F × F)) =>
        Spec.Insider.Wins (fun X => .given fun f => (B.afterView S t X).reading (Spec.drawnHash S Q red f)) S dbg H n
          (fun ω => kit ω.1) y.1.1 y.1.2.1 y.1.2.2 y.2) +
      Spec.chance (fun y : (((Spec.FreeCoins ι F G K (P × F × F) c × ({j // j ∈ J} → F)) × ({q // q ∈ Q} → C)) × F ×
          Spec.Draw F (F × F)) × (Fin (n + 1 + 1) → Spec.Cell F (F × F)) =>
        Spec.Insider.Wins (fun X => .given fun f => (B.afterView S t X).thief S H X n (Spec.drawnHash S Q red f)
          fun ω => kit ω X) S dbg H (n + 1) (fun ω => kit ω.1) y.1.1 y.1.2.1 y.1.2.2 y.2)) +
      Spec.chance (fun p : P => Spec.BytesRepeat S H n (rng p)) +
      4 * (n : ℚ) * (H.length : ℚ) * δ := by
  intro A' goal wire B kit
  have hw := C152_wire S hp key (fun ρ => letters ρ.1) (fun ρ => letters' ρ.1.1.1) A' goal
  have hw' := (abs_sub_le_iff.mp hw).1
  have e1 : Spec.chance (Spec.tapped S pair (Spec.reading S key (fun ρ => letters ρ.1) A') goal) =
      Spec.chance (A.Succeed S dbg key pair letters me D l H red Q rng) := by
    refine chance_congr ?_
    rintro ⟨b, k, χ, κ, ρ, f⟩
    exact A.reader_run S dbg me D l H red Q rng _ _ _ _ ρ f κ
  have e2 : Spec.chance (Spec.untapped S (Spec.reading S key (fun ρ => letters' ρ.1.1.1) A') goal) =
      Spec.chance fun z : ((Spec.FreeCoins ι F G K (P × F × F) c × (Fin t → F) × Spec.Draw F (F × F)) ×
          (Fin (n + 1) → Spec.Cell F (F × F))) × ({q // q ∈ Q} → C) =>
        let v := (z.1.1.1, Spec.dealerView S J l z.1.1.2.1)
        let deal := A.blankDeal S key letters' me v
        let sk := Spec.dealtShare D l deal z.1.1.2.1
        let g := Spec.drawnHash S Q red z.2
        Spec.Accepted S D l H t deal ∧
        (B.succeeds S dbg H n sk (Spec.dealtKey D l deal v.2) v z.1.1.2.2 z.1.2
          (Spec.ownLists S H n g (rng z.1.1.1.2.2.2.2.2.2.1) sk)).run g := by
    rw [← chance_equiv (wholeEquiv S me), ← chance_extra (B := F)]
    refine chance_congr ?_
    rintro ⟨⟨b, s, r, χ, κ, u, ⟨⟨p, k⟩, w, d, h⟩, f⟩, a⟩
    have hb := blankFullSight_eq hS.group key letters' me w b s r χ κ u p k a
    simp only at hb
    have hX : (Spec.dealerView S J l w).1.headD 0 = (List.ofFn w).headD 0 • S.gen := commitPoints_headD S _
    refine (A.reader_run S dbg me D l H red Q rng _ _ _ _ ((p, k), w, d, h) f κ).trans ?_
    set ω : Spec.FreeCoins ι F G K (P × F × F) c :=
      (b, s, r, (proofShift S me ((List.ofFn w).headD 0) (b me) (χ, k, a)).1, κ, u, p,
        (proofShift S me ((List.ofFn w).headD 0) (b me) (χ, k, a)).2) with hω
    have hv := hb
    rw [← hX] at hv
    have hd := congrArg (fun v => (A.deal (v, Spec.dealerView S J l w)).run κ) hv
    change A.blankDeal S key letters' me (ω, Spec.dealerView S J l w) = _ at hd
    show _ ↔ Spec.Accepted S D l H t (A.blankDeal S key letters' me (ω, Spec.dealerView S J l w)) ∧
      (B.succeeds S dbg H n (Spec.dealtShare D l (A.blankDeal S key letters' me (ω, Spec.dealerView S J l w)) w)
        (Spec.dealtKey D l (A.blankDeal S key letters' me (ω, Spec.dealerView S J l w)) (Spec.dealerView S J l w))
        (ω, Spec.dealerView S J l w) d h (Spec.ownLists S H n (Spec.drawnHash S Q red f) (rng p)
          (Spec.dealtShare D l (A.blankDeal S key letters' me (ω, Spec.dealerView S J l w)) w))).run (Spec.drawnHash S Q red f)
    rw [hd]
    refine and_congr Iff.rfl ?_
    rw [asker_succeeds_congr B (A.asker κ) S dbg H n _ _ (ω, Spec.dealerView S J l w) _ ?_ ?_ d h]
    · exact congrArg (fun v => fun l' => (A.move (v, Spec.dealerView S J l w) l').second κ) hv
    · exact congrArg (fun v => fun l' => (A.result (v, Spec.dealerView S J l w) l').second κ) hv
  have h := C179_below_threshold (Ω := Spec.FreeCoins ι F G K (P × F × F) c) hS D h0 l J hJ hJ0 t ht
    (fun y k => (A.blankDeal S key letters' me y k).poly H t) dbg H hHJ n red δ hδ (fun ω => rng ω.2.2.2.2.2.2.1) Q
    (fun ω w s => hQ _ _ s) B
  simp only at h
  have hrep : Spec.chance (fun y : Spec.FreeCoins ι F G K (P × F × F) c × (Fin t → F) =>
      Spec.Repeats S (fun _ => n) (rng y.1.2.2.2.2.2.2.1) (Spec.keysOf H (Spec.shareOfView D l
        (fun k => (A.blankDeal S key letters' me (y.1, Spec.dealerView S J l y.2) k).poly H t) y.2))) ≤
      Spec.chance (fun p : P => Spec.BytesRepeat S H n (rng p)) := by
    have hb := chance_known (ι := ι) (F := F) (G := G) (K := K) (c := c) (t := t) fun p : P => Spec.BytesRepeat S H n (rng p)
    refine le_trans (chance_mono fun y hy => ?_) (le_of_eq hb)
    exact repeats_bytes S H hH n _ _ hy
  have hmono := chance_mono (A := ((Spec.FreeCoins ι F G K (P × F × F) c × (Fin t → F) × Spec.Draw F (F × F)) ×
      (Fin (n + 1) → Spec.Cell F (F × F))) × ({q // q ∈ Q} → C))
    (E := fun z =>
        let v := (z.1.1.1, Spec.dealerView S J l z.1.1.2.1)
        let deal := A.blankDeal S key letters' me v
        let sk := Spec.dealtShare D l deal z.1.1.2.1
        let g := Spec.drawnHash S Q red z.2
        Spec.Accepted S D l H t deal ∧
        (B.succeeds S dbg H n sk (Spec.dealtKey D l deal v.2) v z.1.1.2.2 z.1.2
          (Spec.ownLists S H n g (rng z.1.1.1.2.2.2.2.2.2.1) sk)).run g)
    (E' := fun z =>
        let v := (z.1.1.1, Spec.dealerView S J l z.1.1.2.1)
        let sk := Spec.shareOfView D l (fun k => (A.blankDeal S key letters' me v k).poly H t) z.1.1.2.1
        let g := Spec.drawnHash S Q red z.2
        (B.succeeds S dbg H n sk (Spec.keyOfView S D l (fun k => (A.blankDeal S key letters' me v k).poly H t) v.2) v z.1.1.2.2
          z.1.2 (Spec.ownLists S H n g (rng z.1.1.1.2.2.2.2.2.2.1) sk)).run g) (by
      rintro ⟨⟨⟨ω, w, d⟩, tape⟩, f⟩ ⟨hacc, hv⟩
      simp only at hacc hv ⊢
      obtain ⟨hk, hs⟩ := accepted_keys hS.group hS.u32 D l H hH t htH _ hacc
      rw [hk] at hv
      exact (asker_succeeds_keys B S dbg H n (hs w) _ _ _ _ _ _).mp hv)
  rw [e1, e2] at hw'
  have h' := (hmono.trans h).trans (add_le_add (add_le_add le_rfl hrep) le_rfl)
  have h1 := sub_le_iff_le_add.mp hw'
  exact five_parts h1 h'

theorem second_part {a w x r e y : ℚ} (h : a ≤ w + x + r + e) (h' : x ≤ y) : a ≤ w + y + r + e := by
  linarith

/-- The chance that the solver of C143 finds one more discrete logarithm than it asks for. -/
noncomputable def Spec.solveChance [Fintype Ω] (S : Suite F G R) (dbg : Bool) (H : List U32) (n : ℕ) (kit : Ω → G → Spec.Kit F)
    (B : G → Spec.Insider Ω F G) : ℚ :=
  Spec.chance fun y : (Ω × F × Spec.Draw F (F × F)) × (Fin (n + 1) → Spec.Cell F (F × F)) ×
    (Fin (n + 1) → Spec.Cell F (F × F)) => Spec.Insider.Solves B S dbg H n kit y.1.1 y.1.2.1 y.1.2.2 y.2.1 y.2.2

theorem solveChance_le_one [Fintype Ω] [Nonempty Ω] (S : Suite F G R) (dbg : Bool) (H : List U32) (n : ℕ)
    (kit : Ω → G → Spec.Kit F) (B : G → Spec.Insider Ω F G) : Spec.solveChance S dbg H n kit B ≤ 1 := chance_le_one _

theorem two_insiders [Fintype Ω] [Nonempty Ω] {S : Suite F G R} (hS : S.Lawful) (dbg : Bool) (H : List U32) (n : ℕ)
    (hn : n + 1 ≤ 2 ^ 63) (kit : Ω → G → Spec.Kit F) (hs : ∀ ω X, (kit ω X).scale ≠ 0) (B B' : G → Spec.Insider Ω F G) (η w : ℚ)
    (hw : 0 ≤ w) (hη : η < w * (w / ((n + 1 + 1 : ℕ) : ℚ) - 1 / (Fintype.card F : ℚ)) -
      2 * ((n + 1 : ℕ) : ℚ) ^ 2 * (H.length : ℚ) / (Fintype.card F : ℚ))
    (h1 : Spec.solveChance S dbg H n kit B ≤ η) (h2 : Spec.solveChance S dbg H (n + 1) kit B' ≤ η) :
    Spec.chance (fun y : (Ω × F × Spec.Draw F (F × F)) × (Fin (n + 1) → Spec.Cell F (F × F)) =>
        Spec.Insider.Wins B S dbg H n kit y.1.1 y.1.2.1 y.1.2.2 y.2) +
      Spec.chance (fun y : (Ω × F × Spec.Draw F (F × F)) × (Fin (n + 1 + 1) → Spec.Cell F (F × F)) =>
        Spec.Insider.Wins B' S dbg H (n + 1) kit y.1.1 y.1.2.1 y.1.2.2 y.2) ≤ 2 * w := by
  classical
  have c1 := C143_concurrent_sessions hS.codec hS.group hS.u32 dbg H n (by omega) kit hs B
  have c2 := C143_concurrent_sessions hS.codec hS.group hS.u32 dbg H (n + 1) hn kit hs B'
  have hη0 : 0 ≤ η := (chance_nonneg _).trans h1
  have hF : (0 : ℚ) < Fintype.card F := by
    have := Fintype.card_pos (α := F)
    exact_mod_cast this
  have p1 := below_of_quadratic (N' := ((n + 1 + 1 : ℕ) : ℚ))
    (b' := 2 * ((n + 1 : ℕ) : ℚ) ^ 2 * (H.length : ℚ) / (Fintype.card F : ℚ)) (by positivity) (by push_cast; linarith)
    (by positivity) (by push_cast; gcongr; linarith) hw hη0 (c1.trans h1) hη
  have p2 := below_of_quadratic (N' := ((n + 1 + 1 : ℕ) : ℚ))
    (b' := 2 * ((n + 1 : ℕ) : ℚ) ^ 2 * (H.length : ℚ) / (Fintype.card F : ℚ)) (by positivity) le_rfl
    (by positivity) le_rfl hw hη0 (c2.trans h2) hη
  rw [two_mul]
  exact add_le_add p1 p2

/-- C180: so forging is hard if one more discrete logarithm is hard to find and the wire is safe. If the solvers of C143 for the
two insiders succeed with chance at most `η`, and `η < w (w / (n + 2) - 1 / |F|) - 2 (n + 1)² |H| / |F|`, then the colluders forge
with chance at most that of breaking the wire, `2 w`, the chance that random bytes repeat, and `4 n |H| δ`. -/
theorem C180_hard {S : Suite F G R} (hS : S.Lawful) {pair : Fin c → ι × ι} (hp : Spec.Pairs pair) (key : K → Bytes) (me : ι)
    (D : List U32) (h0 : 0 ∉ D) (l : U32) (J : List U32) (hJ : J.Nodup) (hJ0 : 0 ∉ J) (t : ℕ) (ht : J.length + 1 = t)
    (H : List U32) (hH : H.Nodup) (htH : t ≤ H.length) (hHJ : ∀ i ∈ H, i ∉ J) (dbg : Bool) (n : ℕ) (hn : n + 1 ≤ 2 ^ 63)
    (letters : Spec.GameCoins F (P × F) t n → Fin c → List (Bytes × Bytes)) (letters' : P → Fin c → List (Bytes × Bytes))
    (red : C → F) (δ : ℚ) (hδ : Spec.Near red δ) (rng : P → Fin H.length → R) (Q : Finset Bytes)
    (hQ : ∀ p (sk : U32 → F) (s : Spec.Places H n), Spec.nonceString S (rng p) (Spec.keysOf H sk) s ∈ Q)
    (A : Spec.Conspiracy (Spec.Sight ι F G (P × Nizk F) c J) F G K) (η w : ℚ) (hw : 0 ≤ w)
    (hη : η < w * (w / ((n + 1 + 1 : ℕ) : ℚ) - 1 / (Fintype.card F : ℚ)) -
      2 * ((n + 1 : ℕ) : ℚ) ^ 2 * (H.length : ℚ) / (Fintype.card F : ℚ))
    (h1 : Spec.solveChance (Ω := (Spec.FreeCoins ι F G K (P × F × F) c × ({j // j ∈ J} → F)) × ({q // q ∈ Q} → C)) S dbg H n
      (fun ω => A.blankKit S key letters' me D l H t ω.1)
      (fun X => .given fun f => ((A.blank S key letters' me).afterView S t X).reading (Spec.drawnHash S Q red f)) ≤ η)
    (h2 : Spec.solveChance (Ω := (Spec.FreeCoins ι F G K (P × F × F) c × ({j // j ∈ J} → F)) × ({q // q ∈ Q} → C)) S dbg H (n + 1)
      (fun ω => A.blankKit S key letters' me D l H t ω.1)
      (fun X => .given fun f => ((A.blank S key letters' me).afterView S t X).thief S H X n (Spec.drawnHash S Q red f) fun ω =>
        A.blankKit S key letters' me D l H t ω X) ≤ η) :
    let A' : Spec.Reader ι F G K (Spec.GameCoins F (P × F) t n × ({q // q ∈ Q} → C)) _ c := A.reader S dbg me D l H red Q rng
    let goal : Spec.Goal ι F G (Spec.GameCoins F (P × F) t n × ({q // q ∈ Q} → C)) _ :=
      fun B π χ ρ => Spec.forgedBy S D l J H B π χ ρ.1
    let wire : ℚ := ∑ p, (Spec.dhChance S pair (Spec.reading S key (fun ρ => letters ρ.1) A') p +
      Spec.cipherAdvantage S key (fun ρ => letters ρ.1) (fun ρ => letters' ρ.1.1.1) A' goal p)
    Spec.chance (A.Succeed S dbg key pair letters me D l H red Q rng) ≤
      wire + 2 * w + Spec.chance (fun p : P => Spec.BytesRepeat S H n (rng p)) + 4 * (n : ℚ) * (H.length : ℚ) * δ := by
  intro A' goal wire
  have h := C180_forgery hS hp key me D h0 l J hJ hJ0 t ht H hH htH hHJ dbg n letters letters' red δ hδ rng Q hQ A
  have hs : ∀ (ω : (Spec.FreeCoins ι F G K (P × F × F) c × ({j // j ∈ J} → F)) × ({q // q ∈ Q} → C)) X,
      (A.blankKit S key letters' me D l H t ω.1 X).scale ≠ 0 := fun _ _ => lagrange_ne_zero hS.u32 D h0 l
  have i1 : Nonempty ((Spec.FreeCoins ι F G K (P × F × F) c × ({j // j ∈ J} → F)) × ({q // q ∈ Q} → C)) := inferInstance
  have q := two_insiders (Ω := (Spec.FreeCoins ι F G K (P × F × F) c × ({j // j ∈ J} → F)) × ({q // q ∈ Q} → C)) hS dbg H n hn
    (fun ω => A.blankKit S key letters' me D l H t ω.1) hs _ _ η w hw hη h1 h2
  exact second_part h q

/-- C180: if every nonce has its own 32 random bytes, they repeat with chance at most `N (N - 1) / 2 ^ 257` for `N = 2 n |H|`
nonces. -/
theorem C180_bytes (S : Suite F G R) (H : List U32) (n : ℕ) (rng : P × (Spec.Places H n → Fin 32 → Fin 256) → Fin H.length → R)
    (hrng : ∀ p s, Spec.nonceBytes S (rng p) s = Spec.thirtyTwo (p.2 s)) :
    let N : ℚ := 2 * n * H.length
    Spec.chance (fun p => Spec.BytesRepeat S H n (rng p)) ≤ N * (N - 1) / 2 ^ 257 := by
  intro N
  have h2 := C168_repeat S (Ω := P) (fun _ : Fin H.length => n) Spec.thirtyTwo thirtyTwo_injective rng hrng
    (fun _ => Spec.keysOf H fun _ => 0)
  have hB : (Fintype.card (Fin 32 → Fin 256) : ℚ) = 2 ^ 256 := by
    rw [Fintype.card_fun, Fintype.card_fin, Fintype.card_fin]
    norm_num
  have hT : (∑ _c : Fin H.length, 2 * ((n : ℕ) : ℚ)) = N := by
    simp only [Finset.sum_const, Finset.card_univ, Fintype.card_fin, nsmul_eq_mul, N]
    ring
  rw [hT, hB, div_div, ← pow_succ'] at h2
  refine le_trans (chance_mono fun p hp => ?_) h2
  obtain ⟨s, s', h1, h3, h4⟩ := hp
  exact ⟨s, s', h1, congrArg _ h3, h4⟩

end

/-! ### Concrete colluders -/

section Examples
open Toy

/-- The colluders of C158 who in addition ask both functions before every move. -/
def plotters : Spec.Conspiracy (Spec.Sight (Fin 3) Fp Fp (Unit × Nizk Fp) 3 colluders) Fp Fp (Fin 16) where
  deal v := .ask (v.1.2.2.2.2.2.r • suite.gen) fun _ => .done (colluderDeal ((), v.2))
  move v l := .also [1, 2, 3] fun z => .ask z fun _ => .done ((moonlighter dealtSecret).move ((), v.2) l)
  result v l := .ask 5 fun k => .also [k.val.toUInt8] fun _ => .done ((moonlighter dealtSecret).result ((), v.2) l)

example : plotters.AtMost 1 := ⟨fun _ _ => trivial, fun _ _ _ _ => trivial, fun _ _ _ _ => trivial⟩

/-- The random bytes of the three honest signers. -/
def plotTapes (_ : Unit) (c : Fin ([1, 3, 5] : List U32).length) : ℕ := 5 + c

/-- An asker that plays like the insider of C143, whatever it asks. -/
theorem forges_like {Ω : Type} (B : Spec.Asker Ω Fp Fp) (ω : Ω) (g : Bytes → Fp) (Y : Fp)
    (hm : ∀ l, (B.move ω l).run g = (moonlighter fun _ : Unit => Y).move () l)
    (hr : ∀ l, (B.result ω l).run g = (moonlighter fun _ : Unit => Y).result () l) (H : List U32) (hH : 1 ∈ H) (key : U32 → Fp)
    (d : Spec.Draw Fp (Fp × Fp)) (h : Fin (3 + 1) → Spec.Cell Fp (Fp × Fp)) (L : U32 → List (CommitmentShare Fp Fp)) :
    (B.succeeds suite true H 3 key Y ω d h L).run g := by
  have hp : ∀ c r u k, (B.reading g).play suite true H key Y ω c r u k =
      (moonlighter fun _ : Unit => Y).play suite true H key Y () c r u k := by
    intro c r u k
    induction k with
    | zero => rfl
    | succ k ih =>
      rw [Spec.Insider.play_succ, Spec.Insider.play_succ, ih]
      exact congrArg (fun a => Spec.gameStep suite true H key Y a _ _ _ _) (hm _)
  unfold Spec.Asker.succeeds
  rw [Spec.Program.run_andThen, asker_play, Spec.Program.run_andThen, Spec.Insider.listed_as_play, hp, hr]
  exact moonlighter_forges H hH Y _ _ _ _

theorem plotters_succeed (key : Fin 16 → Bytes) (Q : Finset Bytes)
    (x : Spec.TapCoins (Fin 3) Fp Fp (Fin 16) (Spec.GameCoins Fp (Unit × Fp) 3 3 × ({q // q ∈ Q} → Fp))) :
    plotters.Succeed suite true key threePairs shareOnFullWire 0 [1, 2, 3] 1 [1, 3, 5] id Q plotTapes x := by
  obtain ⟨b, k, χ, κ, ρ, f⟩ := x
  unfold Spec.Conspiracy.Succeed
  simp only
  generalize Spec.fullSight suite key threePairs shareOnFullWire colluders 0 1 b k χ κ ρ = v
  have hd : (plotters.deal v).run κ = colluderDeal ((), v.2) := rfl
  rw [hd]
  exact ⟨colluderDeal_accepted ((), v.2), forges_like _ _ _ _ (fun _ => rfl) (fun _ => rfl) _ (by decide) _ _ _ _⟩

/-- These colluders forge always, so the bound is at least 1. -/
example [Fintype Fp] [Fintype U32] (key : Fin 16 → Bytes) : ∃ Q : Finset Bytes,
    let A' : Spec.Reader (Fin 3) Fp Fp (Fin 16) (Spec.GameCoins Fp (Unit × Fp) 3 3 × ({q // q ∈ Q} → Fp)) _ 3 :=
      plotters.reader suite true 0 [1, 2, 3] 1 [1, 3, 5] id Q plotTapes
    let goal : Spec.Goal (Fin 3) Fp Fp (Spec.GameCoins Fp (Unit × Fp) 3 3 × ({q // q ∈ Q} → Fp)) _ :=
      fun B π χ ρ => Spec.forgedBy suite [1, 2, 3] 1 colluders [1, 3, 5] B π χ ρ.1
    let wire : ℚ := ∑ p, (Spec.dhChance suite threePairs (Spec.reading suite key (fun ρ => shareOnFullWire ρ.1) A') p +
      Spec.cipherAdvantage suite key (fun ρ => shareOnFullWire ρ.1) (fun ρ => nothingOnWire ρ.1.1.1) A' goal p)
    1 ≤ wire + 2 * 3 + Spec.chance (fun p : Unit => Spec.BytesRepeat suite [1, 3, 5] 3 (plotTapes p)) +
      4 * ((3 : ℕ) : ℚ) * (([1, 3, 5] : List U32).length : ℚ) * 0 := by
  obtain ⟨Q, hQ⟩ := Secp.exists_strings fun y : (Fin 3 → Fp) × Spec.Places [1, 3, 5] 3 =>
    Spec.nonceString suite (plotTapes ()) (fun c => ⟨([1, 3, 5] : List U32)[c], y.1 c⟩) y.2
  refine ⟨Q, ?_⟩
  have hF : (Fintype.card Fp : ℚ) = 6597069766657 := by
    rw [ZMod.card]
    norm_num
  have h := C180_hard lawful threePairs_pairs key 0 [1, 2, 3] (by decide) 1 colluders (by decide)
    (by decide) 3 rfl [1, 3, 5] (by decide) (by decide)
    (fun i hi => by simp at hi; rcases hi with rfl | rfl | rfl <;> decide) true 3 (by norm_num) shareOnFullWire nothingOnWire
    id 0 near_id plotTapes Q (fun _ sk s => hQ (fun c => sk ([1, 3, 5] : List U32)[c], s)) plotters 1 3 (by norm_num)
    (by rw [hF]; norm_num) (solveChance_le_one _ _ _ _ _ _) (solveChance_le_one _ _ _ _ _ _)
  rw [chance_one (plotters_succeed key Q)] at h
  exact h

/-- Blocks of random bytes as in the code meet the hypothesis of `C180_bytes`. -/
example (H : List U32) (n : ℕ) (p : Unit × (Spec.Places H n → Fin 32 → Fin 256)) (s : Spec.Places H n) :
    Spec.nonceBytes (Secp.suite Secp.blockParts) (Secp.blockTapes p.2) s = Spec.thirtyTwo (p.2 s) :=
  Secp.blockTapes_bytes p.2 s

end Examples

end IceFrost
