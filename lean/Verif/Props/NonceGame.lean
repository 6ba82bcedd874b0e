import Verif.Props.Imperfect
import Verif.Props.NonceHash

/-! # C179: forging when the nonces come from `generate_commitment_share_lists`

In C143 the nonces of the honest signers are uniform scalars. Here the honest signers take them from the lists that
`generate_commitment_share_lists` (`src/sign/precomputation.rs:179-206`) made with their signing keys, and the hash function
for nonces is a random function that the insider may ask as well. The insider may also know all random bytes. -/

set_option linter.unusedSectionVars false
set_option linter.unusedVariables false

namespace IceFrost

open Finset

variable {F G R : Type} [Field F] [DecidableEq F] [AddCommGroup G] [Module F G] [DecidableEq G]
variable {Ω : Type}

/-! ### The game -/

/-- Somebody who takes part in signing sessions, as in C143, and may ask the hash function for nonces before every move and
before the result. -/
structure Spec.Asker (Ω F G : Type) where
  move : Ω → List (Spec.Feedback F G) → Spec.Program Bytes F (Spec.Action G)
  result : Ω → List (Spec.Feedback F G) → Spec.Program Bytes F (Bytes × ThresholdSignature F G)

/-- The nonces of pair number `k` of a secret list. -/
def Spec.secretsAt (L : List (CommitmentShare F G)) (k : ℕ) : F × F :=
  match L[k]? with
  | some s => (s.hidingC.secret, s.bindingC.secret)
  | none => (0, 0)

/-- The nonces for move number `k`: an honest signer announces pair number `k` of its list `L`; anybody else may announce what
it likes (`u`). -/
def Spec.nonceFor (H : List U32) (L : U32 → List (CommitmentShare F G)) (k : ℕ) (u : F × F) : Spec.Action G → F × F
  | .announce i => if i ∈ H then Spec.secretsAt (L i) k else u
  | _ => u

namespace Spec.Asker

variable (B : Spec.Asker Ω F G)

/-- The first `k` moves of the game of C143, with nonces from the lists `L`. -/
def play (S : Suite F G R) (dbg : Bool) (H : List U32) (key : U32 → F) (Y : G) (ω : Ω) (c : ℕ → F) (r : ℕ → U32 → F)
    (u : ℕ → F × F) (L : U32 → List (CommitmentShare F G)) :
    ℕ → Spec.Program Bytes F (Spec.Board F G × (U32 → List (CommitmentShare F G)))
  | 0 => .done (⟨[], [], [], [], []⟩, fun _ => [])
  | k + 1 => (play S dbg H key Y ω c r u L k).andThen fun st =>
    (B.move ω st.1.replies).andThen fun mv =>
      .done (Spec.gameStep S dbg H key Y mv st (c k) (r k) (Spec.nonceFor H L k (u k) mv))

/-- Whether the result after `n` moves is a forgery. -/
def succeeds (S : Suite F G R) (dbg : Bool) (H : List U32) (n : ℕ) (key : U32 → F) (Y : G) (ω : Ω)
    (d : Spec.Draw F (F × F)) (h : Fin (n + 1) → Spec.Cell F (F × F)) (L : U32 → List (CommitmentShare F G)) :
    Spec.Program Bytes F Prop :=
  (B.play S dbg H key Y ω (Spec.answers h) (fun a => (Spec.drawn d h a).1) (fun a => (Spec.drawn d h a).2) L n).andThen fun st =>
    (B.result ω st.1.replies).andThen fun o => .done (st.1.Forged S Y o (Spec.answers h n))

/-- The same program when the answers of the hash function for nonces are `g`: an insider of C143. -/
def reading (g : Bytes → F) : Spec.Insider Ω F G := ⟨fun ω l => (B.move ω l).run g, fun ω l => (B.result ω l).run g⟩

/-- The questions to the hash function for nonces after the replies `l`, in a game with `n` moves. -/
def asked (n : ℕ) (g : Bytes → F) (ω : Ω) (l : List (Spec.Feedback F G)) : List Bytes :=
  if l.length < n then (B.move ω l).questions g else (B.result ω l).questions g

end Spec.Asker

/-! ### One move -/

theorem gameStep_replies (S : Suite F G R) (dbg : Bool) (H : List U32) (key : U32 → F) (Y : G) (mv : Spec.Action G)
    (st : Spec.Board F G × (U32 → List (CommitmentShare F G))) (c : F) (r : U32 → F) (u : F × F) :
    ∃ x, (Spec.gameStep S dbg H key Y mv st c r u).1.replies = st.1.replies ++ [x] := by
  cases mv with
  | hash b =>
    show ∃ x, (st.1.hash S b c).replies = st.1.replies ++ [x]
    unfold Spec.Board.hash
    split_ifs
    · exact ⟨_, rfl⟩
    · exact ⟨_, rfl⟩
  | factors msg signers => exact ⟨_, rfl⟩
  | announce i => exact ⟨_, rfl⟩
  | sign i k msg signers =>
    unfold Spec.gameStep
    simp only
    split_ifs
    · exact ⟨_, rfl⟩
    · exact ⟨_, rfl⟩
    · exact ⟨_, rfl⟩

theorem gameStep_named (S : Suite F G R) (dbg : Bool) (H : List U32) (key : U32 → F) (Y : G) (mv : Spec.Action G)
    (st : Spec.Board F G × (U32 → List (CommitmentShare F G))) (c : F) (r : U32 → F) (u : F × F) :
    ∃ x, (Spec.gameStep S dbg H key Y mv st c r u).1.named = st.1.named ++ [x] := by
  cases mv with
  | hash b =>
    show ∃ x, (st.1.hash S b c).named = st.1.named ++ [x]
    unfold Spec.Board.hash
    split_ifs
    · exact ⟨_, rfl⟩
    · exact ⟨_, rfl⟩
  | factors msg signers => exact ⟨_, rfl⟩
  | announce i => exact ⟨_, rfl⟩
  | sign i k msg signers =>
    unfold Spec.gameStep
    simp only
    split_ifs
    · exact ⟨_, rfl⟩
    · exact ⟨_, rfl⟩
    · exact ⟨_, rfl⟩

/-- Only `sign` adds to the signed messages. -/
theorem gameStep_signed (S : Suite F G R) (dbg : Bool) (H : List U32) (key : U32 → F) (Y : G) (mv : Spec.Action G)
    (st : Spec.Board F G × (U32 → List (CommitmentShare F G))) (c : F) (r : U32 → F) (u : F × F) (m : Bytes)
    (hm : m ∈ (Spec.gameStep S dbg H key Y mv st c r u).1.signed) :
    m ∈ st.1.signed ∨ ∃ i k signers, mv = .sign i k m signers := by
  cases mv with
  | hash b =>
    change m ∈ (st.1.hash S b c).signed at hm
    unfold Spec.Board.hash at hm
    split_ifs at hm
    · exact .inl hm
    · exact .inl hm
  | factors msg signers => exact .inl hm
  | announce i => exact .inl hm
  | sign i k msg signers =>
    unfold Spec.gameStep at hm
    simp only at hm
    split_ifs at hm
    · rcases List.mem_append.mp hm with h | h
      · exact .inl h
      · exact .inr ⟨i, k, signers, by rw [List.mem_singleton.mp h]⟩
    · exact .inl hm
    · exact .inl hm

/-- A hash question names nothing and signs nothing. -/
theorem gameStep_hash_named (S : Suite F G R) (dbg : Bool) (H : List U32) (key : U32 → F) (Y : G) (b : Spec.Question)
    (st : Spec.Board F G × (U32 → List (CommitmentShare F G))) (c : F) (r : U32 → F) (u : F × F) :
    (Spec.gameStep S dbg H key Y (.hash b) st c r u).1.named = st.1.named ++ [none] ∧
      (Spec.gameStep S dbg H key Y (.hash b) st c r u).1.signed = st.1.signed := by
  show (st.1.hash S b c).named = st.1.named ++ [none] ∧ (st.1.hash S b c).signed = st.1.signed
  unfold Spec.Board.hash
  split_ifs
  · exact ⟨rfl, rfl⟩
  · exact ⟨rfl, rfl⟩

theorem noCollision_mono {S : Suite F G R} {st st' : Spec.Board F G} (h : st.named <+: st'.named)
    (hc : st'.NoCollision S) : st.NoCollision S :=
  fun m B m' B' i h1 h2 h3 => hc m B m' B' i (h.subset h1) (h.subset h2) h3

/-! ### Nonces from lists, for an insider that asks nothing -/

namespace Spec.Insider

variable (A : Spec.Insider Ω F G) (S : Suite F G R) (dbg : Bool) (H : List U32) (key : U32 → F) (Y : G) (ω : Ω)

/-- The game with nonces from lists. -/
def listed (c : ℕ → F) (r : ℕ → U32 → F) (u : ℕ → F × F) (L : U32 → List (CommitmentShare F G)) :
    ℕ → Spec.Board F G × (U32 → List (CommitmentShare F G))
  | 0 => (⟨[], [], [], [], []⟩, fun _ => [])
  | k + 1 =>
    let st := listed c r u L k
    let mv := A.move ω st.1.replies
    Spec.gameStep S dbg H key Y mv st (c k) (r k) (Spec.nonceFor H L k (u k) mv)

theorem listed_play (c : ℕ → F) (r : ℕ → U32 → F) (u u' : ℕ → F × F) (L : U32 → List (CommitmentShare F G)) (N : ℕ)
    (h : ∀ k < N, Spec.nonceFor H L k (u k) (A.move ω (A.play S dbg H key Y ω c r u' k).1.replies) = u' k) :
    ∀ k ≤ N, A.listed S dbg H key Y ω c r u L k = A.play S dbg H key Y ω c r u' k := by
  intro k
  induction k with
  | zero => intro _; rfl
  | succ k ih =>
    intro hk
    have e := ih (by omega)
    show Spec.gameStep S dbg H key Y (A.move ω (A.listed S dbg H key Y ω c r u L k).1.replies)
      (A.listed S dbg H key Y ω c r u L k) (c k) (r k)
      (Spec.nonceFor H L k (u k) (A.move ω (A.listed S dbg H key Y ω c r u L k).1.replies)) = _
    rw [e, h k (by omega)]
    rfl

theorem play_replies_length (c : ℕ → F) (r : ℕ → U32 → F) (u : ℕ → F × F) (k : ℕ) :
    (A.play S dbg H key Y ω c r u k).1.replies.length = k := by
  induction k with
  | zero => rfl
  | succ k ih =>
    obtain ⟨x, hx⟩ := gameStep_replies S dbg H key Y (A.move ω (A.play S dbg H key Y ω c r u k).1.replies)
      (A.play S dbg H key Y ω c r u k) (c k) (r k) (u k)
    rw [play_succ, hx, List.length_append, ih]
    rfl

theorem play_replies_prefix (c : ℕ → F) (r : ℕ → U32 → F) (u : ℕ → F × F) {k k' : ℕ} (h : k ≤ k') :
    (A.play S dbg H key Y ω c r u k).1.replies <+: (A.play S dbg H key Y ω c r u k').1.replies := by
  induction k', h using Nat.le_induction with
  | base => exact List.prefix_rfl
  | succ k' _ ih =>
    obtain ⟨x, hx⟩ := gameStep_replies S dbg H key Y (A.move ω (A.play S dbg H key Y ω c r u k').1.replies)
      (A.play S dbg H key Y ω c r u k') (c k') (r k') (u k')
    rw [play_succ, hx]
    exact ih.trans (List.prefix_append _ _)

theorem play_replies_take (c : ℕ → F) (r : ℕ → U32 → F) (u : ℕ → F × F) {k k' : ℕ} (h : k ≤ k') :
    (A.play S dbg H key Y ω c r u k').1.replies.take k = (A.play S dbg H key Y ω c r u k).1.replies := by
  have h1 := A.play_replies_prefix S dbg H key Y ω c r u h
  have h2 := List.prefix_iff_eq_take.mp h1
  rw [play_replies_length] at h2
  exact h2.symm

theorem play_named_prefix (c : ℕ → F) (r : ℕ → U32 → F) (u : ℕ → F × F) {k k' : ℕ} (h : k ≤ k') :
    (A.play S dbg H key Y ω c r u k).1.named <+: (A.play S dbg H key Y ω c r u k').1.named := by
  induction k', h using Nat.le_induction with
  | base => exact List.prefix_rfl
  | succ k' _ ih =>
    obtain ⟨x, hx⟩ := gameStep_named S dbg H key Y (A.move ω (A.play S dbg H key Y ω c r u k').1.replies)
      (A.play S dbg H key Y ω c r u k') (c k') (r k') (u k')
    rw [play_succ, hx]
    exact ih.trans (List.prefix_append _ _)

/-- Every signed message was part of a move. -/
theorem play_signed (c : ℕ → F) (r : ℕ → U32 → F) (u : ℕ → F × F) (k : ℕ) (m : Bytes)
    (hm : m ∈ (A.play S dbg H key Y ω c r u k).1.signed) :
    ∃ j < k, ∃ i a signers, A.move ω ((A.play S dbg H key Y ω c r u k).1.replies.take j) = .sign i a m signers := by
  induction k with
  | zero => cases hm
  | succ k ih =>
    rw [play_succ] at hm
    rcases gameStep_signed _ _ _ _ _ _ _ _ _ _ m hm with h | ⟨i, a, signers, h⟩
    · obtain ⟨j, hj, i, a, signers, h⟩ := ih h
      refine ⟨j, by omega, i, a, signers, ?_⟩
      rw [A.play_replies_take S dbg H key Y ω c r u (show j ≤ k + 1 by omega)]
      rwa [A.play_replies_take S dbg H key Y ω c r u (show j ≤ k by omega)] at h
    · refine ⟨k, by omega, i, a, signers, ?_⟩
      rw [A.play_replies_take S dbg H key Y ω c r u (show k ≤ k + 1 by omega)]
      exact h

/-- The first `k` moves depend only on what is drawn for them. -/
theorem play_congr {c c' : ℕ → F} {r r' : ℕ → U32 → F} {u u' : ℕ → F × F} (k : ℕ) (hc : ∀ a < k, c a = c' a)
    (hr : ∀ a < k, r a = r' a) (hu : ∀ a < k, u a = u' a) :
    A.play S dbg H key Y ω c r u k = A.play S dbg H key Y ω c' r' u' k := by
  induction k with
  | zero => rfl
  | succ k ih =>
    rw [play_succ, play_succ, ih (fun a ha => hc a (by omega)) (fun a ha => hr a (by omega)) (fun a ha => hu a (by omega)),
      hc k (by omega), hr k (by omega), hu k (by omega)]

end Spec.Insider

/-- The game of an asker is that of the insider that knows the answers. -/
theorem asker_play (B : Spec.Asker Ω F G) (S : Suite F G R) (dbg : Bool) (H : List U32) (key : U32 → F) (Y : G) (ω : Ω)
    (c : ℕ → F) (r : ℕ → U32 → F) (u : ℕ → F × F) (L : U32 → List (CommitmentShare F G)) (g : Bytes → F) (k : ℕ) :
    (B.play S dbg H key Y ω c r u L k).run g = (B.reading g).listed S dbg H key Y ω c r u L k := by
  induction k with
  | zero => rfl
  | succ k ih =>
    show ((B.play S dbg H key Y ω c r u L k).andThen _).run g = _
    rw [Spec.Program.run_andThen, ih, Spec.Program.run_andThen]
    rfl

namespace Spec.Insider

variable (A : Spec.Insider Ω F G) (S : Suite F G R) (dbg : Bool) (H : List U32) (key : U32 → F) (Y : G) (ω : Ω)

/-- The game with lists is a game of C143 with other nonces. -/
theorem listed_as_play (c : ℕ → F) (r : ℕ → U32 → F) (u : ℕ → F × F) (L : U32 → List (CommitmentShare F G)) (k : ℕ) :
    A.listed S dbg H key Y ω c r u L k = A.play S dbg H key Y ω c r
      (fun j => Spec.nonceFor H L j (u j) (A.move ω (A.listed S dbg H key Y ω c r u L j).1.replies)) k := by
  induction k with
  | zero => rfl
  | succ k ih =>
    rw [play_succ, ← ih]
    rfl

end Spec.Insider

/-! ### The game depends only on the answers to questions asked before a collision -/

theorem reading_same (B : Spec.Asker Ω F G) (S : Suite F G R) (dbg : Bool) (H : List U32) (n : ℕ) (key : U32 → F) (Y : G)
    (ω : Ω) (c : ℕ → F) (r : ℕ → U32 → F) (u : ℕ → F × F) (L : U32 → List (CommitmentShare F G)) (g g' : Bytes → F)
    (hg : ∀ k ≤ n, ((B.reading g).listed S dbg H key Y ω c r u L k).1.NoCollision S →
      ∀ q ∈ B.asked n g ω ((B.reading g).listed S dbg H key Y ω c r u L k).1.replies, g q = g' q) :
    ((B.reading g).listed S dbg H key Y ω c r u L n).1.Forged S Y
        ((B.result ω ((B.reading g).listed S dbg H key Y ω c r u L n).1.replies).run g) (c n) ↔
      ((B.reading g').listed S dbg H key Y ω c r u L n).1.Forged S Y
        ((B.result ω ((B.reading g').listed S dbg H key Y ω c r u L n).1.replies).run g') (c n) := by
  have hlen : ∀ k, ((B.reading g).listed S dbg H key Y ω c r u L k).1.replies.length = k := fun k => by
    rw [Spec.Insider.listed_as_play]
    exact Spec.Insider.play_replies_length _ _ _ _ _ _ _ _ _ _ _
  have hmono : ∀ (g : Bytes → F) (k : ℕ), ((B.reading g).listed S dbg H key Y ω c r u L (k + 1)).1.NoCollision S →
      ((B.reading g).listed S dbg H key Y ω c r u L k).1.NoCollision S := fun g k h => by
    rw [Spec.Insider.listed_as_play] at h ⊢
    exact noCollision_mono (Spec.Insider.play_named_prefix _ _ _ _ _ _ _ _ _ _ (Nat.le_succ k)) h
  have hkey : ∀ k ≤ n, (B.reading g).listed S dbg H key Y ω c r u L k = (B.reading g').listed S dbg H key Y ω c r u L k ∨
      (¬ ((B.reading g).listed S dbg H key Y ω c r u L k).1.NoCollision S ∧
        ¬ ((B.reading g').listed S dbg H key Y ω c r u L k).1.NoCollision S) := by
    intro k
    induction k with
    | zero => intro _; exact .inl rfl
    | succ k ih =>
      intro hk
      rcases ih (by omega) with he | ⟨h1, h2⟩
      · by_cases hc : ((B.reading g).listed S dbg H key Y ω c r u L k).1.NoCollision S
        · left
          have hq := hg k (by omega) hc
          rw [Spec.Asker.asked, hlen, if_pos (by omega)] at hq
          have hrun := (Spec.Program.run_congr (κ := g) (κ' := g') _ fun q h => (hq q h).symm).1
          show Spec.gameStep S dbg H key Y ((B.move ω ((B.reading g).listed S dbg H key Y ω c r u L k).1.replies).run g) _ _ _
            (Spec.nonceFor H L k (u k) ((B.move ω ((B.reading g).listed S dbg H key Y ω c r u L k).1.replies).run g)) =
            Spec.gameStep S dbg H key Y ((B.move ω ((B.reading g').listed S dbg H key Y ω c r u L k).1.replies).run g') _ _ _
            (Spec.nonceFor H L k (u k) ((B.move ω ((B.reading g').listed S dbg H key Y ω c r u L k).1.replies).run g'))
          rw [← hrun, he]
        · exact .inr ⟨fun h => hc (hmono g k h), fun h => hc (he ▸ hmono g' k h)⟩
      · exact .inr ⟨fun h => h1 (hmono g k h), fun h => h2 (hmono g' k h)⟩
  rcases hkey n le_rfl with he | ⟨h1, h2⟩
  · by_cases hc : ((B.reading g).listed S dbg H key Y ω c r u L n).1.NoCollision S
    · have hq := hg n le_rfl hc
      rw [Spec.Asker.asked, hlen, if_neg (by omega)] at hq
      rw [← (Spec.Program.run_congr (κ := g) (κ' := g') _ fun q h => (hq q h).symm).1, he]
    · exact ⟨fun h => absurd h.2.2 hc, fun h => absurd (he ▸ h.2.2) hc⟩
  · exact ⟨fun h => absurd h.2.2 h1, fun h => absurd h.2.2 h2⟩

/-! ### Taking nonces from the lists of all honest signers is the same as drawing them when they are needed -/

/-- The places of nonces of the honest signers `H`: `n` pairs each. -/
abbrev Spec.Places (H : List U32) (n : ℕ) := Spec.Slot fun _ : Fin H.length => n

/-- The secret lists of the honest signers with the nonces `w`. -/
def Spec.listsOf (S : Suite F G R) (H : List U32) (n : ℕ) (w : Spec.Places H n → F) (i : U32) : List (CommitmentShare F G) :=
  match H.finIdxOf? i with
  | some c => Spec.nonceList S w c
  | none => []

/-- The honest signer that a move asks for a nonce pair. -/
def Spec.owner (H : List U32) : Spec.Action G → Option (Fin H.length)
  | .announce i => H.finIdxOf? i
  | _ => none

theorem nonceFor_lists (S : Suite F G R) (H : List U32) (n : ℕ) (w : Spec.Places H n → F) (k : ℕ) (hk : k < n) (u : F × F)
    (mv : Spec.Action G) : Spec.nonceFor H (Spec.listsOf S H n w) k u mv =
      match Spec.owner H mv with
      | some c => (w ⟨c, ⟨k, hk⟩, false⟩, w ⟨c, ⟨k, hk⟩, true⟩)
      | none => u := by
  cases mv with
  | hash b => rfl
  | factors msg signers => rfl
  | sign i k msg signers => rfl
  | announce i =>
    unfold Spec.nonceFor Spec.owner Spec.listsOf
    cases hc : H.finIdxOf? i with
    | none =>
      have hi : i ∉ H := List.finIdxOf?_eq_none_iff.mp hc
      simp only [hi, if_false, hc]
    | some c =>
      have hi : i ∈ H := by
        rw [← (List.finIdxOf?_eq_some_iff.mp hc).1]
        exact List.getElem_mem _
      simp only [hi, if_true, hc]
      unfold Spec.secretsAt Spec.nonceList
      rw [List.getElem?_ofFn, dif_pos hk]

section Swap

variable {N : ℕ}

/-- The nonce pairs of a tape replaced. -/
def Spec.withPairs (v : ℕ → F × F) (y : Spec.Draw F (F × F) × (Fin N → Spec.Cell F (F × F))) :
    Spec.Draw F (F × F) × (Fin N → Spec.Cell F (F × F)) :=
  ((y.1.1, v 0), fun a => ((y.2 a).1, (y.2 a).2.1, v (a + 1)))

theorem withPairs_answers (v : ℕ → F × F) (y : Spec.Draw F (F × F) × (Fin N → Spec.Cell F (F × F))) :
    Spec.answers (Spec.withPairs v y).2 = Spec.answers y.2 := by
  funext a
  unfold Spec.answers
  split_ifs <;> rfl

theorem withPairs_factors (v : ℕ → F × F) (y : Spec.Draw F (F × F) × (Fin N → Spec.Cell F (F × F))) (a : ℕ) :
    (Spec.drawn (Spec.withPairs v y).1 (Spec.withPairs v y).2 a).1 = (Spec.drawn y.1 y.2 a).1 := by
  cases a with
  | zero => rfl
  | succ a =>
    show (if ha : a < N then ((Spec.withPairs v y).2 ⟨a, ha⟩).2 else (Spec.withPairs v y).1).1 =
      (if ha : a < N then (y.2 ⟨a, ha⟩).2 else y.1).1
    split_ifs <;> rfl

theorem withPairs_pairs (v : ℕ → F × F) (y : Spec.Draw F (F × F) × (Fin N → Spec.Cell F (F × F))) (a : ℕ) (ha : a ≤ N) :
    (Spec.drawn (Spec.withPairs v y).1 (Spec.withPairs v y).2 a).2 = v a := by
  cases a with
  | zero => rfl
  | succ a =>
    show (if ha : a < N then ((Spec.withPairs v y).2 ⟨a, ha⟩).2 else (Spec.withPairs v y).1).2 = _
    rw [dif_pos (by omega)]
    rfl

theorem tape_ext {y y' : Spec.Draw F (F × F) × (Fin N → Spec.Cell F (F × F))} (hc : Spec.answers y.2 = Spec.answers y'.2)
    (hd : ∀ a ≤ N, Spec.drawn y.1 y.2 a = Spec.drawn y'.1 y'.2 a) : y = y' := by
  refine Prod.ext (hd 0 (by omega)) (funext fun a => Prod.ext ?_ ?_)
  · have := congrFun hc a
    unfold Spec.answers at this
    rwa [dif_pos a.2, dif_pos a.2] at this
  · have : (if ha : (a : ℕ) < N then (y.2 ⟨a, ha⟩).2 else y.1) = if ha : (a : ℕ) < N then (y'.2 ⟨a, ha⟩).2 else y'.1 :=
      hd (a + 1) (by omega)
    rwa [dif_pos a.2, dif_pos a.2] at this

variable (A : Spec.Insider Ω F G) (S : Suite F G R) (dbg : Bool) (H : List U32) (n : ℕ) (key : U32 → F) (Y : G) (ω : Ω)

/-- The game of C143 on a tape. -/
abbrev Spec.Insider.onTape (y : Spec.Draw F (F × F) × (Fin N → Spec.Cell F (F × F))) (k : ℕ) :
    Spec.Board F G × (U32 → List (CommitmentShare F G)) :=
  A.play S dbg H key Y ω (Spec.answers y.2) (fun a => (Spec.drawn y.1 y.2 a).1) (fun a => (Spec.drawn y.1 y.2 a).2) k

/-- The game with lists on a tape. -/
abbrev Spec.Insider.onLists (y : Spec.Draw F (F × F) × (Fin N → Spec.Cell F (F × F)))
    (L : U32 → List (CommitmentShare F G)) (k : ℕ) : Spec.Board F G × (U32 → List (CommitmentShare F G)) :=
  A.listed S dbg H key Y ω (Spec.answers y.2) (fun a => (Spec.drawn y.1 y.2 a).1) (fun a => (Spec.drawn y.1 y.2 a).2) L k

/-- Whom move number `k` asks for a nonce pair. -/
def Spec.Insider.owns (y : Spec.Draw F (F × F) × (Fin N → Spec.Cell F (F × F))) (k : ℕ) : Option (Fin H.length) :=
  Spec.owner H (A.move ω (A.onTape S dbg H key Y ω y k).1.replies)

/-- The pairs of the tape and the pairs in the lists are exchanged where the game of C143 uses them. -/
def Spec.Insider.exchange (z : (Spec.Places H n → F) × Spec.Draw F (F × F) × (Fin N → Spec.Cell F (F × F))) :
    (Spec.Places H n → F) × Spec.Draw F (F × F) × (Fin N → Spec.Cell F (F × F)) :=
  (fun t => if A.owns S dbg H key Y ω z.2 t.2.1 = some t.1 then
      (if t.2.2 then (Spec.drawn z.2.1 z.2.2 t.2.1).2.2 else (Spec.drawn z.2.1 z.2.2 t.2.1).2.1) else z.1 t,
    Spec.withPairs (fun a => if ha : a < n then
      (match A.owns S dbg H key Y ω z.2 a with
        | some i => (z.1 ⟨i, ⟨a, ha⟩, false⟩, z.1 ⟨i, ⟨a, ha⟩, true⟩)
        | none => (Spec.drawn z.2.1 z.2.2 a).2) else (Spec.drawn z.2.1 z.2.2 a).2) z.2)

theorem exchange_game (hN : n ≤ N) (z : (Spec.Places H n → F) × Spec.Draw F (F × F) × (Fin N → Spec.Cell F (F × F))) :
    ∀ k ≤ n, A.onLists S dbg H key Y ω (A.exchange S dbg H n key Y ω z).2
      (Spec.listsOf S H n (A.exchange S dbg H n key Y ω z).1) k = A.onTape S dbg H key Y ω z.2 k := by
  intro k hk
  unfold Spec.Insider.onLists Spec.Insider.onTape
  have h1 : Spec.answers (A.exchange S dbg H n key Y ω z).2.2 = Spec.answers z.2.2 := withPairs_answers _ _
  have h2 : (fun a => (Spec.drawn (A.exchange S dbg H n key Y ω z).2.1 (A.exchange S dbg H n key Y ω z).2.2 a).1) =
      fun a => (Spec.drawn z.2.1 z.2.2 a).1 := funext fun a => withPairs_factors _ _ a
  rw [h1, h2]
  refine A.listed_play S dbg H key Y ω _ _ _ _ _ n (fun j hj => ?_) k hk
  rw [nonceFor_lists S H n _ j hj]
  have h3 : (Spec.drawn (A.exchange S dbg H n key Y ω z).2.1 (A.exchange S dbg H n key Y ω z).2.2 j).2 = _ :=
    withPairs_pairs _ z.2 j (by omega)
  rw [dif_pos hj] at h3
  have ho : Spec.owner H (A.move ω (A.play S dbg H key Y ω (Spec.answers z.2.2) (fun a => (Spec.drawn z.2.1 z.2.2 a).1)
    (fun a => (Spec.drawn z.2.1 z.2.2 a).2) j).1.replies) = A.owns S dbg H key Y ω z.2 j := rfl
  rw [ho]
  cases hown : A.owns S dbg H key Y ω z.2 j with
  | none =>
    rw [hown] at h3
    exact h3
  | some i =>
    unfold Spec.Insider.exchange
    simp only [hown, if_true, Bool.false_eq_true, if_false]

theorem exchange_answers (z : (Spec.Places H n → F) × Spec.Draw F (F × F) × (Fin N → Spec.Cell F (F × F))) :
    Spec.answers (A.exchange S dbg H n key Y ω z).2.2 = Spec.answers z.2.2 := withPairs_answers _ _

theorem exchange_injective (hN : n ≤ N) : Function.Injective (A.exchange S dbg H n key Y ω : (Spec.Places H n → F) ×
    Spec.Draw F (F × F) × (Fin N → Spec.Cell F (F × F)) → _) := by
  intro z z' he
  have hg : ∀ k ≤ n, A.onTape S dbg H key Y ω z.2 k = A.onTape S dbg H key Y ω z'.2 k := fun k hk => by
    rw [← exchange_game A S dbg H n key Y ω hN z k hk, ← exchange_game A S dbg H n key Y ω hN z' k hk, he]
  have ho : ∀ k ≤ n, A.owns S dbg H key Y ω z.2 k = A.owns S dbg H key Y ω z'.2 k := fun k hk => by
    unfold Spec.Insider.owns
    rw [hg k hk]
  have hw : ∀ t, (A.exchange S dbg H n key Y ω z).1 t = (A.exchange S dbg H n key Y ω z').1 t := fun t => by rw [he]
  have hv : ∀ a ≤ N, _ := fun a (ha : a ≤ N) => (withPairs_pairs _ z.2 a ha).symm.trans
    ((show (Spec.drawn (A.exchange S dbg H n key Y ω z).2.1 (A.exchange S dbg H n key Y ω z).2.2 a).2 =
      (Spec.drawn (A.exchange S dbg H n key Y ω z').2.1 (A.exchange S dbg H n key Y ω z').2.2 a).2 by rw [he]).trans
      (withPairs_pairs _ z'.2 a ha))
  have hpair : ∀ a ≤ N, (Spec.drawn z.2.1 z.2.2 a).2 = (Spec.drawn z'.2.1 z'.2.2 a).2 := by
    intro a ha
    have h := hv a ha
    by_cases han : a < n
    · rw [dif_pos han, dif_pos han, ← ho a (by omega)] at h
      cases hown : A.owns S dbg H key Y ω z.2 a with
      | none =>
        rw [hown] at h
        exact h
      | some i =>
        have hown' : A.owns S dbg H key Y ω z'.2 a = some i := by rw [← ho a (by omega), hown]
        have e1 := hw ⟨i, ⟨a, han⟩, false⟩
        have e2 := hw ⟨i, ⟨a, han⟩, true⟩
        unfold Spec.Insider.exchange at e1 e2
        simp only [hown, hown', if_true, Bool.false_eq_true, if_false] at e1 e2
        exact Prod.ext e1 e2
    · rwa [dif_neg han, dif_neg han] at h
  have hc : Spec.answers z.2.2 = Spec.answers z'.2.2 := by
    rw [← withPairs_answers _ z.2, ← withPairs_answers _ z'.2]
    exact congrArg (fun q => Spec.answers q.2.2) he
  have hr : ∀ a, (Spec.drawn z.2.1 z.2.2 a).1 = (Spec.drawn z'.2.1 z'.2.2 a).1 := fun a => by
    rw [← withPairs_factors _ z.2, ← withPairs_factors _ z'.2]
    exact congrArg (fun q : (Spec.Places H n → F) × Spec.Draw F (F × F) × (Fin N → Spec.Cell F (F × F)) =>
      (Spec.drawn q.2.1 q.2.2 a).1) he
  refine Prod.ext (funext fun t => ?_) (tape_ext hc fun a ha => Prod.ext (hr a) (hpair a ha))
  obtain ⟨i, ⟨a, han⟩, b⟩ := t
  replace han : a < n := han
  have h1 := hw ⟨i, ⟨a, han⟩, b⟩
  have h2 := hv a (by omega)
  rw [dif_pos han, dif_pos han, ← ho a (by omega)] at h2
  unfold Spec.Insider.exchange at h1
  simp only [← ho a (le_of_lt han)] at h1
  by_cases hown : A.owns S dbg H key Y ω z.2 a = some i
  · rw [hown] at h2
    cases b
    · exact congrArg Prod.fst h2
    · exact congrArg Prod.snd h2
  · rwa [if_neg hown, if_neg hown] at h1

end Swap

/-! ### A question that reveals a signing key ends in a forgery

Nobody knows the signing key of an honest signer. Whoever asks the hash function for nonces a string that contains one can
stop there, compute the group key, and sign any message. -/

/-- The secret `x` behind `X = x • g`, read off one of the strings `qs`, if one of them contains the signing key of an honest
signer. -/
def Spec.keyFound (S : Suite F G R) (kit : Spec.Kit F) (H : List U32) (X : G) (qs : List Bytes) : Option F :=
  qs.findSome? fun q =>
    match (signingKeyCodec S).dec (q.drop S.hashLen) with
    | some (sk, _) =>
      if sk.index ∈ H ∧ sk.key • S.gen = kit.publicKey S X sk.index then
        some ((sk.key - kit.keyShift sk.index) / kit.keyScale sk.index) else none
    | none => none

theorem found_sound {S : Suite F G R} (hg : S.GroupLaws) (kit : Spec.Kit F) (H : List U32) (hk : ∀ i ∈ H, kit.keyScale i ≠ 0)
    (x : F) (qs : List Bytes) (x' : F) (h : Spec.keyFound S kit H (x • S.gen) qs = some x') : x' = x := by
  unfold Spec.keyFound at h
  obtain ⟨q, -, hq⟩ := List.exists_of_findSome?_eq_some h
  split at hq
  · next sk _ _ =>
    split_ifs at hq with hc
    obtain ⟨hi, he⟩ := hc
    rw [Spec.Kit.publicKey_eq] at he
    have hkey := hg.gen_inj _ _ he
    rw [← Option.some.inj hq, hkey]
    unfold Spec.Kit.key
    rw [add_sub_cancel_right, mul_comm, mul_div_assoc, div_self (hk _ hi), mul_one]
  · cases hq

theorem found_complete (S : Suite F G R) (kit : Spec.Kit F) (H : List U32) (x : F) (qs : List Bytes) (q : Bytes) (hq : q ∈ qs)
    (i : U32) (hi : i ∈ H) (l : Bytes) (hdec : (signingKeyCodec S).dec (q.drop S.hashLen) = some (⟨i, kit.key x i⟩, l)) :
    (Spec.keyFound S kit H (x • S.gen) qs).isSome := by
  unfold Spec.keyFound
  rw [List.findSome?_isSome_iff]
  refine ⟨q, hq, ?_⟩
  rw [hdec]
  simp only
  rw [if_pos ⟨hi, (Spec.Kit.publicKey_eq S kit x i).symm⟩]
  rfl

theorem found_mono (S : Suite F G R) (kit : Spec.Kit F) (H : List U32) (X : G) {qs qs' : List Bytes} (h : qs ⊆ qs')
    (hs : (Spec.keyFound S kit H X qs).isSome) : (Spec.keyFound S kit H X qs').isSome := by
  unfold Spec.keyFound at hs ⊢
  rw [List.findSome?_isSome_iff] at hs ⊢
  obtain ⟨q, hq, h'⟩ := hs
  exact ⟨q, h hq, h'⟩

/-- The length of the message that a move asks to sign. -/
def Spec.Action.size : Spec.Action G → ℕ
  | .sign _ _ m _ => m.length
  | _ => 0

namespace Spec.Asker

variable (B : Spec.Asker Ω F G) (S : Suite F G R) (kit : Spec.Kit F) (H : List U32) (X : G) (n : ℕ) (g : Bytes → F) (ω : Ω)

/-- All questions up to the replies `l`. -/
def sofar (l : List (Spec.Feedback F G)) : List Bytes :=
  (List.range (l.length + 1)).flatMap fun j => B.asked n g ω (l.take j)

/-- The moves of the thief: those of `B` until a question reveals a key. -/
def thiefMove (l : List (Spec.Feedback F G)) : Spec.Action G :=
  if (Spec.keyFound S kit H X (B.sofar n g ω l)).isSome then .hash (Spec.challengeQuestion S 0 X [])
  else (B.move ω l).run g

/-- A message that is longer than all that the thief asked to sign. -/
def longer (l : List (Spec.Feedback F G)) : Bytes :=
  List.replicate (((List.range l.length).map fun j => (B.thiefMove S kit H X n g ω (l.take j)).size).sum + 1) 0

/-- The thief: it plays like `B` until a question reveals a key; after `n` moves it asks for the challenge of a new message,
and signs it with the group key. -/
def thief (kit : Ω → Spec.Kit F) : Spec.Insider Ω F G where
  move ω l :=
    if l.length < n then B.thiefMove S (kit ω) H X n g ω l
    else .hash (Spec.challengeQuestion S 0 ((kit ω).groupKey S X) (B.longer S (kit ω) H X n g ω l))
  result ω l :=
    let a := match l[n]? with
      | some (.answer a) => a
      | _ => 0
    (B.longer S (kit ω) H X n g ω (l.take n),
      ⟨0, a * (kit ω).secret ((Spec.keyFound S (kit ω) H X (B.sofar n g ω (l.take n))).getD 0)⟩)

theorem sofar_mono {l l' : List (Spec.Feedback F G)} (h : l <+: l') : B.sofar n g ω l ⊆ B.sofar n g ω l' := by
  intro q hq
  unfold sofar at hq ⊢
  rw [List.mem_flatMap] at hq ⊢
  obtain ⟨j, hj, hq⟩ := hq
  have hj := List.mem_range.mp hj
  refine ⟨j, List.mem_range.mpr (by have := h.length_le; omega), ?_⟩
  obtain ⟨t, rfl⟩ := h
  rwa [List.take_append_of_le_length (by omega)]

theorem asked_sofar (l : List (Spec.Feedback F G)) : B.asked n g ω l ⊆ B.sofar n g ω l := by
  intro q hq
  unfold sofar
  rw [List.mem_flatMap]
  exact ⟨l.length, List.mem_range.mpr (by omega), by rwa [List.take_length]⟩

end Spec.Asker

theorem thief_forges {S : Suite F G R} (hg : S.GroupLaws) (B : Spec.Asker Ω F G) (dbg : Bool) (H : List U32) (n : ℕ)
    (kit : Ω → Spec.Kit F) (ω : Ω) (hk : ∀ i ∈ H, (kit ω).keyScale i ≠ 0) (x : F) (g : Bytes → F) (c : ℕ → F)
    (r : ℕ → U32 → F) (u : ℕ → F × F)
    (h : ∃ k ≤ n, ((B.reading g).play S dbg H ((kit ω).key x) ((kit ω).groupKey S (x • S.gen)) ω c r u k).1.NoCollision S ∧
      ∃ q ∈ B.asked n g ω ((B.reading g).play S dbg H ((kit ω).key x) ((kit ω).groupKey S (x • S.gen)) ω c r u k).1.replies,
        ∃ i ∈ H, ∃ l, (signingKeyCodec S).dec (q.drop S.hashLen) = some (⟨i, (kit ω).key x i⟩, l)) :
    let T := B.thief S H (x • S.gen) n g kit
    let st := (T.play S dbg H ((kit ω).key x) ((kit ω).groupKey S (x • S.gen)) ω c r u (n + 1)).1
    st.Forged S ((kit ω).groupKey S (x • S.gen)) (T.result ω st.replies) (c (n + 1)) := by
  intro T st
  obtain ⟨k, hkn, hcol, q, hq, i, hi, l, hdec⟩ := h
  set X := x • S.gen with hX
  set Y := (kit ω).groupKey S X with hY
  set key := (kit ω).key x with hkey
  let found := fun l => (Spec.keyFound S (kit ω) H X (B.sofar n g ω l)).isSome = true
  let P := fun j => found ((B.reading g).play S dbg H key Y ω c r u j).1.replies
  have hex : ∃ j, P j := ⟨k, found_complete S (kit ω) H x _ q (B.asked_sofar n g ω _ hq) i hi l hdec⟩
  classical
  obtain ⟨k0, hP, hmin⟩ : ∃ k0, P k0 ∧ ∀ j < k0, ¬ P j := ⟨Nat.find hex, Nat.find_spec hex, fun j hj => Nat.find_min hex hj⟩
  have hk0 : k0 ≤ k := by
    by_contra hlt
    exact hmin k (by omega) (found_complete S (kit ω) H x _ q (B.asked_sofar n g ω _ hq) i hi l hdec)
  have hcol0 := noCollision_mono ((B.reading g).play_named_prefix S dbg H key Y ω c r u hk0) hcol
  -- up to the revealing question the thief plays like `B`
  have hsame : ∀ j ≤ k0, T.play S dbg H key Y ω c r u j = (B.reading g).play S dbg H key Y ω c r u j := by
    intro j
    induction j with
    | zero => intro _; rfl
    | succ j ih =>
      intro hj
      have e := ih (by omega)
      rw [Spec.Insider.play_succ, Spec.Insider.play_succ, e]
      have hm : T.move ω ((B.reading g).play S dbg H key Y ω c r u j).1.replies =
          (B.reading g).move ω ((B.reading g).play S dbg H key Y ω c r u j).1.replies := by
        show (if _ then _ else _) = _
        rw [if_pos (by rw [Spec.Insider.play_replies_length]; omega)]
        unfold Spec.Asker.thiefMove
        rw [if_neg (hmin j (by omega))]
        rfl
      rw [hm]
  -- afterwards it asks harmless questions
  have hrest : ∀ j, k0 ≤ j → j ≤ n → found (T.play S dbg H key Y ω c r u j).1.replies ∧
      (T.play S dbg H key Y ω c r u j).1.NoCollision S := by
    intro j hj
    induction j, hj using Nat.le_induction with
    | base =>
      intro _
      rw [hsame k0 le_rfl]
      exact ⟨hP, hcol0⟩
    | succ j hj ih =>
      intro hjn
      obtain ⟨h1, h2⟩ := ih (by omega)
      refine ⟨found_mono S (kit ω) H X (B.sofar_mono n g ω (T.play_replies_prefix S dbg H key Y ω c r u (Nat.le_succ j))) h1, ?_⟩
      have hm : T.move ω (T.play S dbg H key Y ω c r u j).1.replies = .hash (Spec.challengeQuestion S 0 X []) := by
        show (if _ then _ else _) = _
        rw [if_pos (by rw [Spec.Insider.play_replies_length]; omega)]
        unfold Spec.Asker.thiefMove
        rw [if_pos h1]
      rw [Spec.Insider.play_succ, hm]
      intro m b m' b' i' e1 e2 e3
      rw [(gameStep_hash_named S dbg H key Y _ _ _ _ _).1] at e1 e2
      exact h2 m b m' b' i' (by simpa using e1) (by simpa using e2) e3
  obtain ⟨hf, hnc⟩ := hrest n (by omega) le_rfl
  have hlen := T.play_replies_length S dbg H key Y ω c r u n
  obtain ⟨x', hx'⟩ := Option.isSome_iff_exists.mp hf
  have hxx : x' = x := found_sound hg (kit ω) H hk x _ x' hx'
  have hm : T.move ω (T.play S dbg H key Y ω c r u n).1.replies =
      .hash (Spec.challengeQuestion S 0 Y (B.longer S (kit ω) H X n g ω (T.play S dbg H key Y ω c r u n).1.replies)) := by
    show (if _ then _ else _) = _
    rw [if_neg (by rw [hlen]; omega)]
  have hsig : ∀ m ∈ (T.play S dbg H key Y ω c r u n).1.signed,
      m ≠ B.longer S (kit ω) H X n g ω (T.play S dbg H key Y ω c r u n).1.replies := by
    rintro m hm rfl
    obtain ⟨j, hj, i', a, signers, e⟩ := T.play_signed S dbg H key Y ω c r u n _ hm
    have e' : T.move ω ((T.play S dbg H key Y ω c r u n).1.replies.take j) =
        B.thiefMove S (kit ω) H X n g ω ((T.play S dbg H key Y ω c r u n).1.replies.take j) := by
      show (if _ then _ else _) = _
      rw [if_pos (by rw [List.length_take, hlen]; omega)]
    rw [e'] at e
    have hle : (B.thiefMove S (kit ω) H X n g ω ((T.play S dbg H key Y ω c r u n).1.replies.take j)).size ≤
        ((List.range (T.play S dbg H key Y ω c r u n).1.replies.length).map fun j => (B.thiefMove S (kit ω) H X n g ω
          ((T.play S dbg H key Y ω c r u n).1.replies.take j)).size).sum :=
      List.single_le_sum (fun _ _ => Nat.zero_le _) _
        (List.mem_map.mpr ⟨j, List.mem_range.mpr (by rw [hlen]; exact hj), rfl⟩)
    rw [e] at hle
    have hl : (B.longer S (kit ω) H X n g ω (T.play S dbg H key Y ω c r u n).1.replies).length = _ := List.length_replicate
    change (B.longer S (kit ω) H X n g ω (T.play S dbg H key Y ω c r u n).1.replies).length ≤ _ at hle
    rw [hl] at hle
    omega
  obtain ⟨a, ha, hrep, htab, hsgn, hnam⟩ : ∃ a, a = ((T.play S dbg H key Y ω c r u n).1.table.lookup
        (Spec.challengeQuestion S 0 Y (B.longer S (kit ω) H X n g ω (T.play S dbg H key Y ω c r u n).1.replies))).getD (c n) ∧
      st.replies = (T.play S dbg H key Y ω c r u n).1.replies ++ [.answer a] ∧
      st.table = (T.play S dbg H key Y ω c r u n).1.table ++ [(Spec.challengeQuestion S 0 Y
        (B.longer S (kit ω) H X n g ω (T.play S dbg H key Y ω c r u n).1.replies), a)] ∧
      st.signed = (T.play S dbg H key Y ω c r u n).1.signed ∧
      st.named = (T.play S dbg H key Y ω c r u n).1.named ++ [none] := by
    refine ⟨_, rfl, ?_, ?_, ?_, ?_⟩
    all_goals
      simp only [st]
      rw [Spec.Insider.play_succ, hm]
    · show ((T.play S dbg H key Y ω c r u n).1.hash S _ (c n)).replies = _
      unfold Spec.Board.hash
      rw [if_neg (by rw [challenge_isFactor]; simp)]
    · show ((T.play S dbg H key Y ω c r u n).1.hash S _ (c n)).table = _
      unfold Spec.Board.hash
      rw [if_neg (by rw [challenge_isFactor]; simp)]
    · exact (gameStep_hash_named S dbg H key Y _ _ _ _ _).2
    · exact (gameStep_hash_named S dbg H key Y _ _ _ _ _).1
  generalize hm0 : B.longer S (kit ω) H X n g ω (T.play S dbg H key Y ω c r u n).1.replies = msg at hsig ha htab
  have hres : T.result ω st.replies = (msg, ⟨0, a * (kit ω).secret x⟩) := by
    have h1 : st.replies.take n = (T.play S dbg H key Y ω c r u n).1.replies := by
      rw [hrep, List.take_append_of_le_length (by omega), List.take_of_length_le hlen.le]
    have h2 : st.replies[n]? = some (.answer a) := by
      rw [hrep, List.getElem?_append_right (by omega), hlen, Nat.sub_self]
      rfl
    show (B.longer S (kit ω) H X n g ω (st.replies.take n), (⟨0, (match st.replies[n]? with
      | some (.answer a) => a
      | _ => 0) * (kit ω).secret ((Spec.keyFound S (kit ω) H X (B.sofar n g ω (st.replies.take n))).getD 0)⟩ :
        ThresholdSignature F G)) = _
    rw [h1, h2, hm0, hx', hxx]
    rfl
  rw [hres]
  refine ⟨?_, ?_, ?_⟩
  · refine (verify_iff _ _ _ _).mpr ?_
    have e := challenge_eq S _ 0 Y msg (lookup_append_self (T := st.table) (b := Spec.challengeQuestion S 0 Y msg) (c := c (n + 1)))
    have hl : st.table.lookup (Spec.challengeQuestion S 0 Y msg) = some a := by
      rw [htab, ha]
      exact lookup_append_self
    rw [hl] at e
    unfold Spec.SigValid
    show Spec.Schnorr S.gen 0 Y (Spec.challenge (Spec.withTable S (st.table ++ [(Spec.challengeQuestion S 0 Y msg,
      (st.table.lookup (Spec.challengeQuestion S 0 Y msg)).getD (c (n + 1)))])) 0 Y msg) (a * (kit ω).secret x)
    rw [hl, e]
    unfold Spec.Schnorr
    rw [hY, hX, Spec.Kit.groupKey_eq, Option.getD_some, mul_smul]
    simp
  · rw [hsgn]
    exact fun hin => hsig _ hin rfl
  · intro m b m' b' i' e1 e2 e3
    rw [hnam] at e1 e2
    exact hnc m b m' b' i' (by simpa using e1) (by simpa using e2) e3

/-! ### The bound -/

/-- An insider that has more coins. -/
def Spec.Insider.given {α : Type} (A : α → Spec.Insider Ω F G) : Spec.Insider (Ω × α) F G :=
  ⟨fun ω l => (A ω.2).move ω.1 l, fun ω l => (A ω.2).result ω.1 l⟩

theorem given_play {α : Type} (A : α → Spec.Insider Ω F G) (S : Suite F G R) (dbg : Bool) (H : List U32) (key : U32 → F)
    (Y : G) (ω : Ω × α) (c : ℕ → F) (r : ℕ → U32 → F) (u : ℕ → F × F) (k : ℕ) :
    (Spec.Insider.given A).play S dbg H key Y ω c r u k = (A ω.2).play S dbg H key Y ω.1 c r u k := by
  induction k with
  | zero => rfl
  | succ k ih =>
    rw [Spec.Insider.play_succ, Spec.Insider.play_succ, ih]
    rfl

/-- The lists that the honest signers `H` make with `generate_commitment_share_lists`, each with its signing key and its random
number generator, when the hash function for nonces is `g`. -/
def Spec.ownLists (S : Suite F G R) (H : List U32) (n : ℕ) (g : Bytes → F) (rng : Fin H.length → R) (key : U32 → F) (i : U32) :
    List (CommitmentShare F G) :=
  match H.finIdxOf? i with
  | some c => (generateCommitmentShareLists (Spec.withNonceHash S g) (rng c) ⟨i, key i⟩ n).2
  | none => []

/-- The insider succeeds when the hash function for nonces is `g`: it is told the point `X = x • g`, plays `n` moves with honest
signers whose keys come from `x` and whose nonces come from their lists, and forges. -/
def Spec.Asker.Wins (B : G → Spec.Asker Ω F G) (S : Suite F G R) (dbg : Bool) (H : List U32) (n : ℕ) (kit : Ω → G → Spec.Kit F)
    (rng : Ω → Fin H.length → R) (g : Bytes → F) (ω : Ω) (x : F) (d : Spec.Draw F (F × F))
    (h : Fin (n + 1) → Spec.Cell F (F × F)) : Prop :=
  ((B (x • S.gen)).succeeds S dbg H n ((kit ω (x • S.gen)).key x) ((kit ω (x • S.gen)).groupKey S (x • S.gen)) ω d h
    (Spec.ownLists S H n g (rng ω) ((kit ω (x • S.gen)).key x))).run g

/-- The signing keys of the honest signers. -/
def Spec.keysOf (H : List U32) (key : U32 → F) (c : Fin H.length) : IndividualSigningKey F := ⟨H[c], key H[c]⟩

theorem ownLists_eq (S : Suite F G R) (H : List U32) (n : ℕ) (g : Bytes → F) (rng : Fin H.length → R) (key : U32 → F) :
    Spec.ownLists S H n g rng key =
      Spec.listsOf S H n fun s => g (Spec.nonceString S rng (Spec.keysOf H key) s) := by
  funext i
  unfold Spec.ownLists Spec.listsOf
  cases hc : H.finIdxOf? i with
  | none => rfl
  | some c =>
    have hi : H[c] = i := (List.finIdxOf?_eq_some_iff.mp hc).1
    have := (C168_lists S g (k := fun _ => n) rng (Spec.keysOf H key) c).1
    unfold Spec.keysOf at this
    rw [hi] at this
    exact this

theorem init_answers {N : ℕ} (h : Fin (N + 1) → Spec.Cell F (F × F)) (a : ℕ) (ha : a < N) :
    Spec.answers (fun b : Fin N => h b.castSucc) a = Spec.answers h a := by
  unfold Spec.answers
  rw [dif_pos ha, dif_pos (by omega)]
  rfl

theorem init_drawn {N : ℕ} (d : Spec.Draw F (F × F)) (h : Fin (N + 1) → Spec.Cell F (F × F)) (a : ℕ) (ha : a ≤ N) :
    Spec.drawn d (fun b : Fin N => h b.castSucc) a = Spec.drawn d h a := by
  cases a with
  | zero => rfl
  | succ a =>
    show (if ha : a < N then (h (Fin.castSucc ⟨a, ha⟩)).2 else d) = if ha : a < N + 1 then (h ⟨a, ha⟩).2 else d
    rw [dif_pos (by omega), dif_pos (by omega)]
    rfl

theorem chance_init {A D : Type} [Fintype A] [Fintype D] [Nonempty D] {N : ℕ} (E : A × (Fin N → D) → Prop) :
    Spec.chance (fun y : A × (Fin (N + 1) → D) => E (y.1, fun b => y.2 b.castSucc)) = Spec.chance E := by
  classical
  let e : (A × (Fin (N + 1) → D)) ≃ (A × (Fin N → D)) × D :=
    { toFun := fun y => ((y.1, fun b => y.2 b.castSucc), y.2 (Fin.last N))
      invFun := fun z => (z.1.1, Fin.snoc (α := fun _ => D) z.1.2 z.2)
      left_inv := fun y => Prod.ext rfl (funext fun b => by
        refine Fin.lastCases ?_ (fun b => ?_) b
        · simp
        · simp)
      right_inv := fun z => by simp }
  have h := chance_bijective e e.bijective (fun z => E z.1)
  rw [chance_extra] at h
  exact h

section Bound

variable [Fintype F] [Fintype U32] [Fintype Ω] [Nonempty Ω] {C : Type} [Fintype C] [Nonempty C]

/-- Drawing the pairs of the lists is the same as drawing a pair for every move. -/
theorem chance_exchange (S : Suite F G R) (dbg : Bool) (H : List U32) (n N : ℕ) (hN : n ≤ N) {α : Type} [Fintype α]
    [Nonempty α] (A : G → α → Spec.Insider Ω F G) (kit : Ω → G → Spec.Kit F)
    (Φ : Ω → F → α → (ℕ → F) → (ℕ → Spec.Board F G × (U32 → List (CommitmentShare F G))) → Prop) :
    Spec.chance (fun y : ((Ω × F × Spec.Draw F (F × F)) × (Fin N → Spec.Cell F (F × F))) ×
        (Spec.Places H n → F) × α =>
      Φ y.1.1.1 y.1.1.2.1 y.2.2 (Spec.answers y.1.2) fun k => (A (y.1.1.2.1 • S.gen) y.2.2).onLists S dbg H
        ((kit y.1.1.1 (y.1.1.2.1 • S.gen)).key y.1.1.2.1) ((kit y.1.1.1 (y.1.1.2.1 • S.gen)).groupKey S (y.1.1.2.1 • S.gen))
        y.1.1.1 (y.1.1.2.2, y.1.2) (Spec.listsOf S H n y.2.1) (min k n)) =
    Spec.chance (fun y : ((Ω × α) × F × Spec.Draw F (F × F)) × (Fin N → Spec.Cell F (F × F)) =>
      Φ y.1.1.1 y.1.2.1 y.1.1.2 (Spec.answers y.2) fun k => (A (y.1.2.1 • S.gen) y.1.1.2).onTape S dbg H
        ((kit y.1.1.1 (y.1.2.1 • S.gen)).key y.1.2.1) ((kit y.1.1.1 (y.1.2.1 • S.gen)).groupKey S (y.1.2.1 • S.gen))
        y.1.1.1 (y.1.2.2, y.2) (min k n)) := by
  classical
  let Z := ((Ω × F × Spec.Draw F (F × F)) × (Fin N → Spec.Cell F (F × F))) × (Spec.Places H n → F) × α
  let ex := fun y : Z => (A (y.1.1.2.1 • S.gen) y.2.2).exchange S dbg H n
    ((kit y.1.1.1 (y.1.1.2.1 • S.gen)).key y.1.1.2.1) ((kit y.1.1.1 (y.1.1.2.1 • S.gen)).groupKey S (y.1.1.2.1 • S.gen))
    y.1.1.1 (y.2.1, y.1.1.2.2, y.1.2)
  let ψ : Z → Z := fun y => (((y.1.1.1, y.1.1.2.1, (ex y).2.1), (ex y).2.2), (ex y).1, y.2.2)
  have hψ : Function.Injective ψ := by
    rintro ⟨⟨⟨ω, x, d⟩, h⟩, w, f⟩ ⟨⟨⟨ω', x', d'⟩, h'⟩, w', f'⟩ he
    have e1 : ω = ω' := congrArg (fun z : Z => z.1.1.1) he
    have e2 : x = x' := congrArg (fun z : Z => z.1.1.2.1) he
    have e3 : f = f' := congrArg (fun z : Z => z.2.2) he
    subst e1 e2 e3
    have e4 := exchange_injective (A (x • S.gen) f) S dbg H n ((kit ω (x • S.gen)).key x)
      ((kit ω (x • S.gen)).groupKey S (x • S.gen)) ω hN (a₁ := (w, d, h)) (a₂ := (w', d', h'))
      (congrArg (fun z : Z => (z.2.1, z.1.1.2.2, z.1.2)) he)
    simp only [Prod.mk.injEq] at e4
    obtain ⟨rfl, rfl, rfl⟩ := e4
    rfl
  have hb := Finite.injective_iff_bijective.mp hψ
  rw [← chance_bijective ψ hb]
  let e : Z ≃ (((Ω × α) × F × Spec.Draw F (F × F)) × (Fin N → Spec.Cell F (F × F))) × (Spec.Places H n → F) :=
    { toFun := fun y => ((((y.1.1.1, y.2.2), y.1.1.2.1, y.1.1.2.2), y.1.2), y.2.1)
      invFun := fun z => (((z.1.1.1.1, z.1.1.2.1, z.1.1.2.2), z.1.2), z.2, z.1.1.1.2)
      left_inv := fun _ => rfl
      right_inv := fun _ => rfl }
  conv_rhs => rw [← chance_extra (B := Spec.Places H n → F), ← chance_bijective e e.bijective]
  refine chance_congr fun y => ?_
  have hA : Spec.answers (ψ y).1.2 = Spec.answers y.1.2 := exchange_answers _ S dbg H n _ _ _ (y.2.1, y.1.1.2.2, y.1.2)
  have hG : (fun k => (A ((ψ y).1.1.2.1 • S.gen) (ψ y).2.2).onLists S dbg H
        ((kit (ψ y).1.1.1 ((ψ y).1.1.2.1 • S.gen)).key (ψ y).1.1.2.1)
        ((kit (ψ y).1.1.1 ((ψ y).1.1.2.1 • S.gen)).groupKey S ((ψ y).1.1.2.1 • S.gen))
        (ψ y).1.1.1 ((ψ y).1.1.2.2, (ψ y).1.2) (Spec.listsOf S H n (ψ y).2.1) (min k n)) =
      fun k => (A (y.1.1.2.1 • S.gen) y.2.2).onTape S dbg H
        ((kit y.1.1.1 (y.1.1.2.1 • S.gen)).key y.1.1.2.1) ((kit y.1.1.1 (y.1.1.2.1 • S.gen)).groupKey S (y.1.1.2.1 • S.gen))
        y.1.1.1 (y.1.1.2.2, y.1.2) (min k n) :=
    funext fun k => exchange_game (A (y.1.1.2.1 • S.gen) y.2.2) S dbg H n
      ((kit y.1.1.1 (y.1.1.2.1 • S.gen)).key y.1.1.2.1) ((kit y.1.1.1 (y.1.1.2.1 • S.gen)).groupKey S (y.1.1.2.1 • S.gen))
      y.1.1.1 hN (y.2.1, y.1.1.2.2, y.1.2) (min k n) (Nat.min_le_right _ _)
  rw [hA, hG]
  rfl

theorem near_middle {Y T X C F : Type} [Fintype Y] [Nonempty Y] [Fintype T] [DecidableEq T] [Fintype X] [DecidableEq X]
    [Fintype C] [Nonempty C] [Fintype F] [Nonempty F] (red : C → F) (δ : ℚ) (hδ : Spec.Near red δ)
    (E : Y × (T → F) × (X → C) → Prop) :
    |Spec.chance (fun z : Y × (T → C) × (X → C) => E (z.1, (fun t => red (z.2.1 t)), z.2.2)) - Spec.chance E| ≤
      Fintype.card T * δ := by
  have h1 := near_family (ι := T) hδ
  have h2 := near_prod h1 (near_id (A := X → C))
  have h3 := near_prod (near_id (A := Y)) h2 E
  rw [zero_add, add_zero] at h3
  exact h3

theorem listPlaces_card (H : List U32) (n : ℕ) : (Fintype.card (Spec.Places H n) : ℚ) = 2 * n * H.length := by
  rw [Fintype.card_sigma]
  simp
  ring

/-- The result after `n` moves is a forgery, where the states of the game are `st`. -/
def Spec.Asker.Won (B : G → Spec.Asker Ω F G) (S : Suite F G R) (n : ℕ) (kit : Ω → G → Spec.Kit F) (g : Bytes → F) (ω : Ω)
    (x : F) (c : ℕ → F) (st : ℕ → Spec.Board F G × (U32 → List (CommitmentShare F G))) : Prop :=
  (st n).1.Forged S ((kit ω (x • S.gen)).groupKey S (x • S.gen))
    (((B (x • S.gen)).result ω (st n).1.replies).run g) (c n)

/-- Before a collision of digests the question `q` is asked, where the states of the game are `st`. -/
def Spec.Asker.Reads (B : G → Spec.Asker Ω F G) (S : Suite F G R) (n : ℕ) (g : Bytes → F) (ω : Ω) (x : F)
    (st : ℕ → Spec.Board F G × (U32 → List (CommitmentShare F G))) (q : Bytes) : Prop :=
  ∃ k ≤ n, (st k).1.NoCollision S ∧ q ∈ (B (x • S.gen)).asked n g ω (st k).1.replies

/-- The states of the game with lists that contain the nonces `w`. -/
def Spec.Asker.states (B : G → Spec.Asker Ω F G) (S : Suite F G R) (dbg : Bool) (H : List U32) (n : ℕ) (kit : Ω → G → Spec.Kit F)
    (g : Bytes → F) (y : (Ω × F × Spec.Draw F (F × F)) × (Fin (n + 1) → Spec.Cell F (F × F))) (w : Spec.Places H n → F)
    (k : ℕ) : Spec.Board F G × (U32 → List (CommitmentShare F G)) :=
  ((B (y.1.2.1 • S.gen)).reading g).onLists S dbg H ((kit y.1.1 (y.1.2.1 • S.gen)).key y.1.2.1)
    ((kit y.1.1 (y.1.2.1 • S.gen)).groupKey S (y.1.2.1 • S.gen)) y.1.1 (y.1.2.2, y.2) (Spec.listsOf S H n w) (min k n)

/-- The states of the game with nonces drawn for every move. -/
def Spec.Asker.plain (B : G → Spec.Asker Ω F G) (S : Suite F G R) (dbg : Bool) (H : List U32) (n : ℕ) (kit : Ω → G → Spec.Kit F)
    (g : Bytes → F) (y : (Ω × F × Spec.Draw F (F × F)) × (Fin (n + 1) → Spec.Cell F (F × F)))
    (k : ℕ) : Spec.Board F G × (U32 → List (CommitmentShare F G)) :=
  ((B (y.1.2.1 • S.gen)).reading g).onTape S dbg H ((kit y.1.1 (y.1.2.1 • S.gen)).key y.1.2.1)
    ((kit y.1.1 (y.1.2.1 • S.gen)).groupKey S (y.1.2.1 • S.gen)) y.1.1 (y.1.2.2, y.2) (min k n)

theorem asker_wins (B : G → Spec.Asker Ω F G) (S : Suite F G R) (dbg : Bool) (H : List U32) (n : ℕ) (kit : Ω → G → Spec.Kit F)
    (rng : Ω → Fin H.length → R) (g : Bytes → F) (y : (Ω × F × Spec.Draw F (F × F)) × (Fin (n + 1) → Spec.Cell F (F × F))) :
    Spec.Asker.Wins B S dbg H n kit rng g y.1.1 y.1.2.1 y.1.2.2 y.2 ↔
      Spec.Asker.Won B S n kit g y.1.1 y.1.2.1 (Spec.answers y.2) (Spec.Asker.states B S dbg H n kit g y fun s =>
        g (Spec.nonceString S (rng y.1.1) (Spec.keysOf H ((kit y.1.1 (y.1.2.1 • S.gen)).key y.1.2.1)) s)) := by
  unfold Spec.Asker.Wins Spec.Asker.succeeds Spec.Asker.Won Spec.Asker.states
  rw [Spec.Program.run_andThen, asker_play, Spec.Program.run_andThen, ownLists_eq, min_self]
  exact Iff.rfl

theorem asker_same (B : G → Spec.Asker Ω F G) (S : Suite F G R) (dbg : Bool) (H : List U32) (n : ℕ) (kit : Ω → G → Spec.Kit F)
    (g g' : Bytes → F) (y : (Ω × F × Spec.Draw F (F × F)) × (Fin (n + 1) → Spec.Cell F (F × F))) (w : Spec.Places H n → F)
    (h : ∀ q, Spec.Asker.Reads B S n g y.1.1 y.1.2.1 (Spec.Asker.states B S dbg H n kit g y w) q → g q = g' q) :
    Spec.Asker.Won B S n kit g y.1.1 y.1.2.1 (Spec.answers y.2) (Spec.Asker.states B S dbg H n kit g y w) ↔
      Spec.Asker.Won B S n kit g' y.1.1 y.1.2.1 (Spec.answers y.2) (Spec.Asker.states B S dbg H n kit g' y w) := by
  unfold Spec.Asker.Won Spec.Asker.states
  rw [min_self]
  refine reading_same (B (y.1.2.1 • S.gen)) S dbg H n _ _ y.1.1 (Spec.answers y.2) _ _ _ g g' fun k hk hnc q hq => h q ?_
  unfold Spec.Asker.Reads Spec.Asker.states
  refine ⟨k, hk, ?_⟩
  rw [min_eq_left hk]
  exact ⟨hnc, hq⟩

theorem plain_wins (B : G → Spec.Asker Ω F G) (S : Suite F G R) (dbg : Bool) (H : List U32) (n : ℕ) (kit : Ω → G → Spec.Kit F)
    {α : Type} (hash : α → Bytes → F)
    (y : ((Ω × α) × F × Spec.Draw F (F × F)) × (Fin (n + 1) → Spec.Cell F (F × F))) :
    Spec.Asker.Won B S n kit (hash y.1.1.2) y.1.1.1 y.1.2.1 (Spec.answers y.2)
        (Spec.Asker.plain B S dbg H n kit (hash y.1.1.2) ((y.1.1.1, y.1.2), y.2)) ↔
      Spec.Insider.Wins (fun X => .given fun f => (B X).reading (hash f)) S dbg H n (fun ω => kit ω.1) y.1.1 y.1.2.1 y.1.2.2
        y.2 := by
  unfold Spec.Insider.Wins Spec.Insider.Succeeds Spec.Asker.Won Spec.Asker.plain
  rw [min_self]
  simp only
  rw [given_play]
  exact Iff.rfl

theorem plain_thief (B : G → Spec.Asker Ω F G) {S : Suite F G R} (hd : S.CodecLaws) (hc : S.CipherLaws) (hg : S.GroupLaws)
    (dbg : Bool) (H : List U32) (n : ℕ) (kit : Ω → G → Spec.Kit F) (hk : ∀ ω X, ∀ i ∈ H, (kit ω X).keyScale i ≠ 0)
    (rng : Ω → Fin H.length → R) {α : Type} (hash : α → Bytes → F)
    (y : ((Ω × α) × F × Spec.Draw F (F × F)) × (Fin (n + 1 + 1) → Spec.Cell F (F × F)))
    (h : ∃ t : Spec.Places H n, Spec.Asker.Reads B S n (hash y.1.1.2) y.1.1.1 y.1.2.1
      (Spec.Asker.plain B S dbg H n kit (hash y.1.1.2) ((y.1.1.1, y.1.2), fun b => y.2 b.castSucc))
      (Spec.nonceString S (rng y.1.1.1) (Spec.keysOf H ((kit y.1.1.1 (y.1.2.1 • S.gen)).key y.1.2.1)) t)) :
    Spec.Insider.Wins (fun X => .given fun f => (B X).thief S H X n (hash f) fun ω => kit ω X) S dbg H (n + 1)
      (fun ω => kit ω.1) y.1.1 y.1.2.1 y.1.2.2 y.2 := by
  obtain ⟨t, k, hkn, hnc, hq⟩ := h
  unfold Spec.Asker.plain at hnc hq
  rw [min_eq_left hkn] at hnc hq
  have hplay := ((B (y.1.2.1 • S.gen)).reading (hash y.1.1.2)).play_congr S dbg H ((kit y.1.1.1 (y.1.2.1 • S.gen)).key y.1.2.1)
    ((kit y.1.1.1 (y.1.2.1 • S.gen)).groupKey S (y.1.2.1 • S.gen))
    y.1.1.1 (c := Spec.answers fun b : Fin (n + 1) => y.2 b.castSucc) (c' := Spec.answers y.2)
    (r := fun a => (Spec.drawn y.1.2.2 (fun b : Fin (n + 1) => y.2 b.castSucc) a).1)
    (r' := fun a => (Spec.drawn y.1.2.2 y.2 a).1)
    (u := fun a => (Spec.drawn y.1.2.2 (fun b : Fin (n + 1) => y.2 b.castSucc) a).2)
    (u' := fun a => (Spec.drawn y.1.2.2 y.2 a).2) k (fun a ha => init_answers _ a (by omega))
    (fun a ha => by rw [init_drawn _ _ a (by omega)]) (fun a ha => by rw [init_drawn _ _ a (by omega)])
  unfold Spec.Insider.onTape at hnc hq
  rw [hplay] at hnc hq
  have hfor := thief_forges hg (B (y.1.2.1 • S.gen)) dbg H n (fun ω => kit ω (y.1.2.1 • S.gen)) y.1.1.1
    (hk y.1.1.1 (y.1.2.1 • S.gen)) y.1.2.1 (hash y.1.1.2) (Spec.answers y.2) (fun a => (Spec.drawn y.1.2.2 y.2 a).1)
    (fun a => (Spec.drawn y.1.2.2 y.2 a).2) ⟨k, hkn, hnc, _, hq, H[t.1], List.getElem_mem _, [], nonceString_reveals hd hc _ _ t⟩
  unfold Spec.Insider.Wins Spec.Insider.Succeeds
  simp only
  rw [given_play]
  exact hfor

/-- C179: an insider that takes part in signing sessions with signers whose nonces come from
`generate_commitment_share_lists` forges with little more chance than insiders of C143, where all nonces are uniform scalars.
The hash function for nonces is a random function whose answers `C` are made scalars by `red`, which is `δ` away from uniform.
The insider may ask it anything, and may know all random bytes that the signers put into their nonces. The second insider is
the one that would use the first signing key it finds in a question. -/
theorem C179_listed_nonces {S : Suite F G R} (hd : S.CodecLaws) (hc : S.CipherLaws) (hg : S.GroupLaws) (dbg : Bool)
    (H : List U32) (n : ℕ) (kit : Ω → G → Spec.Kit F) (hk : ∀ ω X, ∀ i ∈ H, (kit ω X).keyScale i ≠ 0) (red : C → F) (δ : ℚ)
    (hδ : Spec.Near red δ) (rng : Ω → Fin H.length → R) (Q : Finset Bytes)
    (hQ : ∀ ω x (s : Spec.Places H n),
      Spec.nonceString S (rng ω) (Spec.keysOf H ((kit ω (x • S.gen)).key x)) s ∈ Q) (B : G → Spec.Asker Ω F G) :
    Spec.chance (fun y : ((Ω × F × Spec.Draw F (F × F)) × (Fin (n + 1) → Spec.Cell F (F × F))) × ({q // q ∈ Q} → C) =>
        Spec.Asker.Wins B S dbg H n kit rng (Spec.drawnHash S Q red y.2) y.1.1.1 y.1.1.2.1 y.1.1.2.2 y.1.2) ≤
      Spec.chance (fun y : ((Ω × ({q // q ∈ Q} → C)) × F × Spec.Draw F (F × F)) × (Fin (n + 1) → Spec.Cell F (F × F)) =>
        Spec.Insider.Wins (fun X => .given fun f => (B X).reading (Spec.drawnHash S Q red f)) S dbg H n
          (fun ω => kit ω.1) y.1.1 y.1.2.1 y.1.2.2 y.2) +
      Spec.chance (fun y : ((Ω × ({q // q ∈ Q} → C)) × F × Spec.Draw F (F × F)) × (Fin (n + 1 + 1) → Spec.Cell F (F × F)) =>
        Spec.Insider.Wins (fun X => .given fun f => (B X).thief S H X n (Spec.drawnHash S Q red f) fun ω => kit ω X) S dbg H
          (n + 1) (fun ω => kit ω.1) y.1.1 y.1.2.1 y.1.2.2 y.2) +
      Spec.chance (fun y : Ω × F => Spec.Repeats S (fun _ => n) (rng y.1) (Spec.keysOf H ((kit y.1 (y.2 • S.gen)).key y.2))) +
      4 * (n : ℚ) * (H.length : ℚ) * δ := by
  classical
  have hreal : Spec.chance (fun y : ((Ω × F × Spec.Draw F (F × F)) × (Fin (n + 1) → Spec.Cell F (F × F))) × ({q // q ∈ Q} → C) =>
        Spec.Asker.Wins B S dbg H n kit rng (Spec.drawnHash S Q red y.2) y.1.1.1 y.1.1.2.1 y.1.1.2.2 y.1.2) =
      Spec.chance (fun y : ((Ω × F × Spec.Draw F (F × F)) × (Fin (n + 1) → Spec.Cell F (F × F))) × ({q // q ∈ Q} → C) =>
        Spec.Asker.Won B S n kit (Spec.drawnHash S Q red y.2) y.1.1.1 y.1.1.2.1 (Spec.answers y.1.2)
          (Spec.Asker.states B S dbg H n kit (Spec.drawnHash S Q red y.2) y.1 fun s => red (y.2 ⟨Spec.nonceString S (rng y.1.1.1)
            (Spec.keysOf H ((kit y.1.1.1 (y.1.1.2.1 • S.gen)).key y.1.1.2.1)) s, hQ _ _ s⟩))) := by
    refine chance_congr fun y => ?_
    have hl : (fun s : Spec.Places H n => Spec.drawnHash S Q red y.2 (Spec.nonceString S (rng y.1.1.1)
        (Spec.keysOf H ((kit y.1.1.1 (y.1.1.2.1 • S.gen)).key y.1.1.2.1)) s)) = fun s => red (y.2 ⟨Spec.nonceString S (rng y.1.1.1)
        (Spec.keysOf H ((kit y.1.1.1 (y.1.1.2.1 • S.gen)).key y.1.1.2.1)) s, hQ _ _ s⟩) := by
      funext s
      unfold Spec.drawnHash
      rw [dif_pos (hQ y.1.1.1 y.1.1.2.1 s)]
    rw [asker_wins, hl]
  have hsame := same_until_asked (Ω := (Ω × F × Spec.Draw F (F × F)) × (Fin (n + 1) → Spec.Cell F (F × F)))
    (T := Spec.Places H n) (X := {q // q ∈ Q}) (C := C)
    (fun y s => ⟨Spec.nonceString S (rng y.1.1) (Spec.keysOf H ((kit y.1.1 (y.1.2.1 • S.gen)).key y.1.2.1)) s, hQ _ _ s⟩)
    (fun y u f => Spec.Asker.Won B S n kit (Spec.drawnHash S Q red f) y.1.1 y.1.2.1 (Spec.answers y.2)
      (Spec.Asker.states B S dbg H n kit (Spec.drawnHash S Q red f) y fun t => red (u t)))
    (fun y u f q => Spec.Asker.Reads B S n (Spec.drawnHash S Q red f) y.1.1 y.1.2.1
      (Spec.Asker.states B S dbg H n kit (Spec.drawnHash S Q red f) y fun t => red (u t)) q.1) (fun y u f f' hf => by
      refine asker_same B S dbg H n kit _ _ y _ fun q hq => ?_
      by_cases hqQ : q ∈ Q
      · have := hf ⟨q, hqQ⟩ hq
        unfold Spec.drawnHash
        rw [dif_pos hqQ, dif_pos hqQ, this]
      · unfold Spec.drawnHash
        rw [dif_neg hqQ, dif_neg hqQ])
  -- the nonces become uniform scalars
  have n1 := near_middle (Y := (Ω × F × Spec.Draw F (F × F)) × (Fin (n + 1) → Spec.Cell F (F × F))) (T := Spec.Places H n)
    (X := {q // q ∈ Q}) red δ hδ fun z => Spec.Asker.Won B S n kit (Spec.drawnHash S Q red z.2.2) z.1.1.1 z.1.1.2.1
      (Spec.answers z.1.2) (Spec.Asker.states B S dbg H n kit (Spec.drawnHash S Q red z.2.2) z.1 z.2.1)
  have n2 := near_middle (Y := (Ω × F × Spec.Draw F (F × F)) × (Fin (n + 1) → Spec.Cell F (F × F))) (T := Spec.Places H n)
    (X := {q // q ∈ Q}) red δ hδ fun z => ∃ t : Spec.Places H n, Spec.Asker.Reads B S n (Spec.drawnHash S Q red z.2.2) z.1.1.1
      z.1.1.2.1 (Spec.Asker.states B S dbg H n kit (Spec.drawnHash S Q red z.2.2) z.1 z.2.1)
      (Spec.nonceString S (rng z.1.1.1) (Spec.keysOf H ((kit z.1.1.1 (z.1.1.2.1 • S.gen)).key z.1.1.2.1)) t)
  -- and are drawn when they are needed
  have x1 := chance_exchange S dbg H n (n + 1) (Nat.le_succ n) (fun X f => (B X).reading (Spec.drawnHash S Q red f)) kit
    (fun ω x f c st => Spec.Asker.Won B S n kit (Spec.drawnHash S Q red f) ω x c st)
  have x2 := chance_exchange S dbg H n (n + 1) (Nat.le_succ n) (fun X f => (B X).reading (Spec.drawnHash S Q red f)) kit
    (fun ω x f c st => ∃ t : Spec.Places H n, Spec.Asker.Reads B S n (Spec.drawnHash S Q red f) ω x st
      (Spec.nonceString S (rng ω) (Spec.keysOf H ((kit ω (x • S.gen)).key x)) t))
  have hrep : Spec.chance (fun y : (Ω × F × Spec.Draw F (F × F)) × (Fin (n + 1) → Spec.Cell F (F × F)) =>
        ¬ Function.Injective (fun s : Spec.Places H n => (⟨Spec.nonceString S (rng y.1.1)
          (Spec.keysOf H ((kit y.1.1 (y.1.2.1 • S.gen)).key y.1.2.1)) s, hQ _ _ s⟩ : {q // q ∈ Q}))) ≤
      Spec.chance (fun y : Ω × F => Spec.Repeats S (fun _ => n) (rng y.1) (Spec.keysOf H ((kit y.1 (y.2 • S.gen)).key y.2))) := by
    let e : ((Ω × F × Spec.Draw F (F × F)) × (Fin (n + 1) → Spec.Cell F (F × F))) ≃
        (Ω × F) × Spec.Draw F (F × F) × (Fin (n + 1) → Spec.Cell F (F × F)) :=
      { toFun := fun y => ((y.1.1, y.1.2.1), y.1.2.2, y.2)
        invFun := fun z => ((z.1.1, z.1.2, z.2.1), z.2.2)
        left_inv := fun _ => rfl
        right_inv := fun _ => rfl }
    conv_rhs => rw [← chance_extra (B := Spec.Draw F (F × F) × (Fin (n + 1) → Spec.Cell F (F × F))),
      ← chance_bijective e e.bijective]
    refine chance_mono fun y hy => ?_
    by_contra hno
    exact hy fun s s' he => nonceString_injective hd hc _ _ hno (congrArg Subtype.val he)
  have hwin := chance_congr fun y : ((Ω × ({q // q ∈ Q} → C)) × F × Spec.Draw F (F × F)) ×
    (Fin (n + 1) → Spec.Cell F (F × F)) => plain_wins B S dbg H n kit (Spec.drawnHash S Q red) y
  have hthief := chance_mono fun y : ((Ω × ({q // q ∈ Q} → C)) × F × Spec.Draw F (F × F)) ×
    (Fin (n + 1 + 1) → Spec.Cell F (F × F)) => plain_thief B hd hc hg dbg H n kit hk rng (Spec.drawnHash S Q red) y
  have hinit := chance_init (N := n + 1) fun y : ((Ω × ({q // q ∈ Q} → C)) × F × Spec.Draw F (F × F)) ×
      (Fin (n + 1) → Spec.Cell F (F × F)) => ∃ t : Spec.Places H n, Spec.Asker.Reads B S n (Spec.drawnHash S Q red y.1.1.2)
    y.1.1.1 y.1.2.1 (Spec.Asker.plain B S dbg H n kit (Spec.drawnHash S Q red y.1.1.2) ((y.1.1.1, y.1.2), y.2))
    (Spec.nonceString S (rng y.1.1.1) (Spec.keysOf H ((kit y.1.1.1 (y.1.2.1 • S.gen)).key y.1.2.1)) t)
  have w1 := x1.trans hwin
  have w2 := (x2.trans hinit.symm).le.trans hthief
  have a1 := (abs_le.mp hsame).2
  have a2 := (abs_le.mp n1).2
  have a3 := (abs_le.mp n2).2
  rw [listPlaces_card] at a2 a3
  have b1 := (sub_le_iff_le_add.mp a2).trans (add_le_add le_rfl w1.le)
  have b2 := (sub_le_iff_le_add.mp a3).trans (add_le_add le_rfl w2)
  have b3 := hreal.le.trans (sub_le_iff_le_add.mp a1)
  refine b3.trans ((add_le_add (add_le_add b2 hrep) b1).trans (le_of_eq ?_))
  ring

theorem below_of_quadratic {p w η N N' q b b' : ℚ} (hN : 0 < N) (hNN : N ≤ N') (hb : 0 ≤ b) (hbb : b ≤ b') (hw : 0 ≤ w)
    (hη : 0 ≤ η) (h : p * (p / N - 1 / q) - b ≤ η) (hlt : η < w * (w / N' - 1 / q) - b') : p ≤ w := by
  by_contra hp
  have hp := not_le.mp hp
  have hpos : 0 < w / N' - 1 / q := by
    by_contra hneg
    have := mul_nonpos_of_nonneg_of_nonpos hw (not_lt.mp hneg)
    linarith
  have h1 : w / N' ≤ p / N := by
    rw [div_le_div_iff₀ (by linarith) hN]
    exact mul_le_mul hp.le hNN hN.le (by linarith)
  have h2 : w * (w / N' - 1 / q) ≤ p * (p / N - 1 / q) :=
    mul_le_mul hp.le (by linarith) hpos.le (by linarith)
  linarith

/-- C179: so forging is hard if one more discrete logarithm is hard to find. If the solvers of C143 for the two insiders succeed
with chance at most `η`, and `η < w (w / (n + 2) - 1 / |F|) - 2 (n + 1)² |H| / |F|`, then the insider forges with chance at most
`2 w`, the chance that random bytes repeat, and `4 n |H| δ`. -/
theorem C179_hard {S : Suite F G R} (hS : S.Lawful) (dbg : Bool)
    (H : List U32) (n : ℕ) (hn : n + 1 ≤ 2 ^ 63) (kit : Ω → G → Spec.Kit F) (hs : ∀ ω X, (kit ω X).scale ≠ 0)
    (hk : ∀ ω X, ∀ i ∈ H, (kit ω X).keyScale i ≠ 0) (red : C → F) (δ : ℚ)
    (hδ : Spec.Near red δ) (rng : Ω → Fin H.length → R) (Q : Finset Bytes)
    (hQ : ∀ ω x (s : Spec.Places H n),
      Spec.nonceString S (rng ω) (Spec.keysOf H ((kit ω (x • S.gen)).key x)) s ∈ Q) (B : G → Spec.Asker Ω F G) (η w : ℚ)
    (hw : 0 ≤ w) (hη : η < w * (w / ((n + 1 + 1 : ℕ) : ℚ) - 1 / (Fintype.card F : ℚ)) -
      2 * ((n + 1 : ℕ) : ℚ) ^ 2 * (H.length : ℚ) / (Fintype.card F : ℚ))
    (h1 : Spec.chance (fun y : ((Ω × ({q // q ∈ Q} → C)) × F × Spec.Draw F (F × F)) × (Fin (n + 1) → Spec.Cell F (F × F)) ×
        (Fin (n + 1) → Spec.Cell F (F × F)) =>
      Spec.Insider.Solves (fun X => .given fun f => (B X).reading (Spec.drawnHash S Q red f)) S dbg H n
        (fun ω => kit ω.1) y.1.1 y.1.2.1 y.1.2.2 y.2.1 y.2.2) ≤ η)
    (h2 : Spec.chance (fun y : ((Ω × ({q // q ∈ Q} → C)) × F × Spec.Draw F (F × F)) ×
        (Fin (n + 1 + 1) → Spec.Cell F (F × F)) × (Fin (n + 1 + 1) → Spec.Cell F (F × F)) =>
      Spec.Insider.Solves (fun X => .given fun f => (B X).thief S H X n (Spec.drawnHash S Q red f) fun ω => kit ω X) S dbg H
        (n + 1) (fun ω => kit ω.1) y.1.1 y.1.2.1 y.1.2.2 y.2.1 y.2.2) ≤ η) :
    Spec.chance (fun y : ((Ω × F × Spec.Draw F (F × F)) × (Fin (n + 1) → Spec.Cell F (F × F))) × ({q // q ∈ Q} → C) =>
        Spec.Asker.Wins B S dbg H n kit rng (Spec.drawnHash S Q red y.2) y.1.1.1 y.1.1.2.1 y.1.1.2.2 y.1.2) ≤
      2 * w +
      Spec.chance (fun y : Ω × F => Spec.Repeats S (fun _ => n) (rng y.1) (Spec.keysOf H ((kit y.1 (y.2 • S.gen)).key y.2))) +
      4 * (n : ℚ) * (H.length : ℚ) * δ := by
  classical
  have h := C179_listed_nonces hS.codec hS.cipher hS.group dbg H n kit hk red δ hδ rng Q hQ B
  have c1 := C143_concurrent_sessions (Ω := Ω × ({q // q ∈ Q} → C)) hS.codec hS.group hS.u32 dbg H n (by omega)
    (fun ω => kit ω.1) (fun ω X => hs ω.1 X) (fun X => .given fun f => (B X).reading (Spec.drawnHash S Q red f))
  have c2 := C143_concurrent_sessions (Ω := Ω × ({q // q ∈ Q} → C)) hS.codec hS.group hS.u32 dbg H (n + 1) hn
    (fun ω => kit ω.1) (fun ω X => hs ω.1 X)
    (fun X => .given fun f => (B X).thief S H X n (Spec.drawnHash S Q red f) fun ω => kit ω X)
  have hη0 : 0 ≤ η := (chance_nonneg _).trans h1
  have hF : (0 : ℚ) < Fintype.card F := by
    have := Fintype.card_pos (α := F)
    exact_mod_cast this
  have p1 := below_of_quadratic (N' := ((n + 1 + 1 : ℕ) : ℚ))
    (b' := 2 * ((n + 1 : ℕ) : ℚ) ^ 2 * (H.length : ℚ) / (Fintype.card F : ℚ)) (by positivity) (by push_cast; linarith)
    (by positivity) (by push_cast; gcongr; linarith) hw hη0 (c1.trans h1) hη
  have p2 := below_of_quadratic (N' := ((n + 1 + 1 : ℕ) : ℚ))
    (b' := 2 * ((n + 1 : ℕ) : ℚ) ^ 2 * (H.length : ℚ) / (Fintype.card F : ℚ)) (by positivity) le_rfl
    (by positivity) le_rfl hw hη0 (c2.trans h2) hη
  refine h.trans (add_le_add (add_le_add ?_ le_rfl) le_rfl)
  rw [two_mul]
  exact add_le_add p1 p2

end Bound

/-! ### Keys from a key generation -/

section Colluders

variable [Fintype F] [Fintype U32] [Fintype Ω] [Nonempty Ω] {C : Type} [Fintype C] [Nonempty C]

/-- The asker that first gets a view of the polynomial of dealer `l`, computed from a point and shares. -/
noncomputable def Spec.Asker.afterView {J : List U32} (B : Spec.Asker (Ω × (List G × ({j // j ∈ J} → F))) F G)
    (S : Suite F G R) (t : ℕ) (X : G) : Spec.Asker (Ω × ({j // j ∈ J} → F)) F G where
  move ω := B.move (ω.1, Spec.simulatedDealerView S J t X ω.2)
  result ω := B.result (ω.1, Spec.simulatedDealerView S J t X ω.2)

theorem basisAt_ne_zero (hu : Suite.U32Inj F) (J : List U32) (i : U32) (hi : i ∉ J) :
    Spec.basisAt (0 :: J) 0 (i.toNat : F) ≠ 0 := by
  unfold Spec.basisAt Lagrange.basis
  rw [Polynomial.eval_prod]
  refine Finset.prod_ne_zero_iff.mpr fun j hj => ?_
  have hj0 := Finset.ne_of_mem_erase hj
  have hjJ : j ∈ J := by
    have := Finset.mem_of_mem_erase hj
    rw [List.mem_toFinset] at this
    exact (List.mem_cons.mp this).resolve_left hj0
  unfold Lagrange.basisDivisor
  rw [Polynomial.eval_mul, Polynomial.eval_C, Polynomial.eval_sub, Polynomial.eval_X, Polynomial.eval_C]
  refine mul_ne_zero (inv_ne_zero (sub_ne_zero.mpr fun h => hj0 (hu _ _ h).symm)) (sub_ne_zero.mpr fun h => ?_)
  exact hi (hu _ _ h ▸ hjJ)

/-- C179: the same for `t - 1` participants `J` of a key generation with one honest dealer `l`: they see their part of the
polynomial of `l`, choose the polynomials of all other dealers, and take part in signing sessions with honest signers `H` whose
keys are those that `finish` returned (C143_keys) and whose nonces come from `generate_commitment_share_lists`. -/
theorem C179_below_threshold {S : Suite F G R} (hS : S.Lawful)
    (D : List U32) (h0 : 0 ∉ D) (l : U32) (J : List U32) (hJ : J.Nodup) (hJ0 : 0 ∉ J) (t : ℕ) (ht : J.length + 1 = t)
    (others : Ω × (List G × ({j // j ∈ J} → F)) → U32 → List F) (dbg : Bool) (H : List U32) (hH : ∀ i ∈ H, i ∉ J) (n : ℕ)
    (red : C → F) (δ : ℚ) (hδ : Spec.Near red δ) (rng : Ω → Fin H.length → R) (Q : Finset Bytes)
    (hQ : ∀ ω (w : Fin t → F) (s : Spec.Places H n), Spec.nonceString S (rng ω)
      (Spec.keysOf H (Spec.shareOfView D l (others (ω, Spec.dealerView S J l w)) w)) s ∈ Q)
    (B : Spec.Asker (Ω × (List G × ({j // j ∈ J} → F))) F G) :
    let kit := fun (ω : (Ω × ({j // j ∈ J} → F))) (X : G) =>
      Spec.kitOfView D l J (others (ω.1, Spec.simulatedDealerView S J t X ω.2)) ω.2
    Spec.chance (fun z : ((Ω × (Fin t → F) × Spec.Draw F (F × F)) × (Fin (n + 1) → Spec.Cell F (F × F))) ×
          ({q // q ∈ Q} → C) =>
        let v := (z.1.1.1, Spec.dealerView S J l z.1.1.2.1)
        let key := Spec.shareOfView D l (others v) z.1.1.2.1
        let g := Spec.drawnHash S Q red z.2
        (B.succeeds S dbg H n key (Spec.keyOfView S D l (others v) v.2) v z.1.1.2.2 z.1.2
          (Spec.ownLists S H n g (rng z.1.1.1) key)).run g) ≤
      Spec.chance (fun y : (((Ω × ({j // j ∈ J} → F)) × ({q // q ∈ Q} → C)) × F × Spec.Draw F (F × F)) ×
          (Fin (n + 1) → Spec.Cell F (F × F)) =>
        Spec.Insider.Wins (fun X => .given fun f => (B.afterView S t X).reading (Spec.drawnHash S Q red f)) S dbg H n
          (fun ω => kit ω.1) y.1.1 y.1.2.1 y.1.2.2 y.2) +
      Spec.chance (fun y : (((Ω × ({j // j ∈ J} → F)) × ({q // q ∈ Q} → C)) × F × Spec.Draw F (F × F)) ×
          (Fin (n + 1 + 1) → Spec.Cell F (F × F)) =>
        Spec.Insider.Wins (fun X => .given fun f => (B.afterView S t X).thief S H X n (Spec.drawnHash S Q red f)
          fun ω => kit ω X) S dbg H (n + 1) (fun ω => kit ω.1) y.1.1 y.1.2.1 y.1.2.2 y.2) +
      Spec.chance (fun y : Ω × (Fin t → F) => Spec.Repeats S (fun _ => n) (rng y.1)
        (Spec.keysOf H (Spec.shareOfView D l (others (y.1, Spec.dealerView S J l y.2)) y.2))) +
      4 * (n : ℚ) * (H.length : ℚ) * δ := by
  intro kit
  have hbij := secretAndValues_bijective hS.u32 J hJ hJ0 t ht
  let e := Equiv.ofBijective _ hbij
  have he1 : ∀ w, (e w).1 = Spec.polyEval (List.ofFn w) 0 := fun _ => rfl
  have he2 : ∀ w, (e w).2 = fun j : {j // j ∈ J} => Spec.polyEval (List.ofFn w) (j.1.toNat : F) := fun _ => rfl
  have hview : ∀ w, Spec.simulatedDealerView S J t ((e w).1 • S.gen) (e w).2 = Spec.dealerView S J l w := fun w => by
    have := simulatedDealerView_eq hS.u32 S J hJ hJ0 t ht l w
    rwa [← he1, ← he2] at this
  have hkey : ∀ ω w, (kit (ω, (e w).2) ((e w).1 • S.gen)).key (e w).1 =
      Spec.shareOfView D l (others (ω, Spec.dealerView S J l w)) w := by
    intro ω w
    funext i
    simp only [kit]
    rw [hview]
    unfold Spec.Kit.key Spec.kitOfView Spec.shareOfView
    simp only
    rw [polyEval_basis hS.u32 t J hJ hJ0 ht w (i.toNat : F), he1]
    have : ∀ j ∈ J.toFinset, Spec.basisAt (0 :: J) j (i.toNat : F) * (if h : j ∈ J then (e w).2 ⟨j, h⟩ else 0) =
        Spec.basisAt (0 :: J) j (i.toNat : F) * Spec.polyEval (List.ofFn w) (j.toNat : F) := by
      intro j hj
      rw [dif_pos (List.mem_toFinset.mp hj)]
      rfl
    rw [Finset.sum_congr rfl this]
    ring
  have hgk : ∀ ω w, (kit (ω, (e w).2) ((e w).1 • S.gen)).groupKey S ((e w).1 • S.gen) =
      Spec.keyOfView S D l (others (ω, Spec.dealerView S J l w)) (Spec.dealerView S J l w) := by
    intro ω w
    simp only [kit]
    rw [hview, Spec.Kit.groupKey_eq, keyOfView_eq S D l _ J t ht w]
    rfl
  have h := C179_listed_nonces (Ω := Ω × ({j // j ∈ J} → F)) hS.codec hS.cipher hS.group dbg H n kit
    (fun ω X i hi => mul_ne_zero (lagrange_ne_zero hS.u32 D h0 l) (basisAt_ne_zero hS.u32 J i (hH i hi))) red δ hδ
    (fun ω => rng ω.1) Q (fun ω x s => by
      have hw := hkey ω.1 (e.symm (x, ω.2))
      rw [Equiv.apply_symm_apply] at hw
      have : (kit ω (x • S.gen)).key x = _ := hw
      rw [this]
      exact hQ _ _ s) (fun X => B.afterView S t X)
  have hplay : ∀ ω w key Y c r u L k, (B.afterView S t ((e w).1 • S.gen)).play S dbg H key Y (ω, (e w).2) c r u L k =
      B.play S dbg H key Y (ω, Spec.dealerView S J l w) c r u L k := by
    intro ω w key Y c r u L k
    induction k with
    | zero => rfl
    | succ k ih =>
      show ((B.afterView S t ((e w).1 • S.gen)).play S dbg H key Y (ω, (e w).2) c r u L k).andThen _ =
        (B.play S dbg H key Y (ω, Spec.dealerView S J l w) c r u L k).andThen _
      rw [ih]
      congr 1
      funext st
      show (B.move (ω, Spec.simulatedDealerView S J t _ (e w).2) _).andThen _ = _
      rw [hview]
  let φ : ((Ω × (Fin t → F) × Spec.Draw F (F × F)) × (Fin (n + 1) → Spec.Cell F (F × F))) × ({q // q ∈ Q} → C) ≃
      (((Ω × ({j // j ∈ J} → F)) × F × Spec.Draw F (F × F)) × (Fin (n + 1) → Spec.Cell F (F × F))) × ({q // q ∈ Q} → C) :=
    { toFun := fun z => ((((z.1.1.1, (e z.1.1.2.1).2), (e z.1.1.2.1).1, z.1.1.2.2), z.1.2), z.2)
      invFun := fun z => (((z.1.1.1.1, e.symm (z.1.1.2.1, z.1.1.1.2), z.1.1.2.2), z.1.2), z.2)
      left_inv := fun z => by simp
      right_inv := fun z => by simp }
  let χ : Ω × (Fin t → F) ≃ (Ω × ({j // j ∈ J} → F)) × F :=
    { toFun := fun z => ((z.1, (e z.2).2), (e z.2).1)
      invFun := fun z => (z.1.1, e.symm (z.2, z.1.2))
      left_inv := fun z => by simp
      right_inv := fun z => by simp }
  rw [← chance_bijective φ φ.bijective] at h
  have hrep : Spec.chance (fun y : (Ω × ({j // j ∈ J} → F)) × F => Spec.Repeats S (fun _ => n) (rng y.1.1)
        (Spec.keysOf H ((kit y.1 (y.2 • S.gen)).key y.2))) =
      Spec.chance (fun y : Ω × (Fin t → F) => Spec.Repeats S (fun _ => n) (rng y.1)
        (Spec.keysOf H (Spec.shareOfView D l (others (y.1, Spec.dealerView S J l y.2)) y.2))) := by
    rw [← chance_bijective χ χ.bijective]
    refine chance_congr fun y => ?_
    have := hkey y.1 y.2
    show Spec.Repeats S _ (rng y.1) (Spec.keysOf H ((kit (y.1, (e y.2).2) ((e y.2).1 • S.gen)).key (e y.2).1)) ↔ _
    rw [this]
  rw [hrep] at h
  refine le_trans (le_of_eq (chance_congr ?_)) h
  rintro ⟨⟨⟨ω, w, d⟩, tape⟩, f⟩
  show _ ↔ Spec.Asker.Wins (fun X => B.afterView S t X) S dbg H n kit (fun ω => rng ω.1) (Spec.drawnHash S Q red f) (ω, (e w).2)
    (e w).1 d tape
  unfold Spec.Asker.Wins
  beta_reduce
  rw [hkey, hgk]
  unfold Spec.Asker.succeeds
  rw [hplay]
  have hres : ∀ l', (B.afterView S t ((e w).1 • S.gen)).result (ω, (e w).2) l' = B.result (ω, Spec.dealerView S J l w) l' :=
    fun l' => by
      show B.result (ω, Spec.simulatedDealerView S J t _ (e w).2) l' = _
      rw [hview]
  simp only [hres]

end Colluders

/-! ### The shipped suite -/

section Shipped

variable [Fintype Secp.Fn] [Fintype U32] {R Ω : Type} [Fintype Ω] [Nonempty Ω]

/-- C179 for secp256k1: the hash function for nonces answers with 48 random bytes, which are reduced, and each nonce has its own
32 random bytes, which the insider may know. The difference to C143 with `N = 2 n |H|` nonces is at most
`N (N - 1) / 2 ^ 257 + N / 2 ^ 127`. -/
theorem C179_shipped (X : Secp.Parts R) (dbg : Bool) (H : List U32) (n : ℕ)
    (kit : Ω × (Spec.Places H n → Fin 32 → Fin 256) → Secp.Point → Spec.Kit Secp.Fn)
    (hk : ∀ ω P, ∀ i ∈ H, (kit ω P).keyScale i ≠ 0)
    (rng : Ω × (Spec.Places H n → Fin 32 → Fin 256) → Fin H.length → R)
    (hrng : ∀ ω s, Spec.nonceBytes (Secp.suite X) (rng ω) s = Spec.thirtyTwo (ω.2 s)) (Q : Finset Bytes)
    (hQ : ∀ ω x (s : Spec.Places H n), Spec.nonceString (Secp.suite X) (rng ω)
      (Spec.keysOf H ((kit ω (x • (Secp.suite X).gen)).key x)) s ∈ Q)
    (B : Secp.Point → Spec.Asker (Ω × (Spec.Places H n → Fin 32 → Fin 256)) Secp.Fn Secp.Point) :
    let S := Secp.suite X
    let hash := Spec.drawnHash S Q (Spec.reduced Cases.secp256k1Order (L := 48))
    let N : ℚ := 2 * n * H.length
    let Ω' := Ω × (Spec.Places H n → Fin 32 → Fin 256)
    let D := Spec.Draw Secp.Fn (Secp.Fn × Secp.Fn)
    let Cell := Spec.Cell Secp.Fn (Secp.Fn × Secp.Fn)
    Spec.chance (fun y : ((Ω' × Secp.Fn × D) × (Fin (n + 1) → Cell)) × ({q // q ∈ Q} → Fin 48 → Fin 256) =>
        Spec.Asker.Wins B S dbg H n kit rng (hash y.2) y.1.1.1 y.1.1.2.1 y.1.1.2.2 y.1.2) ≤
      Spec.chance (fun y : ((Ω' × ({q // q ∈ Q} → Fin 48 → Fin 256)) × Secp.Fn × D) × (Fin (n + 1) → Cell) =>
        Spec.Insider.Wins (fun P => .given fun f => (B P).reading (hash f)) S dbg H n
          (fun ω => kit ω.1) y.1.1 y.1.2.1 y.1.2.2 y.2) +
      Spec.chance (fun y : ((Ω' × ({q // q ∈ Q} → Fin 48 → Fin 256)) × Secp.Fn × D) × (Fin (n + 1 + 1) → Cell) =>
        Spec.Insider.Wins (fun P => .given fun f => (B P).thief S H P n (hash f) fun ω => kit ω P) S dbg H
          (n + 1) (fun ω => kit ω.1) y.1.1 y.1.2.1 y.1.2.2 y.2) +
      (N * (N - 1) / 2 ^ 257 + N / 2 ^ 127) := by
  intro S hash N Ω' D Cell
  have h := C179_listed_nonces (C148_codec X) (C148_cipher X) (C148_group X) dbg H n kit hk
    (Spec.reduced Cases.secp256k1Order (L := 48)) (1 / 2 ^ 128)
    (near_reduced Cases.secp256k1Order (by norm_num [Cases.secp256k1Order])) rng Q hQ B
  have hrep : Spec.chance (fun y : Ω' × Secp.Fn => Spec.Repeats S (fun _ => n) (rng y.1)
      (Spec.keysOf H ((kit y.1 (y.2 • S.gen)).key y.2))) ≤ N * (N - 1) / 2 ^ 257 := by
    let e : ((Ω × Secp.Fn) × (Spec.Places H n → Fin 32 → Fin 256)) ≃ Ω' × Secp.Fn :=
      { toFun := fun z => ((z.1.1, z.2), z.1.2)
        invFun := fun z => ((z.1.1, z.2), z.1.2)
        left_inv := fun _ => rfl
        right_inv := fun _ => rfl }
    rw [← chance_bijective e e.bijective]
    have h2 := C168_repeat S (Ω := Ω × Secp.Fn) (fun _ : Fin H.length => n) Spec.thirtyTwo thirtyTwo_injective
      (fun z => rng (z.1.1, z.2)) (fun z s => hrng (z.1.1, z.2) s)
      (fun z => Spec.keysOf H ((kit (z.1.1, z.2) (z.1.2 • S.gen)).key z.1.2))
    have hB : (Fintype.card (Fin 32 → Fin 256) : ℚ) = 2 ^ 256 := by
      rw [Fintype.card_fun, Fintype.card_fin, Fintype.card_fin]
      norm_num
    have hT : (∑ _c : Fin H.length, 2 * ((n : ℕ) : ℚ)) = N := by
      simp only [Finset.sum_const, Finset.card_univ, Fintype.card_fin, nsmul_eq_mul, N]
      ring
    rw [hT, hB, div_div, ← pow_succ'] at h2
    exact h2
  refine h.trans ?_
  have h5 : 4 * (n : ℚ) * (H.length : ℚ) * (1 / 2 ^ 128) = N / 2 ^ 127 := by
    simp only [N]
    norm_num
    ring
  rw [h5, add_assoc]
  exact add_le_add le_rfl (add_le_add hrep le_rfl)

end Shipped

/-! ### A concrete insider -/

section Examples
open Toy

/-- The insider of C143, which also asks the hash function for nonces a question before every move and before the result. -/
def inquisitive (Y : Fp) : Spec.Asker Unit Fp Fp where
  move ω l := .ask [1, 2, 3] fun _ => .done ((moonlighter fun _ => Y).move ω l)
  result ω l := .ask [4] fun _ => .done ((moonlighter fun _ => Y).result ω l)

theorem moonlighter_forges (H : List U32) (hH : 1 ∈ H) (Y : Fp) (key : U32 → Fp) (c : ℕ → Fp) (r : ℕ → U32 → Fp)
    (u : ℕ → Fp × Fp) :
    ((moonlighter fun _ : Unit => Y).play suite true H key Y () c r u 3).1.Forged suite Y ((moonlighter fun _ : Unit => Y).result ()
      ((moonlighter fun _ : Unit => Y).play suite true H key Y () c r u 3).1.replies) (c 3) := by
  have h := moonlighter_succeeds H hH (fun _ : Unit => Y) key () (r 0, u 0) fun a : Fin (3 + 1) => (c a, r (a + 1), u (a + 1))
  unfold Spec.Insider.Succeeds at h
  have hd : ∀ a < 3, Spec.drawn (N := 3 + 1) (r 0, u 0) (fun a => (c a, r (a + 1), u (a + 1))) a = (r a, u a) := by
    intro a ha
    cases a with
    | zero => rfl
    | succ a =>
      show (if ha : a < 3 + 1 then _ else _) = _
      rw [dif_pos (by omega)]
  have hc : ∀ a < 4, Spec.answers (N := 3 + 1) (fun a => (c a, r (a + 1), u (a + 1))) a = c a := by
    intro a ha
    unfold Spec.answers
    rw [dif_pos (by omega)]
  have hp := (moonlighter fun _ : Unit => Y).play_congr suite true H key Y () (c := Spec.answers (N := 3 + 1) (fun a => (c a, r (a + 1), u (a + 1))))
    (c' := c) (r := fun a => (Spec.drawn (N := 3 + 1) (r 0, u 0) (fun a => (c a, r (a + 1), u (a + 1))) a).1) (r' := r)
    (u := fun a => (Spec.drawn (N := 3 + 1) (r 0, u 0) (fun a => (c a, r (a + 1), u (a + 1))) a).2) (u' := u) 3
    (fun a ha => hc a (by omega)) (fun a ha => by rw [hd a ha]) (fun a ha => by rw [hd a ha])
  simp only at h
  rw [hp, hc 3 (by omega)] at h
  exact h

theorem inquisitive_wins (kit : Spec.Kit Fp) (hkit : ∀ X, kit.groupKey suite X = X) (rng : Unit → Fin ([1] : List U32).length → ℕ)
    (g : Bytes → Fp) (x : Fp) (d : Spec.Draw Fp (Fp × Fp)) (h : Fin (3 + 1) → Spec.Cell Fp (Fp × Fp)) :
    Spec.Asker.Wins inquisitive suite true [1] 3 (fun _ _ => kit) rng g () x d h := by
  unfold Spec.Asker.Wins Spec.Asker.succeeds
  rw [Spec.Program.run_andThen, asker_play, Spec.Program.run_andThen, hkit, Spec.Insider.listed_as_play]
  exact moonlighter_forges [1] (by decide) (x • suite.gen) _ _ _ _

/-- The honest signer 1 takes its nonces from a list; the insider forges always, so one of the insiders of C143 often does. -/
example [Fintype Fp] [Fintype U32] : ∃ Q : Finset Bytes,
    1 ≤ Spec.chance (fun y : ((Unit × ({q // q ∈ Q} → Fp)) × Fp × Spec.Draw Fp (Fp × Fp)) ×
          (Fin (3 + 1) → Spec.Cell Fp (Fp × Fp)) =>
        Spec.Insider.Wins (fun X => .given fun f => (inquisitive X).reading (Spec.drawnHash suite Q id f)) suite true [1] 3
          (fun _ _ => lineKit) y.1.1 y.1.2.1 y.1.2.2 y.2) +
      Spec.chance (fun y : ((Unit × ({q // q ∈ Q} → Fp)) × Fp × Spec.Draw Fp (Fp × Fp)) ×
          (Fin (3 + 1 + 1) → Spec.Cell Fp (Fp × Fp)) =>
        Spec.Insider.Wins (fun X => .given fun f => (inquisitive X).thief suite [1] X 3 (Spec.drawnHash suite Q id f)
          fun _ => lineKit) suite true [1] (3 + 1) (fun _ _ => lineKit) y.1.1 y.1.2.1 y.1.2.2 y.2) +
      Spec.chance (fun y : Unit × Fp => Spec.Repeats suite (fun _ => 3) (fun _ => 5) (Spec.keysOf [1] (lineKit.key y.2))) := by
  obtain ⟨Q, hQ⟩ := Secp.exists_strings fun y : Fp × Spec.Places [1] 3 =>
    Spec.nonceString suite (fun _ => 5) (Spec.keysOf [1] (lineKit.key y.1)) y.2
  refine ⟨Q, ?_⟩
  have h := C179_listed_nonces (Ω := Unit) codec_laws cipher_laws group_laws true [1] 3 (fun _ _ => lineKit)
    (fun _ _ _ _ => one_ne_zero) id 0 near_id (fun _ _ => 5) Q (fun _ x s => hQ (x, s)) inquisitive
  rw [mul_zero, add_zero, chance_one fun y => inquisitive_wins lineKit lineKit_groupKey _ _ _ _ _] at h
  exact h

/-- The list of signer 1 in that game has three pairs, and the nonces depend on the hash function. -/
example : ((Spec.ownLists suite [1] 3 (fun b => (b.length : Fp)) (fun _ => 5) (lineKit.key 7) 1).map
    (·.hidingC.secret)).length = 3 ∧
    Spec.ownLists suite [1] 3 (fun b => (b.length : Fp)) (fun _ => 5) (lineKit.key 7) 1 ≠
      Spec.ownLists suite [1] 3 (fun b => (b.length + 1 : Fp)) (fun _ => 5) (lineKit.key 7) 1 := by
  decide +kernel

/-- In the toy group discrete logarithms are easy, so `η = 1`. -/
example [Fintype Fp] [Fintype U32] : ∃ Q : Finset Bytes,
    Spec.chance (fun y : ((Unit × Fp × Spec.Draw Fp (Fp × Fp)) × (Fin (3 + 1) → Spec.Cell Fp (Fp × Fp))) × ({q // q ∈ Q} → Fp) =>
      Spec.Asker.Wins inquisitive suite true [1] 3 (fun _ _ => lineKit) (fun _ _ => 5) (Spec.drawnHash suite Q id y.2) y.1.1.1
        y.1.1.2.1 y.1.1.2.2 y.1.2) ≤ 2 * 3 +
      Spec.chance (fun y : Unit × Fp => Spec.Repeats suite (fun _ => 3) (fun _ => 5) (Spec.keysOf [1] (lineKit.key y.2))) +
      4 * ((3 : ℕ) : ℚ) * (([1] : List U32).length : ℚ) * 0 := by
  obtain ⟨Q, hQ⟩ := Secp.exists_strings fun y : Fp × Spec.Places [1] 3 =>
    Spec.nonceString suite (fun _ => 5) (Spec.keysOf [1] (lineKit.key y.1)) y.2
  have hF : (Fintype.card Fp : ℚ) = 6597069766657 := by
    rw [ZMod.card]
    norm_num
  exact ⟨Q, C179_hard (Ω := Unit) lawful true [1] 3 (by norm_num) (fun _ _ => lineKit) (fun _ _ => one_ne_zero)
    (fun _ _ _ _ => one_ne_zero) id 0 near_id (fun _ _ => 5) Q (fun _ x s => hQ (x, s)) inquisitive 1 3 (by norm_num)
    (by rw [hF]; norm_num) (chance_le_one _) (chance_le_one _)⟩

/-- Colluders 2 and 4 of a key generation with honest dealer 1, and honest signers 1 and 3. -/
example [Fintype Fp] [Fintype U32] : ∃ Q : Finset Bytes,
    let B : Spec.Asker (Unit × (List Fp × ({j // j ∈ colluders} → Fp))) Fp Fp :=
      ⟨fun v l => .ask [1] fun _ => .done ((moonlighter colluderSecret).move v l),
        fun v l => .ask [2] fun _ => .done ((moonlighter colluderSecret).result v l)⟩
    let kit := fun (ω : (Unit × ({j // j ∈ colluders} → Fp))) (X : Fp) =>
      Spec.kitOfView [1, 2, 3] 1 colluders (colluderOthers (ω.1, Spec.simulatedDealerView suite colluders 3 X ω.2)) ω.2
    Spec.chance (fun z : ((Unit × (Fin 3 → Fp) × Spec.Draw Fp (Fp × Fp)) × (Fin (3 + 1) → Spec.Cell Fp (Fp × Fp))) ×
          ({q // q ∈ Q} → Fp) =>
        let v := (z.1.1.1, Spec.dealerView suite colluders 1 z.1.1.2.1)
        let key := Spec.shareOfView [1, 2, 3] 1 (colluderOthers v) z.1.1.2.1
        let g := Spec.drawnHash suite Q id z.2
        (B.succeeds suite true [1, 3] 3 key (Spec.keyOfView suite [1, 2, 3] 1 (colluderOthers v) v.2) v z.1.1.2.2 z.1.2
          (Spec.ownLists suite [1, 3] 3 g (fun c => 5 + c) key)).run g) ≤
      Spec.chance (fun y : (((Unit × ({j // j ∈ colluders} → Fp)) × ({q // q ∈ Q} → Fp)) × Fp × Spec.Draw Fp (Fp × Fp)) ×
          (Fin (3 + 1) → Spec.Cell Fp (Fp × Fp)) =>
        Spec.Insider.Wins (fun X => .given fun f => (B.afterView suite 3 X).reading (Spec.drawnHash suite Q id f)) suite true
          [1, 3] 3 (fun ω => kit ω.1) y.1.1 y.1.2.1 y.1.2.2 y.2) +
      Spec.chance (fun y : (((Unit × ({j // j ∈ colluders} → Fp)) × ({q // q ∈ Q} → Fp)) × Fp × Spec.Draw Fp (Fp × Fp)) ×
          (Fin (3 + 1 + 1) → Spec.Cell Fp (Fp × Fp)) =>
        Spec.Insider.Wins (fun X => .given fun f => (B.afterView suite 3 X).thief suite [1, 3] X 3 (Spec.drawnHash suite Q id f)
          fun ω => kit ω X) suite true [1, 3] (3 + 1) (fun ω => kit ω.1) y.1.1 y.1.2.1 y.1.2.2 y.2) +
      Spec.chance (fun y : Unit × (Fin 3 → Fp) => Spec.Repeats suite (fun _ => 3) (fun c => 5 + c)
        (Spec.keysOf [1, 3] (Spec.shareOfView [1, 2, 3] 1 (colluderOthers (y.1, Spec.dealerView suite colluders 1 y.2)) y.2))) +
      4 * ((3 : ℕ) : ℚ) * (([1, 3] : List U32).length : ℚ) * 0 := by
  obtain ⟨Q, hQ⟩ := Secp.exists_strings fun y : (Fin 3 → Fp) × Spec.Places [1, 3] 3 =>
    Spec.nonceString suite (fun c => 5 + c) (Spec.keysOf [1, 3]
      (Spec.shareOfView [1, 2, 3] 1 (colluderOthers ((), Spec.dealerView suite colluders 1 y.1)) y.1)) y.2
  exact ⟨Q, C179_below_threshold (Ω := Unit) lawful [1, 2, 3] (by decide) 1 colluders (by decide) (by decide) 3 rfl
    colluderOthers true [1, 3]
    (fun i hi => by simp at hi; rcases hi with rfl | rfl <;> decide) 3 id 0 near_id (fun _ c => 5 + c) Q (fun _ w s => hQ (w, s)) _⟩

/-- Blocks of random bytes as in the code meet the hypotheses for the shipped suite. -/
example [Fintype Secp.Fn] [Fintype U32] (H : List U32) (n : ℕ)
    (B : Secp.Point → Spec.Asker (Unit × (Spec.Places H n → Fin 32 → Fin 256)) Secp.Fn Secp.Point) :
    ∃ Q : Finset Bytes,
    let S := Secp.suite Secp.blockParts
    let hash := Spec.drawnHash S Q (Spec.reduced Cases.secp256k1Order (L := 48))
    let kit : Spec.Kit Secp.Fn := ⟨1, 0, fun _ => 1, fun i => (i.toNat : Secp.Fn)⟩
    let N : ℚ := 2 * n * H.length
    let Ω' := Unit × (Spec.Places H n → Fin 32 → Fin 256)
    let D := Spec.Draw Secp.Fn (Secp.Fn × Secp.Fn)
    let Cell := Spec.Cell Secp.Fn (Secp.Fn × Secp.Fn)
    Spec.chance (fun y : ((Ω' × Secp.Fn × D) × (Fin (n + 1) → Cell)) × ({q // q ∈ Q} → Fin 48 → Fin 256) =>
        Spec.Asker.Wins B S true H n (fun _ _ => kit) (fun ω => Secp.blockTapes ω.2) (hash y.2) y.1.1.1 y.1.1.2.1 y.1.1.2.2
          y.1.2) ≤
      Spec.chance (fun y : ((Ω' × ({q // q ∈ Q} → Fin 48 → Fin 256)) × Secp.Fn × D) × (Fin (n + 1) → Cell) =>
        Spec.Insider.Wins (fun P => .given fun f => (B P).reading (hash f)) S true H n
          (fun _ _ => kit) y.1.1 y.1.2.1 y.1.2.2 y.2) +
      Spec.chance (fun y : ((Ω' × ({q // q ∈ Q} → Fin 48 → Fin 256)) × Secp.Fn × D) × (Fin (n + 1 + 1) → Cell) =>
        Spec.Insider.Wins (fun P => .given fun f => (B P).thief S H P n (hash f) fun _ => kit) S true H
          (n + 1) (fun _ _ => kit) y.1.1 y.1.2.1 y.1.2.2 y.2) +
      (N * (N - 1) / 2 ^ 257 + N / 2 ^ 127) := by
  obtain ⟨Q, hQ⟩ := Secp.exists_strings fun y : (Spec.Places H n → Fin 32 → Fin 256) × Secp.Fn × Spec.Places H n =>
    Spec.nonceString (Secp.suite Secp.blockParts) (Secp.blockTapes y.1)
      (Spec.keysOf H ((⟨1, 0, fun _ => 1, fun i => (i.toNat : Secp.Fn)⟩ : Spec.Kit Secp.Fn).key y.2.1)) y.2.2
  exact ⟨Q, C179_shipped (Ω := Unit) Secp.blockParts true H n (fun _ _ => ⟨1, 0, fun _ => 1, fun i => (i.toNat : Secp.Fn)⟩)
    (fun _ _ _ _ => one_ne_zero) (fun ω => Secp.blockTapes ω.2) (fun ω s => Secp.blockTapes_bytes ω.2 s) Q
    (fun ω x s => hQ (ω.2, x, s)) B⟩

end Examples

end IceFrost
