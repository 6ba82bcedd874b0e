import Verif.Props.Authentic
import Verif.Props.NonceHash
import Verif.Props.Sampling

/-! # C178: false proofs in complaints are found only by luck

The proof in a complaint (`src/dkg/complaint.rs:40-139`) shows that the disclosed key is the Diffie-Hellman key of the
maker's and the accused's keys. Here the hash function of these proofs is drawn at random. Whoever asks it `q` questions and
presents `m` complaints has a false one among those that verify with a chance of at most `q + m` times the chance of a single
scalar, whatever else they know or can compute. -/

set_option linter.unusedSectionVars false
set_option linter.unusedVariables false

namespace IceFrost

open Finset

/-! ### Programs that look for a bad answer -/

/-- A value of a random function may be drawn separately. -/
theorem chance_redraw {X C : Type} [Fintype X] [DecidableEq X] [Fintype C] [Nonempty C] (x : X) (E : (X → C) → Prop) :
    Spec.chance (fun y : C × (X → C) => E (Function.update y.2 x y.1)) = Spec.chance E := by
  have h1 := chance_extra (A := X → C) (B := C) E
  let φ : C × (X → C) → (X → C) × C := fun y => (Function.update y.2 x y.1, y.2 x)
  have hφ : Function.Bijective φ := by
    refine Function.bijective_iff_has_inverse.mpr ⟨fun z => (z.1 x, Function.update z.1 x z.2), fun y => ?_, fun z => ?_⟩
    · simp only [φ, Function.update_self, Function.update_idem, Function.update_eq_self]
    · simp only [φ, Function.update_self, Function.update_idem, Function.update_eq_self]
  rw [← h1, ← chance_bijective φ hφ]

theorem chance_none {A : Type} [Fintype A] {E : A → Prop} (h : ∀ a, ¬ E a) : Spec.chance E = 0 := by
  classical
  unfold Spec.chance
  rw [Finset.filter_false_of_mem fun a _ => h a]
  simp

theorem chance_scalar {A : Type} [Fintype A] (a : A) : Spec.chance (fun c : A => c = a) = 1 / (Fintype.card A : ℚ) := by
  classical
  unfold Spec.chance
  have h : (univ.filter fun c : A => c = a) = {a} := by
    ext c
    simp
  rw [h, Finset.card_singleton, Nat.cast_one]

theorem chance_at {X C : Type} [Fintype X] [DecidableEq X] [Fintype C] [Nonempty C] (x : X) (B : C → Prop) :
    Spec.chance (fun f : X → C => B (f x)) = Spec.chance B := by
  rw [← chance_redraw x, ← chance_extra (A := C) (B := X → C) B]
  exact chance_congr fun y => by rw [Function.update_self]

/-- A hash function with the answers `f` to the strings `Q`, and fixed answers to all others. -/
def Spec.answering {X F C : Type} [DecidableEq X] (Q : Finset X) (red : C → F) (rest : X → F) (f : {x // x ∈ Q} → C) (x : X) : F :=
  if h : x ∈ Q then red (f ⟨x, h⟩) else rest x

section
variable {X F C O : Type} [DecidableEq X] [Fintype C] [Nonempty C] (Q : Finset X) (red : C → F) (rest : X → F)
  (Bad : X → F → Prop) (β : ℚ)

theorem asked_bad_from (h0 : 0 ≤ β) (hβ : ∀ x ∈ Q, Spec.chance (fun c : C => Bad x (red c)) ≤ β) :
    ∀ (q : ℕ) (p : Spec.Program X F O), p.AtMost q → ∀ (D : Finset {x // x ∈ Q}) (f₀ : {x // x ∈ Q} → C),
      Spec.chance (fun f : {x // x ∈ Q} → C => let g := Spec.answering Q red rest fun i => if i ∈ D then f₀ i else f i
        ∃ x ∈ p.questions g, ∃ h : x ∈ Q, (⟨x, h⟩ : {x // x ∈ Q}) ∉ D ∧ Bad x (g x)) ≤ q * β
  | q, .done o, _, D, f₀ => by
    rw [chance_none]
    · positivity
    · rintro f ⟨x, hx, _⟩
      exact List.not_mem_nil hx
  | 0, .ask _ _, h, _, _ => h.elim
  | q + 1, .ask x next, hq, D, f₀ => by
    have hmono : (q : ℚ) * β ≤ (q + 1 : ℕ) * β := by
      push_cast
      nlinarith
    by_cases hQ : x ∈ Q
    · by_cases hD : (⟨x, hQ⟩ : {x // x ∈ Q}) ∈ D
      · have hx : ∀ f : {x // x ∈ Q} → C, Spec.answering Q red rest (fun i => if i ∈ D then f₀ i else f i) x =
            red (f₀ ⟨x, hQ⟩) := fun f => by
          unfold Spec.answering
          rw [dif_pos hQ]
          exact congrArg red (if_pos hD)
        refine le_trans (chance_mono ?_) (le_trans (asked_bad_from h0 hβ q (next (red (f₀ ⟨x, hQ⟩))) (hq _) D f₀) hmono)
        rintro f ⟨y, hy, hyQ, hyD, hb⟩
        rw [Spec.Program.questions, hx f, List.mem_cons] at hy
        rcases hy with rfl | hy
        · exact absurd hD hyD
        · exact ⟨y, hy, hyQ, hyD, hb⟩
      · have hsplit := chance_or (A := {x // x ∈ Q} → C)
          (E := fun f => let g := Spec.answering Q red rest fun i => if i ∈ D then f₀ i else f i
            ∃ y ∈ (Spec.Program.ask x next).questions g, ∃ h : y ∈ Q, (⟨y, h⟩ : {x // x ∈ Q}) ∉ D ∧ Bad y (g y))
          (E1 := fun f => Bad x (red (f ⟨x, hQ⟩)))
          (E2 := fun f => let g := Spec.answering Q red rest fun i => if i ∈ D then f₀ i else f i
            ∃ y ∈ (next (red (f ⟨x, hQ⟩))).questions g, ∃ h : y ∈ Q, (⟨y, h⟩ : {x // x ∈ Q}) ∉ insert ⟨x, hQ⟩ D ∧ Bad y (g y))
          (by
            rintro f ⟨y, hy, hyQ, hyD, hb⟩
            have hx : Spec.answering Q red rest (fun i => if i ∈ D then f₀ i else f i) x = red (f ⟨x, hQ⟩) := by
              unfold Spec.answering
              rw [dif_pos hQ]
              exact congrArg red (if_neg hD)
            by_cases hyx : y = x
            · subst hyx
              rw [hx] at hb
              exact .inl hb
            · rw [Spec.Program.questions, hx, List.mem_cons] at hy
              refine .inr ⟨y, hy.resolve_left hyx, hyQ, ?_, hb⟩
              rw [Finset.mem_insert, not_or]
              exact ⟨fun h => hyx (congrArg Subtype.val h), hyD⟩)
        refine le_trans hsplit ?_
        have e1 : Spec.chance (fun f : {x // x ∈ Q} → C => Bad x (red (f ⟨x, hQ⟩))) ≤ β := by
          rw [chance_at (⟨x, hQ⟩ : {x // x ∈ Q}) fun c => Bad x (red c)]
          exact hβ x hQ
        have e2 : Spec.chance (fun f : {x // x ∈ Q} → C =>
            let g := Spec.answering Q red rest fun i => if i ∈ D then f₀ i else f i
            ∃ y ∈ (next (red (f ⟨x, hQ⟩))).questions g, ∃ h : y ∈ Q, (⟨y, h⟩ : {x // x ∈ Q}) ∉ insert ⟨x, hQ⟩ D ∧ Bad y (g y)) ≤
            q * β := by
          rw [← chance_redraw (⟨x, hQ⟩ : {x // x ∈ Q}), chance_prod]
          refine div_le_of_le_mul₀ (by positivity) (by positivity) ?_
          have : ∀ c : C, Spec.chance (fun f : {x // x ∈ Q} → C =>
              let f' := Function.update f ⟨x, hQ⟩ c
              let g := Spec.answering Q red rest fun i => if i ∈ D then f₀ i else f' i
              ∃ y ∈ (next (red (f' ⟨x, hQ⟩))).questions g, ∃ h : y ∈ Q,
                (⟨y, h⟩ : {x // x ∈ Q}) ∉ insert ⟨x, hQ⟩ D ∧ Bad y (g y)) ≤ q * β := by
            intro c
            refine le_trans (le_of_eq (chance_congr fun f => ?_))
              (asked_bad_from h0 hβ q (next (red c)) (hq _) (insert ⟨x, hQ⟩ D) (Function.update f₀ ⟨x, hQ⟩ c))
            have hg : (fun i => if i ∈ D then f₀ i else Function.update f ⟨x, hQ⟩ c i) =
                fun i => if i ∈ insert (⟨x, hQ⟩ : {x // x ∈ Q}) D then Function.update f₀ ⟨x, hQ⟩ c i else f i := by
              funext i
              by_cases hi : i = ⟨x, hQ⟩
              · subst hi
                rw [if_neg hD, if_pos (Finset.mem_insert_self _ _), Function.update_self, Function.update_self]
              · rw [Function.update_of_ne hi, Function.update_of_ne hi]
                by_cases hiD : i ∈ D
                · rw [if_pos hiD, if_pos (Finset.mem_insert_of_mem hiD)]
                · rw [if_neg hiD, if_neg (by rw [Finset.mem_insert, not_or]; exact ⟨hi, hiD⟩)]
            simp only [hg, Function.update_self]
          refine le_trans (Finset.sum_le_card_nsmul univ _ _ fun c _ => this c) ?_
          rw [nsmul_eq_mul, Finset.card_univ, mul_comm]
        have : β + q * β = ((q + 1 : ℕ) : ℚ) * β := by push_cast; ring
        linarith
    · have hx : ∀ f : {x // x ∈ Q} → C, Spec.answering Q red rest (fun i => if i ∈ D then f₀ i else f i) x = rest x :=
        fun f => dif_neg hQ
      refine le_trans (chance_mono ?_) (le_trans (asked_bad_from h0 hβ q (next (rest x)) (hq _) D f₀) hmono)
      rintro f ⟨y, hy, hyQ, hyD, hb⟩
      rw [Spec.Program.questions, hx f, List.mem_cons] at hy
      rcases hy with rfl | hy
      · exact absurd hyQ hQ
      · exact ⟨y, hy, hyQ, hyD, hb⟩

/-- A program that asks `q` questions gets a bad answer to one of them with a chance of at most `q` times the chance of a bad
answer to a single question, whatever it makes of the answers before. -/
theorem asked_bad (h0 : 0 ≤ β) (hβ : ∀ x ∈ Q, Spec.chance (fun c : C => Bad x (red c)) ≤ β) (q : ℕ) (p : Spec.Program X F O)
    (hq : p.AtMost q) :
    Spec.chance (fun f : {x // x ∈ Q} → C =>
      ∃ x ∈ p.questions (Spec.answering Q red rest f), x ∈ Q ∧ Bad x (Spec.answering Q red rest f x)) ≤ q * β := by
  obtain ⟨c⟩ := ‹Nonempty C›
  have := asked_bad_from Q red rest Bad β h0 hβ q p hq ∅ fun _ => c
  refine le_trans (chance_mono ?_) this
  rintro f ⟨x, hx, hxQ, hb⟩
  simp only [Finset.notMem_empty, if_false, not_false_eq_true, true_and]
  exact ⟨x, hx, hxQ, hb⟩

end

/-! ### The game -/

variable {F G R : Type} [Field F] [DecidableEq F] [AddCommGroup G] [Module F G] [DecidableEq G]

/-- The suite with another hash function for the proofs in complaints. -/
def Spec.withComplaintHash (S : Suite F G R) (g : Bytes → F) : Suite F G R :=
  { S with sha256FieldHash := fun dst m => if dst = strBytes "Complaint Context" then g m else S.sha256FieldHash dst m }

/-- A complaint whose proof verifies although the disclosed key is not the Diffie-Hellman key of its public key and that of
the accused. -/
def Spec.Misproved (S : Suite F G R) (c : Complaint F G) (accused : G) : Prop :=
  c.verify S accused = .ok () ∧ ¬ ∃ x : F, c.dhPublicKey = x • S.gen ∧ c.dhSharedKey = x • accused

/-- The bytes hashed for the proof in a complaint. -/
def Spec.proofString (S : Suite F G R) (c : Complaint F G) (accused : G) : Bytes :=
  S.encG c.dhPublicKey ++ S.encG accused ++ S.encG c.dhSharedKey ++ S.encG c.proof.a1 ++ S.encG c.proof.a2 ++
    (encShareCodec S).enc c.encShare

/-- The hash function of the proofs in complaints with the answers `f` to the strings `Q`. The answers are elements of any
type `C` from which `red` makes scalars. -/
def Spec.proofHash (S : Suite F G R) (Q : Finset Bytes) {C : Type} (red : C → F) (f : {x // x ∈ Q} → C) : Bytes → F :=
  Spec.answering Q red (S.sha256FieldHash (strBytes "Complaint Context")) f

/-- Answers that allow a false proof for the string `x`. -/
def Spec.Cheats (S : Suite F G R) (x : Bytes) (h : F) : Prop :=
  ∃ (c : Complaint F G) (accused : G), x = Spec.proofString S c accused ∧
    Spec.CpAccepts S.gen c.dhPublicKey accused c.dhSharedKey c.proof.a1 c.proof.a2 h c.proof.z ∧
    ¬ ∃ x : F, c.dhPublicKey = x • S.gen ∧ c.dhSharedKey = x • accused

theorem cheats_unique {S : Suite F G R} (hd : S.CodecLaws) {x : Bytes} {h h' : F} (h1 : Spec.Cheats S x h)
    (h2 : Spec.Cheats S x h') : h = h' := by
  obtain ⟨c, pk, rfl, ha, hn⟩ := h1
  obtain ⟨c', pk', he, ha', _⟩ := h2
  unfold Spec.proofString at he
  simp only [List.append_assoc] at he
  obtain ⟨e1, he⟩ := hd.encG_append_inj he
  obtain ⟨e2, he⟩ := hd.encG_append_inj he
  obtain ⟨e3, he⟩ := hd.encG_append_inj he
  obtain ⟨e4, he⟩ := hd.encG_append_inj he
  obtain ⟨e5, _⟩ := hd.encG_append_inj he
  rw [← e1, ← e2, ← e3, ← e4, ← e5] at ha'
  by_contra hne
  exact hn ⟨_, C48_special_sound _ _ _ _ _ _ _ _ _ _ ha ha' hne⟩

theorem misproved_cheats (S : Suite F G R) (g : Bytes → F) {c : Complaint F G} {accused : G}
    (h : Spec.Misproved (Spec.withComplaintHash S g) c accused) :
    Spec.Cheats S (Spec.proofString S c accused) (g (Spec.proofString S c accused)) := by
  refine ⟨c, accused, rfl, ?_, h.2⟩
  have := (C48_verify_iff _ c accused).mp h.1
  have hh : (Spec.withComplaintHash S g).sha256FieldHash (strBytes "Complaint Context") (Spec.proofString S c accused) =
      g (Spec.proofString S c accused) := by
    show (if strBytes "Complaint Context" = strBytes "Complaint Context" then g (Spec.proofString S c accused)
      else S.sha256FieldHash (strBytes "Complaint Context") (Spec.proofString S c accused)) = _
    rw [if_pos rfl]
  rw [← hh]
  exact this

/-- Asks all questions of a list. -/
def Spec.Program.askAll {X F : Type} : List X → Spec.Program X F Unit
  | [] => .done ()
  | x :: l => .ask x fun _ => askAll l

theorem askAll_questions {X F : Type} (g : X → F) : ∀ l : List X, (Spec.Program.askAll l).questions g = l
  | [] => rfl
  | x :: l => congrArg (x :: ·) (askAll_questions g l)

theorem askAll_atMost {X F : Type} : ∀ (m : ℕ) (l : List X), l.length ≤ m → (Spec.Program.askAll (F := F) l).AtMost m
  | _, [], _ => by unfold Spec.Program.askAll Spec.Program.AtMost; trivial
  | 0, _ :: _, h => absurd h (by simp)
  | m + 1, _ :: l, h => fun _ => askAll_atMost m l (by simpa using h)

/-- If every part has a chance of at most `b`, so has the whole. -/
theorem chance_parts {A B : Type} [Fintype A] [Fintype B] [Nonempty A] [Nonempty B] (E : A × B → Prop) (b : ℚ)
    (h : ∀ a, Spec.chance (fun x => E (a, x)) ≤ b) : Spec.chance E ≤ b := by
  rw [chance_prod]
  have hA : (0 : ℚ) < Fintype.card A := by exact_mod_cast Fintype.card_pos
  rw [div_le_iff₀ hA]
  refine le_trans (Finset.sum_le_card_nsmul univ _ _ fun a _ => h a) ?_
  rw [nsmul_eq_mul, Finset.card_univ, mul_comm]

/-- C178: whoever asks the hash function `q` questions and presents `m` complaints, with any knowledge `Ω` and depending on
all answers, presents one with a proof that verifies for a wrong key with a chance of at most `(q + m) β`, where `β` bounds
the chance of a single scalar. -/
theorem C178_false_proof {S : Suite F G R} (hd : S.CodecLaws) {Ω C : Type} [Fintype Ω] [Nonempty Ω] [Fintype C] [Nonempty C]
    (red : C → F) (β : ℚ) (hβ : ∀ a : F, Spec.chance (fun c => red c = a) ≤ β) (Q : Finset Bytes) (q m : ℕ)
    (P : Ω → Spec.Program Bytes F (List (Complaint F G × G))) (hq : ∀ ω, (P ω).AtMost q)
    (hm : ∀ ω f, ((P ω).run (Spec.proofHash S Q red f)).length ≤ m)
    (hQ : ∀ ω f, ∀ x ∈ (P ω).run (Spec.proofHash S Q red f), Spec.proofString S x.1 x.2 ∈ Q) :
    Spec.chance (fun y : Ω × ({x // x ∈ Q} → C) => let g := Spec.proofHash S Q red y.2
      ∃ x ∈ (P y.1).run g, Spec.Misproved (Spec.withComplaintHash S g) x.1 x.2) ≤ (q + m : ℕ) * β := by
  have h0 : 0 ≤ β := le_trans (chance_nonneg _) (hβ 0)
  refine chance_parts _ _ fun ω => ?_
  have hb : ∀ x ∈ Q, Spec.chance (fun c : C => Spec.Cheats S x (red c)) ≤ β := by
    intro x _
    by_cases h : ∃ a, Spec.Cheats S x a
    · obtain ⟨a, ha⟩ := h
      exact le_trans (chance_mono fun c hc => cheats_unique hd hc ha) (hβ a)
    · rw [chance_none fun c hc => h ⟨_, hc⟩]
      exact h0
  have := asked_bad Q red (S.sha256FieldHash (strBytes "Complaint Context")) (Spec.Cheats S) β h0 hb (m + q)
    ((P ω).andThen fun l => Spec.Program.askAll ((l.take m).map fun x => Spec.proofString S x.1 x.2))
    (Spec.Program.atMost_andThen q m _ _ (hq ω) fun l => askAll_atMost m _ (by simp))
  rw [Nat.add_comm q m]
  refine le_trans (chance_mono ?_) this
  rintro f ⟨x, hx, hmis⟩
  refine ⟨_, ?_, hQ ω f x hx, misproved_cheats S _ hmis⟩
  rw [Spec.Program.questions_andThen, askAll_questions, List.mem_append]
  refine .inr ?_
  have ht : ((P ω).run (Spec.proofHash S Q red f)).take m = (P ω).run (Spec.proofHash S Q red f) :=
    List.take_of_length_le (hm ω f)
  unfold Spec.proofHash at ht hx
  rw [ht]
  exact List.mem_map_of_mem hx

/-- C178, in `blame`: dealer `l` follows the protocol and complains about nobody. All complaints about it contain a share that it
dealt and the DH public key for which that share was encrypted (the checks of `C135_screened_partial`, except for the proof).
Then `blame` removes `l` with a chance of at most `(q + m) β`. -/
theorem C178_dealer_removed {S : Suite F G R} (hc : S.CipherLaws) (hd : S.CodecLaws) {Ω C : Type} [Fintype Ω] [Nonempty Ω]
    [Fintype C] [Nonempty C] (red : C → F) (β : ℚ) (hβ : ∀ a : F, Spec.chance (fun c => red c = a) ≤ β) (Q : Finset Bytes)
    (q m : ℕ) (P : Ω → Spec.Program Bytes F (List (Complaint F G))) (hq : ∀ ω, (P ω).AtMost q)
    (hm : ∀ ω f, ((P ω).run (Spec.proofHash S Q red f)).length ≤ m)
    (d : Ω → RoundTwo F G) (comms : Ω → BMap (VssCommitment G)) (sh : Ω → BMap (SecretShare F))
    (hh : ∀ ω, Holds (d ω) (comms ω) (sh ω)) (l : U32) (x : Ω → F) (cs : Ω → List F)
    (hx : ∀ ω, (d ω).state.theirDhPublicKeys.get? l = some (x ω • S.gen))
    (hcs : ∀ ω, ∃ vc, (comms ω).get? l = some vc ∧ vc.points = commitPoints S (cs ω))
    (hl : ∀ ω f, ∀ c ∈ (P ω).run (Spec.proofHash S Q red f), c.encShare.receiverIndex ≠ l ∧
      (c.encShare.senderIndex = l → ∃ (j : U32) (y : F), HonestlyDealt S l j (x ω) (cs ω) (y • S.gen) c.encShare ∧
        c.dhPublicKey = y • S.gen))
    (hQ : ∀ ω f, ∀ c ∈ (P ω).run (Spec.proofHash S Q red f), Spec.proofString S c (x ω • S.gen) ∈ Q) :
    Spec.chance (fun y : Ω × ({x // x ∈ Q} → C) => let g := Spec.proofHash S Q red y.2
      ¬ ∃ d' keys comms', (d y.1).blame (Spec.withComplaintHash S g) ((P y.1).run g) = .ok (d', keys) ∧
        d'.state.theirCommitments = some comms' ∧ comms'.get? l = (comms y.1).get? l) ≤ (q + m : ℕ) * β := by
  have key := C178_false_proof hd red β hβ Q q m
    (fun ω => (P ω).andThen fun cs => .done (cs.map fun c => (c, x ω • S.gen)))
    (fun ω => by simpa using Spec.Program.atMost_andThen q 0 _ _ (hq ω) fun _ => by unfold Spec.Program.AtMost; trivial)
    (fun ω f => by
      rw [Spec.Program.run_andThen]
      show (List.map _ _).length ≤ m
      rw [List.length_map]
      exact hm ω f)
    (fun ω f y hy => by
      rw [Spec.Program.run_andThen] at hy
      obtain ⟨c, hc', rfl⟩ := List.mem_map.mp hy
      exact hQ ω f c hc')
  refine le_trans (chance_mono ?_) key
  rintro ⟨ω, f⟩ hno
  by_contra hnone
  refine hno ?_
  obtain ⟨d', keys, h1, ⟨comms', m', h2, _, h3, _⟩, _⟩ :=
    blame_removed (Spec.withComplaintHash S (Spec.proofHash S Q red f)) (d ω) (comms ω) (sh ω) (hh ω)
      ((P ω).run (Spec.proofHash S Q red f))
  refine ⟨d', keys, comms', h1, h2.commits, ?_⟩
  rw [h3, if_neg]
  rintro ⟨c, hcm, hv⟩
  obtain ⟨hr, hs⟩ := hl ω f c hcm
  unfold verdict at hv
  split at hv
  · next hu =>
    obtain ⟨j, y, hdealt, hy⟩ := hs hv.symm
    obtain ⟨_, _, vc, hvc, hver, hbad⟩ := hu
    rw [← hv] at hvc hver
    rw [hx ω] at hver
    obtain ⟨vc', hvc', hpts⟩ := hcs ω
    rw [hvc'] at hvc
    cases hvc
    refine hnone ⟨(c, x ω • S.gen), ?_, hver, ?_⟩
    · rw [Spec.Program.run_andThen]
      exact List.mem_map_of_mem hcm
    · rintro ⟨y', k1, k2⟩
      refine hbad ?_
      obtain ⟨_, g2, g3⟩ := honestlyDealt_opens hc hd hdealt
      refine ⟨Spec.polyEval (cs ω) (u32F F j), ?_, ?_⟩
      · have hk : c.dhSharedKey = x ω • (y • S.gen) := by
          rw [← hy]
          have k1 : c.dhPublicKey = y' • S.gen := k1
          rw [k1, smul_comm]
          exact k2
        rw [hk]
        exact g3
      · rw [hpts, g2]
        exact (pointEval_commitPoints S (cs ω) (u32F F j)).symm
  · exact hr hv.symm

/-- The complaint of somebody who has guessed the challenge `a`. -/
def Spec.guessed (S : Suite F G R) (x : F) (shared : G) (e : EncShare) (a : F) : Complaint F G :=
  ⟨shared, x • S.gen, e, ⟨-(a • x • S.gen), -(a • shared), 0⟩⟩

/-- C178: the bound is reached. Whoever guesses the challenge without any question makes a false proof, for any wrong key, with
the chance of the guessed scalar. -/
theorem C178_guess {S : Suite F G R} (hg : S.GroupLaws) {C : Type} [Fintype C] [Nonempty C] (red : C → F) (x : F)
    (accused shared : G) (hne : shared ≠ x • accused) (e : EncShare) (a : F) :
    let c := Spec.guessed S x shared e a
    let Q : Finset Bytes := {Spec.proofString S c accused}
    Spec.chance (fun f : {x // x ∈ Q} → C => Spec.Misproved (Spec.withComplaintHash S (Spec.proofHash S Q red f)) c accused) =
      Spec.chance fun b : C => red b = a := by
  intro c Q
  have hs : Spec.proofString S c accused ∈ Q := Finset.mem_singleton_self _
  rw [← chance_at (⟨_, hs⟩ : {x // x ∈ Q}) fun b : C => red b = a]
  refine chance_congr fun f => ?_
  have hv := C48_verify_iff (Spec.withComplaintHash S (Spec.proofHash S Q red f)) c accused
  have hh : (Spec.withComplaintHash S (Spec.proofHash S Q red f)).sha256FieldHash (strBytes "Complaint Context")
      (Spec.proofString S c accused) = red (f ⟨_, hs⟩) := by
    show (if strBytes "Complaint Context" = strBytes "Complaint Context" then
      Spec.proofHash S Q red f (Spec.proofString S c accused)
      else S.sha256FieldHash (strBytes "Complaint Context") (Spec.proofString S c accused)) = _
    rw [if_pos rfl]
    unfold Spec.proofHash Spec.answering
    rw [dif_pos hs]
  have hv' : c.verify (Spec.withComplaintHash S (Spec.proofHash S Q red f)) accused = .ok () ↔
      Spec.CpAccepts S.gen (x • S.gen) accused shared (-(a • x • S.gen)) (-(a • shared)) (red (f ⟨_, hs⟩)) 0 := by
    rw [← hh]
    exact hv
  constructor
  · rintro ⟨h1, _⟩
    obtain ⟨k1, k2⟩ := hv'.mp h1
    rw [zero_smul, neg_add_eq_zero] at k1 k2
    by_contra hab
    have hsub : red (f ⟨_, hs⟩) - a ≠ 0 := sub_ne_zero.mpr hab
    have e1 : (red (f ⟨_, hs⟩) - a) • (x • S.gen) = 0 := by rw [sub_smul, k1, sub_self]
    have e2 : (red (f ⟨_, hs⟩) - a) • shared = 0 := by rw [sub_smul, k2, sub_self]
    rw [smul_eq_zero] at e1 e2
    have e1 : x • S.gen = (0 : F) • S.gen := by rw [zero_smul]; exact e1.resolve_left hsub
    have hx : x = 0 := hg.gen_inj _ _ e1
    exact hne (by rw [hx, zero_smul]; exact e2.resolve_left hsub)
  · intro h
    refine ⟨hv'.mpr ?_, ?_⟩
    · rw [h]
      exact ⟨by rw [zero_smul, neg_add_cancel], by rw [zero_smul, neg_add_cancel]⟩
    · rintro ⟨x', k1, k2⟩
      have : x = x' := hg.gen_inj _ _ k1
      exact hne (by rw [this]; exact k2)

/-- C178 for secp256k1: the hash function answers with 48 random bytes, which are reduced. With `q` questions and `m` complaints
the chance of a false proof is at most `(q + m) / 2 ^ 255`. -/
theorem C178_shipped {R Ω : Type} [Fintype Ω] [Nonempty Ω] (X : Secp.Parts R) (Q : Finset Bytes) (q m : ℕ)
    (P : Ω → Spec.Program Bytes Secp.Fn (List (Complaint Secp.Fn Secp.Point × Secp.Point))) (hq : ∀ ω, (P ω).AtMost q)
    (hm : ∀ ω f, ((P ω).run (Spec.proofHash (Secp.suite X) Q (Spec.reduced Cases.secp256k1Order (L := 48)) f)).length ≤ m)
    (hQ : ∀ ω f, ∀ x ∈ (P ω).run (Spec.proofHash (Secp.suite X) Q (Spec.reduced Cases.secp256k1Order (L := 48)) f),
      Spec.proofString (Secp.suite X) x.1 x.2 ∈ Q) :
    Spec.chance (fun y : Ω × ({x // x ∈ Q} → Fin 48 → Fin 256) =>
      let g := Spec.proofHash (Secp.suite X) Q (Spec.reduced Cases.secp256k1Order) y.2
      ∃ x ∈ (P y.1).run g, Spec.Misproved (Spec.withComplaintHash (Secp.suite X) g) x.1 x.2) ≤ (q + m : ℕ) / 2 ^ 255 := by
  refine le_trans (C178_false_proof (C148_codec X) (Spec.reduced Cases.secp256k1Order (L := 48)) (1 / 2 ^ 255) (fun a => ?_)
    Q q m P hq hm hQ) (le_of_eq (by rw [mul_one_div]))
  have := abs_le.mp (C164_scalar Cases.secp256k1Order 48 a)
  have hn : (1 : ℚ) / (Cases.secp256k1Order : ℕ) + 1 / 256 ^ 48 ≤ 1 / 2 ^ 255 := by
    unfold Cases.secp256k1Order
    norm_num
  linarith [this.2]

section Examples
open Toy

/-- The chance of a single scalar of the toy field. -/
theorem toy_single (a : Fp) : Spec.chance (fun c : Fp => id c = a) ≤ 1 / 6597069766657 := by
  have h := chance_scalar a
  rw [ZMod.card] at h
  exact h.le

/-- Somebody who asks one question and then guesses that the challenge will be the answer. The disclosed key is 16, the DH secret
103 and the accused key 101. -/
example (e : EncShare) :
    let c := fun a : Fp => (Spec.guessed suite (103 : Fp) (16 : Fp) e a, (101 : Fp) • suite.gen)
    let Q : Finset Bytes := univ.image fun a => Spec.proofString suite (c a).1 (c a).2
    let P : Unit → Spec.Program Bytes Fp (List (Complaint Fp Fp × Fp)) := fun _ => .ask [1, 2, 3] fun a => .done [c a]
    Spec.chance (fun y : Unit × ({x // x ∈ Q} → Fp) => let g := Spec.proofHash suite Q id y.2
      ∃ x ∈ (P y.1).run g, Spec.Misproved (Spec.withComplaintHash suite g) x.1 x.2) ≤ (1 + 1 : ℕ) * (1 / 6597069766657) := by
  intro c Q P
  refine C178_false_proof codec_laws (id : Fp → Fp) _ toy_single Q 1 1 P (fun _ a => ?_) (fun _ f => ?_) fun _ f x hx => ?_
  · unfold Spec.Program.AtMost
    trivial
  · exact le_refl 1
  · obtain rfl : x = c (Spec.proofHash suite Q id f [1, 2, 3]) := by simpa [P, Spec.Program.run] using hx
    exact Finset.mem_image_of_mem _ (Finset.mem_univ _)

/-- Dealer 1 of a session is accused by participant 3 with the same strategy, about the share that it was dealt. -/
example : ∃ (e : EncShare) (Q : Finset Bytes) (P : Spec.Program Bytes Fp (List (Complaint Fp Fp))),
    (∀ f, ∃ c ∈ P.run (Spec.proofHash suite Q id f), c.encShare = e ∧ e.senderIndex = 1 ∧
      c.dhPublicKey = (103 : Fp) • suite.gen) ∧
    Spec.chance (fun y : Unit × ({x // x ∈ Q} → Fp) => let g := Spec.proofHash suite Q id y.2
      ¬ ∃ d' keys comms', toyR2.blame (Spec.withComplaintHash suite g) (P.run g) = .ok (d', keys) ∧
        d'.state.theirCommitments = some comms' ∧ comms'.get? 1 = toyComms.get? 1) ≤ (1 + 1 : ℕ) * (1 / 6597069766657) := by
  obtain ⟨e, r, h1, h2, h3, _⟩ := encryptShare_ok cipher_laws codec_laws (evaluatePolynomial 1 3 [(10 : Fp), 11])
    (suite.encG ((101 : Fp) • (103 : Fp) • suite.gen)) 0
  have hdealt : HonestlyDealt suite 1 3 (101 : Fp) [10, 11] ((103 : Fp) • suite.gen) e := ⟨0, r, h1⟩
  obtain ⟨k1, k2, _⟩ := honestlyDealt_opens cipher_laws codec_laws hdealt
  let c := fun a : Fp => Spec.guessed suite (103 : Fp) (16 : Fp) e a
  let Q : Finset Bytes := univ.image fun a => Spec.proofString suite (c a) ((101 : Fp) • suite.gen)
  let P : Spec.Program Bytes Fp (List (Complaint Fp Fp)) := .ask [1, 2, 3] fun a => .done [c a]
  have hrun : ∀ f : {x // x ∈ Q} → Fp, P.run (Spec.proofHash suite Q id f) = [c (Spec.proofHash suite Q id f [1, 2, 3])] :=
    fun f => rfl
  refine ⟨e, Q, P, fun f => ⟨_, by rw [hrun]; exact List.mem_cons_self, rfl, k1, rfl⟩, ?_⟩
  refine C178_dealer_removed (Ω := Unit) cipher_laws codec_laws (id : Fp → Fp) _ toy_single Q 1 1 (fun _ => P) (fun _ a => ?_)
    (fun _ f => ?_) (fun _ => toyR2) (fun _ => toyComms) (fun _ => []) (fun _ => toy_holds) 1 (fun _ => 101)
    (fun _ => [10, 11]) (fun _ => ?_) (fun _ => ?_) (fun _ f x hx => ?_) (fun _ f x hx => ?_)
  · unfold Spec.Program.AtMost
    trivial
  · exact le_refl 1
  · simp [toyR2, toyR1, BMap.get?]
  · exact ⟨⟨1, [(10 : Fp) • suite.gen, (11 : Fp) • suite.gen]⟩, by simp [toyComms, BMap.get?], rfl⟩
  · rw [hrun, List.mem_singleton] at hx
    subst hx
    refine ⟨?_, fun _ => ⟨3, 103, hdealt, rfl⟩⟩
    show e.receiverIndex ≠ 1
    rw [k2]
    decide
  · rw [hrun, List.mem_singleton] at hx
    subst hx
    exact Finset.mem_image_of_mem _ (Finset.mem_univ _)

/-- A guess is right with the chance of a single scalar. -/
example (e : EncShare) := C178_guess group_laws (id : Fp → Fp) 103 ((101 : Fp) • suite.gen) (16 : Fp)
  (by rw [smul_gen]; show (16 : Fp) ≠ 103 * 101; decide +kernel) e 7

end Examples

end IceFrost
