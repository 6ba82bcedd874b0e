import Verif.Cases.Blame
import Verif.Props.ReshareSign
import Verif.Props.RobustChain
import Verif.Props.RobustSign

/-!
# The theorems about sessions with deviating participants, applied to the concrete session

Participant 1 is honest, 3 sends an empty ciphertext and 4 a record without commitments.
-/

set_option linter.unusedSectionVars false
set_option linter.unusedSimpArgs false
set_option linter.unusedVariables false

namespace IceFrost.Cases

open Toy
attribute [local instance] Classical.propDecidable

variable {dbg : Bool} {p1 p2 p3 : Participant Fp Fp} {cs1 cs2 cs3 : List Fp} {x1 x2 x3 : Fp} {d d' : RoundOne Fp Fp}
variable {e1 e2 : EncShare} {d2 : RoundTwo Fp Fp} {c : Complaint Fp Fp} {m : BMap (SecretShare Fp)}

theorem not_valid : ¬ Spec.DealerValid suite q := by rintro ⟨_, c, _, _, hc, _⟩; cases hc

theorem Session.good_length (s : Session dbg p1 p2 p3 cs1 cs2 cs3 x1 x2 x3 d d') :
    ([p1, p2, p3, q].filter (GoodDealer suite 2)).length = 3 := by
  simp only [List.filter_cons, List.filter_nil, decide_eq_true (s.good p1 (by simp)), decide_eq_true (s.good p2 (by simp)),
    decide_eq_true (s.good p3 (by simp)), decide_eq_false s.bad, if_true]
  simp

theorem Session.valid_length (s : Session dbg p1 p2 p3 cs1 cs2 cs3 x1 x2 x3 d d') :
    ([p1, p2, p3, q].filter (Spec.DealerValid suite)).length = 3 := by
  simp only [List.filter_cons, List.filter_nil, decide_eq_true (s.good p1 (by simp)).1,
    decide_eq_true (s.good p2 (by simp)).1, decide_eq_true (s.good p3 (by simp)).1, decide_eq_false not_valid, if_true]
  simp

/-- The valid records are those of 1, 2 and 3. -/
theorem Session.valid_cases (s : Session dbg p1 p2 p3 cs1 cs2 cs3 x1 x2 x3 d d') {p : Participant Fp Fp}
    (hp : p ∈ [p1, p2, p3, q]) (h : Spec.DealerValid suite p) :
    (p = p1 ∧ p.index = 1) ∨ (p = p2 ∧ p.index = 2) ∨ (p = p3 ∧ p.index = 3) := by
  simp only [List.mem_cons, List.not_mem_nil, or_false] at hp
  rcases hp with rfl | rfl | rfl | rfl
  · exact .inl ⟨rfl, s.i1⟩
  · exact .inr (.inl ⟨rfl, s.i2⟩)
  · exact .inr (.inr ⟨rfl, s.i3⟩)
  · exact absurd h not_valid

theorem Session.range (s : Session dbg p1 p2 p3 cs1 cs2 cs3 x1 x2 x3 d d') {p : Participant Fp Fp}
    (hp : p ∈ [p1, p2, p3, q]) (h : Spec.DealerValid suite p) : p.index ≠ 0 ∧ p.index.toNat ≤ 3 := by
  rcases s.valid_cases hp h with ⟨_, h⟩ | ⟨_, h⟩ | ⟨_, h⟩ <;> rw [h] <;> decide

theorem Session.covered (s : Session dbg p1 p2 p3 cs1 cs2 cs3 x1 x2 x3 d d') {e1 e2 : EncShare} (h1 : e1.senderIndex = 1)
    (h2 : e2.senderIndex = 2) {p : Participant Fp Fp}
    (hp : p ∈ [p1, p2, p3, q]) (h : Spec.DealerValid suite p) : ∃ e ∈ [e1, e2, e3], e.senderIndex = p.index := by
  rcases s.valid_cases hp h with ⟨_, h⟩ | ⟨_, h⟩ | ⟨_, h⟩ <;> rw [h]
  · exact ⟨e1, by simp, h1⟩
  · exact ⟨e2, by simp, h2⟩
  · exact ⟨e3, by simp, rfl⟩

variable (s : Session dbg p1 p2 p3 cs1 cs2 cs3 x1 x2 x3 d d') (r : Second dbg cs1 cs2 cs3 x1 x2 x3 x1 d e1 e2 d2 c m)

example := C80_robust_dkg lawful dbg ⟨4, 2⟩ [p1, p2, p3, q] s.nodup
  (fun p hp h => by rw [s.good_length]; exact s.range hp h.1) [1] (by simp) (fun _ => x1) (fun _ => cs1)
  (fun _ => [p1, p2, p3, q]) (fun _ => 0) (fun _ => 0) (fun _ _ => List.Perm.refl _) (fun _ => d)
  (fun _ => ⟨[p1, p2, p3], some [4]⟩) (fun i hi => by obtain rfl : i = 1 := by simpa using hi
                                                      exact s.boot) (fun _ => [e1, e2, e3])
  (fun i hi e he => by obtain rfl : i = 1 := by simpa using hi
                       rw [s.addressed r e he, s.state.2.2.2.1])
  (fun _ _ p hp h => s.covered r.send1 r.send2 hp h.1) (fun _ => d2) (fun _ => [c]) (fun _ _ => r.round)
  (fun _ => [unjust x1 x2 e2, c]) (fun _ _ _ _ a ha => by simp at ha; simp [ha]) (fun _ _ _ _ _ => Iff.rfl)

theorem Session.labels (s : Session dbg p1 p2 p3 cs1 cs2 cs3 x1 x2 x3 d d') :
    ∀ p ∈ [p1, p2, p3, q], Spec.DealerValid suite p → ∀ c, p.commitments = some c →
      c.index = p.index ∧ c.points.length ≤ 2 ∧ c.points = commitPoints suite (if p.index = 1 then cs1 else if p.index = 2
        then cs2 else cs3) := by
  have ht : (⟨4, 2⟩ : Params).t ≠ 0 := by simp
  obtain ⟨_, _, l1, c1, k1, _⟩ := newDealer_good ht s.h1
  obtain ⟨_, _, l2, c2, k2, _⟩ := newDealer_good ht s.h2
  obtain ⟨_, _, l3, c3, k3, _⟩ := newDealer_good ht s.h3
  intro p hp h c hc
  rcases s.valid_cases hp h with ⟨rfl, h⟩ | ⟨rfl, h⟩ | ⟨rfl, h⟩
  · rw [c1] at hc; obtain rfl := Option.some.inj hc; simp [h, commitPoints, l1]
  · rw [c2] at hc; obtain rfl := Option.some.inj hc; simp [h, commitPoints, l2]
  · rw [c3] at hc; obtain rfl := Option.some.inj hc; simp [h, commitPoints, l3]

example := C120_dkg_then_sign_partial lawful dbg ⟨4, 2⟩ [p1, p2, p3, q] s.nodup
  (fun p hp h => by rw [s.good_length]; exact s.range hp h.1) (fun p hp h c hc => (s.labels p hp h.1 c hc).1) [1] (by simp)
  (fun _ => x1) (fun _ => cs1)
  (fun _ => [p1, p2, p3, q]) (fun _ => 0) (fun _ => 0) (fun _ _ => List.Perm.refl _) (fun _ => d)
  (fun _ => ⟨[p1, p2, p3], some [4]⟩) (fun i hi => by obtain rfl : i = 1 := by simpa using hi
                                                      exact s.boot) (fun _ => [e1, e2, e3])
  (fun i hi e he => by obtain rfl : i = 1 := by simpa using hi
                       exact r.labels e he)
  (fun _ _ p hp h => s.covered r.send1 r.send2 hp h.1) (fun _ => d2) (fun _ => [c]) (fun _ _ => r.round)
  (fun _ => [unjust x1 x2 e2, c]) (fun _ _ _ _ a ha => by simp at ha; simp [ha]) (fun _ _ _ _ _ => Iff.rfl)

example := C129_start lawful dbg ⟨4, 2⟩ [p1, p2, p3, q] s.nodup
  (fun p hp h => by rw [s.good_length]; exact s.range hp h.1) (fun p hp h c hc => (s.labels p hp h.1 c hc).1) [1] (by simp)
  (fun _ => x1) (fun _ => cs1)
  (fun _ => [p1, p2, p3, q]) (fun _ => 0) (fun _ => 0) (fun _ _ => List.Perm.refl _) (fun _ => d)
  (fun _ => ⟨[p1, p2, p3], some [4]⟩) (fun i hi => by obtain rfl : i = 1 := by simpa using hi
                                                      exact s.boot) (fun _ => [e1, e2, e3])
  (fun i hi e he => by obtain rfl : i = 1 := by simpa using hi
                       exact r.labels e he)
  (fun _ _ p hp h => s.covered r.send1 r.send2 hp h.1) (fun _ => d2) (fun _ => [c]) (fun _ _ => r.round)
  (fun _ => [unjust x1 x2 e2, c]) (fun _ _ _ _ a ha => by simp at ha; simp [ha]) (fun _ _ _ _ _ => Iff.rfl)

/-! ## Resharing

The constants that 1, 2 and 3 deal are taken as the old shares, with threshold 3. -/

/-- The old shares. -/
def oldKey (cs1 cs2 cs3 : List Fp) (i : U32) : Fp :=
  (if i = 1 then cs1 else if i = 2 then cs2 else cs3).headD 0

theorem Session.old_secret (s : Session dbg p1 p2 p3 cs1 cs2 cs3 x1 x2 x3 d d') (J : List U32) (hJ : J.Nodup)
    (h : ∀ j ∈ J, ∃ p ∈ [p1, p2, p3, q], Spec.DealerValid suite p ∧ p.index = j) (hl : 3 ≤ J.length) :
    Spec.interpolate J (oldKey cs1 cs2 cs3) = Spec.interpolate [1, 2, 3] (oldKey cs1 cs2 cs3) := by
  have hsub : J ⊆ [1, 2, 3] := by
    intro j hj
    obtain ⟨p, hp, hv, rfl⟩ := h j hj
    rcases s.valid_cases hp hv with ⟨_, h⟩ | ⟨_, h⟩ | ⟨_, h⟩ <;> rw [h] <;> simp
  have hp : J.Perm [1, 2, 3] := (List.subperm_of_subset hJ hsub).perm_of_length_le hl
  exact interpolate_list_congr (fun k => hp.mem_iff) _

theorem Session.constants (s : Session dbg p1 p2 p3 cs1 cs2 cs3 x1 x2 x3 d d') :
    ∀ p ∈ [p1, p2, p3, q], Spec.DealerValid suite p → ∀ c, p.commitments = some c →
      c.points.head? = some (oldKey cs1 cs2 cs3 p.index • suite.gen) := by
  have ht : (⟨4, 2⟩ : Params).t ≠ 0 := by simp
  have l1 := (newDealer_good ht s.h1).2.2.1
  have l2 := (newDealer_good ht s.h2).2.2.1
  have l3 := (newDealer_good ht s.h3).2.2.1
  have key : ∀ cs : List Fp, cs.length = 2 → (commitPoints suite cs).head? = some (cs.headD 0 • suite.gen) := by
    rintro (_ | ⟨a, l⟩) h
    · simp at h
    · rfl
  intro p hp h c hc
  rw [(s.labels p hp h c hc).2.2, oldKey]
  apply key
  rcases s.valid_cases hp h with ⟨_, h⟩ | ⟨_, h⟩ | ⟨_, h⟩ <;> rw [h]
  · exact l1
  · exact l2
  · exact l3

variable {f1 f2 : EncShare} {d3 : RoundTwo Fp Fp} {c' : Complaint Fp Fp} {m' : BMap (SecretShare Fp)}
variable (r' : Second dbg cs1 cs2 cs3 x1 x2 x3 5 d' f1 f2 d3 c' m')

example := C81_preserved_iff lawful dbg ⟨4, 2⟩ [p1, p2, p3, q] s.nodup
  (fun p hp h => by rw [s.valid_length]; exact s.range hp h) 2 (by simp) (fun p hp h c hc => (s.labels p hp h c hc).2.1)
  (oldKey cs1 cs2 cs3) 3 _ s.old_secret [1] (fun _ => 5) (fun _ => [p1, p2, p3, q]) (fun _ => 0) (fun _ => 0)
  (fun _ _ => List.Perm.refl _) (fun _ => d') (fun _ => ⟨[p1, p2, p3], some [4]⟩)
  (fun i hi => by obtain rfl : i = 1 := by simpa using hi
                  exact s.new) (fun _ => [f1, f2, e3])
  (fun i hi e he => by obtain rfl : i = 1 := by simpa using hi
                       exact r'.labels e he)
  (fun _ _ p hp h => s.covered r'.send1 r'.send2 hp h) (fun _ => d3) (fun _ => [c']) (fun _ _ => r'.round)
  (fun _ => [c']) (fun _ _ _ _ a ha => ha) (fun _ _ _ _ _ => Iff.rfl)

example := C81_robust_reshare_partial lawful dbg ⟨4, 2⟩ [p1, p2, p3, q] s.nodup
  (fun p hp h => by rw [s.valid_length]; exact s.range hp h) 2 (by simp) (fun p hp h c hc => (s.labels p hp h c hc).2.1)
  (oldKey cs1 cs2 cs3) 3 _ s.old_secret s.constants [1] (fun _ => 5) (fun _ => [p1, p2, p3, q]) (fun _ => 0) (fun _ => 0)
  (fun _ _ => List.Perm.refl _) (fun _ => d') (fun _ => ⟨[p1, p2, p3], some [4]⟩)
  (fun i hi => by obtain rfl : i = 1 := by simpa using hi
                  exact s.new) (fun _ => [f1, f2, e3])
  (fun i hi e he => by obtain rfl : i = 1 := by simpa using hi
                       exact r'.labels e he)
  (fun _ _ p hp h => s.covered r'.send1 r'.send2 hp h) (fun _ => d3) (fun _ => [c']) (fun _ _ => r'.round)
  (fun _ => [c']) (fun _ _ _ _ a ha => ha) (fun _ _ _ _ _ => Iff.rfl)

example := C121_reshare_then_sign_partial lawful dbg ⟨4, 2⟩ [p1, p2, p3, q] s.nodup
  (fun p hp h => by rw [s.valid_length]; exact s.range hp h) 2 (by simp) (fun p hp h c hc => (s.labels p hp h c hc).2.1)
  (fun p hp h c hc => (s.labels p hp h c hc).1)
  (oldKey cs1 cs2 cs3) 3 _ s.old_secret s.constants [1] (fun _ => 5) (fun _ => [p1, p2, p3, q]) (fun _ => 0) (fun _ => 0)
  (fun _ _ => List.Perm.refl _) (fun _ => d') (fun _ => ⟨[p1, p2, p3], some [4]⟩)
  (fun i hi => by obtain rfl : i = 1 := by simpa using hi
                  exact s.new) (fun _ => [f1, f2, e3])
  (fun i hi e he => by obtain rfl : i = 1 := by simpa using hi
                       exact r'.labels e he)
  (fun _ _ p hp h => s.covered r'.send1 r'.send2 hp h) (fun _ => d3) (fun _ => [c']) (fun _ _ => r'.round)
  (fun _ => [c']) (fun _ _ _ _ a ha => ha) (fun _ _ _ _ _ => Iff.rfl)

/-- The data of the last three examples exists. -/
example : ∃ f1 f2 d3 c' m', Second dbg cs1 cs2 cs3 x1 x2 x3 5 d' f1 f2 d3 c' m' := s.state_new.second

end IceFrost.Cases
