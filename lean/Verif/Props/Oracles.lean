import Verif.Props.Transcripts

/-!
# C111: the oracles of ciphersuites with different context strings

Two oracle calls "hash the same input" if they have the same value whatever the underlying hash function is. So that
they hash different inputs is stated as: there is a hash function for which the values differ.
-/

set_option linter.unusedSectionVars false
set_option linter.unusedSimpArgs false

namespace IceFrost

variable {F G R : Type} [Field F] [DecidableEq F] [AddCommGroup G] [Module F G] [DecidableEq G]

/-- `h0` to `h3`, src/ciphersuite.rs:56-91. -/
def fieldOracle (S : Suite F G R) : Fin 4 → Bytes → F := ![S.h0, S.h1, S.h2, S.h3]

/-- `h4` and `h5`, src/ciphersuite.rs:103-116. -/
def digestOracle (S : Suite F G R) : Fin 2 → Bytes → Bytes := ![S.h4, S.h5]

/-- The tags of `h4` and `h5`. -/
def digestTag : Fin 2 → Bytes := ![strBytes "message", strBytes "commitment"]

/-- The tags of `h0` to `h3`. -/
def fieldTag : Fin 4 → Bytes := ![strBytes "nizkpok", strBytes "rho", strBytes "challenge", strBytes "nonce"]

theorem fieldTag_suffix : ∀ o o' : Fin 4, fieldTag o <:+ fieldTag o' → o = o' := by decide

theorem fieldTag_inj {c c' : Bytes} {o o' : Fin 4} (h : c ++ fieldTag o = c' ++ fieldTag o') : o = o' ∧ c = c' := by
  have h1 : fieldTag o <:+ c ++ fieldTag o := List.suffix_append _ _
  have h2 : fieldTag o' <:+ c ++ fieldTag o := h ▸ List.suffix_append _ _
  have ho : o = o' := by
    rcases List.suffix_or_suffix_of_suffix h1 h2 with h3 | h3
    · exact fieldTag_suffix _ _ h3
    · exact (fieldTag_suffix _ _ h3).symm
  subst ho
  exact ⟨rfl, List.append_cancel_right h⟩

theorem fieldOracle_eq (S : Suite F G R) (o : Fin 4) (m : Bytes) :
    fieldOracle S o m = S.fieldHash (S.contextString ++ fieldTag o) m := by
  fin_cases o <;> rfl

/-- C111 for the oracles into the field (the ones whose separation the security proofs use): if the context strings,
the oracles or the messages differ, the inputs of the hash to the field differ. The suites may differ in everything
else; one of them may be any of `h0` to `h3` of the other.

Missing for the full C111: the digests `h4` and `h5`, for which it is false (next theorem). -/
theorem C111_field_oracles_partial (S S' : Suite F G R) (o o' : Fin 4) (m m' : Bytes)
    (hne : S.contextString ≠ S'.contextString ∨ o ≠ o' ∨ m ≠ m') :
    ∃ H : Bytes → Bytes → F,
      fieldOracle { S with fieldHash := H } o m ≠ fieldOracle { S' with fieldHash := H } o' m' := by
  refine ⟨fun d x => if d = S.contextString ++ fieldTag o ∧ x = m then 1 else 0, ?_⟩
  rw [fieldOracle_eq, fieldOracle_eq]
  show (if S.contextString ++ fieldTag o = S.contextString ++ fieldTag o ∧ m = m then (1 : F) else 0) ≠
    if S'.contextString ++ fieldTag o' = S.contextString ++ fieldTag o ∧ m' = m then 1 else 0
  rw [if_pos ⟨rfl, rfl⟩, if_neg]
  · exact one_ne_zero
  · rintro ⟨h1, h2⟩
    obtain ⟨h3, h4⟩ := fieldTag_inj h1
    rcases hne with h | h | h
    · exact h h4.symm
    · exact h h3.symm
    · exact h h2.symm

/-- C111, negation: the digest is taken of the plain concatenation of context, tag and message, so that ciphersuites
whose context strings are prefixes of each other share inputs, whatever the hash function: `h4` of message `x ++ m` in
one is `h4` of `m` in the other, where `x` is "message" followed by the missing part of the context. The same for
`h5`. -/
theorem C111_digests_overlap (S S' : Suite F G R) (x m : Bytes)
    (hctx : S'.contextString = S.contextString ++ strBytes "message" ++ x) (H : Bytes → Bytes) :
    ({ S with digest := H } : Suite F G R).h4 (x ++ strBytes "message" ++ m) =
        ({ S' with digest := H } : Suite F G R).h4 m ∧
      ({ S with digest := H } : Suite F G R).h4 (x ++ strBytes "commitment" ++ m) =
        ({ S' with digest := H } : Suite F G R).h5 m := by
  have key : ∀ tag : Bytes, S.contextString ++ strBytes "message" ++ (x ++ tag ++ m) = S'.contextString ++ tag ++ m := by
    intro tag
    rw [hctx]
    simp only [List.append_assoc]
  exact ⟨congrArg H (key _), congrArg H (key _)⟩

theorem digest_tags_separated {c c' m m' : Bytes} {a b : UInt8} {s t : Bytes} (hc : c.length = c'.length) (hab : a ≠ b)
    : c ++ (a :: s) ++ m ≠ c' ++ (b :: t) ++ m' := by
  intro h
  rw [List.append_assoc, List.append_assoc] at h
  obtain ⟨_, h2⟩ := List.append_inj h hc
  simp only [List.cons_append, List.cons.injEq] at h2
  exact hab h2.1

/-- C111 for the digests of suites whose context strings have the same length: different context strings, oracles or
messages give different inputs. (The context strings of two suites in use may have different lengths.) -/
theorem C111_same_length_partial (S S' : Suite F G R) (hlen : S.contextString.length = S'.contextString.length)
    (o o' : Fin 2) (m m' : Bytes) (hne : S.contextString ≠ S'.contextString ∨ o ≠ o' ∨ m ≠ m') :
    ∃ H : Bytes → Bytes, digestOracle { S with digest := H } o m ≠ digestOracle { S' with digest := H } o' m' := by
  have same : ∀ tag : Bytes, (S.contextString ≠ S'.contextString ∨ m ≠ m') →
      S.contextString ++ tag ++ m ≠ S'.contextString ++ tag ++ m' := by
    intro tag hd h
    rw [List.append_assoc, List.append_assoc] at h
    obtain ⟨k1, k2⟩ := List.append_inj h hlen
    rcases hd with hd | hd
    · exact hd k1
    · exact hd (List.append_cancel_left k2)
  have heq : ∀ (T : Suite F G R) (i : Fin 2) (x : Bytes),
      digestOracle T i x = T.digest (T.contextString ++ digestTag i ++ x) := by
    intro T i x
    fin_cases i <;> rfl
  refine ⟨fun b => if b = S.contextString ++ digestTag o ++ m then [1] else [], ?_⟩
  rw [heq, heq]
  show (if S.contextString ++ digestTag o ++ m = S.contextString ++ digestTag o ++ m then ([1] : Bytes) else []) ≠
    if S'.contextString ++ digestTag o' ++ m' = S.contextString ++ digestTag o ++ m then [1] else []
  rw [if_pos rfl, if_neg]
  · exact List.cons_ne_nil _ _
  · apply Ne.symm
    by_cases ho : o = o'
    · subst ho
      exact same _ (by simpa using hne)
    · have ht : ∀ i : Fin 2, digestTag i = (if i = 0 then 109 else 99) :: (digestTag i).tail := by decide
      rw [ht o, ht o']
      refine digest_tags_separated hlen ?_
      clear hne ht heq same
      revert o o'
      decide

section Examples
open Toy

/-- A suite that differs from the toy suite only in the context string, and shares inputs of `h4` with it. -/
example (m : Bytes) : suite.h4 (strBytes "-v2" ++ strBytes "message" ++ m) =
    ({ suite with contextString := strBytes "toymessage-v2" } : Suite Fp Fp Nat).h4 m :=
  (C111_digests_overlap suite { suite with contextString := strBytes "toymessage-v2" } (strBytes "-v2") m (by decide)
    suite.digest).1

example := C111_field_oracles_partial suite { suite with contextString := strBytes "toy2" } 2 2 [1] [1]
  (.inl (by decide))

example := C111_same_length_partial suite { suite with contextString := strBytes "tox" } rfl 0 1 [1] [1]
  (.inl (by decide))

end Examples

end IceFrost
