import Verif.Spec
import Verif.Lemmas.Base
import Verif.Model.Utils

/-! # Consequences of the assumed laws -/

set_option linter.unusedSectionVars false
set_option linter.unusedSimpArgs false

namespace IceFrost

variable {F G R : Type} [Field F] [AddCommGroup G] [Module F G]

theorem Suite.CodecLaws.encG_append_inj {S : Suite F G R} (h : S.CodecLaws) {a b : G} {x y : Bytes}
    (he : S.encG a ++ x = S.encG b ++ y) : a = b ∧ x = y := by
  have h1 := h.decG_encG a x
  rw [he, h.decG_encG b y] at h1
  simp only [Option.some.injEq, Prod.mk.injEq] at h1
  exact ⟨h1.1.symm, h1.2.symm⟩

theorem Suite.CodecLaws.encF_append_inj {S : Suite F G R} (h : S.CodecLaws) {a b : F} {x y : Bytes}
    (he : S.encF a ++ x = S.encF b ++ y) : a = b ∧ x = y := by
  have h1 := h.decF_encF a x
  rw [he, h.decF_encF b y] at h1
  simp only [Option.some.injEq, Prod.mk.injEq] at h1
  exact ⟨h1.1.symm, h1.2.symm⟩

theorem Suite.CodecLaws.encG_inj {S : Suite F G R} (h : S.CodecLaws) {a b : G} (he : S.encG a = S.encG b) :
    a = b := (h.encG_append_inj (x := []) (y := []) (by rw [he])).1

theorem Suite.CodecLaws.encF_inj {S : Suite F G R} (h : S.CodecLaws) {a b : F} (he : S.encF a = S.encF b) :
    a = b := (h.encF_append_inj (x := []) (y := []) (by rw [he])).1

theorem Suite.CodecLaws.decF_encF' {S : Suite F G R} (h : S.CodecLaws) (a : F) :
    S.decF (S.encF a) = some (a, []) := by
  have := h.decF_encF a []
  rwa [List.append_nil] at this

theorem Suite.GroupLaws.gen_inj_iff {S : Suite F G R} (h : S.GroupLaws) (a b : F) :
    a • S.gen = b • S.gen ↔ a = b := ⟨h.gen_inj a b, fun e => by rw [e]⟩

theorem u32le_append_inj {a b : U32} {x y : Bytes} (h : u32le a ++ x = u32le b ++ y) : a = b ∧ x = y := by
  have hl : (u32le a).length = (u32le b).length := by rw [u32le_length, u32le_length]
  obtain ⟨h1, h2⟩ := List.append_inj h hl
  exact ⟨u32le_inj h1, h2⟩

theorem msm_two (p q : G) (a b : F) : msm [p, q] [a, b] = some (a • p + b • q) := by
  simp [msm]

end IceFrost
