import Verif.Lemmas.Suite
import Mathlib.Algebra.Field.ZMod
import Mathlib.SetTheory.Cardinal.Finite

/-!
# The algebraic assumptions hold in every group of prime order above `2^32`

`GroupLaws` and `U32Inj` are hypotheses of the theorems. Here they are derived from what the documentation of a
ciphersuite states: a group with a prime number `p` of elements, scalars modulo `p`, a generator other than the
identity, and `p` at least `2^32`; for secp256k1 (`src/lib.rs:1596-1666`) `p` is about `2^256`. The converse shows that
the hypotheses ask for nothing more.
-/

set_option linter.unusedSectionVars false

namespace IceFrost

variable {G R : Type} [AddCommGroup G]

/-- In a group of prime order any element other than the identity generates, and scalars modulo the order act freely. -/
theorem groupLaws_of_prime_order {p : Nat} [Fact p.Prime] [Module (ZMod p) G] (hcard : Nat.card G = p)
    (S : Suite (ZMod p) G R) (hgen : S.gen ≠ 0) : S.GroupLaws := by
  have hinj : ∀ a b : ZMod p, a • S.gen = b • S.gen → a = b := by
    intro a b h
    by_contra hne
    have h' : (a - b) • S.gen = 0 := by rw [sub_smul, h, sub_self]
    exact hgen (by rw [← inv_smul_smul₀ (sub_ne_zero.mpr hne) S.gen, h', smul_zero])
  have : Finite G := Nat.finite_of_card_ne_zero (by rw [hcard]; exact (Fact.out : p.Prime).ne_zero)
  have hb : Function.Bijective fun a : ZMod p => a • S.gen :=
    Function.Injective.bijective_of_nat_card_le (fun a b h => hinj a b h) (by rw [hcard, Nat.card_zmod])
  refine ⟨hinj, fun P => ?_⟩
  obtain ⟨a, ha⟩ := hb.surjective P
  exact ⟨a, ha.symm⟩

/-- Scalars modulo a prime of at least `2^32` tell all indices apart. -/
theorem u32Inj_of_large_prime {p : Nat} [Fact p.Prime] (hp : 2 ^ 32 ≤ p) : Suite.U32Inj (ZMod p) := by
  intro a b h
  have ha := a.toNat_lt
  have hb := b.toNat_lt
  have : a.toNat % p = b.toNat % p := (ZMod.natCast_eq_natCast_iff' _ _ _).mp h
  rw [Nat.mod_eq_of_lt (by omega), Nat.mod_eq_of_lt (by omega)] at this
  exact UInt32.toNat_inj.mp this

/-- Conversely `GroupLaws` says that the group has as many elements as there are scalars and that the generator is not
the identity. -/
theorem card_of_groupLaws {F : Type} [Field F] [Module F G] (S : Suite F G R) (h : S.GroupLaws) :
    Nat.card G = Nat.card F ∧ S.gen ≠ 0 := by
  have hb : Function.Bijective fun a : F => a • S.gen :=
    ⟨fun a b e => h.gen_inj a b e, fun P => (h.gen_surj P).imp fun a ha => ha.symm⟩
  refine ⟨(Nat.card_eq_of_bijective _ hb).symm, fun h0 => one_ne_zero (α := F) (h.gen_inj 1 0 ?_)⟩
  rw [h0, smul_zero, smul_zero]

end IceFrost
