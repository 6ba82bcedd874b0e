import Verif.Props.ReshareTakeover
import Verif.Props.Receivers

/-! # C151: the documented parameters for a resharing after dealers were discarded

The module documentation (`src/dkg/key_generation.rs:425-432`) says: if 37 of the participants of a 201-out-of-300 key
generation were discarded, the new signers refer to the rest as dealers with 201-out-of-263 parameters. -/

set_option linter.unusedVariables false

namespace IceFrost

open Finset

variable {F G R : Type} [Field F] [DecidableEq F] [AddCommGroup G] [Module F G] [DecidableEq G]

/-- C151: with the documented parameters every step of the resharing by the remaining participants `D` succeeds and keeps the
group key. What is missing: protection against dealers whose index is larger than the number of those that remain. -/
theorem C151_recipe_partial {S : Suite F G R} (hS : S.Lawful) (dbg : Bool) (p : Params) (ht : p.t ≠ 0) (D : List U32)
    (hD : D.Nodup) (h0 : 0 ∉ D) (htD : p.t.toNat ≤ D.length) (hDn : D.length ≤ p.n.toNat) (key : U32 → F) (s : F)
    (hkey : ∀ J : List U32, J.Nodup → J ⊆ D → p.t.toNat ≤ J.length → Spec.interpolate J key = s)
    (pn : Params) (I : List U32) (hI : I.Nodup) (hI0 : 0 ∉ I) (hlenI : I.length = pn.n.toNat) (htn : pn.t ≠ 0)
    (htnn : pn.t.toNat ≤ pn.n.toNat) (Q : U32 → Participant F G) (y : U32 → F)
    (hQ : ∀ i ∈ I, MadeRecord S i (Q i) (y i)) (r2 r3 r4 : U32 → R)
    (ordI ordD ordE : U32 → List U32) (hoI : ∀ l ∈ D, (ordI l).Perm I)
    (hoD : ∀ i ∈ I, (ordD i).Perm D ∧ (ordE i).Perm D) :
    ∃ (P : U32 → Participant F G) (m : U32 → BMap EncShare), (∀ l ∈ D, reshare S dbg pn ⟨l, key l⟩ ((ordI l).map Q)
        (r2 l) = .ok (P l, m l, ⟨(ordI l).map Q, none⟩)) ∧
    ∃ E : U32 → U32 → EncShare, (∀ l ∈ D, ∀ i ∈ I, (m l).get? i = some (E l i)) ∧
    ∃ d1 : U32 → RoundOne F G, (∀ i ∈ I, dkgNew S dbg ⟨UInt32.ofNat D.length, p.t⟩ (y i) i ((ordD i).map P) (r3 i) =
        .ok (d1 i, ⟨(ordD i).map P, none⟩)) ∧
    ∃ d2 : U32 → RoundTwo F G, (∀ i ∈ I, (d1 i).toRoundTwo S dbg ((ordE i).map fun l => E l i) (r4 i) =
        .ok (d2 i, [])) ∧
    ∃ key' : U32 → F, (∀ i ∈ I, (d2 i).finish = .ok (s • S.gen, ⟨i, key' i⟩)) ∧
      ∀ J : List U32, J.Nodup → J ⊆ I → pn.t.toNat ≤ J.length → Spec.interpolate J key' = s := by
  have hn : (UInt32.ofNat D.length).toNat = D.length := by
    rw [UInt32.toNat_ofNat']
    exact Nat.mod_eq_of_lt (lt_of_le_of_lt hDn p.n.toNat_lt)
  have h := C49_any_receivers hS dbg D key ⟨UInt32.ofNat D.length, p.t⟩ pn I
    ⟨hD, h0, hI, hI0, hn.symm, hlenI, ht, by rw [hn]; exact htD, htn, htnn⟩ Q y hQ r2 r3 r4 ordI ordD ordE hoI hoD
  rw [hkey D hD (List.Subset.refl _) htD] at h
  exact h

/-- C151: with the parameters of the key generation unchanged, `new` fails as soon as somebody is missing. -/
theorem C151_old_parameters (S : Suite F G R) (dbg : Bool) (p : Params) (x : F) (i : U32) (ps : List (Participant F G))
    (hps : ps.length < p.n.toNat) (rng : R) :
    dkgNew S dbg p x i ps rng = .error (.err (.invalidNumberOfParticipants ps.length p.n)) :=
  (C19_new S dbg p x i ps rng _ _).mpr ⟨by omega, rfl, rfl⟩

/-- C151: if those that remain are not exactly the participants `1, ..., n'`, where `n'` is their number, then one of them has
a larger index than that. -/
theorem C151_late_dealer (D : List U32) (hD : D.Nodup) (h0 : 0 ∉ D)
    (hgap : ∃ k : U32, k ≠ 0 ∧ k.toNat ≤ D.length ∧ k ∉ D) : ∃ b ∈ D, D.length < b.toNat := by
  by_contra hcon
  push Not at hcon
  obtain ⟨k, hk0, hkn, hkD⟩ := hgap
  have hsub : (D.map UInt32.toNat).toFinset ⊆ (Finset.Icc 1 D.length).erase k.toNat := by
    intro a ha
    obtain ⟨d, hd, rfl⟩ := List.mem_map.mp (List.mem_toFinset.mp ha)
    have hd0 : d.toNat ≠ 0 := fun h => h0 (by
      have e : d = 0 := UInt32.toNat_inj.mp (by simpa using h)
      rwa [e] at hd)
    refine Finset.mem_erase.mpr ⟨fun h => hkD (by rwa [UInt32.toNat_inj.mp h] at hd), ?_⟩
    exact Finset.mem_Icc.mpr ⟨Nat.one_le_iff_ne_zero.mpr hd0, hcon d hd⟩
  have hcard := Finset.card_le_card hsub
  have hk1 : k.toNat ∈ Finset.Icc 1 D.length :=
    Finset.mem_Icc.mpr ⟨Nat.one_le_iff_ne_zero.mpr fun h => hk0 (UInt32.toNat_inj.mp (by simpa using h)), hkn⟩
  rw [List.toFinset_card_of_nodup (hD.map fun a b h => UInt32.toNat_inj.mp h), List.length_map,
    Finset.card_erase_of_mem hk1, Nat.card_Icc] at hcard
  have : 0 < D.length := lt_of_lt_of_le (Nat.pos_of_ne_zero fun h => hk0 (UInt32.toNat_inj.mp (by simpa using h))) hkn
  omega

/-- C151, violated: whenever those that remain are not exactly `1, ..., n'`, one of them, dealing shares that everybody
complains about, ends up as the only dealer in the books of the new signers, and chooses the new group key, although all other
dealers follow the protocol and the new signers use the documented parameters. -/
theorem C151_recipe_takeover {S : Suite F G R} (hS : S.Lawful) (dbg : Bool) (t : U32) (ht : t ≠ 0) (K : List U32)
    (hK : K.Nodup) (hK0 : 0 ∉ K) (hKn : K.length < 2 ^ 32) (htK : t.toNat + 1 ≤ K.length)
    (hgap : ∃ k : U32, k ≠ 0 ∧ k.toNat ≤ K.length ∧ k ∉ K) :
    ∃ b ∈ K, ∀ (pn : Params) (I : List U32), 0 ∉ I → K.erase b ⊆ I → b ∉ I →
    ∀ (key : U32 → F) (r1 r2 r3 r4 : U32 → R) (Q : U32 → Participant F G) (y : U32 → F),
      (∀ i ∈ I, newSigner S pn i (r1 i) = .ok (Q i, y i)) →
    ∀ (ordI : U32 → List U32), (∀ l ∈ K.erase b, (ordI l).Perm I) →
    ∀ (P : U32 → Participant F G) (m : U32 → BMap EncShare) (LI : U32 → ParticipantList F G),
      (∀ l ∈ K.erase b, reshare S dbg pn ⟨l, key l⟩ ((ordI l).map Q) (r2 l) = .ok (P l, m l, LI l)) →
      (P b).index = b → Spec.DealerValid S (P b) → ∀ cb : VssCommitment G, (P b).commitments = some cb →
    ∀ (ord ord' : U32 → List U32), (∀ i ∈ I, (ord i).Perm (b :: K.erase b)) → (∀ i ∈ I, (ord' i).Perm (b :: K.erase b)) →
    ∀ (E : U32 → U32 → EncShare) (v : U32 → F), (∀ l ∈ K.erase b, ∀ i ∈ I, (m l).get? i = some (E l i)) →
      (∀ i ∈ I, (E b i).senderIndex = b ∧ (E b i).receiverIndex = i ∧
        Spec.Opens S (E b i) (y i • (P b).dhPublicKey) (v i) ∧ v i • S.gen ≠ Spec.pointEval cb.points (i.toNat : F)) →
    ∃ d1 : U32 → RoundOne F G, (∀ i ∈ I, dkgNew S dbg ⟨UInt32.ofNat K.length, t⟩ (y i) i ((ord i).map P) (r3 i) =
        .ok (d1 i, ⟨(ord i).map P, none⟩)) ∧
    ∃ (d2 : U32 → RoundTwo F G) (cs : U32 → List (Complaint F G)),
      (∀ i ∈ I, (d1 i).toRoundTwo S dbg ((ord' i).map fun l => E l i) (r4 i) = .ok (d2 i, cs i) ∧ cs i ≠ [] ∧
        ∀ c ∈ cs i, c.encShare.senderIndex = b) ∧
    ∀ all : U32 → List (Complaint F G), (∀ i ∈ I, ∀ c, c ∈ all i ↔ ∃ j ∈ I, c ∈ cs j) →
    ∃ (d3 : U32 → RoundTwo F G) (keys : U32 → List G), ∀ i ∈ I, (d2 i).blame S (all i) = .ok (d3 i, keys i) ∧
      (∀ j ∈ K.erase b, (P j).dhPublicKey ∈ keys i) ∧ (d3 i).finish = .ok (cb.points.headD 0, ⟨i, v i⟩) := by
  obtain ⟨b, hb, hlate⟩ := C151_late_dealer K hK hK0 hgap
  have hn : (UInt32.ofNat K.length).toNat = K.length := by
    rw [UInt32.toNat_ofNat']
    exact Nat.mod_eq_of_lt hKn
  have hl : (K.erase b).length + 1 = K.length := by
    rw [List.length_erase_of_mem hb]
    have := List.length_pos_of_mem hb
    omega
  refine ⟨b, hb, ?_⟩
  intro pn I hI0 hKI hbI key r1 r2 r3 r4 Q y hQ ordI hoI P m LI hP hbi hbv cb hcb ord ord' ho ho' E v hE hEb
  exact C133_reshare_takeover hS dbg ⟨UInt32.ofNat K.length, t⟩ pn ht (K.erase b) I (hK.erase b) hI0 hKI b hbI
    (by rw [hn]; exact hl) (by show t.toNat ≤ _; omega) (by rw [hn]; exact hlate) key r1 r2 r3 r4 Q y hQ ordI hoI P m LI hP
    hbi hbv cb hcb ord ord' ho ho' E v hE hEb

section Examples
open Toy

/-- 37 of 300 discarded, among them number 1: somebody beyond 263 remains. -/
example (D : List U32) (hD : D.Nodup) (h0 : 0 ∉ D) (hlen : D.length = 263) (h1 : 1 ∉ D) : ∃ b ∈ D, 263 < b.toNat := by
  rw [← hlen]
  exact C151_late_dealer D hD h0 ⟨1, by decide, by rw [hlen]; decide, h1⟩

/-- In the example after `C133_reshare_takeover`, participant 3 of four was discarded and number 4 takes over. -/
example : ([1, 2, 4] : List U32).Nodup ∧ 0 ∉ ([1, 2, 4] : List U32) ∧ (2 : U32).toNat + 1 ≤ ([1, 2, 4] : List U32).length ∧
    ∃ k : U32, k ≠ 0 ∧ k.toNat ≤ ([1, 2, 4] : List U32).length ∧ k ∉ ([1, 2, 4] : List U32) :=
  ⟨by decide, by decide, by decide, 3, by decide, by decide, by decide⟩

/-- Participants 1, 2 and 4 of a 2-out-of-4 key reshare it with 2-out-of-3 parameters. -/
example (Q : U32 → Participant Fp Fp) (y : U32 → Fp) (hQ : ∀ i ∈ ([7, 8] : List U32), MadeRecord suite i (Q i) (y i)) :
    ∃ (P : U32 → Participant Fp Fp) (d1 : U32 → RoundOne Fp Fp) (d2 : U32 → RoundTwo Fp Fp) (key' : U32 → Fp),
      (∀ i ∈ ([7, 8] : List U32), dkgNew suite true ⟨3, 2⟩ (y i) i ([1, 2, 4].map P) 0 = .ok (d1 i, ⟨[1, 2, 4].map P, none⟩)) ∧
      ∀ i ∈ ([7, 8] : List U32), (d2 i).finish = .ok ((42 : Fp) • suite.gen, ⟨i, key' i⟩) := by
  obtain ⟨P, m, -, E, -, d1, h3, d2, -, key', h5, -⟩ := C151_recipe_partial lawful true ⟨4, 2⟩ (by decide) [1, 2, 4] (by decide)
    (by decide) (by decide) (by decide) (fun i => Spec.polyEval [(42 : Fp), 7] (u32F Fp i)) 42 (fun J hJ _ hl =>
      (interpolate_polyEval u32_inj hJ [(42 : Fp), 7] hl).trans (Spec.polyEval_zero _))
    ⟨2, 2⟩ [7, 8] (by decide) (by decide) rfl (by decide) (by decide) Q y hQ (fun _ => 0) (fun _ => 0) (fun _ => 0)
    (fun _ => [7, 8]) (fun _ => [1, 2, 4]) (fun _ => [1, 2, 4]) (fun _ _ => List.Perm.refl _)
    (fun _ _ => ⟨List.Perm.refl _, List.Perm.refl _⟩)
  exact ⟨P, d1, d2, key', h3, h5⟩

end Examples

end IceFrost
