import Verif.Toy
import Verif.Props.Dkg
import Verif.Props.Tables

/-!
# C49, continued: old dealers among the new signers

`tests` of the repository reshare to a group in which one member keeps the record (and Diffie-Hellman key) it used as a
dealer (`src/dkg/key_generation.rs:1551-1790`). The record of a receiver may be made by `new_signer` or by
`new_dealer`, with whichever parameters.
-/

set_option linter.unusedSectionVars false
set_option linter.unusedSimpArgs false
set_option linter.unusedVariables false

namespace IceFrost

variable {F G R : Type} [Field F] [DecidableEq F] [AddCommGroup G] [Module F G] [DecidableEq G]

/-- `p` is a record with index `i` and Diffie-Hellman private key `y`, made by one of the two constructors. -/
def MadeRecord (S : Suite F G R) (i : U32) (p : Participant F G) (y : F) : Prop :=
  (∃ params rng, newSigner S params i rng = .ok (p, y)) ∨ ∃ params rng cs, newDealer S params i rng = .ok (p, cs, y)

theorem MadeRecord.facts {S : Suite F G R} {i : U32} {p : Participant F G} {y : F} (h : MadeRecord S i p y) :
    p.index = i ∧ p.dhPublicKey = y • S.gen ∧ Spec.DhValid S p := by
  rcases h with ⟨params, rng, h⟩ | ⟨params, rng, cs, h⟩
  · by_cases hi : i = 0
    · unfold newSigner newInternal at h
      simp [hi] at h
    · obtain ⟨p', dh, rng', h', h1, _, _, h4, h5⟩ := newInternal_signer S params i hi none rng
      unfold newSigner at h
      rw [h'] at h
      cases h
      exact ⟨h1, h4, h5⟩
  · have ht : params.t ≠ 0 := by
      intro ht
      obtain ⟨v, hv⟩ := (C116_participants S params i rng).1
      rw [if_pos ht, h] at hv
      split at hv <;> cases hv
    obtain ⟨_, h1, _, _, h2, h3⟩ := newDealer_good ht h
    exact ⟨h1, h2, h3.1.1⟩

/-- C49 for receivers with any records: every call succeeds, whatever the random states and orders, every receiver gets
the group key of the interpolated secret, and any `t'` of the new keys interpolate to that secret. -/
theorem C49_any_receivers {S : Suite F G R} (hS : S.Lawful) (dbg : Bool) (D : List U32) (key : U32 → F)
    (pd pn : Params) (I : List U32) (hok : ReshareOk D pd pn I) (Q : U32 → Participant F G) (y : U32 → F)
    (hQ : ∀ i ∈ I, MadeRecord S i (Q i) (y i)) (r2 r3 r4 : U32 → R)
    (ordI ordD ordE : U32 → List U32) (hoI : ∀ l ∈ D, (ordI l).Perm I)
    (hoD : ∀ i ∈ I, (ordD i).Perm D ∧ (ordE i).Perm D) :
    ∃ (P : U32 → Participant F G) (m : U32 → BMap EncShare), (∀ l ∈ D, reshare S dbg pn ⟨l, key l⟩ ((ordI l).map Q)
        (r2 l) = .ok (P l, m l, ⟨(ordI l).map Q, none⟩)) ∧
    ∃ E : U32 → U32 → EncShare, (∀ l ∈ D, ∀ i ∈ I, (m l).get? i = some (E l i)) ∧
    ∃ d1 : U32 → RoundOne F G, (∀ i ∈ I, dkgNew S dbg pd (y i) i ((ordD i).map P) (r3 i) =
        .ok (d1 i, ⟨(ordD i).map P, none⟩)) ∧
    ∃ d2 : U32 → RoundTwo F G, (∀ i ∈ I, (d1 i).toRoundTwo S dbg ((ordE i).map fun l => E l i) (r4 i) =
        .ok (d2 i, [])) ∧
    ∃ key' : U32 → F, (∀ i ∈ I, (d2 i).finish = .ok (Spec.interpolate D key • S.gen, ⟨i, key' i⟩)) ∧
      ∀ J : List U32, J.Nodup → J ⊆ I → pn.t.toNat ≤ J.length → Spec.interpolate J key' = Spec.interpolate D key := by
  have hQ2 := fun i hi => (hQ i hi).facts.1
  have hQ3 := fun i hi => (hQ i hi).facts.2.1
  have hQ4 := fun i hi => (hQ i hi).facts.2.2
  have hresh : ∀ l ∈ D, ∃ (p : Participant F G) (m : BMap EncShare), reshare S dbg pn ⟨l, key l⟩ ((ordI l).map Q)
      (r2 l) = .ok (p, m, ⟨(ordI l).map Q, none⟩) := by
    intro l hl
    refine reshare_honest hS.cipher hS.codec dbg pn hok.tn hok.tnn _ ?_ ?_ ⟨l, key l⟩ ?_ (r2 l)
    · rw [List.length_map, (hoI l hl).length_eq, hok.lenI]
    · intro p hp
      obtain ⟨i, hi, rfl⟩ := List.mem_map.mp hp
      exact hQ4 i ((hoI l hl).mem_iff.mp hi)
    · exact fun h => hok.zeroD (h ▸ hl)
  have : Nonempty (Participant F G) := ⟨⟨0, 0, none, none, ⟨0, 0⟩⟩⟩
  choose! P m hP using hresh
  have hfacts := fun l hl => reshare_facts hS.cipher hS.codec dbg
    (fun i hi => hQ2 i ((hoI l hl).mem_iff.mp hi)) (hP l hl)
  choose! cs x f1 f2 f3 f4 f5 f6 f7 using hfacts
  have hE : ∀ l ∈ D, ∀ i ∈ I, ∃ e, (m l).get? i = some e ∧ e.senderIndex = l ∧ e.receiverIndex = i ∧
      Spec.Opens S e (x l • (Q i).dhPublicKey) (Spec.polyEval (cs l) (u32F F i)) :=
    fun l hl i hi => f7 l hl i ((hoI l hl).mem_iff.mpr hi)
  choose! E hE1 hE2 hE3 hE4 using hE
  have hnew : ∀ i ∈ I, dkgNew S dbg pd (y i) i ((ordD i).map P) (r3 i) =
      .ok (⟨roundOneState S pd (y i) i true ((ordD i).map P) none⟩, ⟨(ordD i).map P, none⟩) := by
    intro i hi
    refine new_honest dbg pd hok.td hok.tdn _ ?_ ?_ (y i) i (r3 i)
    · rw [List.length_map, (hoD i hi).1.length_eq, hok.lenD]
    · intro p hp
      obtain ⟨l, hl, rfl⟩ := List.mem_map.mp hp
      exact f6 l ((hoD i hi).1.mem_iff.mp hl)
  have hn : D.length < 2 ^ 32 := by rw [hok.lenD]; exact pd.n.toNat_lt
  have hR : ∀ i ∈ I, ∃ d2 m', RoundOne.toRoundTwo S dbg
      ⟨roundOneState S pd (y i) i true ((ordD i).map P) none⟩ ((ordE i).map fun l => E l i) (r4 i) =
        .ok (d2, []) ∧ d2.state.index = i ∧ HoldsVerified S d2 (dealerMap S D cs) m' := by
    intro i hi
    refine receive_phase dbg D hok.nodupD P cs (fun l => x l • S.gen)
      (fun l hl => ⟨f1 l hl, f4 l hl, f5 l hl⟩) pd hn (by rw [hok.lenD]; exact hok.tdn) (y i) i none
      (ordD i) (ordE i) (hoD i hi).1 (hoD i hi).2 (fun l => E l i)
      (fun l hl => ⟨hE2 l hl i hi, hE3 l hl i hi, ?_⟩) (r4 i)
    have := hE4 l hl i hi
    rwa [hQ3 i hi, smul_comm] at this
  choose! d2 m' hd1 hd2 hd3 using hR
  have hcs : ∀ l ∈ D, cs l ≠ [] := by
    intro l hl h
    have := f3 l hl
    rw [h] at this; cases this
  have hsec : Spec.interpolate D (fun l => (cs l).headD 0) = Spec.interpolate D key := by
    refine interpolate_congr fun l hl => ?_
    have := f3 l hl
    cases h : cs l with
    | nil => exact absurd h (hcs l hl)
    | cons a as => rw [h] at this; cases this; rfl
  refine ⟨P, m, hP, E, hE1,
    fun i => ⟨roundOneState S pd (y i) i true ((ordD i).map P) none⟩, hnew, d2, hd1,
    fun i => ∑ l ∈ D.toFinset, Spec.lagrange D l * Spec.polyEval (cs l) (u32F F i), fun i hi => ?_,
    fun J hJ hJI hJt => ?_⟩
  · rw [finish_phase hS.group hS.u32 D hok.nodupD hok.zeroD cs hcs (d2 i) (m' i) (hd3 i hi), hd2 i hi, hsec]
  · rw [← hsec]
    refine keys_interpolate hS.u32 D cs J hJ (fun l hl => ?_) _ (fun j hj => rfl)
    rw [f2 l hl]; exact hJt

/-- A group of three reshares to a group of three in which the third member keeps the record it made as a dealer, as in
the test of the repository: the hypotheses are met. -/
example : ∃ (Q : U32 → Participant Toy.Fp Toy.Fp) (y : U32 → Toy.Fp),
    (∀ i ∈ [1, 2, 3], MadeRecord Toy.suite i (Q i) (y i)) ∧ (Q 1).commitments = none ∧ (Q 3).commitments ≠ none ∧
      ReshareOk [1, 2, 3] ⟨3, 2⟩ ⟨3, 2⟩ [1, 2, 3] := by
  obtain ⟨a, ya, _, ha, _, ha', _⟩ := newInternal_signer Toy.suite ⟨3, 2⟩ 1 (by decide) none 0
  obtain ⟨b, yb, _, hb, _⟩ := newInternal_signer Toy.suite ⟨3, 2⟩ 2 (by decide) none 0
  obtain ⟨c, cs, yc, _, hc, _, _, _, hc', _⟩ := newInternal_dealer Toy.suite ⟨3, 2⟩ (by decide) 3 (by decide) none 0
  refine ⟨fun i => if i = 1 then a else if i = 2 then b else c, fun i => if i = 1 then ya else if i = 2 then yb else yc,
    fun i hi => ?_, ha', by
      show c.commitments ≠ none
      rw [hc']; simp, ?_⟩
  · simp only [List.mem_cons, List.not_mem_nil, or_false] at hi
    rcases hi with rfl | rfl | rfl
    · exact .inl ⟨⟨3, 2⟩, 0, by unfold newSigner; rw [ha]; rfl⟩
    · exact .inl ⟨⟨3, 2⟩, 0, by unfold newSigner; rw [hb]; rfl⟩
    · exact .inr ⟨⟨3, 2⟩, 0, cs, by unfold newDealer; rw [hc]; rfl⟩
  · constructor <;> decide

end IceFrost
