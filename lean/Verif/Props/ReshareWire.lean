import Verif.Props.Wire

/-! # C109: resharing over the wire -/

set_option linter.unusedSectionVars false
set_option linter.unusedSimpArgs false

namespace IceFrost

open Codec

variable {F G R : Type} [Field F] [DecidableEq F] [AddCommGroup G] [Module F G] [DecidableEq G]

/-- `Participant::reshare` (src/dkg/participant.rs:244-281) on received records of the new signers. -/
def reshareWire (S : Suite F G R) (dbg : Bool) (params : Params) (sk : IndividualSigningKey F) (msgs : List Bytes)
    (rng : R) : Res F G (Participant F G × BMap EncShare × ParticipantList F G) :=
  match readAll (participantCodec S) msgs with
  | .error f => .error f
  | .ok ps => reshare S dbg params sk ps rng

/-- `DistributedKeyGeneration::new` (src/dkg/key_generation.rs:668-688) on received records of the dealers. -/
def dkgNewWire (S : Suite F G R) (dbg : Bool) (params : Params) (x : F) (i : U32) (msgs : List Bytes) (rng : R) :
    Res F G (RoundOne F G × ParticipantList F G) :=
  match readAll (participantCodec S) msgs with
  | .error f => .error f
  | .ok ps => dkgNew S dbg params x i ps rng

theorem reshare_fits {S : Suite F G R} (hs : S.ShortCiphertexts) {dbg : Bool} {pn : Params}
    {sk : IndividualSigningKey F} {ps : List (Participant F G)} (hps : ∀ p ∈ ps, p.Fits) {rng : R}
    {p : Participant F G} {m : BMap EncShare} {L : ParticipantList F G}
    (h : reshare S dbg pn sk ps rng = .ok (p, m, L)) : ∀ i e, m.get? i = some e → e.Fits S := by
  intro i e he
  unfold reshare at h
  split at h
  · cases h
  · cases h
  · split at h
    · cases h
    · next st lists rng' hst =>
      obtain ⟨hf, _⟩ := newState_fits hs dbg _ _ _ _ ps hps _ _ _ _ _ _ hst
      split at h
      · cases h
      · next shares hsh =>
        cases h
        unfold RoundOne.theirEncryptedSecretShares at hsh
        split at hsh
        · next m' hm' =>
          cases hsh
          exact (hf.encShares _ hm').2 _ (BMap.mem_of_get? he)
        · cases hsh

/-- C109: the documented resharing flow with every message sent as bytes. The new signers send the encodings of their
records; every dealer reads them, reshares its key, and sends the encoding of its record to all and of one share to
each; the new signers read both (in orders of their own). Every step succeeds, everybody gets the old group key and
any `t'` new signing keys interpolate to its secret. -/
theorem C109_wire_reshare {S : Suite F G R} (hS : S.Lawful) (hs : S.ShortCiphertexts) (dbg : Bool) (D : List U32)
    (key : U32 → F) (pd pn : Params) (I : List U32) (hok : ReshareOk D pd pn I) (s : F)
    (hkey : Spec.interpolate D key = s) (r1 r2 r3 r4 : U32 → R) (ordI ordD ordE : U32 → List U32)
    (hoI : ∀ l ∈ D, (ordI l).Perm I) (hoD : ∀ i ∈ I, (ordD i).Perm D ∧ (ordE i).Perm D) :
    ∃ (Q : U32 → Participant F G) (y : U32 → F) (signerRecord : U32 → Bytes),
      (∀ i ∈ I, newSigner S pn i (r1 i) = .ok (Q i, y i) ∧
        toBytes (F := F) (G := G) (participantCodec S) (Q i) = .ok (signerRecord i)) ∧
    ∃ (P : U32 → Participant F G) (dealerRecord : U32 → Bytes) (share : U32 → U32 → Bytes),
      (∀ l ∈ D, ∃ m, reshareWire S dbg pn ⟨l, key l⟩ ((ordI l).map signerRecord) (r2 l) =
          .ok (P l, m, ⟨(ordI l).map Q, none⟩) ∧
        toBytes (F := F) (G := G) (participantCodec S) (P l) = .ok (dealerRecord l) ∧
        ∀ i ∈ I, ∃ e, m.get? i = some e ∧ toBytes (F := F) (G := G) (encShareCodec S) e = .ok (share l i)) ∧
    ∃ d1 : U32 → RoundOne F G, (∀ i ∈ I, dkgNewWire S dbg pd (y i) i ((ordD i).map dealerRecord) (r3 i) =
        .ok (d1 i, ⟨(ordD i).map P, none⟩)) ∧
    ∃ d2 : U32 → RoundTwo F G, (∀ i ∈ I, toRoundTwoWire S dbg (d1 i) ((ordE i).map fun l => share l i) (r4 i) =
        .ok (d2 i, [])) ∧
    ∃ key' : U32 → F, (∀ i ∈ I, (d2 i).finish = .ok (s • S.gen, ⟨i, key' i⟩)) ∧
      ∀ J : List U32, J.Nodup → J ⊆ I → pn.t.toNat ≤ J.length → Spec.interpolate J key' = s := by
  obtain ⟨Q, y, hQ, P, m, hP, E, hE, d1, hd1, d2, hd2, gk, key', hfin⟩ := C49_reshare_succeeds hS dbg D key pd pn I hok
    r1 r2 r3 r4 ordI ordD ordE hoI hoD
  obtain ⟨hgk, hJ⟩ := C49_reshare_preserves hS dbg D key pd pn I hok s hkey gk key'
    ⟨r1, r2, r3, r4, ordI, ordD, ordE, Q, y, P, m, E, d1, d2, hoI, hoD, hQ, hP, hE, hd1, hd2, hfin⟩
  subst hgk
  have hQi : ∀ i ∈ I, (Q i).index = i ∧ (Q i).Fits := by
    intro i hi
    obtain ⟨p, dh, rng', h, h1, h2, _⟩ := newInternal_signer S pn i (fun h => hok.zeroI (h ▸ hi)) none (r1 i)
    have := hQ i hi
    unfold newSigner at this
    rw [h] at this
    cases this
    exact ⟨h1, fun c hc => by rw [h2] at hc; cases hc⟩
  have hPfit : ∀ l ∈ D, (P l).Fits := by
    intro l hl c hc
    obtain ⟨cs, x, _, k2, _, k4, _⟩ := reshare_facts hS.cipher hS.codec dbg
      (fun i hi => (hQi i ((hoI l hl).mem_iff.mp hi)).1) (hP l hl)
    rw [k4] at hc
    cases hc
    unfold VssCommitment.Fits
    show (cs.map _).length < _
    rw [List.length_map, k2]
    have := pn.t.toNat_lt
    omega
  have hEfit : ∀ l ∈ D, ∀ i ∈ I, (E l i).Fits S := fun l hl i hi =>
    reshare_fits hs (fun p hp => by
      obtain ⟨k, hk, rfl⟩ := List.mem_map.mp hp
      exact (hQi k ((hoI l hl).mem_iff.mp hk)).2) (hP l hl) i _ (hE l hl i hi)
  have hrd : ∀ p : Participant F G, p.Fits →
      fromBytes (F := F) (G := G) (participantCodec S) ((participantCodec S).enc p) = .ok p := by
    intro p hp
    obtain ⟨b, h1, h2⟩ := C72_participant (F := F) (G := G) hS.codec p hp
    cases h1
    exact h2
  have hrs : ∀ l ∈ D, ∀ i ∈ I,
      fromBytes (F := F) (G := G) (encShareCodec S) ((encShareCodec S).enc (E l i)) = .ok (E l i) := by
    intro l hl i hi
    obtain ⟨b, h1, h2⟩ := C72_encrypted_share (F := F) (G := G) hS.codec (E l i) (hEfit l hl i hi)
    cases h1
    exact h2
  refine ⟨Q, y, fun i => (participantCodec S).enc (Q i), fun i hi => ⟨hQ i hi, rfl⟩, P,
    fun l => (participantCodec S).enc (P l), fun l i => (encShareCodec S).enc (E l i),
    fun l hl => ⟨m l, ?_, rfl, fun i hi => ⟨E l i, hE l hl i hi, rfl⟩⟩, d1, fun i hi => ?_, d2, fun i hi => ?_, key', hfin,
    hJ⟩
  · unfold reshareWire
    rw [readAll_map (ordI l) _ Q fun i hi => hrd _ (hQi i ((hoI l hl).mem_iff.mp hi)).2]
    exact hP l hl
  · unfold dkgNewWire
    rw [readAll_map (ordD i) _ P fun l hl => hrd _ (hPfit l ((hoD i hi).1.mem_iff.mp hl))]
    exact hd1 i hi
  · unfold toRoundTwoWire
    rw [readAll_map (ordE i) _ (fun l => E l i) fun l hl => hrs l ((hoD i hi).2.mem_iff.mp hl) i hi]
    exact hd2 i hi

section Examples

open Toy

/-- C109: the keys 10 and 20 of the dealers 1 and 3 (so the secret is 5) are reshared to 4 and 5. -/
example := C109_wire_reshare lawful short_ciphertexts true [1, 3] (fun l => if l = 1 then 10 else 20) ⟨2, 2⟩ ⟨2, 2⟩
  [4, 5] ⟨by decide, by decide, by decide, by decide, rfl, rfl, by decide, by decide, by decide, by decide⟩ _ rfl
  (fun _ => 0) (fun _ => 0) (fun _ => 0) (fun _ => 0) (fun _ => [4, 5]) (fun _ => [1, 3]) (fun _ => [3, 1])
  (fun _ _ => List.Perm.refl _) (fun _ _ => ⟨List.Perm.refl _, by decide⟩)

end Examples

end IceFrost
