import Verif.Cases.Blame
import Verif.Props.ReshareWire
import Verif.Props.Attacks
import Verif.Props.Fresh
import Verif.Props.Simulation
import Verif.Props.Robust
import Verif.Props.Wire
import Verif.Props.Disclosure
import Verif.Props.Memory

/-! # Resharing runs and attacks that happen (C50, C51, C81, C82, C101, C110, C112, C113, C124) -/

set_option linter.unusedSectionVars false
set_option linter.unusedVariables false

namespace IceFrost.Cases

open Toy

/-- Runs of the resharing protocol exist. -/
theorem reshareRun (dbg : Bool) (D : List U32) (key : U32 → Fp) (pd pn : Params) (I : List U32) (hok : ReshareOk D pd pn I) :
    ∃ gk key', ReshareRun suite dbg D key pd pn I gk key' := by
  obtain ⟨Q, y, k1, P', m, k2, E', k3, d1', k4, d2', k5, gk', key', k6⟩ := C49_reshare_succeeds lawful dbg D key
    pd pn I hok (fun _ => 0) (fun _ => 0) (fun _ => 0) (fun _ => 0) (fun _ => I)
    (fun _ => D) (fun _ => D) (fun _ _ => List.Perm.refl _)
    (fun _ _ => ⟨List.Perm.refl _, List.Perm.refl _⟩)
  exact ⟨gk', key', ⟨_, _, _, _, _, _, _, Q, y, P', m, E', d1', d2', fun _ _ => List.Perm.refl _,
      fun _ _ => ⟨List.Perm.refl _, List.Perm.refl _⟩, k1, k2, k3, k4, k5, k6⟩⟩

/-- The key of holder `i` of the secret 42 with threshold 2. -/
def key (i : U32) : Fp := Spec.polyEval [(42 : Fp), 7] (u32F Fp i)

theorem key_shares (J : List U32) (hJ : J.Nodup) (h : 2 ≤ J.length) : Spec.interpolate J key = Spec.polyEval [(42 : Fp), 7] 0 :=
  interpolate_polyEval u32_inj hJ _ h

/-- Two resharings in a row: from 1, 2, 3 to 4, 5 (by 1 and 3), and on to 6, 7, 8 with threshold 3. -/
example (dbg : Bool) : ∃ (gk gk' : Fp) (key'' : U32 → Fp),
    Epoch.Chain suite dbg ⟨[1, 2, 3], 2, key⟩ [gk, gk'] ⟨[6, 7, 8], 3, key''⟩ ∧
      (∀ g ∈ [gk, gk'], g = Spec.polyEval [(42 : Fp), 7] 0 • suite.gen) ∧
      (⟨[6, 7, 8], 3, key''⟩ : Epoch Fp).Shares (Spec.polyEval [(42 : Fp), 7] 0) := by
  have h1 : ReshareOk [1, 3] ⟨2, 2⟩ ⟨2, 2⟩ [4, 5] :=
    ⟨by decide, by decide, by decide, by decide, rfl, rfl, by decide, by decide, by decide, by decide⟩
  have h2 : ReshareOk [4, 5] ⟨2, 2⟩ ⟨3, 3⟩ [6, 7, 8] :=
    ⟨by decide, by decide, by decide, by decide, rfl, rfl, by decide, by decide, by decide, by decide⟩
  obtain ⟨gk, key', hr⟩ := reshareRun dbg _ key _ _ _ h1
  obtain ⟨gk', key'', hr'⟩ := reshareRun dbg _ key' _ _ _ h2
  have hc : Epoch.Chain suite dbg ⟨[1, 2, 3], 2, key⟩ [gk, gk'] ⟨[6, 7, 8], 3, key''⟩ :=
    .cons (e' := ⟨[4, 5], 2, key'⟩) ⟨_, _, _, h1, by simp, le_rfl, rfl, hr⟩
      (.cons ⟨_, _, _, h2, List.Subset.refl _, le_rfl, rfl, hr'⟩ (.nil _))
  obtain ⟨h3, h4⟩ := C50_chain lawful dbg (Spec.polyEval [(42 : Fp), 7] 0) _ _ _ hc
    (fun J hJ _ hl => key_shares J hJ hl)
  exact ⟨gk, gk', key'', hc, h3, h4⟩

/-- A single key, reshared to 2 of 3. -/
example (dbg : Bool) : ∃ (gk : Fp) (key' : U32 → Fp), gk = (5 : Fp) • suite.gen ∧
    ∀ J : List U32, J.Nodup → J ⊆ [1, 2, 3] → 2 ≤ J.length → Spec.interpolate J key' = 5 := by
  obtain ⟨gk, key', hr⟩ := reshareRun dbg [(IndividualSigningKey.fromSingleKey (5 : Fp)).index]
    (fun _ => (IndividualSigningKey.fromSingleKey (5 : Fp)).key) ⟨1, 1⟩ ⟨3, 2⟩ [1, 2, 3]
    ⟨by decide, by decide, by decide, by decide, rfl, rfl, by decide, by decide, by decide, by decide⟩
  exact ⟨gk, key', C51_single_key lawful dbg 5 ⟨3, 2⟩ [1, 2, 3] (by decide) (by decide) rfl (by decide) (by decide) gk key'
    hr⟩

/-- Dealer 3 reshares a share that is off by one. -/
example (dbg : Bool) := C81_wrong_share_changes_key lawful dbg [1, 3] key ⟨2, 2⟩ ⟨2, 2⟩ [4, 5]
  ⟨by decide, by decide, by decide, by decide, rfl, rfl, by decide, by decide, by decide, by decide⟩ _
  (key_shares [1, 3] (by decide) (by decide)) 3 (by decide) 1 one_ne_zero 0

/-- Dealers 1 and 2, whose commitments both carry the label 1. -/
def twice : RoundTwo Fp Fp := ⟨⟨⟨3, 2⟩, 3, 9, 9, some [(1, ⟨1, [4, 5]⟩), (2, ⟨1, [6, 7]⟩)], [], none,
  some [(1, ⟨1, 3, 19⟩), (2, ⟨2, 3, 27⟩)]⟩⟩

example := C82_derivation_blocked (S := suite) u32_inj twice _ _
  ⟨by simp [BMap.WF, BMap.keys], by simp [BMap.keys], by
    intro k c h
    simp only [BMap.get?] at h
    split at h
    · cases h; simp
    · split at h
      · cases h; simp
      · cases h⟩
  ⟨rfl, rfl, by simp [BMap.WF, BMap.keys], by simp [BMap.keys], by
    intro k s c h h'
    simp only [BMap.get?] at h h'
    have key : ∀ a b e : Fp, e = a + b * 3 → e • suite.gen = Spec.pointEval [a, b] ((twice.state.index.toNat : Nat) : Fp) := by
      intro a b e h
      rw [smul_gen, h]
      simp [Spec.pointEval, Finset.sum_range_succ, twice]
      ring
    split at h
    · cases h
      rw [if_pos (by assumption)] at h'
      cases h'
      exact key 4 5 19 (by decide)
    · split at h
      · cases h
        rw [if_neg (by assumption), if_pos (by assumption)] at h'
        cases h'
        exact key 6 7 27 (by decide)
      · cases h⟩ 1 2 (by decide) _ _ rfl rfl rfl

/-- A hash that collides, and one proof accepted for two keys and two indices. -/
example (dbg dbg' : Bool) : ∃ m m' : Bytes, m ≠ m' ∧ flat.h0 m = flat.h0 m' := by
  have hg : ∀ i pk, GoodDealer flat 1 ⟨i, pk, some ⟨i, [4]⟩, some ⟨3, 8⟩, ⟨3, 8⟩⟩ := by
    intro i pk
    have hv : ∀ pk, Spec.PokValid flat i pk ⟨3, 8⟩ := fun pk => rfl
    exact ⟨⟨hv pk, _, 4, _, rfl, rfl, rfl, hv 4⟩, fun c hc => by cases hc; rfl⟩
  have hb := fun (dbg : Bool) (i : U32) (pk : Fp) => bootstrap_honest (withFieldHash_cipher cipher_laws (fun _ _ => (3 : Fp)))
    (withFieldHash_codec codec_laws _) dbg ⟨1, 1⟩ (by decide) (by decide) [⟨i, pk, some ⟨i, [4]⟩, some ⟨3, 8⟩, ⟨3, 8⟩⟩] rfl
    (by intro p hp; rw [List.mem_singleton.mp hp]; exact hg i pk) 5 1 [4] 0
  obtain ⟨_, h, _⟩ := hb dbg 1 5
  obtain ⟨_, h', _⟩ := hb dbg' 2 6
  exact C101_bound_partial (withFieldHash_cipher cipher_laws _) (withFieldHash_codec codec_laws _) dbg dbg' ⟨1, 1⟩ ⟨1, 1⟩ 5 5 1 1
    [4] [4] _ _ 0 0 _ _ _ _ h h' _ _ (List.mem_singleton.mpr rfl) (List.mem_singleton.mpr rfl) rfl (Or.inl (by decide))

variable {dbg : Bool} {p1 p2 p3 : Participant Fp Fp} {cs1 cs2 cs3 : List Fp} {x1 x2 x3 : Fp} {d d' : RoundOne Fp Fp}
variable {e1 e2 : EncShare} {d2 : RoundTwo Fp Fp} {c : Complaint Fp Fp} {m : BMap (SecretShare Fp)}
variable (s : Session dbg p1 p2 p3 cs1 cs2 cs3 x1 x2 x3 d d') (r : Second dbg cs1 cs2 cs3 x1 x2 x3 x1 d e1 e2 d2 c m)

/-- The share of 2, against its own polynomial and another one. -/
example := C110_mismatch group_laws x2 x1 1 cs2 [8, 9, 10] e2 r.rec2
  (by have := (honestlyDealt_opens cipher_laws codec_laws r.dealt2).2.2
      rwa [u32F] at this)

/-- The released buffers of 1 after the session with the bad share of 3. -/
example := C126_received_shares_left dbg d [e1, e2, e3] 0 d2 [c] r.round m r.shares
example := C126_receiving_buffers dbg d [e1, e2, e3] 0 d2 [c] r.round

/-- The same state with its shares erased. -/
def twiceErased : RoundTwo Fp Fp := ⟨{ twice.state with mySecretShares := some [(1, ⟨0, 0, 0⟩), (2, ⟨0, 0, 0⟩)] }⟩

/-- The shares 19 and 27 of participant 3 give the key 11 and are erased. -/
theorem twice_key : twice.calculateSigningKey = (.ok ⟨3, 11⟩, twiceErased) := by decide +kernel

example := C126_typed_values_partial twice twiceErased ⟨3, 11⟩ twice_key

example := C110_matching_partial cipher_laws codec_laws dbg ⟨3, 2⟩ (by decide) (by decide) [p1, p2, p3] rfl
  (fun p hp => by
    have ht : (⟨4, 2⟩ : Params).t ≠ 0 := by simp
    simp only [List.mem_cons, List.not_mem_nil, or_false] at hp
    rcases hp with rfl | rfl | rfl
    · exact (newDealer_good ht s.h1).2.2.2.2.2
    · exact (newDealer_good ht s.h2).2.2.2.2.2
    · exact (newDealer_good ht s.h3).2.2.2.2.2)
  x1 1 cs1 0 p1 (newDealer_good (by simp) s.h1).2.2.2.2.1 (newDealer_good (by simp) s.h1).2.2.2.1

example := C112_debug_panics suite d e1 2 (by rw [s.state.2.2.2.1]; decide) [e2, e3]
  (by rw [s.state.2.2.1]; show 2 ≤ 3; decide) 0

/-- The honest dealer 2 keeps its place although 3 is removed for its bad share. -/
example := C112_relabelled_sender_partial cipher_laws codec_laws dbg d _ s.state.1 (onFile_wf _ _ _) 2 x2 cs2
  (by rw [s.state.2.1]; rfl) _ (onFile_two _ _ _) rfl [e1, e2, e3]
  (by
    intro e he
    simp only [List.mem_cons, List.not_mem_nil, or_false] at he
    rcases he with rfl | rfl | rfl
    · exact ⟨by rw [r.rec1]; decide, fun h => by rw [r.send1] at h; simp at h⟩
    · refine ⟨by rw [r.rec2]; decide, fun _ => ?_⟩
      rw [s.state.2.2.2.2, r.rec2]
      exact r.dealt2
    · exact ⟨by decide, fun h => by simp [e3] at h⟩)
  0 [c] (Or.inl ⟨_, r.round⟩) [c] (fun a ha => Or.inl ha) d2 m r.holds

example := C113_signer suite ⟨4, 2⟩ 1 0

/-- The toy suite with an infinite tape of random scalars. -/
def tape : Suite Fp Fp (Nat → Fp) where
  gen := suite.gen
  contextString := suite.contextString
  fieldHash := suite.fieldHash
  sha256FieldHash := suite.sha256FieldHash
  digest := suite.digest
  hashLen := suite.hashLen
  encG := suite.encG
  decG := suite.decG
  sizeG := suite.sizeG
  encF := suite.encF
  decF := suite.decF
  sizeF := suite.sizeF
  kdf := suite.kdf
  nonceSize := suite.nonceSize
  aeadEnc := suite.aeadEnc
  aeadDec := suite.aeadDec
  randScalar ρ := (ρ 0, fun n => ρ (n + 1))
  randBytes k ρ := (leBytes k (ρ 0).val, fun n => ρ (n + 1))

example := C113_independent tape (fun _ => rfl) ⟨4, 2⟩ (by decide) 1 (by decide) 5 6 7 [8, 9] rfl

/-- Two polynomials of degree one at the points 0 and 3. -/
example (Y : Fp) (hY : d2.calculateGroupKey = .ok Y) := C124_real_view u32_inj suite 2 [3] (by decide) (by decide) rfl _ s.dealersOk 1 cs1
  (newDealer_good (by simp) s.h1).2.2.1 (onFile_one _ _ _) d2 r.holds.1 Y hY

example : ∃ Y, d2.calculateGroupKey = .ok Y := by
  have hd := s.dealersOk
  refine ⟨_, calculateGroupKey_ok u32_inj d2 _ r.holds.1 hd.wf.nodup hd.zero
    (fun k => ((((onFile cs1 cs2 cs3).get? k).map fun c => c.points).getD []).headD 0) ?_⟩
  intro k c h
  have := hd.points k c h
  simp only [h, Option.map_some, Option.getD_some]
  cases hp : c.points with
  | nil => exact absurd hp this
  | cons a l => rfl

end IceFrost.Cases
