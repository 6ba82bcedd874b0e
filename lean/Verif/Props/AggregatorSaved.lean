import Verif.Model.AggregatorCodec
import Verif.Props.Serialization
import Verif.Props.Aggregation

/-! # C181: writing and reading the state of an aggregator -/

set_option linter.unusedSectionVars false
set_option linter.unusedSimpArgs false

namespace IceFrost

open Codec

variable {F G R : Type} [Field F] [DecidableEq F] [AddCommGroup G] [Module F G] [DecidableEq G]

namespace Spec

/-- The state is written and read again; the message is a reference that the caller keeps. -/
def restart (S : Suite F G R) (a : InitialAggregator F G) : Out F G (InitialAggregator F G) :=
  (toBytes (aggregatorStateCodec S) a.state).bind fun bs =>
    (fromBytes (aggregatorStateCodec S) bs).map fun st => ⟨st, a.message⟩

/-- The same for an aggregator after `finalize`. -/
def restartFinalized (S : Suite F G R) (f : FinalizedAggregator F G) : Out F G (FinalizedAggregator F G) :=
  (toBytes (aggregatorStateCodec S) f.state).bind fun bs =>
    (fromBytes (aggregatorStateCodec S) bs).map fun st => ⟨st, f.messageHash⟩

/-- A history of calls. After the calls marked `true` the state is written and read again. -/
def runRestarted (S : Suite F G R) : List (AggOp F G × Bool) → InitialAggregator F G → Out F G (InitialAggregator F G)
  | [], a => .ok a
  | (op, true) :: l, a => (restart S (a.apply op)).bind (runRestarted S l)
  | (op, false) :: l, a => runRestarted S l (a.apply op)

/-- The number of bytes of a state with `k` signers, `p` public keys and `z` partial signatures. -/
def stateBytes (S : Suite F G R) (k p z : ℕ) : ℕ :=
  32 + S.sizeG + k * (4 + 2 * S.sizeG) + p * (4 + S.sizeG) + z * (4 + S.sizeF)

end Spec

/-! ### Round trips -/

/-- States that are written and read back unchanged. -/
def AggregatorState.Fits (s : AggregatorState F G) : Prop :=
  s.signers.length < 2 ^ 64 ∧ s.publicKeys.WF ∧ s.partialSignatures.WF

theorem aggregatorState_roundTrip {S : Suite F G R} (h : S.CodecLaws) :
    (aggregatorStateCodec S).RoundTrip AggregatorState.Fits :=
  (iso_roundTrip (pair_roundTrip params_roundTrip (pair_roundTrip (vec_roundTrip (signer_roundTrip h))
    (pair_roundTrip (bmap_roundTrip (group_roundTrip h)) (pair_roundTrip (bmap_roundTrip (scalar_roundTrip h))
      (group_roundTrip h))))) _ _ (fun _ => rfl)).mono
    (fun _ hs => ⟨trivial, ⟨hs.1, fun _ _ => trivial⟩, ⟨hs.2.1, fun _ _ => trivial⟩, ⟨hs.2.2, fun _ _ => trivial⟩, trivial⟩)

theorem indices_length {l : List U32} (h : l.Nodup) : l.length < 2 ^ 64 := by
  have h2 : (l.map UInt32.toNat).Nodup := h.map (fun a b h => UInt32.toNat_inj.mp h)
  have h3 : l.map UInt32.toNat ⊆ List.range (2 ^ 32) := by
    intro n hn
    obtain ⟨k, _, rfl⟩ := List.mem_map.mp hn
    exact List.mem_range.mpr k.toNat_lt
  have h4 := (h2.subperm h3).length_le
  rw [List.length_map, List.length_range] at h4
  exact lt_of_le_of_lt h4 (by norm_num)

theorem reached_fits (params : Params) (Y : G) (message : Bytes) (ops : List (AggOp F G)) :
    (session params Y message ops).state.Fits := by
  have h := reached params Y message ops
  refine ⟨?_, h.pk_wf, h.ps_wf⟩
  have := indices_length h.sorted.nodup
  rwa [List.length_map] at this

theorem fits_restored {S : Suite F G R} (hd : S.CodecLaws) {s : AggregatorState F G} (h : s.Fits) :
    fromBytes (F := F) (G := G) (aggregatorStateCodec S) ((aggregatorStateCodec S).enc s) = .ok s := by
  obtain ⟨bs, h1, h2⟩ := (aggregatorState_roundTrip hd).survives (F := F) (G := G) h
  simp only [toBytes, Except.ok.injEq] at h1
  rw [h1]
  exact h2

theorem restart_eq {S : Suite F G R} (hd : S.CodecLaws) (a : InitialAggregator F G) (h : a.state.Fits) :
    Spec.restart S a = .ok a := by
  simp only [Spec.restart, toBytes, Except.bind, fits_restored hd h, Except.map]

theorem sum_const {α : Type} (l : List α) (f : α → ℕ) (c : ℕ) (h : ∀ a, f a = c) : (l.map f).sum = l.length * c := by
  rw [List.map_congr_left (fun a _ => h a), List.map_const', List.sum_replicate, smul_eq_mul]

theorem stateSize (S : Suite F G R) (s : AggregatorState F G) : (aggregatorStateCodec S).size s =
    Spec.stateBytes S s.signers.length s.publicKeys.length s.partialSignatures.length := by
  show (4 + 4) + ((8 + (s.signers.map (signerCodec S).size).sum) + ((8 + (s.publicKeys.map (pair u32 (group S)).size).sum) +
    ((8 + (s.partialSignatures.map (pair u32 (scalar S)).size).sum) + S.sizeG))) = _
  rw [sum_const s.signers (signerCodec S).size (4 + (S.sizeG + S.sizeG)) (fun _ => rfl),
    sum_const s.publicKeys (pair u32 (group S)).size (4 + S.sizeG) (fun _ => rfl),
    sum_const s.partialSignatures (pair u32 (scalar S)).size (4 + S.sizeF) (fun _ => rfl), Spec.stateBytes]
  ring

/-! ### The property -/

/-- C181: after every history of calls the state is read back as it was written, with the stated number of bytes, and no other
reachable state has an encoding that begins with it. -/
theorem C181_survives {S : Suite F G R} (hd : S.CodecLaws) (params : Params) (Y : G) (message : Bytes)
    (ops : List (AggOp F G)) :
    Spec.Survives F G (aggregatorStateCodec S) (session params Y message ops).state ∧
    ((aggregatorStateCodec S).enc (session params Y message ops).state).length =
      Spec.stateBytes S (session params Y message ops).state.signers.length
        (session params Y message ops).state.publicKeys.length
        (session params Y message ops).state.partialSignatures.length ∧
    ∀ params' Y' message' (ops' : List (AggOp F G)),
      (aggregatorStateCodec S).enc (session params Y message ops).state <+:
        (aggregatorStateCodec S).enc (session params' Y' message' ops').state →
      (session params Y message ops).state = (session params' Y' message' ops').state := by
  have hf := reached_fits params Y message ops
  refine ⟨(aggregatorState_roundTrip hd).survives hf, ?_, fun params' Y' message' ops' hp => ?_⟩
  · rw [← stateSize]
    exact (aggregatorState_roundTrip hd).size_eq _ hf
  · exact (aggregatorState_roundTrip hd).prefixFree (F := F) (G := G) |>.1 _ _ _ _ hf
      (reached_fits params' Y' message' ops') rfl rfl hp

/-- C181: an aggregator whose state is written and read again after any of its calls ends up as one that is not. -/
theorem C181_restarts_invisible {S : Suite F G R} (hd : S.CodecLaws) (params : Params) (Y : G) (message : Bytes)
    (ops : List (AggOp F G × Bool)) :
    Spec.runRestarted S ops (InitialAggregator.new params Y message) =
      .ok (session params Y message (ops.map Prod.fst)) := by
  suffices h : ∀ (ops : List (AggOp F G × Bool)) (before : List (AggOp F G)),
      Spec.runRestarted S ops (session params Y message before) =
        .ok (session params Y message (before ++ ops.map Prod.fst)) from h ops []
  intro ops
  induction ops with
  | nil => intro before; simp [Spec.runRestarted]
  | cons e ops ih =>
    intro before
    obtain ⟨op, b⟩ := e
    have hs : (session params Y message before).apply op = session params Y message (before ++ [op]) := by
      rw [session, session, run_append]
      rfl
    have ha : before ++ ((op, b) :: ops).map Prod.fst = (before ++ [op]) ++ ops.map Prod.fst := by simp
    cases b
    · show Spec.runRestarted S ops ((session params Y message before).apply op) = _
      rw [hs, ih, ha]
    · show (Spec.restart S ((session params Y message before).apply op)).bind (Spec.runRestarted S ops) = _
      rw [hs, restart_eq hd _ (reached_fits params Y message (before ++ [op]))]
      show Spec.runRestarted S ops _ = _
      rw [ih, ha]

/-- C181: the same after `finalize`: whatever `aggregate` returns, it returns for the restored aggregator. -/
theorem C181_finalized {S : Suite F G R} (hd : S.CodecLaws) (params : Params) (Y : G) (message : Bytes)
    (ops : List (AggOp F G)) (f : FinalizedAggregator F G) (hf : (session params Y message ops).finalize S = .ok f) :
    Spec.restartFinalized S f = .ok f := by
  have h1 := (finalize_ok hf).1
  have h2 := fits_restored hd (h1 ▸ reached_fits params Y message ops : f.state.Fits)
  simp only [Spec.restartFinalized, toBytes, Except.bind, h2, Except.map]

/-- C181: binding factors and nonce pairs are read back as they were written. -/
theorem C181_parts {S : Suite F G R} (hd : S.CodecLaws) (message : Bytes) (signers : List (Signer G)) (m : BMap F)
    (hm : computeBindingFactors S message signers = .ok m) (d e : F) :
    Spec.Survives F G (bindingFactorsCodec S) m ∧ Spec.Survives F G (noncePairCodec S) (d, e) := by
  refine ⟨(bmap_roundTrip (scalar_roundTrip hd)).survives ⟨?_, fun _ _ => trivial⟩,
    (pair_roundTrip (scalar_roundTrip hd) (scalar_roundTrip hd)).survives ⟨trivial, trivial⟩⟩
  unfold computeBindingFactors at hm
  split at hm
  · cases hm
  · simp only [Except.ok.injEq] at hm
    rw [← hm]
    suffices h : ∀ (l : List (U32 × G × G)) (m0 : BMap F) (f : U32 × G × G → F), m0.WF →
        (l.foldl (fun m e => m.insert e.1 (f e)) m0).WF from h _ [] _ BMap.wf_nil
    intro l
    induction l with
    | nil => intro m0 f h; exact h
    | cons a l ih => intro m0 f h; exact ih _ f (BMap.wf_insert h)

/-- C181: reading does not check what sessions guarantee. A state with one signer listed twice is accepted, and `finalize`
passes it on, against its documentation ("There are no duplicate signing attempts from the same individual signer"); no
history of calls leads to it. -/
theorem C181_not_validated {S : Suite F G R} (hd : S.CodecLaws) (params : Params) (Y : G) (message : Bytes)
    (s : Signer G) (pk : G) (z : F) :
    ∃ bs st, fromBytes (F := F) (G := G) (aggregatorStateCodec S) bs = .ok st ∧ st.signers = [s, s] ∧
      (∃ f, (InitialAggregator.mk st message).finalize S = .ok f ∧ f.state.signers = [s, s]) ∧
      ∀ params' Y' message' (ops : List (AggOp F G)), (session params' Y' message' ops).state ≠ st := by
  let st : AggregatorState F G := ⟨params, [s, s], [(s.participantIndex, pk)], [(s.participantIndex, z)], Y⟩
  have hst : st.Fits := ⟨by simp [st], by simp [st, BMap.WF], by simp [st, BMap.WF]⟩
  refine ⟨_, st, fits_restored hd hst, rfl, ⟨⟨st, S.h4 message⟩, ?_, rfl⟩, fun params' Y' message' ops h => ?_⟩
  · have h1 : (InitialAggregator.mk st message).missing = [] := by
      simp [InitialAggregator.missing, InitialAggregator.remainingSigners, st, BMap.get?, dedupByKey, sortByKey]
    unfold InitialAggregator.finalize
    rw [h1]
    rfl
  · have h2 := C57_sorted params' Y' message' ops
    rw [h] at h2
    simp [st] at h2

/-! ### A case -/

/-- Two signers are included, one of them signs, and the state is written and read after each call. -/
example : ∃ a, Spec.runRestarted Toy.suite
      [(.signer 2 (5, 6) ⟨2, 7⟩, true), (.signer 1 (3, 4) ⟨1, 8⟩, true), (.partialSig ⟨2, 9⟩, true)]
      (InitialAggregator.new ⟨3, 2⟩ 11 (strBytes "m")) = .ok a ∧
    a.state.signers = [⟨1, (3, 4)⟩, ⟨2, (5, 6)⟩] ∧ a.state.partialSignatures = [(2, 9)] := by
  refine ⟨_, C181_restarts_invisible Toy.lawful.codec _ _ _ _, ?_, ?_⟩ <;> decide +kernel

/-- Such an aggregator passes `finalize`, so that the restored one is the same. -/
example : ∃ f, (session ⟨3, 2⟩ 11 (strBytes "m") [.signer 2 (5, 6) ⟨2, 7⟩, .partialSig ⟨2, (9 : Toy.Fp)⟩]).finalize Toy.suite =
      .ok f ∧ Spec.restartFinalized Toy.suite f = .ok f := by
  obtain ⟨f, hf⟩ : ∃ f, (session ⟨3, 2⟩ 11 (strBytes "m")
      [.signer 2 (5, 6) ⟨2, 7⟩, .partialSig ⟨2, (9 : Toy.Fp)⟩]).finalize Toy.suite = .ok f :=
    (C59_finalize_within_bound _ _ _ _ _ (by decide +kernel)).mpr (by
      intro i hi
      simp [Spec.included, Spec.inclusions] at hi
      exact ⟨9, by simp [hi, Spec.partials]⟩)
  exact ⟨f, hf, C181_finalized Toy.lawful.codec _ _ _ _ f hf⟩

/-- A state of two signers, one public key and one partial signature takes 32 + 6 + 2 (4 + 12) + (4 + 6) + (4 + 6) bytes. -/
example : Spec.stateBytes Toy.suite 2 1 1 = 90 := by decide +kernel

end IceFrost
