import Verif.Props.Errors
import Verif.Props.Blame

/-!
# C116, continued: `finish` and `blame` in any state

States can be read from bytes (C75), so these tables do not assume that the state was reached by calls: only that the
maps in it are maps.
-/

set_option linter.unusedSectionVars false
set_option linter.unusedSimpArgs false
set_option linter.unusedVariables false

namespace IceFrost

attribute [local instance] Classical.propDecidable

variable {F G R : Type} [Field F] [DecidableEq F] [AddCommGroup G] [Module F G] [DecidableEq G]

theorem signingKeyLoop_zero_mem (hu : Suite.U32Inj F) (m : BMap (SecretShare F)) (hn : m.keys.Nodup) (h0 : 0 ∈ m.keys) :
    signingKeyLoop (G := G) m.keys m 0 =
      (.error (.err (.custom "The indexs of a participant cannot be 0.")), m) := by
  cases hcm : m with
  | nil => rw [hcm] at h0; simp [BMap.keys] at h0
  | cons e rest =>
    obtain ⟨k, c⟩ := e
    rw [← hcm]
    conv => lhs; arg 2; rw [hcm]
    unfold signingKeyLoop
    rw [lagrangeCoeff_uniform hu, if_neg (not_not.mpr hn), if_pos h0]
    simp only []
    rw [hcm]
    rfl

theorem groupKeyLoop_zero_mem (hu : Suite.U32Inj F) (m : BMap (VssCommitment G)) (hn : m.keys.Nodup) (h0 : 0 ∈ m.keys) :
    groupKeyLoop (F := F) m.keys m 0 = .error (.err .indexIsZero) := by
  cases hcm : m with
  | nil => rw [hcm] at h0; simp [BMap.keys] at h0
  | cons e rest =>
    obtain ⟨k, c⟩ := e
    rw [← hcm]
    conv => lhs; arg 2; rw [hcm]
    unfold groupKeyLoop
    rw [lagrangeCoeff_uniform hu, if_neg (not_not.mpr hn), if_pos h0]

theorem groupKeyLoop_empty (l : List U32) (L : U32 → F) (rest : List (U32 × VssCommitment G))
    (h : ∀ e ∈ rest, lagrangeCoeff (F := F) (G := G) e.1 l = .ok (L e.1)) (he : ∃ e ∈ rest, e.2.points = [])
    (acc : G) : groupKeyLoop (F := F) l rest acc = .error (.panic .expectNone) := by
  induction rest generalizing acc with
  | nil => simp at he
  | cons e rest ih =>
    obtain ⟨k, c⟩ := e
    unfold groupKeyLoop
    rw [h (k, c) (by simp)]
    simp only [VssCommitment.publicKey]
    cases hp : c.points with
    | nil => rfl
    | cons p ps =>
      simp only [List.head?_cons]
      refine ih (fun e he => h e (List.mem_cons_of_mem _ he)) ?_ _
      obtain ⟨e, he, h'⟩ := he
      rcases List.mem_cons.mp he with rfl | he
      · rw [hp] at h'; cases h'
      · exact ⟨e, he, h'⟩

/-- C116, the complete table of `finish` in any state: no shares on file (a panic); an index 0 among the shares; no
commitments on file; an index 0 among the dealers; an empty commitment (a panic); and otherwise the interpolations of
the constant commitments and of the shares. -/
theorem C116_finish_table (hu : Suite.U32Inj F) (d : RoundTwo F G)
    (hmw : ∀ m, d.state.mySecretShares = some m → m.WF) (hcw : ∀ c, d.state.theirCommitments = some c → c.WF) :
    match (d.state.mySecretShares, d.state.theirCommitments) with
    | (none, _) => d.finish = .error (.panic .expectNone)
    | (some m, comms?) =>
      if 0 ∈ m.keys then d.finish = .error (.err (.custom "The indexs of a participant cannot be 0."))
      else match comms? with
        | none => d.finish = .error (.err .invalidGroupKey)
        | some comms =>
          if 0 ∈ comms.keys then d.finish = .error (.err .indexIsZero)
          else if ∃ k c, comms.get? k = some c ∧ c.points = [] then d.finish = .error (.panic .expectNone)
          else ∀ (pk : U32 → G) (ev : U32 → F), (∀ k c, comms.get? k = some c → c.points.head? = some (pk k)) →
            (∀ k s, m.get? k = some s → s.eval = ev k) →
            d.finish = .ok (Spec.interpolateG F comms.keys pk, ⟨d.state.index, Spec.interpolate m.keys ev⟩) := by
  cases hm : d.state.mySecretShares with
  | none =>
    simp only []
    unfold RoundTwo.finish RoundTwo.calculateSigningKey
    rw [hm]
  | some m =>
    simp only []
    have hmn := (hmw m hm).nodup
    split
    · next h0 =>
      unfold RoundTwo.finish RoundTwo.calculateSigningKey
      rw [hm]
      simp only []
      rw [signingKeyLoop_zero_mem hu m hmn h0]
      rfl
    · next h0 =>
      have hfin : ∀ r, (∀ m', RoundTwo.calculateGroupKey
            (⟨{ d.state with mySecretShares := some m' }⟩ : RoundTwo F G) = .error r) → d.finish = .error r := by
        intro r hr
        unfold RoundTwo.finish
        rw [calculateSigningKey_ok hu d m hm hmn h0
          (fun k => ((m.get? k).map (·.eval)).getD 0) (by intro k s hk; simp [hk])]
        simp only []
        rw [hr]
      cases hc : d.state.theirCommitments with
      | none =>
        simp only []
        refine hfin _ fun m' => ?_
        unfold RoundTwo.calculateGroupKey
        simp only [hc]
      | some comms =>
        simp only []
        have hn := (hcw comms hc).nodup
        split
        · next h1 =>
          refine hfin _ fun m' => ?_
          unfold RoundTwo.calculateGroupKey
          simp only [hc]
          exact groupKeyLoop_zero_mem hu comms hn h1
        · next h1 =>
          split
          · next h2 =>
            refine hfin _ fun m' => ?_
            unfold RoundTwo.calculateGroupKey
            simp only [hc]
            obtain ⟨k, c, hk, hp⟩ := h2
            exact groupKeyLoop_empty _ (Spec.lagrange comms.keys) _ (fun e _ => lagrangeCoeff_ok hu hn h1 _)
              ⟨(k, c), BMap.mem_of_get? hk, hp⟩ _
          · intro pk ev hpk hev
            exact finish_ok hu d comms hc hn h1 pk hpk m hm hmn h0 ev fun k s hk => (hev k s hk).symm

theorem foldlM_remove_panic (st : DkgState F G) (h : st.theirCommitments = none ∨ st.mySecretShares = none)
    (l : List U32) (hl : l ≠ []) :
    l.foldlM removeMalicious st = (.error (.panic .expectNone) : Res F G (DkgState F G)) := by
  obtain ⟨i, l, rfl⟩ := List.exists_cons_of_ne_nil hl
  have : removeMalicious st i = .error (.panic .expectNone) := by
    unfold removeMalicious
    rcases h with h | h
    · rw [h]
    · rw [h]; cases st.theirCommitments <;> rfl
  rw [List.foldlM_cons, this]
  rfl

theorem mapM_judge_none (S : Suite F G R) (st : DkgState F G) (h : st.theirCommitments = none)
    (cs : List (Complaint F G)) :
    cs.mapM (judge S st) = (.error (.panic .expectNone) : Res F G (List U32)) ∨
      ∃ l : List U32, cs.mapM (judge S st) = (.ok l : Res F G (List U32)) ∧ l.length = cs.length := by
  induction cs with
  | nil => exact .inr ⟨[], rfl, rfl⟩
  | cons c cs ih =>
    rw [List.mapM_cons]
    have : judge S st c = .error (.panic .expectNone) ∨ ∃ i, judge S st c = .ok i := by
      unfold judge
      simp only [h]
      split
      · exact .inr ⟨_, rfl⟩
      · exact .inl rfl
    rcases this with h1 | ⟨i, h1⟩
    · rw [h1]; exact .inl rfl
    · rw [h1]
      rcases ih with h2 | ⟨l, h2, h3⟩
      · rw [h2]; exact .inl rfl
      · rw [h2]; exact .inr ⟨i :: l, rfl, by simp [h3]⟩

/-- C116, the complete table of `blame` in any state: without complaints nothing happens; with complaints and no
commitments or no shares on file it panics; otherwise it never fails, and one side of each complaint is removed. -/
theorem C116_blame_table (S : Suite F G R) (d : RoundTwo F G) (cs : List (Complaint F G))
    (hmw : ∀ m, d.state.mySecretShares = some m → m.WF) (hcw : ∀ c, d.state.theirCommitments = some c → c.WF) :
    if cs = [] then d.blame S cs = .ok (d, [])
    else match (d.state.theirCommitments, d.state.mySecretShares) with
      | (some comms, some m) => ∃ (d' : RoundTwo F G) (keys : List G) (gone : List U32),
          d.blame S cs = .ok (d', keys) ∧ d'.state = { d.state with
            theirCommitments := some (comms.filter fun e => e.1 ∉ gone)
            mySecretShares := some (m.filter fun e => e.1 ∉ gone) } ∧
          List.Forall₂ (fun c k => (Upheld S d.state comms c ∧ k = c.encShare.senderIndex) ∨
            (¬ Upheld S d.state comms c ∧ k = c.encShare.receiverIndex)) cs gone ∧
          ∃ sorted : List U32, sorted.Pairwise (· < ·) ∧ (∀ k, k ∈ sorted ↔ k ∈ gone) ∧
            keys = sorted.filterMap fun i => d.state.theirDhPublicKeys.get? i
      | _ => d.blame S cs = .error (.panic .expectNone) := by
  split
  · next h =>
    subst h
    have : dedupByKey id (sortByKey id ([] : List U32)) = [] :=
      List.eq_nil_iff_forall_not_mem.mpr fun k hk => by rw [sortDedup_mem] at hk; cases hk
    unfold RoundTwo.blame
    rw [List.mapM_nil]
    show (match (dedupByKey id (sortByKey id ([] : List U32))).foldlM removeMalicious d.state with
      | .error f => .error f
      | .ok st => .ok (⟨st⟩, (dedupByKey id (sortByKey id ([] : List U32))).filterMap
          fun i => st.theirDhPublicKeys.get? i) : Res F G (RoundTwo F G × List G)) = _
    rw [this]
    rfl
  · next h =>
    have hpanic : d.state.theirCommitments = none ∨ d.state.mySecretShares = none →
        d.blame S cs = .error (.panic .expectNone) := by
      intro hnone
      unfold RoundTwo.blame
      have hl : cs.mapM (judge S d.state) = (.error (.panic .expectNone) : Res F G (List U32)) ∨
          ∃ l : List U32, cs.mapM (judge S d.state) = (.ok l : Res F G (List U32)) ∧ l.length = cs.length := by
        cases hc : d.state.theirCommitments with
        | none => exact mapM_judge_none S d.state hc cs
        | some comms => exact .inr ⟨_, mapM_judge S d.state comms hc cs, by simp⟩
      rcases hl with h1 | ⟨l, h1, h2⟩
      · rw [h1]
      · rw [h1]
        simp only []
        rw [foldlM_remove_panic d.state hnone]
        intro hnil
        have hne : l ≠ [] := by
          rintro rfl
          exact h (List.length_eq_zero_iff.mp h2.symm)
        obtain ⟨i, l', rfl⟩ := List.exists_cons_of_ne_nil hne
        have : i ∈ dedupByKey id (sortByKey id (i :: l')) := (sortDedup_mem _ _).mpr (by simp)
        rw [hnil] at this
        simp at this
    cases hc : d.state.theirCommitments with
    | none => exact hpanic (.inl hc)
    | some comms =>
      cases hm : d.state.mySecretShares with
      | none => exact hpanic (.inr hm)
      | some m =>
        simp only []
        refine ⟨_, _, cs.map (verdict S d.state comms), blame_eq S d comms m hc hm (hcw _ hc) (hmw _ hm) cs, rfl, ?_,
          _, sortDedup_strict _, fun k => sortDedup_mem _ _, rfl⟩
        rw [List.forall₂_map_right_iff, List.forall₂_same]
        intro c _
        unfold verdict
        split
        · next hu => exact .inl ⟨hu, rfl⟩
        · next hu => exact .inr ⟨hu, rfl⟩

/-! ### The rows are met -/

section
open Toy

/-- A state as it may be read from bytes. -/
def fileState (comms : Option (BMap (VssCommitment Fp))) (m : Option (BMap (SecretShare Fp))) : RoundTwo Fp Fp :=
  ⟨⟨⟨3, 1⟩, 2, 5, 5, comms, [(1, 4)], none, m⟩⟩

theorem wf_single {α : Type} (k : U32) (v : α) : ∀ m : BMap α, some [(k, v)] = some m → m.WF := by
  rintro m h
  obtain rfl := Option.some.inj h
  simp [BMap.WF, BMap.keys]

/-- The six rows of `C116_finish_table`, in order. -/
example : (fileState none none).finish = .error (.panic .expectNone) :=
  C116_finish_table u32_inj (fileState none none) (by rintro m ⟨⟩) (by rintro m ⟨⟩)

example : (fileState none (some [(0, ⟨0, 2, 6⟩)])).finish =
    .error (.err (.custom "The indexs of a participant cannot be 0.")) := by
  have := C116_finish_table u32_inj (fileState none (some [(0, ⟨0, 2, 6⟩)])) (wf_single _ _) (by rintro m ⟨⟩)
  simp only [fileState] at this
  rwa [if_pos (by simp [BMap.keys])] at this

example : (fileState none (some [(1, ⟨1, 2, 6⟩)])).finish = .error (.err .invalidGroupKey) := by
  have := C116_finish_table u32_inj (fileState none (some [(1, ⟨1, 2, 6⟩)])) (wf_single _ _) (by rintro m ⟨⟩)
  simp only [fileState] at this
  rwa [if_neg (by simp [BMap.keys])] at this

example : (fileState (some [(0, ⟨0, [6]⟩)]) (some [(1, ⟨1, 2, 6⟩)])).finish = .error (.err .indexIsZero) := by
  have := C116_finish_table u32_inj (fileState (some [(0, ⟨0, [6]⟩)]) (some [(1, ⟨1, 2, 6⟩)])) (wf_single _ _)
    (wf_single _ _)
  simp only [fileState] at this
  rwa [if_neg (by simp [BMap.keys]), if_pos (by simp [BMap.keys])] at this

example : (fileState (some [(1, ⟨1, []⟩)]) (some [(1, ⟨1, 2, 6⟩)])).finish = .error (.panic .expectNone) := by
  have := C116_finish_table u32_inj (fileState (some [(1, ⟨1, []⟩)]) (some [(1, ⟨1, 2, 6⟩)])) (wf_single _ _)
    (wf_single _ _)
  simp only [fileState] at this
  rwa [if_neg (by simp [BMap.keys]), if_neg (by simp [BMap.keys]), if_pos ⟨1, ⟨1, []⟩, by simp [BMap.get?], rfl⟩] at this

example : (fileState (some [(1, ⟨1, [6]⟩)]) (some [(1, ⟨1, 2, 6⟩)])).finish =
    .ok (Spec.interpolateG Fp [1] fun _ => 6, ⟨2, Spec.interpolate [1] fun _ => 6⟩) := by
  have := C116_finish_table u32_inj (fileState (some [(1, ⟨1, [6]⟩)]) (some [(1, ⟨1, 2, 6⟩)])) (wf_single _ _)
    (wf_single _ _)
  simp only [fileState] at this
  rw [if_neg (by simp [BMap.keys]), if_neg (by simp [BMap.keys]), if_neg] at this
  · refine this (fun _ => 6) (fun _ => 6) ?_ ?_
    · intro k c hc
      simp only [BMap.get?] at hc
      split at hc
      · cases hc; rfl
      · cases hc
    · intro k c hc
      simp only [BMap.get?] at hc
      split at hc
      · cases hc; rfl
      · cases hc
  · rintro ⟨k, c, hc, hp⟩
    simp only [BMap.get?] at hc
    split at hc
    · cases hc; cases hp
    · cases hc

/-- The rows of `C116_blame_table`, for a complaint with index 0 for the accused: it is not upheld. -/
def zeroComplaint : Complaint Fp Fp := ⟨2, 1, ⟨0, 1, [], []⟩, ⟨3, 4, 5⟩⟩

example : (fileState none none).blame suite [] = .ok (fileState none none, []) := by
  have := C116_blame_table suite (fileState none none) [] (by rintro m ⟨⟩) (by rintro m ⟨⟩)
  rwa [if_pos rfl] at this

example : (fileState (some [(1, ⟨1, [6]⟩)]) none).blame suite [zeroComplaint] = .error (.panic .expectNone) := by
  have := C116_blame_table suite (fileState (some [(1, ⟨1, [6]⟩)]) none) [zeroComplaint] (by rintro m ⟨⟩) (wf_single _ _)
  rwa [if_neg (by simp)] at this

example : ∃ d' keys, (fileState (some [(1, ⟨1, [6]⟩)]) (some [(1, ⟨1, 2, 6⟩)])).blame suite [zeroComplaint] =
    .ok (d', keys) ∧ d'.state.theirCommitments = some [] := by
  have := C116_blame_table suite (fileState (some [(1, ⟨1, [6]⟩)]) (some [(1, ⟨1, 2, 6⟩)])) [zeroComplaint]
    (wf_single _ _) (wf_single _ _)
  rw [if_neg (by simp)] at this
  obtain ⟨d', keys, gone, h1, h2, h3, h4⟩ := this
  obtain ⟨b, l, hb, hl, rfl⟩ := List.forall₂_cons_left_iff.mp h3
  obtain rfl := List.forall₂_nil_left_iff.mp hl
  rcases hb with ⟨hb, _⟩ | ⟨_, rfl⟩
  · exact absurd rfl hb.1
  · exact ⟨d', keys, h1, by rw [h2]; simp [zeroComplaint]⟩

/-- A complaint whose two equations hold is accepted whatever the hash, one with the wrong shared key is not. -/
example (h : Fp) (hh : h = suite.sha256FieldHash (strBytes "Complaint Context") (suite.encG 1 ++ suite.encG 2 ++
      suite.encG 2 ++ suite.encG 0 ++ suite.encG 0 ++ (encShareCodec suite).enc ⟨1, 2, [], []⟩)) :
    (Complaint.verify suite ⟨2, 1, ⟨1, 2, [], []⟩, ⟨0, 0, h⟩⟩ 2 : Out Fp Fp Unit) = .ok () := by
  rw [C116_complaint suite ⟨2, 1, ⟨1, 2, [], []⟩, ⟨0, 0, h⟩⟩ 2 h hh, if_pos]
  exact ⟨by rw [zero_add]; rfl, by rw [zero_add]⟩

example : (encryptShare suite (⟨1, 2, 6⟩ : SecretShare Fp) (suite.encG 3) 0).map Prod.fst =
    match suite.kdf (suite.encG 3) with
      | none => .error (.custom "KDF expansion failed unexpectedly")
      | some key => match suite.aeadEnc key (suite.randBytes suite.nonceSize 0).1 (suite.encF 6) with
        | none => .error (.encryptionError : Error Fp Fp)
        | some ct => .ok ⟨1, 2, (suite.randBytes suite.nonceSize 0).1, ct⟩ :=
  C116_encrypt suite _ _ _

end

end IceFrost
