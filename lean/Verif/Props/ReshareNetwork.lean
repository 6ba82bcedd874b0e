import Verif.Props.Network
import Verif.Props.RobustChain

/-! # C157: resharing on an arbitrary network, any number of times

The sessions of C155 with `reshare = true`. The checks that `new` leaves to the caller are those of C129.
-/

set_option linter.unusedSectionVars false
set_option linter.unusedSimpArgs false
set_option linter.unusedVariables false

namespace IceFrost

open Finset

attribute [local instance] Classical.propDecidable

variable {F G R : Type} [Field F] [DecidableEq F] [AddCommGroup G] [Module F G] [DecidableEq G]

/-- A resharing session: the records on the board passed the caller's checks against the verifying shares of the epoch
`old`, with the new threshold `t`. -/
structure Spec.ReshareOf (S : Suite F G R) (old : PublicEpoch G) (t : Nat) (N : Spec.Group F G) : Prop where
  kind : N.reshare = true
  checked : Spec.RecordsChecked S old t N.board
  fits : ∀ p ∈ N.board, p.Fits

/-- The epochs in the life of the group key `Y`, with the number of resharings before each: the first comes from a participant that finished a key generation, each later
one from a signer that finished a resharing of an earlier one with at least the earlier threshold of dealers on file. In
each session, the network is in any state that it can reach. -/
inductive Spec.Era (S : Suite F G R) (Y : G) : Nat → PublicEpoch G → Prop
  | generated (dbg : Bool) (N : Spec.Group F G) (w : Spec.Net F G) (i : U32) (comms : BMap (VssCommitment G))
      (sk : IndividualSigningKey F) (log : List (List (Complaint F G))) (hk : N.reshare = false) (hN : Spec.BoardOk S N)
      (ht : N.params.t ≠ 0) (hw : Spec.Reached S dbg N w) (hi : w.node i = .done (some comms) Y sk log) :
      Spec.Era S Y 0 ⟨N.params.t.toNat, Spec.publicKeyOf F comms⟩
  | reshared (n : Nat) (old : PublicEpoch G) (h : Spec.Era S Y n old) (dbg : Bool) (t : Nat) (N : Spec.Group F G)
      (w : Spec.Net F G) (i : U32) (comms : BMap (VssCommitment G)) (Y' : G) (sk : IndividualSigningKey F) (log : List (List (Complaint F G)))
      (hN : Spec.ReshareOf S old t N) (hw : Spec.Reached S dbg N w) (hi : w.node i = .done (some comms) Y' sk log)
      (hd : old.t ≤ comms.keys.length) :
      Spec.Era S Y (n + 1) ⟨t, Spec.publicKeyOf F comms⟩

section
variable {S : Suite F G R} {dbg : Bool} {N : Spec.Group F G}

theorem good_reshare (h : N.reshare = true) (p : Participant F G) : N.good S p ↔ Spec.DealerValid S p := by
  simp [Spec.Group.good, h]

theorem reshareOf_board {old : PublicEpoch G} {t : Nat} (h : Spec.ReshareOf S old t N) : Spec.BoardOk S N := by
  refine ⟨h.checked.distinct, fun p hp hg => ?_, h.fits⟩
  have hf : N.board.filter (N.good S) = N.board.filter (Spec.DealerValid S) :=
    List.filter_congr fun p _ => decide_eq_decide.mpr (good_reshare h.kind p)
  rw [hf]
  exact h.checked.range p hp ((good_reshare h.kind p).mp hg)

theorem reshareOf_deg {old : PublicEpoch G} {t : Nat} (h : Spec.ReshareOf S old t N) :
    ∀ p ∈ N.board, N.good S p → ∀ c, p.commitments = some c → c.points.length ≤ t :=
  fun p hp hg => h.checked.degree p hp ((good_reshare h.kind p).mp hg)

/-- What a participant that has finished holds, in both kinds of sessions. -/
theorem net_done (hS : S.Lawful) (hs : S.ShortCiphertexts) (hN : Spec.BoardOk S N) {w : Spec.Net F G}
    (h : Spec.Reached S dbg N w) (t : Nat)
    (hdeg : ∀ p ∈ N.board, N.good S p → ∀ c, p.commitments = some c → c.points.length ≤ t)
    {i : U32} {dealers : Option (BMap (VssCommitment G))} {Y : G} {sk : IndividualSigningKey F}
    {log : List (List (Complaint F G))} (hi : w.node i = .done dealers Y sk log) :
    ∃ comms, dealers = some comms ∧ comms.WF ∧
      (∀ k c, comms.get? k = some c → ∃ p ∈ N.board, N.good S p ∧ p.index = k ∧ p.commitments = some c) ∧
      Y = Spec.interpolateG F comms.keys (fun l => ((comms.get? l).map fun c => c.points.headD 0).getD 0) ∧
      sk.index = i ∧ sk.key • S.gen = Spec.publicKeyOf F comms i ∧
      PublicEpoch.Shares F ⟨t, Spec.publicKeyOf F comms⟩ Y := by
  have := (reached_ok hS hs hN h i).1
  rw [hi] at this
  obtain ⟨d, h1, hf, h3⟩ := this
  obtain ⟨comms, m, hP⟩ := inTwo_pending hS.cipher hS.codec hN h1
  obtain ⟨hD, hV⟩ := pending_verified hN hP
  obtain ⟨key, k1, _, k3⟩ := finish_verified hS.u32 hD hV
  rw [hf] at k1
  have k1' := Prod.ext_iff.mp (Except.ok.inj k1)
  rw [hP.index] at k1' k3
  have k2 : sk = ⟨i, key⟩ := k1'.2
  have hY : Y = Spec.interpolateG F comms.keys (fun l => ((comms.get? l).map fun c => c.points.headD 0).getD 0) := k1'.1
  refine ⟨comms, h3.trans hP.holds.commits, hD.wf, fun k c hk => boardDealers_get hN (hP.dealers k c hk), hY,
    by rw [k2], by rw [k2]; exact k3, fun J hJ hlen => ?_⟩
  rw [hY]
  exact publicKeyOf_interpolates hS.group hS.u32 comms t (fun k c hk => pending_deg hN hdeg hP hk) J hJ hlen

/-- C157, one resharing: in every state that any execution reaches, a signer that has finished holds a signing key that matches
the verifying share that everybody derives from the dealers on file, and any `t` of these verifying shares determine the key
that it reports. That is the group key of the epoch before, whichever dealers were removed, if at least its threshold of
dealers remain. -/
theorem C157_reshared (hS : S.Lawful) (hs : S.ShortCiphertexts) (old : PublicEpoch G) (Y : G) (ho : old.Shares F Y)
    (t : Nat) (hN : Spec.ReshareOf S old t N) {w : Spec.Net F G} (h : Spec.Reached S dbg N w) (i : U32)
    (dealers : Option (BMap (VssCommitment G))) (Y' : G) (sk : IndividualSigningKey F)
    (log : List (List (Complaint F G))) (hi : w.node i = .done dealers Y' sk log) :
    ∃ comms, dealers = some comms ∧ (∀ k ∈ comms.keys, ∃ p ∈ N.board, p.index = k) ∧ sk.index = i ∧
      sk.key • S.gen = Spec.publicKeyOf F comms i ∧
      (∀ j, (generateFromCommitments j (comms.map (·.2)) : Out F G _) = .ok ⟨j, Spec.publicKeyOf F comms j⟩) ∧
      PublicEpoch.Shares F ⟨t, Spec.publicKeyOf F comms⟩ Y' ∧
      (old.t ≤ comms.keys.length → Y' = Y) := by
  obtain ⟨comms, h1, h2, h3, h4, h5, h6, h7⟩ := net_done hS hs (reshareOf_board hN) h t (reshareOf_deg hN) hi
  have h3' : ∀ k c, comms.get? k = some c → ∃ p ∈ N.board, Spec.DealerValid S p ∧ p.index = k ∧ p.commitments = some c := by
    intro k c hk
    obtain ⟨p, hp, hg, a, b⟩ := h3 k c hk
    exact ⟨p, hp, (good_reshare hN.kind p).mp hg, a, b⟩
  refine ⟨comms, h1, fun k hk => ?_, h5, h6, fun j => ?_, h7, fun hlen => ?_⟩
  · obtain ⟨c, hc⟩ := BMap.exists_get? hk
    obtain ⟨p, hp, _, hk, _⟩ := h3 k c hc
    exact ⟨p, hp, hk⟩
  · refine derive_publicKeyOf hS.u32 comms h2 (fun h0 => ?_) (fun k c hc => ?_) j
    · obtain ⟨c, hc⟩ := BMap.exists_get? h0
      obtain ⟨p, hp, hg, h0, _⟩ := h3' 0 c hc
      exact (hN.checked.range p hp hg).1 h0
    · obtain ⟨p, hp, hg, rfl, hcm⟩ := h3' k c hc
      exact hN.checked.label p hp hg c hcm
  · rw [h4, ← ho comms.keys h2.nodup hlen]
    unfold Spec.interpolateG
    refine sum_congr rfl fun l hl => ?_
    obtain ⟨c, hc⟩ := BMap.exists_get? (List.mem_toFinset.mp hl)
    obtain ⟨p, hp, hv, rfl, hcm⟩ := h3' l c hc
    have := hN.checked.constant p hp hv c hcm
    beta_reduce
    rw [hc]
    simp only [Option.map_some, Option.getD_some]
    rw [List.headD_eq_head?_getD, this, Option.getD_some]

/-- C157: in every epoch of the life of a group key, any threshold of the verifying shares determine it. -/
theorem C157_life (hS : S.Lawful) (hs : S.ShortCiphertexts) (Y : G) (n : Nat) (e : PublicEpoch G)
    (h : Spec.Era S Y n e) :
    e.t ≠ 0 ∧ e.Shares F Y := by
  induction h with
  | generated dbg N w i comms sk log hk hN ht hw hi =>
    obtain ⟨c, h1, _, _, _, _, _, h7⟩ := net_done hS hs hN hw N.params.t.toNat (fun p _ hg c hc => (hg.2 hk c hc).le) hi
    cases h1
    exact ⟨fun h => ht (UInt32.toNat_inj.mp (by simpa using h)), h7⟩
  | reshared n old h dbg t N w i comms Y' sk log hN hw hi hd ih =>
    obtain ⟨c, h1, _, _, _, _, h6, h7⟩ := C157_reshared hS hs old Y ih.2 t hN hw i _ Y' sk log hi
    cases h1
    rw [h7 hd] at h6
    exact ⟨hN.checked.positive, h6⟩

/-- C157, signing: after any number of resharings, any `t` or more signers that finished the last one with the same dealers on
file, at least the threshold before, can sign every message for the key that was generated at the beginning. -/
theorem C157_signing (hS : S.Lawful) (hs : S.ShortCiphertexts) (Y : G) (n : Nat) (old : PublicEpoch G)
    (he : Spec.Era S Y n old) (t : Nat) (hN : Spec.ReshareOf S old t N) {w : Spec.Net F G} (h : Spec.Reached S dbg N w) (J : List U32) (hJ : J.Nodup)
    (hz : 0 ∉ J) (htJ : t ≤ J.length) (comms : BMap (VssCommitment G)) (hd : old.t ≤ comms.keys.length) (Y' : U32 → G)
    (sk : U32 → IndividualSigningKey F) (log : U32 → List (List (Complaint F G)))
    (hi : ∀ j ∈ J, w.node j = .done (some comms) (Y' j) (sk j) (log j)) (sp : Params) (hsp : J.length ≤ sp.n.toNat)
    (message : Bytes) (rng : U32 → R) (number : U32 → Nat) (pos : U32 → UInt64)
    (hpos : ∀ i ∈ J, number i < 2 ^ 63 ∧ (pos i).toNat < number i) :
    (∀ j ∈ J, Y' j = Y) ∧ Spec.interpolate J (fun j => (sk j).key) • S.gen = Y ∧
    ∃ (p : U32 → PartialSignature F) (c : U32 → G × G) (sig : ThresholdSignature F G),
      (∀ i ∈ J, (generateCommitmentShareLists S (rng i) (sk i) (number i)).1.commitments[(pos i).toNat]? = some (c i)) ∧
      (∀ i ∈ J, (sign S dbg (sk i) (Spec.messageHash S message) Y
        (generateCommitmentShareLists S (rng i) (sk i) (number i)).2 (pos i)
        (session (F := F) sp Y message (J.map fun i =>
          .signer i (c i) (IndividualSigningKey.toPublic S (sk i)))).state.signers).1 = .ok (p i)) ∧
      (∃ f, (session sp Y message ((J.map fun i => .signer i (c i) (IndividualSigningKey.toPublic S (sk i))) ++
        J.map fun i => .partialSig (p i))).finalize S = .ok f ∧ f.aggregate S = .ok sig) ∧
      Spec.SigValid S Y (Spec.messageHash S message) sig := by
  have hJ0 : J ≠ [] := by
    rintro rfl
    exact hN.checked.positive (Nat.le_zero.mp htJ)
  have hY : ∀ j ∈ J, Y' j = Y := by
    intro j hj
    obtain ⟨c, h1, _, _, _, _, _, h7⟩ := C157_reshared hS hs old Y (C157_life hS hs Y n old he).2 t hN h j _ _ _ _ (hi j hj)
    cases h1
    exact h7 hd
  obtain ⟨_, _, _, hk⟩ := net_keys hS hs (reshareOf_board hN) h t (reshareOf_deg hN) J hJ hJ0 htJ _ Y' sk log hi
  obtain ⟨j0, hj0⟩ := List.exists_mem_of_ne_nil J hJ0
  obtain ⟨key, p, c, sig, a1, a2, a3, a4, a5⟩ := net_signing hS hs (reshareOf_board hN) h t (reshareOf_deg hN) J hJ hJ0 hz htJ
    _ Y' sk log hi sp hsp message rng number pos hpos
  have hkey : key = Y := (a1 j0 hj0).symm.trans (hY j0 hj0)
  subst hkey
  refine ⟨hY, ?_, p, c, sig, a2, fun i hi' => ?_, a4, a5⟩
  · rw [← hY j0 hj0]; exact (hk j0 hj0).2.2.2
  · have := a3 i hi'
    rwa [hY i hi'] at this

/-! ### Executions exist -/

/-- Every resharing of C129, in particular the honest ones, is an execution: a state is reachable in which the signers in `H`
have finished with the dealers on file. -/
theorem C157_runs (hS : S.Lawful) (old : PublicEpoch G) (Y : G) (ho : old.Shares F Y) (r : AttackedRun F G R)
    (hr : CheckedRun S old r) (hH : r.H.Nodup) (hfit : ∀ p ∈ r.ps, p.Fits) :
    ∃ N : Spec.Group F G, Spec.ReshareOf S old r.next.t N ∧ N.board = r.ps ∧
      ∃ (w : Spec.Net F G) (sk : U32 → IndividualSigningKey F), Spec.Reached S r.dbg N w ∧
        ∀ i ∈ r.H, w.node i = .done (some r.comms) Y (sk i) [r.all i] := by
  have hN : Spec.ReshareOf S old r.next.t (⟨true, r.params, r.x, fun _ => [], r.ps⟩ : Spec.Group F G) :=
    ⟨rfl, hr.checked, hfit⟩
  obtain ⟨_, hk⟩ := C129_step hS old Y ho r hr
  choose! k hk _ using hk
  refine ⟨_, hN, rfl, _, fun i => ⟨i, k i⟩, reached_all (w := ⟨fun _ => .idle, fun _ => []⟩) .refl r.H hH
    (fun i => .done (some r.comms) Y ⟨i, k i⟩ [r.all i]) fun i hi => ?_, fun i hi => by simp [hi]⟩
  have m1 := Spec.Moves.start (S := S) (dbg := r.dbg) (N := ⟨true, r.params, r.x, fun _ => [], r.ps⟩) (i := i) (r.ord i) (r.r1 i)
    (hr.order i hi)
  have hb : Spec.Group.start ⟨true, r.params, r.x, fun _ => [], r.ps⟩ S r.dbg i (r.ord i) (r.r1 i) = .ok (r.d1 i, r.L i) :=
    hr.new i hi
  rw [hb] at m1
  have hv := startedAs_view hS.cipher hS.codec (reshareOf_board hN) ⟨r.ord i, r.r1 i, _, hr.order i hi, hb⟩
  have m2 := Spec.Moves.receive (S := S) (dbg := r.dbg) (N := ⟨true, r.params, r.x, fun _ => [], r.ps⟩) (i := i) (r.d1 i)
    (r.es i) (r.r2 i) (hr.receiver i hi)
    (fun comms hc k hk => by
      rw [hv.2.2.1] at hc
      cases hc
      obtain ⟨c, hc⟩ := BMap.exists_get? hk
      obtain ⟨p, hp, hg, hpk, _⟩ := boardDealers_get (reshareOf_board hN) hc
      obtain ⟨e, he, hes⟩ := hr.covered i hi p hp ((good_reshare rfl p).mp hg)
      exact ⟨e, he, hes.trans hpk⟩)
  rw [hr.round i hi] at m2
  have m3 := Spec.Moves.complaints (S := S) (dbg := r.dbg) (N := ⟨true, r.params, r.x, fun _ => [], r.ps⟩) (i := i) (r.d2 i)
    (r.cs i) [] (r.all i)
  have h0 : (r.cs i).filter (· ∉ r.all i) = [] :=
    List.filter_eq_nil_iff.mpr fun a ha => by simpa using hr.own i hi i hi a ha
  rw [hr.blamed i hi, h0] at m3
  have m4 := Spec.Moves.finish (S := S) (dbg := r.dbg) (N := ⟨true, r.params, r.x, fun _ => [], r.ps⟩) (i := i) (r.d3 i)
    [r.all i]
  rw [hk i hi, hr.onFile i hi] at m4
  exact (((Relation.ReflTransGen.single m1).tail m2).tail m3).tail m4

/-- C157 is not vacuous: for all numbers of resharings, all parameters and all random bytes, a group of `n` participants that
follow the protocol generates a key and reshares it among themselves that often; each time, all finish with the same key. -/
theorem C157_honest (hS : S.Lawful) (hs : S.ShortCiphertexts) (dbg : Bool) (params : Params) (idx : List U32)
    (hok : ReshareOk idx params params idx) (hr : ∀ i ∈ idx, i.toNat ≤ params.n.toNat) (rng : U32 → R) (n : Nat) :
    ∃ (Y : G) (e : PublicEpoch G), e.t = params.t.toNat ∧ Spec.Era S Y n e ∧
      ∃ N : Spec.Group F G, Spec.ReshareOf S e params.t.toNat N ∧
        ∃ (w : Spec.Net F G) (comms : BMap (VssCommitment G)) (sk : U32 → IndividualSigningKey F)
          (log : U32 → List (List (Complaint F G))), Spec.Reached S dbg N w ∧ e.t ≤ comms.keys.length ∧
          ∀ i ∈ idx, w.node i = .done (some comms) Y (sk i) (log i) := by
  have hne : idx ≠ [] := by
    intro h
    have h1 := hok.lenD
    have h2 := hok.tdn
    rw [h] at h1
    exact hok.td (UInt32.toNat_inj.mp (by simp at h1 ⊢; omega))
  obtain ⟨i0, hi0⟩ := List.exists_mem_of_ne_nil idx hne
  have step : ∀ (Y : G) (n : Nat) (e : PublicEpoch G), e.t = params.t.toNat → Spec.Era S Y n e →
      ∃ N : Spec.Group F G, Spec.ReshareOf S e params.t.toNat N ∧
        ∃ (w : Spec.Net F G) (comms : BMap (VssCommitment G)) (sk : U32 → IndividualSigningKey F)
          (log : U32 → List (List (Complaint F G))), Spec.Reached S dbg N w ∧ e.t ≤ comms.keys.length ∧
          ∀ i ∈ idx, w.node i = .done (some comms) Y (sk i) (log i) := by
    intro Y n e ht he
    have hsh := (C157_life hS hs Y n e he).2
    obtain ⟨r, k1, k2, k3, _, k5, rfl⟩ := C129_extend hS dbg e Y hsh idx params params ht idx hok hne hr rng rng rng rng
    obtain ⟨N, a1, _, w, sk, a2, a3⟩ := C157_runs hS e Y hsh r k1 (k2 ▸ hok.nodupD) (fun p hp c hc => by
      have h1 := k1.checked.degree p hp (k5 p hp) c hc
      have h2 := params.t.toNat_lt
      show c.points.length < 2 ^ 64
      omega)
    exact ⟨N, k3 ▸ a1, w, r.comms, sk, fun i => [r.all i], a2, k1.enough, fun i hi => a3 i (k2.symm ▸ hi)⟩
  have era : ∀ n, ∃ (Y : G) (e : PublicEpoch G), e.t = params.t.toNat ∧ Spec.Era S Y n e := by
    intro n
    induction n with
    | zero =>
      obtain ⟨N, h1, h2, h3, _, w, D, Y, sk, h4, h5⟩ := C155_honest hS dbg params hok.td hok.tdn idx hok.nodupD
        (fun i hi => ⟨fun h => hok.zeroD (h ▸ hi), hr i hi⟩) hok.lenD rng rng rng
      have h6 := h5 i0 hi0
      obtain ⟨comms, rfl, _⟩ := net_done hS hs h3 h4 N.params.t.toNat (fun p _ hg c hc => (hg.2 h1 c hc).le) h6
      exact ⟨Y, _, by rw [h2], .generated dbg N w i0 comms _ _ h1 h3 (h2 ▸ hok.td) h4 h6⟩
    | succ n ih =>
      obtain ⟨Y, e, h1, h2⟩ := ih
      obtain ⟨N, h3, w, comms, sk, log, h4, h5, h6⟩ := step Y n e h1 h2
      exact ⟨Y, _, rfl, .reshared n e h2 dbg _ N w i0 comms _ _ _ h3 h4 (h6 i0 hi0) h5⟩
  obtain ⟨Y, e, h1, h2⟩ := era n
  exact ⟨Y, e, h1, h2, step Y n e h1 h2⟩

end

/-! ### Example -/

section Example
open Toy

/-- Three participants with threshold two generate a key, reshare it five times and once more; then two of them hold keys that
still interpolate to the logarithm of the key that was generated. -/
example (dbg : Bool) : ∃ (Y : Fp) (e : PublicEpoch Fp) (N : Spec.Group Fp Fp) (w : Spec.Net Fp Fp)
    (D : Option (BMap (VssCommitment Fp))) (sk : U32 → IndividualSigningKey Fp) (log : U32 → List (List (Complaint Fp Fp))),
    Spec.Era suite Y 5 e ∧ Spec.ReshareOf suite e 2 N ∧ Spec.Reached suite dbg N w ∧
    (∀ i ∈ [1, 2, 3], w.node i = .done D Y (sk i) (log i)) ∧
    Spec.interpolate [3, 1] (fun j => (sk j).key) • suite.gen = Y := by
  obtain ⟨Y, e, h1, h2, N, h3, w, comms, sk, log, h4, h5, h6⟩ := C157_honest lawful short_ciphertexts dbg ⟨3, 2⟩ [1, 2, 3]
    ⟨by decide, by decide, by decide, by decide, rfl, rfl, by decide, by decide, by decide, by decide⟩ (by decide)
    (fun i => i.toNat) 5
  have h7 := C157_signing lawful short_ciphertexts Y 5 e h2 2 h3 h4 [3, 1] (by decide) (by decide) (by decide) comms h5
    (fun _ => Y) sk log (fun j hj => h6 j (by revert hj; simp; tauto)) ⟨3, 2⟩ (by decide) [1, 2] (fun _ => 4) (fun _ => 1)
    (fun _ => 0) (fun _ _ => by decide)
  exact ⟨Y, e, N, w, some comms, sk, log, h2, h3, h4, h6, h7.2.1⟩

end Example

end IceFrost
