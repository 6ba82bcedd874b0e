import Verif.Props.Distribution
import Verif.Props.SignatureTheory
import Verif.Props.SignEndToEnd

/-!
# C149: a signature does not tell who signed

The binding factors are taken from a table of independent uniform scalars, as a random oracle would answer in one session,
and the nonces are uniform. All other hash functions are arbitrary.
-/

set_option linter.unusedSectionVars false
set_option linter.unusedSimpArgs false
set_option linter.unusedVariables false

namespace IceFrost

open Finset PMF

variable {F G R : Type} [Field F] [DecidableEq F] [AddCommGroup G] [Module F G] [DecidableEq G]

namespace Spec

/-- The suite whose `h1` answers from a table: the entry of the index in the last four bytes of the input. -/
def withRho (S : Suite F G R) (table : U32 → F) : Suite F G R :=
  { S with fieldHash := fun tag m => if tag = S.contextString ++ strBytes "rho" then
      table (UInt32.ofNat (leNat (m.drop (m.length - 4)))) else S.fieldHash tag m }

/-- A nonce pair and its commitments. -/
def noncePair (S : Suite F G R) (d e : F) : CommitmentShare F G := ⟨⟨d, d • S.gen⟩, ⟨e, e • S.gen⟩⟩

/-- What `IndividualSigningKey::sign` returns, as a call to the aggregator. -/
def answer : Res F G (PartialSignature F) → Option (AggOp F G)
  | .ok p => some (.partialSig p)
  | .error _ => none

/-- A signing session as in the documentation: the signers `J` with nonces `d`, `e` are included, sign, and their partial
signatures are aggregated. -/
def signedBy (S : Suite F G R) (dbg : Bool) (params : Params) (message : Bytes) (J : List U32) (key : U32 → F) (Y : G)
    (d e : U32 → F) : Option (ThresholdSignature F G) :=
  let included := J.map fun i => (.signer i (noncePair S (d i) (e i)).publish (IndividualSigningKey.toPublic S ⟨i, key i⟩) :
    AggOp F G)
  let signers := (IceFrost.session params Y message included).state.signers
  let answers := J.filterMap fun i =>
    answer (sign S dbg ⟨i, key i⟩ (messageHash S message) Y [noncePair S (d i) (e i)] 0 signers).1
  match (IceFrost.session params Y message (included ++ answers)).finalize S with
  | .ok f => (f.aggregate S).toOption
  | .error _ => none

/-- The choices of a session: for every signer two nonces and the binding factor. -/
abbrev Coins (J : List U32) (F : Type) : Type := {i // i ∈ J} → F × F × F

/-- The choice for participant `i`. -/
def Coins.at {J : List U32} (w : Coins J F) (i : U32) : F × F × F := if h : i ∈ J then w ⟨i, h⟩ else 0

end Spec

theorem withRho_rho (S : Suite F G R) (table : U32 → F) (msg : Bytes) (signers : List (Signer G)) (i : U32) :
    Spec.rho (Spec.withRho S table) msg signers i = table i := by
  show (if S.contextString ++ strBytes "rho" = S.contextString ++ strBytes "rho" then
    table (UInt32.ofNat (leNat ((Spec.rhoInput S msg signers i).drop ((Spec.rhoInput S msg signers i).length - 4)))) else _) = _
  rw [if_pos rfl]
  unfold Spec.rhoInput
  have h4 : (u32le i).length = 4 := leBytes_length _ _
  rw [List.length_append, h4, Nat.add_sub_cancel, List.drop_left]
  congr 1
  unfold u32le
  rw [leNat_leBytes, Nat.mod_eq_of_lt (show i.toNat < 256 ^ 4 from i.toNat_lt)]
  exact UInt32.ofNat_toNat

theorem withRho_challenge (S : Suite F G R) (table : U32 → F) (P Y : G) (msg : Bytes) :
    Spec.challenge (Spec.withRho S table) P Y msg = Spec.challenge S P Y msg := by
  show (if S.contextString ++ strBytes "challenge" = S.contextString ++ strBytes "rho" then _ else _) = _
  rw [if_neg]
  · rfl
  · intro h
    exact absurd (List.append_cancel_left h) (by decide)

/-- The session returns the Schnorr signature with the sum of the nonces. -/
theorem signedBy_eq {S : Suite F G R} (hg : S.GroupLaws) (hu : Suite.U32Inj F) (dbg : Bool) (params : Params)
    (message : Bytes) (J : List U32) (hJ : J.Nodup) (h0 : 0 ∉ J) (hne : J ≠ []) (hn : J.length ≤ params.n.toNat)
    (key : U32 → F) (s : F) (hs : Spec.interpolate J key = s) (table d e : U32 → F) :
    Spec.signedBy (Spec.withRho S table) dbg params message J key (s • S.gen) d e =
      some (Spec.schnorrSign S s (J.map fun i => d i + table i * e i).sum (Spec.messageHash S message)) := by
  classical
  set S' := Spec.withRho S table with hS'
  have hg' : S'.GroupLaws := ⟨hg.gen_inj, hg.gen_surj⟩
  have hincl : ∀ l : List U32, Spec.inclusions (F := F) (l.map fun i =>
      .signer i (Spec.noncePair S' (d i) (e i)).publish (IndividualSigningKey.toPublic S' ⟨i, key i⟩)) =
        l.map fun i => (i, (Spec.noncePair S' (d i) (e i)).publish, key i • S'.gen) := by
    intro l
    induction l with
    | nil => rfl
    | cons i l ih =>
      rw [List.map_cons, List.map_cons, ← ih]
      simp [Spec.inclusions, IndividualSigningKey.toPublic]
  have hinc : ∀ x, x ∈ Spec.inclusions (F := F) (J.map fun i =>
      .signer i (Spec.noncePair S' (d i) (e i)).publish (IndividualSigningKey.toPublic S' ⟨i, key i⟩)) ↔
        ∃ i ∈ J, x = (i, (Spec.noncePair S' (d i) (e i)).publish, key i • S'.gen) := by
    intro x
    rw [hincl, List.mem_map]
    constructor
    · rintro ⟨i, hi, rfl⟩; exact ⟨i, hi, rfl⟩
    · rintro ⟨i, hi, rfl⟩; exact ⟨i, hi, rfl⟩
  obtain ⟨p, signers, hmem, hsorted, hp, hall⟩ := C83_is_schnorr hg' hu (fun _ => dbg) params message J hJ h0 hne hn key s hs
    (fun i => [Spec.noncePair S' (d i) (e i)]) (fun i _ => by show 1 < 2 ^ 63; norm_num) (fun _ => 0)
    (fun i => Spec.noncePair S' (d i) (e i)) (fun i _ => rfl) (fun i _ => ⟨rfl, rfl⟩) _ hinc
  have hmem' := session_signers (F := F) params (s • S.gen) message _ J (fun i => (Spec.noncePair S' (d i) (e i)).publish)
    (fun i => key i • S'.gen) hinc
  have hsorted' := (reached (F := F) params (s • S.gen) message (J.map fun i =>
      .signer i (Spec.noncePair S' (d i) (e i)).publish (IndividualSigningKey.toPublic S' ⟨i, key i⟩))).sorted
  have heq : (session (F := F) params (s • S.gen) message (J.map fun i =>
      .signer i (Spec.noncePair S' (d i) (e i)).publish (IndividualSigningKey.toPublic S' ⟨i, key i⟩))).state.signers =
        signers := by
    have hnd : ∀ l : List (Signer G), l.Pairwise (fun a b => a.participantIndex < b.participantIndex) → l.Nodup :=
      fun l h => h.imp fun {a b} hab e => by
        rw [e] at hab
        exact UInt32.lt_irrefl _ hab
    refine List.Perm.eq_of_pairwise (le := fun a b : Signer G => a.participantIndex < b.participantIndex) ?_ hsorted' hsorted
      ((List.perm_ext_iff_of_nodup (hnd _ hsorted') (hnd _ hsorted)).mpr fun x => (hmem' x).trans (hmem x).symm)
    intro a b _ _ h1 h2
    exact absurd h1 (UInt32.lt_asymm h2)
  have hidx : ∀ i ∈ J, (p i).index = i := by
    intro i hi
    have := hp i hi
    unfold sign at this
    split at this
    · cases this
    · simp only [Except.ok.injEq] at this
      rw [← this]
  unfold Spec.signedBy
  simp only
  rw [heq]
  have hans : (J.filterMap fun i => Spec.answer (sign S' dbg ⟨i, key i⟩ (Spec.messageHash S' message) (s • S.gen)
      [Spec.noncePair S' (d i) (e i)] 0 signers).1) = J.map fun i => (.partialSig (p i) : AggOp F G) := by
    rw [← List.filterMap_eq_map]
    refine List.filterMap_congr fun i hi => ?_
    have h1 := hp i hi
    rw [show S'.gen = S.gen from rfl] at h1
    rw [h1]
    rfl
  rw [hans]
  have hpi : Spec.inclusions (J.map fun i => (.partialSig (p i) : AggOp F G)) = [] := by
    simp [Spec.inclusions, List.filterMap_map]
  have hps : Spec.partials (J.map fun i => (.signer i (Spec.noncePair S' (d i) (e i)).publish
      (IndividualSigningKey.toPublic S' ⟨i, key i⟩) : AggOp F G)) = [] := by
    simp [Spec.partials, List.filterMap_map]
  have hpp : ∀ l : List U32, Spec.partials (l.map fun i => (.partialSig (p i) : AggOp F G)) =
      l.map fun i => ((p i).index, (p i).z) := by
    intro l
    induction l with
    | nil => rfl
    | cons i l ih =>
      rw [List.map_cons, List.map_cons, ← ih]
      rfl
  obtain ⟨f, hf, hagg⟩ := hall (J.map fun i => .partialSig (p i)) (by rw [hpi]; simp) (fun i hi => by
    rw [partials_append, hps, hpp, List.nil_append]
    refine lastOf_unique (List.mem_map.mpr ⟨i, hi, by rw [hidx i hi]⟩) fun v hv => ?_
    obtain ⟨j, hj, he⟩ := List.mem_map.mp hv
    simp only [Prod.mk.injEq] at he
    rw [hidx j hj] at he
    rw [← he.2, he.1])
  rw [show s • S.gen = s • S'.gen from rfl, hf]
  simp only
  rw [hagg]
  show some _ = some _
  congr 1
  have hsum : (J.map fun i => (Spec.noncePair S' (d i) (e i)).hidingC.secret +
      Spec.rho S' (Spec.messageHash S' message) signers i * (Spec.noncePair S' (d i) (e i)).bindingC.secret) =
      J.map fun i => d i + table i * e i := by
    refine List.map_congr_left fun i _ => ?_
    rw [withRho_rho]
    rfl
  rw [hsum]
  unfold Spec.schnorrSign
  rw [withRho_challenge]
  rfl

/-- The sum of the nonces is uniform. -/
theorem nonceSum_uniform [Fintype F] (J : List U32) (hJ : J.Nodup) (hne : J ≠ []) :
    (uniformOfFintype (Spec.Coins J F)).map (fun w => (J.map fun i => (w.at i).1 + (w.at i).2.2 * (w.at i).2.1).sum) =
      uniformOfFintype F := by
  classical
  obtain ⟨j, hj⟩ := List.exists_mem_of_ne_nil J hne
  have hsum : ∀ w : Spec.Coins J F, (J.map fun i => (w.at i).1 + (w.at i).2.2 * (w.at i).2.1).sum =
      ∑ i : {i // i ∈ J}, ((w i).1 + (w i).2.2 * (w i).2.1) := by
    intro w
    rw [← List.sum_toFinset _ hJ, ← Finset.sum_coe_sort]
    refine Fintype.sum_equiv (Equiv.subtypeEquivRight fun i => List.mem_toFinset) _ _ fun i => ?_
    have hi : (i : U32) ∈ J := List.mem_toFinset.mp i.2
    have : w.at i = w ⟨i, hi⟩ := dif_pos hi
    rw [this]
    rfl
  simp only [hsum]
  let bump : F → Spec.Coins J F := fun b => Pi.single ⟨j, hj⟩ (b, 0, 0)
  have hshift : ∀ (w : Spec.Coins J F) (b : F),
      ∑ i : {i // i ∈ J}, (((w + bump b : Spec.Coins J F) i).1 +
        ((w + bump b : Spec.Coins J F) i).2.2 * ((w + bump b : Spec.Coins J F) i).2.1) =
      ∑ i : {i // i ∈ J}, ((w i).1 + (w i).2.2 * (w i).2.1) + b := by
    intro w b
    have : ∀ i : {i // i ∈ J}, (((w + bump b : Spec.Coins J F) i).1 +
        ((w + bump b : Spec.Coins J F) i).2.2 *
          ((w + bump b : Spec.Coins J F) i).2.1) =
        ((w i).1 + (w i).2.2 * (w i).2.1) + if i = ⟨j, hj⟩ then b else 0 := by
      intro i
      rw [Pi.add_apply]
      by_cases h : i = ⟨j, hj⟩
      · rw [if_pos h, h, show bump b ⟨j, hj⟩ = (b, 0, 0) from Pi.single_eq_same _ _]
        simp
        ring
      · rw [if_neg h, show bump b i = 0 from Pi.single_eq_of_ne h _]
        simp
    rw [Finset.sum_congr rfl fun i _ => this i, Finset.sum_add_distrib, Finset.sum_ite_eq' univ, if_pos (mem_univ _)]
  refine uniform_map_balanced _ (univ.filter fun w : Spec.Coins J F =>
    ∑ i : {i // i ∈ J}, ((w i).1 + (w i).2.2 * (w i).2.1) = 0).card fun b => ?_
  refine Finset.card_bij (fun w _ => w + bump (-b)) (fun w hw => ?_) (fun w _ w' _ h => add_right_cancel h)
    fun w hw => ?_
  · rw [mem_filter] at hw ⊢
    exact ⟨mem_univ _, by rw [hshift, hw.2, add_neg_cancel]⟩
  · rw [mem_filter] at hw
    refine ⟨w + bump b, mem_filter.mpr ⟨mem_univ _, by rw [hshift, hw.2, zero_add]⟩, ?_⟩
    rw [add_assoc, show bump b + bump (-b) = 0 by rw [← Pi.single_add]; simp, add_zero]

/-- C149: whoever signs, the signature has the distribution of a signature of a single Schnorr signer with the group secret
and a uniform nonce. -/
theorem C149_distribution [Fintype F] {S : Suite F G R} (hg : S.GroupLaws) (hu : Suite.U32Inj F) (dbg : Bool)
    (params : Params) (message : Bytes) (J : List U32) (hJ : J.Nodup) (h0 : 0 ∉ J) (hne : J ≠ [])
    (hn : J.length ≤ params.n.toNat) (key : U32 → F) (s : F) (hs : Spec.interpolate J key = s) :
    (uniformOfFintype (Spec.Coins J F)).map (fun w => Spec.signedBy (Spec.withRho S fun i => (w.at i).2.2) dbg params message
      J key (s • S.gen) (fun i => (w.at i).1) fun i => (w.at i).2.1) =
    (uniformOfFintype F).map fun r => some (Spec.schnorrSign S s r (Spec.messageHash S message)) := by
  rw [← nonceSum_uniform (F := F) J hJ hne, PMF.map_comp]
  refine congrArg (fun f => PMF.map f (uniformOfFintype (Spec.Coins J F))) ?_
  funext w
  exact signedBy_eq hg hu dbg params message J hJ h0 hne hn key s hs _ _ _

/-- C149: two groups of signers with keys for the same group secret, whatever their sizes, thresholds and sharings, make
signatures with the same distribution. In particular the signature does not tell which members of a group signed, nor
whether they signed before or after a resharing. -/
theorem C149_signers_hidden [Fintype F] {S : Suite F G R} (hg : S.GroupLaws) (hu : Suite.U32Inj F) (dbg dbg' : Bool)
    (params params' : Params) (message : Bytes) (J J' : List U32) (hJ : J.Nodup) (hJ' : J'.Nodup) (h0 : 0 ∉ J)
    (h0' : 0 ∉ J') (hne : J ≠ []) (hne' : J' ≠ []) (hn : J.length ≤ params.n.toNat) (hn' : J'.length ≤ params'.n.toNat)
    (key key' : U32 → F) (hs : Spec.interpolate J key = Spec.interpolate J' key') :
    (uniformOfFintype (Spec.Coins J F)).map (fun w => Spec.signedBy (Spec.withRho S fun i => (w.at i).2.2) dbg params message
      J key (Spec.interpolate J key • S.gen) (fun i => (w.at i).1) fun i => (w.at i).2.1) =
    (uniformOfFintype (Spec.Coins J' F)).map (fun w => Spec.signedBy (Spec.withRho S fun i => (w.at i).2.2) dbg' params'
      message J' key' (Spec.interpolate J' key' • S.gen) (fun i => (w.at i).1) fun i => (w.at i).2.1) := by
  rw [C149_distribution hg hu dbg params message J hJ h0 hne hn key _ rfl,
    C149_distribution hg hu dbg' params' message J' hJ' h0' hne' hn' key' _ rfl, hs]

/-! ### Instances -/

section Examples
open Toy

/-- The secret 5 shared with a line and with a parabola; 1 and 3 sign in the one group, 2, 4 and 7 in the other. -/
theorem Toy.two_sharings : Spec.interpolate [(1 : U32), 3] (fun i => Spec.polyEval [(5 : Fp), 2] (u32F Fp i)) =
    Spec.interpolate [2, 4, 7] fun i => Spec.polyEval [(5 : Fp), 9, 4] (u32F Fp i) := by
  rw [interpolate_polyEval u32_inj (by decide) _ (by decide), interpolate_polyEval u32_inj (by decide) _ (by decide)]
  rfl

example [Fintype Fp] := C149_signers_hidden group_laws u32_inj true false ⟨3, 2⟩ ⟨9, 3⟩ (strBytes "hello") [1, 3] [2, 4, 7]
  (by decide) (by decide) (by decide) (by decide) (by decide) (by decide) (by decide) (by decide) _ _ Toy.two_sharings

example [Fintype Fp] := C149_distribution group_laws u32_inj true ⟨3, 2⟩ (strBytes "hello") [1, 3] (by decide) (by decide)
  (by decide) (by decide) (fun i => Spec.polyEval [(5 : Fp), 2] (u32F Fp i)) _ rfl

end Examples

end IceFrost
