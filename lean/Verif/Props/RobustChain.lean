import Verif.Props.ReshareSign

/-! # C129: any number of checked resharings keep the group key, whatever the dealers do -/

set_option linter.unusedSectionVars false
set_option linter.unusedSimpArgs false
set_option linter.unusedVariables false

namespace IceFrost

open Finset

variable {F G R : Type} [Field F] [DecidableEq F] [AddCommGroup G] [Module F G] [DecidableEq G]

attribute [local instance low] Classical.propDecidable

/-- What the public knows of a set of signing keys: the threshold and the verifying share of every index. -/
structure PublicEpoch (G : Type) where
  t : Nat
  pk : U32 → G

/-- Any `t` verifying shares determine the group key `Y`. -/
def PublicEpoch.Shares (F : Type) [Field F] [DecidableEq F] [Module F G] (e : PublicEpoch G) (Y : G) : Prop :=
  ∀ J : List U32, J.Nodup → e.t ≤ J.length → Spec.interpolateG F J e.pk = Y

/-- The data of one resharing as seen by the new signers `H` that follow the protocol: the records `ps`, each signer's
private key `x`, order `ord` of the records, random streams, received shares `es`, own complaints `cs`, processed
complaints `all`, states after each call, remaining commitments, and the epoch it leads to. -/
structure AttackedRun (F G R : Type) where
  dbg : Bool
  params : Params
  ps : List (Participant F G)
  H : List U32
  x : U32 → F
  ord : U32 → List (Participant F G)
  r1 : U32 → R
  r2 : U32 → R
  d1 : U32 → RoundOne F G
  L : U32 → ParticipantList F G
  es : U32 → List EncShare
  d2 : U32 → RoundTwo F G
  cs : U32 → List (Complaint F G)
  all : U32 → List (Complaint F G)
  d3 : U32 → RoundTwo F G
  keys : U32 → List G
  comms : BMap (VssCommitment G)
  next : PublicEpoch G

/-- What a caller has to check of the public records of a resharing, because `new` does not: distinct indices in
`1..n'`, labels, at most `t` points, and constants that are the old verifying shares. -/
structure Spec.RecordsChecked (S : Suite F G R) (old : PublicEpoch G) (t : Nat) (ps : List (Participant F G)) : Prop where
  distinct : (ps.map (·.index)).Nodup
  range : ∀ p ∈ ps, Spec.DealerValid S p →
    p.index ≠ 0 ∧ p.index.toNat ≤ (ps.filter (Spec.DealerValid S)).length
  label : ∀ p ∈ ps, Spec.DealerValid S p → ∀ c, p.commitments = some c → c.index = p.index
  degree : ∀ p ∈ ps, Spec.DealerValid S p → ∀ c, p.commitments = some c → c.points.length ≤ t
  constant : ∀ p ∈ ps, Spec.DealerValid S p → ∀ c, p.commitments = some c → c.points.head? = some (old.pk p.index)
  positive : t ≠ 0

/-- One resharing from the epoch `old`. The signers in `H` call `new`, `to_round_two` and `blame`; the records, shares and
complaints of everybody else are arbitrary, subject to `Spec.RecordsChecked`. A share labelled for the signer came from
every accepted dealer, the signers in `H` process the same complaints including their own, and at least `old.t` dealers
remain. The verifying shares of the next epoch are what `generateFromCommitments` derives. -/
structure CheckedRun (S : Suite F G R) (old : PublicEpoch G) (r : AttackedRun F G R) : Prop where
  some : r.H ≠ []
  checked : Spec.RecordsChecked S old r.next.t r.ps
  order : ∀ i ∈ r.H, (r.ord i).Perm r.ps
  new : ∀ i ∈ r.H, dkgNew S r.dbg r.params (r.x i) i (r.ord i) (r.r1 i) = .ok (r.d1 i, r.L i)
  receiver : ∀ i ∈ r.H, ∀ e ∈ r.es i, e.receiverIndex = i
  covered : ∀ i ∈ r.H, ∀ p ∈ r.ps, Spec.DealerValid S p → ∃ e ∈ r.es i, e.senderIndex = p.index
  round : ∀ i ∈ r.H, (r.d1 i).toRoundTwo S r.dbg (r.es i) (r.r2 i) = .ok (r.d2 i, r.cs i)
  own : ∀ i ∈ r.H, ∀ j ∈ r.H, ∀ c ∈ r.cs j, c ∈ r.all i
  same : ∀ i ∈ r.H, ∀ j ∈ r.H, ∀ c, c ∈ r.all i ↔ c ∈ r.all j
  blamed : ∀ i ∈ r.H, (r.d2 i).blame S (r.all i) = .ok (r.d3 i, r.keys i)
  onFile : ∀ i ∈ r.H, (r.d3 i).state.theirCommitments = Option.some r.comms
  enough : old.t ≤ r.comms.keys.length
  derived : ∀ j, (generateFromCommitments j (r.comms.map (·.2)) : Out F G _) = .ok ⟨j, r.next.pk j⟩

/-- A chain of resharings, each starting from the epoch the one before led to. -/
inductive AttackedChain (S : Suite F G R) : PublicEpoch G → List (AttackedRun F G R) → Prop
  | nil (e : PublicEpoch G) : AttackedChain S e []
  | cons {e : PublicEpoch G} {r : AttackedRun F G R} {rs : List (AttackedRun F G R)} :
      CheckedRun S e r → AttackedChain S r.next rs → AttackedChain S e (r :: rs)

/-- The epoch a chain leads to. -/
def AttackedChain.last (e : PublicEpoch G) (rs : List (AttackedRun F G R)) : PublicEpoch G := (rs.getLast?.map (·.next)).getD e

/-- C129, one step: the next epoch shares the same group key, every signer in `H` finishes with it, and the signing keys
match the verifying shares of the next epoch. -/
theorem C129_step {S : Suite F G R} (hS : S.Lawful) (e : PublicEpoch G) (Y : G) (he : e.Shares F Y) (r : AttackedRun F G R)
    (hr : CheckedRun S e r) :
    r.next.Shares F Y ∧ ∀ i ∈ r.H, ∃ k, (r.d3 i).finish = .ok (Y, ⟨i, k⟩) ∧ k • S.gen = r.next.pk i := by
  obtain ⟨comms', s', keys, key, d3, w1, w2, w3, w4, w5⟩ := robust_records hS.group hS.u32 r.dbg (Spec.DealerValid S)
    (fun p hp => hp) r.ps hr.checked.distinct hr.checked.range r.next.t hr.checked.positive hr.checked.degree r.H r.ord
    hr.order r.d1
    (by
      intro i hi
      obtain ⟨k1, _, k3, _, k5, k6, k7, _⟩ := C20_new_classifies r.dbg r.params _ _ _ _ _ _ (hr.new i hi)
      rw [k1] at k3 k5 k6
      exact ⟨k3, k5, k6, k7⟩) r.es r.r2 hr.receiver hr.covered r.d2 r.cs hr.round r.all hr.own hr.same
  have hd3 : ∀ i ∈ r.H, r.d3 i = d3 i := by
    intro i hi
    have := (w4 i hi).1
    rw [hr.blamed i hi] at this
    exact (Prod.mk.inj (Except.ok.inj this)).1
  obtain ⟨i0, hi0⟩ := List.exists_mem_of_ne_nil r.H hr.some
  have hcomms : r.comms = comms' := by
    have := hr.onFile i0 hi0
    rw [hd3 i0 hi0, (w4 i0 hi0).2.1] at this
    exact (Option.some.inj this).symm
  have h0 : 0 ∉ comms'.keys := by
    intro h
    obtain ⟨c, hc⟩ := BMap.exists_get? h
    obtain ⟨p, hp, hg, h0, _⟩ := w2 0 c hc
    exact (hr.checked.range p hp hg).1 h0
  have hpk : ∀ j, r.next.pk j = Spec.publicKeyOf F comms' j := by
    intro j
    have h1 := derive_publicKeyOf hS.u32 comms' w1 h0 (by
      intro k c hc
      obtain ⟨p, hp, hg, rfl, hcm⟩ := w2 k c hc
      exact hr.checked.label p hp hg c hcm) j
    have h2 := hr.derived j
    rw [hcomms, h1] at h2
    exact (congrArg (·.share) (Except.ok.inj h2)).symm
  have hs : s' • S.gen = Y := by
    rw [w3, ← he comms'.keys w1.nodup (hcomms ▸ hr.enough)]
    unfold Spec.interpolateG
    refine sum_congr rfl fun l hl => ?_
    obtain ⟨c, hc⟩ := BMap.exists_get? (List.mem_toFinset.mp hl)
    obtain ⟨p, hp, hv, rfl, hcm⟩ := w2 l c hc
    have := hr.checked.constant p hp hv c hcm
    beta_reduce
    rw [hc]
    simp only [Option.map_some, Option.getD_some]
    rw [List.headD_eq_head?_getD, this, Option.getD_some]
  refine ⟨?_, fun i hi => ⟨key i, ?_, ?_⟩⟩
  · intro J hJ hlen
    rw [← hs, w3, ← publicKeyOf_interpolates hS.group hS.u32 comms' r.next.t (by
      intro k c hc
      obtain ⟨p, hp, hg, _, hcm⟩ := w2 k c hc
      exact hr.checked.degree p hp hg c hcm) J hJ hlen]
    unfold Spec.interpolateG
    exact sum_congr rfl fun l _ => by rw [hpk]
  · rw [hd3 i hi, (w4 i hi).2.2.1, hs]
  · rw [(w4 i hi).2.2.2, hpk]
    rfl

/-- C129: through any number of resharings whose records are checked, in each of which the dealers that misbehave send
arbitrary shares and complaints, the group key stays the one of the first epoch: it is shared by every later epoch, and
every signer that follows the protocol in any of the resharings finishes with it and with a signing key matching the
verifying shares of its epoch. -/
theorem C129_chain {S : Suite F G R} (hS : S.Lawful) (e : PublicEpoch G) (Y : G) (he : e.Shares F Y)
    (rs : List (AttackedRun F G R)) (hrs : AttackedChain S e rs) :
    (AttackedChain.last e rs).Shares F Y ∧ ∀ r ∈ rs, r.next.Shares F Y ∧
      ∀ i ∈ r.H, ∃ k, (r.d3 i).finish = .ok (Y, ⟨i, k⟩) ∧ k • S.gen = r.next.pk i := by
  have main : ∀ r ∈ rs, r.next.Shares F Y ∧
      ∀ i ∈ r.H, ∃ k, (r.d3 i).finish = .ok (Y, ⟨i, k⟩) ∧ k • S.gen = r.next.pk i := by
    induction hrs with
    | nil e => simp
    | cons hr _ ih =>
      have := C129_step hS _ Y he _ hr
      intro r' hr'
      rcases List.mem_cons.mp hr' with rfl | h
      · exact this
      · exact ih this.1 r' h
  refine ⟨?_, main⟩
  unfold AttackedChain.last
  cases h : rs.getLast? with
  | none => exact he
  | some r => exact (main r (List.mem_of_getLast? h)).1

/-- C129, then signing: after any of the resharings of the chain, every series of attempts to sign with signers of which
the threshold of that epoch are in `H` ends with a signature valid under the first epoch's group key. -/
theorem C129_chain_then_sign {S : Suite F G R} (hS : S.Lawful) (e : PublicEpoch G) (Y : G) (he : e.Shares F Y)
    (rs : List (AttackedRun F G R)) (hrs : AttackedChain S e rs) (r : AttackedRun F G R) (hr : r ∈ rs) (key : U32 → F)
    (hkey : ∀ i ∈ r.H, ∃ gk, (r.d3 i).finish = .ok (gk, ⟨i, key i⟩)) (ps : Params) (message : Bytes)
    (J : Nat → List U32) (out : Nat → Res F G (ThresholdSignature F G)) (hJ : (J 0).Nodup) (h0 : 0 ∉ J 0)
    (hn : (J 0).length ≤ ps.n.toNat) (hJt : r.next.t ≤ ((J 0).filter (· ∈ r.H.toFinset)).length)
    (hrun : RetryRun S ps Y message r.H.toFinset key r.next.pk J out) :
    ∃ k ≤ ((J 0).filter (· ∉ r.H.toFinset)).length, (∃ sig, out k = .ok sig ∧
      Spec.SigValid S Y (Spec.messageHash S message) sig) ∧
      ∀ j ≤ k, (J 0).filter (· ∈ r.H.toFinset) ⊆ J j := by
  obtain ⟨h1, h2⟩ := (C129_chain hS e Y he rs hrs).2 r hr
  have ht : r.next.t ≠ 0 := by
    have : ∀ e rs, AttackedChain S e rs → r ∈ rs → r.next.t ≠ 0 := by
      intro e rs h
      induction h with
      | nil e => intro h; cases h
      | cons hc _ ih =>
        intro h
        rcases List.mem_cons.mp h with rfl | h
        · exact hc.checked.positive
        · exact ih h
    exact this e rs hrs hr
  refine C92_retry_succeeds hS.u32 S ps Y message r.H.toFinset key r.next.pk (fun i hi => ?_) r.next.t
    (Nat.pos_of_ne_zero ht) J hJ h0 hn hJt (fun J' hJ' _ hlen => h1 J' hJ' hlen) out hrun.attempts hrun.next
  obtain ⟨k, hk, hk'⟩ := h2 i (List.mem_toFinset.mp hi)
  obtain ⟨gk, hg⟩ := hkey i (List.mem_toFinset.mp hi)
  rw [hk] at hg
  have := (Prod.mk.inj (Except.ok.inj hg)).2
  rw [← hk']
  exact congrArg (fun k : IndividualSigningKey F => k.key • S.gen) this

/-- C129, the first epoch: the key generation of C80 with checked labels leads to an epoch that shares its group key. -/
theorem C129_start {S : Suite F G R} (hS : S.Lawful) (dbg : Bool) (params : Params)
    (ps : List (Participant F G)) (hidx : (ps.map (·.index)).Nodup)
    (hrange : ∀ p ∈ ps, GoodDealer S params.t p →
      p.index ≠ 0 ∧ p.index.toNat ≤ (ps.filter (GoodDealer S params.t)).length)
    (hlab : ∀ p ∈ ps, GoodDealer S params.t p → ∀ c, p.commitments = some c → c.index = p.index)
    (H : List U32) (hH : H ≠ []) (x : U32 → F) (coeffs : U32 → List F) (ord : U32 → List (Participant F G))
    (r1 r2 : U32 → R) (hord : ∀ i ∈ H, (ord i).Perm ps) (d1 : U32 → RoundOne F G) (L : U32 → ParticipantList F G)
    (hboot : ∀ i ∈ H, bootstrap S dbg params (x i) i (coeffs i) (ord i) (r1 i) = .ok (d1 i, L i))
    (es : U32 → List EncShare) (hlabel : ∀ i ∈ H, ∀ e ∈ es i, e.receiverIndex = i)
    (hall : ∀ i ∈ H, ∀ p ∈ ps, GoodDealer S params.t p → ∃ e ∈ es i, e.senderIndex = p.index)
    (d2 : U32 → RoundTwo F G) (cs : U32 → List (Complaint F G))
    (hr2 : ∀ i ∈ H, (d1 i).toRoundTwo S dbg (es i) (r2 i) = .ok (d2 i, cs i))
    (all : U32 → List (Complaint F G)) (hsub : ∀ i ∈ H, ∀ j ∈ H, ∀ c ∈ cs j, c ∈ all i)
    (hsame : ∀ i ∈ H, ∀ j ∈ H, ∀ c, c ∈ all i ↔ c ∈ all j) :
    ∃ (comms : BMap (VssCommitment G)) (Y : G) (e : PublicEpoch G), e.t = params.t.toNat ∧ e.Shares F Y ∧
      (∀ j, (generateFromCommitments j (comms.map (·.2)) : Out F G _) = .ok ⟨j, e.pk j⟩) ∧
      ∀ i ∈ H, ∃ d3 keys k, (d2 i).blame S (all i) = .ok (d3, keys) ∧ d3.state.theirCommitments = some comms ∧
        d3.finish = .ok (Y, ⟨i, k⟩) ∧ k • S.gen = e.pk i := by
  obtain ⟨comms', s, keys, key, d3, w1, w2, w3, w4, _⟩ := C80_robust_dkg hS dbg params ps hidx hrange H hH x coeffs ord
    r1 r2 hord d1 L hboot es hlabel hall d2 cs hr2 all hsub hsame
  refine ⟨comms', s • S.gen, ⟨params.t.toNat, Spec.publicKeyOf F comms'⟩, rfl, ?_, fun j => ?_, fun i hi =>
    ⟨d3 i, keys, key i, (w4 i hi).1, (w4 i hi).2.1, (w4 i hi).2.2.1, (w4 i hi).2.2.2⟩⟩
  · intro J hJ hlen
    rw [w3]
    refine publicKeyOf_interpolates hS.group hS.u32 comms' params.t.toNat ?_ J hJ hlen
    intro k c hc
    obtain ⟨p, _, hg, _, hcm⟩ := w2 k c hc
    exact (hg.2 c hcm).le
  · refine derive_publicKeyOf hS.u32 comms' w1 ?_ ?_ j
    · intro h
      obtain ⟨c, hc⟩ := BMap.exists_get? h
      obtain ⟨p, hp, hg, h0, _⟩ := w2 0 c hc
      exact (hrange p hp hg).1 h0
    · intro k c hc
      obtain ⟨p, hp, hg, rfl, hcm⟩ := w2 k c hc
      exact hlab p hp hg c hcm

/-- C129, liveness of a step: if at least `pd.t` of the dealers of the epoch `e` reshare their keys honestly and the
others publish records that pass the checks (and deal arbitrary shares), the new signers `H` always get a `CheckedRun`
by processing exactly their own complaints, and no honest dealer is removed. -/
theorem C129_step_exists {S : Suite F G R} (hS : S.Lawful) (dbg : Bool) (e : PublicEpoch G) (Y : G)
    (he : e.Shares F Y) (D : List U32) (pd pn : Params) (hpd : e.t = pd.t.toNat)
    (I : List U32) (hok : ReshareOk D pd pn I) (hrange : ∀ l ∈ D, l.toNat ≤ pd.n.toNat)
    (oldKey : U32 → F) (hkey : ∀ l ∈ D, oldKey l • S.gen = e.pk l)
    (HD : List U32) (hHD : HD.Nodup) (hHDi : HD ⊆ D) (htHD : pd.t.toNat ≤ HD.length)
    (H : List U32) (hH : H ≠ []) (hHI : H ⊆ I) (r1 r2 r3 r4 : U32 → R)
    (Q : U32 → Participant F G) (y : U32 → F) (hQ : ∀ i ∈ H, newSigner S pn i (r1 i) = .ok (Q i, y i))
    (hQI : ∀ i ∈ I, (Q i).index = i)
    (P : U32 → Participant F G) (m : U32 → BMap EncShare) (L : U32 → ParticipantList F G) (ordI : U32 → List U32)
    (hoI : ∀ l ∈ HD, (ordI l).Perm I)
    (hP : ∀ l ∈ HD, reshare S dbg pn ⟨l, oldKey l⟩ ((ordI l).map Q) (r2 l) = .ok (P l, m l, L l))
    (hPD : ∀ l ∈ D, (P l).index = l ∧ Spec.DealerValid S (P l) ∧ ∀ c, (P l).commitments = some c →
      c.index = l ∧ c.points.length ≤ pn.t.toNat ∧ c.points.head? = some (e.pk l))
    (E : U32 → U32 → EncShare) (hE : ∀ l ∈ D, ∀ i ∈ H, (E l i).senderIndex = l ∧ (E l i).receiverIndex = i)
    (hEH : ∀ l ∈ HD, ∀ i ∈ H, (m l).get? i = some (E l i))
    (ord ord' : U32 → List U32) (ho : ∀ i ∈ H, (ord i).Perm D) (ho' : ∀ i ∈ H, (ord' i).Perm D) :
    ∃ r : AttackedRun F G R, CheckedRun S e r ∧ r.H = H ∧ r.ps = D.map P ∧ r.next.t = pn.t.toNat ∧
      HD ⊆ r.comms.keys ∧ (∀ i ∈ H, r.x i = y i ∧ r.es i = (ord' i).map fun l => E l i) ∧ r.dbg = dbg := by
  have hne : D ≠ [] := by
    intro h
    have h1 := hok.lenD
    have h2 := hok.tdn
    rw [h] at h1
    exact hok.td (UInt32.toNat_inj.mp (by simp at h1 ⊢; omega))
  obtain ⟨s, hs⟩ := hS.group.gen_surj Y
  have hold : ∀ J : List U32, J.Nodup → J ⊆ D → pd.t.toNat ≤ J.length → Spec.interpolate J oldKey = s := by
    intro J hJ hJD hlen
    apply hS.group.gen_inj
    rw [← hs, ← he J hJ (by rw [hpd]; exact hlen)]
    unfold Spec.interpolateG Spec.interpolate
    rw [sum_smul]
    exact sum_congr rfl fun l hl => by rw [mul_smul, hkey l (hJD (List.mem_toFinset.mp hl))]
  obtain ⟨d1, d2, cs, h1, h2⟩ := C121_honest_dealers_suffice hS dbg D pd pn I hok hrange oldKey s hold HD hHD hHDi htHD
    H hHI r1 r2 r3 r4 Q y hQ hQI P m L ordI hoI hP
    (fun l hl => ⟨(hPD l hl).1, (hPD l hl).2.1, fun c hc => ⟨((hPD l hl).2.2 c hc).1, ((hPD l hl).2.2 c hc).2.1, by
      rw [hkey l hl]; exact ((hPD l hl).2.2 c hc).2.2⟩⟩) E hE hEH ord ord' ho ho'
  obtain ⟨comms', keys, key, pk, d3, w1, w2⟩ := h2 (fun _ => H.flatMap cs) (by
    intro i _ c
    simp)
  obtain ⟨i0, hi0⟩ := List.exists_mem_of_ne_nil H hH
  have hfil : (D.map P).filter (Spec.DealerValid S) = D.map P := by
    refine List.filter_eq_self.mpr fun p hp => ?_
    obtain ⟨l, hl, rfl⟩ := List.mem_map.mp hp
    simpa using (hPD l hl).2.1
  refine ⟨{ dbg := dbg, params := pd, ps := D.map P, H := H, x := y, ord := fun i => (ord i).map P, r1 := r3, r2 := r4
            d1 := d1, L := fun i => ⟨(ord i).map P, none⟩, es := fun i => (ord' i).map fun l => E l i, d2 := d2, cs := cs
            all := fun _ => H.flatMap cs, d3 := d3, keys := fun _ => keys, comms := comms'
            next := ⟨pn.t.toNat, pk⟩ }, ?_, rfl, rfl, rfl, (w1 i0 hi0).2.2.1, fun i hi => ⟨rfl, rfl⟩, rfl⟩
  constructor
  · exact hH
  · constructor
    · show ((D.map P).map (·.index)).Nodup
      rw [List.map_map]
      have : (fun p : Participant F G => p.index) ∘ P = fun l => (P l).index := rfl
      rw [this, List.map_congr_left (g := id) fun k hk => (hPD k hk).1, List.map_id]
      exact hok.nodupD
    · intro p hp _
      obtain ⟨l, hl, rfl⟩ := List.mem_map.mp hp
      rw [hfil, (hPD l hl).1, List.length_map, hok.lenD]
      exact ⟨fun h => hok.zeroD (h ▸ hl), hrange l hl⟩
    · intro p hp _ c hc
      obtain ⟨l, hl, rfl⟩ := List.mem_map.mp hp
      rw [(hPD l hl).1]
      exact ((hPD l hl).2.2 c hc).1
    · intro p hp _ c hc
      obtain ⟨l, hl, rfl⟩ := List.mem_map.mp hp
      exact ((hPD l hl).2.2 c hc).2.1
    · intro p hp _ c hc
      obtain ⟨l, hl, rfl⟩ := List.mem_map.mp hp
      rw [(hPD l hl).1]
      exact ((hPD l hl).2.2 c hc).2.2
    · exact fun h => hok.tn (UInt32.toNat_inj.mp (by simpa using h))
  · exact fun i hi => (ho i hi).map P
  · exact fun i hi => (h1 i hi).1
  · intro i hi e' he'
    obtain ⟨l, hl, rfl⟩ := List.mem_map.mp he'
    exact (hE l ((ho' i hi).mem_iff.mp hl) i hi).2
  · intro i hi p hp _
    obtain ⟨l, hl, rfl⟩ := List.mem_map.mp hp
    exact ⟨E l i, List.mem_map.mpr ⟨l, (ho' i hi).mem_iff.mpr hl, rfl⟩, by rw [(hPD l hl).1]; exact (hE l hl i hi).1⟩
  · exact fun i hi => (h1 i hi).2.1
  · exact fun i hi j hj c hc => List.mem_flatMap.mpr ⟨j, hj, hc⟩
  · exact fun i hi j hj c => Iff.rfl
  · exact fun i hi => (w1 i hi).1
  · exact fun i hi => (w1 i hi).2.1
  · show e.t ≤ comms'.keys.length
    rw [hpd]
    exact htHD.trans ((hHD.subperm (w1 i0 hi0).2.2.1).length_le)
  · exact (w1 i0 hi0).2.2.2.2.2

/-- C129, liveness of a chain: if every signer of the last step followed the protocol, an honest resharing of that epoch
to any new set is again a `CheckedRun`. Chains of any length therefore exist. -/
theorem C129_extend {S : Suite F G R} (hS : S.Lawful) (dbg : Bool) (e : PublicEpoch G) (Y : G) (he : e.Shares F Y)
    (D : List U32) (pd pn : Params) (hpd : e.t = pd.t.toNat) (I : List U32) (hok : ReshareOk D pd pn I)
    (hI : I ≠ []) (hrange : ∀ l ∈ D, l.toNat ≤ pd.n.toNat) (r1 r2 r3 r4 : U32 → R) :
    ∃ r : AttackedRun F G R, CheckedRun S e r ∧ r.H = I ∧ r.next.t = pn.t.toNat ∧ D ⊆ r.comms.keys ∧
      (∀ p ∈ r.ps, Spec.DealerValid S p) ∧ r.dbg = dbg := by
  have := fun l => hS.group.gen_surj (e.pk l)
  choose oldKey hold using this
  obtain ⟨Q, y, hQ, P, m, hP, E, hE, _⟩ := C49_reshare_succeeds hS dbg D oldKey pd pn I hok r1 r2 r3 r4
    (fun _ => I) (fun _ => D) (fun _ => D) (fun _ _ => List.Perm.refl _)
    (fun _ _ => ⟨List.Perm.refl _, List.Perm.refl _⟩)
  have hQI : ∀ i ∈ I, (Q i).index = i := by
    intro i hi
    obtain ⟨p, dh, rng', h, h1, _⟩ := newInternal_signer S pn i (fun h => hok.zeroI (h ▸ hi)) none (r1 i)
    have := hQ i hi
    unfold newSigner at this
    rw [h] at this
    simp only [Except.ok.injEq, Prod.mk.injEq] at this
    obtain ⟨rfl, rfl⟩ := this
    exact h1
  have hf := fun l hl => reshare_facts hS.cipher hS.codec dbg hQI (hP l hl)
  obtain ⟨r, k1, k2, k3, k4, k5, _, k6⟩ := C129_step_exists hS dbg e Y he D pd pn hpd I hok hrange oldKey (fun l _ => (hold l).symm)
    D hok.nodupD (List.Subset.refl _) (by rw [hok.lenD]; exact hok.tdn) I hI (List.Subset.refl _) r1 r2 r3 r4 Q y hQ hQI
    P m (fun _ => ⟨I.map Q, none⟩) (fun _ => I) (fun _ _ => List.Perm.refl _) hP
    (by
      intro l hl
      obtain ⟨cs, x, k1, k2, k3, k4, k5, k6, _⟩ := hf l hl
      refine ⟨k1, k6, fun c hc => ?_⟩
      rw [k4] at hc
      cases hc
      refine ⟨rfl, ?_, ?_⟩
      · rw [commitPoints_length]; exact k2.le
      · cases cs with
        | nil => cases k3
        | cons a as => cases k3; rw [hold l]; rfl) E
    (by
      intro l hl i hi
      obtain ⟨_, _, _, _, _, _, _, _, h⟩ := hf l hl
      obtain ⟨e, he, h1, h2, _⟩ := h i hi
      rw [hE l hl i hi] at he
      cases he
      exact ⟨h1, h2⟩) hE (fun _ => D) (fun _ => D) (fun _ _ => List.Perm.refl _) (fun _ _ => List.Perm.refl _)
  refine ⟨r, k1, k2, k4, k5, fun p hp => ?_, k6⟩
  rw [k3] at hp
  obtain ⟨l, hl, rfl⟩ := List.mem_map.mp hp
  obtain ⟨_, _, _, _, _, _, _, h, _⟩ := hf l hl
  exact h

/-- C129, chains of any length exist from any epoch that shares a key: a committee `D` can reshare to itself any number
of times. -/
theorem C129_chains_exist {S : Suite F G R} (hS : S.Lawful) (dbg : Bool) (D : List U32) (p : Params) (hD : D ≠ [])
    (hok : ReshareOk D p p D) (hrange : ∀ l ∈ D, l.toNat ≤ p.n.toNat) (rng : U32 → R) (n : Nat) (e : PublicEpoch G)
    (Y : G) (ht : e.t = p.t.toNat) (he : e.Shares F Y) :
    ∃ rs : List (AttackedRun F G R), rs.length = n ∧ AttackedChain S e rs ∧ ∀ r ∈ rs, r.H = D ∧ r.next.t = p.t.toNat := by
  induction n generalizing e with
  | zero => exact ⟨[], rfl, .nil e, by simp⟩
  | succ n ih =>
    obtain ⟨r, k1, k2, k3, _⟩ := C129_extend hS dbg e Y he D p p ht D hok hD hrange rng rng rng rng
    obtain ⟨rs, h1, h2, h3⟩ := ih r.next k3 (C129_step hS e Y he r k1).1
    refine ⟨r :: rs, by rw [List.length_cons, h1], .cons k1 h2, fun r' hr' => ?_⟩
    rcases List.mem_cons.mp hr' with rfl | h
    · exact ⟨k2, k3⟩
    · exact h3 r' h

section Examples
open Toy

/-- The epoch of the keys `5 + 2 i` with threshold 2. -/
def firstEpoch : PublicEpoch Fp := ⟨2, fun i => Spec.polyEval [(5 : Fp), 2] (u32F Fp i) • suite.gen⟩

theorem firstEpoch_shares : firstEpoch.Shares Fp ((5 : Fp) • suite.gen) := by
  intro J hJ hlen
  have := interpolate_polyEval u32_inj hJ ([5, 2] : List Fp) hlen
  have h2 : Spec.interpolateG Fp J firstEpoch.pk =
      (Spec.interpolate J fun i => Spec.polyEval [(5 : Fp), 2] (u32F Fp i)) • suite.gen := by
    unfold Spec.interpolateG Spec.interpolate firstEpoch
    rw [sum_smul]
    exact sum_congr rfl fun l _ => by rw [mul_smul]
  rw [h2]
  refine congrArg (· • suite.gen) (this.trans ?_)
  simp [Spec.polyEval, Finset.sum_range_succ]

/-- C129 with a dealer that attacks: dealers 1, 2, 3 of `firstEpoch` reshare to signers 1, 2; dealer 3 deals empty
ciphertexts. Afterwards 1 and 2 reshare among themselves seven times. In every resharing both finish with the same group
key. -/
example : ∃ (r : AttackedRun Fp Fp _) (rs : List (AttackedRun Fp Fp _)), rs.length = 7 ∧
    AttackedChain suite firstEpoch (r :: rs) ∧ (∀ i ∈ [(1 : U32), 2], ⟨3, i, [], []⟩ ∈ r.es i) ∧
    ∀ r' ∈ r :: rs, ∀ i ∈ [(1 : U32), 2], ∃ k, (r'.d3 i).finish = .ok ((5 : Fp) • suite.gen, ⟨i, k⟩) ∧
      k • suite.gen = r'.next.pk i := by
  let oldKey : U32 → Fp := fun i => Spec.polyEval [5, 2] (u32F Fp i)
  have hok : ReshareOk [1, 2, 3] ⟨3, 2⟩ ⟨2, 2⟩ [1, 2] :=
    { nodupD := by simp, zeroD := by simp, nodupI := by simp, zeroI := by simp, lenD := rfl, lenI := rfl
      td := by simp, tdn := by show (2 : U32).toNat ≤ (3 : U32).toNat; simp, tn := by simp, tnn := le_rfl }
  have hok2 : ReshareOk [1, 2] ⟨2, 2⟩ ⟨2, 2⟩ [1, 2] :=
    { nodupD := by simp, zeroD := by simp, nodupI := by simp, zeroI := by simp, lenD := rfl, lenI := rfl
      td := by simp, tdn := le_rfl, tn := by simp, tnn := le_rfl }
  obtain ⟨Q, y, hQ, P, m, hP, E, hE, _⟩ := C49_reshare_succeeds lawful true [1, 2, 3] oldKey ⟨3, 2⟩ ⟨2, 2⟩ [1, 2] hok
    (fun _ => 0) (fun _ => 0) (fun _ => 0) (fun _ => 0) (fun _ => [1, 2]) (fun _ => [1, 2, 3]) (fun _ => [1, 2, 3])
    (fun _ _ => List.Perm.refl _) (fun _ _ => ⟨List.Perm.refl _, List.Perm.refl _⟩)
  have hQI : ∀ i ∈ [(1 : U32), 2], (Q i).index = i := by
    intro i hi
    obtain ⟨p, dh, rng', h, h1, _⟩ := newInternal_signer suite ⟨2, 2⟩ i (by rintro rfl; simp at hi) none 0
    have := hQ i hi
    unfold newSigner at this
    rw [h] at this
    simp only [Except.ok.injEq, Prod.mk.injEq] at this
    obtain ⟨rfl, rfl⟩ := this
    exact h1
  have hf := fun l hl => reshare_facts cipher_laws codec_laws true hQI (hP l hl)
  have hEl : ∀ l ∈ [(1 : U32), 2, 3], ∀ i ∈ [(1 : U32), 2], (E l i).senderIndex = l ∧ (E l i).receiverIndex = i := by
    intro l hl i hi
    obtain ⟨_, _, _, _, _, _, _, _, h⟩ := hf l hl
    obtain ⟨e, he, h1, h2, _⟩ := h i hi
    rw [hE l hl i hi] at he
    cases he
    exact ⟨h1, h2⟩
  obtain ⟨r, k1, k2, _, k4, _, k6⟩ := C129_step_exists lawful true firstEpoch _ firstEpoch_shares [1, 2, 3] ⟨3, 2⟩ ⟨2, 2⟩
    rfl [1, 2] hok
    (by
      intro l hl
      simp only [List.mem_cons, List.not_mem_nil, or_false] at hl
      rcases hl with rfl | rfl | rfl <;> simp) oldKey (fun _ _ => rfl)
    [1, 2] (by simp) (by simp) le_rfl [1, 2] (by simp) (by simp) (fun _ => 0) (fun _ => 0) (fun _ => 0) (fun _ => 0) Q y
    hQ hQI P m (fun _ => ⟨[1, 2].map Q, none⟩) (fun _ => [1, 2]) (fun _ _ => List.Perm.refl _)
    (fun l hl => hP l (by simp at hl ⊢; tauto))
    (by
      intro l hl
      obtain ⟨cs, x, k1, k2, k3, k4, k5, k6, _⟩ := hf l hl
      refine ⟨k1, k6, fun c hc => ?_⟩
      rw [k4] at hc
      cases hc
      refine ⟨rfl, ?_, ?_⟩
      · rw [commitPoints_length]; exact k2.le
      · cases cs with
        | nil => cases k3
        | cons a as => cases k3; rfl)
    (fun l i => if l = 3 then ⟨3, i, [], []⟩ else E l i)
    (by
      intro l hl i hi
      by_cases h : l = 3
      · subst h; simp
      · simp only [h, if_false]
        exact hEl l hl i hi)
    (by
      intro l hl i hi
      have : l ≠ 3 := by rintro rfl; simp at hl
      simp only [this, if_false]
      exact hE l (by simp at hl ⊢; tauto) i hi)
    (fun _ => [1, 2, 3]) (fun _ => [1, 2, 3]) (fun _ _ => List.Perm.refl _) (fun _ _ => List.Perm.refl _)
  obtain ⟨rs, h1, h2, h3⟩ := C129_chains_exist lawful true [1, 2] ⟨2, 2⟩ (by simp) hok2
    (by
      intro l hl
      simp only [List.mem_cons, List.not_mem_nil, or_false] at hl
      rcases hl with rfl | rfl <;> simp) (fun _ => 0) 7 r.next _ k4
    (C129_step lawful firstEpoch _ firstEpoch_shares r k1).1
  refine ⟨r, rs, h1, .cons k1 h2, fun i hi => ?_, fun r' hr' i hi => ?_⟩
  · rw [(k6.1 i hi).2]
    simp
  · refine ((C129_chain lawful firstEpoch _ firstEpoch_shares _ (.cons k1 h2)).2 r' hr').2 i ?_
    rcases List.mem_cons.mp hr' with rfl | h
    · rw [k2]; exact hi
    · rw [(h3 r' h).1]; exact hi

/-- C129, then signing after the third of three resharings. -/
example : ∃ (rs : List (AttackedRun Fp Fp _)) (r : AttackedRun Fp Fp _)
    (out : Nat → Res Fp Fp (ThresholdSignature Fp Fp)) (k : Nat) (sig : ThresholdSignature Fp Fp),
    AttackedChain suite firstEpoch rs ∧ rs.length = 3 ∧ rs[2]? = some r ∧ k ≤ 1 ∧ out k = .ok sig ∧
      Spec.SigValid suite ((5 : Fp) • suite.gen) (Spec.messageHash suite (strBytes "hello")) sig := by
  have hok : ReshareOk [1, 2] ⟨2, 2⟩ ⟨2, 2⟩ [1, 2] :=
    { nodupD := by simp, zeroD := by simp, nodupI := by simp, zeroI := by simp, lenD := rfl, lenI := rfl
      td := by simp, tdn := le_rfl, tn := by simp, tnn := le_rfl }
  obtain ⟨rs, h1, h2, h3⟩ := C129_chains_exist lawful true [1, 2] ⟨2, 2⟩ (by simp) hok
    (by
      intro l hl
      simp only [List.mem_cons, List.not_mem_nil, or_false] at hl
      rcases hl with rfl | rfl <;> simp) (fun _ => 0) 3 firstEpoch _ rfl firstEpoch_shares
  have hr : rs[2]? = some (rs[2]'(by omega)) := List.getElem?_eq_getElem _
  set r := rs[2]'(by omega) with hr'
  have hm : r ∈ rs := List.getElem_mem _
  have hk := ((C129_chain lawful firstEpoch _ firstEpoch_shares rs h2).2 r hm).2
  choose! key hkey _ using hk
  obtain ⟨J, out, hJ0, hrun⟩ := retryRun_exists u32_inj suite ⟨3, 2⟩ ((5 : Fp) • suite.gen) (strBytes "hello")
    r.H.toFinset key r.next.pk [1, 2, 3] (by simp) (by simp) SigningExamples.share (fun _ _ => ⟨rfl, rfl⟩)
  obtain ⟨k, hk, ⟨sig, hs, hv⟩, _⟩ := C129_chain_then_sign lawful firstEpoch _ firstEpoch_shares rs h2 r hm key
    (fun i hi => ⟨_, hkey i hi⟩) ⟨3, 2⟩ (strBytes "hello") J out (by rw [hJ0]; simp) (by rw [hJ0]; simp)
    (by rw [hJ0]; exact Nat.le_refl 3) (by rw [hJ0, (h3 r hm).1, (h3 r hm).2]; decide) hrun
  refine ⟨rs, r, out, k, sig, h2, h1, hr, ?_, hs, hv⟩
  rw [hJ0, (h3 r hm).1] at hk
  exact hk.trans (by decide)

end Examples

end IceFrost
