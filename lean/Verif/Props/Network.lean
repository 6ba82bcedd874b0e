import Verif.Props.Attacks
import Verif.Props.Restore
import Verif.Props.Robust
import Verif.Props.SignEndToEnd
import Mathlib.Logic.Relation

/-! # C155: key generation on an arbitrary network

The participants that follow the protocol run concurrently. Who makes the next step, which shares and complaints arrive, in
which order, how often and from whom, when states are saved and which saved state is read back, is arbitrary.
-/

set_option linter.unusedSectionVars false
set_option linter.unusedSimpArgs false
set_option linter.unusedVariables false

namespace IceFrost

open Finset

attribute [local instance] Classical.propDecidable

variable {F G R : Type} [Field F] [DecidableEq F] [AddCommGroup G] [Module F G] [DecidableEq G]

/-- What is fixed before the execution: whether the session is a resharing, parameters, the secrets of the participants, and
the records on the broadcast channel. -/
structure Spec.Group (F G : Type) where
  reshare : Bool
  params : Params
  dhKey : U32 → F
  coeffs : U32 → List F
  board : List (Participant F G)

/-- How a session starts: `DistributedKeyGeneration::bootstrap` in a key generation, `new` in a resharing. -/
def Spec.Group.start (N : Spec.Group F G) (S : Suite F G R) (dbg : Bool) (i : U32) (order : List (Participant F G)) (rng : R) :
    Res F G (RoundOne F G × ParticipantList F G) :=
  if N.reshare then dkgNew S dbg N.params (N.dhKey i) i order rng
  else bootstrap S dbg N.params (N.dhKey i) i (N.coeffs i) order rng

/-- The records that are accepted: valid proofs and, in a key generation, as many commitments as the threshold. -/
def Spec.Group.good (N : Spec.Group F G) (S : Suite F G R) (p : Participant F G) : Prop :=
  Spec.DealerValid S p ∧ (N.reshare = false → Spec.DegreeOk N.params.t p)

/-- Where a participant is. In round two it remembers which of its own complaints it has not processed yet; `log` are the
complaint lists processed so far. -/
inductive Spec.Node (F G : Type) where
  | idle
  | one (d : RoundOne F G)
  | two (d : RoundTwo F G) (todo : List (Complaint F G)) (log : List (List (Complaint F G)))
  | done (dealers : Option (BMap (VssCommitment G))) (key : G) (sk : IndividualSigningKey F) (log : List (List (Complaint F G)))
  | stopped (f : Fail F G)

/-- The node after a call: a failure ends the session, as the methods consume the state. -/
def Spec.Node.after {α : Type} (r : Res F G α) (f : α → Spec.Node F G) : Spec.Node F G :=
  match r with
  | .ok a => f a
  | .error e => .stopped e

/-- The steps of participant `i`. All inputs are arbitrary, except that everybody sees the same board; that `i` waits until
it has a share, labelled for it, of every dealer on file; and that it finishes only after processing its own complaints. -/
inductive Spec.Moves (S : Suite F G R) (dbg : Bool) (N : Spec.Group F G) (i : U32) : Spec.Node F G → Spec.Node F G → Prop
  | start (order : List (Participant F G)) (rng : R) (h : order.Perm N.board) :
      Spec.Moves S dbg N i .idle
        (.after (N.start S dbg i order rng) fun p => .one p.1)
  | receive (d : RoundOne F G) (es : List EncShare) (rng : R) (hl : ∀ e ∈ es, e.receiverIndex = i)
      (hs : ∀ comms, d.state.theirCommitments = some comms → ∀ k ∈ comms.keys, ∃ e ∈ es, e.senderIndex = k) :
      Spec.Moves S dbg N i (.one d) (.after (d.toRoundTwo S dbg es rng) fun p => .two p.1 p.2 [])
  | complaints (d : RoundTwo F G) (todo log) (cs : List (Complaint F G)) :
      Spec.Moves S dbg N i (.two d todo log)
        (.after (d.blame S cs) fun p => .two p.1 (todo.filter (· ∉ cs)) (log ++ [cs]))
  | finish (d : RoundTwo F G) (log) :
      Spec.Moves S dbg N i (.two d [] log)
        (.after d.finish fun p => .done d.state.theirCommitments p.1 p.2 log)

/-- The participants and their disks. -/
structure Spec.Net (F G : Type) where
  node : U32 → Spec.Node F G
  disk : U32 → List (Spec.Node F G)

/-- One step of the network. A saved state goes through its encoding before it is used again; it may be an old one, and it
may be read back several times. -/
inductive Spec.Happens (S : Suite F G R) (dbg : Bool) (N : Spec.Group F G) : Spec.Net F G → Spec.Net F G → Prop
  | move (w : Spec.Net F G) (i : U32) (n : Spec.Node F G) (h : Spec.Moves S dbg N i (w.node i) n) :
      Spec.Happens S dbg N w { w with node := Function.update w.node i n }
  | save (w : Spec.Net F G) (i : U32) :
      Spec.Happens S dbg N w { w with disk := Function.update w.disk i (w.node i :: w.disk i) }
  | loadOne (w : Spec.Net F G) (i : U32) (d : RoundOne F G) (h : .one d ∈ w.disk i) :
      Spec.Happens S dbg N w { w with node := Function.update w.node i (.after (Spec.crashOne S true d) .one) }
  | loadTwo (w : Spec.Net F G) (i : U32) (d : RoundTwo F G) (todo log) (h : .two d todo log ∈ w.disk i) :
      Spec.Happens S dbg N w
        { w with node := Function.update w.node i (.after (Spec.crashTwo S true d) fun d => .two d todo log) }

/-- The states of the network that some execution reaches. -/
def Spec.Reached (S : Suite F G R) (dbg : Bool) (N : Spec.Group F G) (w : Spec.Net F G) : Prop :=
  Relation.ReflTransGen (Spec.Happens S dbg N) ⟨fun _ => .idle, fun _ => []⟩ w

/-- The records on the board: distinct indices, those of the accepted dealers between 1 and their number (see C43 and C90). -/
structure Spec.BoardOk (S : Suite F G R) (N : Spec.Group F G) : Prop where
  nodup : (N.board.map (·.index)).Nodup
  range : ∀ p ∈ N.board, N.good S p →
    p.index ≠ 0 ∧ p.index.toNat ≤ (N.board.filter (N.good S)).length
  fits : ∀ p ∈ N.board, p.Fits

/-! ### What holds of every node -/

/-- `d` is the result of starting as `i`. -/
def StartedAs (S : Suite F G R) (dbg : Bool) (N : Spec.Group F G) (i : U32) (d : RoundOne F G) : Prop :=
  ∃ order rng L, order.Perm N.board ∧ N.start S dbg i order rng = .ok (d, L)

/-- Several `blame` calls. -/
inductive Blamed (S : Suite F G R) (d : RoundTwo F G) : List (List (Complaint F G)) → RoundTwo F G → Prop
  | nil : Blamed S d [] d
  | snoc (log e cs e' keys) (h : Blamed S d log e) (hb : e.blame S cs = .ok (e', keys)) : Blamed S d (log ++ [cs]) e'

/-- Round two of participant `i` after the complaint lists `log`. -/
def InTwo (S : Suite F G R) (dbg : Bool) (N : Spec.Group F G) (i : U32) (d : RoundTwo F G) (todo : List (Complaint F G))
    (log : List (List (Complaint F G))) : Prop :=
  ∃ d1 es rng d2 cs, StartedAs S dbg N i d1 ∧ (∀ e ∈ es, e.receiverIndex = i) ∧
    (∀ comms, d1.state.theirCommitments = some comms → ∀ k ∈ comms.keys, ∃ e ∈ es, e.senderIndex = k) ∧
    d1.toRoundTwo S dbg es rng = .ok (d2, cs) ∧ Blamed S d2 log d ∧
    todo = log.foldl (fun l cs' => l.filter (· ∉ cs')) cs

def NodeOk (S : Suite F G R) (dbg : Bool) (N : Spec.Group F G) (i : U32) : Spec.Node F G → Prop
  | .idle => True
  | .one d => StartedAs S dbg N i d
  | .two d todo log => InTwo S dbg N i d todo log
  | .done dealers key sk log => ∃ d, InTwo S dbg N i d [] log ∧ d.finish = .ok (key, sk) ∧ dealers = d.state.theirCommitments
  | .stopped f => (∃ order rng, order.Perm N.board ∧
      N.start S dbg i order rng = .error f) ∨
    ∃ d es rng, StartedAs S dbg N i d ∧ (∀ e ∈ es, e.receiverIndex = i) ∧ d.toRoundTwo S dbg es rng = .error f

theorem blamed_fits {S : Suite F G R} {d e : RoundTwo F G} {log : List (List (Complaint F G))} (h : Blamed S d log e)
    (hd : d.state.Fits S) : e.state.Fits S := by
  induction h with
  | nil => exact hd
  | snoc log e cs e' keys _ hb ih => exact blame_fits e e' ih cs keys hb

theorem blamed_reach {S : Suite F G R} {dbg : Bool} {ps : List (Participant F G)} {es : List EncShare}
    {d e : RoundTwo F G} {log : List (List (Complaint F G))} (h : Blamed S d log e) (hd : ReachTwo S dbg ps es d) :
    ReachTwo S dbg ps es e := by
  induction h with
  | nil => exact hd
  | snoc log e cs e' keys _ hb ih => exact .blame _ _ _ _ _ _ ih hb

section
variable {S : Suite F G R} {dbg : Bool} {N : Spec.Group F G} {i : U32}

theorem startedAs_fits (hs : S.ShortCiphertexts) (hN : Spec.BoardOk S N) {d : RoundOne F G} (h : StartedAs S dbg N i d) :
    d.state.Fits S := by
  obtain ⟨order, rng, L, hp, hb⟩ := h
  refine (C77_states_fit hs dbg N.params (N.dhKey i) i (N.coeffs i) order (fun p hp' => hN.fits p (hp.mem_iff.mp hp')) rng d L
    ?_).1
  unfold Spec.Group.start at hb
  split at hb
  · exact .inr hb
  · exact .inl hb

theorem inTwo_fits (hs : S.ShortCiphertexts) (hN : Spec.BoardOk S N) {d : RoundTwo F G} {todo : List (Complaint F G)}
    {log : List (List (Complaint F G))} (h : InTwo S dbg N i d todo log) : d.state.Fits S := by
  obtain ⟨d1, es, rng, d2, cs, h1, _, _, h4, h5, _⟩ := h
  exact blamed_fits h5 (toRoundTwo_fits dbg d1 (startedAs_fits hs hN h1) es rng d2 cs h4)

theorem start_reach {order : List (Participant F G)} {rng : R} {d : RoundOne F G} {L : ParticipantList F G}
    (h : N.start S dbg i order rng = .ok (d, L)) : ReachOne S dbg order d := by
  unfold Spec.Group.start at h
  split at h
  · exact .new _ _ _ _ _ _ _ h
  · exact .bootstrap _ _ _ _ _ _ _ _ h

theorem start_classifies (hc : S.CipherLaws) (hd : S.CodecLaws) {order : List (Participant F G)} {rng : R}
    {d : RoundOne F G} {L : ParticipantList F G} (h : N.start S dbg i order rng = .ok (d, L)) :
    L.valid = order.filter (N.good S) ∧ d.state.parameters.n.toNat = L.valid.length ∧ d.state.parameters.t = N.params.t ∧
    d.state.theirCommitments = some (BMap.ofList (L.valid.filterMap fun p => p.commitments.map fun c => (p.index, c)))
    ∧ d.state.theirDhPublicKeys = BMap.ofList (L.valid.map fun p => (p.index, p.dhPublicKey)) ∧ d.state.index = i := by
  unfold Spec.Group.start at h
  cases hr : N.reshare with
  | true =>
    rw [hr, if_pos rfl] at h
    obtain ⟨a1, _, a3, a4, a5, a6, a7, _⟩ := C20_new_classifies dbg _ _ _ _ _ d L h
    refine ⟨?_, a3, a4, a5, a6, a7⟩
    rw [a1]
    refine List.filter_congr fun p _ => ?_
    simp [Spec.Group.good, hr]
  | false =>
    rw [hr, if_neg (by simp)] at h
    obtain ⟨a1, _, a3, a4, a5, a6, a7, _⟩ := C20_bootstrap_classifies hc hd dbg _ _ _ _ _ _ d L h
    refine ⟨?_, a3, a4, a5, a6, a7⟩
    rw [a1]
    refine List.filter_congr fun p _ => ?_
    rw [decide_eq_decide]
    simp [Spec.Group.good, GoodDealer, hr]

theorem inTwo_reach {d : RoundTwo F G} {todo : List (Complaint F G)} {log : List (List (Complaint F G))}
    (h : InTwo S dbg N i d todo log) : ∃ order es, order.Perm N.board ∧ ReachTwo S dbg order es d := by
  obtain ⟨d1, es, rng, d2, cs, ⟨order, r, L, hp, hb⟩, _, _, h4, h5, _⟩ := h
  exact ⟨order, es, hp, blamed_reach h5 (.round _ _ _ _ _ _ (start_reach hb) h4)⟩

/-- What a session started on the board sees, whatever the order: the same parameters, commitments and DH keys. -/
theorem startedAs_view (hc : S.CipherLaws) (hd : S.CodecLaws) (hN : Spec.BoardOk S N) {d : RoundOne F G}
    (h : StartedAs S dbg N i d) :
    let good := N.board.filter (N.good S)
    d.state.parameters.n.toNat = good.length ∧ d.state.parameters.t = N.params.t ∧
    d.state.theirCommitments = some (BMap.ofList (good.filterMap fun p => p.commitments.map fun c => (p.index, c))) ∧
    d.state.theirDhPublicKeys = BMap.ofList (good.map fun p => (p.index, p.dhPublicKey)) ∧ d.state.index = i := by
  intro good
  obtain ⟨order, rng, L, hp, hb⟩ := h
  obtain ⟨a1, a3, a4, a5, a6, a7⟩ := start_classifies hc hd hb
  rw [a1] at a3 a5 a6
  have hv : (order.filter (N.good S)).Perm good := hp.filter _
  have hn : (good.map (·.index)).Nodup := hN.nodup.sublist (List.filter_sublist.map _)
  have hn1 : ((good.filterMap fun p => p.commitments.map fun c => (p.index, c)).map Prod.fst).Nodup := by
    refine hn.sublist ?_
    clear_value good
    clear hn hv
    induction good with
    | nil => exact List.Sublist.slnil
    | cons p l ih =>
      rw [List.filterMap_cons]
      cases p.commitments with
      | none => exact List.Sublist.cons _ ih
      | some c => exact List.Sublist.cons_cons _ ih
  refine ⟨by rw [a3, hv.length_eq], a4, ?_, ?_, a7⟩
  · rw [a5]
    congr 1
    exact BMap.ofList_congr (((hv.filterMap _).map Prod.fst).nodup_iff.mpr hn1) (hv.filterMap _)
  · rw [a6]
    refine BMap.ofList_congr (((hv.map _).map Prod.fst).nodup_iff.mpr ?_) (hv.map _)
    rw [List.map_map]
    exact hn

/-- The accepted dealers. -/
noncomputable def boardDealers (S : Suite F G R) (N : Spec.Group F G) : BMap (VssCommitment G) :=
  BMap.ofList ((N.board.filter (N.good S)).filterMap fun p => p.commitments.map fun c => (p.index, c))

theorem boardDealers_get (hN : Spec.BoardOk S N) {k : U32} {c : VssCommitment G}
    (h : (boardDealers S N).get? k = some c) :
    ∃ p ∈ N.board, N.good S p ∧ p.index = k ∧ p.commitments = some c := by
  have := BMap.mem_of_get?_ofList h
  obtain ⟨p, hp, he⟩ := List.mem_filterMap.mp this
  obtain ⟨hp1, hp2⟩ := List.mem_filter.mp hp
  cases hcm : p.commitments with
  | none => rw [hcm] at he; cases he
  | some c' =>
    rw [hcm] at he
    cases he
    exact ⟨p, hp1, by simpa using hp2, rfl, hcm⟩

theorem boardDealers_ok (hN : Spec.BoardOk S N) : DealersOk (boardDealers S N) ∧
    ∀ k ∈ (boardDealers S N).keys, k.toNat ≤ (N.board.filter (N.good S)).length := by
  refine ⟨⟨BMap.wf_ofList _, fun h => ?_, fun k c h => ?_⟩, fun k h => ?_⟩
  · obtain ⟨c, hc⟩ := BMap.exists_get? h
    obtain ⟨p, hp, hg, hi, _⟩ := boardDealers_get hN hc
    exact (hN.range p hp hg).1 hi
  · obtain ⟨p, hp, hg, hi, hcm⟩ := boardDealers_get hN h
    obtain ⟨_, c', _, _, hcm', hne, _⟩ := hg.1
    rw [hcm] at hcm'
    cases hcm'
    intro h0
    rw [h0] at hne
    cases hne
  · obtain ⟨c, hc⟩ := BMap.exists_get? h
    obtain ⟨p, hp, hg, hi, _⟩ := boardDealers_get hN hc
    rw [← hi]
    exact (hN.range p hp hg).2

theorem boardDealers_keys (hN : Spec.BoardOk S N) {k : U32} {pk : G}
    (h : (BMap.ofList ((N.board.filter (N.good S)).map fun p => (p.index, p.dhPublicKey))).get? k = some pk) :
    k ∈ (boardDealers S N).keys := by
  obtain ⟨p, hp, he⟩ := List.mem_map.mp (BMap.mem_of_get?_ofList h)
  have hg : N.good S p := by simpa using (List.mem_filter.mp hp).2
  obtain ⟨_, c, _, _, hcm, _⟩ := hg.1
  cases he
  unfold boardDealers
  rw [BMap.mem_keys_ofList]
  exact List.mem_map.mpr ⟨(p.index, c), List.mem_filterMap.mpr ⟨p, hp, by rw [hcm]; rfl⟩, rfl⟩

/-- What holds in round two: the dealers on file are some of the accepted ones, and each that no unprocessed complaint of
the holder names has dealt it a share that agrees with the dealer's commitments. -/
structure Pending (S : Suite F G R) (dbg : Bool) (N : Spec.Group F G) (i : U32) (d : RoundTwo F G)
    (todo : List (Complaint F G)) (comms : BMap (VssCommitment G)) (m : BMap (SecretShare F)) : Prop where
  holds : Holds d comms m
  index : d.state.index = i
  n : d.state.parameters.n.toNat = (N.board.filter (N.good S)).length
  dhs : d.state.theirDhPublicKeys =
    BMap.ofList ((N.board.filter (N.good S)).map fun p => (p.index, p.dhPublicKey))
  dealers : ∀ k c, comms.get? k = some c → (boardDealers S N).get? k = some c
  shares : ∀ k ∈ m.keys, k ∈ comms.keys
  upheld : ∀ c ∈ todo, c.encShare.senderIndex ∈ comms.keys → Upheld S d.state comms c
  dealt : ∀ k c, comms.get? k = some c → (∀ a ∈ todo, a.encShare.senderIndex ≠ k) →
    ∃ s, m.get? k = some s ∧ s.eval • S.gen = Spec.pointEval c.points (i.toNat : F)

theorem pending_start (hc : S.CipherLaws) (hd : S.CodecLaws) (hN : Spec.BoardOk S N) {d1 : RoundOne F G} (h1 : StartedAs S dbg N i d1)
    {es : List EncShare} (hl : ∀ e ∈ es, e.receiverIndex = i)
    (hs : ∀ comms, d1.state.theirCommitments = some comms → ∀ k ∈ comms.keys, ∃ e ∈ es, e.senderIndex = k) {rng : R}
    {d2 : RoundTwo F G} {cs : List (Complaint F G)} (h : d1.toRoundTwo S dbg es rng = .ok (d2, cs)) :
    ∃ m, Pending S dbg N i d2 cs (boardDealers S N) m := by
  obtain ⟨v1, v2, v3, v4, v5⟩ := startedAs_view hc hd hN h1
  have v3' : d1.state.theirCommitments = some (boardDealers S N) := v3
  obtain ⟨hD, hR⟩ := boardDealers_ok hN
  obtain ⟨m, hh, hp, hi, hdh⟩ := holds_toRoundTwo S dbg d1 _ v3' hD.wf es rng d2 cs h
  obtain ⟨g1, g2, g3⟩ := roundTwo_stored S dbg d1 _ v3' hD.wf.nodup es rng d2 cs h
  have hm : m = BMap.ofList (es.filterMap (opened S d1.state.dhPrivateKey d1.state.theirDhPublicKeys)) := by
    have := hh.shares
    rw [g1] at this
    cases this; rfl
  refine ⟨m, hh, hi.trans v5, by rw [hp, v1], hdh.trans v4, fun k c hc => hc, fun k hk => ?_, fun c hc hk => ?_, fun k c hk hno => ?_⟩
  · rw [hm, BMap.mem_keys_ofList] at hk
    obtain ⟨⟨k', s⟩, hs', rfl⟩ := List.mem_map.mp hk
    obtain ⟨e, he, ho⟩ := List.mem_filterMap.mp hs'
    obtain ⟨pk, v, hpk, _, hk', _⟩ := opened_eq_some.mp ho
    rw [v4] at hpk
    rw [hk']
    exact boardDealers_keys hN hpk
  · exact (madeBy_upheld S dbg d1 es rng cs (.inl ⟨_, h⟩) _ v3' hD.wf c hc d2.state hdh (fun h0 => hD.zero (h0 ▸ hk))
      (by rw [hp, v1]; exact hR _ hk)).1
  · obtain ⟨e, he, hek⟩ := hs _ v3' k (BMap.mem_keys_of_get? hk)
    obtain ⟨pk, hpk⟩ := BMap.exists_get? (g2 e he).2
    have hg : Spec.GoodShare S (d1.state.dhPrivateKey • pk) c.points e := by
      by_contra hg
      obtain ⟨a, ha, hae, _⟩ := forall₂_mem_right g3 e
        (List.mem_filter.mpr ⟨he, by simpa using ⟨pk, c, hpk, hek ▸ hk, hg⟩⟩)
      exact hno a ha (by rw [hae, hek])
    obtain ⟨v, hv, _⟩ := hg
    have hmem : k ∈ m.keys := by
      rw [hm, BMap.mem_keys_ofList]
      refine List.mem_map.mpr ⟨(e.senderIndex, ⟨e.senderIndex, e.receiverIndex, v⟩), ?_, hek⟩
      exact List.mem_filterMap.mpr ⟨e, he, opened_eq_some.mpr ⟨pk, v, hpk, hv, rfl, rfl⟩⟩
    obtain ⟨s, hsk⟩ := BMap.exists_get? hmem
    refine ⟨s, hsk, ?_⟩
    have := (stored_share S dbg d1 _ v3' hD.wf.nodup es rng (by rw [v5]; exact hl) d2 cs h m hh.shares k s hsk
      (fun a ha => hno a ha) c hk).2.2
    rw [v5] at this
    exact this

theorem pending_blame {d : RoundTwo F G} {todo : List (Complaint F G)} {comms : BMap (VssCommitment G)}
    {m : BMap (SecretShare F)} (hP : Pending S dbg N i d todo comms m) (cs : List (Complaint F G)) {d' : RoundTwo F G}
    {keys : List G} (h : d.blame S cs = .ok (d', keys)) :
    ∃ comms' m', Pending S dbg N i d' (todo.filter (· ∉ cs)) comms' m' := by
  obtain ⟨d0, k0, h0, ⟨comms', m', hh, hst, hcg, hmg⟩, _⟩ := blame_removed S d comms m hP.holds cs
  rw [h] at h0
  cases h0
  have hkey : ∀ {k}, k ∈ comms'.keys → (¬ ∃ c ∈ cs, k = verdict S d.state comms c) ∧ k ∈ comms.keys := by
    intro k hk
    obtain ⟨c, hc⟩ := BMap.exists_get? hk
    rw [hcg] at hc
    split at hc
    · cases hc
    · next hn => exact ⟨hn, BMap.mem_keys_of_get? hc⟩
  have hge : ∀ {k}, k ∈ comms'.keys → comms'.get? k = comms.get? k := fun hk => by rw [hcg, if_neg (hkey hk).1]
  refine ⟨comms', m', hh, by rw [hst]; exact hP.index, by rw [hst]; exact hP.n, by rw [hst]; exact hP.dhs, fun k c hc => ?_,
    fun k hk => ?_, fun c hc hk => ?_, fun k c hc hno => ?_⟩
  · rw [hge (BMap.mem_keys_of_get? hc)] at hc
    exact hP.dealers k c hc
  · obtain ⟨s, hs⟩ := BMap.exists_get? hk
    rw [hmg] at hs
    split at hs
    · cases hs
    · next hn =>
      obtain ⟨c, hc⟩ := BMap.exists_get? (hP.shares k (BMap.mem_keys_of_get? hs))
      have : comms'.get? k = some c := by rw [hcg, if_neg hn, hc]
      exact BMap.mem_keys_of_get? this
  · obtain ⟨u1, u2, vc, u3, u4⟩ := hP.upheld c (List.mem_filter.mp hc).1 (hkey hk).2
    refine ⟨u1, by rw [hst]; exact u2, vc, by rw [hge hk]; exact u3, ?_⟩
    rw [hst]
    exact u4
  · have hk := BMap.mem_keys_of_get? hc
    rw [hge hk] at hc
    obtain ⟨s, hs, he⟩ := hP.dealt k c hc fun a ha hak => by
      by_cases hac : a ∈ cs
      · refine (hkey hk).1 ⟨a, hac, ?_⟩
        rw [verdict, if_pos (hP.upheld a ha (by rw [hak]; exact (hkey hk).2)), hak]
      · exact hno a (List.mem_filter.mpr ⟨ha, by simpa using hac⟩) hak
    exact ⟨s, by rw [hmg, if_neg (hkey hk).1]; exact hs, he⟩

theorem inTwo_pending (hc : S.CipherLaws) (hd : S.CodecLaws) (hN : Spec.BoardOk S N) {d : RoundTwo F G} {todo : List (Complaint F G)}
    {log : List (List (Complaint F G))} (h : InTwo S dbg N i d todo log) :
    ∃ comms m, Pending S dbg N i d todo comms m := by
  obtain ⟨d1, es, rng, d2, cs, h1, hl, hs, h4, h5, rfl⟩ := h
  induction h5 with
  | nil =>
    obtain ⟨m, hm⟩ := pending_start hc hd hN h1 hl hs h4
    exact ⟨_, m, hm⟩
  | snoc log e cs' e' keys _ hb ih =>
    obtain ⟨comms, m, hm⟩ := ih
    rw [List.foldl_append]
    exact pending_blame hm cs' hb

/-- Without unprocessed complaints, the shares on file are verified. -/
theorem pending_verified (hN : Spec.BoardOk S N) {d : RoundTwo F G} {comms : BMap (VssCommitment G)}
    {m : BMap (SecretShare F)} (hP : Pending S dbg N i d [] comms m) : DealersOk comms ∧ HoldsVerified S d comms m := by
  obtain ⟨hD, _⟩ := boardDealers_ok hN
  refine ⟨⟨hP.holds.wfc, fun h => ?_, fun k c h => hD.points k c (hP.dealers k c h)⟩, hP.holds.commits, hP.holds.shares,
    hP.holds.wfm, fun k => ⟨hP.shares k, fun h => ?_⟩, fun k s c hs hc => ?_⟩
  · obtain ⟨c, hc⟩ := BMap.exists_get? h
    exact hD.zero (BMap.mem_keys_of_get? (hP.dealers 0 c hc))
  · obtain ⟨c, hc⟩ := BMap.exists_get? h
    obtain ⟨s, hs, _⟩ := hP.dealt k c hc (by simp)
    exact BMap.mem_keys_of_get? hs
  · obtain ⟨s', hs', he⟩ := hP.dealt k c hc (by simp)
    rw [hs] at hs'
    cases hs'
    rw [hP.index]
    exact he

theorem inTwo_blame {d : RoundTwo F G} {todo : List (Complaint F G)} {log : List (List (Complaint F G))}
    (h : InTwo S dbg N i d todo log) (cs : List (Complaint F G)) :
    ∃ d' keys, d.blame S cs = .ok (d', keys) ∧ InTwo S dbg N i d' (todo.filter (· ∉ cs)) (log ++ [cs]) := by
  obtain ⟨order, es, _, hr⟩ := inTwo_reach h
  obtain ⟨⟨d', keys⟩, hb⟩ := C95_blame_total hr cs
  obtain ⟨d1, es, rng, d2, cs', h1, hl, hs, h4, h5, rfl⟩ := h
  refine ⟨d', keys, hb, d1, es, rng, d2, cs', h1, hl, hs, h4, .snoc _ _ _ _ _ h5 hb, ?_⟩
  rw [List.foldl_append]
  rfl

theorem inTwo_finish (hc : S.CipherLaws) (hd : S.CodecLaws) (hu : Suite.U32Inj F) (hN : Spec.BoardOk S N) {d : RoundTwo F G}
    {log : List (List (Complaint F G))} (h : InTwo S dbg N i d [] log) : ∃ v, d.finish = .ok v := by
  obtain ⟨comms, m, hm⟩ := inTwo_pending hc hd hN h
  obtain ⟨hD, hV⟩ := pending_verified hN hm
  obtain ⟨key, hf, _⟩ := finish_verified hu hD hV
  exact ⟨_, hf⟩

theorem moves_ok (hc : S.CipherLaws) (hd : S.CodecLaws) (hu : Suite.U32Inj F) (hN : Spec.BoardOk S N) {n n' : Spec.Node F G}
    (h : NodeOk S dbg N i n) (hm : Spec.Moves S dbg N i n n') : NodeOk S dbg N i n' := by
  cases hm with
  | start order rng hp =>
    cases hb : N.start S dbg i order rng with
    | error f => exact .inl ⟨order, rng, hp, hb⟩
    | ok p => exact ⟨order, rng, p.2, hp, hb⟩
  | receive d es rng hl hs =>
    cases hb : d.toRoundTwo S dbg es rng with
    | error f => exact .inr ⟨d, es, rng, h, hl, hb⟩
    | ok p => exact ⟨d, es, rng, p.1, p.2, h, hl, hs, hb, .nil, rfl⟩
  | complaints d todo log cs =>
    obtain ⟨d', keys, hb, hn⟩ := inTwo_blame h cs
    rw [hb]
    exact hn
  | finish d log =>
    obtain ⟨v, hv⟩ := inTwo_finish hc hd hu hN h
    rw [hv]
    exact ⟨d, h, hv, rfl⟩

end

/-- The invariant of all executions. -/
theorem reached_ok {S : Suite F G R} {dbg : Bool} {N : Spec.Group F G} (hS : S.Lawful) (hs : S.ShortCiphertexts)
    (hN : Spec.BoardOk S N) {w : Spec.Net F G} (h : Spec.Reached S dbg N w) (i : U32) :
    NodeOk S dbg N i (w.node i) ∧ ∀ n ∈ w.disk i, NodeOk S dbg N i n := by
  induction h generalizing i with
  | refl => exact ⟨trivial, fun n hn => by cases hn⟩
  | tail _ hw ih =>
    cases hw with
    | move j n hm =>
      rename_i w _
      refine ⟨?_, (ih i).2⟩
      show NodeOk S dbg N i (Function.update w.node j n i)
      by_cases hij : i = j
      · subst hij
        rw [Function.update_self]
        exact moves_ok hS.cipher hS.codec hS.u32 hN (ih i).1 hm
      · rw [Function.update_of_ne hij]
        exact (ih i).1
    | save j =>
      rename_i w _
      refine ⟨(ih i).1, ?_⟩
      show ∀ n ∈ Function.update w.disk j (w.node j :: w.disk j) i, _
      by_cases hij : i = j
      · subst hij
        rw [Function.update_self]
        intro n hn
        rcases List.mem_cons.mp hn with rfl | hn
        · exact (ih i).1
        · exact (ih i).2 n hn
      · rw [Function.update_of_ne hij]
        exact (ih i).2
    | loadOne j d hd =>
      rename_i w _
      refine ⟨?_, (ih i).2⟩
      show NodeOk S dbg N i (Function.update w.node j _ i)
      by_cases hij : i = j
      · subst hij
        have hk : StartedAs S dbg N i d := (ih i).2 _ hd
        rw [Function.update_self, crashOne_ok hS.codec true d (startedAs_fits hs hN hk)]
        exact hk
      · rw [Function.update_of_ne hij]
        exact (ih i).1
    | loadTwo j d todo log hd =>
      rename_i w _
      refine ⟨?_, (ih i).2⟩
      show NodeOk S dbg N i (Function.update w.node j _ i)
      by_cases hij : i = j
      · subst hij
        have hk : InTwo S dbg N i d todo log := (ih i).2 _ hd
        rw [Function.update_self, crashTwo_ok hS.codec true d (inTwo_fits hs hN hk)]
        exact hk
      · rw [Function.update_of_ne hij]
        exact (ih i).1

section
variable {S : Suite F G R} {dbg : Bool} {N : Spec.Group F G} {i : U32}

theorem pending_deg (hN : Spec.BoardOk S N) {t : Nat}
    (hdeg : ∀ p ∈ N.board, N.good S p → ∀ c, p.commitments = some c → c.points.length ≤ t) {d : RoundTwo F G}
    {todo : List (Complaint F G)} {comms : BMap (VssCommitment G)} {m : BMap (SecretShare F)}
    (hP : Pending S dbg N i d todo comms m) {k : U32} {c : VssCommitment G} (h : comms.get? k = some c) :
    c.points.length ≤ t := by
  obtain ⟨p, hp, hg, _, hcm⟩ := boardDealers_get hN (hP.dealers k c h)
  exact hdeg p hp hg c hcm

theorem blamed_cases {d e : RoundTwo F G} {log : List (List (Complaint F G))} (h : Blamed S d log e) :
    (log = [] ∧ e = d) ∨ ∃ log0 e0 cs keys, log = log0 ++ [cs] ∧ Blamed S d log0 e0 ∧ e0.blame S cs = .ok (e, keys) := by
  cases h with
  | nil => exact .inl ⟨rfl, rfl⟩
  | snoc log0 e0 cs e' keys h hb => exact .inr ⟨log0, e0, cs, keys, rfl, h, hb⟩

/-- What two participants in round two have on file is the same if they processed the same complaints. -/
theorem blamed_agree {d d' e e' : RoundTwo F G} {comms : BMap (VssCommitment G)} {m m' : BMap (SecretShare F)}
    (hh : Holds d comms m) (hh' : Holds d' comms m') (hp : d.state.parameters = d'.state.parameters)
    (hdh : d.state.theirDhPublicKeys = d'.state.theirDhPublicKeys) {log log' : List (List (Complaint F G))}
    (h : Blamed S d log e) (h' : Blamed S d' log' e')
    (hl : List.Forall₂ (fun a b => ∀ c, c ∈ a ↔ c ∈ b) log log') :
    ∃ comms m m', Holds e comms m ∧ Holds e' comms m' ∧ e.state.parameters = e'.state.parameters ∧
      e.state.theirDhPublicKeys = e'.state.theirDhPublicKeys := by
  induction h generalizing e' log' with
  | nil =>
    cases hl
    rcases blamed_cases h' with ⟨_, rfl⟩ | ⟨_, _, _, _, h0, _⟩
    · exact ⟨_, _, _, hh, hh', hp, hdh⟩
    · exact absurd (congrArg List.length h0) (by simp)
  | snoc log e cs e1 keys _ hb ih =>
    rcases blamed_cases h' with ⟨rfl, rfl⟩ | ⟨log0, e0, cs', keys', rfl, h0, hb'⟩
    · exact absurd hl.length_eq (by simp)
    · rw [← List.forall₂_reverse_iff, List.reverse_append, List.reverse_append, List.reverse_singleton,
        List.reverse_singleton, List.singleton_append, List.singleton_append, List.forall₂_cons] at hl
      obtain ⟨comms, m, m', i1, i2, i3, i4⟩ := ih h0 (List.forall₂_reverse_iff.mp hl.2)
      obtain ⟨_, _, k1, ⟨c1, m1, a1, a2, _⟩, _⟩ := blame_removed S e comms m i1 cs
      obtain ⟨_, _, k2, ⟨c2, m2, b1, b2, _⟩, _⟩ := blame_removed S e0 comms m' i2 cs'
      obtain ⟨f1, f2, _, g1, g2, g3, _⟩ := C42_agreement S e e0 comms m m' i1 i2 i3 i4 cs cs' hl.1
      rw [hb] at k1 g1
      rw [hb'] at k2 g2
      cases k1
      cases k2
      cases g1
      cases g2
      rw [a1.commits, b1.commits] at g3
      cases g3
      refine ⟨c1, m1, m2, a1, b1, ?_, ?_⟩
      · rw [a2, b2]; exact i3
      · rw [a2, b2]; exact i4

end

/-! ### The theorems -/

section
variable {S : Suite F G R} {dbg : Bool} {N : Spec.Group F G}

/-- Safety, for both kinds of sessions: the accepted records on the board have at most `t` points. -/
theorem net_keys (hS : S.Lawful) (hs : S.ShortCiphertexts) (hN : Spec.BoardOk S N) {w : Spec.Net F G}
    (h : Spec.Reached S dbg N w) (t : Nat)
    (hdeg : ∀ p ∈ N.board, N.good S p → ∀ c, p.commitments = some c → c.points.length ≤ t)
    (J : List U32) (hJ : J.Nodup) (hJ0 : J ≠ []) (htJ : t ≤ J.length)
    (dealers : Option (BMap (VssCommitment G))) (Y : U32 → G) (sk : U32 → IndividualSigningKey F)
    (log : U32 → List (List (Complaint F G))) (hd : ∀ j ∈ J, w.node j = .done dealers (Y j) (sk j) (log j)) :
    ∃ comms, dealers = some comms ∧
      (∀ k c, comms.get? k = some c → ∃ p ∈ N.board, N.good S p ∧ p.index = k ∧ p.commitments = some c) ∧
      ∀ j ∈ J, Y j = Spec.interpolateG F comms.keys (fun l => ((comms.get? l).map fun c => c.points.headD 0).getD 0) ∧
        (sk j).index = j ∧ (sk j).key • S.gen = ∑ l ∈ comms.keys.toFinset, Spec.lagrange (F := F) comms.keys l •
          ((comms.get? l).map fun c => Spec.pointEval c.points (j.toNat : F)).getD 0 ∧
        Spec.interpolate J (fun j => (sk j).key) • S.gen = Y j := by
  have hj : ∀ j ∈ J, ∃ d comms m, Pending S dbg N j d [] comms m ∧ d.finish = .ok (Y j, sk j) ∧ dealers = some comms := by
    intro j hj
    have := (reached_ok hS hs hN h j).1
    rw [hd j hj] at this
    obtain ⟨d, h1, h2, h3⟩ := this
    obtain ⟨comms, m, hm⟩ := inTwo_pending hS.cipher hS.codec hN h1
    exact ⟨d, comms, m, hm, h2, h3.trans hm.holds.commits⟩
  obtain ⟨j0, hj0⟩ := List.exists_mem_of_ne_nil J hJ0
  obtain ⟨_, comms, _, hm0, _, hdl⟩ := hj j0 hj0
  have hj' : ∀ j ∈ J, ∃ d m, Pending S dbg N j d [] comms m ∧ d.finish = .ok (Y j, sk j) := by
    intro j hj1
    obtain ⟨d, c', m, h1, h2, h3⟩ := hj j hj1
    rw [hdl] at h3
    cases h3
    exact ⟨d, m, h1, h2⟩
  choose! d m hP hf using hj'
  have hD := (pending_verified hN hm0).1
  have hV := fun j hj => (pending_verified hN (hP j hj)).2
  have hfin : ∀ j ∈ J, Y j = Spec.interpolateG F comms.keys (fun l => ((comms.get? l).map fun c => c.points.headD 0).getD 0) ∧
      (sk j).index = j ∧ (sk j).key • S.gen = ∑ l ∈ comms.keys.toFinset, Spec.lagrange (F := F) comms.keys l •
          ((comms.get? l).map fun c => Spec.pointEval c.points (j.toNat : F)).getD 0 := by
    intro j hj
    obtain ⟨key, k1, _, k3⟩ := finish_verified hS.u32 hD (hV j hj)
    rw [hf j hj] at k1
    have k1' := Prod.ext_iff.mp (Except.ok.inj k1)
    rw [(hP j hj).index] at k1' k3
    have k2 : sk j = ⟨j, key⟩ := k1'.2
    exact ⟨k1'.1, by rw [k2], by rw [k2]; exact k3⟩
  refine ⟨comms, hdl, fun k c hk => boardDealers_get hN (hm0.dealers k c hk), fun j hj => ?_⟩
  refine ⟨(hfin j hj).1, (hfin j hj).2.1, (hfin j hj).2.2, ?_⟩
  rw [(hfin j hj).1]
  refine C35_keys_interpolate hS.group hS.u32 comms hD t (fun k c hk => pending_deg hN hdeg hm0 hk) J hJ htJ d m
    (fun j hj => ⟨hV j hj, (hP j hj).index⟩) _ (fun j => (sk j).key) (fun j hj => ?_) hJ0
  rw [hf j hj, ← (hfin j hj).1]
  congr 2
  exact congrArg (IndividualSigningKey.mk · _) (hfin j hj).2.1

/-- C155, safety: in every state that any execution reaches, if at least `t` participants have finished with the same
dealers on file, they have the same group key `Y`, made of the constant commitments that these dealers have on the board, and
their signing keys interpolate to its logarithm. -/
theorem C155_keys (hS : S.Lawful) (hs : S.ShortCiphertexts) (hN : Spec.BoardOk S N) (hr : N.reshare = false)
    {w : Spec.Net F G} (h : Spec.Reached S dbg N w) (J : List U32) (hJ : J.Nodup) (hJ0 : J ≠ []) (htJ : N.params.t.toNat ≤ J.length)
    (dealers : Option (BMap (VssCommitment G))) (Y : U32 → G) (sk : U32 → IndividualSigningKey F)
    (log : U32 → List (List (Complaint F G))) (hd : ∀ j ∈ J, w.node j = .done dealers (Y j) (sk j) (log j)) :
    ∃ comms, dealers = some comms ∧
      (∀ k c, comms.get? k = some c → ∃ p ∈ N.board, N.good S p ∧ p.index = k ∧ p.commitments = some c) ∧
      ∀ j ∈ J, Y j = Spec.interpolateG F comms.keys (fun l => ((comms.get? l).map fun c => c.points.headD 0).getD 0) ∧
        (sk j).index = j ∧ (sk j).key • S.gen = ∑ l ∈ comms.keys.toFinset, Spec.lagrange (F := F) comms.keys l •
          ((comms.get? l).map fun c => Spec.pointEval c.points (j.toNat : F)).getD 0 ∧
        Spec.interpolate J (fun j => (sk j).key) • S.gen = Y j := by
  exact net_keys hS hs hN h N.params.t.toNat (fun p _ hg c hc => (hg.2 hr c hc).le) J hJ hJ0 htJ dealers Y sk log hd

/-- C155, agreement: two participants that finished after processing the same complaints, in lists that may be ordered
differently, have the same dealers on file and the same group key. -/
theorem C155_agreement (hS : S.Lawful) (hs : S.ShortCiphertexts) (hN : Spec.BoardOk S N) {w : Spec.Net F G}
    (h : Spec.Reached S dbg N w) (i j : U32) (D D' : Option (BMap (VssCommitment G))) (Y Y' : G)
    (sk sk' : IndividualSigningKey F) (log log' : List (List (Complaint F G)))
    (hi : w.node i = .done D Y sk log) (hj : w.node j = .done D' Y' sk' log')
    (hl : List.Forall₂ (fun a b => ∀ c, c ∈ a ↔ c ∈ b) log log') : D = D' ∧ Y = Y' := by
  have h1 := (reached_ok hS hs hN h i).1
  have h2 := (reached_ok hS hs hN h j).1
  rw [hi] at h1
  rw [hj] at h2
  obtain ⟨d, ht, hf, rfl⟩ := h1
  obtain ⟨d', ht', hf', rfl⟩ := h2
  obtain ⟨c, m, hm⟩ := inTwo_pending hS.cipher hS.codec hN ht
  obtain ⟨c', m', hm'⟩ := inTwo_pending hS.cipher hS.codec hN ht'
  have hcc : d.state.theirCommitments = d'.state.theirCommitments := by
    obtain ⟨d1, es, rng, d2, cs, a1, a2, a3, a4, a5, _⟩ := ht
    obtain ⟨d1', es', rng', d2', cs', b1, b2, b3, b4, b5, _⟩ := ht'
    obtain ⟨v1, v2, v3, v4, v5⟩ := startedAs_view hS.cipher hS.codec hN a1
    obtain ⟨u1, u2, u3, u4, u5⟩ := startedAs_view hS.cipher hS.codec hN b1
    obtain ⟨hD, hR⟩ := boardDealers_ok hN
    obtain ⟨n, hh, hp, _, hdh⟩ := holds_toRoundTwo S dbg d1 _ v3 hD.wf es rng d2 cs a4
    obtain ⟨n', hh', hp', _, hdh'⟩ := holds_toRoundTwo S dbg d1' _ u3 hD.wf es' rng' d2' cs' b4
    have hpar : d1.state.parameters = d1'.state.parameters := by
      have e1 : d1.state.parameters.n = d1'.state.parameters.n := UInt32.toNat_inj.mp (v1.trans u1.symm)
      have e2 : d1.state.parameters.t = d1'.state.parameters.t := v2.trans u2.symm
      cases h : d1.state.parameters
      cases h' : d1'.state.parameters
      simp_all
    obtain ⟨cc, _, _, e1, e2, _⟩ := blamed_agree hh hh' (by rw [hp, hp', hpar]) (by rw [hdh, hdh', v4, u4]) a5 b5 hl
    exact e1.commits.trans e2.commits.symm
  refine ⟨hcc, ?_⟩
  rw [hm.holds.commits, hm'.holds.commits] at hcc
  cases hcc
  obtain ⟨hD, hV⟩ := pending_verified hN hm
  obtain ⟨hD', hV'⟩ := pending_verified hN hm'
  obtain ⟨_, k1, _⟩ := finish_verified hS.u32 hD hV
  obtain ⟨_, k1', _⟩ := finish_verified hS.u32 hD' hV'
  rw [hf] at k1
  rw [hf'] at k1'
  exact (congrArg Prod.fst (Except.ok.inj k1)).trans (congrArg Prod.fst (Except.ok.inj k1')).symm

/-- C155, failures: a session ends without a key only because starting failed, or reading the received shares. Processing
complaints, finishing and restarting from the disk never fail; and in release builds, no step panics, unless the threshold is
zero or a record lacks a proof. -/
theorem C155_failures (hS : S.Lawful) (hs : S.ShortCiphertexts) (hN : Spec.BoardOk S N) {w : Spec.Net F G}
    (h : Spec.Reached S dbg N w) (i : U32) (f : Fail F G) (hi : w.node i = .stopped f) :
    ((∃ order rng, order.Perm N.board ∧ N.start S dbg i order rng = .error f) ∨
      ∃ order rng d L es rng', order.Perm N.board ∧
        N.start S dbg i order rng = .ok (d, L) ∧ (∀ e ∈ es, e.receiverIndex = i) ∧
        d.toRoundTwo S dbg es rng' = .error f) ∧
    (dbg = false → N.params.t ≠ 0 → (∀ p ∈ N.board, ¬ Spec.LacksProof S p) → ∀ site, f ≠ .panic site) := by
  have h1 := (reached_ok hS hs hN h i).1
  rw [hi] at h1
  refine ⟨?_, fun hdbg ht hlp site hf => ?_⟩
  · rcases h1 with h1 | ⟨d, es, rng', ⟨order, rng, L, hp, hb⟩, hl, he⟩
    · exact .inl h1
    · exact .inr ⟨order, rng, d, L, es, rng', hp, hb, hl, he⟩
  · subst hf
    subst hdbg
    rcases h1 with ⟨order, rng, hp, hb⟩ | ⟨d, es, rng', ⟨order, rng, L, hp, hb⟩, hl, he⟩
    · obtain ⟨k1, k2⟩ := C22_no_panic_partial hS.cipher hS.codec false N.params ht (N.dhKey i) i (N.coeffs i) order rng
        (fun p hp' => hlp p (hp.mem_iff.mp hp')) site
      unfold Spec.Group.start at hb
      split at hb
      · exact k2 hb
      · exact k1 hb
    · exact C95_to_round_two_no_panic_release (start_reach hb) es rng' site he

/-- C155, progress: whatever has happened, a participant in round two can finish by processing its own complaints. -/
theorem C155_progress (hS : S.Lawful) (hs : S.ShortCiphertexts) (hN : Spec.BoardOk S N) {w : Spec.Net F G}
    (h : Spec.Reached S dbg N w) (i : U32) (d : RoundTwo F G) (todo : List (Complaint F G))
    (log : List (List (Complaint F G))) (hi : w.node i = .two d todo log) :
    ∃ dealers Y sk, Spec.Reached S dbg N
      { w with node := Function.update w.node i (.done dealers Y sk (log ++ [todo])) } := by
  have h1 := (reached_ok hS hs hN h i).1
  rw [hi] at h1
  obtain ⟨d', keys, hb, h2⟩ := inTwo_blame h1 todo
  have h0 : todo.filter (· ∉ todo) = [] := List.filter_eq_nil_iff.mpr fun a ha => by simpa using ha
  rw [h0] at h2
  obtain ⟨v, hf⟩ := inTwo_finish hS.cipher hS.codec hS.u32 hN h2
  refine ⟨d'.state.theirCommitments, v.1, v.2, ?_⟩
  have s1 : Spec.Happens S dbg N w { w with node := Function.update w.node i (.two d' [] (log ++ [todo])) } := by
    refine .move w i _ ?_
    rw [hi]
    have := Spec.Moves.complaints (S := S) (dbg := dbg) (N := N) (i := i) d todo log todo
    rw [hb, h0] at this
    exact this
  have s2 := Spec.Happens.move (S := S) (dbg := dbg) (N := N)
    { w with node := Function.update w.node i (.two d' [] (log ++ [todo])) } i (.done d'.state.theirCommitments v.1 v.2 (log ++ [todo]))
    (by
      show Spec.Moves S dbg N i (Function.update w.node i _ i) _
      rw [Function.update_self]
      have := Spec.Moves.finish (S := S) (dbg := dbg) (N := N) (i := i) d' (log ++ [todo])
      rw [hf] at this
      exact this)
  have s3 := (h.tail s1).tail s2
  rw [Function.update_idem] at s3
  exact s3

/-- Signing, for both kinds of sessions. -/
theorem net_signing (hS : S.Lawful) (hs : S.ShortCiphertexts) (hN : Spec.BoardOk S N) {w : Spec.Net F G}
    (h : Spec.Reached S dbg N w) (t : Nat)
    (hdeg : ∀ p ∈ N.board, N.good S p → ∀ c, p.commitments = some c → c.points.length ≤ t) (J : List U32) (hJ : J.Nodup) (hJ0 : J ≠ []) (hz : 0 ∉ J)
    (htJ : t ≤ J.length) (dealers : Option (BMap (VssCommitment G))) (Y : U32 → G)
    (sk : U32 → IndividualSigningKey F) (log : U32 → List (List (Complaint F G)))
    (hd : ∀ j ∈ J, w.node j = .done dealers (Y j) (sk j) (log j)) (sp : Params) (hsp : J.length ≤ sp.n.toNat)
    (message : Bytes) (rng : U32 → R) (number : U32 → Nat) (pos : U32 → UInt64)
    (hpos : ∀ i ∈ J, number i < 2 ^ 63 ∧ (pos i).toNat < number i) :
    ∃ (key : G) (p : U32 → PartialSignature F) (c : U32 → G × G) (sig : ThresholdSignature F G), (∀ j ∈ J, Y j = key) ∧
      (∀ i ∈ J, (generateCommitmentShareLists S (rng i) (sk i) (number i)).1.commitments[(pos i).toNat]? = some (c i)) ∧
      (∀ i ∈ J, (sign S dbg (sk i) (Spec.messageHash S message) (Y i)
        (generateCommitmentShareLists S (rng i) (sk i) (number i)).2 (pos i)
        (session (F := F) sp key message (J.map fun i =>
          .signer i (c i) (IndividualSigningKey.toPublic S (sk i)))).state.signers).1 = .ok (p i)) ∧
      (∃ f, (session sp key message ((J.map fun i => .signer i (c i) (IndividualSigningKey.toPublic S (sk i))) ++
        J.map fun i => .partialSig (p i))).finalize S = .ok f ∧ f.aggregate S = .ok sig) ∧
      Spec.SigValid S key (Spec.messageHash S message) sig := by
  obtain ⟨comms, _, _, hk⟩ := net_keys hS hs hN h t hdeg J hJ hJ0 htJ dealers Y sk log hd
  obtain ⟨c, hc1, p, hp, f, sig, k1, k2, k3, _⟩ := C64_documented_flow hS.u32 S (fun _ => dbg) sp message J hJ hz hJ0 hsp
    (fun i => (sk i).key) _ rfl rng number (fun i hi => (hpos i hi).1) pos (fun i hi => (hpos i hi).2) J J (List.Perm.refl _)
    (List.Perm.refl _)
  have hY : ∀ j ∈ J, Y j = Spec.interpolate J (fun i => (sk i).key) • S.gen := fun j hj => (hk j hj).2.2.2.symm
  have hsk : ∀ j ∈ J, (⟨j, (sk j).key⟩ : IndividualSigningKey F) = sk j := fun j hj =>
    congrArg (IndividualSigningKey.mk · _) (hk j hj).2.1.symm
  have hops : (J.map fun i => (.signer i (c i) (IndividualSigningKey.toPublic S ⟨i, (sk i).key⟩) : AggOp F G)) =
      J.map fun i => .signer i (c i) (IndividualSigningKey.toPublic S (sk i)) :=
    List.map_congr_left fun i hi => by rw [hsk i hi]
  rw [hops] at hp k1
  refine ⟨_, p, c, sig, hY, fun i hi => ?_, fun i hi => ?_, ⟨f, k1, k2⟩, k3⟩
  · have := hc1 i hi
    rwa [hsk i hi] at this
  · have := hp i hi
    rw [hsk i hi] at this
    rw [hY i hi]
    exact this

/-- C155, signing: in every reachable state, any `t` or more participants that have finished with the same dealers on file can
sign every message for the key that they hold: the documented flow succeeds with a valid signature. -/
theorem C155_signing (hS : S.Lawful) (hs : S.ShortCiphertexts) (hN : Spec.BoardOk S N) (hr : N.reshare = false)
    {w : Spec.Net F G} (h : Spec.Reached S dbg N w) (J : List U32) (hJ : J.Nodup) (hJ0 : J ≠ []) (hz : 0 ∉ J)
    (htJ : N.params.t.toNat ≤ J.length) (dealers : Option (BMap (VssCommitment G))) (Y : U32 → G)
    (sk : U32 → IndividualSigningKey F) (log : U32 → List (List (Complaint F G)))
    (hd : ∀ j ∈ J, w.node j = .done dealers (Y j) (sk j) (log j)) (sp : Params) (hsp : J.length ≤ sp.n.toNat)
    (message : Bytes) (rng : U32 → R) (number : U32 → Nat) (pos : U32 → UInt64)
    (hpos : ∀ i ∈ J, number i < 2 ^ 63 ∧ (pos i).toNat < number i) :
    ∃ (key : G) (p : U32 → PartialSignature F) (c : U32 → G × G) (sig : ThresholdSignature F G), (∀ j ∈ J, Y j = key) ∧
      (∀ i ∈ J, (generateCommitmentShareLists S (rng i) (sk i) (number i)).1.commitments[(pos i).toNat]? = some (c i)) ∧
      (∀ i ∈ J, (sign S dbg (sk i) (Spec.messageHash S message) (Y i)
        (generateCommitmentShareLists S (rng i) (sk i) (number i)).2 (pos i)
        (session (F := F) sp key message (J.map fun i =>
          .signer i (c i) (IndividualSigningKey.toPublic S (sk i)))).state.signers).1 = .ok (p i)) ∧
      (∃ f, (session sp key message ((J.map fun i => .signer i (c i) (IndividualSigningKey.toPublic S (sk i))) ++
        J.map fun i => .partialSig (p i))).finalize S = .ok f ∧ f.aggregate S = .ok sig) ∧
      Spec.SigValid S key (Spec.messageHash S message) sig := by
  exact net_signing hS hs hN h N.params.t.toNat (fun p _ hg c hc => (hg.2 hr c hc).le) J hJ hJ0 hz htJ dealers Y sk log hd sp
    hsp message rng number pos hpos

end

/-! ### Executions exist -/

section
variable {S : Suite F G R} {dbg : Bool} {N : Spec.Group F G}

theorem reached_moves {w : Spec.Net F G} (h : Spec.Reached S dbg N w) {i : U32} {n : Spec.Node F G}
    (hm : Relation.ReflTransGen (Spec.Moves S dbg N i) (w.node i) n) :
    Spec.Reached S dbg N { w with node := Function.update w.node i n } := by
  induction hm with
  | refl => rw [Function.update_eq_self]; exact h
  | tail _ hm ih =>
    rename_i b c _
    have := ih.tail (.move _ i c (by
      show Spec.Moves S dbg N i (Function.update w.node i b i) c
      rw [Function.update_self]; exact hm))
    rw [Function.update_idem] at this
    exact this

/-- Participants that can come to some state each can do so together. -/
theorem reached_all {w : Spec.Net F G} (h : Spec.Reached S dbg N w) (l : List U32) (hl : l.Nodup) (f : U32 → Spec.Node F G)
    (hm : ∀ i ∈ l, Relation.ReflTransGen (Spec.Moves S dbg N i) (w.node i) (f i)) :
    Spec.Reached S dbg N { w with node := fun i => if i ∈ l then f i else w.node i } := by
  induction l with
  | nil => simpa using h
  | cons a l ih =>
    rw [List.nodup_cons] at hl
    have h1 := reached_moves (i := a) (n := f a) (ih hl.2 fun i hi => hm i (List.mem_cons_of_mem _ hi))
      (by
        show Relation.ReflTransGen _ (if a ∈ l then f a else w.node a) _
        rw [if_neg hl.1]
        exact hm a List.mem_cons_self)
    have he : Function.update (fun i => if i ∈ l then f i else w.node i) a (f a) =
        fun i => if i ∈ a :: l then f i else w.node i := by
      funext i
      by_cases hi : i = a
      · subst hi; simp
      · rw [Function.update_of_ne hi]
        simp [hi]
    rw [he] at h1
    exact h1

/-- C155 is not vacuous: for all parameters and all random bytes, the records of `n` participants that follow the protocol
make an admissible board, and a state is reachable in which all have finished with the same dealers on file. -/
theorem C155_honest {S : Suite F G R} (hS : S.Lawful) (dbg : Bool) (params : Params) (ht : params.t ≠ 0)
    (htn : params.t.toNat ≤ params.n.toNat) (idx : List U32) (hidx : idx.Nodup)
    (hr : ∀ i ∈ idx, i ≠ 0 ∧ i.toNat ≤ params.n.toNat) (hlen : idx.length = params.n.toNat) (r1 r2 r3 : U32 → R) :
    ∃ (N : Spec.Group F G), N.reshare = false ∧ N.params = params ∧ Spec.BoardOk S N ∧
      (∀ i ∈ idx, ∃ p ∈ N.board, newDealer S params i (r1 i) = .ok (p, N.coeffs i, N.dhKey i)) ∧
      ∃ (w : Spec.Net F G) (dealers : Option (BMap (VssCommitment G))) (Y : G) (sk : U32 → IndividualSigningKey F),
        Spec.Reached S dbg N w ∧ ∀ i ∈ idx, w.node i = .done dealers Y (sk i) [] := by
  have h0 : 0 ∉ idx := fun h => (hr 0 h).1 rfl
  obtain ⟨P, cs, x, hP, d1, hb, E, hE, d2, h2, s, key, _, hf, _⟩ := C36_honest_dkg hS dbg params ht htn idx hidx h0 hlen
    (fun _ => idx) (fun _ => idx) (fun _ _ => List.Perm.refl _) (fun _ _ => List.Perm.refl _) r1 r2 r3
  have hg := fun i hi => newDealer_good ht (hP i hi)
  have hfil : (idx.map P).filter (Spec.Group.good ⟨false, params, x, cs, idx.map P⟩ S) = idx.map P := by
    rw [List.filter_eq_self]
    intro p hp
    obtain ⟨i, hi, rfl⟩ := List.mem_map.mp hp
    have := (hg i hi).2.2.2.2.2
    exact decide_eq_true ⟨this.1, fun _ => this.2⟩
  have hN : Spec.BoardOk S (⟨false, params, x, cs, idx.map P⟩ : Spec.Group F G) := by
    refine ⟨?_, fun p hp hgp => ?_, fun p hp c hc => ?_⟩
    · show ((idx.map P).map (·.index)).Nodup
      rw [List.map_map]
      have : idx.map ((fun p : Participant F G => p.index) ∘ P) = idx.map id :=
        List.map_congr_left fun i hi => (hg i hi).2.1
      rw [this, List.map_id]
      exact hidx
    · show p.index ≠ 0 ∧ p.index.toNat ≤ ((idx.map P).filter (Spec.Group.good ⟨false, params, x, cs, idx.map P⟩ S)).length
      obtain ⟨i, hi, rfl⟩ := List.mem_map.mp hp
      rw [hfil, List.length_map, hlen, (hg i hi).2.1]
      exact hr i hi
    · obtain ⟨i, hi, rfl⟩ := List.mem_map.mp hp
      obtain ⟨_, _, hl, hcm, _⟩ := hg i hi
      rw [hcm] at hc
      cases hc
      show (commitPoints S (cs i)).length < 2 ^ 64
      rw [commitPoints_length, hl]
      have := params.t.toNat_lt
      omega
  refine ⟨⟨false, params, x, cs, idx.map P⟩, rfl, rfl, hN, fun i hi => ⟨P i, List.mem_map.mpr ⟨i, hi, rfl⟩, hP i hi⟩, ?_⟩
  have hs1 : ∀ i ∈ idx, StartedAs S dbg ⟨false, params, x, cs, idx.map P⟩ i (d1 i) := fun i hi =>
    ⟨idx.map P, r2 i, _, List.Perm.refl _, hb i hi⟩
  have hv := fun i hi => startedAs_view hS.cipher hS.codec hN (hs1 i hi)
  have hEi : ∀ l ∈ idx, ∀ i ∈ idx, (E l i).senderIndex = l ∧ (E l i).receiverIndex = i := by
    intro l hl i hi
    obtain ⟨m, g1, _, _, g2⟩ := C25_dealt_shares hS.cipher hS.codec dbg params _ _ _ _ _ hN.nodup _ _ (hb l hl)
    obtain ⟨m', k1, k2⟩ := hE l hl
    rw [g1] at k1
    cases k1
    obtain ⟨e, e1, e2, e3, _⟩ := g2 (P i) (List.mem_map.mpr ⟨i, hi, rfl⟩)
    rw [(hg i hi).2.1] at e1 e3
    rw [k2 i hi] at e1
    cases e1
    exact ⟨e2, e3⟩
  refine ⟨_, some (boardDealers S ⟨false, params, x, cs, idx.map P⟩), s • S.gen, fun i => ⟨i, key i⟩,
    reached_all (w := ⟨fun _ => .idle, fun _ => []⟩) .refl idx hidx
      (fun i => .done (some (boardDealers S ⟨false, params, x, cs, idx.map P⟩)) (s • S.gen) ⟨i, key i⟩ []) fun i hi => ?_,
    fun i hi => by simp [hi]⟩
  have m1 := Spec.Moves.start (S := S) (dbg := dbg) (N := ⟨false, params, x, cs, idx.map P⟩) (i := i) (idx.map P) (r2 i) (List.Perm.refl _)
  have hb' : Spec.Group.start ⟨false, params, x, cs, idx.map P⟩ S dbg i (idx.map P) (r2 i) = .ok (d1 i, ⟨idx.map P, none⟩) := hb i hi
  simp only [hb'] at m1
  have m2 := Spec.Moves.receive (S := S) (dbg := dbg) (N := ⟨false, params, x, cs, idx.map P⟩) (i := i) (d1 i)
    (idx.map fun l => E l i) (r3 i)
    (fun e he => by
      obtain ⟨l, hl, rfl⟩ := List.mem_map.mp he
      exact (hEi l hl i hi).2)
    (fun comms hc k hk => by
      have h3 := (hv i hi).2.2.1
      rw [h3] at hc
      cases hc
      obtain ⟨c, hc⟩ := BMap.exists_get? hk
      obtain ⟨p, hp, _, hpk, _⟩ := boardDealers_get hN hc
      obtain ⟨l, hl, rfl⟩ := List.mem_map.mp hp
      refine ⟨E l i, List.mem_map.mpr ⟨l, hl, rfl⟩, ?_⟩
      rw [(hEi l hl i hi).1, ← hpk, (hg l hl).2.1])
  have h2' := h2 i hi
  rw [h2'] at m2
  have m3 := Spec.Moves.finish (S := S) (dbg := dbg) (N := ⟨false, params, x, cs, idx.map P⟩) (i := i) (d2 i) []
  rw [hf i hi] at m3
  have hcm : (d2 i).state.theirCommitments = some (boardDealers S ⟨false, params, x, cs, idx.map P⟩) := by
    obtain ⟨_, hh, _⟩ := holds_toRoundTwo S dbg (d1 i) _ (hv i hi).2.2.1 (boardDealers_ok hN).1.wf _ _ _ _ h2'
    exact hh.commits
  rw [hcm] at m3
  exact ((Relation.ReflTransGen.single m1).tail m2).tail m3

end

/-! ### Example -/

section Example
open Toy

/-- Three participants with threshold two finish with the same group key, and the keys of two of them interpolate to its
logarithm. -/
example (dbg : Bool) : ∃ (N : Spec.Group Fp Fp) (w : Spec.Net Fp Fp) (D : Option (BMap (VssCommitment Fp))) (Y : Fp)
    (sk : U32 → IndividualSigningKey Fp), N.params = ⟨3, 2⟩ ∧ Spec.BoardOk suite N ∧ Spec.Reached suite dbg N w ∧
    (∀ i ∈ [1, 2, 3], w.node i = .done D Y (sk i) []) ∧
    Spec.interpolate [3, 1] (fun j => (sk j).key) • suite.gen = Y := by
  obtain ⟨N, h0, h1, h2, _, w, D, Y, sk, h3, h4⟩ := C155_honest lawful dbg ⟨3, 2⟩ (by decide) (by decide) [1, 2, 3] (by decide)
    (by decide) rfl (fun i => i.toNat) (fun _ => 4) (fun _ => 5)
  obtain ⟨_, _, _, hk⟩ := C155_keys lawful short_ciphertexts h2 h0 h3 [3, 1] (by decide) (by simp) (by rw [h1]; decide) D
    (fun _ => Y) sk (fun _ => []) fun j hj => h4 j (by revert hj; simp; tauto)
  exact ⟨N, w, D, Y, sk, h1, h2, h3, h4, (hk 1 (by simp)).2.2.2⟩

end Example

end IceFrost
