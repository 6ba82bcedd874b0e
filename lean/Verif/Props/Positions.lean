import Verif.Props.SigningExamples
import Verif.Props.Transcripts

/-! # C117, C118: which nonce pair a position names, and the order of the signer list given to `sign` -/

set_option linter.unusedSectionVars false
set_option linter.unusedSimpArgs false

namespace IceFrost

open Finset

variable {F G R : Type} [Field F] [DecidableEq F] [AddCommGroup G] [Module F G] [DecidableEq G]

/-! ### C117 -/

theorem eraseIdx_of_nodup {α : Type} {l pre post : List α} {a : α} (hl : l.Nodup) {k : Nat} (hk : l[k]? = some a)
    (h : l = pre ++ a :: post) : pre ++ post = l.eraseIdx k := by
  subst h
  obtain ⟨h1, h2⟩ := List.getElem?_eq_some_iff.mp hk
  have h3 : (pre ++ a :: post)[pre.length]'(by simp) = a := by simp
  have : k = pre.length := (hl.getElem_inj_iff (hi := h1) (hj := by simp)).mp (h2.trans h3.symm)
  subst this
  simp [List.eraseIdx_append_of_length_le]

/-- C117, what one call does to the positions: on a list without repeated entries a successful call at position `k`
deletes the entry at `k`. Entries before `k` keep their position, every later entry moves one position to the front. -/
theorem C117_shift (S : Suite F G R) (dbg : Bool) (sk : IndividualSigningKey F) (msg : Bytes) (Y : G)
    (L : List (CommitmentShare F G)) (hL : L.Nodup) (k : UInt64) (signers : List (Signer G)) (p : PartialSignature F)
    (h : (sign S dbg sk msg Y L k signers).1 = .ok p) :
    (∀ j, j < k.toNat → (sign S dbg sk msg Y L k signers).2[j]? = L[j]?) ∧
    (∀ j, k.toNat ≤ j → (sign S dbg sk msg Y L k signers).2[j]? = L[j + 1]?) := by
  have key : (sign S dbg sk msg Y L k signers).2 = L.eraseIdx k.toNat := by
    unfold sign at h ⊢
    cases hc : signCore S dbg sk msg Y L k signers with
    | error f => rw [hc] at h; cases h
    | ok v =>
      have h1 := (signCore_ok S dbg sk msg Y L k signers v.1 v.2 hc).1
      obtain ⟨pre, post, h2, _, h3⟩ := dropShare_mem L v.2 (List.mem_of_getElem? h1)
      exact h3.trans (eraseIdx_of_nodup hL h1 h2)
  rw [key]
  refine ⟨fun j hj => ?_, fun j hj => ?_⟩
  · rw [List.getElem?_eraseIdx, if_pos hj]
  · rw [List.getElem?_eraseIdx, if_neg (by omega)]

theorem eq_filter_of_perm {α : Type} [DecidableEq α] {used l L : List α} (hL : L.Nodup) (hp : (used ++ l).Perm L)
    (hs : l.Sublist L) : l = L.filter fun c => decide (c ∉ used) := by
  have hn := hp.nodup_iff.mpr hL
  rw [List.nodup_append] at hn
  have h1 : l.filter (fun c => decide (c ∉ used)) = l := by
    rw [List.filter_eq_self]
    intro c hc
    exact decide_eq_true fun hu => hn.2.2 c hu c hc rfl
  have h2 : (l.filter fun c => decide (c ∉ used)).Sublist (L.filter fun c => decide (c ∉ used)) := hs.filter _
  rw [h1] at h2
  refine h2.eq_of_length_le ?_
  have h3 : (L.filter fun c => decide (c ∉ used)).Perm ((used ++ l).filter fun c => decide (c ∉ used)) :=
    (hp.filter _).symm
  rw [h3.length_eq, List.filter_append, h1, List.length_append]
  have : used.filter (fun c => decide (c ∉ used)) = [] := by
    rw [List.filter_eq_nil_iff]
    intro c hc
    simpa using hc
  rw [this]
  simp

theorem signHistory_sublist (S : Suite F G R) (dbg : Bool) (calls : List (SignCall F G))
    (L : List (CommitmentShare F G)) : (signHistory S dbg calls L).2.Sublist L := by
  induction calls generalizing L with
  | nil => exact List.Sublist.refl _
  | cons c cs ih =>
    rcases sign_perm S dbg c.key c.messageHash c.groupKey L c.position c.signers with ⟨f, h⟩ | ⟨p, share, L', h, _, _, h3⟩
    · simp only [signHistory, h]; exact ih L
    · simp only [signHistory, h]; exact (ih L').trans h3

/-- C117, the list after any history of calls on a list without repeated entries: the entries not used, in their
original order. -/
theorem C117_remaining (S : Suite F G R) (dbg : Bool) (calls : List (SignCall F G)) (L : List (CommitmentShare F G))
    (hL : L.Nodup) :
    (signHistory S dbg calls L).2 = L.filter fun c => decide (c ∉ usedShares (signHistory S dbg calls L).1) :=
  eq_filter_of_perm hL (C54_used_once S dbg calls L) (signHistory_sublist S dbg calls L)

theorem filter_getElem? {α : Type} (P : α → Bool) (l : List α) (k : Nat) (a : α) (hk : l[k]? = some a) (ha : P a = true) :
    (l.filter P)[((l.take k).filter P).length]? = some a := by
  obtain ⟨h1, h2⟩ := List.getElem?_eq_some_iff.mp hk
  conv_lhs => rw [← List.take_append_drop k l, List.filter_append, List.take_append_drop k l]
  rw [List.getElem?_append_right (le_refl _), Nat.sub_self, List.drop_eq_getElem_cons h1, h2, List.filter_cons_of_pos ha]
  rfl

/-- C117, corrected: after any history of calls on a list without repeated entries, the pair published at position `k`,
if not used yet, is at position `k` minus the number of used pairs that were published before it.

Missing for the full C117: that the position stays `k`; it does not, see `C117_second_pair_unreachable`. -/
theorem C117_position_partial (S : Suite F G R) (dbg : Bool) (calls : List (SignCall F G))
    (L : List (CommitmentShare F G)) (hL : L.Nodup) (k : Nat) (share : CommitmentShare F G) (hk : L[k]? = some share)
    (hu : share ∉ usedShares (signHistory S dbg calls L).1) :
    (signHistory S dbg calls L).2[k - ((L.take k).filter fun c =>
      decide (c ∈ usedShares (signHistory S dbg calls L).1)).length]? = some share := by
  have h := filter_getElem? (fun c => decide (c ∉ usedShares (signHistory S dbg calls L).1)) L k share hk
    (decide_eq_true hu)
  rw [← C117_remaining S dbg calls L hL] at h
  have hlen : ((L.take k).filter fun c => decide (c ∉ usedShares (signHistory S dbg calls L).1)).length =
      k - ((L.take k).filter fun c => decide (c ∈ usedShares (signHistory S dbg calls L).1)).length := by
    have h1 := List.length_eq_length_filter_add (l := L.take k)
      (fun c => decide (c ∈ usedShares (signHistory S dbg calls L).1))
    have h2 : (L.take k).length = k := by
      rw [List.length_take]
      have := (List.getElem?_eq_some_iff.mp hk).1
      omega
    have h3 : ((L.take k).filter fun c => decide (c ∉ usedShares (signHistory S dbg calls L).1)) =
        ((L.take k).filter fun c => !decide (c ∈ usedShares (signHistory S dbg calls L).1)) := by
      congr 1
      funext c
      simp
    rw [h3]
    omega
  rw [hlen] at h
  exact h

/-- C117, two disciplines that need no bookkeeping. Using position 0 every time consumes the pairs in the order they were
published: after `m` successful calls at position 0, and any number of failing ones, `m` pairs are gone from the front.
(Descending use from the last position is covered by `C117_shift`: entries before the used position do not move.) -/
theorem C117_front_partial (S : Suite F G R) (dbg : Bool) (calls : List (SignCall F G)) (L : List (CommitmentShare F G))
    (hL : L.Nodup) (h0 : ∀ c ∈ calls, c.position = 0) :
    (signHistory S dbg calls L).2 = L.drop ((signHistory S dbg calls L).1.filter fun e => e.2.2.isOk).length ∧
    usedShares (signHistory S dbg calls L).1 =
      L.take ((signHistory S dbg calls L).1.filter fun e => e.2.2.isOk).length := by
  induction calls generalizing L with
  | nil => simp [signHistory, usedShares]
  | cons c cs ih =>
    have hc : c.position = 0 := h0 c (by simp)
    cases hr : (sign S dbg c.key c.messageHash c.groupKey L c.position c.signers).1 with
    | error f =>
      have h2 := C55_failure_consumes_nothing S dbg c.key c.messageHash c.groupKey L c.position c.signers f hr
      obtain ⟨h3, h4⟩ := ih L hL (fun c hc => h0 c (by simp [hc]))
      simp only [signHistory, hr, h2, usedShares, List.filterMap_cons] at h3 h4 ⊢
      rw [List.filter_cons_of_neg (by simp [Except.isOk, Except.toBool])]
      exact ⟨h3, h4⟩
    | ok p =>
      obtain ⟨h1, h2⟩ := C117_shift S dbg c.key c.messageHash c.groupKey L hL c.position c.signers p hr
      obtain ⟨share, hsh, _⟩ := C55_success_consumes_one S dbg c.key c.messageHash c.groupKey L c.position c.signers p hr
      rw [hc] at h2 hsh
      cases L with
      | nil => simp at hsh
      | cons a L =>
        have hsh' : a = share := by simpa using hsh
        subst hsh'
        have h3 : (sign S dbg c.key c.messageHash c.groupKey (a :: L) c.position c.signers).2 = L := by
          apply List.ext_getElem?
          intro j
          rw [hc, h2 j (Nat.zero_le _)]
          rfl
        obtain ⟨h4, h5⟩ := ih L (List.nodup_cons.mp hL).2 (fun c hc => h0 c (by simp [hc]))
        simp only [signHistory, hr, h3, usedShares, List.filterMap_cons] at h4 h5 ⊢
        rw [List.filter_cons_of_pos (by simp [Except.isOk, Except.toBool]), List.length_cons, List.drop_succ_cons,
          List.take_succ_cons, hc]
        exact ⟨h4, by rw [h5]; rfl⟩

/-- C117, negation: of two precomputed pairs, the second cannot be used at the position at which it was published once
the first has been used: every call with position 1 returns `MissingCommitmentShares`, though the pair is there. -/
theorem C117_second_pair_unreachable (hu : Suite.U32Inj F) (S : Suite F G R) (dbg : Bool) (sk : IndividualSigningKey F)
    (msg : Bytes) (Y : G) (a b : CommitmentShare F G) (hab : a ≠ b) (signers : List (Signer G)) (p : PartialSignature F)
    (h : (sign S dbg sk msg Y [a, b] 0 signers).1 = .ok p) :
    (sign S dbg sk msg Y [a, b] 0 signers).2 = [b] ∧
    ∀ (sk' : IndividualSigningKey F) (msg' : Bytes) (Y' : G) (signers' : List (Signer G)),
      (sign S dbg sk' msg' Y' (sign S dbg sk msg Y [a, b] 0 signers).2 1 signers').1 =
        .error (.err .missingCommitmentShares) := by
  have hL : [a, b].Nodup := by simpa using hab
  have h2 := (C117_shift S dbg sk msg Y [a, b] hL 0 signers p h).2
  have h3 : (sign S dbg sk msg Y [a, b] 0 signers).2 = [b] := by
    apply List.ext_getElem?
    intro j
    rw [h2 j (Nat.zero_le _)]
    rfl
  refine ⟨h3, fun sk' msg' Y' signers' => ?_⟩
  rw [h3, C55_missing_iff_partial hu S dbg sk' msg' Y' [b] 1 (by decide) signers']
  exact Nat.le_refl 1

/-- C117, negation for longer lists: the call that names position 1 after position 0 has been used silently consumes the
pair published at position 2. -/
theorem C117_wrong_pair_used (S : Suite F G R) (dbg : Bool) (sk : IndividualSigningKey F)
    (msg : Bytes) (Y : G) (a b c : CommitmentShare F G) (L : List (CommitmentShare F G)) (hL : (a :: b :: c :: L).Nodup)
    (signers : List (Signer G)) (p : PartialSignature F)
    (h : (sign S dbg sk msg Y (a :: b :: c :: L) 0 signers).1 = .ok p)
    (sk' : IndividualSigningKey F) (msg' : Bytes) (Y' : G) (signers' : List (Signer G)) (p' : PartialSignature F)
    (h' : (sign S dbg sk' msg' Y' (sign S dbg sk msg Y (a :: b :: c :: L) 0 signers).2 1 signers').1 = .ok p') :
    (sign S dbg sk' msg' Y' (sign S dbg sk msg Y (a :: b :: c :: L) 0 signers).2 1 signers').2 = b :: L ∧
    p'.z = c.hidingC.secret + c.bindingC.secret * Spec.rho S msg' signers' sk'.index +
      Spec.lagrange (signers'.map (·.participantIndex)) sk'.index * sk'.key *
        Spec.sessionChallenge S Y' msg' signers' := by
  have h2 := (C117_shift S dbg sk msg Y _ hL 0 signers p h).2
  have h3 : (sign S dbg sk msg Y (a :: b :: c :: L) 0 signers).2 = b :: c :: L := by
    apply List.ext_getElem?
    intro j
    rw [h2 j (Nat.zero_le _)]
    rfl
  rw [h3] at h' ⊢
  have hbc : (b :: c :: L).Nodup := (List.nodup_cons.mp hL).2
  obtain ⟨h4, h5⟩ := C117_shift S dbg sk' msg' Y' _ hbc 1 signers' p' h'
  constructor
  · apply List.ext_getElem?
    intro j
    cases j with
    | zero => rw [h4 0 (by decide)]; rfl
    | succ j =>
      rw [h5 (j + 1) (by show 1 ≤ j + 1; omega)]
      rfl
  · unfold sign at h'
    cases hc : signCore S dbg sk' msg' Y' (b :: c :: L) 1 signers' with
    | error f => rw [hc] at h'; cases h'
    | ok v =>
      obtain ⟨k1, _, _, _, _, k2⟩ := signCore_ok S dbg sk' msg' Y' _ 1 signers' v.1 v.2 hc
      rw [hc] at h'
      simp only [Except.ok.injEq] at h'
      subst h'
      have : c = v.2 := by simpa using k1
      rw [this]
      exact k2

/-- C117, what a wrong pair does to the signature: a signer listed with the commitments of `listed` that signs with
`used` has a valid partial signature exactly if the two pairs give the same value `d + ρ e`. -/
theorem C117_mismatch_iff {S : Suite F G R} (hg : S.GroupLaws) (dbg : Bool) (sk : IndividualSigningKey F) (msg : Bytes)
    (Y : G) (L : List (CommitmentShare F G)) (k : UInt64) (signers : List (Signer G)) (p : PartialSignature F)
    (h : (sign S dbg sk msg Y L k signers).1 = .ok p) (used listed : CommitmentShare F G)
    (hs : L[k.toNat]? = some used)
    (hh : listed.hidingC.commit = listed.hidingC.secret • S.gen)
    (hb : listed.bindingC.commit = listed.bindingC.secret • S.gen) :
    Spec.PartialValid S Y msg signers ⟨sk.index, listed.publish⟩ (sk.toPublic S).share p.z ↔
      used.hidingC.secret + used.bindingC.secret * Spec.rho S msg signers sk.index =
        listed.hidingC.secret + listed.bindingC.secret * Spec.rho S msg signers sk.index := by
  unfold sign at h
  cases hc : signCore S dbg sk msg Y L k signers with
  | error f => rw [hc] at h; cases h
  | ok v =>
    rw [hc] at h
    obtain ⟨h1, _, _, _, _, h2⟩ := signCore_ok S dbg sk msg Y L k signers v.1 v.2 hc
    rw [hs] at h1
    simp only [Option.some.injEq] at h1
    simp only [Except.ok.injEq] at h
    subst h
    unfold Spec.PartialValid Spec.signerCommitment
    simp only [h2, ← h1, CommitmentShare.publish, hh, hb, IndividualSigningKey.toPublic]
    have e : (listed.hidingC.secret • S.gen + Spec.rho S msg signers sk.index • listed.bindingC.secret • S.gen +
        (Spec.sessionChallenge S Y msg signers * Spec.lagrange (signers.map (·.participantIndex)) sk.index) •
          sk.key • S.gen) = (listed.hidingC.secret + listed.bindingC.secret * Spec.rho S msg signers sk.index +
          Spec.lagrange (signers.map (·.participantIndex)) sk.index * sk.key *
            Spec.sessionChallenge S Y msg signers) • S.gen := by module
    rw [e]
    constructor
    · intro h
      exact add_right_cancel (hg.gen_inj _ _ h)
    · intro h
      rw [h]

/-! ### C118 -/

/-- C118, whether a call succeeds does not depend on the order of the signer list. -/
theorem C118_success (hu : Suite.U32Inj F) (S : Suite F G R) (dbg : Bool) (sk : IndividualSigningKey F)
    (msg : Bytes) (Y : G) (L : List (CommitmentShare F G)) (k : UInt64) (hL : L.length < 2 ^ 63)
    (signers signers' : List (Signer G)) (hp : signers.Perm signers') :
    (∃ p, (sign S dbg sk msg Y L k signers).1 = .ok p) ↔ ∃ p, (sign S dbg sk msg Y L k signers').1 = .ok p := by
  rw [C55_success_iff hu S dbg sk msg Y L k hL, C55_success_iff hu S dbg sk msg Y L k hL,
    (hp.map _).mem_iff, (hp.map _).mem_iff, (hp.map _).nodup_iff]

/-- C118, exact condition: a signer that uses the list `mine` in a session whose list is `signers` has a valid partial
signature exactly if the two lists lead to the same contribution. -/
theorem C118_list_iff {S : Suite F G R} (hg : S.GroupLaws) (dbg : Bool) (sk : IndividualSigningKey F) (msg : Bytes)
    (Y : G) (L : List (CommitmentShare F G)) (k : UInt64) (signers mine : List (Signer G)) (p : PartialSignature F)
    (h : (sign S dbg sk msg Y L k mine).1 = .ok p) (share : CommitmentShare F G) (hs : L[k.toNat]? = some share)
    (hh : share.hidingC.commit = share.hidingC.secret • S.gen)
    (hb : share.bindingC.commit = share.bindingC.secret • S.gen) :
    Spec.PartialValid S Y msg signers ⟨sk.index, share.publish⟩ (sk.toPublic S).share p.z ↔
      share.bindingC.secret * Spec.rho S msg mine sk.index +
        Spec.lagrange (mine.map (·.participantIndex)) sk.index * sk.key * Spec.sessionChallenge S Y msg mine =
      share.bindingC.secret * Spec.rho S msg signers sk.index +
        Spec.lagrange (signers.map (·.participantIndex)) sk.index * sk.key * Spec.sessionChallenge S Y msg signers := by
  unfold sign at h
  cases hc : signCore S dbg sk msg Y L k mine with
  | error f => rw [hc] at h; cases h
  | ok v =>
    rw [hc] at h
    obtain ⟨h1, _, _, _, _, h2⟩ := signCore_ok S dbg sk msg Y L k mine v.1 v.2 hc
    rw [hs] at h1
    simp only [Option.some.injEq] at h1
    simp only [Except.ok.injEq] at h
    subst h
    unfold Spec.PartialValid Spec.signerCommitment
    simp only [h2, ← h1, CommitmentShare.publish, hh, hb, IndividualSigningKey.toPublic]
    have e : (share.hidingC.secret • S.gen + Spec.rho S msg signers sk.index • share.bindingC.secret • S.gen +
        (Spec.sessionChallenge S Y msg signers * Spec.lagrange (signers.map (·.participantIndex)) sk.index) •
          sk.key • S.gen) = (share.hidingC.secret + (share.bindingC.secret * Spec.rho S msg signers sk.index +
          Spec.lagrange (signers.map (·.participantIndex)) sk.index * sk.key *
            Spec.sessionChallenge S Y msg signers)) • S.gen := by module
    rw [e, add_assoc]
    constructor
    · intro h
      exact add_left_cancel (hg.gen_inj _ _ h)
    · intro h
      rw [h]

/-- C118, corrected: a signer that sorts its list by index before it calls `sign` gets the session's list, whatever the
order in which the signers were announced to it.

Missing for the full C118: lists that are not sorted, see `C118_reordered_list_reported`. -/
theorem C118_sorted_partial (S : Suite F G R) (dbg : Bool) (params : Params) (Y : G) (message : Bytes)
    (ops : List (AggOp F G)) (mine : List (Signer G)) (hp : mine.Perm (session params Y message ops).state.signers)
    (hsort : (mine.map (·.participantIndex)).Pairwise (· < ·)) (sk : IndividualSigningKey F) (msg : Bytes)
    (L : List (CommitmentShare F G)) (k : UInt64) :
    mine = (session params Y message ops).state.signers ∧
    sign S dbg sk msg Y L k mine = sign S dbg sk msg Y L k (session params Y message ops).state.signers := by
  have h : mine = (session params Y message ops).state.signers := by
    have hs := C57_sorted (F := F) params Y message ops
    rw [List.pairwise_map] at hsort hs
    refine hp.eq_of_pairwise (le := fun a b => a.participantIndex < b.participantIndex) ?_ hsort hs
    intro a b _ _ h1 h2
    exact absurd (UInt32.lt_trans h1 h2) (UInt32.lt_irrefl _)
  exact ⟨h, by rw [h]⟩

theorem lastOf_append_unique {α : Type} {l l' : List (U32 × α)} {k : U32} {v : α} (hm : (k, v) ∈ l')
    (hu : ∀ v', (k, v') ∈ l' → v' = v) : Spec.lastOf (l ++ l') k = some v := by
  have h := lastOf_unique hm hu
  unfold Spec.lastOf at h ⊢
  rw [List.reverse_append, firstOf_append, h]
  rfl

/-- A suite with another field hash and everything else the same. -/
def Suite.withFieldHash (S : Suite F G R) (H : Bytes → Bytes → F) : Suite F G R := { S with fieldHash := H }

/-- C118, negation: signers `J` with keys of the group and honest nonce pairs; all but `j` sign for the session's list.
`j` signs for the same list in another order (`mine`), which `sign` accepts. Of `mine` it is only assumed that the
digest of its bytes differs from that of the session's list. Then there is a field hash function (nothing else of the
suite is changed) for which the aggregator reports `j`, and nobody else, as misbehaving. -/
theorem C118_reordered_list_reported {S : Suite F G R} (hg : S.GroupLaws) (hu : Suite.U32Inj F)
    (hl : ∀ b, (S.digest b).length = S.hashLen) (dbg : U32 → Bool) (params : Params)
    (message : Bytes) (J : List U32) (hJ : J.Nodup) (h0 : 0 ∉ J) (hne : J ≠ []) (hn : J.length ≤ params.n.toNat)
    (key : U32 → F) (s : F) (hs : Spec.interpolate J key = s)
    (L : U32 → List (CommitmentShare F G)) (hL : ∀ i ∈ J, (L i).length < 2 ^ 63) (pos : U32 → UInt64)
    (share : U32 → CommitmentShare F G) (hshare : ∀ i ∈ J, (L i)[(pos i).toNat]? = some (share i))
    (hcom : ∀ i ∈ J, (share i).hidingC.commit = (share i).hidingC.secret • S.gen ∧
      (share i).bindingC.commit = (share i).bindingC.secret • S.gen)
    (ops : List (AggOp F G))
    (hinc : ∀ e, e ∈ Spec.inclusions ops ↔ ∃ i ∈ J, e = (i, (share i).publish, key i • S.gen))
    (j : U32) (hj : j ∈ J) (hjb : (share j).bindingC.secret ≠ 0) (mine : List (Signer G))
    (hmine : mine.Perm (session (F := F) params (s • S.gen) message ops).state.signers)
    (hdig : S.h5 (Spec.signersBytes S mine) ≠
      S.h5 (Spec.signersBytes S (session (F := F) params (s • S.gen) message ops).state.signers)) :
    ∃ (H : Bytes → Bytes → F) (p : U32 → PartialSignature F),
      (∀ i ∈ J, i ≠ j → (sign (S.withFieldHash H) (dbg i) ⟨i, key i⟩ (Spec.messageHash S message) (s • S.gen) (L i)
        (pos i) (session params (s • S.gen) message ops).state.signers).1 = .ok (p i)) ∧
      (sign (S.withFieldHash H) (dbg j) ⟨j, key j⟩ (Spec.messageHash S message) (s • S.gen) (L j) (pos j) mine).1 =
        .ok (p j) ∧
      ∃ f, (session params (s • S.gen) message (ops ++ J.map fun i => .partialSig (p i))).finalize
          (S.withFieldHash H) = .ok f ∧
        f.aggregate (S.withFieldHash H) = .error (.err (.misbehavingParticipants [j])) := by
  classical
  set sg := (session (F := F) params (s • S.gen) message ops).state.signers with hsg
  set msg := Spec.messageHash S message with hmsg
  set H : Bytes → Bytes → F := fun dst m =>
    if dst = S.contextString ++ strBytes "rho" ∧ m = Spec.rhoInput S msg sg j then 1 else 0 with hH
  set T := S.withFieldHash H with hT
  have hgT : T.GroupLaws := ⟨hg.gen_inj, hg.gen_surj⟩
  obtain ⟨q, hq, hall⟩ := C66_deviators_reported hgT hu dbg params message J hJ h0 hne hn key s hs L hL pos share
    hshare hcom ops hinc
  have hmT : Spec.messageHash T message = msg := rfl
  have hgen : T.gen = S.gen := rfl
  rw [hmT, hgen] at hq
  -- the call of `j`
  obtain ⟨_, k2, _, _⟩ := (C55_success_iff hu T (dbg j) ⟨j, key j⟩ msg (s • S.gen) (L j) (pos j) (hL j hj) sg).mp
    ⟨_, hq j hj⟩
  obtain ⟨pj, hpj⟩ := (C118_success hu T (dbg j) ⟨j, key j⟩ msg (s • S.gen) (L j) (pos j) (hL j hj) mine sg hmine).mpr
    ⟨_, hq j hj⟩
  have hpji : pj.index = j := by
    unfold sign at hpj
    split at hpj
    · cases hpj
    · exact (congrArg PartialSignature.index (Except.ok.inj hpj)).symm
  have hqi : ∀ i ∈ J, (q i).index = i := by
    intro i hi
    have := hq i hi
    unfold sign at this
    split at this
    · cases this
    · exact (congrArg PartialSignature.index (Except.ok.inj this)).symm
  have hch : ∀ l, Spec.sessionChallenge T (s • S.gen) msg l = 0 := by
    intro l
    refine if_neg ?_
    rintro ⟨h, _⟩
    have := congrArg List.length (List.append_cancel_left h)
    exact absurd this (by decide)
  have hrho1 : Spec.rho T msg sg j = 1 := if_pos ⟨rfl, rfl⟩
  have hrho0 : Spec.rho T msg mine j = 0 := by
    refine if_neg ?_
    rintro ⟨_, h⟩
    exact hdig (C69_input_determines S hl _ _ _ _ _ _ h).2.1
  have hzj : pj.z ≠ (q j).z := by
    have e1 := (C56_share_equation T (dbg j) ⟨j, key j⟩ msg (s • S.gen) (L j) (pos j) sg (q j) (hq j hj) (share j)
      (hshare j hj) (hcom j hj).1 (hcom j hj).2 (by
        obtain ⟨x, hx, hxi⟩ := List.mem_map.mp k2
        obtain ⟨pk, hpk⟩ := (C57_first_inclusion params (s • S.gen) message ops).2 x hx
        obtain ⟨i, hi, he⟩ := (hinc _).mp (firstOf_mem hpk)
        simp only [Prod.mk.injEq] at he
        have hij : i = j := by rw [← he.1]; exact hxi
        have hx' : x = ⟨j, (share j).publish⟩ := by
          obtain ⟨xi, xs⟩ := x
          simp only at hxi he
          rw [hxi, he.2.1, hij]
        rw [← hx']; exact hx)).2
    intro hz
    rw [← hz] at e1
    have e2 := (C118_list_iff hgT (dbg j) ⟨j, key j⟩ msg (s • S.gen) (L j) (pos j) sg mine pj hpj (share j) (hshare j hj)
      (hcom j hj).1 (hcom j hj).2).mp e1
    simp only [hch, hrho1, hrho0, mul_zero, mul_one, add_zero] at e2
    exact hjb e2.symm
  set p : U32 → PartialSignature F := fun i => if i = j then pj else q i with hp
  have hpi : ∀ i ∈ J, (p i).index = i := by
    intro i hi
    rw [hp]
    by_cases h : i = j
    · simp only [h, if_true]; exact hpji
    · simp only [h, if_false]; exact hqi i hi
  have hpart : Spec.partials (F := F) (G := G) (J.map fun i => .partialSig (p i)) = J.map fun i => (i, (p i).z) := by
    unfold Spec.partials
    rw [List.filterMap_map]
    have : ∀ l : List U32, (∀ i ∈ l, i ∈ J) → l.filterMap ((fun op : AggOp F G => match op with
        | .signer _ _ _ => none
        | .partialSig p => some (p.index, p.z)) ∘ fun i => .partialSig (p i)) = l.map fun i => (i, (p i).z) := by
      intro l hl'
      induction l with
      | nil => rfl
      | cons i l ih =>
        rw [List.filterMap_cons, List.map_cons, ← ih (fun i hi => hl' i (by simp [hi]))]
        simp only [Function.comp, hpi i (hl' i (by simp))]
    exact this J (fun _ h => h)
  obtain ⟨f, hf, _, hrep⟩ := hall (J.map fun i => .partialSig (p i)) (fun i => (p i).z) (by
    intro e he
    exfalso
    unfold Spec.inclusions at he
    rw [List.filterMap_map] at he
    obtain ⟨i, _, hi⟩ := List.mem_filterMap.mp he
    simp at hi) (by
    intro i hi
    rw [partials_append, hpart]
    refine lastOf_append_unique ?_ ?_
    · exact List.mem_map.mpr ⟨i, hi, rfl⟩
    · intro v hv
      obtain ⟨i', _, he⟩ := List.mem_map.mp hv
      simp only [Prod.mk.injEq] at he
      rw [← he.2, he.1])
  refine ⟨H, p, fun i hi hij => ?_, ?_, f, hf, ?_⟩
  · rw [hp]; simp only [hij, if_false]; exact hq i hi
  · rw [hp]; simp only [if_true]; exact hpj
  · have hsum : (J.map fun i => (p i).z).sum ≠ (J.map fun i => (q i).z).sum := by
      intro h
      rw [← List.sum_toFinset _ hJ, ← List.sum_toFinset _ hJ] at h
      have h1 := Finset.add_sum_erase J.toFinset (fun i => (p i).z) (List.mem_toFinset.mpr hj)
      have h2 := Finset.add_sum_erase J.toFinset (fun i => (q i).z) (List.mem_toFinset.mpr hj)
      have h3 : ∑ i ∈ J.toFinset.erase j, (p i).z = ∑ i ∈ J.toFinset.erase j, (q i).z := by
        refine Finset.sum_congr rfl fun i hi => ?_
        rw [hp]; simp only [Finset.ne_of_mem_erase hi, if_false]
      rw [← h1, ← h2, h3] at h
      have h4 := add_right_cancel h
      rw [hp] at h4
      simp only [if_true] at h4
      exact hzj h4
    obtain ⟨l, hl1, hl2, hl3⟩ := hrep hsum
    have : l = [j] := by
      refine eq_of_strict_of_mem hl2 (List.pairwise_singleton _ _) fun i => ?_
      rw [hl3, List.mem_singleton]
      constructor
      · rintro ⟨_, hne'⟩
        by_contra hij
        exact hne' (by rw [hp]; simp only [hij, if_false])
      · rintro rfl
        exact ⟨hj, by rw [hp]; simp only [if_true]; exact hzj⟩
    rw [hl1, this]

/-! ### Concrete cases -/

namespace PositionExamples

open Toy SigningExamples

theorem signs (L : List (CommitmentShare Fp Fp)) (hL : L.length < 2 ^ 63) (k : UInt64) (hk : k.toNat < L.length) :
    ∃ p, (sign suite true ⟨3, key 3⟩ [1] 42 L k [⟨3, (share 3).publish⟩]).1 = .ok p :=
  (C55_success_iff u32_inj suite true ⟨3, key 3⟩ [1] 42 L k hL [⟨3, (share 3).publish⟩]).mpr
    ⟨hk, by simp, by simp, by simp⟩

theorem share_ne {i j : U32} (h : i ≠ j) : share i ≠ share j := by
  intro he
  have h1 := congrArg (fun c : CommitmentShare Fp Fp => c.hidingC.secret) he
  exact h (u32_inj _ _ (add_right_cancel h1))

/-- C117: two pairs, the first used, the second asked for at position 1. -/
example : (sign suite true ⟨3, key 3⟩ [1] 42 (sign suite true ⟨3, key 3⟩ [1] 42 [share 3, share 4] 0
    [⟨3, (share 3).publish⟩]).2 1 [⟨3, (share 4).publish⟩]).1 = .error (.err .missingCommitmentShares) := by
  obtain ⟨p, hp⟩ := signs [share 3, share 4] (by decide) 0 (by decide)
  exact (C117_second_pair_unreachable u32_inj suite true _ _ _ _ _ (share_ne (by decide)) _ p hp).2 _ _ _ _

/-- C117: of four pairs the one at position 1 is used; the pair published at position 3 is then at position 2. -/
example : (signHistory suite true [⟨⟨3, key 3⟩, [1], 42, 1, [⟨3, (share 3).publish⟩]⟩]
    [share 3, share 4, share 5, share 6]).2[2]? = some (share 6) := by
  have hn : [share 3, share 4, share 5, share 6].Nodup := by
    simp [share_ne]
  obtain ⟨p, hp⟩ := signs [share 3, share 4, share 5, share 6] (by decide) 1 (by decide)
  have hused : usedShares (signHistory suite true [⟨⟨3, key 3⟩, [1], 42, 1, [⟨3, (share 3).publish⟩]⟩]
      [share 3, share 4, share 5, share 6]).1 = [share 4] := by
    simp only [signHistory, usedShares, hp, List.filterMap_cons, List.filterMap_nil]
    rfl
  have h := C117_position_partial suite true [⟨⟨3, key 3⟩, [1], 42, 1, [⟨3, (share 3).publish⟩]⟩]
    [share 3, share 4, share 5, share 6] hn 3 (share 6) rfl (by rw [hused]; simp [share_ne])
  rw [hused] at h
  have e : ([share 3, share 4, share 5, share 6].take 3).filter (fun c => decide (c ∈ [share 4])) = [share 4] := by
    simp [List.filter_cons, share_ne]
  rw [e] at h
  exact h

/-- The toy suite with a digest that reads the end of its input. -/
def tail : Suite Fp Fp Nat := { suite with digest := fun bs => leBytes 8 (leNat bs.reverse) }

theorem tail_signers : (session (F := Fp) ⟨3, 2⟩ (Spec.polyEval [(42 : Fp), 7] 0 • tail.gen) (strBytes "hello")
    ops).state.signers = [⟨1, (share 1).publish⟩, ⟨3, (share 3).publish⟩] := by
  have h := C57_first_inclusion (F := Fp) ⟨3, 2⟩ (Spec.polyEval [(42 : Fp), 7] 0 • tail.gen) (strBytes "hello") ops
  have hs := C57_sorted (F := Fp) ⟨3, 2⟩ (Spec.polyEval [(42 : Fp), 7] 0 • tail.gen) (strBytes "hello") ops
  rw [List.pairwise_map] at hs
  have hm : ∀ x, x ∈ (session (F := Fp) ⟨3, 2⟩ (Spec.polyEval [(42 : Fp), 7] 0 • tail.gen) (strBytes "hello")
      ops).state.signers ↔ x ∈ [(⟨1, (share 1).publish⟩ : Signer Fp), ⟨3, (share 3).publish⟩] := by
    have hfirst : ∀ x ∈ (session (F := Fp) ⟨3, 2⟩ (Spec.polyEval [(42 : Fp), 7] 0 • tail.gen) (strBytes "hello")
        ops).state.signers, x.share = (share x.participantIndex).publish ∧
          (x.participantIndex = 1 ∨ x.participantIndex = 3) := by
      intro x hx
      obtain ⟨pk, hpk⟩ := h.2 x hx
      obtain ⟨i, hi, he⟩ := (hinc _).mp (firstOf_mem hpk)
      simp only [Prod.mk.injEq] at he
      rw [he.1]
      exact ⟨he.2.1, by simpa using hi⟩
    intro x
    constructor
    · intro hx
      obtain ⟨h1, h2⟩ := hfirst x hx
      obtain ⟨xi, xs⟩ := x
      simp only at h1 h2
      rcases h2 with rfl | rfl <;> simp [h1]
    · intro hx
      have hx1 : x.participantIndex ∈ Spec.included ops := by
        simp only [List.mem_cons, List.not_mem_nil, or_false] at hx
        rcases hx with rfl | rfl <;> simp [Spec.included, inclusions_ops]
      obtain ⟨y, hy, hyx⟩ := List.mem_map.mp ((h.1 _).mpr hx1)
      have h3 := (hfirst y hy).1
      have : y = x := by
        obtain ⟨yi, ys⟩ := y
        simp only at hyx h3
        simp only [List.mem_cons, List.not_mem_nil, or_false] at hx
        rcases hx with rfl | rfl <;> simp only at hyx <;> rw [h3, hyx]
      rw [← this]; exact hy
  have hp : (session (F := Fp) ⟨3, 2⟩ (Spec.polyEval [(42 : Fp), 7] 0 • tail.gen) (strBytes "hello")
      ops).state.signers.Perm [(⟨1, (share 1).publish⟩ : Signer Fp), ⟨3, (share 3).publish⟩] :=
    (List.perm_ext_iff_of_nodup (List.Pairwise.imp (S := fun a b => a ≠ b)
      (fun h he => absurd h (by rw [he]; exact UInt32.lt_irrefl _)) hs) (by simp)).mpr hm
  refine hp.eq_of_pairwise (le := fun a b => a.participantIndex < b.participantIndex) ?_ hs (by simp)
  intro a b _ _ h1 h2
  exact absurd (UInt32.lt_trans h1 h2) (UInt32.lt_irrefl _)

/-- C118: signer 3 was told the list as `3, 1`. -/
example := C118_reordered_list_reported (S := tail) ⟨group_laws.gen_inj, group_laws.gen_surj⟩ u32_inj
  (fun _ => leBytes_length _ _) (fun _ => true) ⟨3, 2⟩ (strBytes "hello") [1, 3] (by decide) (by decide) (by decide)
  (by decide) key _ (key_shares [1, 3] (by decide) (by decide)) (fun i => [share i, share 2]) (fun _ _ => by simp)
  (fun _ => 0) share (fun _ _ => rfl) (fun _ _ => ⟨rfl, rfl⟩) ops hinc 3 (by decide) (by
    show (u32F Fp 3 + 9 : Fp) ≠ 0
    decide) [⟨3, (share 3).publish⟩, ⟨1, (share 1).publish⟩] (by rw [tail_signers]; exact List.Perm.swap _ _ _) (by
    rw [tail_signers]
    have e1 : tail.h5 (Spec.signersBytes tail [⟨3, (share 3).publish⟩, ⟨1, (share 1).publish⟩]) ≠
      tail.h5 (Spec.signersBytes tail [⟨1, (share 1).publish⟩, ⟨3, (share 3).publish⟩]) := by decide
    exact e1)

end PositionExamples

end IceFrost
