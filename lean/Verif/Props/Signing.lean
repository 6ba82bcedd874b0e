import Verif.Lemmas.Signing
import Verif.Toy

/-! # C52–C56, C63 and C67 (for `sign` and `verify`): precomputation, signing, verification -/

set_option linter.unusedSectionVars false
set_option linter.unusedSimpArgs false

namespace IceFrost

open Finset

variable {F G R : Type} [Field F] [DecidableEq F] [AddCommGroup G] [Module F G] [DecidableEq G]

/-! ### Precomputation -/

namespace Spec

/-- `k` successive draws of `len` random bytes. -/
def draws (S : Suite F G R) (len : Nat) : Nat → R → List Bytes
  | 0, _ => []
  | k + 1, rng => (S.randBytes len rng).1 :: draws S len k (S.randBytes len rng).2

/-- The nonce made from some random bytes and a signing key: the hash of the bytes and the encoded key. -/
def nonce (S : Suite F G R) (sk : IndividualSigningKey F) (random : Bytes) : F :=
  S.fieldHash (S.contextString ++ strBytes "nonce") (random ++ (u32le sk.index ++ S.encF sk.key))

end Spec

theorem nonceGenerate_eq (S : Suite F G R) (sk : IndividualSigningKey F) (rng : R) :
    nonceGenerate S sk rng = (Spec.nonce S sk (S.randBytes S.hashLen rng).1, (S.randBytes S.hashLen rng).2) := rfl

theorem commitmentShares_spec (S : Suite F G R) (sk : IndividualSigningKey F) (k : Nat) (rng : R) :
    (commitmentShares S sk k rng).1.length = k ∧
    (∀ c ∈ (commitmentShares S sk k rng).1, c.hidingC.commit = c.hidingC.secret • S.gen ∧
      c.bindingC.commit = c.bindingC.secret • S.gen) ∧
    (commitmentShares S sk k rng).1.flatMap (fun c => [c.hidingC.secret, c.bindingC.secret]) =
      (Spec.draws S S.hashLen (2 * k) rng).map (Spec.nonce S sk) := by
  induction k generalizing rng with
  | zero => simp [commitmentShares, Spec.draws]
  | succ k ih =>
    obtain ⟨h1, h2, h3⟩ := ih (S.randBytes S.hashLen (S.randBytes S.hashLen rng).2).2
    have he : commitmentShares S sk (k + 1) rng =
        (⟨⟨Spec.nonce S sk (S.randBytes S.hashLen rng).1, Spec.nonce S sk (S.randBytes S.hashLen rng).1 • S.gen⟩,
          ⟨Spec.nonce S sk (S.randBytes S.hashLen (S.randBytes S.hashLen rng).2).1,
            Spec.nonce S sk (S.randBytes S.hashLen (S.randBytes S.hashLen rng).2).1 • S.gen⟩⟩ ::
          (commitmentShares S sk k (S.randBytes S.hashLen (S.randBytes S.hashLen rng).2).2).1,
          (commitmentShares S sk k (S.randBytes S.hashLen (S.randBytes S.hashLen rng).2).2).2) := rfl
    rw [he]
    refine ⟨by simp [h1], ?_, ?_⟩
    · intro c hc
      rcases List.mem_cons.mp hc with rfl | hc
      · exact ⟨rfl, rfl⟩
      · exact h2 c hc
    · have hk : 2 * (k + 1) = 2 * k + 1 + 1 := by ring
      simp only [List.flatMap_cons, h3, hk, Spec.draws, List.map_cons]
      rfl

/-- C52: `k` secret shares and `k` published pairs are returned; position by position the published pair is `g` to
the hiding and binding nonces, and the list is labelled with the key's index. -/
theorem C52_published (S : Suite F G R) (rng : R) (sk : IndividualSigningKey F) (k : Nat) :
    (generateCommitmentShareLists S rng sk k).2.length = k ∧
    (generateCommitmentShareLists S rng sk k).1.participantIndex = sk.index ∧
    (generateCommitmentShareLists S rng sk k).1.commitments.length = k ∧
    ∀ j (h : j < k), ∃ c, (generateCommitmentShareLists S rng sk k).2[j]? = some c ∧
      (generateCommitmentShareLists S rng sk k).1.commitments[j]? =
        some (c.hidingC.secret • S.gen, c.bindingC.secret • S.gen) ∧
      c.hidingC.commit = c.hidingC.secret • S.gen ∧ c.bindingC.commit = c.bindingC.secret • S.gen := by
  obtain ⟨h1, h2, _⟩ := commitmentShares_spec S sk k rng
  have e1 : (generateCommitmentShareLists S rng sk k).2 = (commitmentShares S sk k rng).1 := rfl
  have e2 : (generateCommitmentShareLists S rng sk k).1.commitments =
    (commitmentShares S sk k rng).1.map (·.publish) := rfl
  rw [e1, e2]
  refine ⟨h1, rfl, by simp [h1], fun j h => ?_⟩
  have hj : j < (commitmentShares S sk k rng).1.length := by omega
  have hc := h2 _ (List.getElem_mem hj)
  refine ⟨_, List.getElem?_eq_getElem hj, ?_, hc.1, hc.2⟩
  rw [List.getElem?_map, List.getElem?_eq_getElem hj]
  simp only [Option.map_some, CommitmentShare.publish, hc.1, hc.2]

/-- C52, the nonces: in order, hiding before binding, they are the hashes of `2k` successive draws of random bytes,
each together with the signing key. No draw is used twice. -/
theorem C52_nonces (S : Suite F G R) (rng : R) (sk : IndividualSigningKey F) (k : Nat) :
    (generateCommitmentShareLists S rng sk k).2.flatMap (fun c => [c.hidingC.secret, c.bindingC.secret]) =
      (Spec.draws S S.hashLen (2 * k) rng).map (Spec.nonce S sk) :=
  (commitmentShares_spec S sk k rng).2.2

theorem nodup_of_flatMap_pair {α β : Type} (f g : α → β) (l : List α)
    (h : (l.flatMap fun a => [f a, g a]).Nodup) : l.Nodup := by
  induction l with
  | nil => simp
  | cons a l ih =>
    rw [List.flatMap_cons, List.cons_append, List.nodup_cons] at h
    obtain ⟨h1, h2⟩ := h
    rw [List.singleton_append, List.nodup_cons] at h2
    refine List.nodup_cons.mpr ⟨fun ha => h1 ?_, ih h2.2⟩
    rw [List.mem_append, List.mem_flatMap]
    exact Or.inr ⟨a, ha, by simp⟩

/-- C52, consequence for C54: if the random draws differ and the nonce hash has no collision on them, the generated
list has no repeated entry, and no nonce occurs twice in it. -/
theorem C52_nodup (S : Suite F G R) (rng : R) (sk : IndividualSigningKey F) (k : Nat)
    (hd : (Spec.draws S S.hashLen (2 * k) rng).Nodup)
    (hinj : ∀ a ∈ Spec.draws S S.hashLen (2 * k) rng, ∀ b ∈ Spec.draws S S.hashLen (2 * k) rng,
      Spec.nonce S sk a = Spec.nonce S sk b → a = b) :
    (generateCommitmentShareLists S rng sk k).2.Nodup ∧
    ((generateCommitmentShareLists S rng sk k).2.flatMap
      (fun c => [c.hidingC.secret, c.bindingC.secret])).Nodup := by
  have h : ((generateCommitmentShareLists S rng sk k).2.flatMap
      (fun c => [c.hidingC.secret, c.bindingC.secret])).Nodup := by
    rw [C52_nonces]
    exact List.Nodup.map_on hinj hd
  exact ⟨nodup_of_flatMap_pair _ _ _ h, h⟩

/-- C53: a share in the list is removed once (its last occurrence) and everything else keeps its place; a share not in
the list changes nothing. -/
theorem C53_drop_share (l : List (CommitmentShare F G)) (share : CommitmentShare F G) :
    (share ∈ l → ∃ pre post, l = pre ++ share :: post ∧ share ∉ post ∧ dropShare l share = pre ++ post) ∧
    (share ∉ l → dropShare l share = l) :=
  ⟨dropShare_mem l share, dropShare_not_mem l share⟩

/-- C53, multiplicities: exactly one copy of the given share disappears. -/
theorem C53_count (l : List (CommitmentShare F G)) (share c : CommitmentShare F G) :
    (dropShare l share).count c = l.count c - (if c = share then 1 else 0) := by
  by_cases h : share ∈ l
  · obtain ⟨pre, post, h1, _, h2⟩ := dropShare_mem l share h
    rw [h2, h1, List.count_append, List.count_append, List.count_cons]
    by_cases hc : c = share
    · subst hc; simp
    · have : ¬ share = c := fun e => hc e.symm
      simp [hc, this]
  · rw [dropShare_not_mem l share h]
    by_cases hc : c = share
    · subst hc
      rw [List.count_eq_zero.mpr h]; simp
    · simp [hc]

/-! ### Histories of sign calls -/

/-- The arguments of one `sign` call, except the secret list. -/
structure SignCall (F G : Type) where
  key : IndividualSigningKey F
  messageHash : Bytes
  groupKey : G
  position : UInt64
  signers : List (Signer G)

/-- A history of `sign` calls on one secret list: for every call the list it was given and its result; and the list
afterwards. -/
def signHistory (S : Suite F G R) (dbg : Bool) : List (SignCall F G) → List (CommitmentShare F G) →
    List (SignCall F G × List (CommitmentShare F G) × Res F G (PartialSignature F)) × List (CommitmentShare F G)
  | [], L => ([], L)
  | c :: cs, L =>
    let r := sign S dbg c.key c.messageHash c.groupKey L c.position c.signers
    let rest := signHistory S dbg cs r.2
    ((c, L, r.1) :: rest.1, rest.2)

/-- The commitment shares used by the successful calls of a history: the entry of the list given to the call at the
position given to the call. -/
def usedShares (h : List (SignCall F G × List (CommitmentShare F G) × Res F G (PartialSignature F))) :
    List (CommitmentShare F G) :=
  h.filterMap fun e => match e.2.2 with
    | .ok _ => e.2.1[e.1.position.toNat]?
    | .error _ => none

theorem sign_perm (S : Suite F G R) (dbg : Bool) (sk : IndividualSigningKey F) (msg : Bytes) (Y : G)
    (L : List (CommitmentShare F G)) (k : UInt64) (signers : List (Signer G)) :
    (∃ f, sign S dbg sk msg Y L k signers = (.error f, L)) ∨
    ∃ p share L', sign S dbg sk msg Y L k signers = (.ok p, L') ∧ L[k.toNat]? = some share ∧
      L.Perm (share :: L') ∧ L'.Sublist L := by
  unfold sign
  cases h : signCore S dbg sk msg Y L k signers with
  | error f => exact Or.inl ⟨f, rfl⟩
  | ok v =>
    obtain ⟨z, share⟩ := v
    have hs := (signCore_ok S dbg sk msg Y L k signers z share h).1
    obtain ⟨pre, post, h1, _, h2⟩ := dropShare_mem L share (List.mem_of_getElem? hs)
    refine Or.inr ⟨_, share, _, rfl, hs, ?_, ?_⟩
    · rw [h2]
      conv_lhs => rw [h1]
      exact List.perm_middle
    · rw [h2, h1]
      exact List.Sublist.append_left (List.sublist_cons_self _ _) _

/-- C54: whatever calls are made, with whatever keys, messages, positions and signer lists, the shares used by the
successful calls together with the shares left in the list are exactly the original list, with multiplicities. -/
theorem C54_used_once (S : Suite F G R) (dbg : Bool) (calls : List (SignCall F G)) (L : List (CommitmentShare F G)) :
    (usedShares (signHistory S dbg calls L).1 ++ (signHistory S dbg calls L).2).Perm L := by
  induction calls generalizing L with
  | nil => exact List.Perm.refl _
  | cons c cs ih =>
    rcases sign_perm S dbg c.key c.messageHash c.groupKey L c.position c.signers with ⟨f, h⟩ | ⟨p, share, L', h, h1, h2, _⟩
    · have := ih L
      simp only [signHistory, h, usedShares, List.filterMap_cons] at this ⊢
      exact this
    · have := ih L'
      simp only [signHistory, h, usedShares, List.filterMap_cons, h1] at this ⊢
      rw [List.cons_append]
      exact (this.cons share).trans h2.symm

/-- C54: on a list without repeated entries no two successful calls use the same commitment share, and no share still
in the list has been used. -/
theorem C54_never_reused (S : Suite F G R) (dbg : Bool) (calls : List (SignCall F G)) (L : List (CommitmentShare F G))
    (hL : L.Nodup) :
    (usedShares (signHistory S dbg calls L).1).Nodup ∧
    ∀ c ∈ usedShares (signHistory S dbg calls L).1, c ∉ (signHistory S dbg calls L).2 := by
  have h := (C54_used_once S dbg calls L).nodup_iff.mpr hL
  rw [List.nodup_append] at h
  exact ⟨h.1, fun c hc hc' => h.2.2 c hc c hc' rfl⟩

/-- C54, counting: `k` shares support at most `k` signatures, and each successful call uses one. -/
theorem C54_count (S : Suite F G R) (dbg : Bool) (calls : List (SignCall F G)) (L : List (CommitmentShare F G)) :
    ((signHistory S dbg calls L).1.filter fun e => e.2.2.isOk).length + (signHistory S dbg calls L).2.length =
      L.length := by
  induction calls generalizing L with
  | nil => simp [signHistory]
  | cons c cs ih =>
    rcases sign_perm S dbg c.key c.messageHash c.groupKey L c.position c.signers with ⟨f, h⟩ | ⟨p, share, L', h, h1, h2, _⟩
    · have := ih L
      simp only [signHistory, h] at this ⊢
      rw [List.filter_cons_of_neg (by simp [Except.isOk, Except.toBool])]
      exact this
    · have := ih L'
      simp only [signHistory, h] at this ⊢
      rw [List.filter_cons_of_pos (by simp [Except.isOk, Except.toBool]), h2.length_eq, List.length_cons, List.length_cons]
      omega

/-- C55, first half: a call that does not succeed (whether it returns an error or panics) leaves the secret list as it
was; a successful call removes the chosen share and nothing else. -/
theorem C55_failure_consumes_nothing (S : Suite F G R) (dbg : Bool) (sk : IndividualSigningKey F) (msg : Bytes) (Y : G)
    (L : List (CommitmentShare F G)) (k : UInt64) (signers : List (Signer G)) (f : Fail F G)
    (h : (sign S dbg sk msg Y L k signers).1 = .error f) : (sign S dbg sk msg Y L k signers).2 = L := by
  rcases sign_perm S dbg sk msg Y L k signers with ⟨f', h'⟩ | ⟨p, share, L', h', _⟩
  · rw [h']
  · rw [h'] at h; cases h

theorem C55_success_consumes_one (S : Suite F G R) (dbg : Bool) (sk : IndividualSigningKey F) (msg : Bytes) (Y : G)
    (L : List (CommitmentShare F G)) (k : UInt64) (signers : List (Signer G)) (p : PartialSignature F)
    (h : (sign S dbg sk msg Y L k signers).1 = .ok p) :
    ∃ share, L[k.toNat]? = some share ∧ L.Perm (share :: (sign S dbg sk msg Y L k signers).2) ∧
      (sign S dbg sk msg Y L k signers).2.Sublist L := by
  rcases sign_perm S dbg sk msg Y L k signers with ⟨f', h'⟩ | ⟨p, share, L', h', h1, h2, h3⟩
  · rw [h'] at h; cases h
  · rw [h']; exact ⟨share, h1, h2, h3⟩

/-- C55, second half, for every position but `usize::MAX`: `MissingCommitmentShares` is returned exactly when the
position is past the end of the list.

Missing for the full C55: position `usize::MAX`, see the next theorem. -/
theorem C55_missing_iff_partial (hu : Suite.U32Inj F) (S : Suite F G R) (dbg : Bool) (sk : IndividualSigningKey F)
    (msg : Bytes) (Y : G) (L : List (CommitmentShare F G)) (k : UInt64) (hk : k ≠ UInt64.ofNat (2 ^ 64 - 1))
    (signers : List (Signer G)) :
    (sign S dbg sk msg Y L k signers).1 = .error (.err .missingCommitmentShares) ↔ L.length ≤ k.toNat := by
  unfold sign
  rw [signCore_cases hu S dbg sk msg Y L k hk]
  by_cases hL : k.toNat < L.length
  · rw [List.getElem?_eq_getElem hL]
    simp only
    constructor
    · intro h
      exfalso
      split at h
      · next f hf =>
        simp only [Except.error.injEq] at h
        subst h
        split_ifs at hf
        all_goals simp only [Except.error.injEq, reduceCtorEq, Fail.err.injEq] at hf
      · cases h
    · intro h; omega
  · rw [List.getElem?_eq_none (by omega)]
    exact ⟨fun _ => by omega, fun _ => rfl⟩

/-- C55 fails at position `usize::MAX`, which is past the end of every `Vec`: the position plus one overflows. With
overflow checks the call panics; without them the length check passes and the call panics when it reads the list
(`signers`, `sk` and message may be any that an honest party would use). It never returns
`MissingCommitmentShares`. -/
theorem C55_max_position_panics (hu : Suite.U32Inj F) (S : Suite F G R) (dbg : Bool) (sk : IndividualSigningKey F)
    (msg : Bytes) (Y : G) (L : List (CommitmentShare F G)) (hL : L.length < 2 ^ 63) (signers : List (Signer G))
    (hi : sk.index ∈ signers.map (·.participantIndex)) (hn : (signers.map (·.participantIndex)).Nodup)
    (h0 : 0 ∉ signers.map (·.participantIndex)) :
    (sign S dbg sk msg Y L (UInt64.ofNat (2 ^ 64 - 1)) signers).1 =
      .error (.panic (if dbg then .overflow else .outOfBounds)) := by
  unfold sign
  cases dbg with
  | true => rfl
  | false =>
    have hs : signers ≠ [] := by rintro rfl; simp at hi
    obtain ⟨m, h1, h2, h3⟩ := session_ok S msg hs
    have hc : signCore S false sk msg Y L (UInt64.ofNat (2 ^ 64 - 1)) signers = .error (.panic .outOfBounds) := by
      unfold signCore
      have e1 : (UInt64.ofNat (2 ^ 64 - 1) + 1).toNat = 0 := by decide
      have e2 : (UInt64.ofNat (2 ^ 64 - 1)).toNat = 2 ^ 64 - 1 := by decide
      rw [e1, e2]
      simp only [Bool.false_and, Bool.false_eq_true, if_false, Nat.not_lt_zero, gt_iff_lt]
      rw [h1]
      simp only [bindingFactorFor, h2, if_pos hi, h3, lagrangeCoeff_ok hu hn h0]
      rw [List.getElem?_eq_none (by omega)]
    rw [hc]
    rfl

/-- C67, `sign`: with a non-empty signer list and a position other than `usize::MAX` the call returns a `Result`.

Missing for the full C67: the two cases in which it panics (`C67_sign_empty_panics`, `C55_max_position_panics`) and
those of `aggregate` (in `Verif.Props.Aggregation`). -/
theorem C67_sign_no_panic_partial (hu : Suite.U32Inj F) (S : Suite F G R) (dbg : Bool) (sk : IndividualSigningKey F)
    (msg : Bytes) (Y : G) (L : List (CommitmentShare F G)) (k : UInt64) (hk : k ≠ UInt64.ofNat (2 ^ 64 - 1))
    (signers : List (Signer G)) (hs : signers ≠ []) (site : PanicSite) :
    (sign S dbg sk msg Y L k signers).1 ≠ .error (.panic site) := by
  intro h
  unfold sign at h
  rw [signCore_cases hu S dbg sk msg Y L k hk] at h
  split at h
  · next f hf =>
    simp only [Except.error.injEq] at h
    subst h
    split at hf
    · cases hf
    · rw [if_neg hs] at hf
      split_ifs at hf
      all_goals simp only [Except.error.injEq, reduceCtorEq] at hf
  · cases h

/-- C67 fails for `sign`: with an empty signer list and any usable share it panics. -/
theorem C67_sign_empty_panics (S : Suite F G R) (dbg : Bool) (sk : IndividualSigningKey F)
    (msg : Bytes) (Y : G) (L : List (CommitmentShare F G)) (k : UInt64) (hk : k ≠ UInt64.ofNat (2 ^ 64 - 1))
    (hL : k.toNat < L.length) :
    (sign S dbg sk msg Y L k []).1 = .error (.panic .outOfBounds) := by
  unfold sign
  rw [signCore_nil S dbg sk msg Y L k hL hk]

/-- When `sign` succeeds: exactly for a share in the list and a signer list that has the signer in it, has no repeated
index and no index 0. -/
theorem C55_success_iff (hu : Suite.U32Inj F) (S : Suite F G R) (dbg : Bool) (sk : IndividualSigningKey F)
    (msg : Bytes) (Y : G) (L : List (CommitmentShare F G)) (k : UInt64) (hL : L.length < 2 ^ 63)
    (signers : List (Signer G)) :
    (∃ p, (sign S dbg sk msg Y L k signers).1 = .ok p) ↔
      k.toNat < L.length ∧ sk.index ∈ signers.map (·.participantIndex) ∧
        (signers.map (·.participantIndex)).Nodup ∧ 0 ∉ signers.map (·.participantIndex) := by
  constructor
  · rintro ⟨p, h⟩
    unfold sign at h
    cases hc : signCore S dbg sk msg Y L k signers with
    | error f => rw [hc] at h; cases h
    | ok v =>
      obtain ⟨h1, _, h2, h3, h4, _⟩ := signCore_ok S dbg sk msg Y L k signers v.1 v.2 hc
      exact ⟨(List.getElem?_eq_some_iff.mp h1).1, h2, h3, h4⟩
  · rintro ⟨h1, h2, h3, h4⟩
    have hk : k ≠ UInt64.ofNat (2 ^ 64 - 1) := by
      rintro rfl
      have e2 : (UInt64.ofNat (2 ^ 64 - 1)).toNat = 2 ^ 64 - 1 := by decide
      omega
    have hs : signers ≠ [] := by rintro rfl; simp at h2
    unfold sign
    rw [signCore_cases hu S dbg sk msg Y L k hk, List.getElem?_eq_getElem h1]
    simp only
    rw [if_neg hs, if_neg (by simpa using h2), if_neg (by simpa using h3), if_neg h4]
    exact ⟨_, rfl⟩

/-- C56: the partial signature of a signer listed with the published commitments of the consumed share satisfies the
share equation for the challenge, binding factor and Lagrange coefficient of the session. -/
theorem C56_share_equation (S : Suite F G R) (dbg : Bool) (sk : IndividualSigningKey F) (msg : Bytes) (Y : G)
    (L : List (CommitmentShare F G)) (k : UInt64) (signers : List (Signer G)) (p : PartialSignature F)
    (h : (sign S dbg sk msg Y L k signers).1 = .ok p) (share : CommitmentShare F G) (hs : L[k.toNat]? = some share)
    (hh : share.hidingC.commit = share.hidingC.secret • S.gen)
    (hb : share.bindingC.commit = share.bindingC.secret • S.gen)
    (hl : ⟨sk.index, share.publish⟩ ∈ signers) :
    p.index = sk.index ∧
    Spec.PartialValid S Y msg signers ⟨sk.index, share.publish⟩ (sk.toPublic S).share p.z := by
  unfold sign at h
  cases hc : signCore S dbg sk msg Y L k signers with
  | error f => rw [hc] at h; cases h
  | ok v =>
    rw [hc] at h
    obtain ⟨h1, _, _, _, _, h2⟩ := signCore_ok S dbg sk msg Y L k signers v.1 v.2 hc
    rw [hs] at h1
    simp only [Option.some.injEq] at h1
    simp only [Except.ok.injEq] at h
    subst h
    refine ⟨rfl, ?_⟩
    unfold Spec.PartialValid Spec.signerCommitment
    simp only [h2, ← h1, CommitmentShare.publish, hh, hb, IndividualSigningKey.toPublic]
    module

/-- C56, the converse: the equation determines the partial signature, so a different `z` never satisfies it. -/
theorem C56_unique {S : Suite F G R} (hg : S.GroupLaws) (Y : G) (msg : Bytes) (signers : List (Signer G))
    (s : Signer G) (pk : G) (z z' : F) (h : Spec.PartialValid S Y msg signers s pk z)
    (h' : Spec.PartialValid S Y msg signers s pk z') : z = z' :=
  hg.gen_inj _ _ (h.trans h'.symm)

/-! ### Verification -/

/-- C63: `verify` and `verify_signature` accept exactly the Schnorr signatures, and agree on every input. -/
theorem C63_verify_iff (S : Suite F G R) (sig : ThresholdSignature F G) (Y : G) (msg : Bytes) :
    (sig.verify S Y msg = .ok () ↔ Spec.SigValid S Y msg sig) ∧
    (verifySignature S Y sig msg = .ok () ↔ Spec.SigValid S Y msg sig) ∧
    (∀ e, sig.verify S Y msg = .error e → e = .invalidSignature) ∧
    sig.verify S Y msg = verifySignature S Y sig msg := by
  refine ⟨verify_iff S sig Y msg, verify_iff S sig Y msg, fun e he => ?_, rfl⟩
  unfold ThresholdSignature.verify at he
  simp only [msm_two] at he
  split at he <;> simp_all

/-- C63, consequence: for a given commitment, key and message at most one response is accepted. -/
theorem C63_not_malleable {S : Suite F G R} (hg : S.GroupLaws) (Y P : G) (msg : Bytes) (z z' : F)
    (h : (⟨P, z⟩ : ThresholdSignature F G).verify S Y msg = .ok ())
    (h' : (⟨P, z'⟩ : ThresholdSignature F G).verify S Y msg = .ok ()) : z = z' := by
  rw [verify_iff] at h h'
  exact hg.gen_inj _ _ (h.trans h'.symm)

end IceFrost
