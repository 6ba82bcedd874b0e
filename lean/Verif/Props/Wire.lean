import Verif.Props.Restore
import Verif.Props.Dkg
import Verif.Props.Nizk
import Verif.Props.SignatureTheory
import Verif.Props.Secrecy

/-! # C100–C103: degenerate keys, replayed records, restored nonce lists, key generation over the wire -/

set_option linter.unusedSectionVars false
set_option linter.unusedSimpArgs false

namespace IceFrost

open Codec

attribute [local instance] Classical.propDecidable

variable {F G R : Type} [Field F] [DecidableEq F] [AddCommGroup G] [Module F G] [DecidableEq G]

/-! ### C100 -/

/-- A proof of knowledge for the identity element, made without any secret: any `r` with its own hash. -/
def zeroProof (S : Suite F G R) (i : U32) (r : F) : Nizk F := ⟨S.h0 (nizkMessage S i 0 (r • S.gen)), r⟩

theorem zeroProof_valid (S : Suite F G R) (i : U32) (r : F) : Spec.PokValid S i 0 (zeroProof S i r) := by
  unfold Spec.PokValid zeroProof
  simp only [smul_zero, sub_zero]
  rfl

/-- C100 is false: for every index and threshold there is a record whose Diffie-Hellman key, dealer public key and
further commitment points are all the identity and that passes every check of round one. Nothing secret is needed to
make it. -/
theorem C100_identity_accepted (S : Suite F G R) (t : U32) (ht : t ≠ 0) (i : U32) (r r' : F) :
    let p : Participant F G :=
      ⟨i, 0, some ⟨i, List.replicate t.toNat 0⟩, some (zeroProof S i r'), zeroProof S i r⟩
    p.dhPublicKey = 0 ∧ p.publicKey = some 0 ∧ GoodDealer S t p := by
  have ht' : t.toNat ≠ 0 := fun h => ht (UInt32.toNat_inj.mp (by simpa using h))
  obtain ⟨k, hk⟩ := Nat.exists_eq_succ_of_ne_zero ht'
  intro p
  have hhead : (List.replicate t.toNat (0 : G)).head? = some 0 := by rw [hk]; rfl
  refine ⟨rfl, ?_, ⟨zeroProof_valid S i r, _, 0, zeroProof S i r', rfl, hhead, rfl, zeroProof_valid S i r'⟩, ?_⟩
  · show VssCommitment.publicKey _ = some 0
    simpa [VssCommitment.publicKey] using hhead
  · intro c hc
    cases hc
    exact List.length_replicate

/-- C100 is false, the consequence: in a session of an honest dealer that contains such a record, the record is
listed as valid and the share encrypted for it opens with the encoding of the identity, which everybody knows. -/
theorem C100_share_readable {S : Suite F G R} (hc : S.CipherLaws) (hd : S.CodecLaws) (dbg : Bool)
    (params : Params) (x : F) (i : U32) (cs : List F) (ps : List (Participant F G)) (rng : R)
    (d : RoundOne F G) (L : ParticipantList F G) (h : bootstrap S dbg params x i cs ps rng = .ok (d, L))
    (hnd : (ps.map (·.index)).Nodup) (p : Participant F G) (hp : p ∈ ps) (hg : GoodDealer S params.t p)
    (h0 : p.dhPublicKey = 0) :
    p ∈ L.valid ∧ ∃ m e, d.theirEncryptedSecretShares = .ok m ∧ m.get? p.index = some e ∧
      decryptShare S e (S.encG 0) = .ok ⟨i, p.index, Spec.polyEval cs (u32F F p.index)⟩ := by
  constructor
  · rw [(C20_bootstrap_classifies hc hd dbg params x i cs ps rng d L h).1]
    exact List.mem_filter.mpr ⟨hp, decide_eq_true hg⟩
  · obtain ⟨m, h1, h2, h3, h4⟩ := bootstrap_shares hc hd dbg params x i cs ps rng d L h
    obtain ⟨e, he⟩ : ∃ e, m.get? p.index = some e := by
      exact BMap.exists_get? ((h3 _).mpr ⟨p, hp, rfl⟩)
    obtain ⟨q, hq, hqi, _, _, _, hq4⟩ := h4 _ _ he
    have : q = p := List.inj_on_of_nodup_map hnd hq hp hqi
    subst this
    rw [h0, smul_zero] at hq4
    exact ⟨m, e, h1, he, hq4⟩

/-- C100, what holds: the identity is the only such key. For any other accepted key the shared key depends on the
dealer: different private keys give different shared keys, so no single key opens the shares of two dealers.

Missing for the full C100: the check for the identity. -/
theorem C100_shared_key_partial (pk : G) :
    (∃ K : G, ∀ x : F, x • pk = K) ↔ pk = 0 := by
  constructor
  · rintro ⟨K, h⟩
    have h0 := h 0
    rw [zero_smul] at h0
    have h1 := h 1
    rw [one_smul, ← h0] at h1
    exact h1
  · rintro rfl
    exact ⟨0, fun x => smul_zero x⟩

theorem C100_injective_partial (pk : G) (h : pk ≠ 0) : Function.Injective fun x : F => x • pk := by
  intro a b hab
  have : (a - b) • pk = 0 := by
    rw [sub_smul]
    exact sub_eq_zero.mpr hab
  exact sub_eq_zero.mp ((smul_eq_zero.mp this).resolve_right h)

/-! ### C101 -/

/-- C101 is false: a record accepted in one session is accepted in every other session of the same ciphersuite that
has the same threshold, whoever runs it and whoever else takes part: it can be replayed by anybody. -/
theorem C101_replay {S : Suite F G R} (hc : S.CipherLaws) (hd : S.CodecLaws) (dbg dbg' : Bool)
    (params params' : Params) (x x' : F) (i i' : U32) (cs cs' : List F) (ps ps' : List (Participant F G)) (rng rng' : R)
    (d d' : RoundOne F G) (L L' : ParticipantList F G) (h : bootstrap S dbg params x i cs ps rng = .ok (d, L))
    (h' : bootstrap S dbg' params' x' i' cs' ps' rng' = .ok (d', L')) (ht : params.t = params'.t)
    (p : Participant F G) (hp : p ∈ L.valid) (hp' : p ∈ ps') : p ∈ L'.valid := by
  rw [(C20_bootstrap_classifies hc hd dbg params x i cs ps rng d L h).1] at hp
  rw [(C20_bootstrap_classifies hc hd dbg' params' x' i' cs' ps' rng' d' L' h').1, ← ht]
  exact List.mem_filter.mpr ⟨hp', (List.mem_filter.mp hp).2⟩

/-- C101 is false also between a key generation and a resharing, where not even the thresholds have to agree. -/
theorem C101_replay_new {S : Suite F G R} (hc : S.CipherLaws) (hd : S.CodecLaws) (dbg dbg' : Bool)
    (params params' : Params) (x x' : F) (i i' : U32) (cs : List F) (ps ps' : List (Participant F G)) (rng rng' : R)
    (d d' : RoundOne F G) (L L' : ParticipantList F G) (h : bootstrap S dbg params x i cs ps rng = .ok (d, L))
    (h' : dkgNew S dbg' params' x' i' ps' rng' = .ok (d', L'))
    (p : Participant F G) (hp : p ∈ L.valid) (hp' : p ∈ ps') : p ∈ L'.valid := by
  rw [(C20_bootstrap_classifies hc hd dbg params x i cs ps rng d L h).1] at hp
  rw [(C20_new_classifies dbg' params' x' i' ps' rng' d' L' h').1]
  exact List.mem_filter.mpr ⟨hp', decide_eq_true (of_decide_eq_true (List.mem_filter.mp hp).2).1⟩

/-- C101, what holds: a record is bound to its index and its keys. If a record that is accepted in another session
carries the Diffie-Hellman proof of an accepted record but another index or key, two given different byte strings
collide under the hash.

Missing for the full C101: nothing that identifies the session is hashed. -/
theorem C101_bound_partial {S : Suite F G R} (hc : S.CipherLaws) (hd : S.CodecLaws) (dbg dbg' : Bool)
    (params params' : Params) (x x' : F) (i i' : U32) (cs cs' : List F) (ps ps' : List (Participant F G)) (rng rng' : R)
    (d d' : RoundOne F G) (L L' : ParticipantList F G) (h : bootstrap S dbg params x i cs ps rng = .ok (d, L))
    (h' : bootstrap S dbg' params' x' i' cs' ps' rng' = .ok (d', L')) (p p' : Participant F G) (hp : p ∈ L.valid)
    (hp' : p' ∈ L'.valid) (hpf : p'.proofOfDhPrivateKey = p.proofOfDhPrivateKey)
    (hne : p.index ≠ p'.index ∨ p.dhPublicKey ≠ p'.dhPublicKey) : ∃ m m' : Bytes, m ≠ m' ∧ S.h0 m = S.h0 m' := by
  rw [(C20_bootstrap_classifies hc hd dbg params x i cs ps rng d L h).1] at hp
  rw [(C20_bootstrap_classifies hc hd dbg' params' x' i' cs' ps' rng' d' L' h').1] at hp'
  have g := (of_decide_eq_true (List.mem_filter.mp hp).2).1.1
  have g' := (of_decide_eq_true (List.mem_filter.mp hp').2).1.1
  unfold Spec.DhValid at g g'
  rw [hpf] at g'
  exact ⟨_, _, C15_proof_reuse_is_collision hd p.proofOfDhPrivateKey p.index p'.index p.dhPublicKey p'.dhPublicKey
    ((nizkVerify_ok_iff S _ _ _).mpr g) ((nizkVerify_ok_iff S _ _ _).mpr g') hne⟩

/-! ### C102 -/

/-- C102 is false: the list is saved, a signature is made, the list is restored from the saved bytes and a second
signature is made at the same position. Both succeed whenever they would succeed separately, and both responses use
the same nonce pair; with C85 such responses reveal the signing key. -/
theorem C102_stale_list_reused {S : Suite F G R} (hd : S.CodecLaws) (dbg : Bool) (sk : IndividualSigningKey F)
    (L : List (CommitmentShare F G)) (hL : L.length < 2 ^ 64) (k : UInt64) (Y Y' : G) (msg msg' : Bytes)
    (signers signers' : List (Signer G)) (p p' : PartialSignature F)
    (h : (sign S dbg sk msg Y L k signers).1 = .ok p) (h' : (sign S dbg sk msg' Y' L k signers').1 = .ok p') :
    ∃ saved L', toBytes (F := F) (G := G) (secretListCodec S) L = .ok saved ∧
      fromBytes (F := F) (G := G) (secretListCodec S) saved = .ok L' ∧
      (sign S dbg sk msg' Y' L' k signers').1 = .ok p' ∧
      ∃ share, L[k.toNat]? = some share ∧ L'[k.toNat]? = some share ∧
        p.z = share.hidingC.secret + share.bindingC.secret * Spec.rho S msg signers sk.index +
          sk.key * Spec.keyWeight S Y msg signers sk.index ∧
        p'.z = share.hidingC.secret + share.bindingC.secret * Spec.rho S msg' signers' sk.index +
          sk.key * Spec.keyWeight S Y' msg' signers' sk.index := by
  obtain ⟨saved, h1, h2⟩ := C72_secret_list (F := F) (G := G) hd L hL
  obtain ⟨share, g1, _, g3⟩ := sign_response h
  obtain ⟨share', g1', _, g3'⟩ := sign_response h'
  rw [g1] at g1'
  cases g1'
  exact ⟨saved, L, h1, h2, h', share, g1, g1, g3, g3'⟩

/-- A signing history in which the list may be written out and read back before every call. -/
def signHistoryWire (S : Suite F G R) (dbg : Bool) : List (Bool × SignCall F G) → List (CommitmentShare F G) →
    Out F G (List (SignCall F G × List (CommitmentShare F G) × Res F G (PartialSignature F)) ×
      List (CommitmentShare F G))
  | [], L => .ok ([], L)
  | (crash, c) :: cs, L =>
    match (if crash then (toBytes (secretListCodec S) L).bind (fromBytes (secretListCodec S)) else .ok L :
        Out F G (List (CommitmentShare F G))) with
    | .error e => .error e
    | .ok L =>
      let r := sign S dbg c.key c.messageHash c.groupKey L c.position c.signers
      match signHistoryWire S dbg cs r.2 with
      | .error e => .error e
      | .ok rest => .ok ((c, L, r.1) :: rest.1, rest.2)

theorem sign_length_le (S : Suite F G R) (dbg : Bool) (sk : IndividualSigningKey F) (msg : Bytes) (Y : G)
    (L : List (CommitmentShare F G)) (k : UInt64) (signers : List (Signer G)) :
    (sign S dbg sk msg Y L k signers).2.length ≤ L.length := by
  rcases sign_perm S dbg sk msg Y L k signers with ⟨f, h⟩ | ⟨p, share, L', h, _, _, h3⟩
  · rw [h]
  · rw [h]; exact h3.length_le

/-- C102, what holds: if what is restored is always what the last call left, saving and restoring at any points of
any history changes nothing, so no nonce pair is used twice.

Missing for the full C102: nothing in the list tells an old copy from the current one. -/
theorem C102_latest_list_partial {S : Suite F G R} (hd : S.CodecLaws) (dbg : Bool) (calls : List (Bool × SignCall F G))
    (L : List (CommitmentShare F G)) (hL : L.length < 2 ^ 64) :
    signHistoryWire S dbg calls L = .ok (signHistory S dbg (calls.map Prod.snd) L) ∧
      (L.Nodup → (usedShares (signHistory S dbg (calls.map Prod.snd) L).1).Nodup) := by
  refine ⟨?_, fun h => (C54_never_reused S dbg _ L h).1⟩
  induction calls generalizing L with
  | nil => rfl
  | cons c cs ih =>
    obtain ⟨crash, c⟩ := c
    have hr : (if crash then (toBytes (secretListCodec S) L).bind (fromBytes (secretListCodec S)) else .ok L :
        Out F G (List (CommitmentShare F G))) = .ok L := by
      cases crash with
      | false => rfl
      | true =>
        obtain ⟨saved, h1, h2⟩ := C72_secret_list (F := F) (G := G) hd L hL
        rw [if_pos rfl, h1]
        exact h2
    unfold signHistoryWire
    rw [hr]
    simp only
    rw [ih _ ((sign_length_le S dbg _ _ _ _ _ _).trans_lt hL)]
    rfl

/-! ### C103 -/

/-- Reading a batch of messages. -/
def readAll {α : Type} (c : Codec α) : List Bytes → Res F G (List α)
  | [] => .ok []
  | b :: bs =>
    match fromBytes (F := F) (G := G) c b with
    | .error e => .error (.err e)
    | .ok a =>
      match readAll c bs with
      | .error f => .error f
      | .ok as => .ok (a :: as)

/-- `bootstrap` on received bytes. -/
def bootstrapWire (S : Suite F G R) (dbg : Bool) (params : Params) (x : F) (i : U32) (cs : List F) (msgs : List Bytes)
    (rng : R) : Res F G (RoundOne F G × ParticipantList F G) :=
  match readAll (participantCodec S) msgs with
  | .error f => .error f
  | .ok ps => bootstrap S dbg params x i cs ps rng

/-- `to_round_two` on received bytes. -/
def toRoundTwoWire (S : Suite F G R) (dbg : Bool) (d : RoundOne F G) (msgs : List Bytes) (rng : R) :
    Res F G (RoundTwo F G × List (Complaint F G)) :=
  match readAll (encShareCodec S) msgs with
  | .error f => .error f
  | .ok es => d.toRoundTwo S dbg es rng

theorem readAll_map {α β : Type} {c : Codec α} (l : List β) (f : β → Bytes) (g : β → α)
    (h : ∀ b ∈ l, fromBytes (F := F) (G := G) c (f b) = .ok (g b)) :
    readAll (F := F) (G := G) c (l.map f) = .ok (l.map g) := by
  induction l with
  | nil => rfl
  | cons b l ih =>
    unfold readAll
    rw [List.map_cons]
    simp only
    rw [h b List.mem_cons_self]
    simp only
    rw [ih fun b hb => h b (List.mem_cons_of_mem _ hb)]
    rfl

/-- C103: the honest key generation of C36 with every message sent as bytes: each participant publishes the encoding
of its record, reads those of all (in an order of its own), sends each receiver the encoding of its share, and reads
the shares it gets. Every step succeeds, everybody gets the same group key and any `t` signing keys interpolate to its
secret. -/
theorem C103_wire_dkg {S : Suite F G R} (hS : S.Lawful) (hs : S.ShortCiphertexts) (dbg : Bool) (params : Params)
    (ht : params.t ≠ 0) (htn : params.t.toNat ≤ params.n.toNat) (idx : List U32) (hidx : idx.Nodup) (h0 : 0 ∉ idx)
    (hlen : idx.length = params.n.toNat) (ord ord' : U32 → List U32) (ho : ∀ i ∈ idx, (ord i).Perm idx)
    (ho' : ∀ i ∈ idx, (ord' i).Perm idx) (r1 r2 r3 : U32 → R) :
    ∃ (P : U32 → Participant F G) (cs : U32 → List F) (x : U32 → F) (record : U32 → Bytes),
      (∀ i ∈ idx, newDealer S params i (r1 i) = .ok (P i, cs i, x i) ∧
        toBytes (F := F) (G := G) (participantCodec S) (P i) = .ok (record i)) ∧
    ∃ (d1 : U32 → RoundOne F G) (share : U32 → U32 → Bytes),
      (∀ i ∈ idx, bootstrapWire S dbg params (x i) i (cs i) ((ord i).map record) (r2 i) =
        .ok (d1 i, ⟨(ord i).map P, none⟩)) ∧
      (∀ l ∈ idx, ∃ m, (d1 l).theirEncryptedSecretShares = .ok m ∧ ∀ i ∈ idx, ∃ e, m.get? i = some e ∧
        toBytes (F := F) (G := G) (encShareCodec S) e = .ok (share l i)) ∧
    ∃ d2 : U32 → RoundTwo F G,
      (∀ i ∈ idx, toRoundTwoWire S dbg (d1 i) ((ord' i).map fun l => share l i) (r3 i) = .ok (d2 i, [])) ∧
    ∃ (s : F) (key : U32 → F),
      s = Spec.interpolate idx (fun l => (cs l).headD 0) ∧
      (∀ i ∈ idx, (d2 i).finish = .ok (s • S.gen, ⟨i, key i⟩)) ∧
      (∀ J : List U32, J.Nodup → J ⊆ idx → params.t.toNat ≤ J.length → Spec.interpolate J key = s) := by
  obtain ⟨P, cs, x, hP, d1, hb, E, hE, d2, h2, s, key, hs1, hf, hJ⟩ := C36_honest_dkg hS dbg params ht htn idx hidx h0
    hlen ord ord' ho ho' r1 r2 r3
  have hfit : ∀ i ∈ idx, (P i).Fits := by
    intro i hi c hc
    obtain ⟨_, _, _, _, _, hg⟩ := newDealer_good ht (hP i hi)
    unfold VssCommitment.Fits
    rw [hg.2 c hc]
    have := params.t.toNat_lt
    omega
  have hEfit : ∀ l ∈ idx, ∀ i ∈ idx, (E l i).Fits S := by
    intro l hl i hi
    obtain ⟨hst, _⟩ := C77_states_fit hs dbg params (x l) l (cs l) ((ord l).map P) (by
      intro p hp
      obtain ⟨k, hk, rfl⟩ := List.mem_map.mp hp
      exact hfit k ((ho l hl).mem_iff.mp hk)) (r2 l) (d1 l) _ (Or.inl (hb l hl))
    obtain ⟨m, hm1, hm2⟩ := hE l hl
    unfold RoundOne.theirEncryptedSecretShares at hm1
    split at hm1
    · next m' hm' =>
      cases hm1
      exact (hst.encShares m hm').2 _ (BMap.mem_of_get? (hm2 i hi))
    · cases hm1
  have hrd : ∀ i ∈ idx, fromBytes (F := F) (G := G) (participantCodec S) ((participantCodec S).enc (P i)) = .ok (P i) := by
    intro i hi
    obtain ⟨b, h1, h2⟩ := C72_participant (F := F) (G := G) hS.codec (P i) (hfit i hi)
    cases h1
    exact h2
  have hrs : ∀ l ∈ idx, ∀ i ∈ idx,
      fromBytes (F := F) (G := G) (encShareCodec S) ((encShareCodec S).enc (E l i)) = .ok (E l i) := by
    intro l hl i hi
    obtain ⟨b, h1, h2⟩ := C72_encrypted_share (F := F) (G := G) hS.codec (E l i) (hEfit l hl i hi)
    cases h1
    exact h2
  refine ⟨P, cs, x, fun i => (participantCodec S).enc (P i), fun i hi => ⟨hP i hi, rfl⟩, d1,
    fun l i => (encShareCodec S).enc (E l i), fun i hi => ?_, fun l hl => ?_, d2, fun i hi => ?_, s, key, hs1, hf, hJ⟩
  · unfold bootstrapWire
    rw [readAll_map (ord i) _ P fun l hl => hrd l ((ho i hi).mem_iff.mp hl)]
    exact hb i hi
  · obtain ⟨m, hm1, hm2⟩ := hE l hl
    exact ⟨m, hm1, fun i hi => ⟨E l i, hm2 i hi, rfl⟩⟩
  · unfold toRoundTwoWire
    rw [readAll_map (ord' i) _ (fun l => E l i) fun l hl => hrs l ((ho' i hi).mem_iff.mp hl) i hi]
    exact h2 i hi

/-! ### Non-vacuity -/

section Examples

open Toy

/-- A session of participant 1 with an honest second participant and an identity record at index 3. -/
theorem toy_zero_session : ∃ (d : RoundOne Fp Fp) (L : ParticipantList Fp Fp) (ps : List (Participant Fp Fp)) (cs : List Fp)
    (x : Fp) (p : Participant Fp Fp), bootstrap suite true ⟨3, 2⟩ x 1 cs ps 0 = .ok (d, L) ∧
      (ps.map (·.index)).Nodup ∧ p ∈ ps ∧ GoodDealer suite 2 p ∧ p.dhPublicKey = 0 := by
  obtain ⟨p1, p2, _, h1, h2, _, hd⟩ := toy_dealers
  set z : Participant Fp Fp :=
    ⟨3, 0, some ⟨3, List.replicate (2 : U32).toNat 0⟩, some (zeroProof suite 3 5), zeroProof suite 3 4⟩ with hz
  have hg := C100_identity_accepted suite 2 (by decide) 3 4 5
  obtain ⟨m, hb, _⟩ := bootstrap_honest cipher_laws codec_laws true ⟨3, 2⟩ (by decide) (by decide) [p1, p2, z] rfl
    (by
      intro p hp
      simp only [List.mem_cons, List.not_mem_nil, or_false] at hp
      rcases hp with rfl | rfl | rfl
      · obtain ⟨_, _, _, _, h⟩ := hd p (by simp)
        exact (newDealer_good (by decide) h).2.2.2.2.2
      · obtain ⟨_, _, _, _, h⟩ := hd p (by simp)
        exact (newDealer_good (by decide) h).2.2.2.2.2
      · exact hg.2.2) 7 1 [1, 2] 0
  refine ⟨_, _, [p1, p2, z], [1, 2], 7, z, hb, ?_, by simp, hg.2.2, rfl⟩
  simp only [List.map_cons, List.map_nil, h1, h2, hz]
  decide

example : ∃ (e : EncShare) (s : SecretShare Fp), decryptShare suite e (suite.encG 0) = .ok s := by
  obtain ⟨d, L, ps, cs, x, p, h, h1, h2, h3, h4⟩ := toy_zero_session
  obtain ⟨_, m, e, _, _, he⟩ := C100_share_readable cipher_laws codec_laws true ⟨3, 2⟩ x 1 cs ps 0 d L h h1 p h2 h3 h4
  exact ⟨e, _, he⟩

/-- The second use of a restored list, in a suite where both calls succeed and C85 recovers the key. -/
example : ∃ (L' : List (CommitmentShare Fp Fp)) (saved : Bytes) (p p' : PartialSignature Fp),
    toBytes (F := Fp) (G := Fp) (secretListCodec SigningExamples.plain) [SigningExamples.share 3] = .ok saved ∧
    fromBytes (F := Fp) (G := Fp) (secretListCodec SigningExamples.plain) saved = .ok L' ∧
    (sign SigningExamples.plain true ⟨3, 5⟩ [1] 1 [SigningExamples.share 3] 0
      [⟨3, (SigningExamples.share 3).publish⟩]).1 = .ok p ∧
    (sign SigningExamples.plain true ⟨3, 5⟩ [1] 2 L' 0 [⟨3, (SigningExamples.share 3).publish⟩]).1 = .ok p' := by
  obtain ⟨p₁, h₁⟩ := SigningExamples.plain_signs 1 1
  obtain ⟨p₂, h₂⟩ := SigningExamples.plain_signs 2 1
  have hd : SigningExamples.plain.CodecLaws := by
    have e1 : SigningExamples.plain.decG = Toy.dec := rfl
    have e2 : SigningExamples.plain.encG = Toy.enc := rfl
    have e3 : SigningExamples.plain.decF = Toy.dec := rfl
    have e4 : SigningExamples.plain.encF = Toy.enc := rfl
    refine ⟨?_, ?_, ?_, ?_⟩
    · rw [e1, e2]; exact dec_enc
    · rw [e3, e4]; exact dec_enc
    · rw [e2]; exact enc_length
    · rw [e4]; exact enc_length
  obtain ⟨saved, L', k1, k2, k3, _⟩ := C102_stale_list_reused hd true ⟨3, 5⟩ [SigningExamples.share 3] (by decide) 0 1 2
    [1] [1] _ _ p₁ p₂ h₁ h₂
  exact ⟨L', saved, p₁, p₂, k1, k2, h₁, k3⟩

/-- The honest run over bytes exists in the toy suite. -/
example := C103_wire_dkg lawful short_ciphertexts true ⟨3, 2⟩ (by decide) (by decide) [1, 2, 3] (by decide) (by decide) rfl
  (fun _ => [1, 2, 3]) (fun _ => [3, 1, 2]) (fun _ _ => List.Perm.refl _) (fun _ _ => by decide) (fun _ => 0) (fun _ => 0)
  (fun _ => 0)

end Examples

end IceFrost
