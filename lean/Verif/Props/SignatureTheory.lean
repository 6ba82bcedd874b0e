import Verif.Props.SigningExamples
import Verif.Props.Transcripts
import Mathlib.Tactic.FieldSimp
import Mathlib.Tactic.LinearCombination

/-! # C83–C85, C88: what threshold signatures are, and what nonces are for -/

set_option linter.unusedSectionVars false
set_option linter.unusedSimpArgs false

namespace IceFrost

open Finset

variable {F G R : Type} [Field F] [DecidableEq F] [AddCommGroup G] [Module F G] [DecidableEq G]

namespace Spec

/-- A single Schnorr signer with secret `s` and nonce `r`: `(g^r, r + c·s)`. -/
def schnorrSign (S : Suite F G R) (s r : F) (msg : Bytes) : ThresholdSignature F G :=
  ⟨r • S.gen, r + challenge S (r • S.gen) (s • S.gen) msg * s⟩

end Spec

theorem map_sum_smul {α : Type} (l : List α) (f : α → F) (g : G) :
    (l.map f).sum • g = (l.map fun a => f a • g).sum := by
  induction l with
  | nil => simp
  | cons a l ih => simp [add_smul, ih]

/-- C83: in the situation of C64 the aggregate is the signature that a single Schnorr signer makes with the group
secret and the sum of the signers' nonces `d_i + ρ_i e_i`, whatever the way the aggregator was called. -/
theorem C83_is_schnorr {S : Suite F G R} (hg : S.GroupLaws) (hu : Suite.U32Inj F) (dbg : U32 → Bool) (params : Params)
    (message : Bytes) (J : List U32) (hJ : J.Nodup) (h0 : 0 ∉ J) (hne : J ≠ []) (hn : J.length ≤ params.n.toNat)
    (key : U32 → F) (s : F) (hs : Spec.interpolate J key = s)
    (L : U32 → List (CommitmentShare F G)) (hL : ∀ i ∈ J, (L i).length < 2 ^ 63) (pos : U32 → UInt64)
    (share : U32 → CommitmentShare F G) (hshare : ∀ i ∈ J, (L i)[(pos i).toNat]? = some (share i))
    (hcom : ∀ i ∈ J, (share i).hidingC.commit = (share i).hidingC.secret • S.gen ∧
      (share i).bindingC.commit = (share i).bindingC.secret • S.gen)
    (ops : List (AggOp F G))
    (hinc : ∀ e, e ∈ Spec.inclusions ops ↔ ∃ i ∈ J, e = (i, (share i).publish, key i • S.gen)) :
    ∃ (p : U32 → PartialSignature F) (signers : List (Signer G)),
      (∀ x, x ∈ signers ↔ ∃ i ∈ J, x = ⟨i, (share i).publish⟩) ∧
      signers.Pairwise (fun a b => a.participantIndex < b.participantIndex) ∧
      (∀ i ∈ J, (sign S (dbg i) ⟨i, key i⟩ (Spec.messageHash S message) (s • S.gen) (L i) (pos i) signers).1 =
        .ok (p i)) ∧
      ∀ ops' : List (AggOp F G), (∀ e ∈ Spec.inclusions ops', e ∈ Spec.inclusions ops) →
        (∀ i ∈ J, Spec.lastOf (Spec.partials (ops ++ ops')) i = some (p i).z) →
        ∃ f, (session params (s • S.gen) message (ops ++ ops')).finalize S = .ok f ∧
          f.aggregate S = .ok (Spec.schnorrSign S s
            (J.map fun i => (share i).hidingC.secret +
              Spec.rho S (Spec.messageHash S message) signers i * (share i).bindingC.secret).sum
            (Spec.messageHash S message)) := by
  classical
  obtain ⟨p, hp, hall⟩ := honest_session hu S dbg params message J hJ h0 hne hn key s hs L hL pos share hshare hcom ops
    hinc
  have hmem := session_signers params (s • S.gen) message ops J (fun i => (share i).publish)
    (fun i => key i • S.gen) hinc
  refine ⟨p, (session params (s • S.gen) message ops).state.signers, hmem, (reached params _ message ops).sorted,
    fun i hi => (hp i hi).2, fun ops' hops' hpart => ?_⟩
  obtain ⟨f, hf, h1, h2, h3, h4, hs0, hidx, hz, hpk, hv, hint⟩ := hall ops' (fun i => (p i).z) hops' hpart
  refine ⟨f, hf, ?_⟩
  have hagg := aggregate_cases hu S f h4 (fun i => (p i).z) (fun i => key i • S.gen) hz hpk
  rw [if_neg hs0] at hagg
  have hsum := sum_valid S (s • S.gen) (Spec.messageHash S message) f.state.signers h4.nodup
      (fun i => (p i).z) (fun i => key i • S.gen) hv
  rw [hint] at hsum
  have hvalid : Spec.SigValid S f.state.groupKey f.messageHash
      ⟨Spec.groupCommitment S f.messageHash f.state.signers,
        (f.state.signers.map fun x => (p x.participantIndex).z).sum⟩ := by
    unfold Spec.SigValid Spec.Schnorr
    simp only
    rw [h1, h2, hsum]
    rfl
  rw [if_pos hvalid] at hagg
  rw [hagg]
  -- the group commitment is `g` to the sum of the nonces
  have hperm : (f.state.signers.map (·.participantIndex)).Perm J :=
    (List.perm_ext_iff_of_nodup h4.nodup hJ).mpr hidx
  have hR : Spec.groupCommitment S (Spec.messageHash S message) f.state.signers =
      (J.map fun i => (share i).hidingC.secret + Spec.rho S (Spec.messageHash S message)
        (session params (s • S.gen) message ops).state.signers i * (share i).bindingC.secret).sum • S.gen := by
    have hsc : ∀ x ∈ f.state.signers, Spec.signerCommitment S (Spec.messageHash S message) f.state.signers x =
        ((share x.participantIndex).hidingC.secret + Spec.rho S (Spec.messageHash S message)
          (session params (s • S.gen) message ops).state.signers x.participantIndex *
            (share x.participantIndex).bindingC.secret) • S.gen := by
      intro x hx
      rw [h3] at hx
      obtain ⟨i, hi, rfl⟩ := (hmem x).mp hx
      unfold Spec.signerCommitment
      simp only [CommitmentShare.publish]
      rw [(hcom i hi).1, (hcom i hi).2, add_smul, mul_smul, h3]
    unfold Spec.groupCommitment
    rw [List.map_congr_left hsc, ← (hperm.map _).sum_eq, List.map_map, map_sum_smul]
    rfl
  rw [h1, hR]
  unfold Spec.schnorrSign
  simp only [Except.ok.injEq, ThresholdSignature.mk.injEq, true_and]
  refine hg.gen_inj _ _ ?_
  rw [hsum, hR, add_smul, mul_smul]
  unfold Spec.sessionChallenge
  rw [hR]

/-- C84: every accepted signature is the Schnorr signature made with the discrete logarithms of its commitment and of
the group key. -/
theorem C84_accepted_is_schnorr {S : Suite F G R} (hg : S.GroupLaws) (Y : G) (msg : Bytes)
    (sig : ThresholdSignature F G) :
    sig.verify S Y msg = .ok () ↔
      ∃ s r : F, Y = s • S.gen ∧ sig = Spec.schnorrSign S s r msg := by
  rw [verify_iff]
  constructor
  · intro h
    obtain ⟨s, hs⟩ := hg.gen_surj Y
    obtain ⟨r, hr⟩ := hg.gen_surj sig.groupCommitment
    refine ⟨s, r, hs, ?_⟩
    obtain ⟨P, z⟩ := sig
    simp only at hr
    unfold Spec.schnorrSign
    subst hr
    simp only [ThresholdSignature.mk.injEq, true_and]
    refine hg.gen_inj _ _ ?_
    unfold Spec.SigValid Spec.Schnorr at h
    simp only at h
    rw [h, hs, add_smul, mul_smul]
  · rintro ⟨s, r, rfl, rfl⟩
    unfold Spec.SigValid Spec.Schnorr Spec.schnorrSign
    simp only
    rw [add_smul, mul_smul]

/-- C84: two accepted signatures with one commitment and different challenges give the group secret. -/
theorem C84_special_sound (S : Suite F G R) (Y P : G) (msg msg' : Bytes) (z z' : F)
    (h : (⟨P, z⟩ : ThresholdSignature F G).verify S Y msg = .ok ())
    (h' : (⟨P, z'⟩ : ThresholdSignature F G).verify S Y msg' = .ok ())
    (hc : Spec.challenge S P Y msg ≠ Spec.challenge S P Y msg') :
    Y = ((z - z') / (Spec.challenge S P Y msg - Spec.challenge S P Y msg')) • S.gen := by
  rw [verify_iff] at h h'
  unfold Spec.SigValid Spec.Schnorr at h h'
  simp only at h h'
  have hne := sub_ne_zero.mpr hc
  have : (z - z') • S.gen = (Spec.challenge S P Y msg - Spec.challenge S P Y msg') • Y := by
    rw [sub_smul, sub_smul, h, h']
    abel
  rw [div_eq_inv_mul, mul_smul, this, smul_smul, inv_mul_cancel₀ hne, one_smul]

/-! ### Nonce reuse -/

/-- The coefficient of the signing key in a response: challenge times Lagrange coefficient. -/
def Spec.keyWeight (S : Suite F G R) (Y : G) (msg : Bytes) (signers : List (Signer G)) (i : U32) : F :=
  Spec.lagrange (signers.map (·.participantIndex)) i * Spec.sessionChallenge S Y msg signers

theorem sign_response {S : Suite F G R} {dbg : Bool} {sk : IndividualSigningKey F} {msg : Bytes} {Y : G}
    {L : List (CommitmentShare F G)} {k : UInt64} {signers : List (Signer G)} {p : PartialSignature F}
    (h : (sign S dbg sk msg Y L k signers).1 = .ok p) :
    ∃ share, L[k.toNat]? = some share ∧ p.index = sk.index ∧
      p.z = share.hidingC.secret + share.bindingC.secret * Spec.rho S msg signers sk.index +
        sk.key * Spec.keyWeight S Y msg signers sk.index := by
  unfold sign at h
  cases hc : signCore S dbg sk msg Y L k signers with
  | error f => rw [hc] at h; cases h
  | ok v =>
    obtain ⟨z, share⟩ := v
    rw [hc] at h
    obtain ⟨h1, _, _, _, _, h2⟩ := signCore_ok S dbg sk msg Y L k signers z share hc
    simp only [Except.ok.injEq] at h
    subst h
    refine ⟨share, h1, rfl, ?_⟩
    simp only [h2, Spec.keyWeight]
    ring

/-- C85: three successful calls that use the same commitment share (possible with a copy or a backup of the secret
list; `sign` itself removes the share, C54) give the signing key from the responses and public values. -/
theorem C85_three_uses (S : Suite F G R) (dbg : Bool) (sk : IndividualSigningKey F) (L : List (CommitmentShare F G))
    (k : UInt64) (Y₁ Y₂ Y₃ : G) (m₁ m₂ m₃ : Bytes) (s₁ s₂ s₃ : List (Signer G)) (p₁ p₂ p₃ : PartialSignature F)
    (h₁ : (sign S dbg sk m₁ Y₁ L k s₁).1 = .ok p₁) (h₂ : (sign S dbg sk m₂ Y₂ L k s₂).1 = .ok p₂)
    (h₃ : (sign S dbg sk m₃ Y₃ L k s₃).1 = .ok p₃)
    (w : Fin 3 → F) (hw : w = ![Spec.keyWeight S Y₁ m₁ s₁ sk.index, Spec.keyWeight S Y₂ m₂ s₂ sk.index,
      Spec.keyWeight S Y₃ m₃ s₃ sk.index])
    (ρ : Fin 3 → F) (hρ : ρ = ![Spec.rho S m₁ s₁ sk.index, Spec.rho S m₂ s₂ sk.index, Spec.rho S m₃ s₃ sk.index])
    (hdet : (w 1 - w 0) * (ρ 2 - ρ 0) - (w 2 - w 0) * (ρ 1 - ρ 0) ≠ 0) :
    sk.key = ((p₂.z - p₁.z) * (ρ 2 - ρ 0) - (p₃.z - p₁.z) * (ρ 1 - ρ 0)) /
      ((w 1 - w 0) * (ρ 2 - ρ 0) - (w 2 - w 0) * (ρ 1 - ρ 0)) := by
  obtain ⟨c₁, g₁, _, e₁⟩ := sign_response h₁
  obtain ⟨c₂, g₂, _, e₂⟩ := sign_response h₂
  obtain ⟨c₃, g₃, _, e₃⟩ := sign_response h₃
  rw [g₁, Option.some.injEq] at g₂ g₃
  subst g₂ g₃
  have w0 : Spec.keyWeight S Y₁ m₁ s₁ sk.index = w 0 := by rw [hw]; rfl
  have w1 : Spec.keyWeight S Y₂ m₂ s₂ sk.index = w 1 := by rw [hw]; rfl
  have w2 : Spec.keyWeight S Y₃ m₃ s₃ sk.index = w 2 := by rw [hw]; rfl
  have r0 : Spec.rho S m₁ s₁ sk.index = ρ 0 := by rw [hρ]; rfl
  have r1 : Spec.rho S m₂ s₂ sk.index = ρ 1 := by rw [hρ]; rfl
  have r2 : Spec.rho S m₃ s₃ sk.index = ρ 2 := by rw [hρ]; rfl
  rw [w0, r0] at e₁
  rw [w1, r1] at e₂
  rw [w2, r2] at e₃
  rw [eq_div_iff hdet, e₁, e₂, e₃]
  ring

/-- C85: if the binding factors agree (for instance with an equal signer list and message, but another group key), two
uses suffice. -/
theorem C85_two_uses (S : Suite F G R) (dbg : Bool) (sk : IndividualSigningKey F) (L : List (CommitmentShare F G))
    (k : UInt64) (Y₁ Y₂ : G) (m₁ m₂ : Bytes) (s₁ s₂ : List (Signer G)) (p₁ p₂ : PartialSignature F)
    (h₁ : (sign S dbg sk m₁ Y₁ L k s₁).1 = .ok p₁) (h₂ : (sign S dbg sk m₂ Y₂ L k s₂).1 = .ok p₂)
    (hρ : Spec.rho S m₁ s₁ sk.index = Spec.rho S m₂ s₂ sk.index)
    (hw : Spec.keyWeight S Y₁ m₁ s₁ sk.index ≠ Spec.keyWeight S Y₂ m₂ s₂ sk.index) :
    sk.key = (p₁.z - p₂.z) / (Spec.keyWeight S Y₁ m₁ s₁ sk.index - Spec.keyWeight S Y₂ m₂ s₂ sk.index) := by
  obtain ⟨c₁, g₁, _, e₁⟩ := sign_response h₁
  obtain ⟨c₂, g₂, _, e₂⟩ := sign_response h₂
  rw [g₁, Option.some.injEq] at g₂
  subst g₂
  rw [eq_div_iff (sub_ne_zero.mpr hw), e₁, e₂, hρ]
  ring

/-- C85, the other direction: repeating a call with a copy of the list and the same inputs gives the same response, so
it reveals nothing new. -/
theorem C85_same_inputs (S : Suite F G R) (dbg : Bool) (sk : IndividualSigningKey F) (L L' : List (CommitmentShare F G))
    (k k' : UInt64) (Y : G) (m : Bytes) (s : List (Signer G)) (p p' : PartialSignature F)
    (h : (sign S dbg sk m Y L k s).1 = .ok p) (h' : (sign S dbg sk m Y L' k' s).1 = .ok p')
    (hk : L[k.toNat]? = L'[k'.toNat]?) : p = p' := by
  obtain ⟨c, g, i, e⟩ := sign_response h
  obtain ⟨c', g', i', e'⟩ := sign_response h'
  rw [hk, g', Option.some.injEq] at g
  subst g
  obtain ⟨a, b⟩ := p
  obtain ⟨a', b'⟩ := p'
  simp only at e e' i i'
  rw [i, i', e, e']

/-! ### Nonce derivation -/

/-- C88: a nonce is the hash, under the tag `"nonce"`, of the drawn bytes, the index and the key; the RNG advances by
one draw of `hashLen` bytes. -/
theorem C88_nonce (S : Suite F G R) (sk : IndividualSigningKey F) (rng : R) :
    nonceGenerate S sk rng =
      (S.fieldHash (S.contextString ++ strBytes "nonce")
        ((S.randBytes S.hashLen rng).1 ++ u32le sk.index ++ S.encF sk.key), (S.randBytes S.hashLen rng).2) := by
  rw [nonceGenerate_eq, Spec.nonce, List.append_assoc]

theorem draws_length (S : Suite F G R) (len k : Nat) (rng : R) : (Spec.draws S len k rng).length = k := by
  induction k generalizing rng with
  | zero => rfl
  | succ k ih => simp [Spec.draws, ih]

/-- C88, for whole lists: the two nonces at every position of a list are made from their own draws, the hiding nonce of
position `j` from draw `2 j` and the binding nonce from draw `2 j + 1`, and from the signing key. -/
theorem C88_list (S : Suite F G R) (rng : R) (sk : IndividualSigningKey F) (k : Nat) (j : Nat) (hj : j < k) :
    ∃ c b₁ b₂, (generateCommitmentShareLists S rng sk k).2[j]? = some c ∧
      (Spec.draws S S.hashLen (2 * k) rng)[2 * j]? = some b₁ ∧ (Spec.draws S S.hashLen (2 * k) rng)[2 * j + 1]? = some b₂ ∧
      c.hidingC.secret = S.fieldHash (S.contextString ++ strBytes "nonce") (b₁ ++ u32le sk.index ++ S.encF sk.key) ∧
      c.bindingC.secret = S.fieldHash (S.contextString ++ strBytes "nonce") (b₂ ++ u32le sk.index ++ S.encF sk.key) := by
  have hpair : ∀ (l : List (CommitmentShare F G)) (m : List F) (j : Nat),
      l.flatMap (fun c => [c.hidingC.secret, c.bindingC.secret]) = m → (hj : j < l.length) →
      m[2 * j]? = some l[j].hidingC.secret ∧ m[2 * j + 1]? = some l[j].bindingC.secret := by
    intro l
    induction l with
    | nil => intro m j _ hj; simp at hj
    | cons c l ih =>
      intro m j hm hj
      subst hm
      cases j with
      | zero => simp
      | succ j =>
        have := ih _ j rfl (by simpa using hj)
        simpa [Nat.mul_succ, List.flatMap_cons] using this
  have hlen := (C52_published S rng sk k).1
  obtain ⟨h1, h2⟩ := hpair _ _ j (C52_nonces S rng sk k) (by omega)
  have hl := draws_length S S.hashLen (2 * k) rng
  rw [List.getElem?_map, List.getElem?_eq_getElem (by omega), Option.map_some] at h1
  rw [List.getElem?_map, List.getElem?_eq_getElem (by omega), Option.map_some] at h2
  refine ⟨_, _, _, List.getElem?_eq_getElem (by omega), List.getElem?_eq_getElem (by omega),
    List.getElem?_eq_getElem (by omega), ?_, ?_⟩
  · rw [← Option.some.inj h1, Spec.nonce, List.append_assoc]
  · rw [← Option.some.inj h2, Spec.nonce, List.append_assoc]

/-- C88: equal nonces come from the same randomness and the same key, or exhibit a collision of the nonce hash. -/
theorem C88_nonce_binds {S : Suite F G R} (hd : S.CodecLaws) (hc : S.CipherLaws) (sk sk' : IndividualSigningKey F)
    (rng rng' : R) (h : (nonceGenerate S sk rng).1 = (nonceGenerate S sk' rng').1) :
    ((S.randBytes S.hashLen rng).1 = (S.randBytes S.hashLen rng').1 ∧ sk = sk') ∨
    ((S.randBytes S.hashLen rng).1 ++ u32le sk.index ++ S.encF sk.key ≠
        (S.randBytes S.hashLen rng').1 ++ u32le sk'.index ++ S.encF sk'.key ∧
      S.h3 ((S.randBytes S.hashLen rng).1 ++ u32le sk.index ++ S.encF sk.key) =
        S.h3 ((S.randBytes S.hashLen rng').1 ++ u32le sk'.index ++ S.encF sk'.key)) := by
  rw [C88_nonce, C88_nonce] at h
  by_cases he : (S.randBytes S.hashLen rng).1 ++ u32le sk.index ++ S.encF sk.key =
      (S.randBytes S.hashLen rng').1 ++ u32le sk'.index ++ S.encF sk'.key
  · left
    rw [List.append_assoc, List.append_assoc] at he
    obtain ⟨e1, e2⟩ := List.append_inj he (by rw [hc.randBytes_length, hc.randBytes_length])
    obtain ⟨e3, e4⟩ := List.append_inj e2 (by simp [u32le, leBytes_length])
    refine ⟨e1, ?_⟩
    have hi := u32le_inj e3
    have hk : sk.key = sk'.key := by
      have h1 := hd.decF_encF sk.key []
      have h2 := hd.decF_encF sk'.key []
      rw [e4, h2] at h1
      simp only [Option.some.injEq, Prod.mk.injEq, and_true] at h1
      exact h1.symm
    obtain ⟨a, b⟩ := sk
    obtain ⟨a', b'⟩ := sk'
    simp only at hi hk
    rw [hi, hk]
  · exact Or.inr ⟨he, h⟩

/-! ### Concrete cases -/

namespace SigningExamples

open Toy

/-- C83: two signers of `42 + 7 x`, included in the order 3, 1, 3. -/
example : ∃ ops' f, ∃ r : Fp, (session ⟨3, 2⟩ (Spec.polyEval [(42 : Fp), 7] 0 • suite.gen) (strBytes "hello")
      (ops ++ ops')).finalize suite = .ok f ∧ f.aggregate suite = .ok (Spec.schnorrSign suite
        (Spec.polyEval [(42 : Fp), 7] 0) r (Spec.messageHash suite (strBytes "hello"))) := by
  obtain ⟨p, signers, _, _, hp, h⟩ := C83_is_schnorr group_laws u32_inj (fun _ => true) ⟨3, 2⟩ (strBytes "hello") [1, 3]
    (by decide) (by decide) (by decide) (by decide) key _ (key_shares [1, 3] (by decide) (by decide))
    (fun i => [share i, share 2]) (fun _ _ => by simp) (fun _ => 0) share (fun _ _ => rfl) (fun _ _ => ⟨rfl, rfl⟩)
    ops hinc
  obtain ⟨f, h1, h2⟩ := h [.partialSig (p 3), .partialSig (p 1)] (by simp [Spec.inclusions]) (by
    intro i hi
    obtain ⟨_, _, e1, _⟩ := sign_response (hp 1 (by simp))
    obtain ⟨_, _, e3, _⟩ := sign_response (hp 3 (by simp))
    simp only [List.mem_cons, List.not_mem_nil, or_false] at hi
    simp only at e1 e3
    rcases hi with rfl | rfl <;> simp [Spec.partials, ops, Spec.lastOf, Spec.firstOf, e1, e3])
  exact ⟨_, f, _, h1, h2⟩

/-- A suite whose binding factors and challenges can be read off: a digest is the last byte of its input, a binding
factor is the last byte of the message, a challenge is the group key. -/
def plain : Suite Fp Fp Nat := { suite with
  digest := fun bs => leBytes 8 (bs.getLastD 0).toNat
  fieldHash := fun _ m => if m.length = 20 then (leNat (m.take 1) : Fp) else (leNat ((m.drop 6).take 6) : Fp) }

theorem plain_challenge (P Y : Fp) (b : UInt8) : Spec.challenge plain P Y [b] = Y := by
  show (if (Toy.enc P ++ Toy.enc Y ++ [b]).length = 20 then (leNat ((Toy.enc P ++ Toy.enc Y ++ [b]).take 1) : Fp)
    else (leNat (((Toy.enc P ++ Toy.enc Y ++ [b]).drop 6).take 6) : Fp)) = Y
  rw [if_neg (by simp [enc_length]), List.append_assoc, List.drop_left' (enc_length P), List.take_left' (enc_length Y),
    Toy.enc, leNat_leBytes, Nat.mod_eq_of_lt (val_lt Y), ZMod.natCast_zmod_val]

theorem plain_weight (Y : Fp) (b : UInt8) :
    Spec.keyWeight plain Y [b] [⟨3, (share 3).publish⟩] 3 = Y := by
  unfold Spec.keyWeight Spec.sessionChallenge
  rw [plain_challenge]
  simp [Spec.lagrange]

theorem plain_rho (b : UInt8) : Spec.rho plain [b] [⟨3, (share 3).publish⟩] 3 = (leNat (leBytes 1 b.toNat) : Fp) := by
  have h : ∀ a : Bytes, plain.digest (a ++ [b]) = leBytes 8 b.toNat := by
    intro a
    show leBytes 8 ((a ++ [b]).getLastD 0).toNat = _
    rw [List.getLastD_concat]
  show (if (Spec.rhoInput plain [b] [⟨3, (share 3).publish⟩] 3).length = 20 then
    (leNat ((Spec.rhoInput plain [b] [⟨3, (share 3).publish⟩] 3).take 1) : Fp) else
    (leNat (((Spec.rhoInput plain [b] [⟨3, (share 3).publish⟩] 3).drop 6).take 6) : Fp)) = _
  unfold Spec.rhoInput
  rw [h]
  rw [if_pos (by
    rw [List.length_append, List.length_append, leBytes_length]
    show 8 + (leBytes 8 _).length + (leBytes 4 _).length = 20
    rw [leBytes_length, leBytes_length])]
  rfl

theorem plain_signs (Y : Fp) (b : UInt8) : ∃ p, (sign plain true ⟨3, 5⟩ [b] Y [share 3] 0
    [⟨3, (share 3).publish⟩]).1 = .ok p :=
  (C55_success_iff u32_inj plain true ⟨3, 5⟩ [b] Y [share 3] 0 (by decide) _).mpr
    ⟨by decide, by simp, by simp, by simp⟩

/-- C85: the key 5 is recovered from three uses of one nonce pair, and from two uses with equal binding factors. -/
example : ∃ p₁ p₂ p₃ : PartialSignature Fp,
    (sign plain true ⟨3, 5⟩ [1] 1 [share 3] 0 [⟨3, (share 3).publish⟩]).1 = .ok p₁ ∧
    (sign plain true ⟨3, 5⟩ [2] 1 [share 3] 0 [⟨3, (share 3).publish⟩]).1 = .ok p₂ ∧
    (sign plain true ⟨3, 5⟩ [1] 2 [share 3] 0 [⟨3, (share 3).publish⟩]).1 = .ok p₃ ∧
    (5 : Fp) = ((p₂.z - p₁.z) * (1 - 1) - (p₃.z - p₁.z) * (2 - 1)) / ((1 - 1) * (1 - 1) - (2 - 1) * (2 - 1)) ∧
    (5 : Fp) = (p₁.z - p₃.z) / (1 - 2) := by
  obtain ⟨p₁, h₁⟩ := plain_signs 1 1
  obtain ⟨p₂, h₂⟩ := plain_signs 1 2
  obtain ⟨p₃, h₃⟩ := plain_signs 2 1
  refine ⟨p₁, p₂, p₃, h₁, h₂, h₃, ?_, ?_⟩
  · exact C85_three_uses plain true ⟨3, 5⟩ [share 3] 0 1 1 2 [1] [2] [1] _ _ _ p₁ p₂ p₃ h₁ h₂ h₃ ![1, 1, 2]
      (by rw [plain_weight, plain_weight, plain_weight]) ![1, 2, 1] (by rw [plain_rho, plain_rho]; decide)
      (by decide)
  · have := C85_two_uses plain true ⟨3, 5⟩ [share 3] 0 1 2 [1] [1] _ _ p₁ p₃ h₁ h₃ rfl
      (by rw [plain_weight, plain_weight]; decide)
    rwa [plain_weight, plain_weight] at this

/-- C84: two signatures with commitment 7 and the challenges 42 and 43 for the key 42 (the challenge is the byte after
the encodings). -/
example : let T : Suite Fp Fp Nat := { suite with fieldHash := fun _ m => (leNat (m.drop 12) : Fp) }
    (⟨7, 7 + 1 * 42⟩ : ThresholdSignature Fp Fp).verify T 42 [1] = .ok () ∧
    (⟨7, 7 + 2 * 42⟩ : ThresholdSignature Fp Fp).verify T 42 [2] = .ok () ∧
    Spec.challenge T 7 42 [1] ≠ Spec.challenge T 7 42 [2] := by
  intro T
  have hc : ∀ b, Spec.challenge T 7 42 [b] = (leNat [b] : Fp) := fun b => by
    show (leNat ((Toy.enc 7 ++ Toy.enc 42 ++ [b]).drop 12) : Fp) = _
    rw [List.drop_left' (by simp [enc_length])]
  refine ⟨?_, ?_, ?_⟩
  · rw [verify_iff]
    unfold Spec.SigValid Spec.Schnorr
    simp only [hc]
    decide
  · rw [verify_iff]
    unfold Spec.SigValid Spec.Schnorr
    simp only [hc]
    decide
  · rw [hc, hc]
    decide

end SigningExamples

end IceFrost
