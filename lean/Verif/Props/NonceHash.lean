import Verif.Props.SignatureTheory
import Verif.Props.CipherNonces
import Verif.Props.HashBias

/-! # C168: the nonces of signing are as good as uniform scalars, even if their random bytes are known

`nonce_generate` (`src/sign/precomputation.rs:24-35`) hashes random bytes together with the signing key. Here the hash
function `h3` is drawn at random. The lists that `generate_commitment_share_lists` returns then have the same distribution
as lists of uniform scalars, for everybody who does not put a question to the hash function that contains a signing key, and
unless random bytes repeat. -/

namespace IceFrost

open Finset

variable {F G R : Type} [Field F] [DecidableEq F] [AddCommGroup G] [Module F G] [DecidableEq G]

/-! ### Two games that are the same until a question is asked -/

/-- Chances differ by no more than the chance that the events differ. -/
theorem chance_differ {A : Type} [Fintype A] (E E' : A → Prop) :
    |Spec.chance E - Spec.chance E'| ≤ Spec.chance fun a => ¬ (E a ↔ E' a) := by
  have h1 : Spec.chance E ≤ Spec.chance E' + Spec.chance fun a => ¬ (E a ↔ E' a) :=
    chance_or fun a h => by by_cases h' : E' a <;> simp [h, h']
  have h2 : Spec.chance E' ≤ Spec.chance E + Spec.chance fun a => ¬ (E a ↔ E' a) :=
    chance_or fun a h => by by_cases h' : E a <;> simp [h, h']
  rw [abs_le]
  constructor <;> linarith

/-- The function `f` with the values `u` at the places `s`. -/
noncomputable def overwritten {T X C : Type} (s : T → X) (u : T → C) (f : X → C) (x : X) : C :=
  open Classical in if h : ∃ t, s t = x then u h.choose else f x

theorem overwritten_at {T X C : Type} {s : T → X} (hs : Function.Injective s) (u : T → C) (f : X → C) (t : T) :
    overwritten s u f (s t) = u t := by
  have h : ∃ t', s t' = s t := ⟨t, rfl⟩
  unfold overwritten
  rw [dif_pos h, hs h.choose_spec]

theorem overwritten_off {T X C : Type} {s : T → X} (u : T → C) (f : X → C) {x : X} (hx : ∀ t, s t ≠ x) :
    overwritten s u f x = f x := by
  unfold overwritten
  rw [dif_neg fun ⟨t, h⟩ => hx t h]

theorem overwritten_back {T X C : Type} {s : T → X} (hs : Function.Injective s) (u : T → C) (f : X → C) :
    overwritten s (fun t => f (s t)) (overwritten s u f) = f := by
  funext x
  by_cases hx : ∃ t, s t = x
  · obtain ⟨t, rfl⟩ := hx
    rw [overwritten_at hs]
  · have hx' : ∀ t, s t ≠ x := fun t h => hx ⟨t, h⟩
    rw [overwritten_off _ _ hx', overwritten_off _ _ hx']

/-- Values of a random function at the places `s`, and values that have nothing to do with it: nobody who looks at the
function only at the places `reads` can tell the difference, unless one of them is among the `s`. -/
theorem same_until_asked {Ω T X C : Type} [Fintype Ω] [Fintype T] [DecidableEq T] [Fintype X] [DecidableEq X] [Fintype C]
    [Nonempty C]
    (s : Ω → T → X) (E : Ω → (T → C) → (X → C) → Prop) (reads : Ω → (T → C) → (X → C) → X → Prop)
    (hreads : ∀ ω u f f', (∀ x, reads ω u f x → f x = f' x) → (E ω u f ↔ E ω u f')) :
    |Spec.chance (fun y : Ω × (X → C) => E y.1 (fun t => y.2 (s y.1 t)) y.2) -
      Spec.chance (fun y : Ω × (T → C) × (X → C) => E y.1 y.2.1 y.2.2)| ≤
      Spec.chance (fun y : Ω × (T → C) × (X → C) => ∃ t, reads y.1 y.2.1 y.2.2 (s y.1 t)) +
        Spec.chance (fun ω : Ω => ¬ Function.Injective (s ω)) := by
  classical
  let φ : Ω × (T → C) × (X → C) → Ω × (T → C) × (X → C) := fun y =>
    if Function.Injective (s y.1) then (y.1, fun t => y.2.2 (s y.1 t), overwritten (s y.1) y.2.1 y.2.2) else y
  have hφ : Function.Involutive φ := by
    rintro ⟨ω, u, f⟩
    by_cases hs : Function.Injective (s ω)
    · have e1 : φ (ω, u, f) = (ω, fun t => f (s ω t), overwritten (s ω) u f) := if_pos hs
      have e2 : φ (ω, fun t => f (s ω t), overwritten (s ω) u f) =
          (ω, fun t => overwritten (s ω) u f (s ω t), overwritten (s ω) (fun t => f (s ω t)) (overwritten (s ω) u f)) :=
        if_pos hs
      rw [e1, e2, overwritten_back hs]
      have : (fun t => overwritten (s ω) u f (s ω t)) = u := funext fun t => overwritten_at hs u f t
      rw [this]
    · have e1 : φ (ω, u, f) = (ω, u, f) := if_neg hs
      rw [e1, e1]
  have hreal : Spec.chance (fun y : Ω × (X → C) => E y.1 (fun t => y.2 (s y.1 t)) y.2) =
      Spec.chance (fun y : Ω × (T → C) × (X → C) => E y.1 (fun t => (φ y).2.2 (s y.1 t)) (φ y).2.2) := by
    have h1 := chance_extra (A := Ω × (X → C)) (B := T → C) fun y => E y.1 (fun t => y.2 (s y.1 t)) y.2
    have h2 := chance_equiv (A := Ω × (T → C) × (X → C)) (B := (Ω × (X → C)) × (T → C))
      ⟨fun y => ((y.1, y.2.2), y.2.1), fun y => (y.1.1, y.2, y.1.2), fun _ => rfl, fun _ => rfl⟩
      fun y => E y.1.1 (fun t => y.1.2 (s y.1.1 t)) y.1.2
    have h3 := chance_bijective φ hφ.bijective fun y : Ω × (T → C) × (X → C) => E y.1 (fun t => y.2.2 (s y.1 t)) y.2.2
    rw [← h1, ← h2]
    refine Eq.trans h3.symm (chance_congr fun y => ?_)
    have e1 : (φ y).1 = y.1 := by
      change (if Function.Injective (s y.1) then _ else y).1 = y.1
      split_ifs <;> rfl
    rw [e1]
  rw [hreal]
  refine le_trans (chance_differ _ _) ?_
  have hinj := chance_extra (A := Ω) (B := (T → C) × (X → C)) fun ω => ¬ Function.Injective (s ω)
  rw [← hinj]
  refine chance_or fun y hy => ?_
  by_cases hs : Function.Injective (s y.1)
  · left
    by_contra hno
    apply hy
    have e1 : φ y = (y.1, fun t => y.2.2 (s y.1 t), overwritten (s y.1) y.2.1 y.2.2) := if_pos hs
    rw [e1]
    have e2 : (fun t => overwritten (s y.1) y.2.1 y.2.2 (s y.1 t)) = y.2.1 := funext fun t => overwritten_at hs _ _ t
    simp only [e2]
    refine (hreads _ _ _ _ fun x hx => ?_).symm
    rw [overwritten_off]
    intro t ht
    exact hno ⟨t, ht ▸ hx⟩
  · exact .inr hs

/-! ### The lists of nonces -/

/-- The places of nonces: which call, which pair of its list, and which of the two nonces. -/
abbrev Spec.Slot {m : ℕ} (k : Fin m → ℕ) := (c : Fin m) × Fin (k c) × Bool

/-- The secret list of a call, if the nonces are `u`. -/
def Spec.nonceList (S : Suite F G R) {m : ℕ} {k : Fin m → ℕ} (u : Spec.Slot k → F) (c : Fin m) : List (CommitmentShare F G) :=
  List.ofFn fun j : Fin (k c) =>
    ⟨⟨u ⟨c, j, false⟩, u ⟨c, j, false⟩ • S.gen⟩, ⟨u ⟨c, j, true⟩, u ⟨c, j, true⟩ • S.gen⟩⟩

/-- The random bytes for a nonce. -/
def Spec.nonceBytes (S : Suite F G R) {m : ℕ} {k : Fin m → ℕ} (rng : Fin m → R) (s : Spec.Slot k) : Bytes :=
  (Spec.draws S S.hashLen (2 * k s.1) (rng s.1)).getD (2 * s.2.1 + s.2.2.toNat) []

/-- The string that is hashed for a nonce. -/
def Spec.nonceString (S : Suite F G R) {m : ℕ} {k : Fin m → ℕ} (rng : Fin m → R) (sk : Fin m → IndividualSigningKey F)
    (s : Spec.Slot k) : Bytes :=
  Spec.nonceBytes S rng s ++ (u32le (sk s.1).index ++ S.encF (sk s.1).key)

/-- The suite with another hash function for nonces. -/
def Spec.withNonceHash (S : Suite F G R) (g : Bytes → F) : Suite F G R :=
  { S with fieldHash := fun dst m => if dst = S.contextString ++ strBytes "nonce" then g m else S.fieldHash dst m }

omit [Field F] [DecidableEq F] [AddCommGroup G] [Module F G] [DecidableEq G] in
theorem withNonceHash_h3 (S : Suite F G R) (g : Bytes → F) (m : Bytes) : (Spec.withNonceHash S g).h3 m = g m := if_pos rfl

omit [Field F] [DecidableEq F] [AddCommGroup G] [Module F G] [DecidableEq G] in
theorem draws_withNonceHash (S : Suite F G R) (g : Bytes → F) (len k : ℕ) (rng : R) :
    Spec.draws (Spec.withNonceHash S g) len k rng = Spec.draws S len k rng := by
  induction k generalizing rng with
  | zero => rfl
  | succ k ih => exact congrArg _ (ih _)

/-- C168: the lists that a call returns are determined by the answers of the hash function to the strings of its places. -/
theorem C168_lists (S : Suite F G R) (g : Bytes → F) {m : ℕ} {k : Fin m → ℕ} (rng : Fin m → R)
    (sk : Fin m → IndividualSigningKey F) (c : Fin m) :
    (generateCommitmentShareLists (Spec.withNonceHash S g) (rng c) (sk c) (k c)).2 =
      Spec.nonceList S (fun s : Spec.Slot k => g (Spec.nonceString S rng sk s)) c ∧
    (generateCommitmentShareLists (Spec.withNonceHash S g) (rng c) (sk c) (k c)).1 =
      ⟨(sk c).index, (Spec.nonceList S (fun s : Spec.Slot k => g (Spec.nonceString S rng sk s)) c).map (·.publish)⟩ := by
  have key : (generateCommitmentShareLists (Spec.withNonceHash S g) (rng c) (sk c) (k c)).2 =
      Spec.nonceList S (fun s : Spec.Slot k => g (Spec.nonceString S rng sk s)) c := by
    obtain ⟨hl, -, -, hp⟩ := C52_published (Spec.withNonceHash S g) (rng c) (sk c) (k c)
    refine List.ext_getElem? fun j => ?_
    by_cases hj : j < k c
    · obtain ⟨x, b₁, b₂, h1, h2, h3, h4, h5⟩ := C88_list (Spec.withNonceHash S g) (rng c) (sk c) (k c) j hj
      obtain ⟨x', h1', -, h6, h7⟩ := hp j hj
      rw [h1] at h1'
      obtain rfl := Option.some.inj h1'
      rw [h1, Spec.nonceList, List.getElem?_ofFn, dif_pos hj]
      rw [draws_withNonceHash] at h2 h3
      have hb : ∀ m, (Spec.withNonceHash S g).fieldHash ((Spec.withNonceHash S g).contextString ++ strBytes "nonce") m = g m :=
        fun m => if_pos rfl
      rw [hb, List.append_assoc] at h4 h5
      have e1 : g (Spec.nonceString S rng sk (⟨c, ⟨j, hj⟩, false⟩ : Spec.Slot k)) = x.hidingC.secret := by
        rw [h4]
        unfold Spec.nonceString Spec.nonceBytes
        simp only [Bool.toNat_false, Nat.add_zero, List.getD_eq_getElem?_getD]
        have h2' : (Spec.draws S S.hashLen (2 * k c) (rng c))[2 * j]? = some b₁ := h2
        rw [h2']
        rfl
      have e2 : g (Spec.nonceString S rng sk (⟨c, ⟨j, hj⟩, true⟩ : Spec.Slot k)) = x.bindingC.secret := by
        rw [h5]
        unfold Spec.nonceString Spec.nonceBytes
        simp only [Bool.toNat_true, List.getD_eq_getElem?_getD]
        have h3' : (Spec.draws S S.hashLen (2 * k c) (rng c))[2 * j + 1]? = some b₂ := h3
        rw [h3']
        rfl
      rw [e1, e2]
      obtain ⟨⟨a, A⟩, ⟨b, B⟩⟩ := x
      simp only at h6 h7
      rw [h6, h7]
      rfl
    · rw [List.getElem?_eq_none (by omega), List.getElem?_eq_none]
      rw [Spec.nonceList, List.length_ofFn]
      omega
  refine ⟨key, ?_⟩
  have : (generateCommitmentShareLists (Spec.withNonceHash S g) (rng c) (sk c) (k c)).1 =
      ⟨(sk c).index, ((generateCommitmentShareLists (Spec.withNonceHash S g) (rng c) (sk c) (k c)).2).map (·.publish)⟩ := rfl
  rw [this, key]

/-! ### The theorem -/

/-- A hash function for nonces with the answers `f` to the strings `Q`. The answers are elements of any type `C` from which
`red` makes scalars. -/
def Spec.drawnHash (S : Suite F G R) (Q : Finset Bytes) {C : Type} (red : C → F) (f : {x // x ∈ Q} → C) (x : Bytes) : F :=
  if h : x ∈ Q then red (f ⟨x, h⟩) else S.h3 x

/-- The lists of all calls, made by `generate_commitment_share_lists` with this hash function. -/
def Spec.madeLists (S : Suite F G R) (Q : Finset Bytes) {C : Type} (red : C → F) {m : ℕ} (k : Fin m → ℕ) (rng : Fin m → R)
    (sk : Fin m → IndividualSigningKey F) (f : {x // x ∈ Q} → C) (c : Fin m) : List (CommitmentShare F G) :=
  (generateCommitmentShareLists (Spec.withNonceHash S (Spec.drawnHash S Q red f)) (rng c) (sk c) (k c)).2

/-- From the string `q` one reads off the signing key of one of the calls. -/
def Spec.Reveals (S : Suite F G R) {m : ℕ} (sk : Fin m → IndividualSigningKey F) (q : Bytes) : Prop :=
  ∃ c, (signingKeyCodec S).dec (q.drop S.hashLen) = some (sk c, [])

/-- Two places of the same signing key have the same random bytes. -/
def Spec.Repeats (S : Suite F G R) {m : ℕ} (k : Fin m → ℕ) (rng : Fin m → R) (sk : Fin m → IndividualSigningKey F) : Prop :=
  ∃ s s' : Spec.Slot k, s ≠ s' ∧ sk s.1 = sk s'.1 ∧ Spec.nonceBytes S rng s = Spec.nonceBytes S rng s'

omit [Field F] [DecidableEq F] [AddCommGroup G] [Module F G] [DecidableEq G] in
theorem draws_mem_length {S : Suite F G R} (hc : ∀ k rng, (S.randBytes k rng).1.length = k) (len k : ℕ) (rng : R) :
    ∀ b ∈ Spec.draws S len k rng, b.length = len := by
  induction k generalizing rng with
  | zero => intro b hb; cases hb
  | succ k ih =>
    intro b hb
    rcases List.mem_cons.mp hb with rfl | hb
    · exact hc _ _
    · exact ih _ b hb

theorem nonceBytes_length {S : Suite F G R} (hc : S.CipherLaws) {m : ℕ} {k : Fin m → ℕ} (rng : Fin m → R) (s : Spec.Slot k) :
    (Spec.nonceBytes S rng s).length = S.hashLen := by
  have hl := draws_length S S.hashLen (2 * k s.1) (rng s.1)
  have hlt : 2 * (s.2.1 : ℕ) + s.2.2.toNat < (Spec.draws S S.hashLen (2 * k s.1) (rng s.1)).length := by
    rw [hl]
    have := s.2.1.isLt
    have := Bool.toNat_lt s.2.2
    omega
  unfold Spec.nonceBytes
  rw [List.getD_eq_getElem?_getD, List.getElem?_eq_getElem hlt, Option.getD_some]
  exact draws_mem_length hc.randBytes_length _ _ _ _ (List.getElem_mem hlt)

theorem nonceString_reveals {S : Suite F G R} (hd : S.CodecLaws) (hc : S.CipherLaws) {m : ℕ} {k : Fin m → ℕ}
    (rng : Fin m → R) (sk : Fin m → IndividualSigningKey F) (s : Spec.Slot k) :
    (signingKeyCodec S).dec ((Spec.nonceString S rng sk s).drop S.hashLen) = some (sk s.1, []) := by
  have h1 : (Spec.nonceString S rng sk s).drop S.hashLen = (signingKeyCodec S).enc (sk s.1) ++ [] := by
    unfold Spec.nonceString
    rw [← nonceBytes_length hc rng s, List.drop_left, List.append_nil]
    rfl
  rw [h1]
  exact (signingKey_roundTrip hd).dec_enc _ trivial _

theorem nonceString_injective {S : Suite F G R} (hd : S.CodecLaws) (hc : S.CipherLaws) {m : ℕ} {k : Fin m → ℕ}
    (rng : Fin m → R) (sk : Fin m → IndividualSigningKey F) (h : ¬ Spec.Repeats S k rng sk) :
    Function.Injective (Spec.nonceString S rng sk : Spec.Slot k → Bytes) := by
  intro s s' he
  by_contra hne
  refine h ⟨s, s', hne, ?_, ?_⟩
  · have h1 := nonceString_reveals hd hc rng sk s
    rw [he, nonceString_reveals hd hc rng sk s'] at h1
    exact (congrArg Prod.fst (Option.some.inj h1)).symm
  · exact (List.append_inj he (by rw [nonceBytes_length hc, nonceBytes_length hc])).1

/-- C168: the secret lists are as good as uniform ones. Whatever is done with the lists of any number of calls and with the
hash function (the program `P` gets the secret lists and everything random in `Ω`, so also the random bytes, and asks the hash
function what it likes), the chance of any outcome differs from that with independent uniform answers in place of the nonces by
no more than the chance that a signing key is put to the hash function, and the chance that random bytes repeat. -/
theorem C168_hedged {S : Suite F G R} (hd : S.CodecLaws) (hc : S.CipherLaws) {Ω C : Type} [Fintype Ω] [Fintype C]
    [Nonempty C] (red : C → F) {m : ℕ} (k : Fin m → ℕ) (rng : Ω → Fin m → R) (sk : Ω → Fin m → IndividualSigningKey F)
    (Q : Finset Bytes) (hQ : ∀ ω (s : Spec.Slot k), Spec.nonceString S (rng ω) (sk ω) s ∈ Q)
    (P : Ω → (Fin m → List (CommitmentShare F G)) → Spec.Program Bytes F Prop) :
    |Spec.chance (fun y : Ω × ({x // x ∈ Q} → C) =>
        (P y.1 (Spec.madeLists S Q red k (rng y.1) (sk y.1) y.2)).run (Spec.drawnHash S Q red y.2)) -
      Spec.chance (fun y : Ω × (Spec.Slot k → C) × ({x // x ∈ Q} → C) =>
        (P y.1 (Spec.nonceList S fun s => red (y.2.1 s))).run (Spec.drawnHash S Q red y.2.2))| ≤
      Spec.chance (fun y : Ω × (Spec.Slot k → C) × ({x // x ∈ Q} → C) =>
        ∃ q ∈ (P y.1 (Spec.nonceList S fun s => red (y.2.1 s))).questions (Spec.drawnHash S Q red y.2.2),
          Spec.Reveals S (sk y.1) q) +
      Spec.chance (fun ω : Ω => Spec.Repeats S k (rng ω) (sk ω)) := by
  classical
  have h := same_until_asked (Ω := Ω) (T := Spec.Slot k) (X := {x // x ∈ Q}) (C := C)
    (fun ω s => ⟨Spec.nonceString S (rng ω) (sk ω) s, hQ ω s⟩)
    (fun ω u f => (P ω (Spec.nonceList S fun s => red (u s))).run (Spec.drawnHash S Q red f))
    (fun ω u f x => x.1 ∈ (P ω (Spec.nonceList S fun s => red (u s))).questions (Spec.drawnHash S Q red f))
    (fun ω u f f' hf => by
      have := (Spec.Program.run_congr (κ := Spec.drawnHash S Q red f) (κ' := Spec.drawnHash S Q red f')
        (P ω (Spec.nonceList S fun s => red (u s))) fun x hx => by
          unfold Spec.drawnHash
          split_ifs with hxQ
          · rw [hf ⟨x, hxQ⟩ hx]
          · rfl).1
      rw [this])
  have hreal : Spec.chance (fun y : Ω × ({x // x ∈ Q} → C) =>
        (P y.1 (Spec.madeLists S Q red k (rng y.1) (sk y.1) y.2)).run (Spec.drawnHash S Q red y.2)) =
      Spec.chance (fun y : Ω × ({x // x ∈ Q} → C) =>
        (P y.1 (Spec.nonceList S fun s => red (y.2 ⟨Spec.nonceString S (rng y.1) (sk y.1) s, hQ y.1 s⟩))).run
          (Spec.drawnHash S Q red y.2)) := by
    refine chance_congr fun y => ?_
    have : Spec.madeLists S Q red k (rng y.1) (sk y.1) y.2 =
        Spec.nonceList S fun s => red (y.2 ⟨Spec.nonceString S (rng y.1) (sk y.1) s, hQ y.1 s⟩) := by
      funext c
      unfold Spec.madeLists
      rw [(C168_lists S _ (rng y.1) (sk y.1) c).1]
      congr 1
      funext s
      unfold Spec.drawnHash
      rw [dif_pos (hQ y.1 s)]
    rw [this]
  rw [hreal]
  refine le_trans h (add_le_add (chance_mono fun y hy => ?_) (chance_mono fun ω hω => ?_))
  · obtain ⟨s, hs⟩ := hy
    exact ⟨_, hs, s.1, nonceString_reveals hd hc _ _ s⟩
  · by_contra hno
    refine hω fun s s' he => nonceString_injective hd hc _ _ hno (congrArg Subtype.val he)

omit [Field F] [DecidableEq F] [AddCommGroup G] [Module F G] [DecidableEq G] in
/-- C168: the chance that random bytes repeat, if each place has its own block of random bytes. -/
theorem C168_repeat (S : Suite F G R) {Ω B : Type} [Fintype Ω] [Nonempty Ω] [Fintype B] [Nonempty B] {m : ℕ} (k : Fin m → ℕ)
    (block : B → Bytes) (hblock : Function.Injective block) (rng : Ω × (Spec.Slot k → B) → Fin m → R)
    (hrng : ∀ ω s, Spec.nonceBytes S (rng ω) s = block (ω.2 s)) (sk : Ω × (Spec.Slot k → B) → Fin m → IndividualSigningKey F) :
    Spec.chance (fun ω => Spec.Repeats S k (rng ω) (sk ω)) ≤
      ((∑ c, 2 * (k c : ℚ)) * ((∑ c, 2 * (k c : ℚ)) - 1) / 2) / (Fintype.card B : ℚ) := by
  classical
  have hcard : (Fintype.card (Spec.Slot k) : ℚ) = ∑ c, 2 * (k c : ℚ) := by
    rw [Fintype.card_sigma, Nat.cast_sum]
    refine Finset.sum_congr rfl fun c _ => ?_
    rw [Fintype.card_prod, Fintype.card_fin, Fintype.card_bool, Nat.cast_mul, mul_comm]
    rfl
  let e := Fintype.equivFin (Spec.Slot k)
  let D := {p : Fin (Fintype.card (Spec.Slot k)) × Fin (Fintype.card (Spec.Slot k)) // p.1 < p.2}
  have hmono : Spec.chance (fun ω => Spec.Repeats S k (rng ω) (sk ω)) ≤
      Spec.chance (fun ω : Ω × (Spec.Slot k → B) => ∃ p : D,
        ω.2 (e.symm p.1.1) = ω.2 (e.symm p.1.2)) := by
    refine chance_mono fun ω ⟨s, s', hne, _, hb⟩ => ?_
    rw [hrng, hrng] at hb
    have hb' := hblock hb
    rcases lt_or_gt_of_ne (fun h => hne (e.injective h) : e s ≠ e s') with h | h
    · exact ⟨⟨(e s, e s'), h⟩, by simpa using hb'⟩
    · exact ⟨⟨(e s', e s), h⟩, by simpa using hb'.symm⟩
  refine le_trans hmono ?_
  have hdrop : Spec.chance (fun ω : Ω × (Spec.Slot k → B) => ∃ p : D,
        ω.2 (e.symm p.1.1) = ω.2 (e.symm p.1.2)) =
      Spec.chance (fun c : Spec.Slot k → B => ∃ p : D,
        c (e.symm p.1.1) = c (e.symm p.1.2)) := by
    rw [← chance_extra (A := Spec.Slot k → B) (B := Ω)]
    exact chance_equiv (Equiv.prodComm Ω (Spec.Slot k → B)) fun x => ∃ p : D, x.1 (e.symm p.1.1) = x.1 (e.symm p.1.2)
  rw [hdrop]
  refine le_trans (chance_pairs (C := B) (fun p : D =>
    e.symm p.1.1) (fun p => e.symm p.1.2) fun p h => ?_) (le_of_eq ?_)
  · exact absurd (e.symm.injective h) p.2.ne
  · rw [card_lt_pairs, hcard]

/-- C168: nothing else protects: if the random bytes of two places of a list are the same, so are the nonces, whatever the
hash function. -/
theorem C168_repeated (S : Suite F G R) (rng : R) (sk : IndividualSigningKey F) (k : ℕ) {j j' : ℕ} (hj : j < k) (hj' : j' < k)
    (h : (Spec.draws S S.hashLen (2 * k) rng)[2 * j]? = (Spec.draws S S.hashLen (2 * k) rng)[2 * j']?)
    (h' : (Spec.draws S S.hashLen (2 * k) rng)[2 * j + 1]? = (Spec.draws S S.hashLen (2 * k) rng)[2 * j' + 1]?) :
    (generateCommitmentShareLists S rng sk k).2[j]? = (generateCommitmentShareLists S rng sk k).2[j']? := by
  obtain ⟨c, a1, a2, h1, h2, h3, h4, h5⟩ := C88_list S rng sk k j hj
  obtain ⟨d, b1, b2, g1, g2, g3, g4, g5⟩ := C88_list S rng sk k j' hj'
  obtain ⟨-, -, -, hp⟩ := C52_published S rng sk k
  obtain ⟨c', h1', -, h6, h7⟩ := hp j hj
  obtain ⟨d', g1', -, g6, g7⟩ := hp j' hj'
  rw [h1] at h1'
  rw [g1] at g1'
  obtain rfl := Option.some.inj h1'
  obtain rfl := Option.some.inj g1'
  rw [h2, g2] at h
  rw [h3, g3] at h'
  rw [h1, g1]
  obtain ⟨⟨a, A⟩, ⟨b, B⟩⟩ := c
  obtain ⟨⟨a', A'⟩, ⟨b', B'⟩⟩ := d
  simp only at h4 h5 h6 h7 g4 g5 g6 g7
  rw [h6, h7, g6, g7, h4, h5, g4, g5, Option.some.inj h, Option.some.inj h']

/-! ### The shipped suite -/

theorem code_places {Ω T W : Type} [Fintype Ω] [Nonempty Ω] [Fintype T] [DecidableEq T] [Fintype W] [Nonempty W]
    (E : Ω → (T → Secp.Fn) → W → Prop) :
    |Spec.chance (fun y : Ω × (T → Fin 48 → Fin 256) × W =>
        E y.1 (fun t => Spec.reduced Cases.secp256k1Order (y.2.1 t)) y.2.2) -
      Spec.chance (fun y : Ω × (T → Secp.Fn) × W => E y.1 y.2.1 y.2.2)| ≤ (Fintype.card T : ℚ) / 2 ^ 128 := by
  let e := Fintype.equivFin T
  have h := C164_code (Ω := Ω × W) Cases.secp256k1Order 256 (Fintype.card T) (by norm_num [Cases.secp256k1Order])
    fun x => E x.1.1 (fun t => x.2 (e t)) x.1.2
  have h1 : Spec.chance (fun y : Ω × (T → Fin 48 → Fin 256) × W =>
        E y.1 (fun t => Spec.reduced Cases.secp256k1Order (y.2.1 t)) y.2.2) =
      Spec.chance (fun x : (Ω × W) × (Fin (Fintype.card T) → Fin 48 → Fin 256) =>
        E x.1.1 (fun t => Spec.reduced Cases.secp256k1Order (x.2 (e t))) x.1.2) :=
    chance_equiv (A := Ω × (T → Fin 48 → Fin 256) × W) (B := (Ω × W) × (Fin (Fintype.card T) → Fin 48 → Fin 256))
      ⟨fun y => ((y.1, y.2.2), fun i => y.2.1 (e.symm i)), fun x => (x.1.1, fun t => x.2 (e t), x.1.2),
        fun y => by simp, fun x => by simp⟩ _ ▸ by simp
  have h2 : Spec.chance (fun y : Ω × (T → Secp.Fn) × W => E y.1 y.2.1 y.2.2) =
      Spec.chance (fun x : (Ω × W) × (Fin (Fintype.card T) → Secp.Fn) => E x.1.1 (fun t => x.2 (e t)) x.1.2) :=
    chance_equiv (A := Ω × (T → Secp.Fn) × W) (B := (Ω × W) × (Fin (Fintype.card T) → Secp.Fn))
      ⟨fun y => ((y.1, y.2.2), fun i => y.2.1 (e.symm i)), fun x => (x.1.1, fun t => x.2 (e t), x.1.2),
        fun y => by simp, fun x => by simp⟩ _ ▸ by simp
  rw [h1, h2]
  exact h

/-- 32 random bytes. -/
def Spec.thirtyTwo (c : Fin 32 → Fin 256) : Bytes := List.ofFn fun k => UInt8.ofFin (c k)

theorem thirtyTwo_injective : Function.Injective Spec.thirtyTwo := by
  intro c c' h
  unfold Spec.thirtyTwo at h
  have := List.ofFn_injective h
  funext k
  have hk := congrFun this k
  simpa using congrArg UInt8.toFin hk

/-- C168 for secp256k1: the hash function for nonces answers with 48 random bytes, which are reduced, and each nonce has its
own 32 random bytes. For `T` nonces the distance to uniform scalars is at most `T (T - 1) / 2 ^ 257 + T / 2 ^ 127`, and the
chance that somebody puts a signing key to the hash function while the nonces are uniform scalars. -/
theorem C168_shipped {R Ω : Type} [Fintype Ω] [Nonempty Ω] (X : Secp.Parts R) {m : ℕ} (k : Fin m → ℕ)
    (rng : Ω × (Spec.Slot k → Fin 32 → Fin 256) → Fin m → R)
    (hrng : ∀ ω s, Spec.nonceBytes (Secp.suite X) (rng ω) s = Spec.thirtyTwo (ω.2 s))
    (sk : Ω × (Spec.Slot k → Fin 32 → Fin 256) → Fin m → IndividualSigningKey Secp.Fn) (Q : Finset Bytes)
    (hQ : ∀ ω (s : Spec.Slot k), Spec.nonceString (Secp.suite X) (rng ω) (sk ω) s ∈ Q)
    (P : Ω × (Spec.Slot k → Fin 32 → Fin 256) → (Fin m → List (CommitmentShare Secp.Fn Secp.Point)) →
      Spec.Program Bytes Secp.Fn Prop) :
    let S := Secp.suite X
    let hash := Spec.drawnHash S Q (Spec.reduced Cases.secp256k1Order (L := 48))
    let T : ℚ := ∑ c, 2 * (k c : ℚ)
    |Spec.chance (fun y : (Ω × (Spec.Slot k → Fin 32 → Fin 256)) × ({x // x ∈ Q} → Fin 48 → Fin 256) =>
        (P y.1 (Spec.madeLists S Q (Spec.reduced Cases.secp256k1Order) k (rng y.1) (sk y.1) y.2)).run (hash y.2)) -
      Spec.chance (fun y : (Ω × (Spec.Slot k → Fin 32 → Fin 256)) × (Spec.Slot k → Secp.Fn) ×
          ({x // x ∈ Q} → Fin 48 → Fin 256) => (P y.1 (Spec.nonceList S y.2.1)).run (hash y.2.2))| ≤
      Spec.chance (fun y : (Ω × (Spec.Slot k → Fin 32 → Fin 256)) × (Spec.Slot k → Secp.Fn) ×
          ({x // x ∈ Q} → Fin 48 → Fin 256) =>
        ∃ q ∈ (P y.1 (Spec.nonceList S y.2.1)).questions (hash y.2.2), Spec.Reveals S (sk y.1) q) +
      T * (T - 1) / 2 ^ 257 + T / 2 ^ 127 := by
  intro S hash T
  have hcard : (Fintype.card (Spec.Slot k) : ℚ) = T := by
    rw [Fintype.card_sigma, Nat.cast_sum]
    refine Finset.sum_congr rfl fun c _ => ?_
    rw [Fintype.card_prod, Fintype.card_fin, Fintype.card_bool, Nat.cast_mul, mul_comm]
    rfl
  have h1 := C168_hedged (S := S) (C148_codec X) (C148_cipher X) (Spec.reduced Cases.secp256k1Order (L := 48)) k rng sk Q hQ P
  have h2 := C168_repeat S k Spec.thirtyTwo thirtyTwo_injective rng hrng sk
  have h3 := code_places (Ω := Ω × (Spec.Slot k → Fin 32 → Fin 256)) (T := Spec.Slot k)
    (W := {x // x ∈ Q} → Fin 48 → Fin 256) fun ω u f => (P ω (Spec.nonceList S u)).run (hash f)
  have h4 := code_places (Ω := Ω × (Spec.Slot k → Fin 32 → Fin 256)) (T := Spec.Slot k)
    (W := {x // x ∈ Q} → Fin 48 → Fin 256) fun ω u f =>
      ∃ q ∈ (P ω (Spec.nonceList S u)).questions (hash f), Spec.Reveals S (sk ω) q
  have hB : (Fintype.card (Fin 32 → Fin 256) : ℚ) = 2 ^ 256 := by
    rw [Fintype.card_fun, Fintype.card_fin, Fintype.card_fin]
    norm_num
  rw [hcard] at h3 h4
  rw [hB] at h2
  have h2' : T * (T - 1) / 2 / 2 ^ 256 = T * (T - 1) / 2 ^ 257 := by
    rw [div_div, ← pow_succ']
  have h5 : T / 2 ^ 127 = T / 2 ^ 128 + T / 2 ^ 128 := by
    rw [← add_div, ← two_mul, show (2 : ℚ) ^ 128 = 2 * 2 ^ 127 by norm_num, mul_div_mul_left _ _ two_ne_zero]
  change _ ≤ T * (T - 1) / 2 / 2 ^ 256 at h2
  rw [h2'] at h2
  have h4' := (abs_le.mp h4).2
  rw [h5]
  generalize T * (T - 1) / 2 ^ 257 = z at h2
  refine le_trans (abs_sub_le _ _ _) (le_trans (add_le_add h1 h3) ?_)
  linarith

namespace Secp

/-- Random bytes from a tape of blocks of 32 bytes. -/
def blockParts : Parts (ℕ → Fin 32 → Fin 256) where
  hashToField _ b := (leNat b : Fn)
  sha256 b := leBytes 32 (leNat b)
  hkdf b := b
  stream key nonce k := leBytes k (leNat (key ++ nonce))
  tag key nonce ct := leBytes 16 (leNat (key ++ nonce ++ ct))
  randScalar r := (((r 0 0 : ℕ) : Fn), fun k => r (k + 1))
  randBytes k r := (if k = 32 then Spec.thirtyTwo (r 0) else leBytes k 0, fun k => r (k + 1))
  stream_length _ _ _ := leBytes_length _ _
  tag_length _ _ _ := leBytes_length _ _
  randBytes_length k r := by
    by_cases h : k = 32
    · simp [h, Spec.thirtyTwo]
    · simp only [if_neg h]
      exact leBytes_length _ _

theorem blockParts_draws (n i : ℕ) (hi : i < n) (r : ℕ → Fin 32 → Fin 256) :
    (Spec.draws (suite blockParts) 32 n r).getD i [] = Spec.thirtyTwo (r i) := by
  induction n generalizing i r with
  | zero => omega
  | succ n ih =>
    cases i with
    | zero => rfl
    | succ i => exact ih i (by omega) fun k => r (k + 1)

/-- The tapes of all calls, made of the blocks for all places. -/
def blockTapes {m : ℕ} {k : Fin m → ℕ} (b : Spec.Slot k → Fin 32 → Fin 256) (c : Fin m) (i : ℕ) : Fin 32 → Fin 256 :=
  if h : i / 2 < k c then b ⟨c, ⟨i / 2, h⟩, i % 2 == 1⟩ else fun _ => 0

theorem blockTapes_bytes {m : ℕ} {k : Fin m → ℕ} (b : Spec.Slot k → Fin 32 → Fin 256) (s : Spec.Slot k) :
    Spec.nonceBytes (suite blockParts) (blockTapes b) s = Spec.thirtyTwo (b s) := by
  obtain ⟨c, j, x⟩ := s
  have hj := j.isLt
  have hx := Bool.toNat_lt x
  show (Spec.draws (suite blockParts) 32 (2 * k c) (blockTapes b c)).getD (2 * (j : ℕ) + x.toNat) [] = _
  rw [blockParts_draws _ _ (by omega)]
  have h1 : (2 * (j : ℕ) + x.toNat) / 2 = j := by omega
  have h2 : ((2 * (j : ℕ) + x.toNat) % 2 == 1) = x := by
    cases x
    · have : (2 * (j : ℕ) + false.toNat) % 2 = 0 := by simp
      rw [this]
      rfl
    · have : (2 * (j : ℕ) + true.toNat) % 2 = 1 := by simp [Nat.add_mod]
      rw [this]
      rfl
  unfold blockTapes
  rw [dif_pos (by omega)]
  have h3 : (⟨(2 * (j : ℕ) + x.toNat) / 2, by omega⟩ : Fin (k c)) = j := Fin.ext h1
  rw [h2, h3]

theorem exists_strings {A : Type} [Fintype A] (g : A → Bytes) : ∃ Q : Finset Bytes, ∀ a, g a ∈ Q := by
  classical
  exact ⟨Finset.univ.image g, fun a => Finset.mem_image_of_mem g (Finset.mem_univ a)⟩

/-- The signing keys 5 of participant 1 and 7 of participant 2. -/
def twoKeys : Fin 2 → IndividualSigningKey Fn := ![⟨1, 5⟩, ⟨2, 7⟩]

/-- Two signers make lists of two and of three pairs, ten nonces. An observer who guesses the key 5 and knows all random
bytes recomputes the first nonce; the bound contains the chance of such a question. -/
example : ∃ Q : Finset Bytes,
    let k : Fin 2 → ℕ := ![2, 3]
    let S := suite blockParts
    let hash := Spec.drawnHash S Q (Spec.reduced Cases.secp256k1Order (L := 48))
    let P : Unit × (Spec.Slot k → Fin 32 → Fin 256) → (Fin 2 → List (CommitmentShare Fn Point)) → Spec.Program Bytes Fn Prop :=
      fun ω lists => .ask (Spec.thirtyTwo (ω.2 ⟨0, ⟨0, by decide⟩, false⟩) ++ (u32le 1 ++ S.encF 5)) fun a =>
        .done ((lists 0).head?.map (·.hidingC.secret) = some a)
    (Spec.chance fun y : (Unit × (Spec.Slot k → Fin 32 → Fin 256)) × ({x // x ∈ Q} → Fin 48 → Fin 256) =>
      (P y.1 (Spec.madeLists S Q (Spec.reduced Cases.secp256k1Order) k (blockTapes y.1.2) twoKeys y.2)).run (hash y.2)) = 1 ∧
    |Spec.chance (fun y : (Unit × (Spec.Slot k → Fin 32 → Fin 256)) × ({x // x ∈ Q} → Fin 48 → Fin 256) =>
        (P y.1 (Spec.madeLists S Q (Spec.reduced Cases.secp256k1Order) k (blockTapes y.1.2) twoKeys y.2)).run (hash y.2)) -
      Spec.chance (fun y : (Unit × (Spec.Slot k → Fin 32 → Fin 256)) × (Spec.Slot k → Fn) ×
          ({x // x ∈ Q} → Fin 48 → Fin 256) => (P y.1 (Spec.nonceList S y.2.1)).run (hash y.2.2))| ≤
      Spec.chance (fun y : (Unit × (Spec.Slot k → Fin 32 → Fin 256)) × (Spec.Slot k → Fn) ×
          ({x // x ∈ Q} → Fin 48 → Fin 256) =>
        ∃ q ∈ (P y.1 (Spec.nonceList S y.2.1)).questions (hash y.2.2), Spec.Reveals S twoKeys q) +
      (∑ c, 2 * (k c : ℚ)) * ((∑ c, 2 * (k c : ℚ)) - 1) / 2 ^ 257 + (∑ c, 2 * (k c : ℚ)) / 2 ^ 127 := by
  obtain ⟨Q, hQ⟩ := exists_strings fun y : (Spec.Slot (![2, 3] : Fin 2 → ℕ) → Fin 32 → Fin 256) × Spec.Slot (![2, 3] : Fin 2 → ℕ) =>
    Spec.nonceString (suite blockParts) (blockTapes y.1) twoKeys y.2
  refine ⟨Q, ?_⟩
  intro k' S hash P
  refine ⟨chance_one fun y => ?_, C168_shipped (Ω := Unit) blockParts k' (fun ω => blockTapes ω.2)
    (fun ω s => blockTapes_bytes ω.2 s) (fun _ => twoKeys) Q (fun ω s => hQ (ω.2, s)) P⟩
  have h1 : Spec.madeLists S _ (Spec.reduced Cases.secp256k1Order) k' (blockTapes y.1.2) twoKeys y.2 0 = _ :=
    (C168_lists S _ (blockTapes y.1.2) twoKeys 0).1
  show ((Spec.madeLists S _ (Spec.reduced Cases.secp256k1Order) k' (blockTapes y.1.2) twoKeys y.2 0).head?.map
    (·.hidingC.secret) = some (hash y.2 (Spec.thirtyTwo (y.1.2 ⟨0, ⟨0, by decide⟩, false⟩) ++ (u32le 1 ++ S.encF 5))))
  rw [h1]
  have h2 : Spec.nonceString S (blockTapes y.1.2) twoKeys (⟨0, ⟨0, by decide⟩, false⟩ : Spec.Slot k') =
      Spec.thirtyTwo (y.1.2 ⟨0, ⟨0, by decide⟩, false⟩) ++ (u32le 1 ++ S.encF 5) := by
    unfold Spec.nonceString
    rw [blockTapes_bytes]
    rfl
  rw [← h2]
  rfl

end Secp

end IceFrost
