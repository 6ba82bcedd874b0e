import Verif.Model.DebugText
import Verif.Props.ErrorTexts
import Verif.Props.NonInterference

/-!
# C138: writing a value to a log does not disclose a secret

All types of the crate derive `Debug`, also those that hold secrets and erase them when dropped. Their output determines
the secrets: `C138_debug_reveals`. What holds is that the texts of errors do not depend on secrets.
-/

set_option linter.unusedSectionVars false
set_option linter.unusedSimpArgs false
set_option linter.unusedVariables false

namespace IceFrost

attribute [local instance low] Classical.propDecidable

variable {F G R : Type} [Field F] [DecidableEq F] [AddCommGroup G] [Module F G] [DecidableEq G]

/-- A printed value can be read back, also when other text follows it. -/
def Spec.Readable {α : Type} (f : α → String) : Prop := ∀ a b x y, f a ++ x = f b ++ y → a = b ∧ x = y

theorem String.cancel_left {p x y : String} (h : p ++ x = p ++ y) : x = y := by
  have := congrArg String.toList h
  rw [String.toList_append, String.toList_append, List.append_cancel_left_eq] at this
  exact String.toList_inj.mp this

theorem String.head_ne {p q x y : String} (c d : Char) (hp : p.toList.head? = some c) (hq : q.toList.head? = some d)
    (h : c ≠ d) : p ++ x ≠ q ++ y := by
  intro e
  have e' := congrArg String.toList e
  rw [String.toList_append, String.toList_append] at e'
  have e'' := congrArg List.head? e'
  rw [List.head?_append, List.head?_append, hp, hq] at e''
  exact h (Option.some.inj e'')

namespace Readable

variable {α β : Type} {f : α → String} {g : β → String}

theorem _root_.IceFrost.Spec.Readable.injective (h : Spec.Readable f) {a b : α} (e : f a = f b) : a = b :=
  (h a b "" "" (by rw [e])).1

theorem _root_.IceFrost.Spec.Readable.wrap (h : Spec.Readable f) (p s : String) : Spec.Readable fun a => p ++ (f a ++ s) := by
  intro a b x y e
  simp only [String.append_assoc] at e
  obtain ⟨h1, h2⟩ := h a b _ _ (String.cancel_left e)
  exact ⟨h1, String.cancel_left h2⟩

theorem _root_.IceFrost.Spec.Readable.pair (hf : Spec.Readable f) (hg : Spec.Readable g) (m : String) :
    Spec.Readable fun c : α × β => f c.1 ++ (m ++ g c.2) := by
  intro a b x y e
  simp only [String.append_assoc] at e
  obtain ⟨h1, h2⟩ := hf _ _ _ _ e
  obtain ⟨h3, h4⟩ := hg _ _ _ _ (String.cancel_left h2)
  exact ⟨Prod.ext h1 h3, h4⟩

theorem _root_.IceFrost.Spec.Readable.comp {γ : Type} (hf : Spec.Readable f) (k : γ → α) (hk : Function.Injective k) :
    Spec.Readable fun c => f (k c) := by
  intro a b x y e
  obtain ⟨h1, h2⟩ := hf _ _ _ _ e
  exact ⟨hk h1, h2⟩

/-- A number followed by text that does not start with a digit. -/
theorem nat (m : String) (hm : m.toList.head?.map Char.isDigit = some false) :
    Spec.Readable fun n : Nat => toString n ++ m := by
  intro a b x y e
  have e' := congrArg String.toList e
  simp only [String.toList_append, List.append_assoc] at e'
  obtain ⟨h1, h2⟩ := ErrorTexts.split_nat (ErrorTexts.noDigit_of_head hm _) (ErrorTexts.noDigit_of_head hm _) e'
  exact ⟨h1, String.toList_inj.mp (List.append_cancel_left h2)⟩

theorem vecRest (hf : Spec.Readable f) : Spec.Readable (debugVecRest f) := by
  intro l
  have hne : ∀ (u v : String), "]" ++ u ≠ ", " ++ v := by
    intro u v e
    have e' := congrArg String.toList e
    rw [String.toList_append, String.toList_append, show "]".toList = [']'] by decide +kernel,
      show ", ".toList = [',', ' '] by decide +kernel] at e'
    cases (List.cons.inj e').1
  induction l with
  | nil =>
    intro l' x y e
    cases l' with
    | nil => exact ⟨rfl, String.cancel_left e⟩
    | cons b l' =>
      rw [debugVecRest, debugVecRest, String.append_assoc] at e
      exact absurd e (hne _ _)
  | cons a l ih =>
    intro l' x y e
    cases l' with
    | nil =>
      rw [debugVecRest, debugVecRest, String.append_assoc] at e
      exact absurd e.symm (hne _ _)
    | cons b l' =>
      rw [debugVecRest, debugVecRest, String.append_assoc, String.append_assoc, String.append_assoc,
        String.append_assoc] at e
      obtain ⟨rfl, h2⟩ := hf _ _ _ _ (String.cancel_left e)
      obtain ⟨rfl, h4⟩ := ih _ _ _ h2
      exact ⟨rfl, h4⟩

/-- Lists are readable if no printed entry starts with a closing bracket. -/
theorem vec (hf : Spec.Readable f) (hb : ∀ a u v, f a ++ u ≠ "]" ++ v) : Spec.Readable (debugVec f) := by
  intro l l' x y e
  cases l with
  | nil =>
    cases l' with
    | nil => exact ⟨rfl, String.cancel_left e⟩
    | cons b l' =>
      rw [debugVec, debugVec, show "[]" = "[" ++ "]" by decide +kernel, String.append_assoc, String.append_assoc,
        String.append_assoc] at e
      exact absurd (String.cancel_left e).symm (hb _ _ _)
  | cons a l =>
    cases l' with
    | nil =>
      rw [debugVec, debugVec, show "[]" = "[" ++ "]" by decide +kernel, String.append_assoc, String.append_assoc,
        String.append_assoc] at e
      exact absurd (String.cancel_left e) (hb _ _ _)
    | cons b l' =>
      rw [debugVec, debugVec, String.append_assoc, String.append_assoc, String.append_assoc, String.append_assoc] at e
      obtain ⟨rfl, h2⟩ := hf _ _ _ _ (String.cancel_left e)
      obtain ⟨rfl, h4⟩ := vecRest hf _ _ _ _ h2
      exact ⟨rfl, h4⟩

end Readable

theorem commitment_readable (P : Printer F G) (hs : Spec.Readable P.scalar) (hp : Spec.Readable P.point) :
    Spec.Readable (debugCommitment P) := by
  intro a b x y e
  delta debugCommitment at e
  simp only [String.append_assoc] at e
  obtain ⟨h1, h2⟩ := hs _ _ _ _ (String.cancel_left e)
  obtain ⟨h3, h4⟩ := hp _ _ _ _ (String.cancel_left h2)
  refine ⟨?_, String.cancel_left h4⟩
  cases a
  cases b
  simp_all

theorem commitmentShare_readable (P : Printer F G) (hs : Spec.Readable P.scalar) (hp : Spec.Readable P.point) :
    Spec.Readable (debugCommitmentShare P) := by
  intro a b x y e
  delta debugCommitmentShare at e
  simp only [String.append_assoc] at e
  obtain ⟨h1, h2⟩ := commitment_readable P hs hp _ _ _ _ (String.cancel_left e)
  obtain ⟨h3, h4⟩ := commitment_readable P hs hp _ _ _ _ (String.cancel_left h2)
  refine ⟨?_, String.cancel_left h4⟩
  cases a
  cases b
  simp_all

theorem number_then {a b : Nat} {m x y : String} (hm : m.toList.head?.map Char.isDigit = some false)
    (h : toString a ++ (m ++ x) = toString b ++ (m ++ y)) : a = b ∧ x = y :=
  Readable.nat m hm a b x y (by rw [String.append_assoc, String.append_assoc]; exact h)

/-- C138 fails: the `Debug` output of every type that holds secrets determines them, provided that scalars and points are
printed readably. -/
theorem C138_debug_reveals (P : Printer F G) (hs : Spec.Readable P.scalar) (hp : Spec.Readable P.point)
    (hb : ∀ a u v, P.scalar a ++ u ≠ "]" ++ v) :
    (∀ x x', debugDhPrivateKey P x = debugDhPrivateKey P x' → x = x') ∧
    (∀ k k' : IndividualSigningKey F, debugSigningKey P k = debugSigningKey P k' → k = k') ∧
    (∀ s s' : SecretShare F, debugSecretShare P s = debugSecretShare P s' → s = s') ∧
    (∀ l l', debugCoefficients P l = debugCoefficients P l' → l = l') ∧
    (∀ l l', debugSecretCommitmentShareList P l = debugSecretCommitmentShareList P l' → l = l') ∧
    (∀ rest d d', debugDkgState P rest d = debugDkgState P rest d' → d.dhPrivateKey = d'.dhPrivateKey) := by
  refine ⟨?_, ?_, ?_, ?_, ?_, ?_⟩
  · intro x x' h
    exact (hs _ _ _ _ (String.cancel_left h)).1
  · intro k k' h
    delta debugSigningKey at h
    obtain ⟨h1, h2⟩ := number_then (by decide +kernel) (String.cancel_left h)
    have h3 := (hs _ _ _ _ h2).1
    cases k
    cases k'
    simp only at h1 h3
    rw [UInt32.toNat_inj.mp h1, h3]
  · intro s s' h
    delta debugSecretShare at h
    obtain ⟨h1, h2⟩ := number_then (by decide +kernel) (String.cancel_left h)
    obtain ⟨h3, h4⟩ := number_then (by decide +kernel) h2
    have h5 := (hs _ _ _ _ h4).1
    cases s
    cases s'
    simp only at h1 h3 h5
    rw [UInt32.toNat_inj.mp h1, UInt32.toNat_inj.mp h3, h5]
  · intro l l' h
    exact (Readable.vec hs hb _ _ _ _ (String.cancel_left h)).1
  · intro l l' h
    refine (Readable.vec (commitmentShare_readable P hs hp) ?_ _ _ _ _ (String.cancel_left h)).1
    intro a u v e
    delta debugCommitmentShare at e
    rw [String.append_assoc] at e
    exact String.head_ne 'C' ']' (by decide +kernel) (by decide +kernel) (by decide) e
  · intro rest d d' h
    delta debugDkgState debugParams at h
    simp only [String.append_assoc] at h
    obtain ⟨-, h⟩ := number_then (by decide +kernel) (String.cancel_left (String.cancel_left h))
    obtain ⟨-, h⟩ := number_then (by decide +kernel) h
    obtain ⟨-, h⟩ := number_then (by decide +kernel)
      (String.cancel_left (String.cancel_left (String.cancel_left h)))
    delta debugDhPrivateKey at h
    simp only [String.append_assoc] at h
    exact (hs _ _ _ _ (String.cancel_left h)).1

/-- The text of the failure of a call, if it fails with an error. -/
def Spec.errorText {α : Type} : Res F G α → Option String
  | .error (.err e) => some e.display
  | _ => none

theorem errorText_congr {α β : Type} {r r' : Res F G α} {f : α → β} (h : r.map f = r'.map f) :
    Spec.errorText r = Spec.errorText r' := by
  cases r <;> cases r' <;> simp_all [Except.map, Spec.errorText]

/-- C138, the part that holds: for given public input the texts of the errors of round one, of `finish` and of `sign` do
not depend on private keys, coefficients, shares, signing keys, nonces or randomness. -/
theorem C138_errors_partial {S : Suite F G R} (hc : S.CipherLaws) (hd : S.CodecLaws) (hu : Suite.U32Inj F) (dbg : Bool)
    (params : Params) :
    (∀ x x' i cs cs' ps rng rng', Spec.errorText (bootstrap S dbg params x i cs ps rng) =
      Spec.errorText (bootstrap S dbg params x' i cs' ps rng')) ∧
    (∀ x x' i ps rng rng', Spec.errorText (dkgNew S dbg params x i ps rng) =
      Spec.errorText (dkgNew S dbg params x' i ps rng')) ∧
    (∀ (sk sk' : IndividualSigningKey F) ps rng rng', sk.index = sk'.index →
      Spec.errorText (reshare S dbg params sk ps rng) = Spec.errorText (reshare S dbg params sk' ps rng')) ∧
    (∀ d d' : RoundTwo F G, d.state.index = d'.state.index → d.state.theirCommitments = d'.state.theirCommitments →
      d.state.mySecretShares.map BMap.keys = d'.state.mySecretShares.map BMap.keys →
      Spec.errorText d.finish = Spec.errorText d'.finish) ∧
    (∀ (sk sk' : IndividualSigningKey F) msg Y (L L' : List (CommitmentShare F G)) k signers, sk.index = sk'.index →
      L.length = L'.length → L.length < 2 ^ 63 →
      Spec.errorText (sign S dbg sk msg Y L k signers).1 = Spec.errorText (sign S dbg sk' msg Y L' k signers).1) :=
  ⟨fun x x' i cs cs' ps rng rng' => errorText_congr (C128_bootstrap hc hd dbg params x x' i cs cs' ps rng rng'),
    fun x x' i ps rng rng' => errorText_congr (C128_new S dbg params x x' i ps rng rng'),
    fun sk sk' ps rng rng' hi => errorText_congr (C128_reshare hc hd dbg params sk sk' hi ps rng rng'),
    fun d d' hi hc hm => errorText_congr (C128_finish d d' hi hc hm),
    fun sk sk' msg Y L L' k signers hi hL hlen =>
      errorText_congr (C128_sign hu S dbg sk sk' hi msg Y L L' hL hlen k signers).1⟩

/-- The toy suite's scalars and points, printed like those of `ark-ff`. -/
def toyPrinter : Printer Toy.Fp Toy.Fp where
  scalar x := "BigInt([" ++ (toString x.val ++ "])")
  point x := "BigInt([" ++ (toString x.val ++ "])")
  phantom := "PhantomData<ice_frost::testing::Suite>"

theorem toyPrinter_readable : Spec.Readable toyPrinter.scalar := by
  intro a b x y h
  have h' : "BigInt([" ++ (toString a.val ++ "])") ++ x = "BigInt([" ++ (toString b.val ++ "])") ++ y := h
  simp only [String.append_assoc] at h'
  obtain ⟨h1, h2⟩ := number_then (by decide +kernel) (String.cancel_left h')
  exact ⟨ZMod.val_injective _ h1, h2⟩

theorem toyPrinter_bracket (a : Toy.Fp) (u v : String) : toyPrinter.scalar a ++ u ≠ "]" ++ v := by
  have e : toyPrinter.scalar a ++ u = "BigInt([" ++ (toString a.val ++ "])" ++ u) :=
    String.append_assoc
  rw [e]
  exact String.head_ne 'B' ']' (by decide +kernel) (by decide +kernel) (by decide)

example := C138_debug_reveals toyPrinter toyPrinter_readable toyPrinter_readable toyPrinter_bracket

example : debugSigningKey toyPrinter ⟨3, 1234⟩ = "IndividualSigningKey { index: 3, key: BigInt([1234]) }" := by
  decide +kernel

example : debugCoefficients toyPrinter [5, 17] = "Coefficients([BigInt([5]), BigInt([17])])" := by
  decide +kernel

example := C138_errors_partial Toy.cipher_laws Toy.codec_laws Toy.u32_inj true ⟨3, 2⟩

end IceFrost
