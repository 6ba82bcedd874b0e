import Verif.Toy
import Verif.Props.Aggregation

/-!
# C137: the text of an error tells which error it is

`Display for Error` (`src/error.rs:68-143`) prints different texts for different errors, so that an error that was turned
into a `Custom` error through its text (`src/keys.rs:120`, `src/dkg/key_generation.rs:1036`) can be told from the others.
What the text of `MisbehavingParticipants` says is true of the error of `aggregate` and false of the error of `finalize`.
-/

set_option linter.unusedSectionVars false
set_option linter.unusedSimpArgs false
set_option linter.unusedVariables false

namespace IceFrost

variable {F G R : Type} [Field F] [DecidableEq F] [AddCommGroup G] [Module F G] [DecidableEq G]

namespace ErrorTexts

/-- The number of the variant. -/
def variant : Error F G → Nat
  | .serializationError => 0
  | .deserializationError => 1
  | .compressionError => 2
  | .decompressionError => 3
  | .decryptionError => 4
  | .encryptionError => 5
  | .shareVerificationError => 6
  | .complaintVerificationError => 7
  | .indexIsZero => 8
  | .indexMismatch _ _ => 9
  | .invalidGroupKey => 10
  | .invalidProofOfKnowledge => 11
  | .invalidCommitmentLength => 12
  | .missingShares => 13
  | .noEncryptedShares => 14
  | .complaint _ => 15
  | .invalidNumberOfParticipants _ _ => 16
  | .invalidMSMParameters => 17
  | .tooManyInvalidParticipants _ => 18
  | .tooManySigners _ _ => 19
  | .missingCommitmentShares => 20
  | .invalidBindingFactor => 21
  | .invalidChallenge => 22
  | .invalidSignature => 23
  | .misbehavingParticipants _ => 24
  | .invalidThresholdParams => 25
  | .custom _ => 26

/-- The constant texts at the start of the messages. -/
def heads : List String :=
  ["An error happened while serializing.",
   "An error happened while deserializing.",
   "An error happened while compressing a point.",
   "An error happened while decompressing a point.",
   "Could not decrypt encrypted share.",
   "Could not encrypt secret share.",
   "The secret share is not correct.",
   "The complaint is not correct.",
   "The indexs of a participant cannot be 0.",
   "Index mismatch between participant index (",
   "Could not generate a valid group key with the given commitments.",
   "The NiZK proof of knowledge of the secret key is not correct.",
   "The length of this commitment does not correspond to the threshold parameter.",
   "Some shares are missing.",
   "Could not retrieve encrypted shares.",
   "[",
   "The number of participants ",
   "The provided slices of points and scalars do not match in length.",
   "Too many invalid participants to continue the Dkg: ",
   "Too many signers (",
   "The participant is missing commitment shares for signing.",
   "Could not compute the participant binding factor.",
   "Could not compute the signature challenge.",
   "The threshold signature is not correct.",
   "These participants provided invalid partial signatures: ",
   "Invalid threshold parameters",
   "\""]

/-- The constant text at the start of a message. -/
def head : Error F G → String
  | .serializationError => "An error happened while serializing."
  | .deserializationError => "An error happened while deserializing."
  | .compressionError => "An error happened while compressing a point."
  | .decompressionError => "An error happened while decompressing a point."
  | .decryptionError => "Could not decrypt encrypted share."
  | .encryptionError => "Could not encrypt secret share."
  | .shareVerificationError => "The secret share is not correct."
  | .complaintVerificationError => "The complaint is not correct."
  | .indexIsZero => "The indexs of a participant cannot be 0."
  | .indexMismatch _ _ => "Index mismatch between participant index ("
  | .invalidGroupKey => "Could not generate a valid group key with the given commitments."
  | .invalidProofOfKnowledge => "The NiZK proof of knowledge of the secret key is not correct."
  | .invalidCommitmentLength => "The length of this commitment does not correspond to the threshold parameter."
  | .missingShares => "Some shares are missing."
  | .noEncryptedShares => "Could not retrieve encrypted shares."
  | .complaint _ => "["
  | .invalidNumberOfParticipants _ _ => "The number of participants "
  | .invalidMSMParameters => "The provided slices of points and scalars do not match in length."
  | .tooManyInvalidParticipants _ => "Too many invalid participants to continue the Dkg: "
  | .tooManySigners _ _ => "Too many signers ("
  | .missingCommitmentShares => "The participant is missing commitment shares for signing."
  | .invalidBindingFactor => "Could not compute the participant binding factor."
  | .invalidChallenge => "Could not compute the signature challenge."
  | .invalidSignature => "The threshold signature is not correct."
  | .misbehavingParticipants _ => "These participants provided invalid partial signatures: "
  | .invalidThresholdParams => "Invalid threshold parameters"
  | .custom _ => "\""

theorem variant_lt (e : Error F G) : variant e < heads.length := by
  cases e <;> simp only [variant] <;> decide

theorem head_eq (e : Error F G) : head e = heads[variant e]'(variant_lt e) := by
  cases e <;> rfl

theorem prefix_free : ∀ i j : Fin heads.length, heads[i].toList.isPrefixOf heads[j].toList = true → i = j := by
  decide +kernel

/-- What follows the constant text. -/
def tail : Error F G → String
  | .serializationError => ""
  | .deserializationError => ""
  | .compressionError => ""
  | .decompressionError => ""
  | .decryptionError => ""
  | .encryptionError => ""
  | .shareVerificationError => ""
  | .complaintVerificationError => ""
  | .indexIsZero => ""
  | .indexMismatch a b => (toString a.toNat) ++ (") and the public key index (" ++
      ((toString b.toNat) ++ ")."))
  | .invalidGroupKey => ""
  | .invalidProofOfKnowledge => ""
  | .invalidCommitmentLength => ""
  | .missingShares => ""
  | .noEncryptedShares => ""
  | .complaint _ => "..]"
  | .invalidNumberOfParticipants a n => (toString a) ++ (" does not match Dkg instance parameters " ++
      ((toString n.toNat) ++ "."))
  | .invalidMSMParameters => ""
  | .tooManyInvalidParticipants l => (debugList l)
  | .tooManySigners a n => (toString a) ++
      (") given the DKG instance parameters (total participants set to " ++
      ((toString n.toNat) ++ ")."))
  | .missingCommitmentShares => ""
  | .invalidBindingFactor => ""
  | .invalidChallenge => ""
  | .invalidSignature => ""
  | .misbehavingParticipants l => (debugList l)
  | .invalidThresholdParams => ""
  | .custom s => String.ofList (s.toList.flatMap debugChar) ++ "\""

theorem display_eq (e : Error F G) : e.display = head e ++ tail e := by
  cases e <;> first | rfl | exact String.append_empty.symm | exact String.append_assoc ..

theorem display_split (e : Error F G) : e.display.toList = (head e).toList ++ (tail e).toList := by
  rw [display_eq, String.toList_append]

/-- A text that does not start with a digit. -/
def NoDigit : List Char → Prop
  | [] => True
  | c :: _ => c.isDigit = false

theorem split_digits : ∀ {a b x y : List Char}, (∀ c ∈ a, c.isDigit = true) → (∀ c ∈ b, c.isDigit = true) →
    NoDigit x → NoDigit y → a ++ x = b ++ y → a = b ∧ x = y
  | [], [], x, y, _, _, _, _, h => ⟨rfl, h⟩
  | [], c :: b, x, y, _, hb, hx, _, h => by
    obtain rfl : x = c :: (b ++ y) := h
    have := hb c (List.mem_cons_self ..)
    rw [NoDigit] at hx
    rw [hx] at this
    cases this
  | c :: a, [], x, y, ha, _, _, hy, h => by
    obtain rfl : c :: (a ++ x) = y := h
    have := ha c (List.mem_cons_self ..)
    rw [NoDigit] at hy
    rw [hy] at this
    cases this
  | c :: a, d :: b, x, y, ha, hb, hx, hy, h => by
    obtain ⟨h1, h2⟩ := List.cons.inj h
    obtain ⟨h3, h4⟩ := split_digits (fun z hz => ha z (List.mem_cons_of_mem _ hz))
      (fun z hz => hb z (List.mem_cons_of_mem _ hz)) hx hy h2
    exact ⟨by rw [h1, h3], h4⟩

theorem split_nat {a b : Nat} {x y : List Char} (hx : NoDigit x) (hy : NoDigit y)
    (h : (toString a).toList ++ x = (toString b).toList ++ y) : a = b ∧ x = y := by
  have e : ∀ n : Nat, (toString n).toList = Nat.toDigits 10 n := fun n => Nat.toList_repr
  rw [e, e] at h
  obtain ⟨h1, h2⟩ := split_digits (fun c hc => Nat.isDigit_of_mem_toDigits (by decide) (by decide) hc)
    (fun c hc => Nat.isDigit_of_mem_toDigits (by decide) (by decide) hc) hx hy h
  refine ⟨?_, h2⟩
  rw [← Nat.ofDigitChars_ten_toDigits (n := a), h1, Nat.ofDigitChars_ten_toDigits]

theorem noDigit_rest (l : List U32) : NoDigit (debugRest l).toList := by
  cases l with
  | nil => rfl
  | cons i l => rw [debugRest, String.toList_append]; rfl

theorem debugRest_inj : ∀ {l l' : List U32}, (debugRest l).toList = (debugRest l').toList → l = l'
  | [], [], _ => rfl
  | [], i :: l', h => by
    rw [debugRest, debugRest, String.toList_append] at h
    cases (List.cons.inj (show ']' :: [] = ',' :: (' ' :: _) from h)).1
  | i :: l, [], h => by
    rw [debugRest, debugRest, String.toList_append] at h
    cases (List.cons.inj (show ',' :: (' ' :: _) = ']' :: [] from h)).1
  | i :: l, j :: l', h => by
    rw [debugRest, debugRest, String.toList_append, String.toList_append, String.toList_append,
      String.toList_append, List.append_cancel_left_eq] at h
    obtain ⟨h1, h2⟩ := split_nat (noDigit_rest l) (noDigit_rest l') h
    rw [UInt32.toNat_inj.mp h1, debugRest_inj h2]

theorem debugList_inj : ∀ {l l' : List U32}, (debugList l).toList = (debugList l').toList → l = l'
  | [], [], _ => rfl
  | [], i :: l', h => by
    rw [debugList, debugList, String.toList_append, String.toList_append] at h
    have h' : ']' :: [] = (toString i.toNat).toList ++ (debugRest l').toList := (List.cons.inj h).2
    have := split_digits (a := []) (by simp) (fun c hc => Nat.isDigit_of_mem_toDigits (b := 10) (n := i.toNat) (by decide) (by decide)
      (by rwa [show (toString i.toNat).toList = Nat.toDigits 10 i.toNat from Nat.toList_repr] at hc))
      (show NoDigit [']'] from rfl) (noDigit_rest l') h'
    exact absurd this.1.symm (by
      rw [show (toString i.toNat).toList = Nat.toDigits 10 i.toNat from Nat.toList_repr]
      exact Nat.toDigits_ne_nil)
  | i :: l, [], h => (by
    have := debugList_inj (l := []) (l' := i :: l) h.symm
    exact this.symm)
  | i :: l, j :: l', h => by
    rw [debugList, debugList, String.toList_append, String.toList_append, String.toList_append,
      String.toList_append, List.append_cancel_left_eq] at h
    obtain ⟨h1, h2⟩ := split_nat (noDigit_rest l) (noDigit_rest l') h
    rw [UInt32.toNat_inj.mp h1, debugRest_inj h2]
termination_by l l' => (l.length, l'.length)

theorem debugChar_split {c d : Char} {x y : List Char} (h : debugChar c ++ x = debugChar d ++ y) : c = d ∧ x = y := by
  unfold debugChar at h
  split_ifs at h <;> simp at h <;> first
    | (obtain ⟨rfl, h2⟩ := h; contradiction)
    | (subst_vars; exact ⟨rfl, h⟩)
    | (subst_vars; exact h)
    | (subst_vars; exact ⟨rfl, rfl⟩)

theorem escape_inj : ∀ {l l' : List Char}, l.flatMap debugChar = l'.flatMap debugChar → l = l'
  | [], [], _ => rfl
  | [], c :: l', h => by
    exfalso
    rw [List.flatMap_nil, List.flatMap_cons] at h
    unfold debugChar at h
    split_ifs at h <;> simp at h
  | c :: l, [], h => by
    exfalso
    rw [List.flatMap_nil, List.flatMap_cons] at h
    unfold debugChar at h
    split_ifs at h <;> simp at h
  | c :: l, d :: l', h => by
    rw [List.flatMap_cons, List.flatMap_cons] at h
    obtain ⟨h1, h2⟩ := debugChar_split h
    rw [h1, escape_inj h2]

theorem noDigit_of_head {l : List Char} (h : l.head?.map Char.isDigit = some false) (z : List Char) :
    NoDigit (l ++ z) := by
  cases l with
  | nil => simp at h
  | cons c l => simpa [NoDigit] using h

theorem two_numbers {a b a' b' : Nat} (mid last : String) (hm : mid.toList.head?.map Char.isDigit = some false)
    (hl : last.toList.head?.map Char.isDigit = some false)
    (h : (toString a ++ (mid ++ (toString b ++ last))).toList =
      (toString a' ++ (mid ++ (toString b' ++ last))).toList) : a = a' ∧ b = b' := by
  simp only [String.toList_append] at h
  obtain ⟨h1, h2⟩ := split_nat (noDigit_of_head hm _) (noDigit_of_head hm _) h
  rw [List.append_cancel_left_eq] at h2
  have hl' := noDigit_of_head hl []
  rw [List.append_nil] at hl'
  exact ⟨h1, (split_nat hl' hl' h2).1⟩

end ErrorTexts

open ErrorTexts

/-- C137: two errors have the same text only if they are the same error, or both are complaints. -/
theorem C137_text (e e' : Error F G) (h : e.display = e'.display) :
    e = e' ∨ ∃ cs cs', e = .complaint cs ∧ e' = .complaint cs' := by
  have h' := congrArg String.toList h
  rw [display_split, display_split] at h'
  have hv : variant e = variant e' := by
    rcases List.prefix_or_prefix_of_prefix (List.prefix_append _ (tail e).toList)
      (h' ▸ List.prefix_append _ (tail e').toList) with hp | hp
    · rw [head_eq, head_eq] at hp
      exact Fin.mk.inj (prefix_free ⟨_, variant_lt e⟩ ⟨_, variant_lt e'⟩ (List.isPrefixOf_iff_prefix.mpr hp))
    · rw [head_eq, head_eq] at hp
      exact (Fin.mk.inj (prefix_free ⟨_, variant_lt e'⟩ ⟨_, variant_lt e⟩ (List.isPrefixOf_iff_prefix.mpr hp))).symm
  have hh : head e = head e' := by
    rw [head_eq, head_eq]
    simp only [hv]
  rw [hh, List.append_cancel_left_eq] at h'
  cases e <;> cases e' <;> first
    | (exfalso; simp [variant] at hv; done)
    | exact Or.inl rfl
    | exact Or.inr ⟨_, _, rfl, rfl⟩
    | skip
  · obtain ⟨h1, h2⟩ := two_numbers _ _ (by decide +kernel) (by decide +kernel) h'
    rw [UInt32.toNat_inj.mp h1, UInt32.toNat_inj.mp h2]
    exact Or.inl rfl
  · obtain ⟨h1, h2⟩ := two_numbers _ _ (by decide +kernel) (by decide +kernel) h'
    rw [h1, UInt32.toNat_inj.mp h2]
    exact Or.inl rfl
  · rw [debugList_inj h']
    exact Or.inl rfl
  · obtain ⟨h1, h2⟩ := two_numbers _ _ (by decide +kernel) (by decide +kernel) h'
    rw [h1, UInt32.toNat_inj.mp h2]
    exact Or.inl rfl
  · rw [debugList_inj h']
    exact Or.inl rfl
  · rw [tail, tail, String.toList_append, String.toList_append, List.append_cancel_right_eq, String.toList_ofList,
      String.toList_ofList] at h'
    rw [String.toList_inj.mp (escape_inj h')]
    exact Or.inl rfl

/-- C137: nothing is lost when the group key and the signing key functions wrap an error as `Custom` through its text:
the wrapped error can be read off, unless it is a complaint, which these functions never see. -/
theorem C137_wrapped (e e' : Error F G) (he : ∀ cs, e ≠ .complaint cs)
    (h : (Error.custom e.display : Error F G).display = (Error.custom e'.display : Error F G).display) : e = e' := by
  rcases C137_text _ _ h with h | ⟨cs, _, h, _⟩
  · rcases C137_text _ _ (Error.custom.inj h) with h | ⟨cs, _, h, _⟩
    · exact h
    · exact absurd h (he cs)
  · cases h

/-- What follows a quoted text: the rest after the first quote that no backslash escapes. -/
def Spec.afterQuote : List Char → Option (List Char)
  | [] => none
  | [c] => if c = '"' then some [] else none
  | c :: d :: l => if c = '"' then some (d :: l) else if c = '\\' then Spec.afterQuote l else Spec.afterQuote (d :: l)

theorem afterQuote_plain {c : Char} (h1 : c ≠ '"') (h2 : c ≠ '\\') (l : List Char) :
    Spec.afterQuote (c :: l) = Spec.afterQuote l := by
  cases l with
  | nil => simp [Spec.afterQuote, h1]
  | cons d l => rw [Spec.afterQuote, if_neg h1, if_neg h2]

theorem afterQuote_escaped (d : Char) (l : List Char) :
    Spec.afterQuote ('\\' :: d :: l) = Spec.afterQuote l := by
  rw [Spec.afterQuote, if_neg (by decide), if_pos rfl]

theorem afterQuote_char (c : Char) (l : List Char) : Spec.afterQuote (debugChar c ++ l) = Spec.afterQuote l := by
  unfold debugChar
  split_ifs with h1 h2 h3 h4 h5
  · exact afterQuote_escaped _ _
  · exact afterQuote_escaped _ _
  · exact afterQuote_escaped _ _
  · exact afterQuote_escaped _ _
  · exact afterQuote_escaped _ _
  · exact afterQuote_plain h1 h2 l

/-- C137: a quoted text ends at its first unescaped quote, whatever it contains and whatever follows it in a log. -/
theorem C137_quoted (s : String) (rest : List Char) :
    ∃ l, (Error.custom s : Error F G).display.toList ++ rest = '"' :: l ∧ Spec.afterQuote l = some rest := by
  refine ⟨s.toList.flatMap debugChar ++ '"' :: rest, ?_, ?_⟩
  · show (debugString s).toList ++ rest = _
    simp [debugString]
  · induction s.toList with
    | nil => cases rest <;> simp [Spec.afterQuote]
    | cons c l ih => rw [List.flatMap_cons, List.append_assoc, afterQuote_char, ih]

/-- The error of the interpolation, seen through the individual key of signer 3, is printed with its quotes escaped. -/
example : (Error.custom (Error.custom "Duplicate indices provided" : Error F G).display : Error F G).display =
    "\"\\\"Duplicate indices provided\\\"\"" := by
  show debugString (debugString "Duplicate indices provided") = _
  decide +kernel

/-- The texts of the two errors that these functions wrap differ. -/
example : (Error.custom (Error.indexIsZero : Error F G).display : Error F G).display ≠
    (Error.custom (Error.custom "Duplicate indices provided" : Error F G).display : Error F G).display :=
  fun h => by cases C137_wrapped _ _ (fun cs hc => by cases hc) h

/-- Errors that name participants: `[1, 12]` is not `[11, 2]`. -/
example : (Error.misbehavingParticipants [1, 12] : Error F G).display ≠
    (Error.misbehavingParticipants [11, 2] : Error F G).display :=
  fun h => by rcases C137_text _ _ h with h | ⟨_, _, h, _⟩ <;> cases h

example : (Error.misbehavingParticipants [0, 12] : Error F G).display =
    "These participants provided invalid partial signatures: [0, 12]" := by
  show "These participants provided invalid partial signatures: " ++ debugList [0, 12] = _
  decide +kernel

/-! ### Is what the text says true? -/

/-- What `These participants provided invalid partial signatures: l` says about a session for the group key `Y`. -/
def Spec.TextTrue (S : Suite F G R) (Y : G) (messageHash : Bytes) (signers : List (Signer G)) (partials : BMap F)
    (publicKeys : BMap G) (l : List U32) : Prop :=
  ∀ i ∈ l, ∃ s ∈ signers, s.participantIndex = i ∧ ∃ z pk, partials.get? i = some z ∧ publicKeys.get? i = some pk ∧
    ¬ Spec.PartialValid S Y messageHash signers s pk z

/-- C137, the part that holds: what the text of the error of `aggregate` says is true. -/
theorem C137_aggregate_text_partial (S : Suite F G R) (params : Params) (Y : G) (message : Bytes)
    (ops : List (AggOp F G)) (hu : Suite.U32Inj F) (f : FinalizedAggregator F G)
    (hf : (session params Y message ops).finalize S = .ok f) (l : List U32)
    (hl : f.aggregate S = .error (.err (.misbehavingParticipants l))) :
    (Error.misbehavingParticipants l : Error F G).display =
      "These participants provided invalid partial signatures: " ++ debugList l ∧
    Spec.TextTrue S Y (Spec.messageHash S message) f.state.signers f.state.partialSignatures f.state.publicKeys l :=
  ⟨rfl, fun i hi => ((C65_exact S params Y message ops hu f hf l hl).2 i).mp hi⟩

/-- C137 fails for `finalize`: whenever some included signer has not sent its partial signature, `finalize` prints that
this signer, and participant 0, provided invalid partial signatures. -/
theorem C137_finalize_text_false (S : Suite F G R) (params : Params) (Y : G) (message : Bytes) (ops : List (AggOp F G))
    (i : U32) (hi : i ∈ Spec.included ops) (hno : ∀ z, (i, z) ∉ Spec.partials ops) :
    ∃ e l, (session params Y message ops).finalize S = .error e ∧
      e.display = "These participants provided invalid partial signatures: " ++ debugList (0 :: l) ∧ i ∈ l ∧
      ¬ Spec.TextTrue S Y (Spec.messageHash S message) (session params Y message ops).state.signers
        (session params Y message ops).state.partialSignatures (session params Y message ops).state.publicKeys
        (0 :: l) := by
  have h := reached params Y message ops
  have hI := h.sorted.pairwise
  have hn : Spec.lastOf (Spec.partials ops) i = none := by
    rw [lastOf_eq_none]
    rintro hm
    obtain ⟨⟨j, z⟩, hz, rfl⟩ := List.mem_map.mp hm
    exact hno z hz
  have hmem : i ∈ ((session params Y message ops).state.signers.map (·.participantIndex)).filter
      (fun i => (Spec.lastOf (Spec.partials ops) i).isNone) :=
    List.mem_filter.mpr ⟨(h.mem_indices i).mpr hi, by rw [hn]; rfl⟩
  have hfin := C59_finalize S params Y message ops _ hI h.mem_indices _ _ rfl rfl
  have hne := List.ne_nil_of_mem hmem
  rw [if_neg (fun hc => hne hc.1), if_neg hne] at hfin
  refine ⟨_, _, hfin, rfl, List.mem_append_left _ hmem, fun ht => ?_⟩
  obtain ⟨s, _, _, z, _, hz, _⟩ := ht i (List.mem_cons_of_mem _ (List.mem_append_left _ hmem))
  rw [h.ps_eq, hn] at hz
  cases hz

/-- Signers 2 and 3 are included and only 3 has sent its partial signature: the text names 0 and 2. -/
example (S : Suite F G R) (Y c : G) (z : F) := C137_finalize_text_false S ⟨3, 2⟩ Y [7]
  [.signer 2 (c, c) ⟨2, Y⟩, .signer 3 (c, c) ⟨3, c⟩, .partialSig ⟨3, z⟩] 2
  (by simp [Spec.included, Spec.inclusions]) (fun z' h => by simp [Spec.partials] at h)

end IceFrost
