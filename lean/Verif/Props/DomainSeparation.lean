import Verif.Model.Hashing
import Verif.Props.Transcripts

/-! # C162: no two uses of the hash function hash the same string

The crate has eight uses of a hash function: `h0`–`h3` and the hash of complaints, which hash to the field, `h4` and `h5`,
which hash to an array, and the derivation of cipher keys. All of them come down to one function `H` on byte strings
(SHA-256 in the suite that the crate ships). C71 shows that the tags differ. Here the constructions of the dependencies
(`Model/Hashing.lean`) are opened: what is compared are the strings that `H` is applied to. -/

set_option linter.unusedSectionVars false
set_option linter.unusedSimpArgs false
set_option linter.unusedVariables false

namespace IceFrost

variable {F G R : Type} [Field F] [AddCommGroup G] [Module F G] [DecidableEq F] [DecidableEq G]

/-- The uses of the hash function. -/
inductive Spec.HashUse where
  | proof | binding | challenge | nonce | complaint | message | commitment | key
deriving DecidableEq

/-- The first string that is hashed when the use `u` of the context `ctx` is called with the message `m`. Uses that hash to
the field begin with `z` zero bytes and end with the number of bytes wanted, the tag and its length. The uses that hash to
an array have the tag in front, and the key derivation has 64 bytes `0x36`. -/
def Spec.firstString (H : Bytes → Bytes) (ctx : Bytes) (z n : ℕ) : Spec.HashUse → Bytes → Bytes
  | .proof, m => xmdFirst H z n (ctx ++ strBytes "nizkpok") m
  | .binding, m => xmdFirst H z n (ctx ++ strBytes "rho") m
  | .challenge, m => xmdFirst H z n (ctx ++ strBytes "challenge") m
  | .nonce, m => xmdFirst H z n (ctx ++ strBytes "nonce") m
  | .complaint, m => xmdFirst H z n (strBytes "Complaint Context") m
  | .message, m => ctx ++ strBytes "message" ++ m
  | .commitment, m => ctx ++ strBytes "commitment" ++ m
  | .key, m => List.replicate 64 0x36 ++ m

/-- A suite all of whose hashing is built on `H`: `len` is the number of bytes of a hash value, `n` the number of bytes
that are reduced to a scalar by `red`, `keyLen` the number of bytes of a cipher key. -/
structure Spec.BuiltOn (S : Suite F G R) (H : Bytes → Bytes) (len z n keyLen : ℕ) (red : Bytes → F) : Prop where
  field : ∀ dst m, (expandXmd H len z n dst m).map red = some (S.fieldHash dst m)
  sha : ∀ dst m, (expandXmd H len z n dst m).map red = some (S.sha256FieldHash dst m)
  digest : ∀ m, S.digest m = H m
  kdf : ∀ ikm, S.kdf ikm = hkdfExpand H (hkdfExtract H ikm) [] keyLen

/-- The value of a use: a scalar, an array or a key. -/
def Spec.hashValue (S : Suite F G R) : Spec.HashUse → Bytes → Option (F ⊕ Bytes)
  | .proof, m => some (.inl (S.h0 m))
  | .binding, m => some (.inl (S.h1 m))
  | .challenge, m => some (.inl (S.h2 m))
  | .nonce, m => some (.inl (S.h3 m))
  | .complaint, m => some (.inl (complaintHash S m))
  | .message, m => some (.inr (S.h4 m))
  | .commitment, m => some (.inr (S.h5 m))
  | .key, m => (S.kdf m).map .inr

theorem hmacPad_zero (c : UInt8) : hmacPad (List.replicate 32 0) c = List.replicate 64 c := by
  unfold hmacPad
  rw [List.length_replicate, List.replicate_append_replicate, List.map_replicate, UInt8.zero_xor]

/-- C162: whatever is called, the message enters the result only through the hash of the first string. -/
theorem C162_through {S : Suite F G R} {H : Bytes → Bytes} {len z n keyLen : ℕ} {red : Bytes → F}
    (h : Spec.BuiltOn S H len z n keyLen red) (u : Spec.HashUse) :
    ∃ f : Bytes → Option (F ⊕ Bytes), ∀ m, Spec.hashValue S u m = f (H (Spec.firstString H S.contextString z n u m)) := by
  have hf : ∀ (g : Bytes → Bytes → F) (hg : ∀ dst m, (expandXmd H len z n dst m).map red = some (g dst m)) (dst : Bytes),
      ∃ f : Bytes → Option (F ⊕ Bytes), ∀ m, some (.inl (g dst m)) = f (H (xmdFirst H z n dst m)) := by
    intro g hg dst
    refine ⟨fun b0 => if 255 < (n + (len - 1)) / len ∨ 2 ^ 16 ≤ n then none else
      some (.inl (red ((xmdBlocks H b0 dst ((n + (len - 1)) / len) 1 []).flatten.take n))), fun m => ?_⟩
    have := hg dst m
    unfold expandXmd at this
    beta_reduce
    by_cases hc : 255 < (n + (len - 1)) / len ∨ 2 ^ 16 ≤ n
    · rw [if_pos hc] at this
      cases this
    rw [if_neg hc] at this ⊢
    exact congrArg (fun x => some (Sum.inl x)) (Option.some.inj this).symm
  cases u with
  | proof => exact hf _ h.field _
  | binding => exact hf _ h.field _
  | challenge => exact hf _ h.field _
  | nonce => exact hf _ h.field _
  | complaint => exact hf _ h.sha _
  | message => exact ⟨fun b => some (.inr b), fun m => congrArg (fun x => some (Sum.inr x)) (h.digest _)⟩
  | commitment => exact ⟨fun b => some (.inr b), fun m => congrArg (fun x => some (Sum.inr x)) (h.digest _)⟩
  | key =>
    refine ⟨fun b => (hkdfExpand H (H (List.replicate 64 0x5c ++ b)) [] keyLen).map .inr, fun m => ?_⟩
    show (S.kdf m).map _ = _
    rw [h.kdf]
    unfold hkdfExtract hmac
    rw [hmacPad_zero, hmacPad_zero]
    rfl

/-- A tag can be read from the end of a string, unless it was hashed. -/
theorem dstPrime_short {H : Bytes → Bytes} {a b d d' : Bytes} (hd : d.length ≤ 255) (hd' : d'.length ≤ 255)
    (h : a ++ dstPrime H d = b ++ dstPrime H d') : a = b ∧ d = d' := by
  unfold dstPrime at h
  rw [if_neg (by omega), if_neg (by omega), ← List.append_assoc, ← List.append_assoc] at h
  obtain ⟨h1, h2⟩ := List.append_inj' h rfl
  have h3 : d.length = d'.length := by
    have := congrArg UInt8.toNat (List.cons.inj h2).1
    rw [UInt8.toNat_ofNat', UInt8.toNat_ofNat'] at this
    omega
  exact List.append_inj' h1 h3

/-- The first string of a use that hashes to the field gives back the tag and the message. -/
theorem xmdFirst_inj {H : Bytes → Bytes} {z n : ℕ} {d d' m m' : Bytes} (hd : d.length ≤ 255) (hd' : d'.length ≤ 255)
    (h : xmdFirst H z n d m = xmdFirst H z n d' m') : d = d' ∧ m = m' := by
  unfold xmdFirst at h
  obtain ⟨h1, h2⟩ := dstPrime_short hd hd' h
  obtain ⟨h3, -⟩ := List.append_inj' h1 rfl
  obtain ⟨h4, -⟩ := List.append_inj' h3 rfl
  exact ⟨h2, List.append_cancel_left h4⟩

/-- The tag of a use that hashes to the field. -/
def Spec.HashUse.tag (ctx : Bytes) : Spec.HashUse → Option Bytes
  | .proof => some (ctx ++ strBytes "nizkpok")
  | .binding => some (ctx ++ strBytes "rho")
  | .challenge => some (ctx ++ strBytes "challenge")
  | .nonce => some (ctx ++ strBytes "nonce")
  | .complaint => some (strBytes "Complaint Context")
  | _ => none

theorem tag_inj (ctx : Bytes) (u v : Spec.HashUse) (d : Bytes) (hu : u.tag ctx = some d) (hv : v.tag ctx = some d) :
    u = v := by
  have hc : ∀ x y : Bytes, x ≠ y → ctx ++ x ≠ ctx ++ y := fun x y h e => h (List.append_cancel_left e)
  have hl : ∀ x : Bytes, x.getLast? ≠ (strBytes "Complaint Context").getLast? → x ≠ [] →
      ctx ++ x ≠ strBytes "Complaint Context" := by
    intro x h1 h2
    have := append_ne_of_last (a := ctx) (b := []) h1 h2 (by decide)
    simpa using this
  cases u <;> cases v <;> first
    | rfl
    | (cases hu; done)
    | (cases hv; done)
    | (exfalso
       have e := hu.trans hv.symm
       simp only [Spec.HashUse.tag, Option.some.injEq] at e
       first
         | exact hc _ _ (by decide) e
         | exact hl _ (by decide) (by decide) e
         | exact hl _ (by decide) (by decide) e.symm)

theorem firstString_field {H : Bytes → Bytes} {ctx : Bytes} {z n : ℕ} {u : Spec.HashUse} {d : Bytes}
    (h : u.tag ctx = some d) (m : Bytes) : Spec.firstString H ctx z n u m = xmdFirst H z n d m := by
  cases u <;> first
    | (cases h; done)
    | (rw [← Option.some.inj h]; rfl)

theorem tag_length {ctx : Bytes} (h : ctx.length ≤ 246) {u : Spec.HashUse} {d : Bytes} (hu : u.tag ctx = some d) :
    d.length ≤ 255 := by
  have e1 : (strBytes "nizkpok").length = 7 := by decide
  have e2 : (strBytes "rho").length = 3 := by decide
  have e3 : (strBytes "challenge").length = 9 := by decide
  have e4 : (strBytes "nonce").length = 5 := by decide
  have e5 : (strBytes "Complaint Context").length = 17 := by decide
  cases u <;> first
    | (cases hu; done)
    | (rw [← Option.some.inj hu]
       try simp only [List.length_append]
       omega)

/-- The first byte of the strings of the uses that hash to the field, and of the other ones. -/
theorem firstString_head_field {H : Bytes → Bytes} {ctx : Bytes} {z n : ℕ} (hz : z ≠ 0) {u : Spec.HashUse} {d : Bytes}
    (h : u.tag ctx = some d) (m : Bytes) : (Spec.firstString H ctx z n u m).head? = some 0 := by
  rw [firstString_field h]
  obtain ⟨k, rfl⟩ := Nat.exists_eq_succ_of_ne_zero hz
  unfold xmdFirst
  rw [List.replicate_succ]
  rfl

theorem firstString_head_other {H : Bytes → Bytes} {ctx : Bytes} {z n : ℕ} (h0 : ctx.head? ≠ some 0)
    {u : Spec.HashUse} (h : u.tag ctx = none) (m : Bytes) : (Spec.firstString H ctx z n u m).head? ≠ some 0 := by
  have hh : ∀ (x : UInt8) (t : Bytes), x ≠ 0 → (ctx ++ x :: t).head? ≠ some 0 := by
    intro x t hx
    cases ctx with
    | nil => exact fun e => hx (Option.some.inj e)
    | cons c ctx => exact h0
  cases u with
  | message =>
    show ((ctx ++ strBytes "message") ++ m).head? ≠ _
    rw [List.append_assoc]
    exact hh 109 _ (by decide)
  | commitment =>
    show ((ctx ++ strBytes "commitment") ++ m).head? ≠ _
    rw [List.append_assoc]
    exact hh 99 _ (by decide)
  | key => exact fun e => absurd (Option.some.inj e) (by decide)
  | proof => cases h
  | binding => cases h
  | challenge => cases h
  | nonce => cases h
  | complaint => cases h

/-- The strings of the uses that do not hash to the field give back the use and the message. -/
theorem firstString_other {H : Bytes → Bytes} {ctx : Bytes} {z n : ℕ} (h6 : ctx.head? ≠ some 0x36)
    {u v : Spec.HashUse} (hu : u.tag ctx = none) (hv : v.tag ctx = none) {m m' : Bytes}
    (h : Spec.firstString H ctx z n u m = Spec.firstString H ctx z n v m') : u = v ∧ m = m' := by
  have key : ∀ (t m x : Bytes), t.head? ≠ some 0x36 → t ≠ [] → ctx ++ t ++ m = List.replicate 64 0x36 ++ x → False := by
    intro t m x ht hne e
    have e' := congrArg List.head? e
    cases ctx with
    | nil =>
      cases t with
      | nil => exact hne rfl
      | cons c t => exact ht e'
    | cons c ctx => exact h6 e'
  have mc : ∀ m m' : Bytes, ctx ++ strBytes "message" ++ m = ctx ++ strBytes "commitment" ++ m' → False := by
    intro m m' e
    rw [List.append_assoc, List.append_assoc] at e
    have e' := congrArg List.head? (List.append_cancel_left e)
    exact absurd (Option.some.inj (show some (109 : UInt8) = some 99 from e')) (by decide)
  cases u <;> first
    | (cases hu; done)
    | (cases v <;> first
        | (cases hv; done)
        | exact ⟨rfl, List.append_cancel_left h⟩
        | exact (mc _ _ h).elim
        | exact (mc _ _ h.symm).elim
        | exact (key _ _ _ (by decide) (by decide) h).elim
        | exact (key _ _ _ (by decide) (by decide) h.symm).elim)

/-- C162: two calls that begin with the same hashed string are the same call: the use and the message are determined. The
context has to leave room for the longest tag, and must not begin with the byte that the other constructions begin with. -/
theorem C162_separated {H : Bytes → Bytes} {ctx : Bytes} {z n : ℕ} (hz : z ≠ 0) (hl : ctx.length ≤ 246)
    (h0 : ctx.head? ≠ some 0) (h6 : ctx.head? ≠ some 0x36) {u v : Spec.HashUse} {m m' : Bytes}
    (h : Spec.firstString H ctx z n u m = Spec.firstString H ctx z n v m') : u = v ∧ m = m' := by
  cases hu : u.tag ctx with
  | none =>
    cases hv : v.tag ctx with
    | none => exact firstString_other h6 hu hv h
    | some d => exact (firstString_head_other h0 hu m (by rw [h]; exact firstString_head_field hz hv m')).elim
  | some d =>
    cases hv : v.tag ctx with
    | none => exact (firstString_head_other h0 hv m' (by rw [← h]; exact firstString_head_field hz hu m)).elim
    | some d' =>
      rw [firstString_field hu, firstString_field hv] at h
      obtain ⟨h1, h2⟩ := xmdFirst_inj (tag_length hl hu) (tag_length hl hv) h
      exact ⟨tag_inj ctx u v d hu (by rw [h1]; exact hv), h2⟩

/-- With a context of any length, where long tags are hashed first: the same, or two strings have the same hash. -/
theorem dstPrime_any {H : Bytes → Bytes} (hH : ∀ x, (H x).length = 32) {a b d d' : Bytes} (hd : d.length ≠ 32)
    (hd' : d'.length ≠ 32) (h : a ++ dstPrime H d = b ++ dstPrime H d') :
    (a = b ∧ d = d') ∨ ∃ x y, x ≠ y ∧ H x = H y := by
  by_cases h1 : 255 < d.length
  · by_cases h2 : 255 < d'.length
    · unfold dstPrime at h
      rw [if_pos h1, if_pos h2, ← List.append_assoc, ← List.append_assoc] at h
      obtain ⟨h3, -⟩ := List.append_inj' h rfl
      obtain ⟨h4, h5⟩ := List.append_inj' h3 (by rw [hH, hH])
      by_cases he : d = d'
      · exact Or.inl ⟨h4, he⟩
      · exact Or.inr ⟨_, _, fun e => he (List.append_cancel_left e), h5⟩
    · exfalso
      unfold dstPrime at h
      rw [if_pos h1, if_neg h2, ← List.append_assoc, ← List.append_assoc] at h
      obtain ⟨-, h3⟩ := List.append_inj' h rfl
      have := congrArg UInt8.toNat (List.cons.inj h3).1
      rw [hH, UInt8.toNat_ofNat', UInt8.toNat_ofNat'] at this
      omega
  · by_cases h2 : 255 < d'.length
    · exfalso
      unfold dstPrime at h
      rw [if_neg h1, if_pos h2, ← List.append_assoc, ← List.append_assoc] at h
      obtain ⟨-, h3⟩ := List.append_inj' h rfl
      have := congrArg UInt8.toNat (List.cons.inj h3).1
      rw [hH, UInt8.toNat_ofNat', UInt8.toNat_ofNat'] at this
      omega
    · exact Or.inl (dstPrime_short (by omega) (by omega) h)

/-- C162: with a context of more than 246 bytes, where long tags are themselves hashed, the calls are still the same unless
two different strings have the same hash. -/
theorem C162_long_context {H : Bytes → Bytes} (hH : ∀ x, (H x).length = 32) {ctx : Bytes} {z n : ℕ} (hz : z ≠ 0)
    (hl : 246 < ctx.length) (h0 : ctx.head? ≠ some 0) (h6 : ctx.head? ≠ some 0x36) {u v : Spec.HashUse} {m m' : Bytes}
    (h : Spec.firstString H ctx z n u m = Spec.firstString H ctx z n v m') :
    (u = v ∧ m = m') ∨ ∃ x y, x ≠ y ∧ H x = H y := by
  have hlen : ∀ (u : Spec.HashUse) d, u.tag ctx = some d → d.length ≠ 32 := by
    intro u d hu
    have e5 : (strBytes "Complaint Context").length = 17 := by decide
    cases u <;> first
      | (cases hu; done)
      | (rw [← Option.some.inj hu]
         try simp only [List.length_append]
         omega)
  cases hu : u.tag ctx with
  | none =>
    cases hv : v.tag ctx with
    | none => exact Or.inl (firstString_other h6 hu hv h)
    | some d => exact (firstString_head_other h0 hu m (by rw [h]; exact firstString_head_field hz hv m')).elim
  | some d =>
    cases hv : v.tag ctx with
    | none => exact (firstString_head_other h0 hv m' (by rw [← h]; exact firstString_head_field hz hu m)).elim
    | some d' =>
      rw [firstString_field hu, firstString_field hv] at h
      unfold xmdFirst at h
      rcases dstPrime_any hH (hlen u d hu) (hlen v d' hv) h with ⟨h1, h2⟩ | hc
      · obtain ⟨h3, -⟩ := List.append_inj' h1 rfl
        obtain ⟨h4, -⟩ := List.append_inj' h3 rfl
        exact Or.inl ⟨tag_inj ctx u v d hu (by rw [h2]; exact hv), List.append_cancel_left h4⟩
      · exact Or.inr hc

/-- C162: the condition on the context is needed. Whatever the hash function, a suite whose context begins with zero bytes
makes `h0` and `h4` begin with the same string, for suitable messages. -/
theorem C162_zero_context (H : Bytes → Bytes) (z n : ℕ) (more : Bytes) :
    ∃ m m', Spec.firstString H (List.replicate z 0 ++ more) z n .proof m =
      Spec.firstString H (List.replicate z 0 ++ more) z n .message m' := by
  refine ⟨more ++ strBytes "message", beBytes 2 n ++ [0] ++
    dstPrime H (List.replicate z 0 ++ more ++ strBytes "nizkpok"), ?_⟩
  show _ ++ _ ++ _ ++ _ ++ _ = _
  simp only [Spec.firstString, List.append_assoc]

/-- The strings hashed after the first one begin with a hash value or with the sum of two hash values. -/
theorem later_begin {H : Bytes → Bytes} (hH : ∀ x, (H x).length = 32) (dst b0 : Bytes) (hb : ∃ x, b0 = H x) (k i : ℕ)
    (prev : Bytes) (hp : i ≠ 1 → ∃ x, prev = H x) (hi : i ≠ 0) {s : Bytes} (hs : s ∈ xmdLater H b0 dst k i prev) :
    ∃ x y, H x = s.take 32 ∨ xorBytes (H x) (H y) = s.take 32 := by
  induction k generalizing i prev with
  | zero => cases hs
  | succ k ih =>
    rcases List.mem_cons.mp hs with rfl | hs
    · obtain ⟨x, rfl⟩ := hb
      unfold xmdNext
      by_cases h1 : i = 1
      · refine ⟨x, x, Or.inl ?_⟩
        rw [if_pos h1, List.append_assoc, List.take_left' (hH x)]
      · obtain ⟨y, rfl⟩ := hp h1
        refine ⟨x, y, Or.inr ?_⟩
        rw [if_neg h1, List.append_assoc, List.take_left' (by rw [xorBytes, List.length_zipWith, hH, hH]; rfl)]
    · exact ih (i + 1) _ (fun _ => ⟨_, rfl⟩) (by omega) hs

/-- The strings hashed by a call that hashes to the field, with a tag that is not hashed itself. -/
def Spec.fieldStrings (H : Bytes → Bytes) (len z n : ℕ) (dst m : Bytes) : List Bytes :=
  xmdFirst H z n dst m :: xmdLater H (H (xmdFirst H z n dst m)) dst ((n + (len - 1)) / len) 1 []

/-- C162: these are all strings that are hashed: the result is the same with any other function that agrees on them. -/
theorem C162_complete {H H' : Bytes → Bytes} {len z n : ℕ} {dst m : Bytes} (hd : dst.length ≤ 255)
    (h : ∀ s ∈ Spec.fieldStrings H len z n dst m, H' s = H s) :
    expandXmd H' len z n dst m = expandXmd H len z n dst m := by
  have hp : dstPrime H' dst = dstPrime H dst := by
    unfold dstPrime
    rw [if_neg (by omega), if_neg (by omega)]
  have hf : xmdFirst H' z n dst m = xmdFirst H z n dst m := by
    unfold xmdFirst
    rw [hp]
  have hn : ∀ b0 prev i, xmdNext H' b0 prev i dst = xmdNext H b0 prev i dst := by
    intro b0 prev i
    unfold xmdNext
    rw [hp]
  have hb : ∀ (b0 : Bytes) (k i : ℕ) (prev : Bytes), (∀ s ∈ xmdLater H b0 dst k i prev, H' s = H s) →
      xmdBlocks H' b0 dst k i prev = xmdBlocks H b0 dst k i prev := by
    intro b0 k
    induction k with
    | zero => exact fun _ _ _ => rfl
    | succ k ih =>
      intro i prev hs
      have h1 := hs _ (List.mem_cons_self ..)
      show H' (xmdNext H' b0 prev i dst) :: _ = _
      rw [hn, h1, ih _ _ fun s hs' => hs s (List.mem_cons_of_mem _ hs')]
      rfl
  unfold expandXmd
  rw [hf, h _ (List.mem_cons_self ..), hb _ _ _ _ fun s hs => h s (List.mem_cons_of_mem _ hs)]

/-- The first 32 bytes of a first string are one of four constants. -/
theorem firstString_begin {H : Bytes → Bytes} {ctx : Bytes} {z n : ℕ} (hz : 32 ≤ z) (hc : 25 ≤ ctx.length)
    (u : Spec.HashUse) (m : Bytes) :
    (Spec.firstString H ctx z n u m).take 32 ∈ [List.replicate 32 0, List.replicate 32 0x36,
      (ctx ++ strBytes "message").take 32, (ctx ++ strBytes "commitment").take 32] := by
  have e1 : (strBytes "message").length = 7 := by decide
  have e2 : (strBytes "commitment").length = 10 := by decide
  cases hu : u.tag ctx with
  | some d =>
    rw [firstString_field hu]
    unfold xmdFirst
    have : ((List.replicate z 0 ++ m ++ beBytes 2 n ++ [0] ++ dstPrime H d).take 32) = List.replicate 32 0 := by
      rw [List.append_assoc, List.append_assoc, List.append_assoc, List.take_append_of_le_length (by
        rw [List.length_replicate]; exact hz), List.take_replicate, min_eq_left hz]
    rw [this]
    exact List.mem_cons_self ..
  | none =>
    cases u <;> first
      | (cases hu; done)
      | skip
    · have : (Spec.firstString H ctx z n .message m).take 32 = (ctx ++ strBytes "message").take 32 :=
        List.take_append_of_le_length (by rw [List.length_append]; omega)
      rw [this]
      simp only [List.mem_cons, true_or, or_true]
    · have : (Spec.firstString H ctx z n .commitment m).take 32 = (ctx ++ strBytes "commitment").take 32 :=
        List.take_append_of_le_length (by rw [List.length_append]; omega)
      rw [this]
      simp only [List.mem_cons, true_or, or_true]
    · have : (Spec.firstString H ctx z n .key m).take 32 = List.replicate 32 0x36 := by
        show (List.replicate 64 0x36 ++ m).take 32 = _
        rw [List.take_append_of_le_length (by rw [List.length_replicate]; norm_num), List.take_replicate]
        rfl
      rw [this]
      simp only [List.mem_cons, true_or, or_true]

/-- C162: a string that is hashed later in some call is the first string of a call only if a hash value, or the sum of two
hash values, is one of four fixed strings: 32 bytes 0, 32 bytes `0x36`, and the beginnings of what `h4` and `h5` hash. -/
theorem C162_later {H : Bytes → Bytes} (hH : ∀ x, (H x).length = 32) {ctx : Bytes} {len z n : ℕ} (hz : 32 ≤ z)
    (hc : 25 ≤ ctx.length) (dst m : Bytes) (u : Spec.HashUse) (m' : Bytes)
    (h : Spec.firstString H ctx z n u m' ∈ (Spec.fieldStrings H len z n dst m).tail) :
    ∃ w ∈ [List.replicate 32 0, List.replicate 32 0x36, (ctx ++ strBytes "message").take 32,
      (ctx ++ strBytes "commitment").take 32], ∃ x y, H x = w ∨ xorBytes (H x) (H y) = w :=
  ⟨_, firstString_begin hz hc u m', later_begin hH dst _ ⟨_, rfl⟩ _ 1 [] (fun h => absurd rfl h) one_ne_zero h⟩

end IceFrost
