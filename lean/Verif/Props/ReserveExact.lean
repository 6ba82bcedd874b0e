import Verif.Props.Reserve

/-!
# C154: what decoding an encoding reserves, exactly

`Props/Reserve.lean` bounds the memory reserved for an encoding; here it is computed.
-/

namespace IceFrost

namespace Reserving
variable {α β : Type}

/-- For encodings of values `a` in `P` the decoder reserves `r a` bytes. -/
structure Exact (c : Reserving α) (P : α → Prop) (r : α → Nat) : Prop where
  roundTrip : c.codec.RoundTrip P
  eq : ∀ a, P a → ∀ rest, c.reserved (c.codec.enc a ++ rest) = r a

theorem Exact.mono {c : Reserving α} {P Q : α → Prop} {r s : α → Nat} (h : c.Exact P r) (hq : ∀ a, Q a → P a)
    (hr : ∀ a, Q a → r a = s a) : c.Exact Q s :=
  ⟨h.roundTrip.mono hq, fun a ha rest => (h.eq a (hq a ha) rest).trans (hr a ha)⟩

theorem leaf_exact {c : Codec α} {P : α → Prop} (h : c.RoundTrip P) : (leaf c).Exact P fun _ => 0 :=
  ⟨h, fun _ _ _ => rfl⟩

theorem iso_exact {c : Reserving α} {P : α → Prop} {r : α → Nat} (h : c.Exact P r) (f : α → β) (g : β → α)
    (hfg : ∀ b, f (g b) = b) : (c.iso f g).Exact (fun b => P (g b)) fun b => r (g b) :=
  ⟨Codec.iso_roundTrip h.roundTrip f g hfg, fun b hb rest => h.eq (g b) hb rest⟩

theorem refine_exact {c : Reserving α} {P : α → Prop} {r : α → Nat} (h : c.Exact P r) (f : α → Option β) (g : β → α) :
    (c.refine f g).Exact (fun b => P (g b) ∧ f (g b) = some b) fun b => r (g b) :=
  ⟨Codec.refine_roundTrip h.roundTrip f g, fun b hb rest => h.eq (g b) hb.1 rest⟩

theorem pair_exact {a : Reserving α} {b : Reserving β} {P : α → Prop} {Q : β → Prop} {r : α → Nat} {s : β → Nat}
    (ha : a.Exact P r) (hb : b.Exact Q s) : (pair a b).Exact (fun p => P p.1 ∧ Q p.2) fun p => r p.1 + s p.2 := by
  refine ⟨Codec.pair_roundTrip ha.roundTrip hb.roundTrip, fun p hp rest => ?_⟩
  have e : (pair a b).wants ((a.codec.enc p.1 ++ b.codec.enc p.2) ++ rest) =
      a.wants (a.codec.enc p.1 ++ (b.codec.enc p.2 ++ rest)) ++ b.wants (b.codec.enc p.2 ++ rest) := by
    rw [List.append_assoc]
    show _ ++ (match a.codec.dec (a.codec.enc p.1 ++ (b.codec.enc p.2 ++ rest)) with
      | none => []
      | some p => b.wants p.2) = _
    rw [ha.roundTrip.dec_enc _ hp.1]
  show (((pair a b).wants ((a.codec.enc p.1 ++ b.codec.enc p.2) ++ rest)).map fun e => e.1 * e.2).sum = _
  rw [e, List.map_append, List.sum_append]
  exact congrArg₂ (· + ·) (ha.eq _ hp.1 _) (hb.eq _ hp.2 _)

theorem wantsN_exact {c : Reserving α} {P : α → Prop} {r : α → Nat} (h : c.Exact P r) (l : List α) (hl : ∀ a ∈ l, P a)
    (rest : Bytes) : ((c.wantsN l.length ((l.map c.codec.enc).flatten ++ rest)).map fun e => e.1 * e.2).sum =
      (l.map r).sum := by
  induction l with
  | nil => rfl
  | cons a l ih =>
    rw [List.map_cons, List.flatten_cons, List.length_cons, wantsN, List.append_assoc,
      h.roundTrip.dec_enc a (hl a (by simp)), List.map_append, List.sum_append, List.map_cons, List.sum_cons]
    exact congrArg₂ (· + ·) (h.eq a (hl a (by simp)) _) (ih fun b hb => hl b (by simp [hb]))

theorem vec_exact {c : Reserving α} {P : α → Prop} {r : α → Nat} (h : c.Exact P r) (w : Nat) :
    (vec w c).Exact (fun l => l.length < 2 ^ 64 ∧ ∀ a ∈ l, P a) fun l => l.length * w + (l.map r).sum := by
  refine ⟨Codec.vec_roundTrip h.roundTrip, fun l hl rest => ?_⟩
  show (((vec w c).wants ((Codec.u64.enc l.length ++ (l.map c.codec.enc).flatten) ++ rest)).map fun e => e.1 * e.2).sum = _
  have e : (vec w c).wants ((Codec.u64.enc l.length ++ (l.map c.codec.enc).flatten) ++ rest) =
      (l.length, w) :: c.wantsN l.length ((l.map c.codec.enc).flatten ++ rest) := by
    rw [List.append_assoc]
    exact vec_wants w c (Codec.u64_roundTrip.dec_enc _ hl.1 _)
  rw [e, List.map_cons, List.sum_cons, wantsN_exact h l hl.2 rest]

theorem option_exact {c : Reserving α} {P : α → Prop} {r : α → Nat} (h : c.Exact P r) :
    (option c).Exact (fun o => ∀ a, o = some a → P a) fun o => o.elim 0 r := by
  refine ⟨Codec.option_roundTrip h.roundTrip, fun o ho rest => ?_⟩
  cases o with
  | none =>
    have e := option_wants c (Codec.bool_roundTrip.dec_enc false trivial rest)
    unfold reserved
    rw [show (option c).codec.enc none = Codec.bool.enc false from rfl, e]
    rfl
  | some a =>
    have e := option_wants c (Codec.bool_roundTrip.dec_enc true trivial (c.codec.enc a ++ rest))
    unfold reserved
    rw [show (option c).codec.enc (some a) = Codec.bool.enc true ++ c.codec.enc a from rfl, List.append_assoc, e]
    exact h.eq a (ho a rfl) rest

theorem bmap_exact {c : Reserving α} {P : α → Prop} {r : α → Nat} (h : c.Exact P r) :
    (bmap c).Exact (fun m => BMap.WF m ∧ ∀ e ∈ m, P e.2) fun m => (m.map fun e => r e.2).sum := by
  refine ⟨Codec.bmap_roundTrip h.roundTrip, fun m hm rest => ?_⟩
  have hp := (pair_exact (leaf_exact Codec.u32_roundTrip) h).mono (fun _ h => h) (s := fun e => r e.2)
    (fun _ _ => Nat.zero_add _)
  have h1 := wantsN_exact hp m (fun a ha => ⟨trivial, hm.2 a ha⟩) rest
  have e := bmap_wants c (Codec.u64_roundTrip.dec_enc m.length (BMap.wf_length hm.1)
    ((m.map (Codec.pair Codec.u32 c.codec).enc).flatten ++ rest))
  unfold reserved
  rw [show (bmap c).codec.enc m = Codec.u64.enc m.length ++ (m.map (Codec.pair Codec.u32 c.codec).enc).flatten from rfl,
    List.append_assoc, e]
  exact h1

end Reserving

/-- Decoding the encoding of `a`, whatever follows it, reserves `r a` bytes. -/
def Spec.Reserves {α : Type} (c : Reserving α) (P : α → Prop) (r : α → Nat) : Prop :=
  ∀ a, P a → ∀ rest, c.reserved (c.codec.enc a ++ rest) = r a

namespace Spec
variable {F G : Type}

/-- The vectors in an encrypted share hold the bytes of its nonce and of its ciphertext. -/
def encShareBytes (e : EncShare) : Nat := e.nonce.length + e.ct.length

/-- The vector in a commitment holds its points. -/
def vssBytes (w : Widths) (c : VssCommitment G) : Nat := c.points.length * w.point

/-- The only vector in a participant is that of the commitments, if there are any. -/
def participantBytes (w : Widths) (p : Participant F G) : Nat := p.commitments.elim 0 (vssBytes w)

/-- The vectors in a state of key generation are those of the commitments and of the encrypted shares. -/
def dkgStateBytes (w : Widths) (s : DkgState F G) : Nat :=
  s.theirCommitments.elim 0 (fun m => (m.map fun e => vssBytes w e.2).sum) +
    s.theirEncryptedSecretShares.elim 0 fun m => (m.map fun e => encShareBytes e.2).sum

/-- The vectors in a list of participants: the valid ones, what each of them contains, and the indices of the others. -/
def participantListBytes (w : Widths) (l : ParticipantList F G) : Nat :=
  l.valid.length * w.participant + (l.valid.map (participantBytes w)).sum + l.misbehaving.elim 0 fun m => m.length * 4

end Spec

variable {F G R : Type} [Field F] [AddCommGroup G] [Module F G]

/-- C154 for messages that are encodings (followed by anything): decoding reserves exactly the memory of the vectors in the
value that it returns, no more and no less.

Missing for the full C154: other messages, for which it is false (`C154_short_messages`). -/
theorem C154_exact_partial {S : Suite F G R} (hS : S.CodecLaws) (w : Widths) :
    Spec.Reserves (coefficientsReserving S w) (fun l => l.length < 2 ^ 64) (fun l => l.length * w.scalar) ∧
      Spec.Reserves (encShareReserving S) (EncShare.Fits S) Spec.encShareBytes ∧
      Spec.Reserves (vssReserving S w) VssCommitment.Fits (Spec.vssBytes w) ∧
      Spec.Reserves (complaintReserving S) (fun c => c.encShare.Fits S) (fun c => Spec.encShareBytes c.encShare) ∧
      Spec.Reserves (participantReserving S w) Participant.Fits (Spec.participantBytes w) ∧
      Spec.Reserves (dkgStateReserving S w) (DkgState.Fits S) (Spec.dkgStateBytes w) ∧
      Spec.Reserves (participantListReserving S w) ParticipantList.Fits (Spec.participantListBytes w) ∧
      Spec.Reserves (secretListReserving S w) (fun l => l.length < 2 ^ 64) (fun l => l.length * w.share) ∧
      Spec.Reserves (publicListReserving S w) (fun l => l.commitments.length < 2 ^ 64)
        (fun l => l.commitments.length * (2 * w.point)) := by
  have z : ∀ {α : Type} {c : Codec α} {P : α → Prop}, c.RoundTrip P → (Reserving.leaf c).Exact P fun _ => 0 :=
    fun h => Reserving.leaf_exact h
  have zero : ∀ {α : Type} (l : List α), (l.map fun _ => 0).sum = 0 := fun l => by simp
  have flat : ∀ {α : Type} {c : Codec α} {P : α → Prop} (k : Nat), c.RoundTrip P → (Reserving.vec k (Reserving.leaf c)).Exact
      (fun l => l.length < 2 ^ 64 ∧ ∀ a ∈ l, P a) fun l => l.length * k :=
    fun k h => (Reserving.vec_exact (z h) k).mono (fun _ h => h) (fun l _ => by rw [zero, Nat.add_zero])
  have b : (Reserving.vec 1 (Reserving.leaf Codec.u8)).Exact (fun l => l.length < 2 ^ 64) fun l => l.length :=
    (flat 1 Codec.u8_roundTrip).mono (fun l hl => ⟨hl, fun _ _ => trivial⟩) (fun l _ => Nat.mul_one _)
  have e : (encShareReserving S).Exact (EncShare.Fits S) Spec.encShareBytes := by
    have h := Reserving.iso_exact (Reserving.pair_exact (z Codec.u32_roundTrip) (Reserving.pair_exact (z Codec.u32_roundTrip)
      (Reserving.pair_exact (Reserving.refine_exact b (fun n => if n.length = S.nonceSize then some n else none) id) b)))
      (fun p => (⟨p.1, p.2.1, p.2.2.1, p.2.2.2⟩ : EncShare)) (fun e => (e.senderIndex, e.receiverIndex, e.nonce, e.ct))
      (fun _ => rfl)
    refine ⟨encShare_roundTrip, fun a ha rest =>
      (h.eq a ⟨trivial, trivial, ⟨lt_of_eq_of_lt ha.nonce ha.size, if_pos ha.nonce⟩, ha.ct⟩ rest).trans ?_⟩
    show 0 + (0 + (a.nonce.length + a.ct.length)) = _
    unfold Spec.encShareBytes
    omega
  have v : (vssReserving S w).Exact VssCommitment.Fits (Spec.vssBytes w) :=
    (Reserving.iso_exact (Reserving.pair_exact (z Codec.u32_roundTrip) (flat w.point (group_roundTrip hS))) _ _
      (fun _ => rfl)).mono (fun c hc => ⟨trivial, hc, fun _ _ => trivial⟩) (fun _ _ => Nat.zero_add _)
  have c : (complaintReserving S).Exact (fun c => c.encShare.Fits S) fun c => Spec.encShareBytes c.encShare :=
    (Reserving.iso_exact (Reserving.pair_exact (z (group_roundTrip hS)) (Reserving.pair_exact (z (group_roundTrip hS))
      (Reserving.pair_exact e (z (complaintProof_roundTrip hS))))) _ _ (fun _ => rfl)).mono
      (fun _ h => ⟨trivial, trivial, h, trivial⟩) (fun _ _ => by simp only [Nat.zero_add, Nat.add_zero])
  have p : (participantReserving S w).Exact Participant.Fits (Spec.participantBytes w) :=
    (Reserving.iso_exact (Reserving.pair_exact (z Codec.u32_roundTrip) (Reserving.pair_exact (z (group_roundTrip hS))
      (Reserving.pair_exact (Reserving.option_exact v) (Reserving.pair_exact
        (z (Codec.option_roundTrip (nizk_roundTrip hS))) (z (nizk_roundTrip hS)))))) _ _ (fun _ => rfl)).mono
      (fun _ hc => ⟨trivial, trivial, hc, fun _ _ => trivial, trivial⟩)
      (fun _ _ => by simp only [Nat.zero_add, Nat.add_zero]; rfl)
  have st : (dkgStateReserving S w).Exact (DkgState.Fits S) (Spec.dkgStateBytes w) :=
    (Reserving.iso_exact (Reserving.pair_exact (z params_roundTrip) (Reserving.pair_exact (z Codec.u32_roundTrip)
      (Reserving.pair_exact (z (scalar_roundTrip hS)) (Reserving.pair_exact (z (group_roundTrip hS))
        (Reserving.pair_exact (Reserving.option_exact (Reserving.bmap_exact v))
          (Reserving.pair_exact ((Reserving.bmap_exact (z (group_roundTrip hS))).mono (fun _ h => h) (fun m _ => zero m))
            (Reserving.pair_exact (Reserving.option_exact (Reserving.bmap_exact e))
              ((Reserving.option_exact ((Reserving.bmap_exact (z (secretShare_roundTrip hS))).mono (fun _ h => h)
                (fun m _ => zero m))).mono (fun _ h => h) (s := fun _ => 0) (fun o _ => by cases o <;> rfl)))))))))
      _ _ (fun _ => rfl)).mono
      (fun _ hs => ⟨trivial, trivial, trivial, trivial, hs.commitments, ⟨hs.dhKeys, fun _ _ => trivial⟩, hs.encShares,
        fun m hm => ⟨hs.shares m hm, fun _ _ => trivial⟩⟩)
      (fun _ _ => by simp only [Nat.zero_add, Nat.add_zero]; rfl)
  have l : (participantListReserving S w).Exact ParticipantList.Fits (Spec.participantListBytes w) :=
    (Reserving.iso_exact (Reserving.pair_exact (Reserving.vec_exact p w.participant) (Reserving.option_exact
      (flat 4 Codec.u32_roundTrip))) _ _ (fun _ => rfl)).mono
      (fun _ hl => ⟨hl.valid, fun m hm => ⟨hl.misbehaving m hm, fun _ _ => trivial⟩⟩) (fun _ _ => rfl)
  have co : (coefficientsReserving S w).Exact (fun l => l.length < 2 ^ 64) fun l => l.length * w.scalar :=
    (flat w.scalar (scalar_roundTrip hS)).mono (fun _ hl => ⟨hl, fun _ _ => trivial⟩) (fun _ _ => rfl)
  have sl : (secretListReserving S w).Exact (fun l => l.length < 2 ^ 64) fun l => l.length * w.share :=
    (flat w.share (commitmentShare_roundTrip hS)).mono (fun _ hl => ⟨hl, fun _ _ => trivial⟩) (fun _ _ => rfl)
  have pl : (publicListReserving S w).Exact (fun l => l.commitments.length < 2 ^ 64)
      fun l => l.commitments.length * (2 * w.point) :=
    (Reserving.iso_exact (Reserving.pair_exact (z Codec.u32_roundTrip)
      (flat (2 * w.point) (Codec.pair_roundTrip (group_roundTrip hS) (group_roundTrip hS)))) _ _ (fun _ => rfl)).mono
      (fun _ hl => ⟨trivial, hl, fun _ _ => ⟨trivial, trivial⟩⟩) (fun _ _ => Nat.zero_add _)
  exact ⟨co.eq, e.eq, v.eq, c.eq, p.eq, st.eq, l.eq, sl.eq, pl.eq⟩

section Examples
open Toy

/-- The vectors of a state of key generation with the commitments of two dealers and two encrypted shares. -/
example : Spec.dkgStateBytes (F := Fp) (G := Fp) usualWidths
    ⟨⟨3, 2⟩, 1, 0, 0, some [(2, ⟨2, [5, 6]⟩), (3, ⟨3, [7, 8]⟩)], [],
      some [(2, ⟨2, 1, List.replicate 12 0, List.replicate 48 0⟩), (3, ⟨3, 1, List.replicate 12 0, List.replicate 48 0⟩)],
      none⟩ = 4 * 96 + 120 := by decide +kernel

end Examples

end IceFrost
