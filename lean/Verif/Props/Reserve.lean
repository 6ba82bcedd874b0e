import Verif.Model.Reserve
import Verif.Lemmas.Codec
import Verif.Props.Serialization

/-! # C154: memory reserved for untrusted bytes -/

set_option linter.unusedSectionVars false
set_option linter.unusedSimpArgs false
set_option linter.unusedVariables false

namespace IceFrost

/-- C154: the decoders with reservations are those of the model. -/
theorem C154_same_decoders {F G R : Type} (S : Suite F G R) (w : Widths) :
    (coefficientsReserving S w).codec = coefficientsCodec S ∧ (encShareReserving S).codec = encShareCodec S ∧
      (vssReserving S w).codec = vssCodec S ∧ (complaintReserving S).codec = complaintCodec S ∧
      (participantReserving S w).codec = participantCodec S ∧ (dkgStateReserving S w).codec = dkgStateCodec S ∧
      (participantListReserving S w).codec = participantListCodec S ∧ (secretListReserving S w).codec = secretListCodec S ∧
      (publicListReserving S w).codec = publicListCodec S :=
  ⟨rfl, rfl, rfl, rfl, rfl, rfl, rfl, rfl, rfl⟩

namespace Reserving
variable {α β : Type}

/-- There are inputs of `k` bytes that make the decoder reserve any number of elements of `w` bytes that fits into the length
prefix. -/
def Open (c : Reserving α) (k w : Nat) : Prop :=
  ∀ N < 2 ^ 64, ∃ bs : Bytes, bs.length = k ∧ (N, w) ∈ c.wants bs

theorem u64_enc_length (N : Nat) : (Codec.u64.enc N).length = 8 := leBytes_length 8 N

theorem vec_wants (w : Nat) (c : Reserving α) {bs r : Bytes} {k : Nat} (h : Codec.u64.dec bs = some (k, r)) :
    (vec w c).wants bs = (k, w) :: c.wantsN k r := by
  simp only [vec, h]

theorem bmap_wants (c : Reserving α) {bs r : Bytes} {k : Nat} (h : Codec.u64.dec bs = some (k, r)) :
    (bmap c).wants bs = (pair (leaf Codec.u32) c).wantsN k r := by
  simp only [bmap, h]

theorem option_wants (c : Reserving α) {bs r : Bytes} {b : Bool} (h : Codec.bool.dec bs = some (b, r)) :
    (option c).wants bs = if b then c.wants r else [] := by
  cases b <;> simp [option, h]

theorem wantsN_succ (c : Reserving α) (k : Nat) (bs : Bytes) : c.wantsN (k + 1) bs = c.wants bs ++ match c.codec.dec bs with
    | none => []
    | some p => wantsN c k p.2 := rfl

theorem vec_open (w : Nat) (c : Reserving α) : (vec w c).Open 8 w := by
  intro N hN
  refine ⟨Codec.u64.enc N, u64_enc_length N, ?_⟩
  have h := Codec.u64_roundTrip.dec_enc N hN []
  rw [List.append_nil] at h
  rw [vec_wants w c h]
  exact List.mem_cons_self

theorem iso_open {c : Reserving α} {k w : Nat} (h : c.Open k w) (f : α → β) (g : β → α) : (c.iso f g).Open k w := h

theorem refine_open {c : Reserving α} {k w : Nat} (h : c.Open k w) (f : α → Option β) (g : β → α) :
    (c.refine f g).Open k w := h

theorem left_open {a : Reserving α} {k w : Nat} (h : a.Open k w) (b : Reserving β) : (pair a b).Open k w := by
  intro N hN
  obtain ⟨bs, h1, h2⟩ := h N hN
  exact ⟨bs, h1, List.mem_append_left _ h2⟩

theorem right_open {a : Reserving α} {x : Bytes} {v : α} (hx : ∀ rest, a.codec.dec (x ++ rest) = some (v, rest))
    {b : Reserving β} {k w : Nat} (h : b.Open k w) : (pair a b).Open (x.length + k) w := by
  intro N hN
  obtain ⟨bs, h1, h2⟩ := h N hN
  refine ⟨x ++ bs, by rw [List.length_append, h1], List.mem_append_right _ ?_⟩
  rw [hx bs]
  exact h2

theorem option_open {c : Reserving α} {k w : Nat} (h : c.Open k w) : (option c).Open (1 + k) w := by
  intro N hN
  obtain ⟨bs, h1, h2⟩ := h N hN
  refine ⟨Codec.bool.enc true ++ bs, by rw [List.length_append, h1]; rfl, ?_⟩
  rw [option_wants c (Codec.bool_roundTrip.dec_enc true trivial bs)]
  exact h2

theorem bmap_open {c : Reserving α} {k w : Nat} (h : c.Open k w) : (bmap c).Open (8 + (4 + k)) w := by
  intro N hN
  obtain ⟨bs, h1, h2⟩ := right_open (a := leaf Codec.u32) (x := Codec.u32.enc 1)
    (fun rest => Codec.u32_roundTrip.dec_enc 1 trivial rest) h N hN
  refine ⟨Codec.u64.enc 1 ++ bs, ?_, ?_⟩
  · rw [List.length_append, h1, u64_enc_length]
    rfl
  · rw [bmap_wants c (Codec.u64_roundTrip.dec_enc 1 (by norm_num) bs), wantsN_succ]
    exact List.mem_append_left _ h2

theorem Open.spec {c : Reserving α} {k w : Nat} (h : c.Open k w) (N : Nat) (hN : N < 2 ^ 64) :
    ∃ bs : Bytes, bs.length = k ∧ N * w ≤ c.reserved bs ∧ (2 ^ 63 ≤ N * w → c.panics bs) := by
  obtain ⟨bs, h1, h2⟩ := h N hN
  refine ⟨bs, h1, ?_, fun hp => ⟨_, h2, hp⟩⟩
  exact List.single_le_sum (fun _ _ => Nat.zero_le _) _ (List.mem_map.mpr ⟨_, h2, rfl⟩)

end Reserving

variable {F G R : Type}

/-- Some input of `k` bytes makes `from_bytes` reserve `N` elements of `w` bytes, and panic if that exceeds `isize::MAX`. -/
def Spec.Greedy {α : Type} (c : Reserving α) (k w : Nat) : Prop :=
  ∀ N < 2 ^ 64, ∃ bs : Bytes, bs.length = k ∧ N * w ≤ c.reserved bs ∧ (2 ^ 63 ≤ N * w → c.panics bs)

/-- C154, negation: the length announced in a message is used to reserve memory before anything else is read. For every type
with a vector there is a message of fixed length, down to 8 bytes, that makes `from_bytes` reserve as much memory as the sender
likes, and panic when that exceeds `isize::MAX` bytes. -/
theorem C154_short_messages {S : Suite F G R} (hS : S.CodecLaws) (zero : F) (point : G) (w : Widths) :
    Spec.Greedy (coefficientsReserving S w) 8 w.scalar ∧ Spec.Greedy (encShareReserving S) 16 1 ∧
      Spec.Greedy (vssReserving S w) 12 w.point ∧ Spec.Greedy (complaintReserving S) (2 * S.sizeG + 16) 1 ∧
      Spec.Greedy (participantReserving S w) (S.sizeG + 17) w.point ∧
      Spec.Greedy (dkgStateReserving S w) (S.sizeF + S.sizeG + 37) w.point ∧
      Spec.Greedy (participantListReserving S w) 8 w.participant ∧ Spec.Greedy (secretListReserving S w) 8 w.share ∧
      Spec.Greedy (publicListReserving S w) 12 (2 * w.point) := by
  have u : ∀ rest, (Reserving.leaf Codec.u32).codec.dec (Codec.u32.enc 1 ++ rest) = some (1, rest) :=
    fun rest => Codec.u32_roundTrip.dec_enc 1 trivial rest
  have g : ∀ rest, (Reserving.leaf (Codec.group S)).codec.dec (S.encG point ++ rest) = some (point, rest) :=
    fun rest => hS.decG_encG point rest
  have f : ∀ rest, (Reserving.leaf (Codec.scalar S)).codec.dec (S.encF zero ++ rest) = some (zero, rest) :=
    fun rest => hS.decF_encF zero rest
  have p : ∀ rest, (Reserving.leaf paramsCodec).codec.dec (paramsCodec.enc ⟨1, 1⟩ ++ rest) = some (⟨1, 1⟩, rest) :=
    fun rest => params_roundTrip.dec_enc ⟨1, 1⟩ trivial rest
  have hu : (Codec.u32.enc 1).length = 4 := rfl
  have hg := hS.encG_length point
  have hf := hS.encF_length zero
  have hp : (paramsCodec.enc ⟨1, 1⟩).length = 8 := rfl
  have e : (encShareReserving S).Open 16 1 :=
    Reserving.right_open (x := Codec.u32.enc 1) u (Reserving.right_open (x := Codec.u32.enc 1) u
      (Reserving.left_open (Reserving.refine_open (Reserving.vec_open 1 _) _ _) _))
  have v : (vssReserving S w).Open 12 w.point :=
    Reserving.iso_open (Reserving.right_open (x := Codec.u32.enc 1) u (Reserving.vec_open _ _)) _ _
  refine ⟨(Reserving.vec_open _ _).spec, e.spec, v.spec, ?_, ?_, ?_, ?_, (Reserving.vec_open _ _).spec, ?_⟩
  · have h := Reserving.right_open g (Reserving.right_open g
      (Reserving.left_open e (Reserving.leaf (complaintProofCodec S))))
    rw [hg] at h
    have := (show (complaintReserving S).Open _ 1 from h).spec
    intro N hN
    obtain ⟨bs, h1, h2⟩ := this N hN
    exact ⟨bs, by rw [h1]; ring, h2⟩
  · have h := Reserving.right_open u (Reserving.right_open g (Reserving.left_open (Reserving.option_open v)
      (Reserving.pair (Reserving.leaf (Codec.option (nizkCodec S))) (Reserving.leaf (nizkCodec S)))))
    rw [hg, hu] at h
    have := (show (participantReserving S w).Open _ w.point from h).spec
    intro N hN
    obtain ⟨bs, h1, h2⟩ := this N hN
    exact ⟨bs, by rw [h1]; ring, h2⟩
  · have h := Reserving.right_open p (Reserving.right_open u (Reserving.right_open f (Reserving.right_open g
      (Reserving.left_open (Reserving.option_open (Reserving.bmap_open v)) (Reserving.pair
        (Reserving.bmap (Reserving.leaf (Codec.group S))) (Reserving.pair (Reserving.option (Reserving.bmap (encShareReserving S)))
          (Reserving.option (Reserving.bmap (Reserving.leaf (secretShareCodec S))))))))))
    rw [hg, hf, hu, hp] at h
    have := (show (dkgStateReserving S w).Open _ w.point from h).spec
    intro N hN
    obtain ⟨bs, h1, h2⟩ := this N hN
    exact ⟨bs, by rw [h1]; ring, h2⟩
  · exact (show (participantListReserving S w).Open 8 _ from
      Reserving.iso_open (Reserving.left_open (Reserving.vec_open _ _) _) _ _).spec
  · exact (show (publicListReserving S w).Open 12 _ from
      Reserving.iso_open (Reserving.right_open (x := Codec.u32.enc 1) u (Reserving.vec_open _ _)) _ _).spec

namespace Reserving
variable {α β : Type}

/-- For encodings of values in `P` the decoder reserves at most `W` bytes per byte of input. -/
structure Frugal (c : Reserving α) (P : α → Prop) (W : Nat) : Prop where
  roundTrip : c.codec.RoundTrip P
  le : ∀ a, P a → ∀ rest, c.reserved (c.codec.enc a ++ rest) ≤ W * (c.codec.enc a).length

theorem Frugal.mono {c : Reserving α} {P Q : α → Prop} {W W' : Nat} (h : c.Frugal P W) (hq : ∀ a, Q a → P a) (hW : W ≤ W') :
    c.Frugal Q W' :=
  ⟨h.roundTrip.mono hq, fun a ha rest => (h.le a (hq a ha) rest).trans (Nat.mul_le_mul_right _ hW)⟩

theorem leaf_frugal {c : Codec α} {P : α → Prop} (h : c.RoundTrip P) : (leaf c).Frugal P 0 :=
  ⟨h, fun a ha rest => Nat.zero_le _⟩

theorem iso_frugal {c : Reserving α} {P : α → Prop} {W : Nat} (h : c.Frugal P W) (f : α → β) (g : β → α)
    (hfg : ∀ b, f (g b) = b) : (c.iso f g).Frugal (fun b => P (g b)) W :=
  ⟨Codec.iso_roundTrip h.roundTrip f g hfg, fun b hb rest => h.le (g b) hb rest⟩

theorem refine_frugal {c : Reserving α} {P : α → Prop} {W : Nat} (h : c.Frugal P W) (f : α → Option β) (g : β → α) :
    (c.refine f g).Frugal (fun b => P (g b) ∧ f (g b) = some b) W :=
  ⟨Codec.refine_roundTrip h.roundTrip f g, fun b hb rest => h.le (g b) hb.1 rest⟩

theorem pair_frugal {a : Reserving α} {b : Reserving β} {P : α → Prop} {Q : β → Prop} {W : Nat} (ha : a.Frugal P W)
    (hb : b.Frugal Q W) : (pair a b).Frugal (fun p => P p.1 ∧ Q p.2) W := by
  refine ⟨Codec.pair_roundTrip ha.roundTrip hb.roundTrip, fun p hp rest => ?_⟩
  have e : (pair a b).wants ((a.codec.enc p.1 ++ b.codec.enc p.2) ++ rest) =
      a.wants (a.codec.enc p.1 ++ (b.codec.enc p.2 ++ rest)) ++ b.wants (b.codec.enc p.2 ++ rest) := by
    rw [List.append_assoc]
    show _ ++ (match a.codec.dec (a.codec.enc p.1 ++ (b.codec.enc p.2 ++ rest)) with
      | none => []
      | some p => b.wants p.2) = _
    rw [ha.roundTrip.dec_enc _ hp.1]
  show (((pair a b).wants ((a.codec.enc p.1 ++ b.codec.enc p.2) ++ rest)).map fun e => e.1 * e.2).sum ≤
    W * (a.codec.enc p.1 ++ b.codec.enc p.2).length
  rw [e, List.map_append, List.sum_append, List.length_append, Nat.mul_add]
  exact Nat.add_le_add (ha.le _ hp.1 _) (hb.le _ hp.2 _)

theorem wantsN_frugal {c : Reserving α} {P : α → Prop} {W : Nat} (h : c.Frugal P W) (l : List α) (hl : ∀ a ∈ l, P a)
    (rest : Bytes) : ((c.wantsN l.length ((l.map c.codec.enc).flatten ++ rest)).map fun e => e.1 * e.2).sum ≤
      W * (l.map c.codec.enc).flatten.length := by
  induction l with
  | nil => exact Nat.zero_le _
  | cons a l ih =>
    rw [List.map_cons, List.flatten_cons, List.length_cons, wantsN, List.append_assoc,
      h.roundTrip.dec_enc a (hl a (by simp)), List.map_append, List.sum_append, List.length_append, Nat.mul_add]
    exact Nat.add_le_add (h.le a (hl a (by simp)) _) (ih fun b hb => hl b (by simp [hb]))

theorem length_le_flatten {f : α → Bytes} (l : List α) (hl : ∀ a ∈ l, 1 ≤ (f a).length) :
    l.length ≤ (l.map f).flatten.length := by
  induction l with
  | nil => exact Nat.zero_le _
  | cons a l ih =>
    rw [List.map_cons, List.flatten_cons, List.length_append, List.length_cons]
    have := ih fun b hb => hl b (by simp [hb])
    have := hl a (by simp)
    omega

theorem vec_frugal {c : Reserving α} {P : α → Prop} {W : Nat} (h : c.Frugal P W) (hP : ∀ a, P a → 1 ≤ (c.codec.enc a).length)
    (w : Nat) : (vec w c).Frugal (fun l => l.length < 2 ^ 64 ∧ ∀ a ∈ l, P a) (W + w) := by
  refine ⟨Codec.vec_roundTrip h.roundTrip, fun l hl rest => ?_⟩
  show (((vec w c).wants ((Codec.u64.enc l.length ++ (l.map c.codec.enc).flatten) ++ rest)).map fun e => e.1 * e.2).sum ≤
    (W + w) * (Codec.u64.enc l.length ++ (l.map c.codec.enc).flatten).length
  have e : (vec w c).wants ((Codec.u64.enc l.length ++ (l.map c.codec.enc).flatten) ++ rest) =
      (l.length, w) :: c.wantsN l.length ((l.map c.codec.enc).flatten ++ rest) := by
    rw [List.append_assoc]
    exact vec_wants w c (Codec.u64_roundTrip.dec_enc _ hl.1 _)
  rw [e, List.map_cons, List.sum_cons, List.length_append]
  have h1 := wantsN_frugal h l hl.2 rest
  have h2 := length_le_flatten (f := c.codec.enc) l fun a ha => hP a (hl.2 a ha)
  have h3 := Nat.mul_le_mul_right w h2
  simp only at *
  rw [Nat.add_mul, Nat.mul_add, Nat.mul_add]
  have h4 : w * (l.map c.codec.enc).flatten.length = (l.map c.codec.enc).flatten.length * w := Nat.mul_comm _ _
  omega

theorem option_frugal {c : Reserving α} {P : α → Prop} {W : Nat} (h : c.Frugal P W) :
    (option c).Frugal (fun o => ∀ a, o = some a → P a) W := by
  refine ⟨Codec.option_roundTrip h.roundTrip, fun o ho rest => ?_⟩
  cases o with
  | none =>
    have e := option_wants c (Codec.bool_roundTrip.dec_enc false trivial rest)
    unfold reserved
    rw [show (option c).codec.enc none = Codec.bool.enc false from rfl, e]
    exact Nat.zero_le _
  | some a =>
    have e := option_wants c (Codec.bool_roundTrip.dec_enc true trivial (c.codec.enc a ++ rest))
    unfold reserved
    rw [show (option c).codec.enc (some a) = Codec.bool.enc true ++ c.codec.enc a from rfl, List.append_assoc, e,
      List.length_append, Nat.mul_add]
    exact (h.le a (ho a rfl) rest).trans (Nat.le_add_left _ _)

theorem bmap_frugal {c : Reserving α} {P : α → Prop} {W : Nat} (h : c.Frugal P W) :
    (bmap c).Frugal (fun m => BMap.WF m ∧ ∀ e ∈ m, P e.2) W := by
  refine ⟨Codec.bmap_roundTrip h.roundTrip, fun m hm rest => ?_⟩
  have hp := pair_frugal ((leaf_frugal Codec.u32_roundTrip).mono (fun _ h => h) (Nat.zero_le W)) h
  have h1 := wantsN_frugal hp m (fun a ha => ⟨trivial, hm.2 a ha⟩) rest
  have e := bmap_wants c (Codec.u64_roundTrip.dec_enc m.length (BMap.wf_length hm.1)
    ((m.map (Codec.pair Codec.u32 c.codec).enc).flatten ++ rest))
  unfold reserved
  rw [show (bmap c).codec.enc m = Codec.u64.enc m.length ++ (m.map (Codec.pair Codec.u32 c.codec).enc).flatten from rfl,
    List.append_assoc, e, List.length_append, Nat.mul_add]
  exact h1.trans (Nat.le_add_left _ _)

end Reserving

variable [Field F] [DecidableEq F] [AddCommGroup G] [Module F G] [DecidableEq G]

theorem encG_length_pos {S : Suite F G R} (hS : S.CodecLaws) (hG : S.GroupLaws) (a : G) : 1 ≤ (S.encG a).length := by
  rw [hS.encG_length]
  by_contra h
  have h0 : S.sizeG = 0 := by omega
  have e : ∀ b, S.encG b = [] := fun b => List.length_eq_zero_iff.mp ((hS.encG_length b).trans h0)
  have h1 := hS.decG_encG ((0 : F) • S.gen) []
  have h2 := hS.decG_encG ((1 : F) • S.gen) []
  rw [e] at h1 h2
  rw [h1] at h2
  simp only [Option.some.injEq, Prod.mk.injEq, and_true] at h2
  exact zero_ne_one (hG.gen_inj _ _ h2)

theorem encF_length_pos {S : Suite F G R} (hS : S.CodecLaws) (a : F) : 1 ≤ (S.encF a).length := by
  rw [hS.encF_length]
  by_contra h
  have h0 : S.sizeF = 0 := by omega
  have e : ∀ b, S.encF b = [] := fun b => List.length_eq_zero_iff.mp ((hS.encF_length b).trans h0)
  have h1 := hS.decF_encF (0 : F) []
  have h2 := hS.decF_encF (1 : F) []
  rw [e] at h1 h2
  rw [h1] at h2
  simp only [Option.some.injEq, Prod.mk.injEq, and_true] at h2
  exact zero_ne_one h2

/-- For what honest senders write, `from_bytes` reserves at most `W` bytes per byte of the message. -/
def Spec.Modest {α : Type} (c : Reserving α) (P : α → Prop) (W : Nat) : Prop :=
  ∀ a, P a → ∀ rest, c.reserved (c.codec.enc a ++ rest) ≤ W * (c.codec.enc a).length

/-- C154 for messages that are encodings (followed by anything): the memory reserved is at most a constant times the length of
the encoding. The constants are the sizes of the elements of vectors.

Missing for the full C154: other messages, for which it is false (previous theorem). -/
theorem C154_encodings_partial {S : Suite F G R} (hS : S.CodecLaws) (hG : S.GroupLaws) (w : Widths) :
    Spec.Modest (coefficientsReserving S w) (fun l => l.length < 2 ^ 64) w.scalar ∧
      Spec.Modest (encShareReserving S) (EncShare.Fits S) 1 ∧ Spec.Modest (vssReserving S w) VssCommitment.Fits w.point ∧
      Spec.Modest (complaintReserving S) (fun c => c.encShare.Fits S) 1 ∧
      Spec.Modest (participantReserving S w) Participant.Fits w.point ∧
      Spec.Modest (dkgStateReserving S w) (DkgState.Fits S) (w.point + 1) ∧
      Spec.Modest (participantListReserving S w) ParticipantList.Fits (w.participant + w.point + 4) ∧
      Spec.Modest (secretListReserving S w) (fun l => l.length < 2 ^ 64) w.share ∧
      Spec.Modest (publicListReserving S w) (fun l => l.commitments.length < 2 ^ 64) (2 * w.point) := by
  have z : ∀ {α : Type} {c : Codec α} {P : α → Prop} (W : Nat), c.RoundTrip P → (Reserving.leaf c).Frugal P W :=
    fun W h => (Reserving.leaf_frugal h).mono (fun _ h => h) (Nat.zero_le W)
  have posG := fun a => encG_length_pos hS hG a
  have posF := fun a => encF_length_pos hS (F := F) a
  have b : (Reserving.vec 1 (Reserving.leaf Codec.u8)).Frugal (fun l => l.length < 2 ^ 64) 1 :=
    (Reserving.vec_frugal (Reserving.leaf_frugal Codec.u8_roundTrip) (fun a _ => (leBytes_length 1 _).ge) 1).mono
      (fun l hl => ⟨hl, fun _ _ => trivial⟩) (by omega)
  have e : (encShareReserving S).Frugal (EncShare.Fits S) 1 := by
    have h := Reserving.iso_frugal (Reserving.pair_frugal (z 1 Codec.u32_roundTrip) (Reserving.pair_frugal (z 1 Codec.u32_roundTrip)
      (Reserving.pair_frugal (Reserving.refine_frugal b (fun n => if n.length = S.nonceSize then some n else none) id) b)))
      (fun p => (⟨p.1, p.2.1, p.2.2.1, p.2.2.2⟩ : EncShare)) (fun e => (e.senderIndex, e.receiverIndex, e.nonce, e.ct))
      (fun _ => rfl)
    refine ⟨encShare_roundTrip, fun a ha rest => h.le a ⟨trivial, trivial, ⟨?_, if_pos ha.nonce⟩, ha.ct⟩ rest⟩
    exact lt_of_eq_of_lt ha.nonce ha.size
  have v : (vssReserving S w).Frugal VssCommitment.Fits w.point :=
    (Reserving.iso_frugal (Reserving.pair_frugal (z _ Codec.u32_roundTrip) ((Reserving.vec_frugal
      (Reserving.leaf_frugal (group_roundTrip hS)) (fun a _ => posG a) w.point).mono (fun _ h => h) (by omega))) _ _
      (fun _ => rfl)).mono (fun c hc => ⟨trivial, hc, fun _ _ => trivial⟩) le_rfl
  have c : (complaintReserving S).Frugal (fun c => c.encShare.Fits S) 1 :=
    (Reserving.iso_frugal (Reserving.pair_frugal (z 1 (group_roundTrip hS)) (Reserving.pair_frugal (z 1 (group_roundTrip hS))
      (Reserving.pair_frugal e (z 1 (complaintProof_roundTrip hS))))) _ _ (fun _ => rfl)).mono
      (fun _ h => ⟨trivial, trivial, h, trivial⟩) le_rfl
  have p : (participantReserving S w).Frugal Participant.Fits w.point :=
    (Reserving.iso_frugal (Reserving.pair_frugal (z _ Codec.u32_roundTrip) (Reserving.pair_frugal (z _ (group_roundTrip hS))
      (Reserving.pair_frugal (Reserving.option_frugal v) (Reserving.pair_frugal
        (z _ (Codec.option_roundTrip (nizk_roundTrip hS))) (z _ (nizk_roundTrip hS)))))) _ _ (fun _ => rfl)).mono
      (fun _ hc => ⟨trivial, trivial, hc, fun _ _ => trivial, trivial⟩) le_rfl
  have up : ∀ {α : Type} {c : Reserving α} {P : α → Prop} {W W' : Nat}, c.Frugal P W → W ≤ W' → c.Frugal P W' :=
    fun h hW => h.mono (fun _ h => h) hW
  have st : (dkgStateReserving S w).Frugal (DkgState.Fits S) (w.point + 1) :=
    (Reserving.iso_frugal (Reserving.pair_frugal (z _ params_roundTrip) (Reserving.pair_frugal (z _ Codec.u32_roundTrip)
      (Reserving.pair_frugal (z _ (scalar_roundTrip hS)) (Reserving.pair_frugal (z _ (group_roundTrip hS))
        (Reserving.pair_frugal (Reserving.option_frugal (Reserving.bmap_frugal (up v (by omega))))
          (Reserving.pair_frugal (Reserving.bmap_frugal (z _ (group_roundTrip hS))) (Reserving.pair_frugal
            (Reserving.option_frugal (Reserving.bmap_frugal (up e (by omega))))
            (Reserving.option_frugal (Reserving.bmap_frugal (z _ (secretShare_roundTrip hS)))))))))))
      _ _ (fun _ => rfl)).mono
      (fun _ hs => ⟨trivial, trivial, trivial, trivial, hs.commitments, ⟨hs.dhKeys, fun _ _ => trivial⟩, hs.encShares,
        fun m hm => ⟨hs.shares m hm, fun _ _ => trivial⟩⟩) le_rfl
  have l : (participantListReserving S w).Frugal ParticipantList.Fits (w.participant + w.point + 4) := by
    have hv := Reserving.vec_frugal p (fun a _ => by
      show 1 ≤ (Codec.u32.enc a.index ++ _).length
      rw [List.length_append, show (Codec.u32.enc a.index).length = 4 from leBytes_length 4 _]
      omega) w.participant
    have hu := Reserving.vec_frugal (Reserving.leaf_frugal Codec.u32_roundTrip) (fun a _ => by
      show 1 ≤ (Codec.u32.enc a).length
      rw [show (Codec.u32.enc a).length = 4 from leBytes_length 4 _]
      omega) 4
    exact (Reserving.iso_frugal (Reserving.pair_frugal (up hv (by omega)) (Reserving.option_frugal (up hu (by omega)))) _ _
      (fun _ => rfl)).mono (fun _ hl => ⟨hl.valid, fun m hm => ⟨hl.misbehaving m hm, fun _ _ => trivial⟩⟩) le_rfl
  have co : (coefficientsReserving S w).Frugal (fun l => l.length < 2 ^ 64) w.scalar :=
    (Reserving.vec_frugal (Reserving.leaf_frugal (scalar_roundTrip hS)) (fun a _ => posF a) w.scalar).mono
      (fun _ hl => ⟨hl, fun _ _ => trivial⟩) (by omega)
  have sl : (secretListReserving S w).Frugal (fun l => l.length < 2 ^ 64) w.share := by
    refine (Reserving.vec_frugal (Reserving.leaf_frugal (commitmentShare_roundTrip hS)) (fun a _ => ?_) w.share).mono
      (fun _ hl => ⟨hl, fun _ _ => trivial⟩) (by omega)
    show 1 ≤ ((S.encF a.hidingC.secret ++ _) ++ _).length
    rw [List.length_append, List.length_append]
    have := posF a.hidingC.secret
    omega
  have pl : (publicListReserving S w).Frugal (fun l => l.commitments.length < 2 ^ 64) (2 * w.point) := by
    have hv := Reserving.vec_frugal (Reserving.leaf_frugal (Codec.pair_roundTrip (group_roundTrip hS) (group_roundTrip hS)))
      (fun a _ => by
        show 1 ≤ (S.encG _ ++ _).length
        rw [List.length_append]
        have := posG a.1
        omega) (2 * w.point)
    exact (Reserving.iso_frugal (Reserving.pair_frugal (z _ Codec.u32_roundTrip) (up hv (by omega))) _ _ (fun _ => rfl)).mono
      (fun _ hl => ⟨trivial, hl, fun _ _ => ⟨trivial, trivial⟩⟩) le_rfl
  exact ⟨co.le, e.le, v.le, c.le, p.le, st.le, l.le, sl.le, pl.le⟩

/-- C154: a message of which at most `isize::MAX` bytes are reserved in total does not make `from_bytes` panic. -/
theorem C154_no_panic_partial {α : Type} (c : Reserving α) (bs : Bytes) (h : c.reserved bs < 2 ^ 63) : ¬c.panics bs := by
  rintro ⟨e, he, hp⟩
  have := List.single_le_sum (fun _ _ => Nat.zero_le _) _ (List.mem_map.mpr ⟨e, he, rfl⟩ :
    e.1 * e.2 ∈ (c.wants bs).map fun e => e.1 * e.2)
  exact absurd (hp.trans this) (Nat.not_le.mpr h)

/-- Every successful reading of an element consumes input. -/
def Codec.Consumes {α : Type} (c : Codec α) : Prop := ∀ bs a rest, c.dec bs = some (a, rest) → rest.length < bs.length

theorem decN_consumes {α : Type} {c : Codec α} (h : c.Consumes) (k : Nat) (bs : Bytes) (x : List α × Bytes)
    (hd : Codec.decN c k bs = some x) : k + x.2.length ≤ bs.length := by
  induction k generalizing bs x with
  | zero =>
    rw [Codec.decN] at hd
    cases hd
    exact (Nat.zero_add _).le
  | succ k ih =>
    rw [Codec.decN, Option.bind_eq_some_iff] at hd
    obtain ⟨⟨a, r⟩, h1, h2⟩ := hd
    rw [Option.map_eq_some_iff] at h2
    obtain ⟨y, h2, rfl⟩ := h2
    have h3 := h _ _ _ h1
    have h4 := ih r y h2
    simp only
    omega

/-- A decoder of vectors that compares the announced length with the number of bytes left before it reserves memory. -/
def Spec.checkedVec {α : Type} (w : Nat) (c : Reserving α) : Reserving (List α) where
  codec := { c.codec.vec with
    dec := fun bs => (Codec.u64.dec bs).bind fun p => if p.1 ≤ p.2.length then Codec.decN c.codec p.1 p.2 else none }
  wants bs := match Codec.u64.dec bs with
    | none => []
    | some p => if p.1 ≤ p.2.length then (p.1, w) :: c.wantsN p.1 p.2 else []

theorem wantsN_leaf {α : Type} (c : Codec α) (k : Nat) (bs : Bytes) : (Reserving.leaf c).wantsN k bs = [] := by
  induction k generalizing bs with
  | zero => rfl
  | succ k ih =>
    rw [Reserving.wantsN_succ]
    show [] ++ _ = _
    cases (Reserving.leaf c).codec.dec bs with
    | none => rfl
    | some p => exact ih p.2

/-- C154: comparing the announced length with the number of bytes left would not refuse anything that is accepted now, and for
vectors of elements without vectors the memory reserved would be at most a constant times the length of the input, whatever the
input is. -/
theorem C154_check_first {α : Type} (c : Codec α) (hc : c.Consumes) (w : Nat) :
    (Spec.checkedVec w (Reserving.leaf c)).codec.dec = c.vec.dec ∧
      ∀ bs, (Spec.checkedVec w (Reserving.leaf c)).reserved bs ≤ w * bs.length := by
  constructor
  · funext bs
    show ((Codec.u64.dec bs).bind fun p => if p.1 ≤ p.2.length then Codec.decN c p.1 p.2 else none) =
      (Codec.u64.dec bs).bind fun p => Codec.decN c p.1 p.2
    refine congrArg _ (funext fun p => ?_)
    split
    · rfl
    · next hp =>
      cases hd : Codec.decN c p.1 p.2 with
      | none => rfl
      | some x =>
        have := decN_consumes hc _ _ _ hd
        omega
  · intro bs
    unfold Reserving.reserved Spec.checkedVec
    simp only
    cases hd : Codec.u64.dec bs with
    | none => exact Nat.zero_le _
    | some p =>
      simp only
      split
      · next hp =>
        rw [wantsN_leaf]
        have h8 : p.2.length ≤ bs.length := by
          have := (Codec.u64_canonical bs p.1 p.2 hd).1
          rw [this, List.length_append]
          omega
        show p.1 * w + 0 ≤ w * bs.length
        rw [Nat.add_zero, Nat.mul_comm]
        exact Nat.mul_le_mul_left w (hp.trans h8)
      · exact Nat.zero_le _

section Examples
open Toy

/-- Four 64-bit words per scalar, three coordinates of four words per point. -/
def usualWidths : Widths := ⟨32, 96, 344, 256⟩

/-- Sixteen bytes, the last eight of them 255, for an encrypted share: the reservation exceeds `isize::MAX`. -/
example : (encShareReserving suite).panics ([1, 0, 0, 0, 2, 0, 0, 0] ++ List.replicate 8 255) :=
  ⟨(2 ^ 64 - 1, 1), List.mem_append_right _ (List.mem_append_right _ (List.mem_append_left _ List.mem_cons_self)), by norm_num⟩

example : ∃ bs : Bytes, bs.length = 12 ∧ (vssReserving suite usualWidths).panics bs := by
  obtain ⟨bs, h1, -, h2⟩ := (C154_short_messages codec_laws (0 : Fp) (0 : Fp) usualWidths).2.2.1 (2 ^ 60) (by norm_num)
  exact ⟨bs, h1, h2 (by unfold usualWidths; norm_num)⟩

/-- The encoding of commitments to a polynomial of degree 2 reserves three points. -/
example : (vssReserving suite usualWidths).reserved ((vssCodec suite).enc ⟨3, [5, 6, 7]⟩) = 288 := by decide +kernel

example : (Codec.group suite).Consumes := by
  intro bs a rest h
  have := (group_canonical canonical_dec bs a rest h).1
  rw [this, List.length_append, Nat.lt_add_left_iff_pos]
  exact encG_length_pos codec_laws group_laws a

end Examples

end IceFrost
