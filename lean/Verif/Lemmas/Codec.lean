import Verif.Spec
import Verif.Lemmas.Base
import Verif.Lemmas.Suite
import Verif.Model.Codec

/-! # Laws of the codec combinators -/

set_option linter.unusedSectionVars false
set_option linter.unusedSimpArgs false

namespace IceFrost

namespace Codec
variable {α β γ : Type}

/-- On values satisfying `P`, decoding reads back exactly what was written and leaves the rest, and the declared size
is the number of bytes written. -/
structure RoundTrip (c : Codec α) (P : α → Prop) : Prop where
  dec_enc : ∀ a, P a → ∀ rest, c.dec (c.enc a ++ rest) = some (a, rest)
  size_eq : ∀ a, P a → (c.enc a).length = c.size a

/-- Only what was written by `enc` is accepted, and decoded values satisfy `P`. -/
def Canonical (c : Codec α) (P : α → Prop) : Prop :=
  ∀ bs a rest, c.dec bs = some (a, rest) → bs = c.enc a ++ rest ∧ P a

theorem RoundTrip.mono {c : Codec α} {P Q : α → Prop} (h : c.RoundTrip P) (hq : ∀ a, Q a → P a) : c.RoundTrip Q :=
  ⟨fun a ha => h.dec_enc a (hq a ha), fun a ha => h.size_eq a (hq a ha)⟩

theorem Canonical.mono {c : Codec α} {P Q : α → Prop} (h : c.Canonical P) (hq : ∀ a, P a → Q a) : c.Canonical Q :=
  fun bs a rest hd => ⟨(h bs a rest hd).1, hq a (h bs a rest hd).2⟩

theorem uint_roundTrip (k : Nat) : (uint k).RoundTrip (· < 256 ^ k) := by
  refine ⟨fun n hn rest => ?_, fun n _ => leBytes_length k n⟩
  show (if (leBytes k n ++ rest).length < k then none
    else some (leNat ((leBytes k n ++ rest).take k), (leBytes k n ++ rest).drop k)) = _
  rw [if_neg (by rw [List.length_append, leBytes_length]; omega), List.take_left' (leBytes_length k n),
    List.drop_left' (leBytes_length k n), leNat_leBytes, Nat.mod_eq_of_lt hn]

theorem uint_canonical (k : Nat) : (uint k).Canonical (· < 256 ^ k) := by
  intro bs n rest h
  change (if bs.length < k then none else some (leNat (bs.take k), bs.drop k)) = _ at h
  split at h
  · cases h
  · next hk =>
    simp only [Option.some.injEq, Prod.mk.injEq] at h
    obtain ⟨rfl, rfl⟩ := h
    have hl : (bs.take k).length = k := by rw [List.length_take]; omega
    constructor
    · show bs = leBytes k (leNat (bs.take k)) ++ bs.drop k
      have := leBytes_leNat (bs.take k)
      rw [hl] at this
      rw [this, List.take_append_drop]
    · have := leNat_lt (bs.take k)
      rwa [hl] at this

theorem iso_roundTrip {c : Codec α} {P : α → Prop} (h : c.RoundTrip P) (f : α → β) (g : β → α)
    (hfg : ∀ b, f (g b) = b) : (c.iso f g).RoundTrip (fun b => P (g b)) := by
  refine ⟨fun b hb rest => ?_, fun b hb => h.size_eq _ hb⟩
  show (c.dec (c.enc (g b) ++ rest)).map _ = _
  rw [h.dec_enc _ hb, Option.map_some, hfg]

theorem iso_canonical {c : Codec α} {P : α → Prop} (h : c.Canonical P) (f : α → β) (g : β → α)
    (hgf : ∀ a, P a → g (f a) = a) : (c.iso f g).Canonical (fun b => P (g b)) := by
  intro bs b rest hd
  change (c.dec bs).map _ = _ at hd
  rw [Option.map_eq_some_iff] at hd
  obtain ⟨⟨a, r⟩, h1, h2⟩ := hd
  simp only [Prod.mk.injEq] at h2
  obtain ⟨rfl, rfl⟩ := h2
  obtain ⟨h3, h4⟩ := h bs a r h1
  refine ⟨?_, by beta_reduce; rwa [hgf a h4]⟩
  show bs = c.enc (g (f a)) ++ r
  rw [hgf a h4, h3]

theorem refine_roundTrip {c : Codec α} {P : α → Prop} (h : c.RoundTrip P) (f : α → Option β) (g : β → α) :
    (c.refine f g).RoundTrip (fun b => P (g b) ∧ f (g b) = some b) := by
  refine ⟨fun b hb rest => ?_, fun b hb => h.size_eq _ hb.1⟩
  show (c.dec (c.enc (g b) ++ rest)).bind _ = _
  rw [h.dec_enc _ hb.1, Option.bind_some, hb.2]
  rfl

theorem refine_canonical {c : Codec α} {P : α → Prop} (h : c.Canonical P) (f : α → Option β) (g : β → α)
    (hgf : ∀ a b, P a → f a = some b → g b = a) :
    (c.refine f g).Canonical (fun b => P (g b) ∧ f (g b) = some b) := by
  intro bs b rest hd
  change (c.dec bs).bind _ = _ at hd
  rw [Option.bind_eq_some_iff] at hd
  obtain ⟨⟨a, r⟩, h1, h2⟩ := hd
  rw [Option.map_eq_some_iff] at h2
  obtain ⟨b', h2, h3⟩ := h2
  simp only [Prod.mk.injEq] at h3
  obtain ⟨rfl, rfl⟩ := h3
  obtain ⟨h3, h4⟩ := h bs a r h1
  have := hgf a b' h4 h2
  refine ⟨?_, by beta_reduce; rw [this]; exact ⟨h4, h2⟩⟩
  show bs = c.enc (g b') ++ r
  rw [this, h3]

theorem u8_roundTrip : u8.RoundTrip (fun _ => True) :=
  (iso_roundTrip (uint_roundTrip 1) UInt8.ofNat UInt8.toNat (fun b => UInt8.ofNat_toNat)).mono
    (fun a _ => a.toNat_lt)

theorem u8_canonical : u8.Canonical (fun _ => True) :=
  (iso_canonical (uint_canonical 1) UInt8.ofNat UInt8.toNat (fun n hn => UInt8.toNat_ofNat_of_lt (by simpa using hn))).mono
    (fun _ _ => trivial)

theorem u32_roundTrip : u32.RoundTrip (fun _ => True) :=
  (iso_roundTrip (uint_roundTrip 4) UInt32.ofNat UInt32.toNat (fun b => UInt32.ofNat_toNat)).mono
    (fun a _ => a.toNat_lt)

theorem u32_canonical : u32.Canonical (fun _ => True) :=
  (iso_canonical (uint_canonical 4) UInt32.ofNat UInt32.toNat
    (fun n hn => UInt32.toNat_ofNat_of_lt (by simpa using hn))).mono (fun _ _ => trivial)

theorem pair_roundTrip {a : Codec α} {b : Codec β} {P : α → Prop} {Q : β → Prop} (ha : a.RoundTrip P)
    (hb : b.RoundTrip Q) : (pair a b).RoundTrip (fun p => P p.1 ∧ Q p.2) := by
  refine ⟨fun p hp rest => ?_, fun p hp => ?_⟩
  · show (a.dec ((a.enc p.1 ++ b.enc p.2) ++ rest)).bind _ = _
    rw [List.append_assoc, ha.dec_enc _ hp.1, Option.bind_some, hb.dec_enc _ hp.2]
    rfl
  · show (a.enc p.1 ++ b.enc p.2).length = _
    rw [List.length_append, ha.size_eq _ hp.1, hb.size_eq _ hp.2]
    rfl

theorem pair_canonical {a : Codec α} {b : Codec β} {P : α → Prop} {Q : β → Prop} (ha : a.Canonical P)
    (hb : b.Canonical Q) : (pair a b).Canonical (fun p => P p.1 ∧ Q p.2) := by
  intro bs p rest hd
  change (a.dec bs).bind _ = _ at hd
  rw [Option.bind_eq_some_iff] at hd
  obtain ⟨⟨x, r⟩, h1, h2⟩ := hd
  rw [Option.map_eq_some_iff] at h2
  obtain ⟨⟨y, r'⟩, h2, h3⟩ := h2
  simp only [Prod.mk.injEq] at h3
  obtain ⟨rfl, rfl⟩ := h3
  obtain ⟨e1, p1⟩ := ha _ _ _ h1
  obtain ⟨e2, p2⟩ := hb _ _ _ h2
  refine ⟨?_, p1, p2⟩
  show bs = (a.enc x ++ b.enc y) ++ r'
  simp only at e2
  rw [e1, e2, List.append_assoc]

theorem decN_enc {c : Codec α} {P : α → Prop} (h : c.RoundTrip P) (l : List α) (hl : ∀ a ∈ l, P a) (rest : Bytes) :
    decN c l.length ((l.map c.enc).flatten ++ rest) = some (l, rest) := by
  induction l with
  | nil => rfl
  | cons a l ih =>
    rw [List.map_cons, List.flatten_cons, List.length_cons, decN, List.append_assoc,
      h.dec_enc a (hl a (by simp)), Option.bind_some, ih (fun b hb => hl b (by simp [hb]))]
    rfl

theorem decN_canonical {c : Codec α} {P : α → Prop} (h : c.Canonical P) (k : Nat) (bs : Bytes) (l : List α)
    (rest : Bytes) (hd : decN c k bs = some (l, rest)) :
    bs = (l.map c.enc).flatten ++ rest ∧ l.length = k ∧ ∀ a ∈ l, P a := by
  induction k generalizing bs l with
  | zero =>
    rw [decN] at hd
    simp only [Option.some.injEq, Prod.mk.injEq] at hd
    obtain ⟨rfl, rfl⟩ := hd
    simp
  | succ k ih =>
    rw [decN, Option.bind_eq_some_iff] at hd
    obtain ⟨⟨x, r⟩, h1, h2⟩ := hd
    rw [Option.map_eq_some_iff] at h2
    obtain ⟨⟨y, r'⟩, h2, h3⟩ := h2
    simp only [Prod.mk.injEq] at h3
    obtain ⟨rfl, rfl⟩ := h3
    obtain ⟨e1, p1⟩ := h _ _ _ h1
    obtain ⟨e2, e3, p2⟩ := ih _ _ h2
    simp only at e2
    refine ⟨?_, by simp [e3], ?_⟩
    · rw [e1, e2, List.map_cons, List.flatten_cons, List.append_assoc]
    · intro a ha
      rcases List.mem_cons.mp ha with rfl | ha
      · exact p1
      · exact p2 a ha

theorem u64_roundTrip : u64.RoundTrip (· < 2 ^ 64) :=
  (uint_roundTrip 8).mono (fun n hn => lt_of_lt_of_eq hn (by norm_num))

theorem u64_canonical : u64.Canonical (· < 2 ^ 64) :=
  (uint_canonical 8).mono (fun n hn => lt_of_lt_of_eq hn (by norm_num))

theorem vec_roundTrip {c : Codec α} {P : α → Prop} (h : c.RoundTrip P) :
    (vec c).RoundTrip (fun l => l.length < 2 ^ 64 ∧ ∀ a ∈ l, P a) := by
  have h64 := u64_roundTrip
  constructor
  · rintro l ⟨h1, h2⟩ rest
    have e : (vec c).enc l = u64.enc l.length ++ (l.map c.enc).flatten := rfl
    have d : ∀ bs, (vec c).dec bs = (u64.dec bs).bind fun p => decN c p.1 p.2 := fun _ => rfl
    rw [e, d, List.append_assoc, h64.dec_enc _ h1, Option.bind_some]
    exact decN_enc h l h2 rest
  · rintro l ⟨h1, h2⟩
    have e : (vec c).enc l = u64.enc l.length ++ (l.map c.enc).flatten := rfl
    have d : (vec c).size l = u64.size l.length + (l.map c.size).sum := rfl
    rw [e, d, List.length_append, h64.size_eq _ h1, List.length_flatten, List.map_map]
    have : l.map (List.length ∘ c.enc) = l.map c.size := List.map_congr_left fun a ha => h.size_eq a (h2 a ha)
    rw [this]

theorem vec_canonical {c : Codec α} {P : α → Prop} (h : c.Canonical P) :
    (vec c).Canonical (fun l => l.length < 2 ^ 64 ∧ ∀ a ∈ l, P a) := by
  intro bs l rest hd
  have h64 := u64_canonical
  have d : ∀ bs, (vec c).dec bs = (u64.dec bs).bind fun p => decN c p.1 p.2 := fun _ => rfl
  have e : (vec c).enc l = u64.enc l.length ++ (l.map c.enc).flatten := rfl
  rw [d, Option.bind_eq_some_iff] at hd
  obtain ⟨⟨k, r⟩, h1, h2⟩ := hd
  obtain ⟨e1, p1⟩ := h64 _ _ _ h1
  obtain ⟨e2, e3, p2⟩ := decN_canonical h _ _ _ _ h2
  dsimp only at e2 e3 p1
  subst e3
  exact ⟨by rw [e, e1, e2, List.append_assoc], p1, p2⟩

theorem bool_roundTrip : bool.RoundTrip (fun _ => True) :=
  (refine_roundTrip u8_roundTrip _ _).mono (fun a _ => ⟨trivial, by cases a <;> rfl⟩)

theorem bool_canonical : bool.Canonical (fun _ => True) := by
  refine (refine_canonical u8_canonical _ _ ?_).mono (fun _ _ => trivial)
  intro a b _ h
  split at h
  · next h0 => simp only [Option.some.injEq] at h; subst h; simp [h0]
  · split at h
    · next h1 => simp only [Option.some.injEq] at h; subst h; simp [h1]
    · cases h

theorem option_roundTrip {c : Codec α} {P : α → Prop} (h : c.RoundTrip P) :
    (option c).RoundTrip (fun o => ∀ a, o = some a → P a) := by
  refine ⟨fun o ho rest => ?_, fun o ho => ?_⟩
  · cases o with
    | none =>
      have e : (option c).enc none = bool.enc false := rfl
      have d : ∀ bs, (option c).dec bs = (bool.dec bs).bind fun p =>
        if p.1 then (c.dec p.2).map fun q => (some q.1, q.2) else some (none, p.2) := fun _ => rfl
      rw [e, d, bool_roundTrip.dec_enc _ trivial, Option.bind_some]
      rfl
    | some a =>
      have e : (option c).enc (some a) = bool.enc true ++ c.enc a := rfl
      have d : ∀ bs, (option c).dec bs = (bool.dec bs).bind fun p =>
        if p.1 then (c.dec p.2).map fun q => (some q.1, q.2) else some (none, p.2) := fun _ => rfl
      rw [e, d, List.append_assoc, bool_roundTrip.dec_enc _ trivial, Option.bind_some]
      simp only [if_true]
      rw [h.dec_enc a (ho a rfl)]
      rfl
  · cases o with
    | none => exact bool_roundTrip.size_eq false trivial
    | some a =>
      show (bool.enc true ++ c.enc a).length = 1 + c.size a
      rw [List.length_append, h.size_eq a (ho a rfl), bool_roundTrip.size_eq true trivial]
      rfl

theorem option_canonical {c : Codec α} {P : α → Prop} (h : c.Canonical P) :
    (option c).Canonical (fun o => ∀ a, o = some a → P a) := by
  intro bs o rest hd
  change (bool.dec bs).bind _ = _ at hd
  rw [Option.bind_eq_some_iff] at hd
  obtain ⟨⟨b, r⟩, h1, h2⟩ := hd
  obtain ⟨e1, _⟩ := bool_canonical _ _ _ h1
  cases b with
  | false =>
    simp only [Bool.false_eq_true, if_false, Option.some.injEq, Prod.mk.injEq] at h2
    obtain ⟨rfl, rfl⟩ := h2
    exact ⟨e1, by simp⟩
  | true =>
    simp only [if_true] at h2
    rw [Option.map_eq_some_iff] at h2
    obtain ⟨⟨x, r'⟩, h2, h3⟩ := h2
    simp only [Prod.mk.injEq] at h3
    obtain ⟨rfl, rfl⟩ := h3
    obtain ⟨e2, p2⟩ := h _ _ _ h2
    refine ⟨?_, fun a ha => ?_⟩
    · show bs = (bool.enc true ++ c.enc x) ++ r'
      rw [e1, e2, List.append_assoc]
    · cases ha; exact p2

theorem _root_.IceFrost.BMap.wf_length {m : BMap α} (h : BMap.WF m) : m.length < 2 ^ 64 := by
  have h1 := h.nodup
  have h2 : ((BMap.keys m).map UInt32.toNat).Nodup := h1.map (fun a b h => UInt32.toNat_inj.mp h)
  have h3 : (BMap.keys m).map UInt32.toNat ⊆ List.range (2 ^ 32) := by
    intro n hn
    obtain ⟨k, _, rfl⟩ := List.mem_map.mp hn
    exact List.mem_range.mpr k.toNat_lt
  have h4 := (h2.subperm h3).length_le
  rw [List.length_map, List.length_range, BMap.keys, List.length_map] at h4
  omega

theorem bmap_roundTrip {c : Codec α} {P : α → Prop} (h : c.RoundTrip P) :
    (bmap c).RoundTrip (fun m => BMap.WF m ∧ ∀ e ∈ m, P e.2) := by
  have hv := vec_roundTrip (pair_roundTrip u32_roundTrip h)
  refine ⟨fun m hm rest => ?_, fun m hm => hv.size_eq m ⟨BMap.wf_length hm.1, fun a ha => ⟨trivial, hm.2 a ha⟩⟩⟩
  have e : (bmap c).enc m = (vec (pair u32 c)).enc m := rfl
  have d : ∀ bs, (bmap c).dec bs = ((vec (pair u32 c)).dec bs).map fun p =>
    (p.1.foldl (fun m e => BMap.insert e.1 e.2 m) [], p.2) := fun _ => rfl
  rw [e, d, hv.dec_enc m ⟨BMap.wf_length hm.1, fun a ha => ⟨trivial, hm.2 a ha⟩⟩, Option.map_some]
  simp only
  rw [BMap.foldl_insert_wf hm.1]

/-- What `bmap` accepts: any list of entries, in any order and with repetitions. The result is the map of the last
entry of each key. -/
theorem bmap_dec {c : Codec α} {P : α → Prop} (h : c.Canonical P) (bs : Bytes) (m : BMap α) (rest : Bytes)
    (hd : (bmap c).dec bs = some (m, rest)) :
    BMap.WF m ∧ (∀ e ∈ m, P e.2) ∧
      ∃ l : List (U32 × α), m = BMap.ofList l ∧ bs = (vec (pair u32 c)).enc l ++ rest := by
  have d : ∀ bs, (bmap c).dec bs = ((vec (pair u32 c)).dec bs).map fun p =>
    (p.1.foldl (fun m e => BMap.insert e.1 e.2 m) [], p.2) := fun _ => rfl
  rw [d, Option.map_eq_some_iff] at hd
  obtain ⟨⟨l, r⟩, h1, h2⟩ := hd
  simp only [Prod.mk.injEq] at h2
  obtain ⟨rfl, rfl⟩ := h2
  obtain ⟨e1, p1⟩ := vec_canonical (pair_canonical u32_canonical h) _ _ _ h1
  refine ⟨BMap.wf_ofList l, fun e he => ?_, l, rfl, e1⟩
  have : BMap.get? e.1 (BMap.ofList l) = some e.2 := (BMap.mem_iff_get? (BMap.wf_ofList l)).mp he
  exact (p1.2 _ (BMap.mem_of_get?_ofList this)).2

theorem bmap_dec_any {c : Codec α} {P : α → Prop} (h : c.RoundTrip P) (l : List (U32 × α)) (hl : l.length < 2 ^ 64)
    (hp : ∀ e ∈ l, P e.2) (rest : Bytes) :
    (bmap c).dec ((vec (pair u32 c)).enc l ++ rest) = some (BMap.ofList l, rest) := by
  have d : ∀ bs, (bmap c).dec bs = ((vec (pair u32 c)).dec bs).map fun p =>
    (p.1.foldl (fun m e => BMap.insert e.1 e.2 m) [], p.2) := fun _ => rfl
  rw [d, (vec_roundTrip (pair_roundTrip u32_roundTrip h)).dec_enc l ⟨hl, fun a ha => ⟨trivial, hp a ha⟩⟩, Option.map_some]
  rfl

theorem RoundTrip.enc_append_inj {c : Codec α} {P : α → Prop} (h : c.RoundTrip P) {a b : α} (ha : P a) (hb : P b)
    {x y : Bytes} (he : c.enc a ++ x = c.enc b ++ y) : a = b ∧ x = y := by
  have h1 := h.dec_enc a ha x
  rw [he, h.dec_enc b hb y] at h1
  simp only [Option.some.injEq, Prod.mk.injEq] at h1
  exact ⟨h1.1.symm, h1.2.symm⟩


/-- Decoded values satisfy `P`. -/
def Sound (c : Codec α) (P : α → Prop) : Prop := ∀ bs a rest, c.dec bs = some (a, rest) → P a

theorem Canonical.sound {c : Codec α} {P : α → Prop} (h : c.Canonical P) : c.Sound P :=
  fun bs a rest hd => (h bs a rest hd).2

theorem Sound.mono {c : Codec α} {P Q : α → Prop} (h : c.Sound P) (hq : ∀ a, P a → Q a) : c.Sound Q :=
  fun bs a rest hd => hq a (h bs a rest hd)

theorem iso_sound {c : Codec α} {P : α → Prop} (h : c.Sound P) (f : α → β) (g : β → α)
    (hgf : ∀ a, g (f a) = a) : (c.iso f g).Sound (fun b => P (g b)) := by
  intro bs b rest hd
  change (c.dec bs).map _ = _ at hd
  rw [Option.map_eq_some_iff] at hd
  obtain ⟨⟨a, r⟩, h1, h2⟩ := hd
  simp only [Prod.mk.injEq] at h2
  obtain ⟨rfl, rfl⟩ := h2
  beta_reduce
  rw [hgf]
  exact h _ _ _ h1

theorem refine_sound {c : Codec α} {P : α → Prop} (h : c.Sound P) (f : α → Option β) (g : β → α)
    (hgf : ∀ a b, f a = some b → g b = a) : (c.refine f g).Sound (fun b => P (g b) ∧ f (g b) = some b) := by
  intro bs b rest hd
  change (c.dec bs).bind _ = _ at hd
  rw [Option.bind_eq_some_iff] at hd
  obtain ⟨⟨a, r⟩, h1, h2⟩ := hd
  rw [Option.map_eq_some_iff] at h2
  obtain ⟨b', h2, h3⟩ := h2
  simp only [Prod.mk.injEq] at h3
  obtain ⟨rfl, rfl⟩ := h3
  beta_reduce
  rw [hgf a b' h2]
  exact ⟨h _ _ _ h1, h2⟩

theorem pair_sound {a : Codec α} {b : Codec β} {P : α → Prop} {Q : β → Prop} (ha : a.Sound P)
    (hb : b.Sound Q) : (pair a b).Sound (fun p => P p.1 ∧ Q p.2) := by
  intro bs p rest hd
  change (a.dec bs).bind _ = _ at hd
  rw [Option.bind_eq_some_iff] at hd
  obtain ⟨⟨x, r⟩, h1, h2⟩ := hd
  rw [Option.map_eq_some_iff] at h2
  obtain ⟨⟨y, r'⟩, h2, h3⟩ := h2
  simp only [Prod.mk.injEq] at h3
  obtain ⟨rfl, rfl⟩ := h3
  exact ⟨ha _ _ _ h1, hb _ _ _ h2⟩

theorem decN_sound {c : Codec α} {P : α → Prop} (h : c.Sound P) (k : Nat) (bs : Bytes) (l : List α)
    (rest : Bytes) (hd : decN c k bs = some (l, rest)) : l.length = k ∧ ∀ a ∈ l, P a := by
  induction k generalizing bs l with
  | zero =>
    rw [decN] at hd
    simp only [Option.some.injEq, Prod.mk.injEq] at hd
    obtain ⟨rfl, rfl⟩ := hd
    simp
  | succ k ih =>
    rw [decN, Option.bind_eq_some_iff] at hd
    obtain ⟨⟨x, r⟩, h1, h2⟩ := hd
    rw [Option.map_eq_some_iff] at h2
    obtain ⟨⟨y, r'⟩, h2, h3⟩ := h2
    simp only [Prod.mk.injEq] at h3
    obtain ⟨rfl, rfl⟩ := h3
    obtain ⟨e3, p2⟩ := ih _ _ h2
    refine ⟨by simp [e3], ?_⟩
    intro a ha
    rcases List.mem_cons.mp ha with rfl | ha
    · exact h _ _ _ h1
    · exact p2 a ha

theorem vec_sound {c : Codec α} {P : α → Prop} (h : c.Sound P) :
    (vec c).Sound (fun l => l.length < 2 ^ 64 ∧ ∀ a ∈ l, P a) := by
  intro bs l rest hd
  have h64 := u64_canonical
  have d : ∀ bs, (vec c).dec bs = (u64.dec bs).bind fun p => decN c p.1 p.2 := fun _ => rfl
  rw [d, Option.bind_eq_some_iff] at hd
  obtain ⟨⟨k, r⟩, h1, h2⟩ := hd
  obtain ⟨_, p1⟩ := h64 _ _ _ h1
  obtain ⟨e3, p2⟩ := decN_sound h _ _ _ _ h2
  dsimp only at e3 p1
  subst e3
  exact ⟨p1, p2⟩

theorem option_sound {c : Codec α} {P : α → Prop} (h : c.Sound P) :
    (option c).Sound (fun o => ∀ a, o = some a → P a) := by
  intro bs o rest hd
  change (bool.dec bs).bind _ = _ at hd
  rw [Option.bind_eq_some_iff] at hd
  obtain ⟨⟨b, r⟩, h1, h2⟩ := hd
  cases b with
  | false =>
    simp only [Bool.false_eq_true, if_false, Option.some.injEq, Prod.mk.injEq] at h2
    obtain ⟨rfl, rfl⟩ := h2
    simp
  | true =>
    simp only [if_true] at h2
    rw [Option.map_eq_some_iff] at h2
    obtain ⟨⟨x, r'⟩, h2, h3⟩ := h2
    simp only [Prod.mk.injEq] at h3
    obtain ⟨rfl, rfl⟩ := h3
    intro a ha
    cases ha
    exact h _ _ _ h2

theorem bmap_sound {c : Codec α} {P : α → Prop} (h : c.Sound P) :
    (bmap c).Sound (fun m => BMap.WF m ∧ ∀ e ∈ m, P e.2) := by
  intro bs m rest hd
  have d : ∀ bs, (bmap c).dec bs = ((vec (pair u32 c)).dec bs).map fun p =>
    (p.1.foldl (fun m e => BMap.insert e.1 e.2 m) [], p.2) := fun _ => rfl
  rw [d, Option.map_eq_some_iff] at hd
  obtain ⟨⟨l, r⟩, h1, h2⟩ := hd
  simp only [Prod.mk.injEq] at h2
  obtain ⟨rfl, rfl⟩ := h2
  have p1 := vec_sound (pair_sound u32_canonical.sound h) _ _ _ h1
  refine ⟨BMap.wf_ofList l, fun e he => ?_⟩
  have : BMap.get? e.1 (BMap.ofList l) = some e.2 := (BMap.mem_iff_get? (BMap.wf_ofList l)).mp he
  exact (p1.2 _ (BMap.mem_of_get?_ofList this)).2

end Codec

/-! ### What fits in an encoding

Vectors in memory are shorter than `2^64`; a `BTreeMap` has increasing keys; a nonce is a fixed-size array. -/

section Fits
variable {F G R : Type}

/-- Fixed-size nonce of the suite's length; vectors in memory. -/
structure EncShare.Fits (S : Suite F G R) (e : EncShare) : Prop where
  nonce : e.nonce.length = S.nonceSize
  size : S.nonceSize < 2 ^ 64
  ct : e.ct.length < 2 ^ 64

/-- The points are a vector in memory. -/
def VssCommitment.Fits (c : VssCommitment G) : Prop := c.points.length < 2 ^ 64

/-- The optional commitments are in memory. -/
def Participant.Fits (p : Participant F G) : Prop := ∀ c, p.commitments = some c → c.Fits

/-- The maps are `BTreeMap`s of values in memory. -/
structure DkgState.Fits (S : Suite F G R) (st : DkgState F G) : Prop where
  commitments : ∀ m, st.theirCommitments = some m → BMap.WF m ∧ ∀ e ∈ m, e.2.Fits
  dhKeys : BMap.WF st.theirDhPublicKeys
  encShares : ∀ m, st.theirEncryptedSecretShares = some m → BMap.WF m ∧ ∀ e ∈ m, e.2.Fits S
  shares : ∀ m, st.mySecretShares = some m → BMap.WF m

/-- The two lists are in memory. -/
structure ParticipantList.Fits (l : ParticipantList F G) : Prop where
  valid : l.valid.length < 2 ^ 64 ∧ ∀ p ∈ l.valid, p.Fits
  misbehaving : ∀ m, l.misbehaving = some m → m.length < 2 ^ 64

end Fits

section Types
variable {F G R : Type} [Field F] [AddCommGroup G] [Module F G] {S : Suite F G R}
open Codec

theorem scalar_roundTrip (h : S.CodecLaws) : (scalar S).RoundTrip (fun _ => True) :=
  ⟨fun a _ => h.decF_encF a, fun a _ => h.encF_length a⟩

theorem group_roundTrip (h : S.CodecLaws) : (group S).RoundTrip (fun _ => True) :=
  ⟨fun a _ => h.decG_encG a, fun a _ => h.encG_length a⟩

theorem params_roundTrip : paramsCodec.RoundTrip (fun _ => True) :=
  (iso_roundTrip (pair_roundTrip u32_roundTrip u32_roundTrip) _ _ (fun _ => rfl)).mono (fun _ _ => ⟨trivial, trivial⟩)

theorem secretShare_roundTrip (h : S.CodecLaws) : (secretShareCodec S).RoundTrip (fun _ => True) :=
  (iso_roundTrip (pair_roundTrip u32_roundTrip (pair_roundTrip u32_roundTrip (scalar_roundTrip h))) _ _
    (fun _ => rfl)).mono (fun _ _ => ⟨trivial, trivial, trivial⟩)

theorem coefficients_roundTrip (h : S.CodecLaws) : (coefficientsCodec S).RoundTrip (fun l => l.length < 2 ^ 64) :=
  (vec_roundTrip (scalar_roundTrip h)).mono (fun _ hl => ⟨hl, fun _ _ => trivial⟩)

theorem bytes_roundTrip : (vec u8).RoundTrip (fun l => l.length < 2 ^ 64) :=
  (vec_roundTrip u8_roundTrip).mono (fun _ hl => ⟨hl, fun _ _ => trivial⟩)

theorem bytes_canonical : (vec u8).Canonical (fun l => l.length < 2 ^ 64) :=
  (vec_canonical u8_canonical).mono (fun _ hl => hl.1)

theorem nonce_roundTrip (k : Nat) :
    ((vec u8).refine (fun n => if n.length = k then some n else none) id).RoundTrip
      (fun l => l.length = k ∧ k < 2 ^ 64) :=
  (refine_roundTrip bytes_roundTrip (fun n => if n.length = k then some n else none) id).mono
    (fun l hl => ⟨hl.1 ▸ hl.2, if_pos hl.1⟩)

theorem nonce_canonical (k : Nat) :
    ((vec u8).refine (fun n => if n.length = k then some n else none) id).Canonical
      (fun l => l.length = k ∧ k < 2 ^ 64) := by
  refine (refine_canonical bytes_canonical (fun n => if n.length = k then some n else none) id ?_).mono ?_
  · intro a b _ h
    beta_reduce at h
    split at h
    · simp only [Option.some.injEq] at h; exact h.symm
    · cases h
  · rintro l ⟨h1, h2⟩
    simp only [id] at h1 h2
    split at h2
    · next hk => exact ⟨hk, hk ▸ h1⟩
    · cases h2

theorem encShare_roundTrip : (encShareCodec S).RoundTrip (EncShare.Fits S) :=
  (iso_roundTrip (pair_roundTrip u32_roundTrip (pair_roundTrip u32_roundTrip (pair_roundTrip
    (nonce_roundTrip S.nonceSize) bytes_roundTrip))) (fun p => (⟨p.1, p.2.1, p.2.2.1, p.2.2.2⟩ : EncShare))
    (fun e => (e.senderIndex, e.receiverIndex, e.nonce, e.ct)) (fun _ => rfl)).mono
    (fun _ h => ⟨trivial, trivial, ⟨h.nonce, h.size⟩, h.ct⟩)

theorem encShare_canonical : (encShareCodec S).Canonical (EncShare.Fits S) :=
  (iso_canonical (pair_canonical u32_canonical (pair_canonical u32_canonical (pair_canonical
    (nonce_canonical S.nonceSize) bytes_canonical))) (fun p => (⟨p.1, p.2.1, p.2.2.1, p.2.2.2⟩ : EncShare))
    (fun e => (e.senderIndex, e.receiverIndex, e.nonce, e.ct)) (fun _ _ => rfl)).mono
    (fun _ h => ⟨h.2.2.1.1, h.2.2.1.2, h.2.2.2⟩)

theorem vss_roundTrip (h : S.CodecLaws) : (vssCodec S).RoundTrip VssCommitment.Fits :=
  (iso_roundTrip (pair_roundTrip u32_roundTrip (vec_roundTrip (group_roundTrip h))) _ _ (fun _ => rfl)).mono
    (fun _ hl => ⟨trivial, hl, fun _ _ => trivial⟩)

theorem nizk_roundTrip (h : S.CodecLaws) : (nizkCodec S).RoundTrip (fun _ => True) :=
  (iso_roundTrip (pair_roundTrip (scalar_roundTrip h) (scalar_roundTrip h)) _ _ (fun _ => rfl)).mono
    (fun _ _ => ⟨trivial, trivial⟩)

theorem complaintProof_roundTrip (h : S.CodecLaws) : (complaintProofCodec S).RoundTrip (fun _ => True) :=
  (iso_roundTrip (pair_roundTrip (group_roundTrip h) (pair_roundTrip (group_roundTrip h) (scalar_roundTrip h))) _ _
    (fun _ => rfl)).mono (fun _ _ => ⟨trivial, trivial, trivial⟩)

theorem complaint_roundTrip (h : S.CodecLaws) : (complaintCodec S).RoundTrip (fun c => c.encShare.Fits S) :=
  (iso_roundTrip (pair_roundTrip (group_roundTrip h) (pair_roundTrip (group_roundTrip h)
    (pair_roundTrip encShare_roundTrip (complaintProof_roundTrip h)))) _ _ (fun _ => rfl)).mono
    (fun _ hc => ⟨trivial, trivial, hc, trivial⟩)

theorem participant_roundTrip (h : S.CodecLaws) : (participantCodec S).RoundTrip Participant.Fits :=
  (iso_roundTrip (pair_roundTrip u32_roundTrip (pair_roundTrip (group_roundTrip h)
    (pair_roundTrip (option_roundTrip (vss_roundTrip h)) (pair_roundTrip (option_roundTrip (nizk_roundTrip h))
      (nizk_roundTrip h))))) _ _ (fun _ => rfl)).mono
    (fun _ hc => ⟨trivial, trivial, hc, fun _ _ => trivial, trivial⟩)

theorem verifyingKey_roundTrip (h : S.CodecLaws) : (verifyingKeyCodec S).RoundTrip (fun _ => True) :=
  (iso_roundTrip (pair_roundTrip u32_roundTrip (group_roundTrip h)) _ _ (fun _ => rfl)).mono
    (fun _ _ => ⟨trivial, trivial⟩)

theorem signingKey_roundTrip (h : S.CodecLaws) : (signingKeyCodec S).RoundTrip (fun _ => True) :=
  (iso_roundTrip (pair_roundTrip u32_roundTrip (scalar_roundTrip h)) _ _ (fun _ => rfl)).mono
    (fun _ _ => ⟨trivial, trivial⟩)

theorem dkgState_roundTrip (h : S.CodecLaws) : (dkgStateCodec S).RoundTrip (DkgState.Fits S) :=
  (iso_roundTrip (pair_roundTrip params_roundTrip (pair_roundTrip u32_roundTrip (pair_roundTrip (scalar_roundTrip h)
    (pair_roundTrip (group_roundTrip h) (pair_roundTrip (option_roundTrip (bmap_roundTrip (vss_roundTrip h)))
      (pair_roundTrip (bmap_roundTrip (group_roundTrip h)) (pair_roundTrip
        (option_roundTrip (bmap_roundTrip encShare_roundTrip))
        (option_roundTrip (bmap_roundTrip (secretShare_roundTrip h)))))))))) _ _ (fun _ => rfl)).mono
    (fun _ hs => ⟨trivial, trivial, trivial, trivial, hs.commitments, ⟨hs.dhKeys, fun _ _ => trivial⟩, hs.encShares,
      fun m hm => ⟨hs.shares m hm, fun _ _ => trivial⟩⟩)

theorem roundOne_roundTrip (h : S.CodecLaws) : (roundOneCodec S).RoundTrip (fun d => d.state.Fits S) :=
  iso_roundTrip (dkgState_roundTrip h) _ _ (fun _ => rfl)

theorem roundTwo_roundTrip (h : S.CodecLaws) : (roundTwoCodec S).RoundTrip (fun d => d.state.Fits S) :=
  iso_roundTrip (dkgState_roundTrip h) _ _ (fun _ => rfl)

theorem participantList_roundTrip (h : S.CodecLaws) : (participantListCodec S).RoundTrip ParticipantList.Fits :=
  (iso_roundTrip (pair_roundTrip (vec_roundTrip (participant_roundTrip h)) (option_roundTrip
    (vec_roundTrip u32_roundTrip))) _ _ (fun _ => rfl)).mono
    (fun _ hl => ⟨hl.valid, fun m hm => ⟨hl.misbehaving m hm, fun _ _ => trivial⟩⟩)

theorem commitment_roundTrip (h : S.CodecLaws) : (commitmentCodec S).RoundTrip (fun _ => True) :=
  (iso_roundTrip (pair_roundTrip (scalar_roundTrip h) (group_roundTrip h)) _ _ (fun _ => rfl)).mono
    (fun _ _ => ⟨trivial, trivial⟩)

theorem commitmentShare_roundTrip (h : S.CodecLaws) : (commitmentShareCodec S).RoundTrip (fun _ => True) :=
  (iso_roundTrip (pair_roundTrip (commitment_roundTrip h) (commitment_roundTrip h)) _ _ (fun _ => rfl)).mono
    (fun _ _ => ⟨trivial, trivial⟩)

theorem secretList_roundTrip (h : S.CodecLaws) : (secretListCodec S).RoundTrip (fun l => l.length < 2 ^ 64) :=
  (vec_roundTrip (commitmentShare_roundTrip h)).mono (fun _ hl => ⟨hl, fun _ _ => trivial⟩)

theorem publicList_roundTrip (h : S.CodecLaws) :
    (publicListCodec S).RoundTrip (fun l => l.commitments.length < 2 ^ 64) :=
  (iso_roundTrip (pair_roundTrip u32_roundTrip (vec_roundTrip (pair_roundTrip (group_roundTrip h)
    (group_roundTrip h)))) _ _ (fun _ => rfl)).mono (fun _ hl => ⟨trivial, hl, fun _ _ => ⟨trivial, trivial⟩⟩)

theorem signer_roundTrip (h : S.CodecLaws) : (signerCodec S).RoundTrip (fun _ => True) :=
  (iso_roundTrip (pair_roundTrip u32_roundTrip (pair_roundTrip (group_roundTrip h) (group_roundTrip h))) _ _
    (fun _ => rfl)).mono (fun _ _ => ⟨trivial, trivial, trivial⟩)

theorem partialSignature_roundTrip (h : S.CodecLaws) : (partialSignatureCodec S).RoundTrip (fun _ => True) :=
  (iso_roundTrip (pair_roundTrip u32_roundTrip (scalar_roundTrip h)) _ _ (fun _ => rfl)).mono
    (fun _ _ => ⟨trivial, trivial⟩)

theorem signature_roundTrip (h : S.CodecLaws) : (signatureCodec S).RoundTrip (fun _ => True) :=
  (iso_roundTrip (pair_roundTrip (group_roundTrip h) (scalar_roundTrip h)) _ _ (fun _ => rfl)).mono
    (fun _ _ => ⟨trivial, trivial⟩)

/-! ### Decoding is sound, and canonical apart from maps -/

theorem scalar_sound : (scalar S).Sound (fun _ => True) := fun _ _ _ _ => trivial

theorem group_sound : (group S).Sound (fun _ => True) := fun _ _ _ _ => trivial

theorem vss_sound : (vssCodec S).Sound VssCommitment.Fits :=
  (iso_sound (pair_sound u32_canonical.sound (vec_sound group_sound)) _ _ (fun _ => rfl)).mono (fun _ h => h.2.1)

theorem complaint_sound : (complaintCodec S).Sound (fun c => c.encShare.Fits S) :=
  (iso_sound (pair_sound group_sound (pair_sound group_sound (pair_sound encShare_canonical.sound
    (fun _ _ _ _ => trivial : (complaintProofCodec S).Sound (fun _ => True))))) _ _ (fun _ => rfl)).mono
    (fun _ h => h.2.2.1)

theorem dkgState_sound : (dkgStateCodec S).Sound (DkgState.Fits S) :=
  (iso_sound (pair_sound (fun _ _ _ _ => trivial : paramsCodec.Sound (fun _ => True)) (pair_sound u32_canonical.sound
    (pair_sound scalar_sound (pair_sound group_sound (pair_sound (option_sound (bmap_sound vss_sound))
      (pair_sound (bmap_sound group_sound) (pair_sound (option_sound (bmap_sound encShare_canonical.sound))
        (option_sound (bmap_sound
          (fun _ _ _ _ => trivial : (secretShareCodec S).Sound (fun _ => True))))))))))) _ _ (fun _ => rfl)).mono
    (fun _ h => ⟨h.2.2.2.2.1, h.2.2.2.2.2.1.1, h.2.2.2.2.2.2.1, fun m hm => (h.2.2.2.2.2.2.2 m hm).1⟩)

/-- Points and scalars have one accepted encoding each. Assumed only where stated: arkworks accepts several encodings
of the point at infinity on some curves. -/
structure Suite.CanonicalDec (S : Suite F G R) : Prop where
  decG : ∀ bs P rest, S.decG bs = some (P, rest) → bs = S.encG P ++ rest
  decF : ∀ bs a rest, S.decF bs = some (a, rest) → bs = S.encF a ++ rest

theorem scalar_canonical (h : S.CanonicalDec) : (scalar S).Canonical (fun _ => True) :=
  fun bs a rest hd => ⟨h.decF bs a rest hd, trivial⟩

theorem group_canonical (h : S.CanonicalDec) : (group S).Canonical (fun _ => True) :=
  fun bs a rest hd => ⟨h.decG bs a rest hd, trivial⟩

/-- Canonical decoding, without saying more about the decoded value. -/
abbrev Codec.Exact {α : Type} (c : Codec α) : Prop := c.Canonical (fun _ => True)

theorem Codec.pair_exact {α β : Type} {a : Codec α} {b : Codec β} (ha : a.Exact) (hb : b.Exact) : (pair a b).Exact :=
  (pair_canonical ha hb).mono (fun _ _ => trivial)

theorem Codec.iso_exact {α β : Type} {c : Codec α} (h : c.Exact) (f : α → β) (g : β → α) (hgf : ∀ a, g (f a) = a) :
    (c.iso f g).Exact :=
  (iso_canonical h f g (fun a _ => hgf a)).mono (fun _ _ => trivial)

theorem Codec.vec_exact {α : Type} {c : Codec α} (h : c.Exact) : (vec c).Exact :=
  (vec_canonical h).mono (fun _ _ => trivial)

theorem Codec.option_exact {α : Type} {c : Codec α} (h : c.Exact) : (option c).Exact :=
  (option_canonical h).mono (fun _ _ => trivial)

theorem encShare_exact : (encShareCodec S).Exact := encShare_canonical.mono (fun _ _ => trivial)

theorem params_exact : paramsCodec.Exact := iso_exact (pair_exact u32_canonical u32_canonical) _ _ (fun _ => rfl)

theorem secretShare_exact (h : S.CanonicalDec) : (secretShareCodec S).Exact :=
  iso_exact (pair_exact u32_canonical (pair_exact u32_canonical (scalar_canonical h))) _ _ (fun _ => rfl)

theorem coefficients_exact (h : S.CanonicalDec) : (coefficientsCodec S).Exact := vec_exact (scalar_canonical h)

theorem vss_exact (h : S.CanonicalDec) : (vssCodec S).Exact :=
  iso_exact (pair_exact u32_canonical (vec_exact (group_canonical h))) _ _ (fun _ => rfl)

theorem nizk_exact (h : S.CanonicalDec) : (nizkCodec S).Exact :=
  iso_exact (pair_exact (scalar_canonical h) (scalar_canonical h)) _ _ (fun _ => rfl)

theorem complaintProof_exact (h : S.CanonicalDec) : (complaintProofCodec S).Exact :=
  iso_exact (pair_exact (group_canonical h) (pair_exact (group_canonical h) (scalar_canonical h))) _ _ (fun _ => rfl)

theorem complaint_exact (h : S.CanonicalDec) : (complaintCodec S).Exact :=
  iso_exact (pair_exact (group_canonical h) (pair_exact (group_canonical h) (pair_exact encShare_exact
    (complaintProof_exact h)))) _ _ (fun _ => rfl)

theorem participant_exact (h : S.CanonicalDec) : (participantCodec S).Exact :=
  iso_exact (pair_exact u32_canonical (pair_exact (group_canonical h) (pair_exact (option_exact (vss_exact h))
    (pair_exact (option_exact (nizk_exact h)) (nizk_exact h))))) _ _ (fun _ => rfl)

theorem verifyingKey_exact (h : S.CanonicalDec) : (verifyingKeyCodec S).Exact :=
  iso_exact (pair_exact u32_canonical (group_canonical h)) _ _ (fun _ => rfl)

theorem signingKey_exact (h : S.CanonicalDec) : (signingKeyCodec S).Exact :=
  iso_exact (pair_exact u32_canonical (scalar_canonical h)) _ _ (fun _ => rfl)

theorem participantList_exact (h : S.CanonicalDec) : (participantListCodec S).Exact :=
  iso_exact (pair_exact (vec_exact (participant_exact h)) (option_exact (vec_exact u32_canonical))) _ _ (fun _ => rfl)

theorem commitment_exact (h : S.CanonicalDec) : (commitmentCodec S).Exact :=
  iso_exact (pair_exact (scalar_canonical h) (group_canonical h)) _ _ (fun _ => rfl)

theorem commitmentShare_exact (h : S.CanonicalDec) : (commitmentShareCodec S).Exact :=
  iso_exact (pair_exact (commitment_exact h) (commitment_exact h)) _ _ (fun _ => rfl)

theorem secretList_exact (h : S.CanonicalDec) : (secretListCodec S).Exact := vec_exact (commitmentShare_exact h)

theorem publicList_exact (h : S.CanonicalDec) : (publicListCodec S).Exact :=
  iso_exact (pair_exact u32_canonical (vec_exact (pair_exact (group_canonical h) (group_canonical h)))) _ _
    (fun _ => rfl)

theorem signer_exact (h : S.CanonicalDec) : (signerCodec S).Exact :=
  iso_exact (pair_exact u32_canonical (pair_exact (group_canonical h) (group_canonical h))) _ _ (fun _ => rfl)

theorem partialSignature_exact (h : S.CanonicalDec) : (partialSignatureCodec S).Exact :=
  iso_exact (pair_exact u32_canonical (scalar_canonical h)) _ _ (fun _ => rfl)

theorem signature_exact (h : S.CanonicalDec) : (signatureCodec S).Exact :=
  iso_exact (pair_exact (group_canonical h) (scalar_canonical h)) _ _ (fun _ => rfl)

end Types

end IceFrost
