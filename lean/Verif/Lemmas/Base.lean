import Verif.Base
import Mathlib.Data.Finset.Card
import Mathlib.Data.Finset.Dedup
import Mathlib.Tactic.Ring

/-! # Facts about byte strings, ordered maps, `sort` and `dedup` -/

set_option linter.unusedSectionVars false
set_option linter.unusedSimpArgs false

namespace IceFrost

theorem u32_lt_asymm {a b : U32} (h : a < b) : ¬ b < a := by
  rw [UInt32.lt_iff_toNat_lt] at *; omega

theorem u32_lt_irrefl (a : U32) : ¬ a < a := by
  rw [UInt32.lt_iff_toNat_lt]; omega

theorem u32_lt_trans {a b c : U32} (h : a < b) (h' : b < c) : a < c := by
  rw [UInt32.lt_iff_toNat_lt] at *; omega

theorem u32_lt_of_not {a b : U32} (h : ¬ a < b) (h' : a ≠ b) : b < a := by
  rw [UInt32.lt_iff_toNat_lt] at *
  have : a.toNat ≠ b.toNat := fun e => h' (UInt32.toNat_inj.mp e)
  omega

theorem u32_lt_of_not_of_lt {a b c : U32} (h : ¬ a < b) (h' : a < c) : b < c := by
  rw [UInt32.lt_iff_toNat_lt] at *; omega

theorem u32_lt_of_lt_of_not {a b c : U32} (h : a < b) (h' : ¬ c < b) : a < c := by
  rw [UInt32.lt_iff_toNat_lt] at *; omega

theorem u32_lt_ne {a b : U32} (h : a < b) : a ≠ b := by
  rintro rfl; exact u32_lt_irrefl _ h

theorem u32_not_lt_trans {a b c : U32} (h : ¬ b < a) (h' : ¬ c < b) : ¬ c < a := by
  rw [UInt32.lt_iff_toNat_lt] at *; omega

/-! ### Little-endian integers -/

@[simp] theorem leBytes_length (k n : Nat) : (leBytes k n).length = k := by
  induction k generalizing n with
  | zero => rfl
  | succ k ih => simp [leBytes, ih]

theorem leNat_leBytes (k n : Nat) : leNat (leBytes k n) = n % 256 ^ k := by
  induction k generalizing n with
  | zero => simp [leBytes, leNat, Nat.mod_one]
  | succ k ih =>
    simp only [leBytes, leNat, ih, UInt8.toNat_ofNat']
    rw [show 256 ^ (k + 1) = 256 * 256 ^ k by ring, Nat.mod_mul]

theorem leNat_lt (bs : Bytes) : leNat bs < 256 ^ bs.length := by
  induction bs with
  | nil => simp [leNat]
  | cons b bs ih =>
    have := b.toNat_lt
    simp only [leNat, List.length_cons, pow_succ]
    omega

theorem leBytes_leNat (bs : Bytes) : leBytes bs.length (leNat bs) = bs := by
  induction bs with
  | nil => rfl
  | cons b bs ih =>
    have hb := b.toNat_lt
    simp only [List.length_cons, leBytes, leNat]
    have h1 : (b.toNat + 256 * leNat bs) / 256 = leNat bs := by omega
    rw [h1, ih]
    congr 1
    apply UInt8.toNat_inj.mp
    simp only [UInt8.toNat_ofNat']
    omega

theorem leBytes_inj {k m n : Nat} (hm : m < 256 ^ k) (hn : n < 256 ^ k) (h : leBytes k m = leBytes k n) :
    m = n := by
  have := congrArg leNat h
  rwa [leNat_leBytes, leNat_leBytes, Nat.mod_eq_of_lt hm, Nat.mod_eq_of_lt hn] at this

@[simp] theorem u32le_length (i : U32) : (u32le i).length = 4 := by simp [u32le]

theorem u32le_inj {i j : U32} (h : u32le i = u32le j) : i = j := by
  apply UInt32.toNat_inj.mp
  exact leBytes_inj (by simpa using i.toNat_lt) (by simpa using j.toNat_lt) h

/-! ### Ordered maps -/

namespace BMap
variable {α β : Type}

@[simp] theorem keys_nil : keys ([] : BMap α) = [] := rfl
@[simp] theorem keys_cons (e : U32 × α) (m : BMap α) : keys (e :: m) = e.1 :: keys m := rfl

theorem wf_nil : WF ([] : BMap α) := List.Pairwise.nil

theorem WF.nodup {m : BMap α} (h : WF m) : (keys m).Nodup :=
  List.Pairwise.imp (fun h => u32_lt_ne h) h

theorem mem_keys_insert {k k' : U32} {v : α} {m : BMap α} :
    k' ∈ keys (insert k v m) ↔ k' = k ∨ k' ∈ keys m := by
  induction m with
  | nil => simp [insert]
  | cons e m ih =>
    obtain ⟨k2, v2⟩ := e
    simp only [insert]
    split
    · simp
    · split
      · simp_all
      · simp only [keys_cons, List.mem_cons, ih]; tauto

theorem wf_insert {k : U32} {v : α} {m : BMap α} (h : WF m) : WF (insert k v m) := by
  induction m with
  | nil => simp [insert, WF]
  | cons e m ih =>
    obtain ⟨k2, v2⟩ := e
    have h' := h
    simp only [WF, keys_cons, List.pairwise_cons] at h'
    simp only [insert]
    split
    · next hlt =>
      simp only [WF, keys_cons, List.pairwise_cons, List.mem_cons]
      refine ⟨?_, h'.1, h'.2⟩
      rintro a (rfl | ha)
      · exact hlt
      · exact u32_lt_trans hlt (h'.1 a ha)
    · split
      · next heq => subst heq; simpa only [WF, keys_cons, List.pairwise_cons] using h'
      · next hnlt hne =>
        simp only [WF, keys_cons, List.pairwise_cons]
        refine ⟨?_, ih h'.2⟩
        intro a ha
        rcases mem_keys_insert.mp ha with rfl | ha
        · exact u32_lt_of_not hnlt hne
        · exact h'.1 a ha

@[simp] theorem get?_nil {k : U32} : get? k ([] : BMap α) = none := rfl

@[simp] theorem get?_insert_self {k : U32} {v : α} {m : BMap α} : get? k (insert k v m) = some v := by
  induction m with
  | nil => simp [insert, get?]
  | cons e m ih =>
    obtain ⟨k2, v2⟩ := e
    simp only [insert]
    split
    · simp [get?]
    · split
      · simp [get?]
      · simp [get?, *]

theorem get?_insert_of_ne {k k' : U32} {v : α} {m : BMap α} (h : k' ≠ k) :
    get? k' (insert k v m) = get? k' m := by
  induction m with
  | nil => simp [insert, get?, h]
  | cons e m ih =>
    obtain ⟨k2, v2⟩ := e
    simp only [insert]
    split
    · simp [get?, h]
    · split
      · next heq => subst heq; simp [get?, h]
      · simp only [get?, ih]

theorem get?_insert {k k' : U32} {v : α} {m : BMap α} :
    get? k' (insert k v m) = if k' = k then some v else get? k' m := by
  split
  · next h => subst h; simp
  · next h => exact get?_insert_of_ne h

theorem get?_isSome {k : U32} {m : BMap α} : (get? k m).isSome ↔ k ∈ keys m := by
  induction m with
  | nil => simp
  | cons e m ih =>
    obtain ⟨k2, v2⟩ := e
    simp only [get?, keys_cons, List.mem_cons]
    split
    · simp [*]
    · simp [*]

theorem get?_eq_none {k : U32} {m : BMap α} : get? k m = none ↔ k ∉ keys m := by
  rw [← get?_isSome]; simp

theorem exists_get? {k : U32} {m : BMap α} (h : k ∈ keys m) : ∃ v, get? k m = some v :=
  Option.isSome_iff_exists.mp (get?_isSome.mpr h)

theorem mem_keys_of_get? {k : U32} {v : α} {m : BMap α} (h : get? k m = some v) : k ∈ keys m := by
  rw [← get?_isSome, h]; rfl

theorem mem_of_get? {k : U32} {v : α} {m : BMap α} (h : get? k m = some v) : (k, v) ∈ m := by
  induction m with
  | nil => simp at h
  | cons e m ih =>
    obtain ⟨k2, v2⟩ := e
    simp only [get?] at h
    split at h
    · next heq => subst heq; simp_all
    · exact List.mem_cons_of_mem _ (ih h)

theorem get?_of_mem {k : U32} {v : α} {m : BMap α} (hm : (keys m).Nodup) (h : (k, v) ∈ m) :
    get? k m = some v := by
  induction m with
  | nil => simp at h
  | cons e m ih =>
    obtain ⟨k2, v2⟩ := e
    simp only [keys_cons, List.nodup_cons] at hm
    simp only [get?]
    rcases List.mem_cons.mp h with h | h
    · simp only [Prod.mk.injEq] at h; simp [h.1, h.2]
    · have : k ∈ keys m := List.mem_map.mpr ⟨_, h, rfl⟩
      have hne : k ≠ k2 := by rintro rfl; exact hm.1 this
      simp [hne, ih hm.2 h]

theorem mem_iff_get? {k : U32} {v : α} {m : BMap α} (hm : WF m) : (k, v) ∈ m ↔ get? k m = some v :=
  ⟨get?_of_mem hm.nodup, mem_of_get?⟩

theorem remove_eq_filter {k : U32} {m : BMap α} (hm : (keys m).Nodup) :
    remove k m = m.filter (fun e => e.1 ≠ k) := by
  induction m with
  | nil => rfl
  | cons e m ih =>
    obtain ⟨k2, v2⟩ := e
    simp only [keys_cons, List.nodup_cons] at hm
    simp only [remove]
    split
    · next h =>
      subst h
      rw [List.filter_cons_of_neg (by simp)]
      symm
      rw [List.filter_eq_self]
      intro e he
      have : e.1 ∈ keys m := List.mem_map.mpr ⟨_, he, rfl⟩
      simp only [decide_eq_true_eq]
      rintro rfl
      exact hm.1 this
    · next h =>
      rw [List.filter_cons_of_pos (by simpa using fun h' => h h'.symm), ih hm.2]

theorem keys_filter_sublist {m : BMap α} (p : U32 × α → Bool) :
    (keys (m.filter p)).Sublist (keys m) := List.filter_sublist.map _

theorem wf_filter {m : BMap α} (hm : WF m) (p : U32 × α → Bool) : WF (m.filter p) :=
  List.Pairwise.sublist (keys_filter_sublist p) hm

theorem wf_remove {k : U32} {m : BMap α} (hm : WF m) : WF (remove k m) := by
  rw [remove_eq_filter hm.nodup]; exact wf_filter hm _

theorem mem_keys_remove {k k' : U32} {m : BMap α} (hm : WF m) :
    k' ∈ keys (remove k m) ↔ k' ∈ keys m ∧ k' ≠ k := by
  rw [remove_eq_filter hm.nodup]
  simp only [keys, List.mem_map, List.mem_filter, decide_eq_true_eq]
  constructor
  · rintro ⟨e, ⟨he, hne⟩, rfl⟩; exact ⟨⟨e, he, rfl⟩, hne⟩
  · rintro ⟨⟨e, he, rfl⟩, hne⟩; exact ⟨e, ⟨he, hne⟩, rfl⟩

theorem get?_remove {k k' : U32} {m : BMap α} (hm : (keys m).Nodup) :
    get? k' (remove k m) = if k' = k then none else get? k' m := by
  induction m with
  | nil => simp [remove]
  | cons e m ih =>
    obtain ⟨k2, v2⟩ := e
    simp only [keys_cons, List.nodup_cons] at hm
    simp only [remove]
    split
    · next h =>
      subst h
      split
      · next h => subst h; exact get?_eq_none.mpr hm.1
      · next h => simp [get?, h]
    · next h =>
      simp only [get?, ih hm.2]
      split
      · next h' =>
        subst h'
        rw [if_neg (fun e => h e.symm)]
      · rfl

/-- Sorted maps are determined by their lookups. -/
theorem ext {m m' : BMap α} (hm : WF m) (hm' : WF m') (h : ∀ k, get? k m = get? k m') : m = m' := by
  induction m generalizing m' with
  | nil =>
    cases m' with
    | nil => rfl
    | cons e m' => have := h e.1; simp [get?] at this
  | cons e m ih =>
    obtain ⟨k, v⟩ := e
    cases m' with
    | nil => have := h k; simp [get?] at this
    | cons e' m' =>
      obtain ⟨k', v'⟩ := e'
      have hm2 := hm; have hm2' := hm'
      simp only [WF, keys_cons, List.pairwise_cons] at hm2 hm2'
      have hk : k = k' := by
        by_contra hne
        have h1 := h k
        have h2 := h k'
        simp only [get?, if_neg hne, if_true, if_neg (fun e : k' = k => hne e.symm)] at h1 h2
        have a1 : k ∈ keys m' := mem_keys_of_get? h1.symm
        have a2 : k' ∈ keys m := mem_keys_of_get? h2
        exact u32_lt_asymm (hm2.1 _ a2) (hm2'.1 _ a1)
      subst hk
      have hv := h k
      simp only [get?, if_true, Option.some.injEq] at hv
      subst hv
      congr 1
      refine ih hm2.2 hm2'.2 (fun k2 => ?_)
      have h2 := h k2
      simp only [get?] at h2
      by_cases hk2 : k2 = k
      · subst hk2
        rw [get?_eq_none.mpr (fun hmem => u32_lt_irrefl _ (hm2.1 _ hmem)),
          get?_eq_none.mpr (fun hmem => u32_lt_irrefl _ (hm2'.1 _ hmem))]
      · simpa [hk2] using h2

theorem insert_append {k : U32} {v : α} {m : BMap α} (h : ∀ k' ∈ keys m, k' < k) :
    insert k v m = m ++ [(k, v)] := by
  induction m with
  | nil => rfl
  | cons e m ih =>
    obtain ⟨k2, v2⟩ := e
    have h2 := h k2 (by simp)
    simp only [insert, if_neg (u32_lt_asymm h2), if_neg (fun e : k = k2 => u32_lt_ne h2 e.symm)]
    rw [ih (fun k' hk' => h k' (by simp [hk']))]
    rfl

/-- Building a map by inserting the entries of a sorted map gives that map back. -/
theorem foldl_insert_wf {m : BMap α} (h : WF m) :
    m.foldl (fun acc e => insert e.1 e.2 acc) [] = m := by
  suffices H : ∀ (pre post : BMap α), WF (pre ++ post) →
      post.foldl (fun acc e => insert e.1 e.2 acc) pre = pre ++ post by simpa using H [] m (by simpa using h)
  intro pre post
  induction post generalizing pre with
  | nil => simp
  | cons e post ih =>
    intro hw
    simp only [List.foldl_cons]
    have hk : ∀ k' ∈ keys pre, k' < e.1 := by
      intro k' hk'
      simp only [WF, keys, List.map_append, List.map_cons, List.pairwise_append] at hw
      exact hw.2.2 k' hk' e.1 (by simp)
    rw [insert_append hk, ih (pre ++ [(e.1, e.2)]) (by simpa using hw)]
    simp

end BMap

/-! ### `sort` -/

section Sorting
variable {α : Type} (key : α → U32)

theorem insertSorted_perm (a : α) (l : List α) : (insertSorted key a l).Perm (a :: l) := by
  induction l with
  | nil => simp [insertSorted]
  | cons b l ih =>
    simp only [insertSorted]
    split
    · exact List.Perm.refl _
    · exact (ih.cons b).trans (List.Perm.swap a b l)

theorem foldl_insertSorted_perm (l acc : List α) :
    (l.foldl (fun acc a => insertSorted key a acc) acc).Perm (l ++ acc) := by
  induction l generalizing acc with
  | nil => simp
  | cons a l ih =>
    simp only [List.foldl_cons, List.cons_append]
    refine (ih _).trans ?_
    exact ((insertSorted_perm key a acc).append_left l).trans List.perm_middle

theorem sortByKey_perm (l : List α) : (sortByKey key l).Perm l := by
  simpa [sortByKey] using foldl_insertSorted_perm key l []

/-- Sorted by key, equal keys allowed. -/
def KeySorted (l : List α) : Prop := l.Pairwise (fun a b => ¬ key b < key a)

/-- Sorted by key, without repetitions. -/
def KeyStrict (l : List α) : Prop := l.Pairwise (fun a b => key a < key b)

theorem insertSorted_sorted (a : α) (l : List α) (h : KeySorted key l) :
    KeySorted key (insertSorted key a l) := by
  induction l with
  | nil => simp [insertSorted, KeySorted]
  | cons b l ih =>
    have h' := h
    simp only [KeySorted, List.pairwise_cons] at h'
    simp only [insertSorted]
    split
    · next hlt =>
      refine List.pairwise_cons.mpr ⟨?_, h⟩
      intro c hc
      rcases List.mem_cons.mp hc with rfl | hc
      · exact u32_lt_asymm hlt
      · exact u32_not_lt_trans (u32_lt_asymm hlt) (h'.1 c hc)
    · next hlt =>
      refine List.pairwise_cons.mpr ⟨?_, ih h'.2⟩
      intro c hc
      have hc' := (insertSorted_perm key a l).mem_iff.mp hc
      rcases List.mem_cons.mp hc' with rfl | hc'
      · exact hlt
      · exact h'.1 c hc'

theorem sortByKey_sorted (l : List α) : KeySorted key (sortByKey key l) := by
  suffices H : ∀ acc, KeySorted key acc → KeySorted key (l.foldl (fun acc a => insertSorted key a acc) acc) from
    H [] List.Pairwise.nil
  induction l with
  | nil => exact fun _ h => h
  | cons a l ih => exact fun acc h => ih _ (insertSorted_sorted key a acc h)

theorem insertSorted_append {a : α} {l : List α} (h : ∀ b ∈ l, ¬ key a < key b) :
    insertSorted key a l = l ++ [a] := by
  induction l with
  | nil => rfl
  | cons b l ih =>
    simp only [insertSorted, if_neg (h b (by simp)), List.cons_append]
    rw [ih (fun c hc => h c (by simp [hc]))]

/-- A sorted list is left alone by `sort`. -/
theorem sortByKey_eq_self {l : List α} (h : KeySorted key l) : sortByKey key l = l := by
  suffices H : ∀ pre post, KeySorted key (pre ++ post) →
      post.foldl (fun acc a => insertSorted key a acc) pre = pre ++ post by
    simpa [sortByKey] using H [] l (by simpa using h)
  intro pre post
  induction post generalizing pre with
  | nil => simp
  | cons a post ih =>
    intro hs
    simp only [List.foldl_cons]
    rw [insertSorted_append, ih (pre ++ [a]) (by simpa using hs)]
    · simp
    · intro b hb
      exact (List.pairwise_append.mp hs).2.2 b hb a (by simp)

theorem sortByKey_append_one (l : List α) (a : α) :
    sortByKey key (l ++ [a]) = insertSorted key a (sortByKey key l) := by
  simp [sortByKey]

theorem KeyStrict.sorted {l : List α} (h : KeyStrict key l) : KeySorted key l :=
  List.Pairwise.imp (fun h => u32_lt_asymm h) h

theorem KeyStrict.nodup_keys {l : List α} (h : KeyStrict key l) : (l.map key).Nodup :=
  List.pairwise_map.mpr (List.Pairwise.imp (fun h => u32_lt_ne h) h)

/-! ### `dedup` -/

theorem dedupByKey_sublist (l : List α) : (dedupByKey key l).Sublist l := by
  induction l using dedupByKey.induct key with
  | case1 => simp [dedupByKey]
  | case2 a => simp [dedupByKey]
  | case3 a b l h ih =>
    rw [dedupByKey, if_pos h]
    exact ih.trans ((List.sublist_cons_self b l).cons_cons a)
  | case4 a b l h ih =>
    rw [dedupByKey, if_neg h]
    exact ih.cons_cons a

theorem dedupByKey_mem_keys (l : List α) (k : U32) :
    k ∈ (dedupByKey key l).map key ↔ k ∈ l.map key := by
  induction l using dedupByKey.induct key with
  | case1 => simp [dedupByKey]
  | case2 a => simp [dedupByKey]
  | case3 a b l h ih =>
    rw [dedupByKey, if_pos h, ih]
    simp only [List.map_cons, List.mem_cons, h]
    tauto
  | case4 a b l h ih =>
    rw [dedupByKey, if_neg h, List.map_cons, List.mem_cons, ih]
    simp

theorem dedupByKey_strict {l : List α} (h : KeySorted key l) : KeyStrict key (dedupByKey key l) := by
  induction l using dedupByKey.induct key with
  | case1 => simp [dedupByKey, KeyStrict]
  | case2 a => simp [dedupByKey, KeyStrict]
  | case3 a b l heq ih =>
    rw [dedupByKey, if_pos heq]
    exact ih (List.Pairwise.sublist ((List.sublist_cons_self b l).cons_cons a) h)
  | case4 a b l hne ih =>
    rw [dedupByKey, if_neg hne]
    have h' := List.pairwise_cons.mp h
    refine List.pairwise_cons.mpr ⟨?_, ih h'.2⟩
    intro c hc
    have hc' := (dedupByKey_sublist key _).subset hc
    have hab : key a < key b := u32_lt_of_not (h'.1 b (by simp)) (fun e => hne e.symm)
    rcases List.mem_cons.mp hc' with rfl | hc'
    · exact hab
    · exact u32_lt_of_lt_of_not hab ((List.pairwise_cons.mp h'.2).1 c hc')

theorem dedupByKey_eq_self {l : List α} (h : KeyStrict key l) : dedupByKey key l = l := by
  induction l using dedupByKey.induct key with
  | case1 => simp [dedupByKey]
  | case2 a => simp [dedupByKey]
  | case3 a b l heq ih =>
    have := (List.pairwise_cons.mp h).1 b (by simp)
    exact absurd heq (u32_lt_ne this)
  | case4 a b l hne ih =>
    rw [dedupByKey, if_neg hne, ih (List.pairwise_cons.mp h).2]

/-- Adding an element with a key already present to a strictly sorted list and sorting and deduplicating gives the
old list: the first inclusion wins. -/
theorem dedup_insertSorted_of_mem {a : α} {l : List α} (h : KeyStrict key l) (ha : key a ∈ l.map key) :
    dedupByKey key (insertSorted key a l) = l := by
  induction l with
  | nil => simp at ha
  | cons b l ih =>
    have h' := List.pairwise_cons.mp h
    simp only [insertSorted]
    rcases List.mem_cons.mp ha with heq | hmem
    · rw [if_neg (by rw [heq]; exact u32_lt_irrefl _)]
      cases l with
      | nil =>
        simp only [insertSorted]
        rw [dedupByKey, if_pos heq.symm]; simp [dedupByKey]
      | cons c l =>
        have hbc := h'.1 c (by simp)
        simp only [insertSorted]
        rw [if_pos (by rw [heq]; exact hbc), dedupByKey, if_pos heq.symm]
        exact dedupByKey_eq_self key h
    · obtain ⟨c, hc, hca⟩ := List.mem_map.mp hmem
      have hba : key b < key a := by rw [← hca]; exact h'.1 c hc
      rw [if_neg (u32_lt_asymm hba)]
      have hne : insertSorted key a l ≠ [] := by
        intro h0
        have := (insertSorted_perm key a l).length_eq
        rw [h0] at this; simp at this
      obtain ⟨d, m, hdm⟩ := List.exists_cons_of_ne_nil hne
      have hd : key b < key d := by
        have : d ∈ insertSorted key a l := by rw [hdm]; simp
        rcases List.mem_cons.mp ((insertSorted_perm key a l).mem_iff.mp this) with rfl | hd
        · exact hba
        · exact h'.1 d hd
      rw [hdm, dedupByKey, if_neg (u32_lt_ne hd), ← hdm, ih h'.2 hmem]

/-- Adding an element with a new key to a strictly sorted list. -/
theorem insertSorted_strict {a : α} {l : List α} (h : KeyStrict key l) (ha : key a ∉ l.map key) :
    KeyStrict key (insertSorted key a l) := by
  induction l with
  | nil => simp [insertSorted, KeyStrict]
  | cons b l ih =>
    have h' := List.pairwise_cons.mp h
    have hne : key a ≠ key b := fun e => ha (by simp [e])
    simp only [insertSorted]
    split
    · next hlt =>
      refine List.pairwise_cons.mpr ⟨?_, h⟩
      intro c hc
      rcases List.mem_cons.mp hc with rfl | hc
      · exact hlt
      · exact u32_lt_trans hlt (h'.1 c hc)
    · next hlt =>
      refine List.pairwise_cons.mpr ⟨?_, ih h'.2 (fun hm => ha (by simp only [List.map_cons, List.mem_cons]; exact Or.inr hm))⟩
      intro c hc
      rcases List.mem_cons.mp ((insertSorted_perm key a l).mem_iff.mp hc) with rfl | hc
      · exact u32_lt_of_not hlt hne
      · exact h'.1 c hc

end Sorting

/-! ### Sorted and deduplicated index lists -/

/-- `sort_unstable` followed by `dedup` on a `Vec<u32>`. -/
theorem sortDedup_strict (l : List U32) : (dedupByKey id (sortByKey id l)).Pairwise (· < ·) :=
  dedupByKey_strict id (sortByKey_sorted id l)

theorem sortDedup_mem (l : List U32) (k : U32) : k ∈ dedupByKey id (sortByKey id l) ↔ k ∈ l := by
  have := dedupByKey_mem_keys id (sortByKey id l) k
  simp only [List.map_id] at this
  rw [this]
  exact (sortByKey_perm id l).mem_iff

theorem sortDedup_nodup (l : List U32) : (dedupByKey id (sortByKey id l)).Nodup :=
  List.Pairwise.imp (fun h => u32_lt_ne h) (sortDedup_strict l)

theorem sortDedup_length (l : List U32) : (dedupByKey id (sortByKey id l)).length = l.length ↔ l.Nodup := by
  have hf : (dedupByKey id (sortByKey id l)).toFinset = l.toFinset := by
    ext k; simp [sortDedup_mem]
  have hc := List.toFinset_card_of_nodup (sortDedup_nodup l)
  rw [hf] at hc
  rw [← hc]
  constructor
  · intro h
    exact (Multiset.toFinset_card_eq_card_iff_nodup (m := (l : Multiset U32))).mp h
  · intro h; exact List.toFinset_card_of_nodup h

theorem sortDedup_perm {l : List U32} (h : l.Nodup) : (dedupByKey id (sortByKey id l)).Perm l :=
  (List.perm_ext_iff_of_nodup (sortDedup_nodup l) h).mpr (sortDedup_mem l)

/-- Strictly increasing lists are determined by their elements. -/
theorem eq_of_strict_of_mem {l l' : List U32} (h : l.Pairwise (· < ·)) (h' : l'.Pairwise (· < ·))
    (hm : ∀ k, k ∈ l ↔ k ∈ l') : l = l' := by
  have hn : l.Nodup := List.Pairwise.imp (fun h => u32_lt_ne h) h
  have hn' : l'.Nodup := List.Pairwise.imp (fun h => u32_lt_ne h) h'
  have hp := (List.perm_ext_iff_of_nodup hn hn').mpr hm
  exact hp.eq_of_pairwise (fun a b _ _ h1 h2 => absurd h2 (u32_lt_asymm h1)) h h'

/-- `sort` + `dedup` depend only on the set of elements. -/
theorem sortDedup_congr {l l' : List U32} (h : ∀ k, k ∈ l ↔ k ∈ l') :
    dedupByKey id (sortByKey id l) = dedupByKey id (sortByKey id l') :=
  eq_of_strict_of_mem (sortDedup_strict l) (sortDedup_strict l') (fun k => by simp [sortDedup_mem, h k])

end IceFrost

/-! ### Maps built by successive insertions -/

namespace IceFrost.BMap
variable {α : Type}

/-- The map obtained by inserting the entries of a list from left to right. -/
def ofList (l : List (U32 × α)) : BMap α := l.foldl (fun m e => insert e.1 e.2 m) []

theorem ofList_append_one (l : List (U32 × α)) (e : U32 × α) : ofList (l ++ [e]) = insert e.1 e.2 (ofList l) := by
  simp [ofList]

theorem wf_ofList (l : List (U32 × α)) : WF (ofList l) := by
  induction l using List.reverseRecOn with
  | nil => exact wf_nil
  | append_singleton l e ih => rw [ofList_append_one]; exact wf_insert ih

theorem mem_keys_ofList (l : List (U32 × α)) (k : U32) : k ∈ keys (ofList l) ↔ k ∈ l.map Prod.fst := by
  induction l using List.reverseRecOn with
  | nil => simp [ofList, keys]
  | append_singleton l e ih => rw [ofList_append_one, mem_keys_insert, ih]; simp [or_comm]

/-- Any entry of the map is an entry of the list. -/
theorem mem_of_get?_ofList {l : List (U32 × α)} {k : U32} {v : α} (h : get? k (ofList l) = some v) :
    (k, v) ∈ l := by
  induction l using List.reverseRecOn with
  | nil => simp [ofList, get?] at h
  | append_singleton l e ih =>
    rw [ofList_append_one, get?_insert] at h
    split at h
    · next he =>
      obtain ⟨k', v'⟩ := e
      simp only [Option.some.injEq] at h
      simp_all
    · simp [ih h]

theorem get?_ofList {l : List (U32 × α)} (hn : (l.map Prod.fst).Nodup) (k : U32) (v : α) :
    get? k (ofList l) = some v ↔ (k, v) ∈ l := by
  refine ⟨mem_of_get?_ofList, fun h => ?_⟩
  have hk : k ∈ keys (ofList l) := (mem_keys_ofList l k).mpr (List.mem_map.mpr ⟨_, h, rfl⟩)
  obtain ⟨v', hv'⟩ := exists_get? hk
  have h' := mem_of_get?_ofList hv'
  have := List.inj_on_of_nodup_map hn h h' rfl
  rw [hv']
  simp only [Prod.mk.injEq, true_and] at this
  rw [this]

theorem mem_ofList {l : List (U32 × α)} (hn : (l.map Prod.fst).Nodup) (e : U32 × α) : e ∈ ofList l ↔ e ∈ l := by
  obtain ⟨k, v⟩ := e
  rw [mem_iff_get? (wf_ofList l), get?_ofList hn]

theorem ofList_perm {l : List (U32 × α)} (hn : (l.map Prod.fst).Nodup) : (ofList l).Perm l := by
  refine (List.perm_ext_iff_of_nodup ?_ (List.Nodup.of_map _ hn)).mpr (mem_ofList hn)
  exact List.Nodup.of_map Prod.fst (wf_ofList l).nodup

theorem ofList_of_wf {m : BMap α} (h : WF m) : ofList m = m := foldl_insert_wf h

theorem ofList_congr {l l' : List (U32 × α)} (hn : (l.map Prod.fst).Nodup) (hp : l.Perm l') :
    ofList l = ofList l' := by
  have hn' : (l'.map Prod.fst).Nodup := (hp.map _).nodup_iff.mp hn
  refine ext (wf_ofList l) (wf_ofList l') fun k => ?_
  apply Option.ext
  intro v
  rw [get?_ofList hn, get?_ofList hn', hp.mem_iff]

end IceFrost.BMap
