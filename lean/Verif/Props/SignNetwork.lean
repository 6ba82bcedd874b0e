import Verif.Props.SignEndToEnd
import Verif.Props.Wire
import Mathlib.Logic.Relation

/-! # C156: signing on an arbitrary network

Signers that follow the protocol answer requests of arbitrary coordinators: they publish lists of nonce commitments, call
`sign` with whatever list of signers, digest, group key and position they are asked for, and restart from the state they
saved last, in any order and any number of times.
-/

set_option linter.unusedSectionVars false
set_option linter.unusedSimpArgs false
set_option linter.unusedVariables false

namespace IceFrost

open Codec

variable {F G R : Type} [Field F] [DecidableEq F] [AddCommGroup G] [Module F G] [DecidableEq G]

/-- A request that was answered: who answered, from which of its lists, with which entry, and what was asked. -/
structure Spec.Issued (F G : Type) where
  signer : U32
  list : Nat
  share : CommitmentShare F G
  digest : Bytes
  groupKey : G
  signers : List (Signer G)
  answer : PartialSignature F

/-- The secret lists of each signer, the lists as they were generated, and all answers given so far. -/
structure Spec.SignNet (F G : Type) where
  lists : U32 → List (List (CommitmentShare F G))
  made : U32 → List (List (CommitmentShare F G))
  log : List (Spec.Issued F G)

/-- One step of the signer `i`. -/
inductive Spec.Signs (S : Suite F G R) (dbg : Bool) (sk : U32 → IndividualSigningKey F) :
    Spec.SignNet F G → Spec.SignNet F G → Prop
  | publish (w : Spec.SignNet F G) (i : U32) (rng : R) (number : Nat) (h : number < 2 ^ 63) :
      Spec.Signs S dbg sk w
        { w with
          lists := Function.update w.lists i (w.lists i ++ [(generateCommitmentShareLists S rng (sk i) number).2])
          made := Function.update w.made i (w.made i ++ [(generateCommitmentShareLists S rng (sk i) number).2]) }
  | answer (w : Spec.SignNet F G) (i : U32) (k : Nat) (L L' : List (CommitmentShare F G)) (share : CommitmentShare F G)
      (pos : UInt64) (digest : Bytes) (Y : G) (signers : List (Signer G)) (p : PartialSignature F)
      (hL : (w.lists i)[k]? = some L) (hs : L[pos.toNat]? = some share)
      (h : sign S dbg (sk i) digest Y L pos signers = (.ok p, L')) :
      Spec.Signs S dbg sk w
        { w with
          lists := Function.update w.lists i ((w.lists i).set k L')
          log := w.log ++ [⟨i, k, share, digest, Y, signers, p⟩] }
  | refuse (w : Spec.SignNet F G) (i : U32) (k : Nat) (L L' : List (CommitmentShare F G)) (pos : UInt64) (digest : Bytes)
      (Y : G) (signers : List (Signer G)) (f : Fail F G) (hL : (w.lists i)[k]? = some L)
      (h : sign S dbg (sk i) digest Y L pos signers = (.error f, L')) :
      Spec.Signs S dbg sk w { w with lists := Function.update w.lists i ((w.lists i).set k L') }
  | restart (w : Spec.SignNet F G) (i : U32) (k : Nat) (L L' : List (CommitmentShare F G)) (hL : (w.lists i)[k]? = some L)
      (h : ((toBytes (F := F) (G := G) (secretListCodec S) L).bind (fromBytes (secretListCodec S)) :
        Out F G (List (CommitmentShare F G))) = .ok L') :
      Spec.Signs S dbg sk w { w with lists := Function.update w.lists i ((w.lists i).set k L') }

/-- The states that some execution reaches. -/
def Spec.SignReached (S : Suite F G R) (dbg : Bool) (sk : U32 → IndividualSigningKey F) (w : Spec.SignNet F G) : Prop :=
  Relation.ReflTransGen (Spec.Signs S dbg sk) ⟨fun _ => [], fun _ => [], []⟩ w

/-- The entries of list `k` of signer `i` that answers were made with. -/
def Spec.usedFrom (log : List (Spec.Issued F G)) (i : U32) (k : Nat) : List (CommitmentShare F G) :=
  (log.filter fun e => e.signer = i ∧ e.list = k).map (·.share)

section
variable {S : Suite F G R} {dbg : Bool} {sk : U32 → IndividualSigningKey F}

/-- What an answered request looks like. -/
structure IssuedOk (S : Suite F G R) (dbg : Bool) (sk : U32 → IndividualSigningKey F) (made : U32 → List (List (CommitmentShare F G)))
    (e : Spec.Issued F G) : Prop where
  call : ∃ L pos L', L[pos.toNat]? = some e.share ∧ sign S dbg (sk e.signer) e.digest e.groupKey L pos e.signers = (.ok e.answer, L')
  origin : ∃ M, (made e.signer)[e.list]? = some M ∧ e.share ∈ M

structure SignNetOk (S : Suite F G R) (dbg : Bool) (sk : U32 → IndividualSigningKey F) (w : Spec.SignNet F G) : Prop where
  generated : ∀ i, ∀ M ∈ w.made i, ∃ rng number, number < 2 ^ 63 ∧ M = (generateCommitmentShareLists S rng (sk i) number).2
  length : ∀ i, (w.lists i).length = (w.made i).length
  perm : ∀ i k (L M : List (CommitmentShare F G)), (w.lists i)[k]? = some L → (w.made i)[k]? = some M →
    (Spec.usedFrom w.log i k ++ L).Perm M
  issued : ∀ e ∈ w.log, IssuedOk S dbg sk w.made e

theorem usedFrom_append (log : List (Spec.Issued F G)) (e : Spec.Issued F G) (i : U32) (k : Nat) :
    Spec.usedFrom (log ++ [e]) i k = Spec.usedFrom log i k ++ if e.signer = i ∧ e.list = k then [e.share] else [] := by
  unfold Spec.usedFrom
  rw [List.filter_append, List.map_append]
  congr 1
  by_cases h : e.signer = i ∧ e.list = k
  · rw [List.filter_cons_of_pos (by simpa using h), if_pos h]; rfl
  · rw [List.filter_cons_of_neg (by simpa using h), if_neg h]; rfl

theorem generated_length {M : List (CommitmentShare F G)} {i : U32}
    (h : ∃ rng number, number < 2 ^ 63 ∧ M = (generateCommitmentShareLists S rng (sk i) number).2) : M.length < 2 ^ 63 := by
  obtain ⟨rng, n, hn, rfl⟩ := h
  rw [(C52_published S rng (sk i) n).1]
  exact hn

theorem signNet_set {w : Spec.SignNet F G} (h : SignNetOk S dbg sk w) {i : U32} {k : Nat} {L : List (CommitmentShare F G)}
    (hL : (w.lists i)[k]? = some L) : ∃ M, (w.made i)[k]? = some M ∧ L.length < 2 ^ 63 ∧ M ∈ w.made i ∧ L ⊆ M := by
  have hk : k < (w.made i).length := by
    rw [← h.length i]
    exact (List.getElem?_eq_some_iff.mp hL).1
  refine ⟨(w.made i)[k], List.getElem?_eq_getElem hk, ?_, List.getElem_mem hk, ?_⟩
  · have hp := (h.perm i k L _ hL (List.getElem?_eq_getElem hk)).length_eq
    have := generated_length (h.generated i _ (List.getElem_mem hk))
    rw [List.length_append] at hp
    omega
  · intro x hx
    exact (h.perm i k L _ hL (List.getElem?_eq_getElem hk)).mem_iff.mp (List.mem_append_right _ hx)

theorem set_same {α : Type} {l : List α} {k : Nat} {a : α} (h : l[k]? = some a) : l.set k a = l := by
  obtain ⟨h1, rfl⟩ := List.getElem?_eq_some_iff.mp h
  exact List.set_getElem_self h1

theorem set_get {α : Type} (l : List α) (k k' : Nat) (a b : α) (h : (l.set k a)[k']? = some b) :
    (k' = k ∧ b = a) ∨ (k' ≠ k ∧ l[k']? = some b) := by
  by_cases hk : k' = k
  · subst hk
    left
    refine ⟨rfl, ?_⟩
    have : k' < l.length := by
      have := (List.getElem?_eq_some_iff.mp h).1
      rwa [List.length_set] at this
    rw [List.getElem?_set_self this] at h
    exact (Option.some.inj h).symm
  · right
    rw [List.getElem?_set_ne (Ne.symm hk)] at h
    exact ⟨hk, h⟩

theorem signNet_ok (hd : S.CodecLaws) {w : Spec.SignNet F G} (h : Spec.SignReached S dbg sk w) : SignNetOk S dbg sk w := by
  induction h with
  | refl =>
    refine ⟨fun i M h => ?_, fun i => rfl, fun i k L M h => ?_, fun e h => ?_⟩
    · cases h
    · simp at h
    · cases h
  | tail _ hs ih =>
    cases hs with
    | publish i rng number hn =>
      rename_i w _
      set N := (generateCommitmentShareLists S rng (sk i) number).2 with hN
      refine ⟨fun j M hM => ?_, fun j => ?_, fun j k L M hL hM => ?_, fun e he => ⟨(ih.issued e he).call, ?_⟩⟩
      · by_cases hj : j = i
        · subst hj
          simp only [Function.update_self, List.mem_append, List.mem_singleton] at hM
          rcases hM with hM | rfl
          · exact ih.generated j M hM
          · exact ⟨rng, number, hn, rfl⟩
        · simp only [Function.update_of_ne hj] at hM
          exact ih.generated j M hM
      · by_cases hj : j = i
        · subst hj
          simp only [Function.update_self, List.length_append, ih.length j]
        · simp only [Function.update_of_ne hj, ih.length j]
      · by_cases hj : j = i
        · subst hj
          simp only [Function.update_self] at hL hM
          by_cases hk : k < (w.lists j).length
          · rw [List.getElem?_append_left hk] at hL
            rw [List.getElem?_append_left (by rw [← ih.length j]; exact hk)] at hM
            exact ih.perm j k L M hL hM
          · have hk' : k = (w.lists j).length := by
              have := (List.getElem?_eq_some_iff.mp hL).1
              simp only [List.length_append, List.length_singleton] at this
              omega
            subst hk'
            have h1 : L = N := by simpa using hL.symm
            have h2 : M = N := by
              rw [ih.length j] at hM
              simpa using hM.symm
            have h3 : Spec.usedFrom w.log j (w.lists j).length = [] := by
              unfold Spec.usedFrom
              rw [List.map_eq_nil_iff, List.filter_eq_nil_iff]
              intro e he hc
              have hc : e.signer = j ∧ e.list = (w.lists j).length := by simpa using hc
              obtain ⟨M', hM', _⟩ := (ih.issued e he).origin
              have := (List.getElem?_eq_some_iff.mp hM').1
              rw [hc.1, hc.2, ih.length j] at this
              omega
            show (Spec.usedFrom w.log j (w.lists j).length ++ L).Perm M
            rw [h1, h2, h3]
            exact List.Perm.refl _
        · simp only [Function.update_of_ne hj] at hL hM
          exact ih.perm j k L M hL hM
      · obtain ⟨M, hM, hx⟩ := (ih.issued e he).origin
        refine ⟨M, ?_, hx⟩
        by_cases hj : e.signer = i
        · rw [← hj]
          simp only [Function.update_self]
          rw [List.getElem?_append_left (List.getElem?_eq_some_iff.mp hM).1]
          exact hM
        · simp only [Function.update_of_ne hj]
          exact hM
    | answer i k L L' share pos digest Y signers p hL hs h =>
      rename_i w _
      obtain ⟨M0, hM0, _, _, hsub⟩ := signNet_set ih hL
      refine ⟨ih.generated, fun j => ?_, fun j k' L1 M hL1 hM => ?_, fun e he => ?_⟩
      · by_cases hj : j = i
        · subst hj
          simp only [Function.update_self, List.length_set]
          exact ih.length j
        · simp only [Function.update_of_ne hj, ih.length j]
      · show (Spec.usedFrom (w.log ++ [_]) j k' ++ L1).Perm M
        rw [usedFrom_append]
        by_cases hj : j = i
        · subst hj
          simp only [Function.update_self] at hL1
          rcases set_get _ _ _ _ _ hL1 with ⟨rfl, rfl⟩ | ⟨hk, hL1⟩
          · rw [if_pos ⟨rfl, rfl⟩, List.append_assoc]
            rcases sign_perm S dbg (sk j) digest Y L pos signers with ⟨f, hf⟩ | ⟨p', s', L2, h1, h2, h3, _⟩
            · rw [h] at hf; cases hf
            · rw [h] at h1
              cases h1
              rw [hs] at h2
              cases h2
              exact (List.Perm.append_left _ h3.symm).trans (ih.perm j k' L M hL hM)
          · rw [if_neg (fun hc => hk hc.2.symm), List.append_nil]
            exact ih.perm j k' L1 M hL1 hM
        · simp only [Function.update_of_ne hj] at hL1
          rw [if_neg (fun hc => hj hc.1.symm), List.append_nil]
          exact ih.perm j k' L1 M hL1 hM
      · rcases List.mem_append.mp he with he | he
        · exact ih.issued e he
        · rw [List.mem_singleton] at he
          subst he
          exact ⟨⟨L, pos, L', hs, h⟩, M0, hM0, hsub (List.mem_of_getElem? hs)⟩
    | refuse i k L L' pos digest Y signers f hL h =>
      rename_i w _
      have : L' = L := by
        have := C55_failure_consumes_nothing S dbg (sk i) digest Y L pos signers f (by rw [h])
        rwa [h] at this
      subst this
      have hset : (w.lists i).set k L' = w.lists i := set_same hL
      rw [hset, Function.update_eq_self]
      exact ih
    | restart i k L L' hL h =>
      rename_i w _
      obtain ⟨_, _, hlen, _⟩ := signNet_set ih hL
      obtain ⟨saved, h1, h2⟩ := C72_secret_list (F := F) (G := G) hd L (by omega)
      rw [h1] at h
      have : L' = L := by
        have h' : fromBytes (F := F) (G := G) (secretListCodec S) saved = .ok L' := h
        rw [h2] at h'
        exact (Except.ok.inj h').symm
      subst this
      have hset : (w.lists i).set k L' = w.lists i := set_same hL
      rw [hset, Function.update_eq_self]
      exact ih

/-- C156, single use: in every reachable state the entries used so far from a list together with those left are the list as it
was generated, with multiplicities; and restarting from the list saved last never fails. -/
theorem C156_conserved (hd : S.CodecLaws) {w : Spec.SignNet F G} (h : Spec.SignReached S dbg sk w) (i : U32) :
    (w.lists i).length = (w.made i).length ∧
    ∀ k (L : List (CommitmentShare F G)), (w.lists i)[k]? = some L → (∃ M, (w.made i)[k]? = some M ∧
      (((w.log.filter fun e => e.signer = i ∧ e.list = k).map (·.share)) ++ L).Perm M) ∧
      (toBytes (F := F) (G := G) (secretListCodec S) L).bind (fromBytes (secretListCodec S)) = .ok L := by
  have ih := signNet_ok hd h
  refine ⟨ih.length i, fun k L hL => ?_⟩
  obtain ⟨M, hM, hl, _⟩ := signNet_set ih hL
  refine ⟨⟨M, hM, ih.perm i k L M hL hM⟩, ?_⟩
  obtain ⟨saved, h1, h2⟩ := C72_secret_list (F := F) (G := G) hd L (by omega)
  rw [h1]
  exact h2

/-- C156: unless a signer draws a nonce pair twice, no two answers of it use the same pair. -/
theorem C156_no_reuse (hd : S.CodecLaws) {w : Spec.SignNet F G} (h : Spec.SignReached S dbg sk w) (i : U32)
    (hn : (w.made i).flatten.Nodup) : ((w.log.filter fun e => e.signer = i).map (·.share)).Nodup := by
  have ih := signNet_ok hd h
  rw [List.nodup_flatten] at hn
  -- entries used from one list are distinct
  have h1 : ∀ k, (Spec.usedFrom w.log i k).Nodup := by
    intro k
    by_cases hk : k < (w.lists i).length
    · have hk' : k < (w.made i).length := by rw [← ih.length i]; exact hk
      have := ih.perm i k _ _ (List.getElem?_eq_getElem hk) (List.getElem?_eq_getElem hk')
      have hM := this.nodup_iff.mpr (hn.1 _ (List.getElem_mem hk'))
      exact (List.nodup_append.mp hM).1
    · have : Spec.usedFrom w.log i k = [] := by
        unfold Spec.usedFrom
        rw [List.map_eq_nil_iff, List.filter_eq_nil_iff]
        intro e he hc
        have hc : e.signer = i ∧ e.list = k := by simpa using hc
        obtain ⟨M', hM', _⟩ := (ih.issued e he).origin
        have := (List.getElem?_eq_some_iff.mp hM').1
        rw [hc.1, hc.2, ← ih.length i] at this
        exact hk this
      rw [this]
      exact List.nodup_nil
  have h2 : ∀ e ∈ w.log, ∀ e' ∈ w.log, e.signer = i → e'.signer = i → e.share = e'.share → e.list = e'.list := by
    intro e he e' he' hi hi' hs
    by_contra hne
    obtain ⟨M, hM, hx⟩ := (ih.issued e he).origin
    obtain ⟨M', hM', hx'⟩ := (ih.issued e' he').origin
    rw [hi] at hM
    rw [hi'] at hM'
    rw [← hs] at hx'
    obtain ⟨l1, e1⟩ := List.getElem?_eq_some_iff.mp hM
    obtain ⟨l2, e2⟩ := List.getElem?_eq_some_iff.mp hM'
    have hp := List.pairwise_iff_getElem.mp hn.2
    rcases Nat.lt_or_gt_of_ne hne with hlt | hlt
    · exact hp _ _ l1 l2 hlt (e1 ▸ hx) (e2 ▸ hx')
    · exact hp _ _ l2 l1 hlt (e2 ▸ hx') (e1 ▸ hx)
  clear ih h hn
  generalize w.log = log at h1 h2
  induction log with
  | nil => exact List.nodup_nil
  | cons e log ihl =>
    have ht := ihl (fun k => ?_) (fun a ha b hb => h2 a (List.mem_cons_of_mem _ ha) b (List.mem_cons_of_mem _ hb))
    · by_cases hi : e.signer = i
      · rw [List.filter_cons_of_pos (by simpa using hi), List.map_cons, List.nodup_cons]
        refine ⟨fun hm => ?_, ht⟩
        obtain ⟨e', he', hs⟩ := List.mem_map.mp hm
        obtain ⟨he', hi'⟩ := List.mem_filter.mp he'
        have hi' : e'.signer = i := by simpa using hi'
        have hl := h2 e List.mem_cons_self e' (List.mem_cons_of_mem _ he') hi hi' hs.symm
        have hk := h1 e.list
        unfold Spec.usedFrom at hk
        rw [List.filter_cons_of_pos (by simpa using hi), List.map_cons, List.nodup_cons] at hk
        exact hk.1 (List.mem_map.mpr ⟨e', List.mem_filter.mpr ⟨he', by simpa using ⟨hi', hl.symm⟩⟩, hs⟩)
      · rw [List.filter_cons_of_neg (by simpa using hi)]
        exact ht
    · have := h1 k
      unfold Spec.usedFrom at this ⊢
      exact this.sublist ((List.Sublist.filter _ (List.sublist_cons_self _ _)).map _)

/-- C156: what a signer published for the entry it used is `(g^d, g^e)`, and if the list of signers of the request has it, the
answer satisfies the share equation for the signer's public key. -/
theorem C156_answers (hd : S.CodecLaws) {w : Spec.SignNet F G} (h : Spec.SignReached S dbg sk w) (e : Spec.Issued F G)
    (he : e ∈ w.log) :
    (e.share.publish = (e.share.hidingC.secret • S.gen, e.share.bindingC.secret • S.gen)) ∧
    (⟨(sk e.signer).index, e.share.publish⟩ ∈ e.signers →
      e.answer.index = (sk e.signer).index ∧ Spec.PartialValid S e.groupKey e.digest e.signers
        ⟨(sk e.signer).index, e.share.publish⟩ ((sk e.signer).key • S.gen) e.answer.z) := by
  have ih := signNet_ok hd h
  obtain ⟨⟨L, pos, L', h1, h2⟩, M, hM, hx⟩ := ih.issued e he
  obtain ⟨rng, n, _, rfl⟩ := ih.generated e.signer M (List.mem_of_getElem? hM)
  obtain ⟨j, hj, hje⟩ := List.mem_iff_getElem.mp hx
  obtain ⟨g1, _, _, g4⟩ := C52_published S rng (sk e.signer) n
  obtain ⟨c, c1, _, c3, c4⟩ := g4 j (by rw [← g1]; exact hj)
  rw [List.getElem?_eq_getElem hj, hje] at c1
  cases c1
  refine ⟨by rw [← c3, ← c4]; rfl, fun hl => ?_⟩
  exact C56_share_equation S dbg (sk e.signer) e.digest e.groupKey L pos e.signers e.answer (by rw [h2]) e.share h1 c3 c4 hl

/-- C156: whatever a coordinator does, it cannot make the aggregator report a signer whose answer to the very request of the
session it has put in. -/
theorem C156_not_blamed (hu : Suite.U32Inj F) (hd : S.CodecLaws) {w : Spec.SignNet F G} (h : Spec.SignReached S dbg sk w)
    (hsk : ∀ i, (sk i).index = i) (params : Params) (Y : G) (message : Bytes) (ops : List (AggOp F G))
    (f : FinalizedAggregator F G) (hf : (session params Y message ops).finalize S = .ok f) (l : List U32)
    (hl : f.aggregate S = .error (.err (.misbehavingParticipants l))) (e : Spec.Issued F G) (he : e ∈ w.log)
    (hr : e.digest = Spec.messageHash S message ∧ e.groupKey = Y ∧ e.signers = f.state.signers)
    (hs : ⟨e.signer, e.share.publish⟩ ∈ f.state.signers)
    (hk : f.state.publicKeys.get? e.signer = some ((sk e.signer).key • S.gen))
    (hp : f.state.partialSignatures.get? e.signer = some e.answer.z) : e.signer ∉ l := by
  have ih := signNet_ok hd h
  obtain ⟨⟨L, pos, L', h1, h2⟩, _⟩ := ih.issued e he
  obtain ⟨hpub, _⟩ := C156_answers hd h e he
  have hc := Prod.ext_iff.mp hpub
  have := C65_honest_not_blamed S params Y message ops hu f hf l hl dbg (sk e.signer) L pos e.share h1 hc.1 hc.2
    (by rw [hsk]; exact hs) (by rw [hsk]; exact hk) e.answer
    (by rw [← hr.1, ← hr.2.1, ← hr.2.2, h2]) (by rw [hsk]; exact hp)
  rwa [hsk] at this

theorem publish_all (rng : U32 → R) (w : Spec.SignNet F G) (J : List U32) (hJ : J.Nodup) :
    ∃ w', Relation.ReflTransGen (Spec.Signs S dbg sk) w w' ∧ w'.log = w.log ∧ ∀ i, w'.lists i =
      w.lists i ++ if i ∈ J then [(generateCommitmentShareLists S (rng i) (sk i) 1).2] else [] := by
  induction J with
  | nil => exact ⟨w, .refl, rfl, fun i => by simp⟩
  | cons a J ih =>
    rw [List.nodup_cons] at hJ
    obtain ⟨w', h1, h2, h3⟩ := ih hJ.2
    refine ⟨_, h1.tail (.publish w' a (rng a) 1 (by norm_num)), h2, fun i => ?_⟩
    show Function.update w'.lists a _ i = _
    by_cases hi : i = a
    · subst hi
      rw [Function.update_self, h3 i, if_neg hJ.1, List.append_nil, if_pos List.mem_cons_self]
    · rw [Function.update_of_ne hi, h3 i]
      simp [hi]

theorem answer_all (w : Spec.SignNet F G) (J : List U32) (hJ : J.Nodup) (k : U32 → Nat) (pos : U32 → UInt64)
    (L : U32 → List (CommitmentShare F G)) (share : U32 → CommitmentShare F G) (digest : Bytes) (Y : G)
    (signers : List (Signer G)) (p : U32 → PartialSignature F)
    (hL : ∀ i ∈ J, (w.lists i)[k i]? = some (L i) ∧ (L i)[(pos i).toNat]? = some (share i) ∧
      (sign S dbg (sk i) digest Y (L i) (pos i) signers).1 = .ok (p i)) :
    ∃ w', Relation.ReflTransGen (Spec.Signs S dbg sk) w w' ∧
      w'.log = w.log ++ J.map fun i => ⟨i, k i, share i, digest, Y, signers, p i⟩ := by
  induction J generalizing w with
  | nil => exact ⟨w, .refl, by simp⟩
  | cons a J ih =>
    rw [List.nodup_cons] at hJ
    obtain ⟨a1, a2, a3⟩ := hL a List.mem_cons_self
    have st := Spec.Signs.answer (S := S) (dbg := dbg) (sk := sk) w a (k a) (L a)
      (sign S dbg (sk a) digest Y (L a) (pos a) signers).2 (share a) (pos a) digest Y signers (p a) a1 a2
      (by rw [← a3])
    obtain ⟨w', h1, h2⟩ := ih hJ.2 (w := { w with
        lists := Function.update w.lists a ((w.lists a).set (k a) (sign S dbg (sk a) digest Y (L a) (pos a) signers).2)
        log := w.log ++ [⟨a, k a, share a, digest, Y, signers, p a⟩] }) fun i hi => by
      have hia : i ≠ a := fun h => hJ.1 (h ▸ hi)
      show (Function.update w.lists a _ i)[k i]? = _ ∧ _
      rw [Function.update_of_ne hia]
      exact hL i (List.mem_cons_of_mem _ hi)
    refine ⟨w', .head st h1, ?_⟩
    rw [h2, List.map_cons, List.append_assoc]
    rfl

/-- C156, progress: in every state, whatever was signed, refused or restarted before, signers whose keys interpolate to `s` can
make a signature for `g^s` on any message: each publishes one more nonce pair and answers once. -/
theorem C156_progress (hu : Suite.U32Inj F) (hsk : ∀ i, (sk i).index = i) (w : Spec.SignNet F G) (J : List U32)
    (hJ : J.Nodup) (h0 : 0 ∉ J) (hne : J ≠ []) (sp : Params) (hn : J.length ≤ sp.n.toNat) (s : F)
    (hs : Spec.interpolate J (fun i => (sk i).key) = s) (message : Bytes) (rng : U32 → R) :
    ∃ w', Relation.ReflTransGen (Spec.Signs S dbg sk) w w' ∧
    ∃ (e : U32 → Spec.Issued F G) (f : FinalizedAggregator F G) (sig : ThresholdSignature F G),
      w'.log = w.log ++ J.map e ∧
      (session sp (s • S.gen) message ((J.map fun i => .signer i (e i).share.publish (IndividualSigningKey.toPublic S (sk i))) ++
        J.map fun i => .partialSig (e i).answer)).finalize S = .ok f ∧
      f.aggregate S = .ok sig ∧ Spec.SigValid S (s • S.gen) (Spec.messageHash S message) sig := by
  have hsk' : ∀ i, (⟨i, (sk i).key⟩ : IndividualSigningKey F) = sk i := fun i =>
    congrArg (IndividualSigningKey.mk · _) (hsk i).symm
  obtain ⟨c, hc, p, hp, f, sig, k1, k2, k3, _⟩ := C64_documented_flow hu S (fun _ => dbg) sp message J hJ h0 hne hn
    (fun i => (sk i).key) s hs rng (fun _ => 1) (fun _ _ => by norm_num) (fun _ => 0) (fun _ _ => by simp) J J
    (List.Perm.refl _) (List.Perm.refl _)
  simp only [hsk'] at hc hp k1
  obtain ⟨w1, s1, l1, h1⟩ := publish_all (S := S) (dbg := dbg) (sk := sk) rng w J hJ
  have hsh : ∀ i ∈ J, ∃ sh : CommitmentShare F G,
      (generateCommitmentShareLists S (rng i) (sk i) 1).2[((0 : UInt64)).toNat]? = some sh ∧ c i = sh.publish := by
    intro i hi
    obtain ⟨_, _, _, g4⟩ := C52_published S (rng i) (sk i) 1
    obtain ⟨sh, a1, a2, a3, a4⟩ := g4 0 (by norm_num)
    refine ⟨sh, a1, ?_⟩
    have := hc i hi
    have z : ((0 : UInt64)).toNat = 0 := rfl
    rw [z] at this
    rw [a2, ← a3, ← a4] at this
    exact (Option.some.inj this).symm
  have : Nonempty (CommitmentShare F G) := ⟨⟨⟨0, 0⟩, ⟨0, 0⟩⟩⟩
  choose! sh hsh1 hsh2 using hsh
  obtain ⟨w2, s2, l2⟩ := answer_all (S := S) (dbg := dbg) (sk := sk) w1 J hJ (fun i => (w.lists i).length) (fun _ => 0)
    (fun i => (generateCommitmentShareLists S (rng i) (sk i) 1).2) sh (Spec.messageHash S message) (s • S.gen) _ p
    fun i hi => ⟨by rw [h1 i, if_pos hi]; simp, hsh1 i hi, hp i hi⟩
  refine ⟨w2, s1.trans s2, _, f, sig, by rw [l2, l1], ?_, k2, k3⟩
  have : (J.map fun i => (.signer i (c i) (IndividualSigningKey.toPublic S (sk i)) : AggOp F G)) =
      J.map fun i => .signer i (sh i).publish (IndividualSigningKey.toPublic S (sk i)) :=
    List.map_congr_left fun i hi => by rw [hsh2 i hi]
  rw [this] at k1
  exact k1

end

/-! ### Example -/

section Example
open Toy

/-- Three signers of the toy suite with key shares of 17: they answer, and can answer again and again. -/
example : ∃ w w' : Spec.SignNet Fp Fp, Spec.SignReached suite true (fun i => ⟨i, 17⟩) w ∧
    Spec.SignReached suite true (fun i => ⟨i, 17⟩) w' ∧ w.log.length = 2 ∧ w'.log.length = 4 := by
  have hi : Spec.interpolate [1, 2] (fun _ : U32 => (17 : Fp)) = Spec.interpolate [1, 2] (fun _ : U32 => (17 : Fp)) := rfl
  obtain ⟨w, h1, e, _, _, h2, _⟩ := C156_progress (S := suite) (dbg := true) (sk := fun i => ⟨i, 17⟩) u32_inj (fun _ => rfl)
    ⟨fun _ => [], fun _ => [], []⟩ [1, 2] (by decide) (by decide) (by simp) ⟨3, 2⟩ (by decide) _ hi [1] (fun i => i.toNat)
  obtain ⟨w', h1', e', _, _, h2', _⟩ := C156_progress (S := suite) (dbg := true) (sk := fun i => ⟨i, 17⟩) u32_inj (fun _ => rfl)
    w [1, 2] (by decide) (by decide) (by simp) ⟨3, 2⟩ (by decide) _ hi [2] (fun i => 7 + i.toNat)
  exact ⟨w, w', h1, h1.trans h1', by rw [h2]; rfl, by rw [h2', h2]; rfl⟩

end Example

end IceFrost
