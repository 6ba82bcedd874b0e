import Verif.Props.Concurrent

/-! # C143: what holds at every point of the game without secrets -/

set_option linter.unusedSectionVars false
set_option linter.unusedSimpArgs false
set_option linter.unusedVariables false

namespace IceFrost

open Finset

variable {F G R : Type} [Field F] [DecidableEq F] [AddCommGroup G] [Module F G] [DecidableEq G]
variable {Ω : Type}

theorem lookup_some_mem {T : List (Spec.Question × F)} {b : Spec.Question} {v : F} (h : T.lookup b = some v) :
    (b, v) ∈ T := by
  induction T with
  | nil => cases h
  | cons p T ih =>
    rw [List.lookup_cons] at h
    by_cases hb : b = p.1
    · rw [hb] at h
      simp only [beq_self_eq_true] at h
      rw [hb, ← Option.some.inj h]
      exact List.mem_cons_self
    · have : (b == p.1) = false := by simpa using hb
      rw [this] at h
      exact List.mem_cons_of_mem _ (ih h)

theorem lookup_mem_some {T : List (Spec.Question × F)} {b : Spec.Question} (h : b ∈ T.map Prod.fst) :
    ∃ v, T.lookup b = some v := by
  cases hl : T.lookup b with
  | some v => exact ⟨v, rfl⟩
  | none =>
    rw [List.lookup_eq_none_iff] at hl
    obtain ⟨p, hp, he⟩ := List.mem_map.mp h
    exact absurd (hl p hp) (by simp [he])

theorem lookup_append_of_ne {T : List (Spec.Question × F)} {b b' : Spec.Question} {v : F} (h : b' ≠ b) :
    (T ++ [(b, v)]).lookup b' = T.lookup b' := by
  by_cases hm : b' ∈ T.map Prod.fst
  · exact lookup_append_left hm
  · rw [lookup_append_right hm, lookup_none hm, List.lookup_cons]
    have : (b' == b) = false := by simpa using h
    rw [this]
    rfl

theorem lookup_append_self {T : List (Spec.Question × F)} {b : Spec.Question} {c : F} :
    (T ++ [(b, (T.lookup b).getD c)]).lookup b = some ((T.lookup b).getD c) := by
  by_cases hm : b ∈ T.map Prod.fst
  · rw [lookup_append_left hm]
    obtain ⟨v, hv⟩ := lookup_mem_some hm
    rw [hv, Option.getD_some]
  · rw [lookup_append_right hm]
    simp

theorem tags_differ (ctx : Bytes) : ctx ++ strBytes "challenge" ≠ ctx ++ strBytes "rho" := by
  intro h
  have := List.append_cancel_left h
  revert this
  decide +kernel

theorem challenge_isFactor (S : Suite F G R) (P Y : G) (msg : Bytes) :
    (Spec.challengeQuestion S P Y msg).isFactor S = false := by
  unfold Spec.challengeQuestion Spec.Question.isFactor
  simpa using tags_differ S.contextString

theorem factor_isFactor (S : Suite F G R) (msg : Bytes) (signers : List (Signer G)) (i : U32) :
    (Spec.factorQuestion S msg signers i).isFactor S = true := by
  unfold Spec.factorQuestion Spec.Question.isFactor
  simp

theorem factorQuestion_index {S : Suite F G R} {m m' : Bytes} {B B' : List (Signer G)} {i i' : U32}
    (h : Spec.factorQuestion S m B i = Spec.factorQuestion S m' B' i') : i = i' := by
  unfold Spec.factorQuestion at h
  have h' : Spec.rhoInput S m B i = Spec.rhoInput S m' B' i' := by injection h
  unfold Spec.rhoInput at h'
  exact u32le_inj (List.append_inj' h' (by simp)).2

theorem rho_eq (S : Suite F G R) (T : List (Spec.Question × F)) (msg : Bytes) (B : List (Signer G)) (i : U32) {v : F}
    (h : T.lookup (Spec.factorQuestion S msg B i) = some v) : Spec.rho (Spec.withTable S T) msg B i = v := by
  show ((T.lookup (Spec.factorQuestion S msg B i)).getD _) = v
  rw [h, Option.getD_some]

theorem challenge_eq (S : Suite F G R) (T : List (Spec.Question × F)) (P Y : G) (msg : Bytes) {v : F}
    (h : T.lookup (Spec.challengeQuestion S P Y msg) = some v) : Spec.challenge (Spec.withTable S T) P Y msg = v := by
  show ((T.lookup (Spec.challengeQuestion S P Y msg)).getD _) = v
  rw [h, Option.getD_some]

/-- Binding factors that were asked for do not change. -/
theorem rho_append (S : Suite F G R) (T T' : List (Spec.Question × F)) (msg : Bytes) (B : List (Signer G)) (i : U32)
    (h : Spec.factorQuestion S msg B i ∈ T.map Prod.fst) :
    Spec.rho (Spec.withTable S (T ++ T')) msg B i = Spec.rho (Spec.withTable S T) msg B i := by
  obtain ⟨v, hv⟩ := lookup_mem_some h
  rw [rho_eq S T msg B i hv, rho_eq S (T ++ T') msg B i (by rw [lookup_append_left h, hv])]

/-- Nor do group commitments. -/
theorem groupCommitment_append (S : Suite F G R) (T T' : List (Spec.Question × F)) (msg : Bytes) (B : List (Signer G))
    (h : ∀ s ∈ B, Spec.factorQuestion S msg B s.participantIndex ∈ T.map Prod.fst) :
    Spec.groupCommitment (Spec.withTable S (T ++ T')) msg B = Spec.groupCommitment (Spec.withTable S T) msg B := by
  unfold Spec.groupCommitment
  congr 1
  refine List.map_congr_left fun s hs => ?_
  unfold Spec.signerCommitment
  rw [rho_append S T T' msg B _ (h s hs)]

/-- What holds of the table of questions: every question that is not for a binding factor has the answer of the first move
that asked it; every binding factor is the answer of some move that named a message and list with the same digests; every
move that named a message and a list asked for the binding factors and the challenge. -/
structure Spec.Sound (S : Suite F G R) (Y : G) (c : ℕ → F) (r : ℕ → U32 → F) (k : ℕ) (T : List (Spec.Question × F))
    (named : List (Option (Bytes × List (Signer G)))) (asked : List (Option Spec.Question)) : Prop where
  asked_length : asked.length = k
  named_length : named.length = k
  plain : ∀ b, b.isFactor S = false →
    T.lookup b = if some b ∈ asked then some (c (asked.idxOf (some b))) else none
  factor : ∀ m B i v, T.lookup (Spec.factorQuestion S m B i) = some v → ∃ (a : ℕ) (m' : Bytes) (B' : List (Signer G)), named[a]? = some (some (m', B')) ∧
    Spec.factorQuestion S m' B' i = Spec.factorQuestion S m B i ∧ v = r a i
  entry : ∀ (a : ℕ) m B, named[a]? = some (some (m, B)) →
    (∀ s ∈ B, Spec.factorQuestion S m B s.participantIndex ∈ T.map Prod.fst) ∧
    asked[a]? = some (some (Spec.challengeQuestion S (Spec.groupCommitment (Spec.withTable S T) m B) Y m))

theorem getElem?_append_old {α : Type} {l : List α} {x y : α} {a : ℕ} (h : l[a]? = some x) : (l ++ [y])[a]? = some x := by
  rw [List.getElem?_append_left (List.getElem?_eq_some_iff.mp h).1, h]

theorem getElem?_append_cases {α : Type} {l : List α} {x y : α} {a : ℕ} (h : (l ++ [y])[a]? = some x) :
    l[a]? = some x ∨ (a = l.length ∧ x = y) := by
  by_cases ha : a < l.length
  · rw [List.getElem?_append_left ha] at h
    exact Or.inl h
  · rw [List.getElem?_append_right (by omega)] at h
    have : a - l.length = 0 := by
      by_contra hc
      rw [List.getElem?_eq_none (by simp; omega)] at h
      cases h
    rw [this] at h
    simp only [List.getElem?_cons_zero, Option.some.injEq] at h
    exact Or.inr ⟨by omega, h.symm⟩

/-- Asking a question that is not for a binding factor. -/
theorem plain_append {S : Suite F G R} {c : ℕ → F} {k : ℕ} {T : List (Spec.Question × F)}
    {asked : List (Option Spec.Question)} (hk : asked.length = k)
    (h : ∀ b, b.isFactor S = false → T.lookup b = if some b ∈ asked then some (c (asked.idxOf (some b))) else none)
    (b : Spec.Question) (hb : b.isFactor S = false) :
    ∀ b', b'.isFactor S = false → (T ++ [(b, (T.lookup b).getD (c k))]).lookup b' =
      if some b' ∈ asked ++ [some b] then some (c ((asked ++ [some b]).idxOf (some b'))) else none := by
  intro b' hb'
  by_cases hm : some b' ∈ asked
  · have hl := h b' hb'
    rw [if_pos hm] at hl
    rw [if_pos (List.mem_append_left _ hm), List.idxOf_append_of_mem hm, lookup_append_left, hl]
    by_contra hc
    rw [lookup_none hc] at hl
    cases hl
  · have hl := h b' hb'
    rw [if_neg hm] at hl
    by_cases he : b' = b
    · subst he
      rw [lookup_append_self, hl, if_pos (by simp), List.idxOf_append_of_notMem hm, hk]
      simp
    · rw [lookup_append_of_ne he, hl, if_neg]
      rw [List.mem_append, List.mem_singleton, Option.some.injEq]
      exact fun hc => hc.elim hm he

theorem Spec.Sound.append_none {S : Suite F G R} {Y : G} {c : ℕ → F} {r : ℕ → U32 → F} {k : ℕ}
    {T : List (Spec.Question × F)} {named : List (Option (Bytes × List (Signer G)))} {asked : List (Option Spec.Question)}
    (h : Spec.Sound S Y c r k T named asked) : Spec.Sound S Y c r (k + 1) T (named ++ [none]) (asked ++ [none]) := by
  refine ⟨by simp [h.asked_length], by simp [h.named_length], fun b hb => ?_, fun m B i v hv => ?_, fun a m B ha => ?_⟩
  · rw [h.plain b hb]
    have : some b ∈ asked ++ [none] ↔ some b ∈ asked := by simp
    simp only [this]
    split
    · next hm => rw [List.idxOf_append_of_mem hm]
    · rfl
  · obtain ⟨a, m', B', h1, h2, h3⟩ := h.factor m B i v hv
    exact ⟨a, m', B', getElem?_append_old h1, h2, h3⟩
  · rcases getElem?_append_cases ha with ha | ⟨-, ha⟩
    · obtain ⟨h1, h2⟩ := h.entry a m B ha
      exact ⟨h1, getElem?_append_old h2⟩
    · cases ha

theorem Spec.Sound.hash {S : Suite F G R} {Y : G} {c : ℕ → F} {r : ℕ → U32 → F} {k : ℕ}
    {T : List (Spec.Question × F)} {named : List (Option (Bytes × List (Signer G)))} {asked : List (Option Spec.Question)}
    (h : Spec.Sound S Y c r k T named asked) (b : Spec.Question) (hb : b.isFactor S = false) :
    Spec.Sound S Y c r (k + 1) (T ++ [(b, (T.lookup b).getD (c k))]) (named ++ [none]) (asked ++ [some b]) := by
  refine ⟨by simp [h.asked_length], by simp [h.named_length], plain_append h.asked_length h.plain b hb,
    fun m B i v hv => ?_, fun a m B ha => ?_⟩
  · rw [lookup_append_of_ne (by
      intro he
      rw [← he, factor_isFactor] at hb
      cases hb)] at hv
    obtain ⟨a, m', B', h1, h2, h3⟩ := h.factor m B i v hv
    exact ⟨a, m', B', getElem?_append_old h1, h2, h3⟩
  · rcases getElem?_append_cases ha with ha | ⟨-, ha⟩
    · obtain ⟨h1, h2⟩ := h.entry a m B ha
      refine ⟨fun s hs => ?_, ?_⟩
      · rw [List.map_append, List.mem_append]
        exact Or.inl (h1 s hs)
      · rw [groupCommitment_append S T _ m B h1]
        exact getElem?_append_old h2
    · cases ha

/-- The factors are in the table. -/
theorem withFactors_mem (S : Suite F G R) (T : List (Spec.Question × F)) (msg : Bytes) (signers : List (Signer G))
    (r : U32 → F) : ∀ s ∈ signers, Spec.factorQuestion S msg signers s.participantIndex ∈
      (Spec.Board.withFactors S T msg signers r).map Prod.fst := by
  intro s hs
  unfold Spec.Board.withFactors
  rw [List.map_append, List.mem_append, List.map_map]
  exact Or.inr (List.mem_map.mpr ⟨s, hs, rfl⟩)

theorem withFactors_plain (S : Suite F G R) (T : List (Spec.Question × F)) (msg : Bytes) (signers : List (Signer G))
    (r : U32 → F) (b : Spec.Question) (hb : b.isFactor S = false) :
    (Spec.Board.withFactors S T msg signers r).lookup b = T.lookup b := by
  by_cases hm : b ∈ T.map Prod.fst
  · exact lookup_append_left hm
  · unfold Spec.Board.withFactors
    rw [lookup_append_right hm, lookup_none hm, lookup_none]
    rw [List.map_map]
    intro hc
    obtain ⟨s, hs, he⟩ := List.mem_map.mp hc
    have he' : Spec.factorQuestion S msg signers s.participantIndex = b := he
    rw [← he', factor_isFactor] at hb
    cases hb

theorem Spec.Sound.name {S : Suite F G R} {Y : G} {c : ℕ → F} {r : ℕ → U32 → F} {k : ℕ} {st : Spec.Board F G}
    (h : Spec.Sound S Y c r k st.table st.named st.asked) (msg : Bytes) (signers : List (Signer G)) :
    Spec.Sound S Y c r (k + 1) (st.name S Y msg signers (c k) (r k)).table (st.name S Y msg signers (c k) (r k)).named
      (st.name S Y msg signers (c k) (r k)).asked := by
  set T1 := Spec.Board.withFactors S st.table msg signers (r k) with hT1
  set b := Spec.challengeQuestion S (Spec.groupCommitment (Spec.withTable S T1) msg signers) Y msg with hb
  have hbf : b.isFactor S = false := challenge_isFactor S _ _ _
  have hT : (st.name S Y msg signers (c k) (r k)).table = T1 ++ [(b, (T1.lookup b).getD (c k))] := rfl
  have hN : (st.name S Y msg signers (c k) (r k)).named = st.named ++ [some (msg, signers)] := rfl
  have hA : (st.name S Y msg signers (c k) (r k)).asked = st.asked ++ [some b] := rfl
  rw [hT, hN, hA]
  have hpre : ∃ X, T1 = st.table ++ X := ⟨_, rfl⟩
  refine ⟨by simp [h.asked_length], by simp [h.named_length], ?_, fun m B i v hv => ?_, fun a m B ha => ?_⟩
  · refine plain_append h.asked_length (fun b' hb' => ?_) b hbf
    rw [hT1, withFactors_plain S _ _ _ _ b' hb']
    exact h.plain b' hb'
  · rw [lookup_append_of_ne (by
      intro he
      rw [← he, factor_isFactor] at hbf
      cases hbf)] at hv
    by_cases hm : Spec.factorQuestion S m B i ∈ st.table.map Prod.fst
    · rw [hT1] at hv
      unfold Spec.Board.withFactors at hv
      rw [lookup_append_left hm] at hv
      obtain ⟨a, m', B', h1, h2, h3⟩ := h.factor m B i v hv
      exact ⟨a, m', B', getElem?_append_old h1, h2, h3⟩
    · rw [hT1] at hv
      unfold Spec.Board.withFactors at hv
      rw [lookup_append_right hm] at hv
      obtain ⟨s, hs, he⟩ := List.mem_map.mp (lookup_some_mem hv)
      rw [Prod.mk.injEq] at he
      have hi := factorQuestion_index he.1
      refine ⟨k, msg, signers, ?_, ?_, ?_⟩
      · rw [List.getElem?_append_right (by rw [h.named_length]), h.named_length]
        simp
      · have he1 := he.1
        rw [hi] at he1
        exact he1
      · rw [he.1, lookup_none hm, Option.getD_none, hi] at he
        exact he.2.symm
  · rcases getElem?_append_cases ha with ha | ⟨hak, ha⟩
    · obtain ⟨h1, h2⟩ := h.entry a m B ha
      obtain ⟨X, hX⟩ := hpre
      rw [hX, List.append_assoc]
      refine ⟨fun s hs => ?_, ?_⟩
      · rw [List.map_append, List.mem_append]
        exact Or.inl (h1 s hs)
      · rw [groupCommitment_append S st.table _ m B h1]
        exact getElem?_append_old h2
    · simp only [Option.some.injEq, Prod.mk.injEq] at ha
      obtain ⟨rfl, rfl⟩ := ha
      have h1 := withFactors_mem S st.table m B (r k)
      rw [← hT1] at h1
      refine ⟨fun s hs => ?_, ?_⟩
      · rw [List.map_append, List.mem_append]
        exact Or.inl (h1 s hs)
      · rw [groupCommitment_append S T1 _ m B h1, ← hb, hak, h.named_length, List.getElem?_append_right
          (by rw [h.asked_length]), h.asked_length]
        simp

/-! ### One move -/

/-- What a move does to the part of the board that is about questions. -/
inductive Spec.Turn (S : Suite F G R) (Y : G) (c : F) (r : U32 → F) (b b' : Spec.Board F G) : Prop
  | quiet (h1 : b'.table = b.table) (h2 : b'.named = b.named ++ [none]) (h3 : b'.asked = b.asked ++ [none])
  | hash (q : Spec.Question) (hq : q.isFactor S = false) (h1 : b'.table = b.table ++ [(q, (b.table.lookup q).getD c)])
      (h2 : b'.named = b.named ++ [none]) (h3 : b'.asked = b.asked ++ [some q])
  | name (msg : Bytes) (signers : List (Signer G)) (h1 : b'.table = (b.name S Y msg signers c r).table)
      (h2 : b'.named = (b.name S Y msg signers c r).named) (h3 : b'.asked = (b.name S Y msg signers c r).asked)

theorem Spec.Sound.turn {S : Suite F G R} {Y : G} {c : ℕ → F} {r : ℕ → U32 → F} {k : ℕ} {b b' : Spec.Board F G}
    (h : Spec.Sound S Y c r k b.table b.named b.asked) (ht : Spec.Turn S Y (c k) (r k) b b') :
    Spec.Sound S Y c r (k + 1) b'.table b'.named b'.asked := by
  cases ht with
  | quiet h1 h2 h3 => rw [h1, h2, h3]; exact h.append_none
  | hash q hq h1 h2 h3 => rw [h1, h2, h3]; exact h.hash q hq
  | name msg signers h1 h2 h3 => rw [h1, h2, h3]; exact h.name msg signers

theorem Spec.Turn.grows {S : Suite F G R} {Y : G} {c : F} {r : U32 → F} {b b' : Spec.Board F G}
    (ht : Spec.Turn S Y c r b b') :
    (∃ X, b'.table = b.table ++ X) ∧ (∃ x, b'.named = b.named ++ [x]) ∧ ∃ x, b'.asked = b.asked ++ [x] := by
  cases ht with
  | quiet h1 h2 h3 => exact ⟨⟨[], by simp [h1]⟩, ⟨_, h2⟩, ⟨_, h3⟩⟩
  | hash q hq h1 h2 h3 => exact ⟨⟨_, h1⟩, ⟨_, h2⟩, ⟨_, h3⟩⟩
  | name msg signers h1 h2 h3 =>
    exact ⟨⟨_, h1.trans (List.append_assoc b.table _ _)⟩, ⟨_, h2⟩, ⟨_, h3⟩⟩

/-- The cases of a move of the game without secrets. -/
inductive Spec.Progress (S : Suite F G R) (H : List U32) (Y : G) (mv : Spec.Action G) (f : Spec.Request F G → F) (n : ℕ)
    (c : F) (r : U32 → F) (st st' : Spec.Ledger F G) : Prop
  | other (h1 : st'.pairs = st.pairs) (h2 : st'.uses = st.uses) (h3 : st'.board.signed = st.board.signed)
  | announce (i : U32) (hmv : mv = .announce i) (h1 : st'.pairs = Function.update st.pairs i (st.pairs i ++ [n]))
      (h2 : st'.uses = st.uses) (h3 : st'.board.signed = st.board.signed)
  | use (a : ℕ) (i : U32) (msg : Bytes) (signers : List (Signer G)) (pre post : List ℕ) (hi : i ∈ H)
      (hs : i ∈ signers.map (·.participantIndex)) (hp : st.pairs i = pre ++ a :: post)
      (ht : st'.board.table = (st.board.name S Y msg signers c r).table)
      (hn : st'.board.named = st.board.named ++ [some (msg, signers)])
      (h1 : st'.pairs = Function.update st.pairs i (pre ++ post))
      (h2 : st'.uses = st.uses ++ [(Spec.requestOf S Y st'.board.table a i msg signers,
        f (Spec.requestOf S Y st'.board.table a i msg signers))])
      (h3 : st'.board.signed = st.board.signed ++ [msg])

theorem ledgerStep_progress (S : Suite F G R) (dbg : Bool) (H : List U32) (pts : ℕ → G × G) (Y : G) (mv : Spec.Action G)
    (st : Spec.Ledger F G) (n : ℕ) (c : F) (r : U32 → F) (f : Spec.Request F G → F) :
    Spec.Turn S Y c r st.board ((Spec.ledgerStep S dbg H pts Y mv st n c r).run f).board ∧
    Spec.Progress S H Y mv f n c r st ((Spec.ledgerStep S dbg H pts Y mv st n c r).run f) := by
  cases mv with
  | hash b =>
    refine ⟨?_, .other rfl rfl ?_⟩
    · show Spec.Turn S Y c r st.board (st.board.hash S b c)
      unfold Spec.Board.hash
      by_cases hb : b.isFactor S = true
      · rw [if_pos hb]
        exact .quiet rfl rfl rfl
      · rw [if_neg hb]
        exact .hash b (by simpa using hb) rfl rfl rfl
    · show (st.board.hash S b c).signed = _
      unfold Spec.Board.hash
      split <;> rfl
  | factors msg signers => exact ⟨.name msg signers rfl rfl rfl, .other rfl rfl rfl⟩
  | announce i => exact ⟨.quiet rfl rfl rfl, .announce i rfl rfl rfl rfl⟩
  | sign i k msg signers =>
    unfold Spec.ledgerStep
    simp only
    by_cases hi : i ∈ H
    · rw [if_pos hi]
      cases hz : (IceFrost.sign (Spec.withTable S (st.board.name S Y msg signers c r).table) dbg ⟨i, 0⟩ msg Y
          ((st.pairs i).map fun _ => Spec.pairOf S 0) k signers).1 with
      | error e => exact ⟨.name msg signers rfl rfl rfl, .other rfl rfl rfl⟩
      | ok v =>
        simp only
        cases ht : Spec.takeLast (fun a => decide (pts a = pts ((st.pairs i).getD k.toNat 0))) (st.pairs i) with
        | none => exact ⟨.name msg signers rfl rfl rfl, .other rfl rfl rfl⟩
        | some w =>
          obtain ⟨a, l⟩ := w
          obtain ⟨pre, post, h2, h3, -, -⟩ := takeLast_some _ _ _ _ ht
          refine ⟨.name msg signers rfl rfl rfl, .use a i msg signers pre post hi ?_ h2 rfl rfl ?_ rfl rfl⟩
          · unfold IceFrost.sign at hz
            cases hc : signCore (Spec.withTable S (st.board.name S Y msg signers c r).table) dbg ⟨i, 0⟩ msg Y
              ((st.pairs i).map fun _ => Spec.pairOf S 0) k signers with
            | error e' => rw [hc] at hz; cases hz
            | ok v' => exact (signCore_ok _ dbg ⟨i, 0⟩ msg Y _ k signers v'.1 v'.2 hc).2.2.1
          · rw [← h3]
            rfl
    · rw [if_neg hi]
      exact ⟨.quiet rfl rfl rfl, .other rfl rfl rfl⟩

/-- Requests do not change when the table grows. -/
theorem Spec.Sound.requestOf {S : Suite F G R} {Y : G} {c : ℕ → F} {r : ℕ → U32 → F} {k : ℕ}
    {T : List (Spec.Question × F)} {named : List (Option (Bytes × List (Signer G)))} {asked : List (Option Spec.Question)}
    (h : Spec.Sound S Y c r k T named asked) (X : List (Spec.Question × F)) (a : ℕ) {i : U32} {msg : Bytes}
    {signers : List (Signer G)} (hm : some (msg, signers) ∈ named) (hi : i ∈ signers.map (·.participantIndex)) :
    Spec.requestOf S Y (T ++ X) a i msg signers = Spec.requestOf S Y T a i msg signers := by
  obtain ⟨m, hm⟩ := List.mem_iff_getElem?.mp hm
  obtain ⟨h1, h2⟩ := h.entry m msg signers hm
  obtain ⟨s, hs, rfl⟩ := List.mem_map.mp hi
  unfold Spec.requestOf Spec.sessionChallenge
  rw [rho_append S T X msg signers _ (h1 s hs), groupCommitment_append S T X msg signers h1]
  have hp := h.plain _ (challenge_isFactor S (Spec.groupCommitment (Spec.withTable S T) msg signers) Y msg)
  rw [if_pos (List.mem_of_getElem? h2)] at hp
  rw [challenge_eq S T _ _ _ hp, challenge_eq S (T ++ X) _ _ _ (by
    rw [lookup_append_left, hp]
    by_contra hc
    rw [lookup_none hc] at hp
    cases hp)]

/-- What holds of the state after `k` moves of the game without secrets; `owner` tells which signer made a nonce pair. -/
structure Spec.Kept (S : Suite F G R) (H : List U32) (Y : G) (c : ℕ → F) (r : ℕ → U32 → F) (f : Spec.Request F G → F)
    (owner : ℕ → U32 → Prop) (k : ℕ) (st : Spec.Ledger F G) : Prop where
  sound : Spec.Sound S Y c r k st.board.table st.board.named st.board.asked
  answer : ∀ q z, (q, z) ∈ st.uses → z = f q
  request : ∀ q z, (q, z) ∈ st.uses → q = Spec.requestOf S Y st.board.table q.pair q.signer q.msg q.signers ∧
    q.msg ∈ st.board.signed ∧ some (q.msg, q.signers) ∈ st.board.named ∧ q.signer ∈ H ∧
    q.signer ∈ q.signers.map (·.participantIndex)
  used : ∀ q z, (q, z) ∈ st.uses → q.pair < k ∧ owner q.pair q.signer
  kept : ∀ i a, a ∈ st.pairs i → a < k ∧ owner a i ∧ ∀ q z, (q, z) ∈ st.uses → q.pair ≠ a
  nodup : ∀ i, (st.pairs i).Nodup
  once : (st.uses.map fun y => y.1.pair).Nodup

theorem Spec.Kept.step {S : Suite F G R} {H : List U32} {Y : G} {c : ℕ → F} {r : ℕ → U32 → F}
    {f : Spec.Request F G → F} {owner : ℕ → U32 → Prop} {k : ℕ} {st st' : Spec.Ledger F G} {mv : Spec.Action G}
    (h : Spec.Kept S H Y c r f owner k st) (how : ∀ i, mv = .announce i → owner k i)
    (hone : ∀ a i i', owner a i → owner a i' → i = i')
    (ht : Spec.Turn S Y (c k) (r k) st.board st'.board) (hp : Spec.Progress S H Y mv f k (c k) (r k) st st') :
    Spec.Kept S H Y c r f owner (k + 1) st' := by
  have hs := h.sound.turn ht
  obtain ⟨⟨X, hX⟩, ⟨x, hx⟩, -⟩ := ht.grows
  have hreq : ∀ q z, (q, z) ∈ st.uses → q = Spec.requestOf S Y st'.board.table q.pair q.signer q.msg q.signers ∧
      some (q.msg, q.signers) ∈ st'.board.named := by
    intro q z hq
    obtain ⟨h1, h2, h3, h4, h5⟩ := h.request q z hq
    refine ⟨?_, by rw [hx]; exact List.mem_append_left _ h3⟩
    rw [hX, h.sound.requestOf X q.pair h3 h5]
    exact h1
  cases hp with
  | other h1 h2 h3 =>
    refine ⟨hs, ?_, ?_, ?_, ?_, ?_, ?_⟩
    · rw [h2]; exact h.answer
    · rw [h2, h3]
      exact fun q z hq => ⟨(hreq q z hq).1, (h.request q z hq).2.1, (hreq q z hq).2, (h.request q z hq).2.2.2⟩
    · rw [h2]
      exact fun q z hq => ⟨(h.used q z hq).1.trans (by omega), (h.used q z hq).2⟩
    · rw [h1, h2]
      exact fun i a ha => ⟨(h.kept i a ha).1.trans (by omega), (h.kept i a ha).2⟩
    · rw [h1]; exact h.nodup
    · rw [h2]; exact h.once
  | announce i hmv h1 h2 h3 =>
    have hmem : ∀ i' a, a ∈ st'.pairs i' → a ∈ st.pairs i' ∨ (i' = i ∧ a = k) := by
      intro i' a ha
      rw [h1] at ha
      by_cases he : i' = i
      · subst he
        rw [Function.update_self, List.mem_append, List.mem_singleton] at ha
        exact ha.imp_right fun e => ⟨rfl, e⟩
      · rw [Function.update_of_ne he] at ha
        exact Or.inl ha
    refine ⟨hs, ?_, ?_, ?_, ?_, ?_, ?_⟩
    · rw [h2]; exact h.answer
    · rw [h2, h3]
      exact fun q z hq => ⟨(hreq q z hq).1, (h.request q z hq).2.1, (hreq q z hq).2, (h.request q z hq).2.2.2⟩
    · rw [h2]
      exact fun q z hq => ⟨(h.used q z hq).1.trans (by omega), (h.used q z hq).2⟩
    · rw [h2]
      intro i' a ha
      rcases hmem i' a ha with ha | ⟨rfl, rfl⟩
      · exact ⟨(h.kept i' a ha).1.trans (by omega), (h.kept i' a ha).2⟩
      · exact ⟨by omega, how _ hmv, fun q z hq => (h.used q z hq).1.ne⟩
    · intro i'
      rw [h1]
      by_cases he : i' = i
      · subst he
        rw [Function.update_self, List.nodup_append]
        refine ⟨h.nodup i', by simp, ?_⟩
        intro a ha b hb
        rw [List.mem_singleton] at hb
        rw [hb]
        exact (h.kept i' a ha).1.ne
      · rw [Function.update_of_ne he]
        exact h.nodup i'
    · rw [h2]; exact h.once
  | use a i msg signers pre post hi hsi hpp htab hn h1 h2 h3 =>
    have ha0 : a ∈ st.pairs i := by rw [hpp]; simp
    have hnd := h.nodup i
    rw [hpp] at hnd
    have hmem : ∀ i' b, b ∈ st'.pairs i' → b ∈ st.pairs i' ∧ b ≠ a := by
      intro i' b hb
      rw [h1] at hb
      by_cases he : i' = i
      · subst he
        rw [Function.update_self] at hb
        refine ⟨?_, ?_⟩
        · rw [hpp]
          rw [List.mem_append] at hb ⊢
          exact hb.imp_right (List.mem_cons_of_mem _)
        · rintro rfl
          have := (List.nodup_middle.mp hnd)
          exact (List.nodup_cons.mp this).1 hb
      · rw [Function.update_of_ne he] at hb
        refine ⟨hb, ?_⟩
        rintro rfl
        exact he (hone b _ _ (h.kept i' b hb).2.1 (h.kept i b ha0).2.1)
    refine ⟨hs, ?_, ?_, ?_, ?_, ?_, ?_⟩
    · rw [h2]
      intro q z hq
      rw [List.mem_append, List.mem_singleton] at hq
      rcases hq with hq | hq
      · exact h.answer q z hq
      · rw [Prod.mk.injEq] at hq
        rw [hq.2, hq.1]
    · rw [h2]
      intro q z hq
      rw [List.mem_append, List.mem_singleton] at hq
      rcases hq with hq | hq
      · refine ⟨(hreq q z hq).1, ?_, (hreq q z hq).2, (h.request q z hq).2.2.2⟩
        rw [h3]
        exact List.mem_append_left _ (h.request q z hq).2.1
      · rw [Prod.mk.injEq] at hq
        obtain ⟨rfl, -⟩ := hq
        refine ⟨rfl, ?_, ?_, hi, hsi⟩
        · rw [h3]; exact List.mem_append_right _ (List.mem_singleton.mpr rfl)
        · rw [hn]; exact List.mem_append_right _ (List.mem_singleton.mpr rfl)
    · rw [h2]
      intro q z hq
      rw [List.mem_append, List.mem_singleton] at hq
      rcases hq with hq | hq
      · exact ⟨(h.used q z hq).1.trans (by omega), (h.used q z hq).2⟩
      · rw [Prod.mk.injEq] at hq
        obtain ⟨rfl, -⟩ := hq
        exact ⟨(h.kept i a ha0).1.trans (by omega), (h.kept i a ha0).2.1⟩
    · intro i' b hb
      obtain ⟨hb1, hb2⟩ := hmem i' b hb
      refine ⟨(h.kept i' b hb1).1.trans (by omega), (h.kept i' b hb1).2.1, ?_⟩
      rw [h2]
      intro q z hq
      rw [List.mem_append, List.mem_singleton] at hq
      rcases hq with hq | hq
      · exact (h.kept i' b hb1).2.2 q z hq
      · rw [Prod.mk.injEq] at hq
        obtain ⟨rfl, -⟩ := hq
        exact hb2.symm
    · intro i'
      rw [h1]
      by_cases he : i' = i
      · subst he
        rw [Function.update_self]
        exact (List.nodup_cons.mp (List.nodup_middle.mp hnd)).2
      · rw [Function.update_of_ne he]
        exact h.nodup i'
    · rw [h2, List.map_append, List.nodup_append]
      refine ⟨h.once, by simp, ?_⟩
      intro b hb b' hb'
      obtain ⟨⟨q, z⟩, hq, rfl⟩ := List.mem_map.mp hb
      simp only [List.map_cons, List.map_nil, List.mem_singleton] at hb'
      rw [hb']
      exact (h.kept i a ha0).2.2 q z hq

namespace Spec.Insider

variable (B : Spec.Insider Ω F G)

/-- The signer `i` made its nonce pair at move `a`. -/
def Owner (S : Suite F G R) (dbg : Bool) (H : List U32) (pts : ℕ → G × G) (Y : G) (ω : Ω) (c : ℕ → F) (r : ℕ → U32 → F)
    (f : Spec.Request F G → F) (a : ℕ) (i : U32) : Prop :=
  B.move ω ((B.ledger S dbg H pts Y ω c r a).run f).board.replies = .announce i

theorem ledger_progress (S : Suite F G R) (dbg : Bool) (H : List U32) (pts : ℕ → G × G) (Y : G) (ω : Ω) (c : ℕ → F)
    (r : ℕ → U32 → F) (f : Spec.Request F G → F) (k : ℕ) :
    Spec.Turn S Y (c k) (r k) ((B.ledger S dbg H pts Y ω c r k).run f).board
      ((B.ledger S dbg H pts Y ω c r (k + 1)).run f).board ∧
    Spec.Progress S H Y (B.move ω ((B.ledger S dbg H pts Y ω c r k).run f).board.replies) f k (c k) (r k)
      ((B.ledger S dbg H pts Y ω c r k).run f) ((B.ledger S dbg H pts Y ω c r (k + 1)).run f) := by
  rw [ledger_succ]
  exact ledgerStep_progress S dbg H pts Y _ _ k (c k) (r k) f

theorem ledger_kept (S : Suite F G R) (dbg : Bool) (H : List U32) (pts : ℕ → G × G) (Y : G) (ω : Ω) (c : ℕ → F)
    (r : ℕ → U32 → F) (f : Spec.Request F G → F) (k : ℕ) :
    Spec.Kept S H Y c r f (B.Owner S dbg H pts Y ω c r f) k ((B.ledger S dbg H pts Y ω c r k).run f) := by
  induction k with
  | zero =>
    refine ⟨⟨rfl, rfl, fun b _ => rfl, ?_, ?_⟩, ?_, ?_, ?_, ?_, fun i => List.nodup_nil, List.nodup_nil⟩
    · intro m B i v h; cases h
    · intro a m B h; simp [ledger, Spec.Program.run] at h
    · intro q z h; cases h
    · intro q z h; cases h
    · intro q z h; cases h
    · intro i a h; cases h
  | succ k ih =>
    obtain ⟨h1, h2⟩ := B.ledger_progress S dbg H pts Y ω c r f k
    refine ih.step (fun i hi => hi) ?_ h1 h2
    intro a i i' e1 e2
    unfold Owner at e1 e2
    rw [e1] at e2
    injection e2

/-- Lists of nonce pairs are no longer than the game. -/
theorem ledger_pairs_length (S : Suite F G R) (dbg : Bool) (H : List U32) (pts : ℕ → G × G) (Y : G) (ω : Ω) (c : ℕ → F)
    (r : ℕ → U32 → F) (f : Spec.Request F G → F) (k : ℕ) (i : U32) :
    (((B.ledger S dbg H pts Y ω c r k).run f).pairs i).length ≤ k := by
  have h := B.ledger_kept S dbg H pts Y ω c r f k
  have := List.subperm_of_subset (h.nodup i) (l₂ := List.range k) fun a ha => List.mem_range.mpr (h.kept i a ha).1
  simpa using this.length_le

/-- The game is the game without secrets with the right responses. -/
theorem play_ledger {S : Suite F G R} (hg : S.GroupLaws) (hu : Suite.U32Inj F) (dbg : Bool) (H : List U32)
    (key : U32 → F) (Y : G) (ω : Ω) (c : ℕ → F) (r : ℕ → U32 → F) (u : ℕ → F × F) (k : ℕ) (hk : k ≤ 2 ^ 63) :
    B.play S dbg H key Y ω c r u k =
      let st := (B.ledger S dbg H (fun a => Spec.commitTo S (u a)) Y ω c r k).run (Spec.respond key u)
      (st.board, fun i => (st.pairs i).map fun a => Spec.pairOf S (u a)) := by
  induction k with
  | zero => rfl
  | succ k ih =>
    rw [play_succ, ih (by omega), ledger_succ]
    exact gameStep_ledgerStep hg hu dbg H key Y _ _ k (c k) (r k) u fun i =>
      (B.ledger_pairs_length S dbg H _ Y ω c r _ k i).trans_lt (by omega)

theorem ledger_prefix (S : Suite F G R) (dbg : Bool) (H : List U32) (pts : ℕ → G × G) (Y : G) (ω : Ω) (c : ℕ → F)
    (r : ℕ → U32 → F) (f : Spec.Request F G → F) (k d : ℕ) :
    ((B.ledger S dbg H pts Y ω c r k).run f).board.named <+: ((B.ledger S dbg H pts Y ω c r (k + d)).run f).board.named ∧
    ((B.ledger S dbg H pts Y ω c r k).run f).board.asked <+: ((B.ledger S dbg H pts Y ω c r (k + d)).run f).board.asked := by
  induction d with
  | zero => exact ⟨List.prefix_rfl, List.prefix_rfl⟩
  | succ d ih =>
    obtain ⟨-, ⟨x, hx⟩, ⟨y, hy⟩⟩ := (B.ledger_progress S dbg H pts Y ω c r f (k + d)).1.grows
    rw [← Nat.add_assoc, hx, hy]
    exact ⟨ih.1.trans (List.prefix_append _ _), ih.2.trans (List.prefix_append _ _)⟩

end Spec.Insider

theorem takeLast_congr {p p' : ℕ → Bool} (l : List ℕ) (h : ∀ a ∈ l, p a = p' a) :
    Spec.takeLast p l = Spec.takeLast p' l := by
  induction l with
  | nil => rfl
  | cons a l ih =>
    unfold Spec.takeLast
    rw [ih fun b hb => h b (List.mem_cons_of_mem _ hb), h a List.mem_cons_self]

/-- A move does not depend on later nonce pairs. -/
theorem ledgerStep_congr (S : Suite F G R) (dbg : Bool) (H : List U32) (pts pts' : ℕ → G × G) (Y : G) (mv : Spec.Action G)
    (st : Spec.Ledger F G) (n : ℕ) (c : F) (r : U32 → F) (f f' : Spec.Request F G → F)
    (hp : ∀ a ≤ n, pts a = pts' a) (hf : ∀ q, q.pair < n → f q = f' q) (hst : ∀ i a, a ∈ st.pairs i → a < n) :
    (Spec.ledgerStep S dbg H pts Y mv st n c r).run f = (Spec.ledgerStep S dbg H pts' Y mv st n c r).run f' := by
  cases mv with
  | hash b => rfl
  | factors msg signers => rfl
  | announce i =>
    unfold Spec.ledgerStep
    rw [hp n le_rfl]
    rfl
  | sign i k msg signers =>
    unfold Spec.ledgerStep
    simp only
    by_cases hi : i ∈ H
    · rw [if_pos hi, if_pos hi]
      have e : Spec.takeLast (fun a => decide (pts a = pts ((st.pairs i).getD k.toNat 0))) (st.pairs i) =
          Spec.takeLast (fun a => decide (pts' a = pts' ((st.pairs i).getD k.toNat 0))) (st.pairs i) := by
        refine takeLast_congr _ fun a ha => ?_
        rw [hp a (hst i a ha).le, hp ((st.pairs i).getD k.toNat 0)]
        rw [List.getD_eq_getElem?_getD]
        cases hx : (st.pairs i)[k.toNat]? with
        | none => exact Nat.zero_le _
        | some x => exact (hst i x (List.mem_of_getElem? hx)).le
      rw [e]
      cases (IceFrost.sign (Spec.withTable S (st.board.name S Y msg signers c r).table) dbg ⟨i, 0⟩ msg Y
          ((st.pairs i).map fun _ => Spec.pairOf S 0) k signers).1 with
      | error e => rfl
      | ok v =>
        simp only
        cases ht : Spec.takeLast (fun a => decide (pts' a = pts' ((st.pairs i).getD k.toNat 0))) (st.pairs i) with
        | none => rfl
        | some w =>
          obtain ⟨a, l⟩ := w
          obtain ⟨pre, post, h2, -, -, -⟩ := takeLast_some _ _ _ _ ht
          simp only [Spec.Program.run]
          rw [hf]
          exact hst i a (by rw [h2]; simp)
    · rw [if_neg hi, if_neg hi]
      rfl

/-- What a move names and asks depends on nothing secret, and not on the answer to the question. -/
theorem ledgerStep_asked (S : Suite F G R) (dbg : Bool) (H : List U32) (pts pts' : ℕ → G × G) (Y : G) (mv : Spec.Action G)
    (st : Spec.Ledger F G) (n : ℕ) (c c' : F) (r : U32 → F) (f f' : Spec.Request F G → F) :
    ((Spec.ledgerStep S dbg H pts Y mv st n c r).run f).board.named =
      ((Spec.ledgerStep S dbg H pts' Y mv st n c' r).run f').board.named ∧
    ((Spec.ledgerStep S dbg H pts Y mv st n c r).run f).board.asked =
      ((Spec.ledgerStep S dbg H pts' Y mv st n c' r).run f').board.asked := by
  have key : ∀ (pts : ℕ → G × G) (c : F) (f : Spec.Request F G → F),
      ((Spec.ledgerStep S dbg H pts Y mv st n c r).run f).board.named = (match mv with
        | .hash b => st.board.named ++ [none]
        | .factors msg signers => (st.board.name S Y msg signers 0 r).named
        | .announce i => st.board.named ++ [none]
        | .sign i k msg signers => if i ∈ H then (st.board.name S Y msg signers 0 r).named else st.board.named ++ [none]) ∧
      ((Spec.ledgerStep S dbg H pts Y mv st n c r).run f).board.asked = (match mv with
        | .hash b => if b.isFactor S then st.board.asked ++ [none] else st.board.asked ++ [some b]
        | .factors msg signers => (st.board.name S Y msg signers 0 r).asked
        | .announce i => st.board.asked ++ [none]
        | .sign i k msg signers =>
          if i ∈ H then (st.board.name S Y msg signers 0 r).asked else st.board.asked ++ [none]) := by
    intro pts c f
    cases mv with
    | hash b =>
      show (st.board.hash S b c).named = _ ∧ (st.board.hash S b c).asked = _
      unfold Spec.Board.hash
      by_cases hb : b.isFactor S = true
      · simp only [if_pos hb, and_self]
      · simp only [if_neg hb, and_self]
    | factors msg signers => exact ⟨rfl, rfl⟩
    | announce i => exact ⟨rfl, rfl⟩
    | sign i k msg signers =>
      unfold Spec.ledgerStep
      simp only
      by_cases hi : i ∈ H
      · simp only [if_pos hi]
        cases (IceFrost.sign (Spec.withTable S (st.board.name S Y msg signers c r).table) dbg ⟨i, 0⟩ msg Y
            ((st.pairs i).map fun _ => Spec.pairOf S 0) k signers).1 with
        | error e => exact ⟨rfl, rfl⟩
        | ok v =>
          simp only
          cases Spec.takeLast (fun a => decide (pts a = pts ((st.pairs i).getD k.toNat 0))) (st.pairs i) with
          | none => exact ⟨rfl, rfl⟩
          | some w => exact ⟨rfl, rfl⟩
      · simp only [if_neg hi]
        exact ⟨rfl, rfl⟩
  rw [(key pts c f).1, (key pts c f).2, (key pts' c' f').1, (key pts' c' f').2]
  exact ⟨rfl, rfl⟩

namespace Spec.Insider

variable (B : Spec.Insider Ω F G)

/-- The first `k` moves do not depend on what is drawn later. -/
theorem ledger_congr (S : Suite F G R) (dbg : Bool) (H : List U32) {pts pts' : ℕ → G × G} (Y : G) (ω : Ω) {c c' : ℕ → F}
    {r r' : ℕ → U32 → F} {f f' : Spec.Request F G → F} (k : ℕ) (hc : ∀ a < k, c a = c' a) (hr : ∀ a < k, r a = r' a)
    (hp : ∀ a < k, pts a = pts' a) (hf : ∀ q, q.pair < k → f q = f' q) :
    (B.ledger S dbg H pts Y ω c r k).run f = (B.ledger S dbg H pts' Y ω c' r' k).run f' := by
  induction k with
  | zero => rfl
  | succ k ih =>
    rw [ledger_succ, ledger_succ, ← ih (fun a ha => hc a (by omega)) (fun a ha => hr a (by omega))
      (fun a ha => hp a (by omega)) (fun q hq => hf q (by omega)), hc k (by omega), hr k (by omega)]
    exact ledgerStep_congr S dbg H pts pts' Y _ _ k _ _ f f' (fun a ha => hp a (by omega)) (fun q hq => hf q (by omega))
      fun i a ha => ((B.ledger_kept S dbg H pts Y ω c r f k).kept i a ha).1

/-- Nor does what move `k` names and asks. -/
theorem ledger_asked_congr (S : Suite F G R) (dbg : Bool) (H : List U32) {pts pts' : ℕ → G × G} (Y : G) (ω : Ω)
    {c c' : ℕ → F} {r r' : ℕ → U32 → F} {f f' : Spec.Request F G → F} (k : ℕ) (hc : ∀ a < k, c a = c' a)
    (hr : ∀ a ≤ k, r a = r' a) (hp : ∀ a < k, pts a = pts' a) (hf : ∀ q, q.pair < k → f q = f' q) :
    ((B.ledger S dbg H pts Y ω c r (k + 1)).run f).board.named =
      ((B.ledger S dbg H pts' Y ω c' r' (k + 1)).run f').board.named ∧
    ((B.ledger S dbg H pts Y ω c r (k + 1)).run f).board.asked =
      ((B.ledger S dbg H pts' Y ω c' r' (k + 1)).run f').board.asked := by
  rw [ledger_succ, ledger_succ, ← B.ledger_congr S dbg H Y ω k hc (fun a ha => hr a ha.le) hp hf, hr k le_rfl]
  exact ledgerStep_asked S dbg H pts pts' Y _ _ k _ _ _ f f'

/-- The requests of a game are those recorded. -/
theorem ledger_questions (S : Suite F G R) (dbg : Bool) (H : List U32) (pts : ℕ → G × G) (Y : G) (ω : Ω) (c : ℕ → F)
    (r : ℕ → U32 → F) (f : Spec.Request F G → F) (k : ℕ) :
    (B.ledger S dbg H pts Y ω c r k).questions f = ((B.ledger S dbg H pts Y ω c r k).run f).uses.map Prod.fst := by
  induction k with
  | zero => rfl
  | succ k ih =>
    rw [ledger_succ]
    show ((B.ledger S dbg H pts Y ω c r k).andThen fun st =>
      Spec.ledgerStep S dbg H pts Y (B.move ω st.board.replies) st k (c k) (r k)).questions f = _
    rw [Spec.Program.questions_andThen, ih]
    generalize (B.ledger S dbg H pts Y ω c r k).run f = st
    generalize B.move ω st.board.replies = mv
    cases mv with
    | hash b => exact List.append_nil _
    | factors msg signers => exact List.append_nil _
    | announce i => exact List.append_nil _
    | sign i k' msg signers =>
      unfold Spec.ledgerStep
      simp only
      by_cases hi : i ∈ H
      · simp only [if_pos hi]
        cases (IceFrost.sign (Spec.withTable S (st.board.name S Y msg signers (c k) (r k)).table) dbg ⟨i, 0⟩ msg Y
            ((st.pairs i).map fun _ => Spec.pairOf S 0) k' signers).1 with
        | error e => exact List.append_nil _
        | ok v =>
          simp only
          cases Spec.takeLast (fun a => decide (pts a = pts ((st.pairs i).getD k'.toNat 0))) (st.pairs i) with
          | none => exact List.append_nil _
          | some w =>
            simp only [Spec.Program.run, Spec.Program.questions, Spec.Ledger.use]
            rw [List.map_append]
            rfl
      · simp only [if_neg hi]
        exact List.append_nil _

end Spec.Insider

end IceFrost
