import Verif.Props.ConcurrentFork

/-! # C143: computing discrete logarithms with a forger -/

set_option linter.unusedSectionVars false
set_option linter.unusedSimpArgs false
set_option linter.unusedVariables false

namespace IceFrost

open Finset

variable {F G R : Type} [Field F] [DecidableEq F] [AddCommGroup G] [Module F G] [DecidableEq G]
variable {Ω : Type}

/-! ### Keys and random tapes -/

/-- How the secret of the group and the keys of the honest signers depend on an unknown scalar. -/
structure Spec.Kit (F : Type) where
  scale : F
  shift : F
  keyScale : U32 → F
  keyShift : U32 → F

namespace Spec.Kit

/-- The secret of the group. -/
def secret (kit : Spec.Kit F) (x : F) : F := kit.scale * x + kit.shift

/-- The key of a signer. -/
def key (kit : Spec.Kit F) (x : F) (i : U32) : F := kit.keyScale i * x + kit.keyShift i

/-- The group key. -/
def groupKey (S : Suite F G R) (kit : Spec.Kit F) (X : G) : G := kit.scale • X + kit.shift • S.gen

/-- The public key of a signer. -/
def publicKey (S : Suite F G R) (kit : Spec.Kit F) (X : G) (i : U32) : G := kit.keyScale i • X + kit.keyShift i • S.gen

theorem groupKey_eq (S : Suite F G R) (kit : Spec.Kit F) (x : F) : kit.groupKey S (x • S.gen) = kit.secret x • S.gen := by
  unfold groupKey secret
  rw [add_smul, mul_smul]

theorem publicKey_eq (S : Suite F G R) (kit : Spec.Kit F) (x : F) (i : U32) :
    kit.publicKey S (x • S.gen) i = kit.key x i • S.gen := by
  unfold publicKey key
  rw [add_smul, mul_smul]

end Spec.Kit

/-- What is drawn for a move: fresh binding factors for all indices, and a nonce pair (or its commitments). -/
abbrev Spec.Draw (F P : Type) := (U32 → F) × P

/-- What is drawn from the answer to the question of a move up to the question of the next. -/
abbrev Spec.Cell (F P : Type) := F × Spec.Draw F P

/-- The fresh answers to the questions of the moves. -/
def Spec.answers {P : Type} {N : ℕ} (h : Fin N → Spec.Cell F P) (a : ℕ) : F := if ha : a < N then (h ⟨a, ha⟩).1 else 0

/-- What is drawn for the moves. -/
def Spec.drawn {P : Type} {N : ℕ} (d : Spec.Draw F P) (h : Fin N → Spec.Cell F P) : ℕ → Spec.Draw F P
  | 0 => d
  | a + 1 => if ha : a < N then (h ⟨a, ha⟩).2 else d

/-- Commitments in place of nonces. -/
def Spec.Draw.public (S : Suite F G R) (d : Spec.Draw F (F × F)) : Spec.Draw F (G × G) := (d.1, Spec.commitTo S d.2)

/-- Commitments in place of nonces. -/
def Spec.publicTape (S : Suite F G R) {N : ℕ} (h : Fin N → Spec.Cell F (F × F)) : Fin N → Spec.Cell F (G × G) :=
  fun k => ((h k).1, Spec.Draw.public S (h k).2)

/-- The cells of the first tape before `j` and those of the second from there on. -/
def Spec.joined {P : Type} {N : ℕ} (j : ℕ) (h h' : Fin N → Spec.Cell F P) : Fin N → Spec.Cell F P :=
  fun k => if k.val < j then h k else h' k

theorem answers_public (S : Suite F G R) {N : ℕ} (h : Fin N → Spec.Cell F (F × F)) :
    Spec.answers (Spec.publicTape S h) = Spec.answers h := by
  funext a
  unfold Spec.answers Spec.publicTape
  rfl

theorem drawn_public (S : Suite F G R) {N : ℕ} (d : Spec.Draw F (F × F)) (h : Fin N → Spec.Cell F (F × F)) (a : ℕ) :
    Spec.drawn (Spec.Draw.public S d) (Spec.publicTape S h) a = Spec.Draw.public S (Spec.drawn d h a) := by
  cases a with
  | zero => rfl
  | succ a =>
    show (if ha : a < N then _ else _) = Spec.Draw.public S (if ha : a < N then _ else _)
    split <;> rfl

theorem joined_public (S : Suite F G R) {N : ℕ} (j : ℕ) (h h' : Fin N → Spec.Cell F (F × F)) :
    Spec.joined j (Spec.publicTape S h) (Spec.publicTape S h') = Spec.publicTape S (Spec.joined j h h') := by
  funext k
  unfold Spec.joined Spec.publicTape
  by_cases hk : k.val < j <;> simp only [hk, if_true, if_false]

theorem joined_answers {P : Type} {N : ℕ} (j : ℕ) (h h' : Fin N → Spec.Cell F P) (a : ℕ) (ha : a < j) :
    Spec.answers h a = Spec.answers (Spec.joined j h h') a := by
  unfold Spec.answers Spec.joined
  by_cases hN : a < N <;> simp only [hN, ha, dif_pos, if_true, dite_false]

theorem joined_drawn {P : Type} {N : ℕ} (j : ℕ) (d : Spec.Draw F P) (h h' : Fin N → Spec.Cell F P) (a : ℕ) (ha : a ≤ j) :
    Spec.drawn d h a = Spec.drawn d (Spec.joined j h h') a := by
  cases a with
  | zero => rfl
  | succ a =>
    show (if ha : a < N then _ else _) = (if ha : a < N then _ else _)
    unfold Spec.joined
    have hj : a < j := by omega
    by_cases hN : a < N <;> simp only [hN, hj, dif_pos, if_true, dite_false]

theorem joined_drawn_late {P : Type} {N : ℕ} (j : ℕ) (d : Spec.Draw F P) (h h' : Fin N → Spec.Cell F P) (a : ℕ)
    (ha : j < a) : Spec.drawn d (Spec.joined j h h') a = Spec.drawn d h' a := by
  cases a with
  | zero => omega
  | succ a =>
    show (if ha : a < N then _ else _) = (if ha : a < N then _ else _)
    unfold Spec.joined
    have hj : ¬ a < j := by omega
    by_cases hN : a < N <;> simp only [hN, hj, dif_pos, if_false, dite_false]

/-! ### The solver -/

/-- The response to a request, asked for as a discrete logarithm. -/
def Spec.askFor (pts : ℕ → G × G) (K : U32 → G) (q : Spec.Request F G) : Spec.Program G F F :=
  .ask ((pts q.pair).1 + q.factor • (pts q.pair).2 + q.weight • K q.signer) .done

/-- The response to the same request in the first run. -/
def Spec.cached (j : ℕ) (uses : List (Spec.Request F G × F)) (q : Spec.Request F G) : Option F :=
  if q.pair ≤ j then uses.lookup q else none

/-- The response to a request in the second run. -/
def Spec.askAgain (j : ℕ) (uses : List (Spec.Request F G × F)) (pts : ℕ → G × G) (K : U32 → G) (q : Spec.Request F G) :
    Spec.Program G F F :=
  match Spec.cached j uses q with
  | some z => .done z
  | none => Spec.askFor pts K q

/-- A nonce pair from its commitments and equations `v = d + ρ e`; what the equations do not give is asked for. -/
def Spec.solvePair (P : G × G) : List (F × F) → Spec.Program G F (F × F)
  | [] => .ask P.1 fun d => .ask P.2 fun e => .done (d, e)
  | [(ρ, v)] => .ask P.2 fun e => .done (v - e * ρ, e)
  | (ρ, v) :: (ρ', v') :: _ =>
    let e := (v - v') / (ρ - ρ')
    .done (v - e * ρ, e)

/-- The equation for the nonce pair that follows from a response. -/
def Spec.Kit.equation (kit : Spec.Kit F) (x : F) (y : Spec.Request F G × F) : F × F :=
  (y.1.factor, y.2 - y.1.weight * kit.key x y.1.signer)

/-- The nonce pairs: those of the first tape, and those of the second tape. -/
def Spec.pairLabels (n : ℕ) : List (Bool × ℕ) :=
  (List.range (n + 2)).map (fun a => (false, a)) ++ (List.range (n + 1)).map fun a => (true, a + 1)

/-- The equations of both runs, with the nonce pairs they are for. -/
def Spec.equations (kit : Spec.Kit F) (x : F) (j : ℕ) (uses uses' : List (Spec.Request F G × F)) :
    List ((Bool × ℕ) × (F × F)) :=
  (uses.map fun y => ((false, y.1.pair), kit.equation x y)) ++
    ((uses'.filter fun y => (Spec.cached j uses y.1).isNone).map fun y =>
      ((decide (j < y.1.pair), y.1.pair), kit.equation x y))

/-- The nonce pair, or the commitments, with a label. -/
def Spec.atLabel {P : Type} {N : ℕ} (d : Spec.Draw F P) (h h' : Fin N → Spec.Cell F P) (l : Bool × ℕ) : P :=
  if l.1 then (Spec.drawn d h' l.2).2 else (Spec.drawn d h l.2).2

/-- Given the point `X` and the commitments of nonce pairs, runs the insider twice, where the second run has other
answers from the question of the first forgery on, asks for discrete logarithms in place of the responses of the honest
signers, computes the logarithm of `X` from the two forgeries, and then all nonces. -/
def Spec.Insider.solver (B : Spec.Insider Ω F G) (S : Suite F G R) (dbg : Bool) (H : List U32) (n : ℕ) (kit : Spec.Kit F)
    (ω : Ω) (X : G) (d : Spec.Draw F (G × G)) (h h' : Fin (n + 1) → Spec.Cell F (G × G)) :
    Spec.Program G F (F × List (F × F)) :=
  let Y := kit.groupKey S X
  let K := kit.publicKey S X
  ((B.ledger S dbg H (fun a => (Spec.drawn d h a).2) Y ω (Spec.answers h) (fun a => (Spec.drawn d h a).1) n).translate
    (Spec.askFor (fun a => (Spec.drawn d h a).2) K)).andThen fun st =>
  let o := B.result ω st.board.replies
  let j := st.board.critical S Y o
  let g := Spec.joined j h h'
  ((B.ledger S dbg H (fun a => (Spec.drawn d g a).2) Y ω (Spec.answers g) (fun a => (Spec.drawn d g a).1) n).translate
    (Spec.askAgain j st.uses (fun a => (Spec.drawn d g a).2) K)).andThen fun st' =>
  let o' := B.result ω st'.board.replies
  let x := ((o.2.z - o'.2.z) / (Spec.answers h j - Spec.answers g j) - kit.shift) / kit.scale
  (Spec.Program.each (fun l => Spec.solvePair (Spec.atLabel d h h' l)
    (((Spec.equations kit x j st.uses st'.uses).filter fun e => e.1 = l).map Prod.snd)) (Spec.pairLabels n)).andThen fun us =>
  .done (x, us)

theorem pairLabels_length (n : ℕ) : (Spec.pairLabels n).length = 2 * n + 3 := by
  unfold Spec.pairLabels
  simp
  omega

theorem pairLabels_nodup (n : ℕ) : (Spec.pairLabels n).Nodup := by
  unfold Spec.pairLabels
  rw [List.nodup_append]
  refine ⟨List.nodup_range.map fun a b h => (Prod.mk.inj h).2, List.nodup_range.map fun a b h => ?_, ?_⟩
  · simpa using h
  · intro a ha b hb hab
    obtain ⟨x, -, rfl⟩ := List.mem_map.mp ha
    obtain ⟨y, -, rfl⟩ := List.mem_map.mp hb
    cases hab

/-! ### The number of questions -/

theorem fibre_sum {L V : Type} [DecidableEq L] (labels : List L) (hn : labels.Nodup) (E : List (L × V))
    (hE : ∀ e ∈ E, e.1 ∈ labels) : (labels.map fun l => (E.filter fun e => e.1 = l).length).sum = E.length := by
  have h1 : ∀ l, (E.filter fun e => e.1 = l).length = Multiset.count l ((E.map Prod.fst : List L) : Multiset L) := by
    intro l
    rw [Multiset.coe_count, List.count, List.countP_map, List.countP_eq_length_filter]
    congr 2
  simp only [h1]
  rw [← List.sum_toFinset _ hn, Multiset.sum_count_eq_card]
  · simp
  · intro l hl
    obtain ⟨e, he, rfl⟩ := List.mem_map.mp hl
    exact List.mem_toFinset.mpr (hE e he)

theorem budget {L V : Type} [DecidableEq L] (labels : List L) (hn : labels.Nodup) (E : List (L × V))
    (hE : ∀ e ∈ E, e.1 ∈ labels) (h2 : ∀ l, (E.filter fun e => e.1 = l).length ≤ 2) :
    E.length + (labels.map fun l => 2 - (E.filter fun e => e.1 = l).length).sum = 2 * labels.length := by
  have h1 := fibre_sum labels hn E hE
  rw [← h1]
  clear h1 hE hn
  induction labels with
  | nil => rfl
  | cons l labels ih =>
    simp only [List.map_cons, List.sum_cons, List.length_cons]
    have := h2 l
    omega

theorem solvePair_questions (P : G × G) (E : List (F × F)) (dl : G → F) :
    ((Spec.solvePair P E).questions dl).length = 2 - E.length := by
  match E with
  | [] => rfl
  | [_] => rfl
  | _ :: _ :: _ => simp [Spec.solvePair, Spec.Program.questions]

/-- The equations of one run are for different nonce pairs. -/
theorem equations_labels (kit : Spec.Kit F) (x : F) (j : ℕ) (uses uses' : List (Spec.Request F G × F))
    (h1 : (uses.map fun y => y.1.pair).Nodup) (h2 : (uses'.map fun y => y.1.pair).Nodup) :
    ((uses.map fun y => (((false, y.1.pair), kit.equation x y) : (Bool × ℕ) × (F × F))).map Prod.fst).Nodup ∧
    (((uses'.filter fun y => (Spec.cached j uses y.1).isNone).map fun y =>
      (((decide (j < y.1.pair), y.1.pair), kit.equation x y) : (Bool × ℕ) × (F × F))).map Prod.fst).Nodup := by
  refine ⟨?_, ?_⟩
  · rw [List.map_map]
    exact List.Nodup.of_map Prod.snd (by rw [List.map_map]; exact h1)
  · rw [List.map_map]
    refine List.Nodup.of_map Prod.snd ?_
    rw [List.map_map]
    exact h2.sublist (List.filter_sublist.map _)

theorem fibre_le_one {L V : Type} [DecidableEq L] (E : List (L × V)) (h : (E.map Prod.fst).Nodup) (l : L) :
    (E.filter fun e => e.1 = l).length ≤ 1 := by
  have := List.nodup_iff_count_le_one.mp h l
  rw [List.count, List.countP_map, List.countP_eq_length_filter] at this
  exact this

/-- The solver asks for at most two discrete logarithms for every nonce pair. -/
theorem solver_questions (B : Spec.Insider Ω F G) (S : Suite F G R) (dbg : Bool) (H : List U32) (n : ℕ) (kit : Spec.Kit F)
    (ω : Ω) (X : G) (d : Spec.Draw F (G × G)) (h h' : Fin (n + 1) → Spec.Cell F (G × G)) (dl : G → F) :
    ((B.solver S dbg H n kit ω X d h h').questions dl).length = 2 * (2 * n + 3) := by
  unfold Spec.Insider.solver
  simp only
  rw [Spec.Program.questions_andThen, Spec.Program.questions_andThen, Spec.Program.questions_andThen]
  simp only [Spec.Program.questions, List.append_nil, List.length_append]
  rw [Spec.Program.questions_translate, Spec.Program.questions_translate, Spec.Program.questions_each,
    Spec.Program.run_translate, Spec.Program.run_translate, Spec.Insider.ledger_questions,
    Spec.Insider.ledger_questions]
  set Y := kit.groupKey S X
  set K := kit.publicKey S X
  set f := fun q : Spec.Request F G => (Spec.askFor (fun a => (Spec.drawn d h a).2) K q).run dl with hf
  set st := (B.ledger S dbg H (fun a => (Spec.drawn d h a).2) Y ω (Spec.answers h) (fun a => (Spec.drawn d h a).1) n).run f
    with hst
  set j := st.board.critical S Y (B.result ω st.board.replies) with hj
  set g := Spec.joined j h h'
  set f' := fun q : Spec.Request F G => (Spec.askAgain j st.uses (fun a => (Spec.drawn d g a).2) K q).run dl with hf'
  set st' := (B.ledger S dbg H (fun a => (Spec.drawn d g a).2) Y ω (Spec.answers g) (fun a => (Spec.drawn d g a).1) n).run f'
    with hst'
  have k1 := B.ledger_kept S dbg H (fun a => (Spec.drawn d h a).2) Y ω (Spec.answers h) (fun a => (Spec.drawn d h a).1) f n
  have k2 := B.ledger_kept S dbg H (fun a => (Spec.drawn d g a).2) Y ω (Spec.answers g) (fun a => (Spec.drawn d g a).1) f' n
  rw [← hst] at k1
  rw [← hst'] at k2
  generalize ((B.result ω st.board.replies).2.z - (B.result ω st'.board.replies).2.z) /
    (Spec.answers h j - Spec.answers g j) = y
  set x := (y - kit.shift) / kit.scale
  have e1 : ((st.uses.map Prod.fst).map fun q => ((Spec.askFor (fun a => (Spec.drawn d h a).2) K q).questions dl).length).sum =
      st.uses.length := by
    rw [List.map_map]
    show (st.uses.map fun _ => 1).sum = _
    simp
  have e2 : ((st'.uses.map Prod.fst).map fun q =>
      ((Spec.askAgain j st.uses (fun a => (Spec.drawn d g a).2) K q).questions dl).length).sum =
      (st'.uses.filter fun y => (Spec.cached j st.uses y.1).isNone).length := by
    rw [List.map_map]
    generalize st'.uses = l
    induction l with
    | nil => rfl
    | cons y l ih =>
      rw [List.map_cons, List.sum_cons, ih, List.filter_cons]
      show ((Spec.askAgain j st.uses _ K y.1).questions dl).length + _ = _
      unfold Spec.askAgain
      cases hc : Spec.cached j st.uses y.1 with
      | some z => simp [Spec.Program.questions]
      | none =>
        simp only [Option.isNone_none, if_true, List.length_cons]
        show 1 + _ = _
        omega
  have e3 : ((Spec.pairLabels n).map fun l => ((Spec.solvePair (Spec.atLabel d h h' l)
      (((Spec.equations kit x j st.uses st'.uses).filter fun e => e.1 = l).map Prod.snd)).questions dl).length) =
      (Spec.pairLabels n).map fun l => 2 - ((Spec.equations kit x j st.uses st'.uses).filter fun e => e.1 = l).length := by
    refine List.map_congr_left fun l _ => ?_
    rw [solvePair_questions, List.length_map]
  rw [e1, e2, e3]
  obtain ⟨n1, n2⟩ := equations_labels kit x j st.uses st'.uses k1.once k2.once
  have hb := budget (Spec.pairLabels n) (pairLabels_nodup n) (Spec.equations kit x j st.uses st'.uses) ?_ ?_
  · rw [pairLabels_length] at hb
    rw [← hb]
    unfold Spec.equations
    rw [List.length_append, List.length_map, List.length_map]
    omega
  · intro e he
    unfold Spec.equations at he
    unfold Spec.pairLabels
    rw [List.mem_append] at he ⊢
    rcases he with he | he
    · obtain ⟨y, hy, rfl⟩ := List.mem_map.mp he
      refine Or.inl (List.mem_map.mpr ⟨y.1.pair, List.mem_range.mpr ?_, rfl⟩)
      have := (k1.used y.1 y.2 hy).1
      omega
    · obtain ⟨y, hy, rfl⟩ := List.mem_map.mp he
      have hlt := (k2.used y.1 y.2 (List.mem_filter.mp hy).1).1
      by_cases hjp : j < y.1.pair
      · refine Or.inr (List.mem_map.mpr ⟨y.1.pair - 1, List.mem_range.mpr (by omega), ?_⟩)
        simp only [hjp, decide_true, Prod.mk.injEq, true_and]
        omega
      · refine Or.inl (List.mem_map.mpr ⟨y.1.pair, List.mem_range.mpr (by omega), ?_⟩)
        simp only [hjp, decide_false]
  · intro l
    unfold Spec.equations
    rw [List.filter_append, List.length_append]
    exact Nat.add_le_add (fibre_le_one _ n1 l) (fibre_le_one _ n2 l)

/-! ### The result -/

theorem solvePair_run {S : Suite F G R} (hg : S.GroupLaws) (dl : G → F) (hdl : ∀ P, dl P • S.gen = P) (u : F × F)
    (E : List (F × F)) (h1 : ∀ e ∈ E, e.2 = u.1 + u.2 * e.1) (h2 : E.Pairwise fun e e' => e.1 ≠ e'.1) :
    (Spec.solvePair (Spec.commitTo S u) E).run dl = u := by
  have hl : ∀ y : F, dl (y • S.gen) = y := fun y => hg.gen_inj _ _ (hdl _)
  match E with
  | [] =>
    show (dl (u.1 • S.gen), dl (u.2 • S.gen)) = u
    rw [hl, hl]
  | [(ρ, v)] =>
    show (v - dl (u.2 • S.gen) * ρ, dl (u.2 • S.gen)) = u
    have := h1 (ρ, v) (by simp)
    simp only at this
    rw [hl, this, add_sub_cancel_right]
  | (ρ, v) :: (ρ', v') :: E =>
    have e1 := h1 (ρ, v) (by simp)
    have e2 := h1 (ρ', v') (by simp)
    simp only at e1 e2
    have hne : ρ ≠ ρ' := (List.pairwise_cons.mp h2).1 (ρ', v') (by simp)
    have hne' := sub_ne_zero.mpr hne
    have he : (v - v') / (ρ - ρ') = u.2 := by
      rw [e1, e2, div_eq_iff hne']
      ring
    show (v - (v - v') / (ρ - ρ') * ρ, (v - v') / (ρ - ρ')) = u
    rw [he, e1, add_sub_cancel_right]

theorem fibre_pairwise {L : Type} [DecidableEq L] (E E' : List (L × (F × F))) (h1 : (E.map Prod.fst).Nodup)
    (h2 : (E'.map Prod.fst).Nodup) (h : ∀ e ∈ E, ∀ e' ∈ E', e.1 = e'.1 → e.2.1 ≠ e'.2.1) (l : L) :
    (((E ++ E').filter fun e => e.1 = l).map Prod.snd).Pairwise fun e e' => e.1 ≠ e'.1 := by
  have one : ∀ E : List (L × (F × F)), (E.map Prod.fst).Nodup →
      (E.filter fun e => e.1 = l).Pairwise fun e e' => e.2.1 ≠ e'.2.1 := by
    intro E hE
    have h := fibre_le_one E hE l
    revert h
    generalize (E.filter fun e => e.1 = l) = E
    intro h
    match E, h with
    | [], _ => exact List.Pairwise.nil
    | [_], _ => exact List.pairwise_singleton _ _
    | _ :: _ :: _, h => simp at h
  rw [List.pairwise_map, List.filter_append, List.pairwise_append]
  refine ⟨one E h1, one E' h2, fun e he e' he' => ?_⟩
  rw [List.mem_filter] at he he'
  refine h e he.1 e' he'.1 ?_
  have a1 := he.2
  have a2 := he'.2
  simp only [decide_eq_true_eq] at a1 a2
  rw [a1, a2]

/-- If both runs forge at the same question, with different answers, and binding factors do not coincide, then the solver
finds all discrete logarithms. -/
theorem solver_run {S : Suite F G R} (hd : S.CodecLaws) (hg : S.GroupLaws) (B : Spec.Insider Ω F G) (dbg : Bool)
    (H : List U32) (n : ℕ) (kit : Spec.Kit F) (hs : kit.scale ≠ 0) (ω : Ω) (x : F) (d : Spec.Draw F (F × F))
    (h h' : Fin (n + 1) → Spec.Cell F (F × F)) (dl : G → F) (hdl : ∀ P, dl P • S.gen = P) (j : ℕ) (hjn : j ≤ n)
    (st st' : Spec.Ledger F G)
    (hst : st = B.state dbg H (kit.key x) (kit.groupKey S (x • S.gen)) ω S (Spec.answers h)
      (fun a => (Spec.drawn d h a).1) (fun a => (Spec.drawn d h a).2) n)
    (hst' : st' = B.state dbg H (kit.key x) (kit.groupKey S (x • S.gen)) ω S (Spec.answers (Spec.joined j h h'))
      (fun a => (Spec.drawn d (Spec.joined j h h') a).1) (fun a => (Spec.drawn d (Spec.joined j h h') a).2) n)
    (h1 : st.board.critical S (kit.groupKey S (x • S.gen)) (B.result ω st.board.replies) = j)
    (h2 : st'.board.critical S (kit.groupKey S (x • S.gen)) (B.result ω st'.board.replies) = j)
    (f1 : st.board.Forged S (kit.groupKey S (x • S.gen)) (B.result ω st.board.replies) (Spec.answers h n))
    (f2 : st'.board.Forged S (kit.groupKey S (x • S.gen)) (B.result ω st'.board.replies)
      (Spec.answers (Spec.joined j h h') n))
    (hne : Spec.answers h j ≠ Spec.answers (Spec.joined j h h') j)
    (hb1 : ∀ i ∈ H, ∀ a < n, ∀ b < n, (Spec.drawn d h a).1 i = (Spec.drawn d h b).1 i → a = b)
    (hb2 : ∀ i ∈ H, ∀ a < n, ∀ b < n, j < b → (Spec.drawn d h a).1 i ≠ (Spec.drawn d (Spec.joined j h h') b).1 i) :
    (B.solver S dbg H n kit ω (x • S.gen) (Spec.Draw.public S d) (Spec.publicTape S h) (Spec.publicTape S h')).run dl =
      (x, (Spec.pairLabels n).map (Spec.atLabel d h h')) := by
  set Y := kit.groupKey S (x • S.gen) with hY
  set g := Spec.joined j h h' with hgdef
  have hk : Spec.Fork S j (Spec.answers h) (Spec.answers g) (fun a => (Spec.drawn d h a).1)
      (fun a => (Spec.drawn d g a).1) (fun a => (Spec.drawn d h a).2) (fun a => (Spec.drawn d g a).2) :=
    ⟨fun a ha => joined_answers j h h' a ha, fun a ha => by rw [joined_drawn j d h h' a ha],
      fun a ha => by rw [joined_drawn j d h h' a ha]⟩
  -- answers of the first run
  have hl : ∀ y : F, dl (y • S.gen) = y := fun y => hg.gen_inj _ _ (hdl _)
  have hask : ∀ (u : ℕ → F × F) (q : Spec.Request F G),
      (Spec.askFor (fun a => Spec.commitTo S (u a)) (kit.publicKey S (x • S.gen)) q).run dl =
        Spec.respond (kit.key x) u q := by
    intro u q
    show dl ((u q.pair).1 • S.gen + q.factor • (u q.pair).2 • S.gen + q.weight • _) = _
    rw [Spec.Kit.publicKey_eq, smul_smul, smul_smul, ← add_smul, ← add_smul, hl]
    unfold Spec.respond
    ring
  have k1 := B.ledger_kept S dbg H (fun a => Spec.commitTo S (Spec.drawn d h a).2) Y ω (Spec.answers h)
    (fun a => (Spec.drawn d h a).1) (Spec.respond (kit.key x) fun a => (Spec.drawn d h a).2) n
  have k2 := B.ledger_kept S dbg H (fun a => Spec.commitTo S (Spec.drawn d g a).2) Y ω (Spec.answers g)
    (fun a => (Spec.drawn d g a).1) (Spec.respond (kit.key x) fun a => (Spec.drawn d g a).2) n
  -- answers of the second run
  have hagain : ∀ q : Spec.Request F G, (Spec.askAgain j st.uses (fun a => Spec.commitTo S (Spec.drawn d g a).2)
      (kit.publicKey S (x • S.gen)) q).run dl = Spec.respond (kit.key x) (fun a => (Spec.drawn d g a).2) q := by
    intro q
    unfold Spec.askAgain
    cases hc : Spec.cached j st.uses q with
    | none => exact hask _ q
    | some z =>
      show z = _
      unfold Spec.cached at hc
      split at hc
      · next hp =>
        have hm : (q, z) ∈ st.uses := by
          rw [List.lookup_eq_some_iff] at hc
          obtain ⟨l1, l2, e, -⟩ := hc
          rw [e]
          simp
        rw [hst] at hm
        rw [k1.answer q z hm]
        unfold Spec.respond
        beta_reduce
        rw [show (Spec.drawn d h q.pair) = Spec.drawn d g q.pair from joined_drawn j d h h' _ hp]
      · cases hc
  unfold Spec.Insider.solver
  simp only
  simp only [drawn_public, answers_public]
  rw [Spec.Program.run_andThen, Spec.Program.run_translate]
  have r1 : (B.ledger S dbg H (fun a => (Spec.Draw.public S (Spec.drawn d h a)).2) Y ω (Spec.answers h)
      (fun a => (Spec.Draw.public S (Spec.drawn d h a)).1) n).run (fun q =>
        (Spec.askFor (fun a => (Spec.Draw.public S (Spec.drawn d h a)).2) (kit.publicKey S (x • S.gen)) q).run dl) = st := by
    rw [hst]
    show (B.ledger S dbg H (fun a => Spec.commitTo S (Spec.drawn d h a).2) Y ω (Spec.answers h)
      (fun a => (Spec.drawn d h a).1) n).run (fun q =>
        (Spec.askFor (fun a => Spec.commitTo S (Spec.drawn d h a).2) (kit.publicKey S (x • S.gen)) q).run dl) = _
    rw [funext (hask fun a => (Spec.drawn d h a).2)]
  rw [r1, h1, joined_public, ← hgdef, Spec.Program.run_andThen, Spec.Program.run_translate]
  simp only [drawn_public, answers_public]
  have r2 : (B.ledger S dbg H (fun a => (Spec.Draw.public S (Spec.drawn d g a)).2) Y ω (Spec.answers g)
      (fun a => (Spec.Draw.public S (Spec.drawn d g a)).1) n).run (fun q =>
        (Spec.askAgain j st.uses (fun a => (Spec.Draw.public S (Spec.drawn d g a)).2) (kit.publicKey S (x • S.gen)) q).run
          dl) = st' := by
    rw [hst']
    show (B.ledger S dbg H (fun a => Spec.commitTo S (Spec.drawn d g a).2) Y ω (Spec.answers g)
      (fun a => (Spec.drawn d g a).1) n).run (fun q =>
        (Spec.askAgain j st.uses (fun a => Spec.commitTo S (Spec.drawn d g a).2) (kit.publicKey S (x • S.gen)) q).run dl) = _
    rw [funext hagain]
  rw [r2, Spec.Program.run_andThen, Spec.Program.run_each]
  -- the secret
  have hx : (((B.result ω st.board.replies).2.z - (B.result ω st'.board.replies).2.z) /
      (Spec.answers h j - Spec.answers g j) - kit.shift) / kit.scale = x := by
    have e : _ • S.gen = Y := fork_extract (S := S) B dbg H (kit.key x) Y ω hd hk hjn (by rw [← hst, h1]) (by rw [← hst', h2])
      (by rw [← hst]; exact f1) (by rw [← hst']; exact f2) hne
    rw [← hst, ← hst', hY, Spec.Kit.groupKey_eq] at e
    have := hg.gen_inj _ _ e
    rw [this]
    unfold Spec.Kit.secret
    field_simp
    ring
  rw [hx]
  show (x, _) = _
  congr 1
  refine List.map_congr_left fun l hl => ?_
  -- the nonces with the label `l`
  have hat : Spec.atLabel (Spec.Draw.public S d) (Spec.publicTape S h) (Spec.publicTape S h') l =
      Spec.commitTo S (Spec.atLabel d h h' l) := by
    unfold Spec.atLabel
    rw [drawn_public, drawn_public]
    split <;> rfl
  rw [hat]
  have k1' := k1
  have k2' := k2
  rw [show (B.ledger S dbg H (fun a => Spec.commitTo S (Spec.drawn d h a).2) Y ω (Spec.answers h)
    (fun a => (Spec.drawn d h a).1) n).run (Spec.respond (kit.key x) fun a => (Spec.drawn d h a).2) = st from hst.symm] at k1'
  rw [show (B.ledger S dbg H (fun a => Spec.commitTo S (Spec.drawn d g a).2) Y ω (Spec.answers g)
    (fun a => (Spec.drawn d g a).1) n).run (Spec.respond (kit.key x) fun a => (Spec.drawn d g a).2) = st' from hst'.symm] at k2'
  obtain ⟨n1, n2⟩ := equations_labels kit x j st.uses st'.uses k1'.once k2'.once
  refine solvePair_run hg dl hdl _ _ ?_ ?_
  · intro e he
    obtain ⟨⟨l', e'⟩, he', rfl⟩ := List.mem_map.mp he
    rw [List.mem_filter] at he'
    obtain ⟨he', hl'⟩ := he'
    have hl' : l' = l := by simpa using hl'
    subst hl'
    unfold Spec.equations at he'
    rw [List.mem_append] at he'
    rcases he' with he' | he'
    · obtain ⟨y, hy, hye⟩ := List.mem_map.mp he'
      rw [Prod.mk.injEq] at hye
      obtain ⟨rfl, rfl⟩ := hye
      show y.2 - y.1.weight * kit.key x y.1.signer = (Spec.drawn d h y.1.pair).2.1 + (Spec.drawn d h y.1.pair).2.2 * y.1.factor
      rw [k1'.answer y.1 y.2 hy]
      unfold Spec.respond
      ring
    · obtain ⟨y, hy, hye⟩ := List.mem_map.mp he'
      rw [Prod.mk.injEq] at hye
      obtain ⟨rfl, rfl⟩ := hye
      have hlab : Spec.atLabel d h h' (decide (j < y.1.pair), y.1.pair) = (Spec.drawn d g y.1.pair).2 := by
        unfold Spec.atLabel
        by_cases hjp : j < y.1.pair
        · simp only [hjp, decide_true, if_true]
          rw [hgdef, joined_drawn_late j d h h' _ hjp]
        · simp only [hjp, decide_false]
          rw [joined_drawn j d h h' y.1.pair (by omega)]
          rfl
      rw [hlab]
      show y.2 - y.1.weight * kit.key x y.1.signer = _
      rw [k2'.answer y.1 y.2 (List.mem_filter.mp hy).1]
      unfold Spec.respond Spec.Kit.equation
      ring
  · unfold Spec.equations
    refine fibre_pairwise _ _ n1 n2 ?_ l
    intro e he e' he' hll hfac
    obtain ⟨y, hy, rfl⟩ := List.mem_map.mp he
    obtain ⟨y', hy', rfl⟩ := List.mem_map.mp he'
    simp only [Prod.mk.injEq] at hll
    obtain ⟨hj', hpp⟩ := hll
    have hj'' : y'.1.pair ≤ j := by
      have : ¬ j < y'.1.pair := by simpa using hj'.symm
      omega
    rw [List.mem_filter] at hy'
    have hsame : y.1 = y'.1 := fork_same (S := S) B dbg H (kit.key x) Y ω hd hk hjn (by rw [← hst, h1]) (by rw [← hst', h2])
      (by rw [← hst]; exact f1) (by rw [← hst']; exact f2) hb1 hb2 y.1 y'.1 y.2 y'.2 (by rw [← hst]; exact hy)
      (by rw [← hst']; exact hy'.1) hpp (by omega) hfac
    have hnone := hy'.2
    unfold Spec.cached at hnone
    rw [if_pos hj'', ← hsame] at hnone
    rw [Option.isNone_iff_eq_none, List.lookup_eq_none_iff] at hnone
    have := hnone y hy
    simp at this

end IceFrost
