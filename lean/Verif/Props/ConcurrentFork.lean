import Verif.Props.ConcurrentInvariants

/-! # C143: two runs of the game that part at the question of the forgery -/

set_option linter.unusedSectionVars false
set_option linter.unusedSimpArgs false
set_option linter.unusedVariables false

namespace IceFrost

open Finset

variable {F G R : Type} [Field F] [DecidableEq F] [AddCommGroup G] [Module F G] [DecidableEq G]
variable {Ω : Type}

theorem challengeQuestion_inj {S : Suite F G R} (hd : S.CodecLaws) {P P' Y : G} {m m' : Bytes}
    (h : Spec.challengeQuestion S P Y m = Spec.challengeQuestion S P' Y m') : P = P' ∧ m = m' := by
  have h' : S.encG P ++ S.encG Y ++ m = S.encG P' ++ S.encG Y ++ m' := by
    unfold Spec.challengeQuestion at h
    injection h
  rw [List.append_assoc, List.append_assoc] at h'
  obtain ⟨h1, h2⟩ := hd.encG_append_inj h'
  exact ⟨h1, (hd.encG_append_inj h2).2⟩

theorem idxOf_le {α : Type} [BEq α] [LawfulBEq α] {l : List α} {x : α} {a : ℕ} (h : l[a]? = some x) : l.idxOf x ≤ a := by
  induction l generalizing a with
  | nil => cases h
  | cons y l ih =>
    by_cases hy : y = x
    · rw [hy, List.idxOf_cons_self]
      exact Nat.zero_le _
    · cases a with
      | zero => exact absurd (by simpa using h) hy
      | succ a =>
        rw [List.idxOf_cons_ne _ hy]
        exact Nat.succ_le_succ (ih (by simpa using h))

/-- The move that asked for the challenge of the result, or the number of moves if none did. -/
def Spec.Board.critical (S : Suite F G R) (Y : G) (st : Spec.Board F G) (o : Bytes × ThresholdSignature F G) : ℕ :=
  st.asked.idxOf (some (Spec.resultQuestion S Y o))

/-- The equation of a forgery. -/
theorem forged_equation {S : Suite F G R} {Y : G} {c : ℕ → F} {r : ℕ → U32 → F} {n : ℕ} {st : Spec.Board F G}
    (h : Spec.Sound S Y c r n st.table st.named st.asked) (o : Bytes × ThresholdSignature F G)
    (hf : st.Forged S Y o (c n)) :
    Spec.Schnorr S.gen o.2.groupCommitment Y (c (st.critical S Y o)) o.2.z := by
  have h1 := (verify_iff _ _ _ _).mp hf.1
  unfold Spec.SigValid at h1
  have e := challenge_eq S _ o.2.groupCommitment Y o.1
    (lookup_append_self (T := st.table) (b := Spec.resultQuestion S Y o) (c := c n))
  rw [show Spec.challenge (Spec.withTable S (st.table ++ [(Spec.resultQuestion S Y o,
    (st.table.lookup (Spec.resultQuestion S Y o)).getD (c n))])) o.2.groupCommitment Y o.1 = _ from e] at h1
  have hp := h.plain (Spec.resultQuestion S Y o) (challenge_isFactor S _ _ _)
  have hc : (st.table.lookup (Spec.resultQuestion S Y o)).getD (c n) = c (st.critical S Y o) := by
    rw [hp]
    unfold Spec.Board.critical
    split
    · rfl
    · next hm => rw [Option.getD_none, List.idxOf_eq_length_iff.mpr hm, h.asked_length]
  rw [hc] at h1
  exact h1

/-- Two runs of the game that agree up to the move `j`. -/
structure Spec.Fork (S : Suite F G R) (j : ℕ) (c c' : ℕ → F) (r r' : ℕ → U32 → F) (u u' : ℕ → F × F) : Prop where
  challenges : ∀ a < j, c a = c' a
  factors : ∀ a ≤ j, r a = r' a
  nonces : ∀ a ≤ j, u a = u' a

section fork

variable {S : Suite F G R} (B : Spec.Insider Ω F G) (dbg : Bool) (H : List U32) (key : U32 → F) (Y : G) (ω : Ω)
variable {j n : ℕ} {c c' : ℕ → F} {r r' : ℕ → U32 → F} {u u' : ℕ → F × F}

/-- The state after `n` moves, with the right responses. -/
abbrev Spec.Insider.state (S : Suite F G R) (c : ℕ → F) (r : ℕ → U32 → F) (u : ℕ → F × F) (n : ℕ) : Spec.Ledger F G :=
  (B.ledger S dbg H (fun a => Spec.commitTo S (u a)) Y ω c r n).run (Spec.respond key u)

include B dbg H key Y ω in
theorem fork_state (hk : Spec.Fork S j c c' r r' u u') (k : ℕ) (hkj : k ≤ j) :
    B.state dbg H key Y ω S c r u k = B.state dbg H key Y ω S c' r' u' k := by
  refine B.ledger_congr S dbg H Y ω k (fun a ha => hk.challenges a (by omega)) (fun a ha => hk.factors a (by omega))
    (fun a ha => by rw [hk.nonces a (by omega)]) fun q hq => ?_
  unfold Spec.respond
  rw [hk.nonces q.pair (by omega)]

theorem fork_named (hk : Spec.Fork S j c c' r r' u u') (a : ℕ) (ha : a ≤ j) (han : a < n) :
    (B.state dbg H key Y ω S c r u n).board.named[a]? = (B.state dbg H key Y ω S c' r' u' n).board.named[a]? ∧
    (B.state dbg H key Y ω S c r u n).board.asked[a]? = (B.state dbg H key Y ω S c' r' u' n).board.asked[a]? := by
  have h := B.ledger_asked_congr S dbg H (pts := fun a => Spec.commitTo S (u a)) (pts' := fun a => Spec.commitTo S (u' a))
    (f := Spec.respond key u) (f' := Spec.respond key u') Y ω (c := c) (c' := c') (r := r) (r' := r') a
    (fun b hb => hk.challenges b (by omega)) (fun b hb => hk.factors b (by omega))
    (fun b hb => by rw [hk.nonces b (by omega)]) (fun q hq => by
      unfold Spec.respond
      rw [hk.nonces q.pair (by omega)])
  obtain ⟨d, rfl⟩ : ∃ d, n = a + 1 + d := ⟨n - (a + 1), by omega⟩
  have get : ∀ {α : Type} {l l' : List α}, l <+: l' → a < l.length → l'[a]? = l[a]? := by
    intro α l l' hl hlen
    obtain ⟨t, rfl⟩ := hl
    exact List.getElem?_append_left hlen
  have p1 := B.ledger_prefix S dbg H (fun a => Spec.commitTo S (u a)) Y ω c r (Spec.respond key u) (a + 1) d
  have p2 := B.ledger_prefix S dbg H (fun a => Spec.commitTo S (u' a)) Y ω c' r' (Spec.respond key u') (a + 1) d
  have k1 := B.ledger_kept S dbg H (fun a => Spec.commitTo S (u a)) Y ω c r (Spec.respond key u) (a + 1)
  have k2 := B.ledger_kept S dbg H (fun a => Spec.commitTo S (u' a)) Y ω c' r' (Spec.respond key u') (a + 1)
  refine ⟨?_, ?_⟩
  · rw [get p1.1 (by rw [k1.sound.named_length]; omega), get p2.1 (by rw [k2.sound.named_length]; omega), h.1]
  · rw [get p1.2 (by rw [k1.sound.asked_length]; omega), get p2.2 (by rw [k2.sound.asked_length]; omega), h.2]

/-- Both forgeries answer the same question. -/
theorem fork_question (hk : Spec.Fork S j c c' r r' u u') (hjn : j ≤ n)
    (h1 : (B.state dbg H key Y ω S c r u n).board.critical S Y
      (B.result ω (B.state dbg H key Y ω S c r u n).board.replies) = j)
    (h2 : (B.state dbg H key Y ω S c' r' u' n).board.critical S Y
      (B.result ω (B.state dbg H key Y ω S c' r' u' n).board.replies) = j) :
    Spec.resultQuestion S Y (B.result ω (B.state dbg H key Y ω S c r u n).board.replies) =
      Spec.resultQuestion S Y (B.result ω (B.state dbg H key Y ω S c' r' u' n).board.replies) := by
  rcases hjn.lt_or_eq with hlt | rfl
  · have h := (fork_named B dbg H key Y ω hk j le_rfl hlt).2
    have k1 := (B.ledger_kept S dbg H (fun a => Spec.commitTo S (u a)) Y ω c r (Spec.respond key u) n).sound.asked_length
    have k2 := (B.ledger_kept S dbg H (fun a => Spec.commitTo S (u' a)) Y ω c' r' (Spec.respond key u')
      n).sound.asked_length
    unfold Spec.Board.critical at h1 h2
    have g1 := List.getElem?_idxOf (List.idxOf_lt_length_iff.mp (by rw [h1, k1]; exact hlt))
    have g2 := List.getElem?_idxOf (List.idxOf_lt_length_iff.mp (by rw [h2, k2]; exact hlt))
    rw [h1] at g1
    rw [h2] at g2
    rw [g1, g2] at h
    exact Option.some.inj (Option.some.inj h)
  · rw [fork_state B dbg H key Y ω hk j le_rfl]

/-- The secret of the group from two forgeries. -/
theorem fork_extract (hd : S.CodecLaws) (hk : Spec.Fork S j c c' r r' u u') (hjn : j ≤ n)
    (h1 : (B.state dbg H key Y ω S c r u n).board.critical S Y
      (B.result ω (B.state dbg H key Y ω S c r u n).board.replies) = j)
    (h2 : (B.state dbg H key Y ω S c' r' u' n).board.critical S Y
      (B.result ω (B.state dbg H key Y ω S c' r' u' n).board.replies) = j)
    (f1 : (B.state dbg H key Y ω S c r u n).board.Forged S Y
      (B.result ω (B.state dbg H key Y ω S c r u n).board.replies) (c n))
    (f2 : (B.state dbg H key Y ω S c' r' u' n).board.Forged S Y
      (B.result ω (B.state dbg H key Y ω S c' r' u' n).board.replies) (c' n)) (hne : c j ≠ c' j) :
    (((B.result ω (B.state dbg H key Y ω S c r u n).board.replies).2.z -
      (B.result ω (B.state dbg H key Y ω S c' r' u' n).board.replies).2.z) / (c j - c' j)) • S.gen = Y := by
  have hq := fork_question B dbg H key Y ω hk hjn h1 h2
  have e1 := forged_equation (B.ledger_kept S dbg H _ Y ω c r (Spec.respond key u) n).sound _ f1
  have e2 := forged_equation (B.ledger_kept S dbg H _ Y ω c' r' (Spec.respond key u') n).sound _ f2
  rw [h1] at e1
  rw [h2] at e2
  obtain ⟨hR, -⟩ := challengeQuestion_inj hd hq
  unfold Spec.Schnorr at e1 e2
  have hne' := sub_ne_zero.mpr hne
  have e : (c j - c' j) • Y = ((B.result ω (B.state dbg H key Y ω S c r u n).board.replies).2.z -
      (B.result ω (B.state dbg H key Y ω S c' r' u' n).board.replies).2.z) • S.gen := by
    rw [sub_smul, sub_smul, e1, e2, hR]
    abel
  rw [div_eq_inv_mul, mul_smul, ← e, inv_smul_smul₀ hne']

/-- The move that brought a binding factor that was used. -/
theorem used_factor {f : Spec.Request F G → F} {owner : ℕ → U32 → Prop} {st : Spec.Ledger F G}
    (hk : Spec.Kept S H Y c r f owner n st) (hn : st.board.NoCollision S) (q : Spec.Request F G) (z : F)
    (hq : (q, z) ∈ st.uses) :
    ∃ a < n, st.board.named[a]? = some (some (q.msg, q.signers)) ∧ q.factor = r a q.signer := by
  obtain ⟨h1, -, h3, h4, h5⟩ := hk.request q z hq
  obtain ⟨s, hs, hsi⟩ := List.mem_map.mp h5
  obtain ⟨m, hm⟩ := List.mem_iff_getElem?.mp h3
  have hin := (hk.sound.entry m _ _ hm).1 s hs
  rw [hsi] at hin
  obtain ⟨v, hv⟩ := lookup_mem_some hin
  obtain ⟨a, m', B', e1, e2, e3⟩ := hk.sound.factor _ _ _ _ hv
  obtain ⟨rfl, rfl⟩ := hn m' B' q.msg q.signers q.signer (List.mem_of_getElem? e1) h3 (by
    unfold Spec.factorQuestion at e2
    injection e2)
  refine ⟨a, ?_, e1, ?_⟩
  · rw [← hk.sound.named_length]
    exact (List.getElem?_eq_some_iff.mp e1).1
  · exact (congrArg Spec.Request.factor h1).trans ((rho_eq S _ _ _ _ hv).trans e3)

/-- If a nonce pair is used in both runs with the same binding factor, then the requests are the same. -/
theorem fork_same (hd : S.CodecLaws) (hk : Spec.Fork S j c c' r r' u u') (hjn : j ≤ n)
    (h1 : (B.state dbg H key Y ω S c r u n).board.critical S Y
      (B.result ω (B.state dbg H key Y ω S c r u n).board.replies) = j)
    (h2 : (B.state dbg H key Y ω S c' r' u' n).board.critical S Y
      (B.result ω (B.state dbg H key Y ω S c' r' u' n).board.replies) = j)
    (f1 : (B.state dbg H key Y ω S c r u n).board.Forged S Y
      (B.result ω (B.state dbg H key Y ω S c r u n).board.replies) (c n))
    (f2 : (B.state dbg H key Y ω S c' r' u' n).board.Forged S Y
      (B.result ω (B.state dbg H key Y ω S c' r' u' n).board.replies) (c' n))
    (hb1 : ∀ i ∈ H, ∀ a < n, ∀ b < n, r a i = r b i → a = b)
    (hb2 : ∀ i ∈ H, ∀ a < n, ∀ b < n, j < b → r a i ≠ r' b i) (q q' : Spec.Request F G) (z z' : F)
    (hq : (q, z) ∈ (B.state dbg H key Y ω S c r u n).uses) (hq' : (q', z') ∈ (B.state dbg H key Y ω S c' r' u' n).uses)
    (hpair : q.pair = q'.pair) (hpj : q.pair ≤ j) (hfac : q.factor = q'.factor) : q = q' := by
  have k1 := B.ledger_kept S dbg H (fun a => Spec.commitTo S (u a)) Y ω c r (Spec.respond key u) n
  have k2 := B.ledger_kept S dbg H (fun a => Spec.commitTo S (u' a)) Y ω c' r' (Spec.respond key u') n
  -- the signer is the same
  have hsig : q.signer = q'.signer := by
    have o1 := (k1.used q z hq).2
    have o2 := (k2.used q' z' hq').2
    unfold Spec.Insider.Owner at o1 o2
    have e := fork_state B dbg H key Y ω hk q.pair hpj
    unfold Spec.Insider.state at e
    rw [← hpair, ← e, o1] at o2
    injection o2
  obtain ⟨a, ha, na, ra⟩ := used_factor H Y k1 f1.2.2 q z hq
  obtain ⟨a', ha', na', ra'⟩ := used_factor H Y k2 f2.2.2 q' z' hq'
  have hH := (k1.request q z hq).2.2.2.1
  rw [hfac, ra', ← hsig] at ra
  have haj' : a' ≤ j := by
    by_contra hc
    exact hb2 q.signer hH a ha a' ha' (by omega) ra.symm
  rw [← hk.factors a' haj'] at ra
  have haa := hb1 q.signer hH a' ha' a ha ra
  subst haa
  -- the message and the list are the same
  have hname := (fork_named B dbg H key Y ω hk a' haj' ha).1
  rw [show (B.state dbg H key Y ω S c r u n).board.named[a']? = _ from na,
    show (B.state dbg H key Y ω S c' r' u' n).board.named[a']? = _ from na', Option.some.injEq, Option.some.injEq,
    Prod.mk.injEq] at hname
  obtain ⟨hmsg, hsgn⟩ := hname
  -- the challenge is the same
  have e1 := (k1.sound.entry a' _ _ na).2
  have e2 := (k2.sound.entry a' _ _ na').2
  have hask := (fork_named B dbg H key Y ω hk a' haj' ha).2
  have hQ := hask
  rw [show (B.state dbg H key Y ω S c r u n).board.asked[a']? = _ from e1,
    show (B.state dbg H key Y ω S c' r' u' n).board.asked[a']? = _ from e2, Option.some.injEq, Option.some.injEq] at hQ
  set Q := Spec.challengeQuestion S (Spec.groupCommitment (Spec.withTable S
    (B.state dbg H key Y ω S c r u n).board.table) q.msg q.signers) Y q.msg with hQdef
  have m1 : some Q ∈ (B.state dbg H key Y ω S c r u n).board.asked := List.mem_of_getElem? e1
  have m2 : some Q ∈ (B.state dbg H key Y ω S c' r' u' n).board.asked := by
    rw [hQ]
    exact List.mem_of_getElem? e2
  have l1 := k1.sound.plain Q (challenge_isFactor S _ _ _)
  have l2 := k2.sound.plain Q (challenge_isFactor S _ _ _)
  rw [if_pos m1] at l1
  rw [if_pos m2] at l2
  set d := (B.state dbg H key Y ω S c r u n).board.asked.idxOf (some Q) with hddef
  set d' := (B.state dbg H key Y ω S c' r' u' n).board.asked.idxOf (some Q) with hddef'
  have le_idx : ∀ (l : List (Option Spec.Question)) (x : Option Spec.Question) (a : ℕ), l[a]? = some x → l.idxOf x ≤ a := by
    exact fun l x a h => idxOf_le h
  have hda : d ≤ a' := le_idx _ _ _ e1
  have hda' : d' ≤ a' := le_idx _ _ _ (by rw [hQ]; exact e2)
  have g1 : (B.state dbg H key Y ω S c r u n).board.asked[d]? = some (some Q) := List.getElem?_idxOf m1
  have g2 : (B.state dbg H key Y ω S c' r' u' n).board.asked[d']? = some (some Q) := List.getElem?_idxOf m2
  have hdd : d = d' := by
    apply le_antisymm
    · exact le_idx _ _ _ (((fork_named B dbg H key Y ω hk d' (by omega) (by omega)).2).trans g2)
    · exact le_idx _ _ _ (((fork_named B dbg H key Y ω hk d (by omega) (by omega)).2).symm.trans g1)
  have hdj : d ≠ j := by
    intro hc
    -- the critical question would be for a signed message
    have hm : some (Spec.resultQuestion S Y (B.result ω (B.state dbg H key Y ω S c r u n).board.replies)) ∈
        (B.state dbg H key Y ω S c r u n).board.asked := by
      refine List.idxOf_lt_length_iff.mp ?_
      unfold Spec.Board.critical at h1
      rw [h1, k1.sound.asked_length]
      omega
    have g := List.getElem?_idxOf hm
    unfold Spec.Board.critical at h1
    rw [h1, ← hc, g1, Option.some.injEq, Option.some.injEq] at g
    have := (challengeQuestion_inj hd g).2
    exact f1.2.1 (by rw [← this]; exact (k1.request q z hq).2.1)
  have hcc : c d = c' d' := by
    rw [← hdd]
    exact hk.challenges d (by omega)
  -- and with it the request
  have r1 := (k1.request q z hq).1
  have r2 := (k2.request q' z' hq').1
  have w1 : q.weight = Spec.lagrange (q.signers.map (·.participantIndex)) q.signer * c d :=
    (congrArg Spec.Request.weight r1).trans (congrArg (_ * ·) (challenge_eq S _ _ _ _ l1))
  have w2 : q'.weight = Spec.lagrange (q'.signers.map (·.participantIndex)) q'.signer * c' d' := by
    rw [hQ] at l2
    exact (congrArg Spec.Request.weight r2).trans (congrArg (_ * ·) (challenge_eq S _ _ _ _ l2))
  have hw : q.weight = q'.weight := by rw [w1, w2, hsig, hsgn, hcc]
  cases q
  cases q'
  simp only at hpair hsig hmsg hsgn hfac hw
  rw [hpair, hsig, hmsg, hsgn, hfac, hw]

end fork

end IceFrost
