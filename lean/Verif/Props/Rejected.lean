import Verif.Props.Takeover
import Verif.Props.Exact
import Verif.Toy

/-! # C177: the influence of rejected records -/

set_option linter.unusedSectionVars false
set_option linter.unusedSimpArgs false
set_option linter.unusedVariables false

namespace IceFrost

attribute [local instance] Classical.propDecidable

variable {F G R : Type} [Field F] [DecidableEq F] [AddCommGroup G] [Module F G] [DecidableEq G]

/-- Dealing to others leaves the entry of an index alone. -/
theorem dealShares_frame {S : Suite F G R} (x : F) (i : U32) (cs : List F) (k : U32) (ps : List (Participant F G))
    (hk : ∀ q ∈ ps, q.index ≠ k) (m : BMap EncShare) (rng : R) (m' : BMap EncShare) (rng' : R)
    (h : dealShares S x i (some cs) ps m rng = .ok (m', rng')) : m'.get? k = m.get? k := by
  induction ps generalizing m rng with
  | nil => cases h; rfl
  | cons p ps ih =>
    rw [dealShares] at h
    split at h
    · cases h
    · rw [ih (fun q hq => hk q (List.mem_cons_of_mem _ hq)) _ _ h,
        BMap.get?_insert_of_ne (hk p List.mem_cons_self).symm]

/-- The share under an index is the one encrypted to the last record with that index. -/
theorem dealShares_last {S : Suite F G R} (x : F) (i : U32) (cs : List F) (l1 : List (Participant F G))
    (p : Participant F G) (l2 : List (Participant F G)) (hk : ∀ q ∈ l2, q.index ≠ p.index) (m : BMap EncShare) (rng : R)
    (m' : BMap EncShare) (rng' : R) (h : dealShares S x i (some cs) (l1 ++ p :: l2) m rng = .ok (m', rng')) :
    ∃ e, m'.get? p.index = some e ∧ HonestlyDealt S i p.index x cs p.dhPublicKey e := by
  induction l1 generalizing m rng with
  | nil =>
    rw [List.nil_append, dealShares] at h
    split at h
    · cases h
    · next e r he =>
      refine ⟨e, ?_, rng, r, he⟩
      rw [dealShares_frame x i cs p.index l2 hk _ _ _ _ h, BMap.get?_insert_self]
  | cons q l1 ih =>
    rw [List.cons_append, dealShares] at h
    split at h
    · cases h
    · exact ih _ _ h

/-- The shares of a session are those of the dealing loop over *all* records. -/
theorem newState_dealt_all {S : Suite F G R} (dbg : Bool) (params : Params) (x : F) (i : U32) (cs : List F)
    (ps : List (Participant F G)) (fs : Bool) (rng : R) (d : RoundOne F G) (L : ParticipantList F G) (rng' : R)
    (h : newStateInternal S dbg params x i (some cs) ps true fs rng = .ok ((d, L), rng')) :
    ∃ m r, dealShares S x i (some cs) ps [] rng = .ok (m, r) ∧ d.theirEncryptedSecretShares = .ok m := by
  unfold newStateInternal at h
  simp only [Bool.not_true, Bool.false_and, Bool.false_eq_true, if_false] at h
  split at h
  · cases h
  · split at h
    · cases h
    · split at h
      · cases h
      · split at h
        · cases h
        · next hm =>
          split at h
          · cases h
          · split at h
            · cases h
            · cases h
              exact ⟨_, _, hm, rfl⟩

/-- C177, exactly, for `bootstrap`: the share under an index is encrypted to the Diffie-Hellman key of the last record with
that index, *whether that record was accepted or not*; on file is the key of the last accepted one (`C90_last_record`). -/
theorem C177_last_record_receives {S : Suite F G R} (dbg : Bool) (params : Params) (x : F) (i : U32) (cs : List F)
    (l1 l2 : List (Participant F G)) (p : Participant F G) (hk : ∀ q ∈ l2, q.index ≠ p.index) (rng : R) (d : RoundOne F G)
    (L : ParticipantList F G) (h : bootstrap S dbg params x i cs (l1 ++ p :: l2) rng = .ok (d, L)) :
    ∃ m e, d.theirEncryptedSecretShares = .ok m ∧ m.get? p.index = some e ∧
      HonestlyDealt S i p.index x cs p.dhPublicKey e := by
  unfold bootstrap at h
  cases hs : newStateInternal S dbg params x i (some cs) (l1 ++ p :: l2) true true rng with
  | error f => rw [hs] at h; cases h
  | ok v =>
    obtain ⟨⟨d', L'⟩, r⟩ := v
    rw [hs] at h; cases h
    obtain ⟨m, r', h1, h2⟩ := newState_dealt_all dbg params x i cs _ true rng d L r hs
    obtain ⟨e, h3, h4⟩ := dealShares_last x i cs l1 p l2 hk _ _ _ _ h1
    exact ⟨m, e, h2, h3, h4⟩

/-- C177, what is true: if nobody rejected has the index of somebody accepted, and the accepted indices are distinct, then
everybody accepted is dealt a share that opens with the key on file, to the value of the dealer's polynomial.

Missing for the full C177: rejected records with the index of somebody accepted; see the next theorems. -/
theorem C177_other_indices_partial {S : Suite F G R} (hc : S.CipherLaws) (hd : S.CodecLaws) (dbg : Bool) (params : Params)
    (x : F) (i : U32) (cs : List F) (ps : List (Participant F G)) (rng : R) (d : RoundOne F G) (L : ParticipantList F G)
    (h : bootstrap S dbg params x i cs ps rng = .ok (d, L)) (hn : (L.valid.map (·.index)).Nodup)
    (hr : ∀ q ∈ ps, q ∉ L.valid → q.index ∉ L.valid.map (·.index)) (p : Participant F G) (hp : p ∈ L.valid) :
    d.state.theirDhPublicKeys.get? p.index = some p.dhPublicKey ∧
      ∃ m e, d.theirEncryptedSecretShares = .ok m ∧ m.get? p.index = some e ∧
        ∀ y : F, p.dhPublicKey = y • S.gen →
          decryptShare S e (S.encG (y • (x • S.gen))) = .ok ⟨i, p.index, Spec.polyEval cs (u32F F p.index)⟩ := by
  obtain ⟨k1, _, _, _, _, k6, _⟩ := C20_bootstrap_classifies hc hd dbg params x i cs ps rng d L h
  constructor
  · rw [k6, BMap.get?_ofList (by rw [List.map_map]; exact hn)]
    exact List.mem_map.mpr ⟨p, hp, rfl⟩
  · obtain ⟨m, h1, _, h3, h4⟩ := bootstrap_shares hc hd dbg params x i cs ps rng d L h
    have hpp : p ∈ ps := by rw [k1] at hp; exact (List.mem_filter.mp hp).1
    obtain ⟨e, he⟩ := BMap.exists_get? ((h3 p.index).mpr ⟨p, hpp, rfl⟩)
    obtain ⟨q, hq, hq0, hdt⟩ := h4 _ e he
    have hqv : q ∈ L.valid := by
      by_contra hne
      exact hr q hq hne (hq0 ▸ List.mem_map_of_mem hp)
    have : q = p := List.inj_on_of_nodup_map hn hqv hp hq0
    subst this
    refine ⟨m, e, h1, he, fun y hy => ?_⟩
    have := hdt.2.2.2
    rwa [hy, smul_comm] at this

/-- C177 for `reshare`, exactly: likewise. -/
theorem C177_reshare {S : Suite F G R} (dbg : Bool) (params : Params) (sk : IndividualSigningKey F)
    (l1 l2 : List (Participant F G)) (p : Participant F G) (hk : ∀ q ∈ l2, q.index ≠ p.index) (rng : R)
    (r : Participant F G) (m : BMap EncShare) (L : ParticipantList F G)
    (h : reshare S dbg params sk (l1 ++ p :: l2) rng = .ok (r, m, L)) :
    ∃ x cs e, r.dhPublicKey = x • S.gen ∧ r.commitments = some ⟨sk.index, commitPoints S cs⟩ ∧
      m.get? p.index = some e ∧ HonestlyDealt S sk.index p.index x cs p.dhPublicKey e := by
  by_cases hi : sk.index = 0
  · unfold reshare at h
    rw [newInternal_dealer_eq, if_pos hi] at h; cases h
  by_cases ht : params.t = 0
  · exfalso
    unfold reshare at h
    rw [newInternal_dealer_eq, if_neg hi, ht] at h; cases h
  obtain ⟨p', cs, x, rng', h', h1, h2, h3, h4, h5, h6⟩ :=
    newInternal_dealer S params ht sk.index hi (some sk.key) rng
  unfold reshare at h
  rw [h'] at h
  simp only [] at h
  cases hs : newStateInternal S dbg params x sk.index (some cs) (l1 ++ p :: l2) true false rng' with
  | error f => rw [hs] at h; cases h
  | ok v =>
    obtain ⟨⟨d', L'⟩, r'⟩ := v
    obtain ⟨m', _, q1, q2⟩ := newState_dealt_all dbg params x sk.index cs _ false rng' d' L' r' hs
    rw [hs] at h
    simp only [q2] at h
    cases h
    obtain ⟨e, q3, q4⟩ := dealShares_last x sk.index cs l1 p l2 hk _ _ _ _ q1
    exact ⟨x, cs, e, h5, h4, q3, q4⟩

/-- C177, negation: whoever publishes a record `b` without valid proofs but with the index `v` of a participant gets to
read the shares of `v`, and makes all participants discard each other. The participants `A`, at least `t`, follow the
protocol; everybody rejects `b`, and has the record of `v` on file under `v`. Nevertheless every dealer encrypts the
share for `v` to the key in `b`, so that its owner can read it. If `v` cannot (`hwrong`: what is encrypted to one key does not
open as the same value under another), then `v` complains about everybody. The others have no complaints; they uphold
those of `v`, discard all records, and `finish` returns the neutral element as group key. -/
theorem C177_rejected_record_ends_session {S : Suite F G R} (hS : S.Lawful) (dbg : Bool) (params : Params)
    (ht : params.t ≠ 0) (A : List U32) (hA : A.Nodup) (htA : params.t.toNat ≤ A.length)
    (hlen : A.length + 1 = params.n.toNat) (hrange : ∀ l ∈ A, l.toNat ≤ A.length)
    (P : U32 → Participant F G) (r1 r2 r3 : U32 → R) (coeffs : U32 → List F) (x : U32 → F)
    (hP : ∀ i ∈ A, newDealer S params i (r1 i) = .ok (P i, coeffs i, x i))
    (v : U32) (hv : v ∈ A) (b : Participant F G) (hbi : b.index = v) (hb : ¬ Spec.DhValid S b)
    (hwrong : ∀ l ∈ A, ∀ e, HonestlyDealt S l v (x l) (coeffs l) b.dhPublicKey e →
      ¬ Spec.GoodShare S (x v • x l • S.gen) (commitPoints S (coeffs l)) e)
    (ord ord' : U32 → List U32) (ho : ∀ i ∈ A, (ord i).Perm A) (ho' : ∀ i ∈ A, (ord' i).Perm A) :
    ∃ (d1 : U32 → RoundOne F G) (L : U32 → ParticipantList F G) (E : U32 → U32 → EncShare),
      (∀ i ∈ A, bootstrap S dbg params (x i) i (coeffs i) ((ord i).map P ++ [b]) (r2 i) = .ok (d1 i, L i) ∧
        L i = ⟨(ord i).map P, some [v]⟩ ∧ (d1 i).state.theirDhPublicKeys.get? v = some (x v • S.gen)) ∧
      (∀ l ∈ A, ∃ m, (d1 l).theirEncryptedSecretShares = .ok m ∧ ∀ i ∈ A, m.get? i = some (E l i)) ∧
      (∀ l ∈ A, ∀ z : F, b.dhPublicKey = z • S.gen → decryptShare S (E l v) (S.encG (z • (x l • S.gen))) =
        .ok ⟨l, v, Spec.polyEval (coeffs l) (u32F F v)⟩) ∧
      ∃ cs, (d1 v).toRoundTwo S dbg ((ord' v).map fun l => E l v) (r3 v) = .error (.err (.complaint cs)) ∧
        (∀ l, l ∈ cs.map (·.encShare.senderIndex) ↔ l ∈ A) ∧
        ∀ i ∈ A, i ≠ v → ∃ d2 d3 keys,
          (d1 i).toRoundTwo S dbg ((ord' i).map fun l => E l i) (r3 i) = .ok (d2, []) ∧
          d2.blame S cs = .ok (d3, keys) ∧ (∀ l ∈ A, x l • S.gen ∈ keys) ∧
          d3.state.theirCommitments = some [] ∧ d3.finish = .ok (0, ⟨i, 0⟩) := by
  have hPg := fun i hi => newDealer_good ht (hP i hi)
  have hbG : ¬ GoodDealer S params.t b := fun h => hb h.1.1
  have hPi : ∀ l ∈ A, (P l).index = l := fun l hl => (hPg l hl).2.1
  have hidx : ∀ i ∈ A, ((ord i).map P).map (·.index) = ord i := by
    intro i hi
    rw [List.map_map]
    conv_rhs => rw [← List.map_id (ord i)]
    exact List.map_congr_left fun l hl => hPi l ((ho i hi).mem_iff.mp hl)
  have hf : ∀ i ∈ A, ((ord i).map P ++ [b]).filter (GoodDealer S params.t) = (ord i).map P := by
    intro i hi
    rw [List.filter_append]
    have h1 : ((ord i).map P).filter (fun p => decide (GoodDealer S params.t p)) = (ord i).map P := by
      rw [List.filter_eq_self]
      intro p hp
      obtain ⟨l, hl, rfl⟩ := List.mem_map.mp hp
      exact decide_eq_true (hPg l ((ho i hi).mem_iff.mp hl)).2.2.2.2.2
    rw [h1]
    simp [hbG]
  have hbad : ∀ i ∈ A, ((ord i).map P ++ [b]).filter (fun p => ¬ GoodDealer S params.t p) = [b] := by
    intro i hi
    rw [List.filter_append]
    have h1 : ((ord i).map P).filter (fun p => decide (¬ GoodDealer S params.t p)) = [] := by
      rw [List.filter_eq_nil_iff]
      intro p hp
      obtain ⟨l, hl, rfl⟩ := List.mem_map.mp hp
      simp [(hPg l ((ho i hi).mem_iff.mp hl)).2.2.2.2.2]
    rw [h1]
    simp [hbG]
  have hstart : ∀ i, i ∈ A → ∃ d L comms, bootstrap S dbg params (x i) i (coeffs i) ((ord i).map P ++ [b]) (r2 i) = .ok (d, L) ∧
      L = ⟨(ord i).map P, some [v]⟩ ∧ PublicView S params P A i (x i) d comms := by
    intro i hi
    obtain ⟨⟨d, L⟩, h⟩ := (bootstrap_ok_iff hS.cipher hS.codec dbg params (x i) i (coeffs i) ((ord i).map P ++ [b])
      (r2 i)).mpr ⟨by rw [List.length_append, List.length_map, (ho i hi).length_eq]; exact hlen, ht, by
        intro p hp
        rcases List.mem_append.mp hp with hp | hp
        · obtain ⟨l, hl, rfl⟩ := List.mem_map.mp hp
          exact dealerValid_not_lacks (hPg l ((ho i hi).mem_iff.mp hl)).2.2.2.2.2.1
        · rw [List.mem_singleton] at hp
          subst hp
          exact fun hl => hb hl.1, by rw [hf i hi, List.length_map, (ho i hi).length_eq]; exact htA⟩
    obtain ⟨k1, k2, k3, k4, k5, k6, k7, k8, _⟩ := C20_bootstrap_classifies hS.cipher hS.codec dbg params _ _ _ _ _ _ _ h
    rw [hf i hi] at k1
    rw [if_neg (fun hall => hbG (hall b (by simp))), hbad i hi] at k2
    rw [k1] at k3 k5 k6
    obtain ⟨comms, hview⟩ := publicView_of_records (S := S) params P A hA hPi (ord i) (ho i hi) i (x i) d k3 k4 k5 k6 k7 k8
    refine ⟨d, L, comms, h, ?_, hview⟩
    obtain ⟨Lv, Lm⟩ := L
    simp only at k1 k2
    rw [k1, k2, List.map_cons, List.map_nil, hbi]
  have : Nonempty (ParticipantList F G) := ⟨⟨[], none⟩⟩
  choose! d1 L comms hboot hL hview using hstart
  have hshare : ∀ l ∈ A, ∃ m, (d1 l).theirEncryptedSecretShares = .ok m ∧ ∀ i ∈ A, ∃ e, m.get? i = some e ∧
      HonestlyDealt S l i (x l) (coeffs l) (if i = v then b.dhPublicKey else x i • S.gen) e := by
    intro l hl
    obtain ⟨m, e, h1, h2, h3⟩ := C177_last_record_receives dbg params (x l) l (coeffs l) ((ord l).map P) [] b (by simp)
      (r2 l) (d1 l) (L l) (hboot l hl)
    refine ⟨m, h1, fun i hi => ?_⟩
    by_cases hiv : i = v
    · subst hiv
      rw [hbi] at h2 h3
      exact ⟨e, h2, by rw [if_pos rfl]; exact h3⟩
    · obtain ⟨a1, a2, ha⟩ := List.append_of_mem ((ho l hl).mem_iff.mpr hi)
      have hnd : (a1 ++ i :: a2).Nodup := ha ▸ (ho l hl).nodup_iff.mpr hA
      have hrec : (ord l).map P ++ [b] = a1.map P ++ P i :: (a2.map P ++ [b]) := by rw [ha]; simp
      have hni : ∀ q ∈ a2.map P ++ [b], q.index ≠ (P i).index := by
        intro q hq
        rw [hPi i hi]
        rcases List.mem_append.mp hq with hq | hq
        · obtain ⟨j, hj, rfl⟩ := List.mem_map.mp hq
          have hjA : j ∈ A := (ho l hl).mem_iff.mp (by rw [ha]; simp [hj])
          rw [hPi j hjA]
          rintro rfl
          have := (List.nodup_append.mp hnd).2.1
          exact (List.nodup_cons.mp this).1 hj
        · rw [List.mem_singleton] at hq
          rw [hq, hbi]
          exact fun h => hiv h.symm
      have hb' := hboot l hl
      rw [hrec] at hb'
      obtain ⟨m', e', q1, q2, q3⟩ := C177_last_record_receives dbg params (x l) l (coeffs l) _ _ (P i) hni
        (r2 l) (d1 l) (L l) hb'
      rw [h1] at q1; cases q1
      rw [hPi i hi] at q2 q3
      rw [(hPg i hi).2.2.2.2.1] at q3
      exact ⟨e', q2, by rw [if_neg hiv]; exact q3⟩
  choose! M hM hM' using hshare
  choose! E hE hE' using hM'
  have hopen := fun l (hl : l ∈ A) i (hi : i ∈ A) => honestlyDealt_opens hS.cipher hS.codec (hE' l hl i hi)
  refine ⟨d1, L, E, fun i hi => ⟨hboot i hi, hL i hi, ?_⟩, fun l hl => ⟨M l, hM l hl, fun i hi => hE l hl i hi⟩,
    fun l hl z hz => ?_, ?_⟩
  · rw [((hview i hi).dhs v _)]
    exact ⟨hv, (hPg v hv).2.2.2.2.1⟩
  · obtain ⟨o1, o2, o3⟩ := hopen l hl v hv
    rw [if_pos rfl, hz, smul_comm] at o3
    exact (decryptShare_ok_iff S _ _ _).mpr ⟨_, o3, by rw [o1, o2]⟩
  · -- the victim
    have hbadE : ∀ e ∈ (ord' v).map fun l => E l v, BadFor S (x v) (d1 v).state.theirDhPublicKeys (comms v) e := by
      intro e he
      obtain ⟨l, hl, rfl⟩ := List.mem_map.mp he
      have hl' := (ho' v hv).mem_iff.mp hl
      obtain ⟨o1, _, _⟩ := hopen l hl' v hv
      have hw := hE' l hl' v hv
      rw [if_pos rfl] at hw
      refine ⟨x l • S.gen, ⟨l, commitPoints S (coeffs l)⟩, ?_, ?_, hwrong l hl' _ hw⟩
      · rw [o1, (hview v hv).dhs]; exact ⟨hl', (hPg l hl').2.2.2.2.1⟩
      · rw [o1, (hview v hv).get]; exact ⟨hl', (hPg l hl').2.2.2.1⟩
    have hall : ((ord' v).map fun l => E l v).filter (BadFor S (d1 v).state.dhPrivateKey
        (d1 v).state.theirDhPublicKeys (comms v)) = (ord' v).map fun l => E l v := by
      rw [List.filter_eq_self]
      intro e he
      rw [(hview v hv).dh]
      exact decide_eq_true (hbadE e he)
    have hlv : ((ord' v).map fun l => E l v).length = A.length := by rw [List.length_map, (ho' v hv).length_eq]
    obtain ⟨cs, c1, c2⟩ := toRoundTwo_le S dbg (d1 v) (comms v) (hview v hv).commits (hview v hv).wf.nodup
      ((ord' v).map fun l => E l v) (by rw [hlv, (hview v hv).t]; exact htA)
      (by
        intro e he
        obtain ⟨l, hl, rfl⟩ := List.mem_map.mp he
        have hl' := (ho' v hv).mem_iff.mp hl
        obtain ⟨o1, o2, _⟩ := hopen l hl' v hv
        refine ⟨fun _ => by rw [o2, (hview v hv).index], ?_⟩
        rw [o1]
        exact BMap.mem_keys_of_get? (((hview v hv).dhs l _).mpr ⟨hl', rfl⟩)) (r3 v)
      (by rw [hall, hlv, (hview v hv).n])
    rw [hall] at c1
    have hcl : cs.length = A.length := by rw [c1.length_eq, hlv]
    have ht0 : 0 < params.t.toNat := by
      rcases Nat.eq_zero_or_pos params.t.toNat with h | h
      · exact absurd (UInt32.toNat_inj.mp (by simpa using h)) ht
      · exact h
    rw [if_pos (by rw [hcl, (hview v hv).n, (hview v hv).t]; omega)] at c2
    have hsend : ∀ l, l ∈ cs.map (·.encShare.senderIndex) ↔ l ∈ A := by
      intro l
      rw [List.mem_map]
      constructor
      · rintro ⟨c, hc, rfl⟩
        obtain ⟨e, he, h1, _⟩ := forall₂_mem_left c1 c hc
        obtain ⟨l, hl, rfl⟩ := List.mem_map.mp he
        have hl' := (ho' v hv).mem_iff.mp hl
        rw [h1, (hopen l hl' v hv).1]
        exact hl'
      · intro hl
        obtain ⟨c, hc, h1, _⟩ := forall₂_mem_right c1 (E l v) (List.mem_map.mpr ⟨l, (ho' v hv).mem_iff.mpr hl, rfl⟩)
        exact ⟨c, hc, by rw [h1, (hopen l hl v hv).1]⟩
    refine ⟨cs, c2, hsend, fun i hi hiv => ?_⟩
    -- the others
    obtain ⟨d2, cs', g1, g2, _⟩ := round_two_accepted dbg params P A hA i (x i) (d1 i) (comms i) (hview i hi)
      (fun l hl => ⟨_, (hPg l hl).2.2.2.1⟩) A hA (List.Subset.refl _) htA (fun l => E l i)
      (fun l hl => ⟨(hopen l hl i hi).1, (hopen l hl i hi).2.1⟩)
      (by
        intro l hl c hc
        rw [(hPg l hl).2.2.2.1] at hc; cases hc
        obtain ⟨o1, o2, o3⟩ := hopen l hl i hi
        rw [if_neg hiv, smul_comm] at o3
        refine ⟨_, by rw [(hPg l hl).2.2.2.2.1]; exact o3, ?_⟩
        rw [o2]
        exact (pointEval_commitPoints S _ _).symm) (ord' i) (ho' i hi) (r3 i)
    have hnil : cs' = [] := by
      cases cs' with
      | nil => rfl
      | cons c _ =>
        obtain ⟨l, hl, hl', _⟩ := g2 c List.mem_cons_self
        exact absurd hl hl'
    subst hnil
    obtain ⟨m, hh, hpar, hind, hdhs⟩ := holds_toRoundTwo S dbg (d1 i) (comms i) (hview i hi).commits (hview i hi).wf _ _ _ _ g1
    have hcomms : comms v = comms i := BMap.ext (hview v hv).wf (hview i hi).wf fun k => Option.ext fun c => by
      rw [(hview v hv).get, (hview i hi).get]
    have hdheq : (d1 v).state.theirDhPublicKeys = (d1 i).state.theirDhPublicKeys :=
      BMap.ext (hview v hv).wfd (hview i hi).wfd fun k => Option.ext fun c => by
        rw [(hview v hv).dhs, (hview i hi).dhs]
    obtain ⟨d3, keys, b1, ⟨comms', m', k1, k2, k3, k4⟩, kl, b3, b4, b5⟩ := C39_justified_list S (comms i) d2 m hh cs (by
      intro c hc
      have hcA : c.encShare.senderIndex ∈ A := (hsend _).mp (List.mem_map_of_mem (f := fun c => c.encShare.senderIndex) hc)
      refine ⟨(hPg _ hcA).1, ?_, dbg, d1 v, _, r3 v, cs, .inr c2, hc, hcomms ▸ (hview v hv).commits, by rw [hdhs, hdheq]⟩
      rw [hpar, (hview i hi).n]
      exact hrange _ hcA)
    have hrem : ∀ l ∈ A, ∃ c ∈ cs, l = c.encShare.senderIndex := by
      intro l hl
      obtain ⟨c, hc, h⟩ := List.mem_map.mp ((hsend l).mpr hl)
      exact ⟨c, hc, h.symm⟩
    have hempty : ∀ {α : Type} (m : BMap α), (∀ k, m.get? k = none) → m = [] := by
      intro α m hm
      cases m with
      | nil => rfl
      | cons e m => have := hm e.1; simp [BMap.get?] at this
    have hc' : comms' = [] := hempty _ fun k => by
      rw [k3]
      split
      · rfl
      · next h =>
        rw [Option.eq_none_iff_forall_ne_some]
        exact fun c hc => h (hrem k (((hview i hi).get k c).mp hc).1)
    have hm' : m' = [] := hempty _ fun k => by
      rw [k4]
      split
      · rfl
      · next h =>
        rw [Option.eq_none_iff_forall_ne_some]
        intro s hs
        obtain ⟨q1, _, _⟩ := roundTwo_stored S dbg (d1 i) (comms i) (hview i hi).commits (hview i hi).wf.nodup _ _ d2 [] g1
        have hms := hh.shares
        rw [q1] at hms
        cases hms
        obtain ⟨e, he, hes⟩ := List.mem_filterMap.mp (BMap.mem_of_get?_ofList hs)
        obtain ⟨l, hl, rfl⟩ := List.mem_map.mp he
        obtain ⟨_, _, _, _, rfl, _⟩ := opened_eq_some.mp hes
        have hl' := (ho' i hi).mem_iff.mp hl
        exact h (hrem _ (by rw [(hopen l hl' i hi).1]; exact hl'))
    subst hc' hm'
    refine ⟨d2, d3, keys, g1, b1, fun l hl => ?_, k1.commits, ?_⟩
    · rw [b5, List.mem_filterMap]
      exact ⟨l, (b4 l).mpr (hrem l hl), by rw [hdhs, (hview i hi).dhs]; exact ⟨hl, (hPg l hl).2.2.2.2.1⟩⟩
    · unfold RoundTwo.finish RoundTwo.calculateSigningKey
      rw [k1.shares]
      unfold RoundTwo.calculateGroupKey
      simp only [BMap.keys, List.map_nil, signingKeyLoop, k1.commits, groupKeyLoop]
      rw [k2, show d2.state.index = i from hind.trans (hview i hi).index]
      rfl

/-! ### A concrete case -/

open Toy

/-- In the toy suite a share that is encrypted to one key does not open under another. -/
theorem toy_wrong_key (l j : U32) (x : Fp) (cs : List Fp) (pk shared : Fp) (h : shared ≠ x • pk) (e : EncShare)
    (he : HonestlyDealt suite l j x cs pk e) (pts : List Fp) : ¬ Spec.GoodShare suite shared pts e := by
  obtain ⟨rng, rng', he⟩ := he
  rintro ⟨v, ⟨key, pt, rest, h1, h2, h3⟩, _⟩
  cases he
  cases h1
  have h2 : (if (enc shared ++ _) <+: (enc (x • pk) ++ _ ++ _) then some _ else none) = some pt := h2
  split at h2
  · next hp =>
    obtain ⟨q, hq⟩ := hp
    simp only [List.append_assoc] at hq
    have := List.append_inj_left hq (by rw [enc_length, enc_length])
    have h4 := dec_enc shared []
    rw [this, dec_enc] at h4
    cases h4
    exact h rfl
  · cases h2

/-- For every index and key there is an invalid proof. -/
theorem invalid_proof (S : Suite F G R) (i : U32) (y : F) : ∃ pf, ¬ Spec.PokValid S i (y • S.gen) pf := by
  generalize hH : S.fieldHash (S.contextString ++ strBytes "nizkpok") (u32le i ++ S.encG (y • S.gen) ++ S.encG 0) = H
  refine ⟨⟨H + 1, (H + 1) * y⟩, fun h => ?_⟩
  unfold Spec.PokValid at h
  simp only [mul_smul, sub_self, hH] at h
  exact one_ne_zero (add_eq_left.mp h)

/-- The hypotheses of `C177_rejected_record_ends_session`: three participants and a rejected record with the index of the
second one. -/
theorem toy_rejected : ∃ (P : U32 → Participant Fp Fp) (coeffs : U32 → List Fp) (x : U32 → Fp) (b : Participant Fp Fp),
    (∀ i ∈ [1, 2, 3], newDealer suite ⟨4, 2⟩ i 0 = .ok (P i, coeffs i, x i)) ∧ b.index = 2 ∧ ¬ Spec.DhValid suite b ∧
    ∀ l ∈ ([1, 2, 3] : List U32), ∀ e, HonestlyDealt suite l 2 (x l) (coeffs l) b.dhPublicKey e →
      ¬ Spec.GoodShare suite (x 2 • x l • suite.gen) (commitPoints suite (coeffs l)) e := by
  have hd : ∀ i, i ∈ ([1, 2, 3] : List U32) → ∃ p cs, newDealer suite ⟨4, 2⟩ i 0 = .ok (p, cs, (7 : Fp)) := by
    intro i hi
    have hi0 : i ≠ 0 := by rintro rfl; simp at hi
    obtain ⟨p, cs, d, h, _⟩ := C16_new_dealer suite ⟨4, 2⟩ (by decide) i hi0 0
    have hd : d = 7 := by
      unfold newDealer at h
      rw [newInternal_dealer_eq, if_neg hi0] at h
      simp only at h
      split at h
      · cases h
      · next hx =>
        split at hx
        · cases hx
        · split at hx
          · cases hx
          · cases hx; cases h; rfl
      · cases h
    exact ⟨p, cs, hd ▸ h⟩
  choose! P cs hP using hd
  obtain ⟨pf, hpf⟩ := invalid_proof suite 2 8
  rw [smul_gen] at hpf
  refine ⟨P, cs, fun _ => 7, ⟨2, 8, none, none, pf⟩, hP, rfl, hpf, fun l hl e he => ?_⟩
  refine toy_wrong_key l 2 7 (cs l) 8 _ ?_ e he _
  rw [smul_gen]
  show (7 : Fp) • (7 : Fp) ≠ (7 : Fp) • (8 : Fp)
  decide +kernel

/-- So the first participant ends with the neutral element as group key. -/
example : ∃ (d1 : RoundOne Fp Fp) (L : ParticipantList Fp Fp) (ps : List (Participant Fp Fp)) (x : Fp) (c : List Fp),
    bootstrap suite true ⟨4, 2⟩ x 1 c ps 0 = .ok (d1, L) ∧ L.misbehaving = some [2] ∧
    ∃ es d2 cs d3 keys, d1.toRoundTwo suite true es 0 = .ok (d2, []) ∧ d2.blame suite cs = .ok (d3, keys) ∧
      d3.finish = .ok ((0 : Fp), ⟨1, 0⟩) := by
  obtain ⟨P, c, x, b, h1, h2, h3, h4⟩ := toy_rejected
  obtain ⟨d1, L, E, k1, _, _, cs, _, _, k2⟩ := C177_rejected_record_ends_session lawful true ⟨4, 2⟩ (by decide) [1, 2, 3]
    (by decide) (by decide) (by decide) (by decide) P (fun _ => 0) (fun _ => 0) (fun _ => 0) c x h1 2 (by decide) b h2 h3 h4
    (fun _ => [1, 2, 3]) (fun _ => [1, 2, 3]) (fun _ _ => .refl _) (fun _ _ => .refl _)
  obtain ⟨g1, g2, _⟩ := k1 1 (by decide)
  obtain ⟨d2, d3, keys, q1, q2, _, _, q3⟩ := k2 1 (by decide) (by decide)
  exact ⟨_, _, _, _, _, g1, by rw [g2], _, d2, cs, d3, keys, q1, q2, q3⟩

/-- A session with a rejected record that has an index of its own: `C177_other_indices_partial` applies. -/
example : ∃ (ps : List (Participant Fp Fp)) (d : RoundOne Fp Fp) (L : ParticipantList Fp Fp),
    bootstrap suite true ⟨3, 2⟩ 5 1 [8, 9] ps 0 = .ok (d, L) ∧ L.misbehaving = some [7] ∧ (L.valid.map (·.index)).Nodup ∧
      (∀ q ∈ ps, q ∉ L.valid → q.index ∉ L.valid.map (·.index)) ∧ L.valid.length = 2 := by
  obtain ⟨p1, p2, p3, k1, k2, k3, h⟩ := toy_dealers
  have hg : ∀ p ∈ [p1, p2, p3], GoodDealer suite 2 p := fun p hp => by
    obtain ⟨i, rng, cs, dh, h⟩ := h p hp
    exact (newDealer_good (params := ⟨3, 2⟩) (by decide) h).2.2.2.2.2
  have g1 := hg p1 (by simp)
  have g2 := hg p2 (by simp)
  let q : Participant Fp Fp := ⟨7, 1, none, none, ⟨0, 0⟩⟩
  have hq : ¬ GoodDealer suite 2 q := by
    rintro ⟨⟨_, c, _, _, hc, _⟩, _⟩; cases hc
  have hf : [p1, p2, q].filter (GoodDealer suite 2) = [p1, p2] := by
    simp [List.filter_cons, g1, g2, hq]
  obtain ⟨⟨d, L⟩, hb⟩ := (bootstrap_ok_iff cipher_laws codec_laws true ⟨3, 2⟩ 5 1 [8, 9] [p1, p2, q] 0).mpr
    ⟨rfl, (by decide : (2 : U32) ≠ 0), by
      intro p hp
      simp only [List.mem_cons, List.not_mem_nil, or_false] at hp
      rcases hp with rfl | rfl | rfl
      · exact dealerValid_not_lacks g1.1
      · exact dealerValid_not_lacks g2.1
      · rintro ⟨_, _, c, _, hc, _⟩; (cases hc), by show 2 ≤ _; rw [hf]; exact le_rfl⟩
  obtain ⟨a1, a2, _⟩ := C20_bootstrap_classifies cipher_laws codec_laws true _ _ _ _ _ _ d L hb
  have a1 : L.valid = [p1, p2] := a1.trans hf
  refine ⟨_, d, L, hb, ?_, ?_, ?_, by rw [a1]; rfl⟩
  · rw [a2, if_neg (fun hall => hq (hall q (by simp)))]
    simp [List.filter_cons, g1, g2, hq, q]
  · rw [a1]; simp [k1, k2]
  · rw [a1]
    intro r hr hr'
    simp only [List.mem_cons, List.not_mem_nil, or_false] at hr hr'
    rcases hr with rfl | rfl | rfl
    · exact absurd (.inl rfl) hr'
    · exact absurd (.inr rfl) hr'
    · simp [k1, k2, q]

end IceFrost
