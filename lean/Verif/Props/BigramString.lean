import Verif.Lemmas.BigramString
import Verif.Props.Emission
/-!
Properties of the bigram string emission: C59, and its part of C43 and C44.
-/
namespace Verif
noncomputable section
namespace BigramString

theorem charNat {n : Nat} (h : n < 128) : (Char.ofNat n).toNat = n := by
  unfold Char.ofNat
  rw [dif_pos (Or.inl (by omega))]
  unfold Char.ofNatAux Char.toNat
  simp

/-! ### C59 -/

/-- Incorporating a pair of printable strings with any weight always succeeds and counts every character: the weight is added to the
emission's count, once per occurrence to each clean character, once per occurrence to each dirty character, and once per clean
character to the decisions not to insert. -/
theorem C59_accounts {s : BigramString} (h : Reach s) {clean dirty : List Char} (hc : Printable clean) (hd : Printable dirty) (w : ℝ) :
    ∃ s', s.incorporate (clean, dirty) w = .ok s' ∧ s'.N = s.N + w ∧
      (∀ c : Char, 32 ≤ c.toNat → s'.cleanSeen c = s.cleanSeen c + w * clean.count c) ∧
      (∀ c : Char, 32 ≤ c.toNat → s'.dirtySeen c = s.dirtySeen c + w * dirty.count c) ∧
      s'.nonInsertions = s.nonInsertions + w * clean.length := by
  obtain ⟨s', h1, h2⟩ := incorporate_ok h.wf (x := (clean, dirty)) hc hd w
  exact ⟨s', h1, h2.N, h2.clean, h2.dirty, h2.non⟩

/-- `unincorporate` after `incorporate` restores these totals (it need not restore the tables behind them: the weights of the
alignments are computed anew from the changed tables). -/
theorem C59_totals_restored {s s1 s2 : BigramString} (h : Reach s) {clean dirty : List Char} (hc : Printable clean) (hd : Printable dirty)
    (h1 : s.incorporate (clean, dirty) 1 = .ok s1) (h2 : s1.incorporate (clean, dirty) (-1) = .ok s2) :
    s2.N = s.N ∧ (∀ c : Char, 32 ≤ c.toNat → s2.cleanSeen c = s.cleanSeen c) ∧
      (∀ c : Char, 32 ≤ c.toNat → s2.dirtySeen c = s.dirtySeen c) ∧ s2.nonInsertions = s.nonInsertions := by
  obtain ⟨s1', e1, a1, a2, a3, a4⟩ := C59_accounts h hc hd 1
  rw [h1] at e1
  injection e1 with e1
  subst e1
  obtain ⟨s2', e2, b1, b2, b3, b4⟩ := C59_accounts (.incorporate h hc hd h1) hc hd (-1)
  rw [h2] at e2
  injection e2 with e2
  subst e2
  refine ⟨by rw [b1, a1]; ring, ?_, ?_, by rw [b4, a4]; ring⟩
  · intro c hc'; rw [b2 c hc', a2 c hc']; ring
  · intro c hc'; rw [b3 c hc', a3 c hc']; ring

/-- The weight is shared among the alignments in the wrong direction: an alignment with a strictly higher cost (a strictly lower
probability) gets strictly more of a positive weight. -/
theorem C59_worse_alignment_gets_more {w : ℝ} (hw : 0 < w) {as : List StrAlignment} {a b : StrAlignment} {wa wb : ℝ}
    (ha : (a, wa) ∈ alignmentWeights w as) (hb : (b, wb) ∈ alignmentWeights w as) (hcost : a.cost < b.cost) : wa < wb := by
  unfold alignmentWeights at ha hb
  obtain ⟨a', ha', e⟩ := List.mem_map.mp ha
  obtain ⟨b', hb', e'⟩ := List.mem_map.mp hb
  injection e with e1 e2
  injection e' with e1' e2'
  subst e1 e2 e1' e2'
  have hpos : 0 < (as.map fun a => Real.exp a.cost).sum := by
    apply List.sum_pos
    · intro x hx
      obtain ⟨a, -, rfl⟩ := List.mem_map.mp hx
      exact Real.exp_pos _
    · simpa using List.ne_nil_of_mem ha'
  exact div_lt_div_of_pos_right (mul_lt_mul_of_pos_left (Real.exp_lt_exp.mpr hcost) hw) hpos

/-- The hypotheses are met: a fresh emission and two different printable strings; two alignments of different cost. -/
example : Reach init ∧ Printable "hello".toList ∧ Printable "yellow".toList :=
  ⟨.init, by unfold Printable; decide, by unfold Printable; decide⟩

example : ∀ a ∈ [(⟨1, 1, 1, [.sub 'a' 'b']⟩ : StrAlignment), ⟨2, 1, 1, [.del 'a', .ins 'b']⟩],
    ∃ w, (a, w) ∈ alignmentWeights 1 [⟨1, 1, 1, [.sub 'a' 'b']⟩, ⟨2, 1, 1, [.del 'a', .ins 'b']⟩] := by
  intro a ha
  exact ⟨_, List.mem_map.mpr ⟨a, ha, rfl⟩⟩

/-- `get_index` and `category_to_char` are inverse on the printable characters. -/
theorem C59_index_inverse : (∀ c : Char, 32 ≤ c.toNat → c.toNat ≤ 126 → categoryToChar (getIndex c).toNat = [c]) ∧
    ∀ k : Nat, 1 ≤ k → k < 96 → ∃ c : Char, categoryToChar k = [c] ∧ getIndex c = k ∧ 32 ≤ c.toNat ∧ c.toNat ≤ 126 := by
  constructor
  · intro c h1 h2
    have hk : (getIndex c).toNat = c.toNat - 31 := by unfold getIndex; omega
    unfold categoryToChar
    rw [hk, if_neg (by omega)]
    have : 32 + (c.toNat - 31 - 1) = c.toNat := by omega
    rw [this, Char.ofNat_toNat]
  · intro k h1 h2
    refine ⟨Char.ofNat (32 + (k - 1)), by unfold categoryToChar; rw [if_neg (by omega)], ?_⟩
    have hv : (Char.ofNat (32 + (k - 1))).toNat = 32 + (k - 1) := charNat (by omega)
    unfold getIndex
    rw [hv]
    omega

/-! ### C43 -/

/-- `logp` is the gain in score of incorporating the pair and leaves the emission unchanged; it is defined for all printable strings. -/
theorem C43_bigram_score_ratio {s : BigramString} (h : Reach s) {clean dirty : List Char} (hc : Printable clean) (hd : Printable dirty) :
    ∃ lp s', BigramStringEmission.logp s (clean, dirty) = .ok (lp, s) ∧ BigramStringEmission.incW s (clean, dirty) 1 = .ok s' ∧
      BigramStringEmission.score s' = BigramStringEmission.score s + lp := by
  obtain ⟨s', h1, -⟩ := incorporate_ok h.wf (x := (clean, dirty)) hc hd 1
  refine ⟨s'.logpScore - s.logpScore, s', ?_, h1, ?_⟩
  · have : s.logp (clean, dirty) = .ok (s'.logpScore - s.logpScore) := by simp only [logp, bind, Except.bind, h1]
    show (do let lp ← s.logp (clean, dirty); .ok (lp, s)) = _
    rw [this]
    rfl
  · show s'.logpScore = s.logpScore + (s'.logpScore - s.logpScore)
    ring

theorem insertLoop_printable {d : DirichletCategorical} (hd : d.counts.length = 96) (t : Tape) : Printable (insertLoop d t).1 := by
  have hcat : ∀ k, k < 96 → Printable (categoryToChar k) := by
    intro k hk
    unfold categoryToChar
    split
    · intro c hc; simp at hc
    · intro c hc
      simp at hc
      subst hc
      have hv : (Char.ofNat (32 + (k - 1))).toNat = 32 + (k - 1) := charNat (by omega)
      rw [hv]
      omega
  have hs : ∀ t, (d.sample t).1 < 96 := by
    intro t
    have := draw_lt (n := d.counts.length) (by omega) t
    unfold DirichletCategorical.sample
    omega
  induction t with
  | nil => exact hcat _ (hs [])
  | cons n t ih =>
    unfold insertLoop
    simp only
    split
    · intro c hc; simp at hc
    · intro c hc
      rcases List.mem_append.mp hc with h | h
      · exact hcat _ (hs _) c h
      · exact ih c h

theorem corruptLoop_printable {s : BigramString} (hs : WF s) (cs : List Char) (hcs : Printable cs) (cur : Option Char) (hcur : CtxOk cur)
    (t : Tape) : ∃ r t', corruptLoop s cur cs t = .ok (r, t') ∧ Printable r := by
  induction cs generalizing cur t with
  | nil =>
    obtain ⟨hlt, h⟩ := vecAt_ok hs.ins (idx_ctx hcur)
    refine ⟨_, _, by unfold corruptLoop; simp only [bind, Except.bind, h]; rfl, ?_⟩
    exact insertLoop_printable (hs.ins.2 _ (List.getElem_mem hlt)) t
  | cons c cs ih =>
    have hcc := hcs c (by simp)
    obtain ⟨hlt, h⟩ := vecAt_ok hs.ins (idx_ctx hcur)
    obtain ⟨hlt', h'⟩ := vecAt_ok hs.sub (idx_char hcc).1
    have hd := hs.sub.2 _ (List.getElem_mem hlt')
    obtain ⟨t1, ht1⟩ : ∃ t1, t1 = (insertLoop s.insertions[(ctxIndex cur).toNat] t).2 := ⟨_, rfl⟩
    obtain ⟨r, t', hr, hp⟩ := ih (fun e he => hcs e (by simp [he])) (some c) (by intro e he; injection he with he; subst he; exact hcc)
      (s.substitutions[(getIndex c).toNat].sample t1).2
    refine ⟨(insertLoop s.insertions[(ctxIndex cur).toNat] t).1 ++ categoryToChar (s.substitutions[(getIndex c).toNat].sample t1).1 ++ r, t', ?_, ?_⟩
    · unfold corruptLoop
      simp only [bind, Except.bind, h, h']
      rw [← ht1, hr]
    · intro e he
      rcases List.mem_append.mp he with he | he
      · rcases List.mem_append.mp he with he | he
        · exact insertLoop_printable (hs.ins.2 _ (List.getElem_mem hlt)) t e he
        · have hk : (s.substitutions[(getIndex c).toNat].sample t1).1 < 96 := by
            have := draw_lt (n := s.substitutions[(getIndex c).toNat].counts.length) (by omega) t1
            unfold DirichletCategorical.sample
            omega
          by_cases h0 : (s.substitutions[(getIndex c).toNat].sample t1).1 = 0
          · rw [h0] at he; simp [categoryToChar] at he
          · obtain ⟨d, hd1, -, hd2⟩ := C59_index_inverse.2 _ (by omega) hk
            rw [hd1] at he
            simp at he
            subst he
            exact hd2
      · exact hp e he

/-- Corrupting a printable string always succeeds and gives a printable string, hence one that can be incorporated. -/
theorem C43_bigram_corrupt {s : BigramString} (h : Reach s) {clean : List Char} (hc : Printable clean) (t : Tape) :
    ∃ dirty t', s.sampleCorrupted clean t = .ok (dirty, t') ∧ Printable dirty ∧ ∃ s', s.incorporate (clean, dirty) 1 = .ok s' := by
  obtain ⟨dirty, t', h1, h2⟩ := corruptLoop_printable h.wf clean hc none (by intro c hc; cases hc) t
  obtain ⟨s', h3, -⟩ := C59_accounts h hc h2 1
  exact ⟨dirty, t', h1, h2, s', h3⟩

/-! ### C44 -/

theorem voteChar_ok {s : BigramString} (hs : WF s) {left : Option Char} (hl : CtxOk left) (lw1 lw2 : ℝ) {p : AlignPiece} (hp : PieceOk p) :
    ∃ o, voteChar s left lw1 lw2 p = .ok o ∧ ∀ c, o = some c → c ∈ p.clean ++ p.dirty := by
  classical
  cases p with
  | del c =>
    have hc := (idx_char (hp c (by simp [AlignPiece.clean]))).1
    obtain ⟨a, ha⟩ := vecLogp_ok hs.sub hc idx_zero
    obtain ⟨b, hb⟩ := vecLogp_ok hs.ins (idx_ctx hl) hc
    refine ⟨_, by simp only [voteChar, bind, Except.bind, ha, hb]; rfl, ?_⟩
    intro d hd
    split at hd
    · injection hd with hd; subst hd; simp [AlignPiece.clean]
    · cases hd
  | ins c =>
    have hc := (idx_char (hp c (by simp [AlignPiece.dirty]))).1
    obtain ⟨a, ha⟩ := vecLogp_ok hs.sub hc idx_zero
    obtain ⟨b, hb⟩ := vecLogp_ok hs.ins (idx_ctx hl) hc
    refine ⟨_, by simp only [voteChar, bind, Except.bind, ha, hb]; rfl, ?_⟩
    intro d hd
    split at hd
    · injection hd with hd; subst hd; simp [AlignPiece.dirty]
    · cases hd
  | sub o r =>
    have ho := (idx_char (hp o (by simp [AlignPiece.clean]))).1
    have hr := (idx_char (hp r (by simp [AlignPiece.dirty]))).1
    obtain ⟨a, ha⟩ := vecLogp_ok hs.sub ho hr
    obtain ⟨b, hb⟩ := vecLogp_ok hs.sub hr ho
    refine ⟨_, by simp only [voteChar, bind, Except.bind, ha, hb]; rfl, ?_⟩
    intro d hd
    injection hd with hd
    subst hd
    split <;> simp [AlignPiece.clean, AlignPiece.dirty]
  | mat c =>
    refine ⟨some c, rfl, ?_⟩
    intro d hd
    injection hd with hd
    subst hd
    simp [AlignPiece.clean]

theorem voteLoop_ok {s : BigramString} (hs : WF s) {left : Option Char} (hl : CtxOk left) (lw1 lw2 : ℝ) {ps : List AlignPiece}
    (hp : ∀ p ∈ ps, PieceOk p) : ∃ r, voteLoop s lw1 lw2 left ps = .ok r ∧ ∀ c ∈ r, ∃ p ∈ ps, c ∈ p.clean ++ p.dirty := by
  induction ps generalizing left with
  | nil => exact ⟨[], rfl, by simp⟩
  | cons p ps ih =>
    obtain ⟨o, h1, h2⟩ := voteChar_ok hs hl lw1 lw2 (hp p (by simp))
    cases o with
    | none =>
      obtain ⟨r, h3, h4⟩ := ih hl (fun q hq => hp q (by simp [hq]))
      refine ⟨r, by simp only [voteLoop, bind, Except.bind, h1, h3], ?_⟩
      intro c hc
      obtain ⟨q, hq, e⟩ := h4 c hc
      exact ⟨q, by simp [hq], e⟩
    | some c =>
      have hc := h2 c rfl
      obtain ⟨r, h3, h4⟩ := ih (left := some c) (by intro d hd; injection hd with hd; subst hd; exact hp p (by simp) _ hc)
        (fun q hq => hp q (by simp [hq]))
      refine ⟨c :: r, by simp only [voteLoop, bind, Except.bind, h1, h3], ?_⟩
      intro d hd
      rcases List.mem_cons.mp hd with rfl | hd
      · exact ⟨p, by simp, hc⟩
      · obtain ⟨q, hq, e⟩ := h4 d hd
        exact ⟨q, by simp [hq], e⟩

theorem twoStringVote_ok {s : BigramString} (hs : WF s) {x y : List Char} (hx : Printable x) (hy : Printable y) (w1 w2 : ℝ) :
    ∃ r, twoStringVote s x y w1 w2 = .ok r ∧ ∀ c ∈ r, c ∈ x ∨ c ∈ y := by
  obtain ⟨R, hR⟩ := topk_ok hs (k := 1) hx hy
  obtain ⟨heap, P, X, visited, I, -, hend⟩ := Alignment.topk_inv (by omega) hR
  have hne := I.nonempty (by omega) hend
  obtain ⟨a, R, rfl⟩ := List.exists_cons_of_ne_nil hne
  have hal := (I.spells (r := a) (by simp)).1
  obtain ⟨r, h1, h2⟩ := voteLoop_ok hs (left := none) (by intro c hc; cases hc) (Real.log w1) (Real.log w2)
    (pieces_ok (ps := a.pieces) ⟨[], by rw [List.append_nil]; exact hal.clean⟩ ⟨[], by rw [List.append_nil]; exact hal.dirty⟩ hx hy)
  refine ⟨r, by simp only [twoStringVote, bind, Except.bind, hR, idxR, List.getElem?_cons_zero, h1], ?_⟩
  intro c hc
  obtain ⟨p, hp, hcp⟩ := h2 c hc
  rcases List.mem_append.mp hcp with h | h
  · left; rw [← hal.clean]; exact List.mem_flatMap.mpr ⟨p, hp, h⟩
  · right; rw [← hal.dirty]; exact List.mem_flatMap.mpr ⟨p, hp, h⟩

theorem voteRound_ok {s : BigramString} (hs : WF s) : ∀ (l : List (List Char × ℝ)), (∀ x ∈ l, Printable x.1) →
    ∃ r, voteRound s l = .ok r ∧ ∀ y ∈ r, ∀ c ∈ y.1, ∃ x ∈ l, c ∈ x.1
  | [], _ => ⟨[], rfl, by simp⟩
  | [a], _ => ⟨[(a.1, 1)], rfl, by simp⟩
  | a :: b :: rest, h => by
    obtain ⟨w, h1, h2⟩ := twoStringVote_ok hs (h a (by simp)) (h b (by simp)) a.2 b.2
    obtain ⟨r, h3, h4⟩ := voteRound_ok hs rest (fun x hx => h x (by simp [hx]))
    refine ⟨(w, a.2 + b.2) :: r, by simp only [voteRound, bind, Except.bind, h1, h3], ?_⟩
    intro y hy c hc
    rcases List.mem_cons.mp hy with rfl | hy
    · rcases h2 c hc with h | h
      · exact ⟨a, by simp, h⟩
      · exact ⟨b, by simp, h⟩
    · obtain ⟨x, hx, e⟩ := h4 y hy c hc
      exact ⟨x, by simp [hx], e⟩

theorem proposeWithWeights_ok {s : BigramString} (hs : WF s) (l : List (List Char × ℝ)) (hl : ∀ x ∈ l, Printable x.1) :
    ∃ r, proposeWithWeights s l = .ok r ∧ ∀ c ∈ r, ∃ x ∈ l, c ∈ x.1 := by
  induction hn : l.length using Nat.strong_induction_on generalizing l with
  | _ n ih =>
    match l, hl, hn with
    | [], _, _ => exact ⟨[], by unfold proposeWithWeights; rfl, by simp⟩
    | [a], _, _ => exact ⟨a.1, by unfold proposeWithWeights; rfl, by simp⟩
    | a :: b :: rest, hl, hn =>
      obtain ⟨r, h1, h2⟩ := voteRound_ok hs _ hl
      have hlen := voteRound_length s _ _ h1
      have hlt : r.length < n := by subst hn; simp only [List.length_cons] at hlen ⊢; omega
      have hr : ∀ y ∈ r, Printable y.1 := by
        intro y hy c hc
        obtain ⟨x, hx, e⟩ := h2 y hy c hc
        exact hl x hx c e
      obtain ⟨o, h3, h4⟩ := ih r.length hlt r hr rfl
      refine ⟨o, ?_, ?_⟩
      · unfold proposeWithWeights
        split
        · rename_i e he; rw [h1] at he; cases he
        · rename_i r' he; rw [h1] at he; injection he with he; subst he; exact h3
      · intro c hc
        obtain ⟨y, hy, e⟩ := h4 c hc
        exact h2 y hy c e

/-- comparing log weights is comparing weights -/
theorem log_weights_lt {w1 w2 a b : ℝ} (h1 : 0 < w1) (h2 : 0 < w2) :
    b + Real.log w2 < a + Real.log w1 ↔ w2 * Real.exp b < w1 * Real.exp a := by
  rw [← Real.exp_lt_exp, Real.exp_add, Real.exp_add, Real.exp_log h1, Real.exp_log h2, mul_comm, mul_comm (Real.exp a)]

open Classical in
/-- **C44 (bigram vote).** Where the alignment of two observed strings with weights `w1` and `w2` disagrees, the vote keeps the
explanation with the larger weight times probability, the second string's on a tie: for a substitution, "the first string's character
is clean and became the second's" against the converse; for a character that only the first (only the second) string has, "it is clean
and the other string lost it" against "it is not and this string gained it".  A character both have is kept. -/
theorem C44_bigram_vote {s : BigramString} (h : Reach s) {left : Option Char} (hl : ∀ c, left = some c → 32 ≤ c.toNat ∧ c.toNat ≤ 126) {w1 w2 : ℝ} (h1 : 0 < w1) (h2 : 0 < w2) :
    (∀ o r : Char, (32 ≤ o.toNat ∧ o.toNat ≤ 126) → (32 ≤ r.toNat ∧ r.toNat ≤ 126) → ∃ p q : ℝ, vecLogp s.substitutions (getIndex o) (getIndex r) = .ok p ∧
      vecLogp s.substitutions (getIndex r) (getIndex o) = .ok q ∧
      voteChar s left (Real.log w1) (Real.log w2) (.sub o r) = .ok (some (if w2 * Real.exp q < w1 * Real.exp p then o else r))) ∧
    (∀ c : Char, (32 ≤ c.toNat ∧ c.toNat ≤ 126) → ∃ lost gained : ℝ, vecLogp s.substitutions (getIndex c) 0 = .ok lost ∧
      vecLogp s.insertions (ctxIndex left) (getIndex c) = .ok gained ∧
      voteChar s left (Real.log w1) (Real.log w2) (.del c) =
        .ok (if w2 * Real.exp gained < w1 * Real.exp lost then some c else none) ∧
      voteChar s left (Real.log w1) (Real.log w2) (.ins c) =
        .ok (if w1 * Real.exp gained < w2 * Real.exp lost then some c else none)) ∧
    ∀ c, voteChar s left (Real.log w1) (Real.log w2) (.mat c) = .ok (some c) := by
  have hs := h.wf
  refine ⟨?_, ?_, fun c => rfl⟩
  · intro o r ho hr
    obtain ⟨a, ha⟩ := vecLogp_ok hs.sub (idx_char ho).1 (idx_char hr).1
    obtain ⟨b, hb⟩ := vecLogp_ok hs.sub (idx_char hr).1 (idx_char ho).1
    refine ⟨a, b, ha, hb, ?_⟩
    simp only [voteChar, bind, Except.bind, ha, hb, log_weights_lt h1 h2]
  · intro c hc
    obtain ⟨a, ha⟩ := vecLogp_ok hs.sub (idx_char hc).1 idx_zero
    obtain ⟨b, hb⟩ := vecLogp_ok hs.ins (idx_ctx hl) (idx_char hc).1
    refine ⟨a, b, ha, hb, ?_, ?_⟩
    · simp only [voteChar, bind, Except.bind, ha, hb, log_weights_lt h1 h2]
    · simp only [voteChar, bind, Except.bind, ha, hb, log_weights_lt h2 h1]

/-- The bigram emission's `propose_clean` always returns for printable strings; every character of the proposal occurs in one of the
observed strings; a single observation is proposed as it is; with no observation the empty string is proposed. -/
theorem C44_bigram {s : BigramString} (h : Reach s) {corrupted : List (List Char)} (hc : ∀ x ∈ corrupted, Printable x) :
    ∃ r, s.proposeClean corrupted = .ok r ∧ (∀ c ∈ r, ∃ x ∈ corrupted, c ∈ x) ∧ (∀ x, corrupted = [x] → r = x) ∧
      (corrupted = [] → r = []) := by
  obtain ⟨r, h1, h2⟩ := proposeWithWeights_ok h.wf (corrupted.map fun c => (c, 1)) (by
    intro x hx
    obtain ⟨y, hy, rfl⟩ := List.mem_map.mp hx
    exact hc y hy)
  refine ⟨r, h1, ?_, ?_, ?_⟩
  · intro c hc'
    obtain ⟨x, hx, e⟩ := h2 c hc'
    obtain ⟨y, hy, rfl⟩ := List.mem_map.mp hx
    exact ⟨y, hy, e⟩
  · rintro x rfl
    unfold proposeWithWeights at h1
    injection h1 with h1
    exact h1.symm
  · rintro rfl
    unfold proposeWithWeights at h1
    injection h1 with h1
    exact h1.symm

/-- C44_bigram_vote: the context of the second character of "cat", weights 2 and 1, and the characters of a disagreement -/
example : Reach init ∧ (∀ c, some 'c' = some c → 32 ≤ c.toNat ∧ c.toNat ≤ 126) ∧ (32 ≤ 'a'.toNat ∧ 'a'.toNat ≤ 126) ∧ (0 : ℝ) < 2 :=
  ⟨.init, by intro c hc; injection hc with hc; subst hc; decide, by decide, by norm_num⟩

/-- The hypotheses are met. -/
example : Reach init ∧ ∀ x ∈ ["cat".toList, "bat".toList, "cart".toList], Printable x := by
  refine ⟨.init, ?_⟩
  unfold Printable
  decide

/-- A character just above the printable range makes `incorporate` read past the end of the table of contexts. -/
theorem C59_delete_char_out_of_bounds : vecAt init.substitutions (getIndex (Char.ofNat 127)) = .error .ub := by
  have h : getIndex (Char.ofNat 127) = 96 := by decide
  rw [h]
  have hl := init_wf.sub.1
  unfold vecAt
  rw [if_neg (by decide)]
  simp [idxR, hl]

end BigramString
end
end Verif
