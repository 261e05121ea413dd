import Verif.Model.BigramLaw
import Verif.Lemmas.BigramUndo
import Verif.Props.SampleLaw
/-!
C95 for `BigramStringEmission`.
-/
namespace Verif
noncomputable section
open BigramString

theorem topk_empty (cost : CostFunction) : topkAlignments 2 [] [] cost = .ok [⟨-0, 0, 0, []⟩] := by
  unfold topkAlignments
  rw [loop_found (top := { cost := 0, p1 := 0, p2 := 0, pieces := [] }) (heap' := []) (by simp) rfl (by simp) ⟨rfl, rfl⟩]
  rw [Alignment.loop.eq_def, if_pos (by simp)]
  rfl

/-- **C95**, `BigramStringEmission`: in every state it reports probability one for the empty string uncorrupted. -/
theorem C95_bigram_string_empty (s : BigramString) : BigramStringEmission.logp s ([], []) = .ok (0, s) := by
  have h : s.incorporate ([], []) 1 = .ok { s with N := s.N + 1 } := by
    unfold BigramString.incorporate
    simp only [topk_empty, bind, Except.bind, alignmentWeights, List.map_cons, List.map_nil, incAlignments, incPieces]
  have h' : s.logp ([], []) = .ok 0 := by
    unfold BigramString.logp
    simp only [h, bind, Except.bind]
    simp [BigramString.logpScore]
  show (s.logp ([], [])).bind _ = _
  rw [h']
  rfl

theorem law_biased : (biased 0).sampleLaw = .ok (9217 / 9312 :: List.replicate 95 (1 / 9312)) := by
  have hc : (biased 0).counts.map (fun y => y + (biased 0).alpha) = 9217 :: List.replicate 95 1 := by
    rw [biased_counts (by norm_num)]
    have : (List.replicate 96 (0 : ℝ)) = 0 :: List.replicate 95 0 := rfl
    simp only [this, List.modify_zero_cons, List.map_cons, List.map_replicate]
    norm_num
  unfold DirichletCategorical.sampleLaw
  rw [hc, discrete_pos (by simp) (by simp; norm_num)]
  simp only [List.sum_cons, List.sum_replicate, List.map_cons, List.map_replicate]
  norm_num

theorem vecAt_init : vecAt init.insertions 0 = .ok (biased 0) := by
  simp [vecAt, init, idxR, numContexts]

/-- **C95**, `BigramStringEmission`: the fresh emission reports probability one for the empty string uncorrupted, but returns it with probability 9217/9312; each string of one
printable character is returned with positive probability.  (The property is false for it.) -/
theorem C95_bigram_string_false : BigramStringEmission.logp init ([], []) = .ok (0, init) ∧ corruptProb init none [] [] = .ok (9217 / 9312) ∧ (9217 / 9312 : ℝ) ≠ Real.exp 0 ∧
    ∀ c : Char, 32 ≤ c.toNat → c.toNat ≤ 126 → corruptProb init none [] [c] = .ok (1 / 9312 * (9217 / 9312)) := by
  refine ⟨C95_bigram_string_empty _, ?_, by rw [Real.exp_zero]; norm_num, ?_⟩
  · simp only [corruptProb, ctxIndex, vecAt_init, law_biased, bind, Except.bind, insertProb, List.getD_cons_zero]
  · intro c h1 h2
    have hi : (getIndex c).toNat = (c.toNat - 32) + 1 := by unfold getIndex; omega
    simp only [corruptProb, ctxIndex, vecAt_init, law_biased, bind, Except.bind, insertProb, List.getD_cons_zero, charProb, if_pos h1, hi, List.getD_cons_succ]
    rw [List.getD_eq_getElem?_getD, List.getElem?_replicate, if_pos (by omega)]
    rfl

/-! ### The results of positive probability -/

/-- a distribution over the 96 categories whose counts are not negative -/
def RowGood (d : DirichletCategorical) : Prop := d.counts.length = 96 ∧ 0 < d.alpha ∧ ∀ c ∈ d.counts, 0 ≤ c

theorem law_good {d : DirichletCategorical} (h : RowGood d) : ∃ ps, d.sampleLaw = .ok ps ∧ ps.length = 96 ∧ ∀ p ∈ ps, 0 < p := by
  obtain ⟨h1, h2, h3⟩ := h
  have hne : d.counts.map (fun y => y + d.alpha) ≠ [] := by
    intro h
    have := congrArg List.length h
    rw [List.length_map, h1] at this
    cases this
  have hpos : ∀ w ∈ d.counts.map (fun y => y + d.alpha), 0 < w := by
    intro w hw
    obtain ⟨y, hy, rfl⟩ := List.mem_map.mp hw
    have := h3 y hy
    linarith
  have hsum : 0 < (d.counts.map (fun y => y + d.alpha)).sum := List.sum_pos _ hpos hne
  refine ⟨_, discrete_pos hne hsum.ne', by simp [h1], ?_⟩
  intro p hp
  obtain ⟨w, hw, rfl⟩ := List.mem_map.mp hp
  exact div_pos (hpos w hw) hsum

variable {ps : List ℝ}

theorem getD_pos (hl : ps.length = 96) (hp : ∀ p ∈ ps, 0 < p) {i : Nat} (hi : i < 96) : 0 < ps.getD i 0 := by
  rw [List.getD_eq_getElem?_getD, List.getElem?_eq_getElem (by omega)]
  exact hp _ (List.getElem_mem _)

theorem charProb_pos (hl : ps.length = 96) (hp : ∀ p ∈ ps, 0 < p) (c : Char) : 0 ≤ charProb ps c ∧ (0 < charProb ps c ↔ 32 ≤ c.toNat ∧ c.toNat ≤ 126) := by
  unfold charProb
  by_cases h : 32 ≤ c.toNat
  · rw [if_pos h]
    by_cases h' : c.toNat ≤ 126
    · have := getD_pos hl hp (i := (getIndex c).toNat) (by unfold getIndex; omega)
      exact ⟨this.le, fun _ => ⟨h, h'⟩, fun _ => this⟩
    · have : ps.getD (getIndex c).toNat 0 = 0 := by
        rw [List.getD_eq_getElem?_getD, List.getElem?_eq_none (by unfold getIndex; omega)]
        rfl
      rw [this]
      exact ⟨le_refl _, fun h => absurd h (lt_irrefl _), fun h => absurd h.2 h'⟩
  · rw [if_neg h]
    exact ⟨le_refl _, fun h => absurd h (lt_irrefl _), fun h' => absurd h'.1 h⟩

theorem mul_pos_iff_nonneg {a b : ℝ} (ha : 0 ≤ a) (hb : 0 ≤ b) : 0 < a * b ↔ 0 < a ∧ 0 < b := by
  constructor
  · intro h
    exact ⟨lt_of_le_of_ne ha (fun e => by rw [← e, zero_mul] at h; exact lt_irrefl _ h), lt_of_le_of_ne hb (fun e => by rw [← e, mul_zero] at h; exact lt_irrefl _ h)⟩
  · exact fun h => mul_pos h.1 h.2

theorem insertProb_pos (hl : ps.length = 96) (hp : ∀ p ∈ ps, 0 < p) (cs : List Char) : 0 ≤ insertProb ps cs ∧ (0 < insertProb ps cs ↔ Printable cs) := by
  induction cs with
  | nil =>
    have := getD_pos hl hp (i := 0) (by norm_num)
    exact ⟨this.le, fun _ => by simp [Printable], fun _ => this⟩
  | cons c cs ih =>
    have hc := charProb_pos hl hp c
    refine ⟨mul_nonneg hc.1 ih.1, ?_⟩
    show 0 < charProb ps c * insertProb ps cs ↔ _
    rw [mul_pos_iff_nonneg hc.1 ih.1, hc.2, ih.2]
    simp [Printable]

theorem mapM_res {A B : Type} {f : A → Res B} {Q : A → B → Prop} (l : List A) (h : ∀ a ∈ l, ∃ b, f a = .ok b ∧ Q a b) : ∃ bs, l.mapM f = .ok bs ∧ List.Forall₂ Q l bs := by
  induction l with
  | nil => exact ⟨[], rfl, .nil⟩
  | cons a l ih =>
    obtain ⟨b, hb, hq⟩ := h a List.mem_cons_self
    obtain ⟨bs, hbs, hf⟩ := ih (fun x hx => h x (List.mem_cons_of_mem _ hx))
    refine ⟨b :: bs, ?_, .cons hq hf⟩
    rw [List.mapM_cons, hb]
    show (l.mapM f).bind _ = _
    rw [hbs]
    rfl

theorem forall₂_sum {A : Type} {R : A → Prop} {l : List A} {bs : List ℝ} (h : List.Forall₂ (fun a b => 0 ≤ b ∧ (0 < b ↔ R a)) l bs) : 0 ≤ bs.sum ∧ (0 < bs.sum ↔ ∃ a ∈ l, R a) := by
  induction h with
  | nil => simp
  | @cons a b l bs h _ ih =>
    rw [List.sum_cons]
    refine ⟨add_nonneg h.1 ih.1, ?_⟩
    rw [List.exists_mem_cons_iff, ← h.2, ← ih.2]
    constructor
    · intro hs
      by_contra hc
      push Not at hc
      linarith [hc.1, hc.2]
    · rintro (h' | h')
      · linarith [ih.1]
      · linarith [h.1]

theorem corruptProb_pos {s : BigramString} (hi : s.insertions.length = 96 ∧ ∀ d ∈ s.insertions, RowGood d) (hu : s.substitutions.length = 96 ∧ ∀ d ∈ s.substitutions, RowGood d)
    (clean : List Char) (hc : Printable clean) : ∀ (current : Option Char), CtxOk current → ∀ dirty, ∃ p, corruptProb s current clean dirty = .ok p ∧ 0 ≤ p ∧ (0 < p ↔ Printable dirty) := by
  have ti : Tables s.insertions := ⟨hi.1, fun d hd => (hi.2 d hd).1⟩
  have tu : Tables s.substitutions := ⟨hu.1, fun d hd => (hu.2 d hd).1⟩
  induction clean with
  | nil =>
    intro current hcur dirty
    obtain ⟨h, hv⟩ := vecAt_ok ti (idx_ctx hcur)
    obtain ⟨ps, h1, h2, h3⟩ := law_good (hi.2 _ (List.getElem_mem h))
    refine ⟨insertProb ps dirty, ?_, insertProb_pos h2 h3 dirty⟩
    simp only [corruptProb, hv, h1, bind, Except.bind]
  | cons c cs ih =>
    intro current hcur dirty
    have hcc := hc c List.mem_cons_self
    have ih := ih (fun x hx => hc x (List.mem_cons_of_mem _ hx)) (some c) (fun x hx => by cases hx; exact hcc)
    obtain ⟨h, hv⟩ := vecAt_ok ti (idx_ctx hcur)
    obtain ⟨ps, h1, h2, h3⟩ := law_good (hi.2 _ (List.getElem_mem h))
    obtain ⟨h', hv'⟩ := vecAt_ok tu (idx_char hcc).1
    obtain ⟨qs, k1, k2, k3⟩ := law_good (hu.2 _ (List.getElem_mem h'))
    have hq0 := getD_pos k2 k3 (i := 0) (by norm_num)
    simp only [corruptProb, hv, h1, hv', k1, bind, Except.bind]
    generalize hF : (fun n => _ : Nat → Res ℝ) = F
    have hparts : ∀ n ∈ List.range (dirty.length + 1), ∃ b, F n = .ok b ∧ (0 ≤ b ∧ (0 < b ↔ Printable dirty)) := by
      intro n _
      have hsplit : Printable dirty ↔ Printable (dirty.take n) ∧ Printable (dirty.drop n) := by
        conv_lhs => rw [← List.take_append_drop n dirty]
        simp only [Printable, List.forall_mem_append]
      obtain ⟨p0, e0, n0, z0⟩ := ih (dirty.drop n)
      have hins := insertProb_pos h2 h3 (dirty.take n)
      rw [← hF]
      simp only [e0]
      cases hd : dirty.drop n with
      | nil =>
        simp only
        refine ⟨_, rfl, ?_, ?_⟩
        · exact mul_nonneg hins.1 (by have := mul_nonneg hq0.le n0; linarith)
        · rw [mul_pos_iff_nonneg hins.1 (by have := mul_nonneg hq0.le n0; linarith), add_zero, mul_pos_iff_nonneg hq0.le n0, hins.2, z0, hsplit]
          exact ⟨fun h => ⟨h.1, h.2.2⟩, fun h => ⟨h.1, hq0, h.2⟩⟩
      | cons x rest =>
        obtain ⟨p1, e1, n1, z1⟩ := ih rest
        have hx := charProb_pos k2 k3 x
        simp only [e1]
        have a0 := mul_nonneg hq0.le n0
        have a1 := mul_nonneg hx.1 n1
        refine ⟨_, rfl, mul_nonneg hins.1 (add_nonneg a0 a1), ?_⟩
        rw [mul_pos_iff_nonneg hins.1 (add_nonneg a0 a1), hins.2, hsplit]
        have hr : 0 < charProb qs x * p1 ↔ Printable (dirty.drop n) := by
          rw [mul_pos_iff_nonneg hx.1 n1, hx.2, z1, hd]
          simp [Printable]
        have hr0 : 0 < qs.getD 0 0 * p0 ↔ Printable (dirty.drop n) := by
          rw [mul_pos_iff_nonneg hq0.le n0, z0]
          exact ⟨fun h => h.2, fun h => ⟨hq0, h⟩⟩
        refine and_congr_right (fun _ => ?_)
        constructor
        · intro hsum
          by_contra hno
          have b0 := mt hr0.mp hno
          have b1 := mt hr.mp hno
          linarith
        · intro hyes
          have b0 := hr0.mpr hyes
          linarith
    obtain ⟨bs, hbs, hf⟩ := mapM_res (Q := fun _ b => 0 ≤ b ∧ (0 < b ↔ Printable dirty)) _ hparts
    rw [hbs]
    have hsum := forall₂_sum (R := fun _ => Printable dirty) hf
    refine ⟨bs.sum, rfl, hsum.1, hsum.2.trans ?_⟩
    exact ⟨fun ⟨_, _, h⟩ => h, fun h => ⟨0, by simp, h⟩⟩

/-- **C95**, `BigramStringEmission`: as long as no count is negative, it may turn any printable string into any printable string, and into no other string. -/
theorem C95_bigram_string_support {s : BigramString} (hi : s.insertions.length = 96 ∧ ∀ d ∈ s.insertions, RowGood d) (hu : s.substitutions.length = 96 ∧ ∀ d ∈ s.substitutions, RowGood d)
    {clean : List Char} (hc : Printable clean) (dirty : List Char) : ∃ p, corruptProb s none clean dirty = .ok p ∧ 0 ≤ p ∧ (0 < p ↔ Printable dirty) :=
  corruptProb_pos hi hu clean hc none (fun _ h => by cases h) dirty

/-- the fresh emission meets the hypotheses -/
theorem init_good : (init.insertions.length = 96 ∧ ∀ d ∈ init.insertions, RowGood d) ∧ (init.substitutions.length = 96 ∧ ∀ d ∈ init.substitutions, RowGood d) := by
  have hb : ∀ i, i < 96 → RowGood (biased i) := by
    intro i hi
    rw [biased_counts hi]
    refine ⟨by simp, by norm_num, ?_⟩
    intro c hc
    obtain ⟨j, hj, rfl⟩ := List.getElem_of_mem hc
    simp only [List.getElem_modify, List.getElem_replicate]
    split <;> norm_num
  refine ⟨⟨init_wf.ins.1, ?_⟩, init_wf.sub.1, ?_⟩
  · intro d hd
    obtain ⟨i, _, rfl⟩ := List.mem_map.mp hd
    exact hb 0 (by norm_num)
  · intro d hd
    obtain ⟨i, hi, rfl⟩ := List.mem_map.mp hd
    exact hb i (List.mem_range.mp hi)

def VecGood (l : List DirichletCategorical) : Prop := l.length = 96 ∧ ∀ d ∈ l, RowGood d

theorem vecInc_good {l l' : List DirichletCategorical} {i x : Int} {w : ℝ} (hw : 0 ≤ w) (hl : VecGood l) (h : vecInc l i x w = .ok l') : VecGood l' := by
  unfold vecInc vecAt at h
  split at h
  · cases h
  · simp only [bind, Except.bind, idxR] at h
    split at h
    · cases h
    · rename_i d hd
      split at hd
      · rename_i d0 hd0
        cases hd
        have hm := List.mem_of_getElem? hd0
        obtain ⟨h1, h2, h3⟩ := hl.2 _ hm
        unfold DirichletCategorical.incorporate at h
        cases hr : d.inRange x with
        | false => simp [hr, assertR, bind, Except.bind] at h
        | true =>
          simp [hr, assertR, bind, Except.bind] at h
          subst h
          refine ⟨by simpa using hl.1, ?_⟩
          intro e he
          rcases List.mem_or_eq_of_mem_set he with he | rfl
          · exact hl.2 e he
          · refine ⟨by simpa using h1, h2, ?_⟩
            intro c hc
            obtain ⟨j, hj, rfl⟩ := List.getElem_of_mem hc
            have hj' : j < d.counts.length := by simpa using hj
            have h0 := h3 _ (List.getElem_mem hj')
            simp only [List.getElem_modify]
            split <;> linarith
      · cases hd

theorem incPiece_good {s s' : BigramString} {ctx ctx' : Option Char} {w : ℝ} (hw : 0 ≤ w) {p : AlignPiece} (hi : VecGood s.insertions) (hu : VecGood s.substitutions)
    (h : incPiece s ctx w p = .ok (s', ctx')) : VecGood s'.insertions ∧ VecGood s'.substitutions := by
  cases p <;> simp only [incPiece, bind, Except.bind] at h
  all_goals
    split at h
    · cases h
    · rename_i i hi'
      first
      | (split at h
         · cases h
         · rename_i u hu'
           cases h
           exact ⟨vecInc_good hw hi hi', vecInc_good hw hu hu'⟩)
      | (cases h
         exact ⟨vecInc_good hw hi hi', hu⟩)

theorem incPieces_good {w : ℝ} (hw : 0 ≤ w) (ps : List AlignPiece) : ∀ {s s' : BigramString} {ctx : Option Char}, VecGood s.insertions → VecGood s.substitutions →
    incPieces s ctx w ps = .ok s' → VecGood s'.insertions ∧ VecGood s'.substitutions := by
  induction ps with
  | nil =>
    intro s s' ctx hi hu h
    cases h
    exact ⟨hi, hu⟩
  | cons p ps ih =>
    intro s s' ctx hi hu h
    simp only [incPieces, bind, Except.bind] at h
    split at h
    · cases h
    · rename_i r hr
      obtain ⟨k1, k2⟩ := incPiece_good hw hi hu hr
      exact ih k1 k2 h

theorem incAlignments_good (as : List (StrAlignment × ℝ)) (hw : ∀ a ∈ as, 0 ≤ a.2) : ∀ {s s' : BigramString}, VecGood s.insertions → VecGood s.substitutions →
    incAlignments s as = .ok s' → VecGood s'.insertions ∧ VecGood s'.substitutions := by
  induction as with
  | nil =>
    intro s s' hi hu h
    cases h
    exact ⟨hi, hu⟩
  | cons a as ih =>
    intro s s' hi hu h
    simp only [incAlignments, bind, Except.bind] at h
    split at h
    · cases h
    · rename_i r hr
      obtain ⟨k1, k2⟩ := incPieces_good (hw a List.mem_cons_self) _ hi hu hr
      exact ih (fun x hx => hw x (List.mem_cons_of_mem _ hx)) k1 k2 h

theorem incorporate_good {s s' : BigramString} {x : List Char × List Char} {w : ℝ} (hw : 0 ≤ w) (hi : VecGood s.insertions) (hu : VecGood s.substitutions)
    (h : s.incorporate x w = .ok s') : VecGood s'.insertions ∧ VecGood s'.substitutions := by
  simp only [BigramString.incorporate, bind, Except.bind] at h
  split at h
  · cases h
  · rename_i as _
    refine incAlignments_good _ ?_ (s := { s with N := s.N + w }) hi hu h
    intro a ha
    obtain ⟨b, _, rfl⟩ := List.mem_map.mp ha
    refine div_nonneg (mul_nonneg hw (Real.exp_pos _).le) (List.sum_nonneg ?_)
    intro y hy
    obtain ⟨z, _, rfl⟩ := List.mem_map.mp hy
    exact (Real.exp_pos _).le

theorem transAll_good (l : List DirichletCategorical) (t : Tape) (hl : ∀ d ∈ l, RowGood d) : (transAll l t).1.length = l.length ∧ ∀ d ∈ (transAll l t).1, RowGood d := by
  induction l generalizing t with
  | nil => exact ⟨rfl, fun d hd => by cases hd⟩
  | cons d l ih =>
    have ih := ih (d.transitionHyperparameters t).2 (fun e he => hl e (List.mem_cons_of_mem _ he))
    obtain ⟨h1, h2, h3⟩ := hl d List.mem_cons_self
    refine ⟨by simp [transAll, ih.1], ?_⟩
    intro e he
    rcases List.mem_cons.mp he with rfl | he
    · exact ⟨h1, ZeroMeanNormal.alphaGrid_pos (pickGrid_mem DirichletCategorical.alphaGrid_ne), h3⟩
    · exact ih.2 e he

/-- the states of a `BigramStringEmission` reached by additions and hyperparameter transitions -/
inductive BigramString.Grown : BigramString → Prop
  | init : BigramString.Grown init
  | incorporate {s s' : BigramString} {x : List Char × List Char} {w : ℝ} : BigramString.Grown s → 0 ≤ w → s.incorporate x w = .ok s' → BigramString.Grown s'
  | trans {s : BigramString} (t : Tape) : BigramString.Grown s → BigramString.Grown (s.transitionHyperparameters t).1

theorem grown_good {s : BigramString} (h : BigramString.Grown s) : VecGood s.insertions ∧ VecGood s.substitutions := by
  induction h with
  | init => exact init_good
  | incorporate _ hw h ih => exact incorporate_good hw ih.1 ih.2 h
  | @trans s t _ ih =>
    have h1 := transAll_good s.insertions t ih.1.2
    have h2 := transAll_good s.substitutions (transAll s.insertions t).2 ih.2.2
    exact ⟨⟨h1.1.trans ih.1.1, h1.2⟩, h2.1.trans ih.2.1, h2.2⟩

/-- **C95**, `BigramStringEmission`: after any additions and hyperparameter transitions it may turn any printable string into any printable string, and into no other string; and it
reports probability one for the empty string, although it then changes it with positive probability. -/
theorem C95_bigram_string_grown {s : BigramString} (h : BigramString.Grown s) : (∀ clean, Printable clean → ∀ dirty, ∃ p, corruptProb s none clean dirty = .ok p ∧ 0 ≤ p ∧ (0 < p ↔ Printable dirty)) ∧
    BigramStringEmission.logp s ([], []) = .ok (0, s) ∧ ∃ p, corruptProb s none [] ['a'] = .ok p ∧ 0 < p := by
  have hg := grown_good h
  refine ⟨fun clean hc dirty => C95_bigram_string_support hg.1 hg.2 hc dirty, C95_bigram_string_empty s, ?_⟩
  obtain ⟨p, h1, _, h3⟩ := C95_bigram_string_support hg.1 hg.2 (clean := []) (by simp [Printable]) ['a']
  exact ⟨p, h1, h3.mpr (by simp [Printable])⟩

/-- a state after an addition and a transition -/
example : ∃ s, init.incorporate ("cat".toList, "carts".toList) 1 = .ok s ∧ BigramString.Grown (s.transitionHyperparameters [3, 1, 4]).1 := by
  obtain ⟨s, h, _⟩ := incorporate_ok init_wf (x := ("cat".toList, "carts".toList)) (by simp [Printable]) (by simp [Printable]) 1
  exact ⟨s, h, .trans _ (.incorporate .init zero_le_one h)⟩

example : ∃ p, corruptProb init none "cat".toList "carts".toList = .ok p ∧ 0 < p := by
  obtain ⟨p, h1, _, h3⟩ := C95_bigram_string_support init_good.1 init_good.2 (clean := "cat".toList) (by simp [Printable]) "carts".toList
  exact ⟨p, h1, h3.mpr (by simp [Printable])⟩

end
end Verif
