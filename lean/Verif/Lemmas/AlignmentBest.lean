import Verif.Lemmas.Alignment
import Mathlib.Data.List.Induction
import Mathlib.Data.List.Perm.Lattice
import Mathlib.Data.List.Perm.Subperm
/-! What a finished search has found. -/
namespace Verif
namespace Alignment

theorem init_inv {k : Int} {cost : CostFunction} {s t : List Char} :
    Inv k cost s t [{ cost := 0, p1 := 0, p2 := 0, pieces := [] }] [] [] (fun _ => 0) [] := by
  refine ⟨?_, by simp, by simp, by simp, by simp, by simp, by simp, by simp, by simp, by simp⟩
  intro a ha
  simp at ha
  subst ha
  exact ⟨by simp, by simp, by simp, by simp, by simp [Valid], by simpa using StepCost.nil⟩

theorem topk_inv {k : Int} {cost : CostFunction} {s t : List Char} {R} (h0 : 0 ≤ k) (h : topkAlignments k s t cost = .ok R) :
    ∃ heap P X visited, Inv k cost s t heap P X visited R ∧ (R.length : Int) ≤ k ∧ ((R.length : Int) = k ∨ heap = []) :=
  loop_inv h0 _ [] [] _ _ _ init_inv (by simpa using h0) h

theorem topk_nonpos {k : Int} {cost : CostFunction} {s t : List Char} (h0 : k ≤ 0) : topkAlignments k s t cost = .ok [] := by
  unfold topkAlignments loop
  rw [if_neg (by simpa using h0)]

section
variable {k : Int} {cost : CostFunction} {s t : List Char} {heap P X : List StrAlignment} {visited : Nat × Nat → Int}
  {R : List StrAlignment}

theorem Inv.mem_found (I : Inv k cost s t heap P X visited R) {r : StrAlignment} :
    r ∈ R ↔ ∃ a ∈ P, a.p1 = s.length ∧ a.p2 = t.length ∧ r = { a with cost := -a.cost } := by
  rw [I.found]
  simp only [List.mem_map, List.mem_filter, decide_eq_true_eq]
  constructor
  · rintro ⟨a, ⟨h1, h2, h3⟩, rfl⟩; exact ⟨a, h1, h2, h3, rfl⟩
  · rintro ⟨a, h1, h2, h3, rfl⟩; exact ⟨a, ⟨h1, h2, h3⟩, rfl⟩

theorem Inv.spells (I : Inv k cost s t heap P X visited R) {r : StrAlignment} (hr : r ∈ R) :
    IsAlignment s t r.pieces ∧ r.p1 = s.length ∧ r.p2 = t.length ∧ StepCost cost r.pieces r.cost := by
  obtain ⟨a, ha, h1, h2, rfl⟩ := I.mem_found.mp hr
  have g := I.good a (by simp [ha])
  exact ⟨⟨by rw [g.clean, h1, List.take_length], by rw [g.dirty, h2, List.take_length], g.valid⟩, h1, h2, g.cost⟩

theorem Inv.found_nodup (I : Inv k cost s t heap P X visited R) : (R.map StrAlignment.pieces).Nodup := by
  rw [I.found, List.map_map]
  have h := I.nodup
  rw [List.map_append, List.map_append] at h
  have hP : (P.map StrAlignment.pieces).Nodup := ((List.nodup_append.mp (List.nodup_append.mp h).1).2).1
  exact hP.sublist (List.filter_sublist.map _)

theorem Inv.found_sorted (I : Inv k cost s t heap P X visited R) (hn : cost.NonNeg) :
    R.Pairwise fun a b => a.cost ≤ b.cost := by
  rw [I.found, List.pairwise_map]
  exact (I.sorted hn).sublist List.filter_sublist

theorem Inv.walk (I : Inv k cost s t [] P X visited R) (hk : 0 < k) (b : StrAlignment) (hb : b ∈ P) :
    ∃ a ∈ P, a.p1 = s.length ∧ a.p2 = t.length := by
  induction hr : remaining s t b using Nat.strong_induction_on generalizing b with
  | _ n ih =>
    have g := I.good b (by simp [hb])
    by_cases hterm : b.p1 = s.length ∧ b.p2 = t.length
    · exact ⟨b, hb, hterm⟩
    have hnext : ∃ p, p ∈ nexts s t b.p1 b.p2 := by
      by_cases h1 : b.p1 < s.length
      · exact ⟨.del s[b.p1], by simp [nexts, List.getElem?_eq_getElem h1]⟩
      · have h2 : b.p2 < t.length := by
          have := g.p1; have := g.p2
          by_contra h2
          exact hterm ⟨by omega, by omega⟩
        exact ⟨.ins t[b.p2], by simp [nexts, List.getElem?_eq_getElem h2]⟩
    obtain ⟨p, hp⟩ := hnext
    obtain ⟨a, ha, e⟩ := I.closed b hb p ((mem_nexts g p).mp hp)
    have ga := I.good a ha
    have hpos : 0 < p.clean.length + p.dirty.length := by cases p <;> simp [AlignPiece.clean, AlignPiece.dirty]
    have hlt : remaining s t a < n := by
      have l1 := ga.len1
      have l2 := ga.len2
      rw [e] at l1 l2
      simp only [cleanSide_append, dirtySide_append, cleanSide_single, dirtySide_single, List.length_append, g.len1, g.len2] at l1 l2
      have := ga.p1
      have := ga.p2
      subst hr
      unfold remaining
      omega
    have hsame : ∃ q ∈ P, q.p1 = a.p1 ∧ q.p2 = a.p2 := by
      rcases List.mem_append.mp ha with h | h
      · simp at h
        exact ⟨a, h, rfl, rfl⟩
      · obtain ⟨Q, h1, h2, h3⟩ := I.pruned a h
        cases Q with
        | nil => simp at h2; omega
        | cons q Q => exact ⟨q, h1.subset (by simp), (h3 q (by simp)).1, (h3 q (by simp)).2.1⟩
    obtain ⟨q, hq, e1, e2⟩ := hsame
    refine ih (remaining s t q) ?_ q hq rfl
    unfold remaining at hlt ⊢
    rw [e1, e2]
    exact hlt

theorem Inv.nonempty (I : Inv k cost s t heap P X visited R) (hk : 0 < k) (hend : (R.length : Int) = k ∨ heap = []) : R ≠ [] := by
  rintro rfl
  have hheap : heap = [] := by
    rcases hend with h | h
    · simp at h; omega
    · exact h
  subst hheap
  have hroot : ∃ q, q ∈ P := by
    obtain ⟨a, ha, -⟩ := I.root
    rcases List.mem_append.mp ha with h | h
    · simp at h
      exact ⟨a, h⟩
    · obtain ⟨Q, h1, h2, h3⟩ := I.pruned a h
      cases Q with
      | nil => simp at h2; omega
      | cons q Q => exact ⟨q, h1.subset (by simp)⟩
  obtain ⟨q, hq⟩ := hroot
  obtain ⟨a, ha, h1, h2⟩ := I.walk hk q hq
  have := I.mem_found.mpr ⟨a, ha, h1, h2, rfl⟩
  simp at this

theorem stepCost_mono (hn : cost.NonNeg) {ps suf : List AlignPiece} {c c'} (h : StepCost cost ps c)
    (h' : StepCost cost (ps ++ suf) c') : c ≤ c' := by
  induction suf using List.reverseRec generalizing c' with
  | nil => rw [List.append_nil] at h'; exact (stepCost_det h h').le
  | append_singleton suf p ih =>
    rw [← List.append_assoc] at h'
    obtain ⟨c1, h1, h2⟩ := stepCost_snoc h'
    exact (ih h1).trans (hn _ _ _ h2)

theorem stepCost_swap {w : Nat → Nat → AlignPiece → ℝ} (hw : ∀ z p1 p2 ps p old, cost ⟨z, p1, p2, ps ++ [p]⟩ old = .ok (old + w p1 p2 p))
    {ps ps' suf : List AlignPiece} {c c' d} (h : StepCost cost ps c) (h' : StepCost cost ps' c')
    (e1 : (cleanSide ps).length = (cleanSide ps').length) (e2 : (dirtySide ps).length = (dirtySide ps').length)
    (hd : StepCost cost (ps ++ suf) d) : StepCost cost (ps' ++ suf) (d - c + c') := by
  induction suf using List.reverseRec generalizing d with
  | nil =>
    rw [List.append_nil] at hd ⊢
    rw [stepCost_det hd h]
    simpa using h'
  | append_singleton suf p ih =>
    rw [← List.append_assoc] at hd
    obtain ⟨d1, h1, h2⟩ := stepCost_snoc hd
    rw [hw] at h2
    injection h2 with h2
    have h3 := ih h1
    rw [← List.append_assoc]
    refine .snoc _ _ _ _ h3 ?_
    rw [hw]
    congr 1
    rw [← h2]
    simp only [cleanSide_append, dirtySide_append, List.length_append, e1, e2]
    ring

theorem Inv.best (I : Inv k cost s t heap P X visited R) (hle : (R.length : Int) ≤ k) (hend : (R.length : Int) = k ∨ heap = [])
    (hn : cost.NonNeg) (hl : cost.Local) (n : Nat) :
    ∀ (suf : List AlignPiece) (a : StrAlignment) (c : ℝ), suf.length = n → a ∈ heap ++ P ++ X → IsAlignment s t (a.pieces ++ suf) →
      StepCost cost (a.pieces ++ suf) c →
      (∃ r ∈ R, r.pieces = a.pieces ++ suf) ∨ ((R.length : Int) = k ∧ ∀ r ∈ R, r.cost ≤ c) := by
  obtain ⟨w, hw⟩ := hl
  induction n with
  | zero =>
    intro suf a c hlen ha hal hc
    rw [List.length_eq_zero_iff] at hlen
    subst hlen
    rw [List.append_nil] at hal hc ⊢
    have g := I.good a ha
    have e1 : a.p1 = s.length := by rw [← g.len1, hal.clean]
    have e2 : a.p2 = t.length := by rw [← g.len2, hal.dirty]
    rcases List.mem_append.mp ha with ha | ha
    · rcases List.mem_append.mp ha with ha | ha
      · right
        refine ⟨?_, ?_⟩
        · rcases hend with h | h
          · exact h
          · subst h; simp at ha
        · intro r hr
          obtain ⟨b, hb, -, -, rfl⟩ := I.mem_found.mp hr
          have := I.mono hn b (by simp [hb]) a ha
          rw [stepCost_det hc g.cost]
          exact this
      · left
        exact ⟨_, I.mem_found.mpr ⟨a, ha, e1, e2, rfl⟩, rfl⟩
    · obtain ⟨Q, h1, h2, h3⟩ := I.pruned a ha
      -- all of Q are terminal, hence found
      right
      have hQR : (Q.map fun q => ({ q with cost := -q.cost } : StrAlignment)).Sublist R := by
        rw [I.found]
        refine List.Sublist.map _ ?_
        have : Q.filter (fun a => decide (a.p1 = s.length ∧ a.p2 = t.length)) = Q := by
          rw [List.filter_eq_self]
          intro q hq
          simp [(h3 q hq).1, (h3 q hq).2.1, e1, e2]
        rw [← this]
        exact h1.filter _
      have hlen := hQR.length_le
      rw [List.length_map] at hlen
      have heq := hQR.eq_of_length (by rw [List.length_map]; omega)
      refine ⟨by omega, ?_⟩
      intro r hr
      rw [← heq] at hr
      obtain ⟨q, hq, rfl⟩ := List.mem_map.mp hr
      rw [stepCost_det hc g.cost]
      exact (h3 q hq).2.2 hn
  | succ n ih =>
    -- alignments continuing a processed one
    have hP : ∀ (suf : List AlignPiece) (a : StrAlignment) (c : ℝ), suf.length = n + 1 → a ∈ P → IsAlignment s t (a.pieces ++ suf) →
        StepCost cost (a.pieces ++ suf) c →
        (∃ r ∈ R, r.pieces = a.pieces ++ suf) ∨ ((R.length : Int) = k ∧ ∀ r ∈ R, r.cost ≤ c) := by
      intro suf a c hlen ha hal hc
      match suf, hlen with
      | p :: suf, hlen =>
        have hass : a.pieces ++ p :: suf = a.pieces ++ [p] ++ suf := by simp
        rw [hass] at hal hc ⊢
        have hpre : Pre s t (a.pieces ++ [p]) :=
          ⟨⟨cleanSide suf, by rw [← cleanSide_append]; exact hal.clean⟩, ⟨dirtySide suf, by rw [← dirtySide_append]; exact hal.dirty⟩,
            fun x y h => hal.subs x y (List.mem_append_left _ h)⟩
        obtain ⟨a', ha', e⟩ := I.closed a ha p hpre
        rw [← e] at hal hc ⊢
        exact ih suf a' c (by simpa using hlen) ha' hal hc
    intro suf a c hlen ha hal hc
    have g := I.good a ha
    rcases List.mem_append.mp ha with ha | ha
    · rcases List.mem_append.mp ha with ha | ha
      · right
        refine ⟨?_, ?_⟩
        · rcases hend with h | h
          · exact h
          · subst h; simp at ha
        · intro r hr
          obtain ⟨b, hb, -, -, rfl⟩ := I.mem_found.mp hr
          exact (I.mono hn b (by simp [hb]) a ha).trans (stepCost_mono hn g.cost hc)
      · exact hP suf a c hlen ha hal hc
    · obtain ⟨Q, h1, h2, h3⟩ := I.pruned a ha
      have hq : ∀ q ∈ Q, IsAlignment s t (q.pieces ++ suf) ∧ StepCost cost (q.pieces ++ suf) (c - -a.cost + -q.cost) := by
        intro q hq
        have gq := I.good q (by simp [h1.subset hq])
        obtain ⟨e1, e2, -⟩ := h3 q hq
        have c1 : cleanSide q.pieces = cleanSide a.pieces := by rw [gq.clean, g.clean, e1]
        have c2 : dirtySide q.pieces = dirtySide a.pieces := by rw [gq.dirty, g.dirty, e2]
        refine ⟨⟨?_, ?_, ?_⟩, stepCost_swap hw g.cost gq.cost (by rw [c1]) (by rw [c2]) hc⟩
        · rw [cleanSide_append, c1, ← cleanSide_append]; exact hal.clean
        · rw [dirtySide_append, c2, ← dirtySide_append]; exact hal.dirty
        · intro x y h
          rcases List.mem_append.mp h with h | h
          · exact gq.valid x y h
          · exact hal.subs x y (List.mem_append_right _ h)
      by_cases hall : ∀ q ∈ Q, ∃ r ∈ R, r.pieces = q.pieces ++ suf
      · right
        have hQn : (Q.map fun q => q.pieces ++ suf).Nodup := by
          have hnd := I.nodup
          rw [List.map_append, List.map_append] at hnd
          have hPn : (P.map StrAlignment.pieces).Nodup := ((List.nodup_append.mp (List.nodup_append.mp hnd).1).2).1
          have hQn' := hPn.sublist (h1.map StrAlignment.pieces)
          have := hQn'.map (f := fun l => l ++ suf) (fun x y h => List.append_cancel_right h)
          rw [List.map_map] at this
          exact this
        have hsub : (Q.map fun q => q.pieces ++ suf) ⊆ R.map StrAlignment.pieces := by
          intro x hx
          obtain ⟨q, hq', rfl⟩ := List.mem_map.mp hx
          obtain ⟨r, hr, e⟩ := hall q hq'
          rw [← e]
          exact List.mem_map_of_mem hr
        have hsp := List.subperm_of_subset hQn hsub
        have hlen' := hsp.length_le
        rw [List.length_map, List.length_map] at hlen'
        have hperm := hsp.perm_of_length_le (by rw [List.length_map, List.length_map]; omega)
        refine ⟨by omega, ?_⟩
        intro r hr
        have : r.pieces ∈ Q.map fun q => q.pieces ++ suf := hperm.mem_iff.mpr (List.mem_map_of_mem hr)
        obtain ⟨q, hq', e⟩ := List.mem_map.mp this
        have hrc := (I.spells hr).2.2.2
        rw [← e] at hrc
        rw [stepCost_det hrc (hq q hq').2]
        have := (h3 q hq').2.2 hn
        linarith
      · push Not at hall
        obtain ⟨q, hq', hno⟩ := hall
        rcases hP suf q _ hlen (h1.subset hq') (hq q hq').1 (hq q hq').2 with ⟨r, hr, e⟩ | ⟨e, hb⟩
        · exact absurd e (hno r hr)
        · right
          refine ⟨e, fun r hr => (hb r hr).trans ?_⟩
          have := (h3 q hq').2.2 hn
          linarith

end

/-- the search returns if the cost function does for every prefix -/
theorem loop_total {k : Int} {cost : CostFunction} {s t : List Char} (h0 : 0 ≤ k)
    (hc : ∀ a old, a.pieces ≠ [] → cleanSide a.pieces <+: s → dirtySide a.pieces <+: t → ∃ c, cost a old = .ok c)
    (heap P X : List StrAlignment) (visited : Nat × Nat → Int) (found : List StrAlignment)
    (I : Inv k cost s t heap P X visited found) : ∃ R, loop k cost s t heap visited found = .ok R := by
  induction hw : weight s t heap using Nat.strong_induction_on generalizing heap P X visited found with
  | _ n ih =>
    unfold loop
    split
    · match heap, I, hw with
      | [], I, hw => exact ⟨_, rfl⟩
      | b :: rest, I, hw =>
        have hperm := popMax_perm b rest
        have I' := I.perm hperm.symm
        have hgt : Good cost s t (popMax b rest).1 := I'.good _ (by simp)
        have hmax : cost.NonNeg → ∀ x ∈ (popMax b rest).2, -(popMax b rest).1.cost ≤ -x.cost := by
          intro _ x hx
          have := popMax_cost b rest x (hperm.mem_iff.mp (by simp [hx]))
          linarith
        have hweight := weight_perm (s1 := s) (s2 := t) hperm
        rw [weight_cons] at hweight
        have h4 : 0 < 4 ^ (remaining s t (popMax b rest).1 + 1) := Nat.pow_pos (by omega)
        simp only [Function.update_self]
        split
        · rename_i hgt'
          exact ih _ (by omega) _ _ _ _ _ (I'.prune hgt' h0 hmax) rfl
        split
        · rename_i hterm
          have := I'.process (cs := []) hmax (by
            have h1 : s[(popMax b rest).1.p1]? = none := by rw [hterm.1]; exact List.getElem?_eq_none (le_refl _)
            have h2 : t[(popMax b rest).1.p2]? = none := by rw [hterm.2]; exact List.getElem?_eq_none (le_refl _)
            simp [nexts, h1, h2]) (by simp)
          rw [if_pos hterm, List.append_nil] at this
          exact ih _ (by omega) _ _ _ _ _ this rfl
        · rename_i hterm
          cases hcc : continuations cost s t (popMax b rest).1 with
          | error e =>
            exfalso
            have hg : ∀ p ∈ nexts s t (popMax b rest).1.p1 (popMax b rest).1.p2, ∀ p1 p2,
                ∃ a, grow cost (popMax b rest).1 (-(popMax b rest).1.cost) p1 p2 p = .ok a := by
              intro p hp p1 p2
              have hpre := (mem_nexts hgt p).mp hp
              obtain ⟨c, hc'⟩ := hc { (popMax b rest).1 with p1 := p1, p2 := p2, pieces := (popMax b rest).1.pieces ++ [p] }
                (-(popMax b rest).1.cost) (by simp) hpre.clean hpre.dirty
              exact ⟨{ cost := -c, p1 := p1, p2 := p2, pieces := (popMax b rest).1.pieces ++ [p] },
                by unfold grow; simp only [bind, Except.bind, hc']⟩
            obtain ⟨d, hd⟩ : ∃ d, growDel cost s (popMax b rest).1 (-(popMax b rest).1.cost) = .ok d := by
              unfold growDel
              split
              · rename_i hlt
                have hs := List.getElem?_eq_getElem hlt
                obtain ⟨a, ha⟩ := hg (.del s[(popMax b rest).1.p1]) (by simp [nexts, hs]) ((popMax b rest).1.p1 + 1) (popMax b rest).1.p2
                exact ⟨[a], by simp only [bind, Except.bind, idxR, hs]; rw [ha]⟩
              · exact ⟨_, rfl⟩
            obtain ⟨i, hi⟩ : ∃ d, growIns cost t (popMax b rest).1 (-(popMax b rest).1.cost) = .ok d := by
              unfold growIns
              split
              · rename_i hlt
                have hs := List.getElem?_eq_getElem hlt
                obtain ⟨a, ha⟩ := hg (.ins t[(popMax b rest).1.p2]) (by simp [nexts, hs]) (popMax b rest).1.p1 ((popMax b rest).1.p2 + 1)
                exact ⟨[a], by simp only [bind, Except.bind, idxR, hs]; rw [ha]⟩
              · exact ⟨_, rfl⟩
            obtain ⟨j, hj⟩ : ∃ d, growBoth cost s t (popMax b rest).1 (-(popMax b rest).1.cost) = .ok d := by
              unfold growBoth
              split
              · rename_i hlt
                have hs := List.getElem?_eq_getElem hlt.1
                have ht := List.getElem?_eq_getElem hlt.2
                obtain ⟨a, ha⟩ := hg (if s[(popMax b rest).1.p1] = t[(popMax b rest).1.p2] then .mat s[(popMax b rest).1.p1]
                  else .sub s[(popMax b rest).1.p1] t[(popMax b rest).1.p2]) (by simp [nexts, hs, ht])
                  ((popMax b rest).1.p1 + 1) ((popMax b rest).1.p2 + 1)
                exact ⟨[a], by simp only [bind, Except.bind, idxR, hs, ht]; rw [ha]⟩
              · exact ⟨_, rfl⟩
            unfold continuations at hcc
            simp only [bind, Except.bind, hd, hi, hj] at hcc
            cases hcc
          | ok cs =>
            obtain ⟨c1, c2⟩ := continuations_spec hgt hcc
            have := I'.process hmax c1 c2
            rw [if_neg hterm, List.append_nil] at this
            have hcw := continuations_weight hcc
            exact ih (weight s t ((popMax b rest).2 ++ cs)) (by rw [weight_append]; omega) _ _ _ _ _ this rfl
    · exact ⟨_, rfl⟩

theorem topk_total {k : Int} {cost : CostFunction} {s t : List Char}
    (hc : ∀ a old, a.pieces ≠ [] → cleanSide a.pieces <+: s → dirtySide a.pieces <+: t → ∃ c, cost a old = .ok c) :
    ∃ R, topkAlignments k s t cost = .ok R := by
  by_cases h0 : 0 ≤ k
  · exact loop_total h0 hc _ [] [] _ _ init_inv
  · exact ⟨_, topk_nonpos (by omega)⟩

/-! ### Edit distance -/

/-- the pieces that are not matches -/
def editCount (ps : List AlignPiece) : Nat := (ps.filter fun p => match p with | .mat _ => false | _ => true).length

theorem editCount_append (a b : List AlignPiece) : editCount (a ++ b) = editCount a + editCount b := by
  simp [editCount]

/-- the weight of a piece -/
noncomputable def editWeight (_ _ : Nat) (p : AlignPiece) : ℝ := editCount [p]

theorem editDistance_local (z : ℝ) (p1 p2 : Nat) (ps : List AlignPiece) (p : AlignPiece) (old : ℝ) :
    editDistance ⟨z, p1, p2, ps ++ [p]⟩ old = .ok (old + editWeight p1 p2 p) := by
  unfold editDistance
  simp only [List.getLast?_append, List.getLast?_singleton, Option.some_or]
  cases p <;> simp [editWeight, editCount]

theorem editDistance_nonneg : editDistance.NonNeg := by
  intro a old c h
  unfold editDistance at h
  split at h
  · cases h
  · injection h with h; exact h.le
  · injection h with h; rw [← h]; linarith

theorem editDistance_cost (ps : List AlignPiece) : StepCost editDistance ps (editCount ps) := by
  induction ps using List.reverseRec with
  | nil => simpa [editCount] using StepCost.nil
  | append_singleton ps p ih =>
    refine .snoc _ _ _ _ ih ?_
    rw [editDistance_local, editCount_append]
    simp [editWeight]

theorem editDistance_total {a : StrAlignment} {old : ℝ} (h : a.pieces ≠ []) : ∃ c, editDistance a old = .ok c := by
  obtain ⟨z, p1, p2, ps⟩ := a
  rcases List.eq_nil_or_concat ps with rfl | ⟨l, p, rfl⟩
  · exact absurd rfl h
  · rw [List.concat_eq_append]
    exact ⟨_, editDistance_local _ _ _ _ _ _⟩

theorem Edit.cons' {s t : List Char} (h : Edit s t) (c : Char) : Edit (c :: s) (c :: t) := by
  cases h with
  | insert l r d => exact .insert (c :: l) r d
  | delete l r d => exact .delete (c :: l) r d
  | substitute l r d e => exact .substitute (c :: l) r d e

theorem Edits.cons' {n : Nat} {s t : List Char} (h : Edits n s t) (c : Char) : Edits n (c :: s) (c :: t) := by
  induction h with
  | refl => exact .refl _
  | step _ h2 ih => exact .step ih (Edit.cons' h2 c)

theorem edits_of_pieces (ps : List AlignPiece) : Edits (editCount ps) (cleanSide ps) (dirtySide ps) := by
  induction ps with
  | nil => exact .refl _
  | cons p ps ih =>
    have hc : cleanSide (p :: ps) = p.clean ++ cleanSide ps := by simp [cleanSide]
    have hd : dirtySide (p :: ps) = p.dirty ++ dirtySide ps := by simp [dirtySide]
    have he : editCount (p :: ps) = editCount ps + editCount [p] := by
      rw [← List.singleton_append, editCount_append, Nat.add_comm]
    rw [hc, hd, he]
    cases p with
    | del c => exact .step (Edits.cons' ih c) (.delete [] _ c)
    | ins c => exact .step ih (.insert [] _ c)
    | sub a b => exact .step (Edits.cons' ih a) (.substitute [] _ a b)
    | mat c => exact Edits.cons' ih c

theorem split_append {ps : List AlignPiece} {l r : List Char} (h : dirtySide ps = l ++ r) :
    ∃ ps1 ps2, ps = ps1 ++ ps2 ∧ dirtySide ps1 = l ∧ dirtySide ps2 = r := by
  induction ps generalizing l with
  | nil =>
    have h' : l = [] ∧ r = [] := by simpa using h.symm
    exact ⟨[], [], rfl, h'.1.symm, h'.2.symm⟩
  | cons p ps ih =>
    have hd : dirtySide (p :: ps) = p.dirty ++ dirtySide ps := by simp [dirtySide]
    cases l with
    | nil => exact ⟨[], p :: ps, rfl, rfl, h⟩
    | cons c l =>
      rw [hd] at h
      have h1 : (p.dirty = [] ∧ dirtySide ps = c :: l ++ r) ∨ (p.dirty = [c] ∧ dirtySide ps = l ++ r) := by
        cases p <;> simp [AlignPiece.dirty] at h ⊢ <;> tauto
      rcases h1 with ⟨e, h1⟩ | ⟨e, h1⟩
      · obtain ⟨a, b, rfl, h2, h3⟩ := ih h1
        exact ⟨p :: a, b, rfl, by rw [← List.singleton_append, dirtySide_append, dirtySide_single, e, h2]; rfl, h3⟩
      · obtain ⟨a, b, rfl, h2, h3⟩ := ih h1
        exact ⟨p :: a, b, rfl, by rw [← List.singleton_append, dirtySide_append, dirtySide_single, e, h2]; rfl, h3⟩

theorem split_cons {ps : List AlignPiece} {l r : List Char} {c : Char} (h : dirtySide ps = l ++ c :: r) :
    ∃ ps1 q ps2, ps = ps1 ++ q :: ps2 ∧ dirtySide ps1 = l ∧ q.dirty = [c] ∧ dirtySide ps2 = r := by
  obtain ⟨ps1, ps2, rfl, h1, h2⟩ := split_append h
  clear h
  induction ps2 generalizing ps1 with
  | nil => simp at h2
  | cons p ps ih =>
    have hd : dirtySide (p :: ps) = p.dirty ++ dirtySide ps := by simp [dirtySide]
    rw [hd] at h2
    have h3 : (p.dirty = [] ∧ dirtySide ps = c :: r) ∨ (p.dirty = [c] ∧ dirtySide ps = r) := by
      cases p <;> simp [AlignPiece.dirty] at h2 ⊢ <;> tauto
    rcases h3 with ⟨e, h3⟩ | ⟨e, h3⟩
    · obtain ⟨a, q, b, e1, e2, e3, e4⟩ := ih (ps1 ++ [p]) (by rw [dirtySide_append, dirtySide_single, e, h1, List.append_nil]) h3
      exact ⟨a, q, b, by rw [← e1]; simp, e2, e3, e4⟩
    · exact ⟨ps1, p, ps, rfl, h1, e, h3⟩

theorem cleanSide_mid (ps1 m ps2 : List AlignPiece) : cleanSide (ps1 ++ m ++ ps2) = cleanSide ps1 ++ cleanSide m ++ cleanSide ps2 := by
  simp

/-- replacing one piece of an alignment -/
theorem replace_piece {s t : List Char} {ps1 m ps2 : List AlignPiece} (h : IsAlignment s t (ps1 ++ m ++ ps2)) (m' : List AlignPiece)
    (hc : cleanSide m' = cleanSide m) (hv : Valid m') :
    IsAlignment s (dirtySide ps1 ++ dirtySide m' ++ dirtySide ps2) (ps1 ++ m' ++ ps2) := by
  refine ⟨?_, by simp, ?_⟩
  · rw [cleanSide_mid, hc, ← cleanSide_mid]; exact h.clean
  · intro a b hab
    rcases List.mem_append.mp hab with hab | hab
    · rcases List.mem_append.mp hab with hab | hab
      · exact h.subs a b (by simp [hab])
      · exact hv a b hab
    · exact h.subs a b (by simp [hab])

theorem pieces_of_edits {m : Nat} {s t : List Char} (h : Edits m s t) : ∃ ps, IsAlignment s t ps ∧ editCount ps ≤ m := by
  induction h with
  | refl s =>
    refine ⟨s.map .mat, ⟨?_, ?_, ?_⟩, ?_⟩
    · induction s with
      | nil => rfl
      | cons c s ih => rw [List.map_cons, ← List.singleton_append, cleanSide_append, ih]; rfl
    · induction s with
      | nil => rfl
      | cons c s ih => rw [List.map_cons, ← List.singleton_append, dirtySide_append, ih]; rfl
    · intro a b h; simp at h
    · have : editCount (s.map .mat) = 0 := by
        induction s with
        | nil => rfl
        | cons c s ih => rw [List.map_cons, ← List.singleton_append, editCount_append, ih]; rfl
      omega
  | @step n s t u _ h2 ih =>
    obtain ⟨ps, hal, hle⟩ := ih
    cases h2 with
    | insert l r c =>
      obtain ⟨ps1, ps2, rfl, e1, e2⟩ := split_append hal.dirty
      have := replace_piece (m := []) (by simpa using hal) [.ins c] rfl (by intro a b h; simp at h)
      rw [e1, e2] at this
      refine ⟨ps1 ++ [.ins c] ++ ps2, by simpa [AlignPiece.dirty] using this, ?_⟩
      rw [editCount_append, editCount_append]
      rw [editCount_append] at hle
      have : editCount [AlignPiece.ins c] = 1 := rfl
      omega
    | delete l r c =>
      obtain ⟨ps1, q, ps2, rfl, e1, e3, e2⟩ := split_cons hal.dirty
      have key : ∃ m', cleanSide m' = cleanSide [q] ∧ dirtySide m' = [] ∧ Valid m' ∧ editCount m' ≤ editCount [q] + 1 := by
        cases q with
        | del a => simp [AlignPiece.dirty] at e3
        | ins a => exact ⟨[], rfl, rfl, by intro a b h; simp at h, by simp [editCount]⟩
        | sub a b => exact ⟨[.del a], rfl, rfl, by intro a b h; simp at h, by simp [editCount]⟩
        | mat a => exact ⟨[.del a], rfl, rfl, by intro a b h; simp at h, by simp [editCount]⟩
      obtain ⟨m', k1, k2, k3, k4⟩ := key
      have := replace_piece (m := [q]) (ps1 := ps1) (ps2 := ps2) (by simpa using hal) m' k1 k3
      rw [e1, e2, k2, List.append_nil] at this
      refine ⟨_, this, ?_⟩
      rw [← List.singleton_append, editCount_append, editCount_append] at hle
      rw [editCount_append, editCount_append]
      omega
    | substitute l r c d =>
      obtain ⟨ps1, q, ps2, rfl, e1, e3, e2⟩ := split_cons hal.dirty
      have key : ∃ m', cleanSide m' = cleanSide [q] ∧ dirtySide m' = [d] ∧ Valid m' ∧ editCount m' ≤ editCount [q] + 1 := by
        cases q with
        | del a => simp [AlignPiece.dirty] at e3
        | ins a => exact ⟨[.ins d], rfl, rfl, by intro a b h; simp at h, by simp [editCount]⟩
        | sub a b =>
          by_cases had : a = d
          · exact ⟨[.mat a], rfl, by simp [AlignPiece.dirty, had], by intro a b h; simp at h, by simp [editCount]⟩
          · exact ⟨[.sub a d], rfl, rfl, by intro x y h; simp at h; rw [h.1, h.2]; exact had, by simp [editCount]⟩
        | mat a =>
          by_cases had : a = d
          · exact ⟨[.mat a], rfl, by simp [AlignPiece.dirty, had], by intro a b h; simp at h, by simp [editCount]⟩
          · exact ⟨[.sub a d], rfl, rfl, by intro x y h; simp at h; rw [h.1, h.2]; exact had, by simp [editCount]⟩
      obtain ⟨m', k1, k2, k3, k4⟩ := key
      have := replace_piece (m := [q]) (ps1 := ps1) (ps2 := ps2) (by simpa using hal) m' k1 k3
      rw [e1, e2, k2] at this
      refine ⟨_, by simpa using this, ?_⟩
      rw [← List.singleton_append, editCount_append, editCount_append] at hle
      rw [editCount_append, editCount_append]
      omega

/-- the best alignment under `edit_distance`, for the callers -/
theorem edit_best (s t : List Char) : ∃ a : StrAlignment, ∃ n : Nat, topkAlignments 1 s t editDistance = .ok [a] ∧
    IsAlignment s t a.pieces ∧ a.cost = n ∧ IsEditDistance s t n := by
  obtain ⟨R, hR⟩ := topk_total (k := 1) (cost := editDistance) (s := s) (t := t) (fun a old h _ _ => editDistance_total h)
  obtain ⟨heap, P, X, visited, I, hle, hend⟩ := topk_inv (by omega) hR
  have hne := I.nonempty (by omega) hend
  obtain ⟨a, rfl⟩ : ∃ a, R = [a] := by
    match R, hne, hle with
    | [a], _, _ => exact ⟨a, rfl⟩
    | _ :: _ :: _, _, hle => simp at hle; omega
  obtain ⟨hal, -, -, hc⟩ := I.spells (r := a) (by simp)
  have hcost := stepCost_det hc (editDistance_cost a.pieces)
  refine ⟨a, editCount a.pieces, hR, hal, hcost, ?_, ?_⟩
  · have := edits_of_pieces a.pieces
    rw [hal.clean, hal.dirty] at this
    exact this
  · intro m hm
    obtain ⟨ps, hps, hle'⟩ := pieces_of_edits hm
    obtain ⟨r, hr, er⟩ := I.root
    have := I.best hle hend editDistance_nonneg ⟨editWeight, editDistance_local⟩ ps.length ps r (editCount ps) rfl hr
      (by rw [er]; exact hps) (by rw [er]; exact editDistance_cost ps)
    have hcmp : (editCount a.pieces : ℝ) ≤ editCount ps := by
      rcases this with ⟨r', hr', e⟩ | ⟨-, h⟩
      · simp at hr'
        subst hr'
        rw [er, List.nil_append] at e
        rw [e]
      · have := h a (by simp)
        rwa [hcost] at this
    have : editCount a.pieces ≤ editCount ps := by exact_mod_cast hcmp
    omega

end Alignment
end Verif
