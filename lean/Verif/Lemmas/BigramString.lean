import Verif.Spec.BigramString
import Verif.Lemmas.AlignmentBest
/-! The bigram string emission: tables keep their shape and count every character. -/
namespace Verif
noncomputable section
namespace BigramString

/-- 96 tables of 96 categories -/
def Tables (l : List DirichletCategorical) : Prop := l.length = 96 ∧ ∀ d ∈ l, d.counts.length = 96

structure WF (s : BigramString) : Prop where
  ins : Tables s.insertions
  sub : Tables s.substitutions

def Idx (i : Int) : Prop := 0 ≤ i ∧ i < 96

theorem idx_char {c : Char} (h : 32 ≤ c.toNat ∧ c.toNat ≤ 126) : Idx (getIndex c) ∧ 1 ≤ getIndex c := by
  unfold Idx getIndex; omega

theorem idx_zero : Idx 0 := by unfold Idx; omega

def CtxOk (o : Option Char) : Prop := ∀ c, o = some c → 32 ≤ c.toNat ∧ c.toNat ≤ 126

theorem idx_ctx {o : Option Char} (h : CtxOk o) : Idx (ctxIndex o) := by
  cases o with
  | none => exact idx_zero
  | some c => exact (idx_char (h c rfl)).1

theorem getIndex_inj {c d : Char} (h : (getIndex c).toNat = (getIndex d).toNat) (hc : 32 ≤ c.toNat) (hd : 32 ≤ d.toNat) : c = d := by
  have : c.toNat = d.toNat := by unfold getIndex at h; omega
  exact Char.ext (UInt32.toNat_inj.mp this)

theorem vecAt_ok {l : List DirichletCategorical} {i : Int} (hl : Tables l) (hi : Idx i) :
    ∃ h : i.toNat < l.length, vecAt l i = .ok l[i.toNat] := by
  obtain ⟨h1, h2⟩ := hi
  have hlt : i.toNat < l.length := by rw [hl.1]; omega
  refine ⟨hlt, ?_⟩
  unfold vecAt
  rw [if_neg (by omega)]
  simp [idxR, List.getElem?_eq_getElem hlt]

theorem logp_ok {d : DirichletCategorical} {x : Int} (hd : d.counts.length = 96) (hx : Idx x) : ∃ v, d.logp x = .ok v := by
  obtain ⟨h1, h2⟩ := hx
  have hlt : x.toNat < d.counts.length := by rw [hd]; omega
  unfold DirichletCategorical.logp
  have hr : d.inRange x = true := by simp [DirichletCategorical.inRange, hd, h1, h2]
  simp only [bind, Except.bind, hr, assertR_true, idxR, List.getElem?_eq_getElem hlt]
  exact ⟨_, rfl⟩

theorem vecLogp_ok {l : List DirichletCategorical} {i x : Int} (hl : Tables l) (hi : Idx i) (hx : Idx x) :
    ∃ v, vecLogp l i x = .ok v := by
  obtain ⟨hlt, h⟩ := vecAt_ok hl hi
  unfold vecLogp
  simp only [bind, Except.bind, h]
  exact logp_ok (hl.2 _ (List.getElem_mem hlt)) hx

theorem outcome_set {l : List DirichletCategorical} {i : Nat} (hi : i < l.length) (d : DirichletCategorical) (j : Nat) :
    outcome (l.set i d) j = outcome l j + (d.counts.getD j 0 - l[i].counts.getD j 0) := by
  unfold outcome
  induction l generalizing i with
  | nil => simp at hi
  | cons a l ih =>
    cases i with
    | zero => simp only [List.set_cons_zero, List.map_cons, List.sum_cons, List.getElem_cons_zero]; ring
    | succ i =>
      simp only [List.set_cons_succ, List.map_cons, List.sum_cons, List.getElem_cons_succ]
      rw [ih (by simpa using hi)]
      ring

theorem getD_modify (l : List ℝ) (i j : Nat) (w : ℝ) (hi : i < l.length) :
    (l.modify i (· + w)).getD j 0 = l.getD j 0 + if j = i then w else 0 := by
  simp only [List.getD_eq_getElem?_getD, List.getElem?_modify]
  by_cases hj : j = i
  · subst hj
    simp [List.getElem?_eq_getElem hi]
  · simp [hj, Ne.symm hj]

theorem vecInc_ok {l : List DirichletCategorical} {i x : Int} (hl : Tables l) (hi : Idx i) (hx : Idx x) (w : ℝ) :
    ∃ l', vecInc l i x w = .ok l' ∧ Tables l' ∧
      (∀ j : Nat, ((l'[j]?).map DirichletCategorical.N).getD 0 = ((l[j]?).map DirichletCategorical.N).getD 0 +
        if j = i.toNat then w else 0) ∧
      (∀ j : Nat, outcome l' j = outcome l j + if j = x.toNat then w else 0) := by
  obtain ⟨hlt, h⟩ := vecAt_ok hl hi
  obtain ⟨hx1, hx2⟩ := hx
  have hd := hl.2 _ (List.getElem_mem hlt)
  have hxlt : x.toNat < l[i.toNat].counts.length := by rw [hd]; omega
  obtain ⟨d', hd'⟩ : ∃ d', d' = ({ l[i.toNat] with counts := l[i.toNat].counts.modify x.toNat (· + w), N := l[i.toNat].N + w } :
    DirichletCategorical) := ⟨_, rfl⟩
  have hinc : l[i.toNat].incorporate x w = .ok d' := by
    unfold DirichletCategorical.incorporate
    have hr : l[i.toNat].inRange x = true := by simp [DirichletCategorical.inRange, hd, hx1, hx2]
    simp only [bind, Except.bind, hr, assertR_true]
    rw [hd']
  refine ⟨l.set i.toNat d', ?_, ⟨by rw [List.length_set]; exact hl.1, ?_⟩, ?_, ?_⟩
  · unfold vecInc
    simp only [bind, Except.bind, h, hinc]
  · intro d hmem
    rcases List.mem_or_eq_of_mem_set hmem with hm | rfl
    · exact hl.2 d hm
    · rw [hd']
      simpa using hd
  · intro j
    rw [List.getElem?_set]
    by_cases hj : i.toNat = j
    · subst hj
      simp [hlt, hd']
    · simp [hj, Ne.symm hj]
  · intro j
    rw [outcome_set hlt, hd']
    simp only
    rw [getD_modify _ _ _ _ hxlt]
    ring

/-- the pieces use printable characters only -/
def PieceOk (p : AlignPiece) : Prop := Printable (p.clean ++ p.dirty)

theorem pieces_ok {s t : List Char} {ps : List AlignPiece} (h1 : cleanSide ps <+: s) (h2 : dirtySide ps <+: t) (hs : Printable s)
    (ht : Printable t) : ∀ p ∈ ps, PieceOk p := by
  intro p hp c hc
  rcases List.mem_append.mp hc with hc | hc
  · exact hs c (h1.subset (List.mem_flatMap.mpr ⟨p, hp, hc⟩))
  · exact ht c (h2.subset (List.mem_flatMap.mpr ⟨p, hp, hc⟩))

theorem distanceContext_ok {ps : List AlignPiece} (h : ∀ p ∈ ps, PieceOk p) : CtxOk (distanceContext ps) := by
  induction ps with
  | nil => intro c hc; cases hc
  | cons p ps ih =>
    have hp := h p (by simp)
    intro c hc
    cases p with
    | del a => injection hc with hc; subst hc; exact hp a (by simp [AlignPiece.clean])
    | ins a => exact ih (fun p hp => h p (by simp [hp])) c hc
    | sub a b => injection hc with hc; subst hc; exact hp a (by simp [AlignPiece.clean])
    | mat a => injection hc with hc; subst hc; exact hp a (by simp [AlignPiece.clean])

theorem pieceLogp_ok {s : BigramString} (hs : WF s) {ctx : Option Char} (hc : CtxOk ctx) {p : AlignPiece} (hp : PieceOk p) :
    ∃ v, pieceLogp s ctx p = .ok v := by
  cases p with
  | del c =>
    obtain ⟨a, ha⟩ := vecLogp_ok hs.ins (idx_ctx hc) idx_zero
    obtain ⟨b, hb⟩ := vecLogp_ok hs.sub (idx_char (hp c (by simp [AlignPiece.clean]))).1 idx_zero
    exact ⟨a + b, by simp only [pieceLogp, bind, Except.bind, ha, hb]⟩
  | ins c => exact vecLogp_ok hs.ins (idx_ctx hc) (idx_char (hp c (by simp [AlignPiece.dirty]))).1
  | sub o r =>
    obtain ⟨a, ha⟩ := vecLogp_ok hs.ins (idx_ctx hc) idx_zero
    obtain ⟨b, hb⟩ := vecLogp_ok hs.sub (idx_char (hp o (by simp [AlignPiece.clean]))).1 (idx_char (hp r (by simp [AlignPiece.dirty]))).1
    exact ⟨a + b, by simp only [pieceLogp, bind, Except.bind, ha, hb]⟩
  | mat c =>
    obtain ⟨a, ha⟩ := vecLogp_ok hs.ins (idx_ctx hc) idx_zero
    obtain ⟨b, hb⟩ := vecLogp_ok hs.sub (idx_char (hp c (by simp [AlignPiece.clean]))).1 (idx_char (hp c (by simp [AlignPiece.clean]))).1
    exact ⟨a + b, by simp only [pieceLogp, bind, Except.bind, ha, hb]⟩

theorem distance_ok {s : BigramString} (hs : WF s) {a : StrAlignment} (hne : a.pieces ≠ []) (hp : ∀ p ∈ a.pieces, PieceOk p) (old : ℝ) :
    ∃ c, s.logProbDistance a old = .ok c := by
  unfold logProbDistance
  have hl := List.getLast?_eq_some_getLast hne
  obtain ⟨v, hv⟩ := pieceLogp_ok hs (distanceContext_ok hp) (hp _ (List.getLast_mem hne))
  rw [hl]
  exact ⟨old - v, by simp only [bind, Except.bind, hv]⟩

theorem topk_ok {s : BigramString} (hs : WF s) {k : Int} {x y : List Char} (hx : Printable x) (hy : Printable y) :
    ∃ R, topkAlignments k x y s.logProbDistance = .ok R :=
  Alignment.topk_total fun _ old h0 h1 h2 => distance_ok hs h0 (pieces_ok h1 h2 hx hy) old

/-- what one piece adds to the counts -/
structure Adds (s s' : BigramString) (w : ℝ) (cs ds : List Char) : Prop where
  wf : WF s'
  N : s'.N = s.N
  clean : ∀ c, 32 ≤ c.toNat → s'.cleanSeen c = s.cleanSeen c + w * cs.count c
  dirty : ∀ c, 32 ≤ c.toNat → s'.dirtySeen c = s.dirtySeen c + w * ds.count c
  non : s'.nonInsertions = s.nonInsertions + w * cs.length

theorem Adds.trans {s s' s'' w c d c' d'} (h : Adds s s' w c d) (h' : Adds s' s'' w c' d') : Adds s s'' w (c ++ c') (d ++ d') := by
  refine ⟨h'.wf, h'.N.trans h.N, ?_, ?_, ?_⟩
  · intro x hx; rw [h'.clean x hx, h.clean x hx, List.count_append]; push_cast; ring
  · intro x hx; rw [h'.dirty x hx, h.dirty x hx, List.count_append]; push_cast; ring
  · rw [h'.non, h.non, List.length_append]; push_cast; ring

theorem char_ite {c d : Char} (hc : 32 ≤ c.toNat) (hd : 32 ≤ d.toNat) (w : ℝ) :
    (if (getIndex c).toNat = (getIndex d).toNat then w else 0) = w * (([d] : List Char).count c : ℝ) := by
  by_cases h : c = d
  · subst h; simp
  · rw [if_neg (fun h' => h (getIndex_inj h' hc hd)), List.count_singleton]
    simp [Ne.symm h]

theorem idx_pos {c : Char} (hc : 32 ≤ c.toNat) : (getIndex c).toNat ≠ (0 : Int).toNat := by unfold getIndex; omega

theorem incPiece_ok {s : BigramString} (hs : WF s) {ctx : Option Char} (hc : CtxOk ctx) (w : ℝ) {p : AlignPiece} (hp : PieceOk p) :
    ∃ s' ctx', incPiece s ctx w p = .ok (s', ctx') ∧ CtxOk ctx' ∧ Adds s s' w p.clean p.dirty := by
  -- the common part of deletions, substitutions and matches
  have both : ∀ (c : Char) (x : Int) (dirty : List Char), (32 ≤ c.toNat ∧ c.toNat ≤ 126) → Idx x →
      (∀ e : Char, 32 ≤ e.toNat → (if (getIndex e).toNat = x.toNat then w else 0) = w * (dirty.count e : ℝ)) →
      ∃ i u, vecInc s.insertions (ctxIndex ctx) 0 w = .ok i ∧ vecInc s.substitutions (getIndex c) x w = .ok u ∧
        Adds s { s with insertions := i, substitutions := u } w [c] dirty := by
    intro c x dirty hcc hx hd
    obtain ⟨i, hi, i1, i2, i3⟩ := vecInc_ok hs.ins (idx_ctx hc) idx_zero w
    obtain ⟨u, hu, u1, u2, u3⟩ := vecInc_ok hs.sub (idx_char hcc).1 hx w
    refine ⟨i, u, hi, hu, ⟨i1, u1⟩, rfl, ?_, ?_, ?_⟩
    · intro e he
      unfold cleanSeen
      simp only
      rw [u2, char_ite he hcc.1]
    · intro e he
      unfold dirtySeen
      simp only
      rw [i3, u3, hd e he, if_neg (idx_pos he)]
      ring
    · unfold nonInsertions
      simp only
      rw [i3]
      simp
  cases p with
  | del c =>
    have hcc := hp c (by simp [AlignPiece.clean])
    obtain ⟨i, u, hi, hu, ha⟩ := both c 0 [] hcc idx_zero (by intro e he; rw [if_neg (idx_pos he)]; simp)
    exact ⟨_, some c, by simp only [incPiece, bind, Except.bind, hi, hu], fun d hd => by injection hd with hd; subst hd; exact hcc, ha⟩
  | ins c =>
    have hcc := hp c (by simp [AlignPiece.dirty])
    obtain ⟨i, hi, i1, i2, i3⟩ := vecInc_ok hs.ins (idx_ctx hc) (idx_char hcc).1 w
    refine ⟨{ s with insertions := i }, ctx, by simp only [incPiece, bind, Except.bind, hi], hc, ⟨i1, hs.sub⟩, rfl, ?_, ?_, ?_⟩
    · intro e he
      unfold cleanSeen
      simp [AlignPiece.clean]
    · intro e he
      unfold dirtySeen
      simp only
      rw [i3, char_ite he hcc.1]
      simp only [AlignPiece.dirty]
      ring
    · unfold nonInsertions
      simp only
      rw [i3, if_neg]
      · simp [AlignPiece.clean]
      · exact fun h => idx_pos hcc.1 (by simpa using h.symm)
  | sub o r =>
    have hcc := hp o (by simp [AlignPiece.clean])
    have hrr := hp r (by simp [AlignPiece.dirty])
    obtain ⟨i, u, hi, hu, ha⟩ := both o (getIndex r) [r] hcc (idx_char hrr).1 (fun e he => char_ite he hrr.1 w)
    exact ⟨_, some o, by simp only [incPiece, bind, Except.bind, hi, hu], fun d hd => by injection hd with hd; subst hd; exact hcc, ha⟩
  | mat c =>
    have hcc := hp c (by simp [AlignPiece.clean])
    obtain ⟨i, u, hi, hu, ha⟩ := both c (getIndex c) [c] hcc (idx_char hcc).1 (fun e he => char_ite he hcc.1 w)
    exact ⟨_, some c, by simp only [incPiece, bind, Except.bind, hi, hu], fun d hd => by injection hd with hd; subst hd; exact hcc, ha⟩

theorem incPieces_ok {s : BigramString} (hs : WF s) {ctx : Option Char} (hc : CtxOk ctx) (w : ℝ) {ps : List AlignPiece}
    (hp : ∀ p ∈ ps, PieceOk p) : ∃ s', incPieces s ctx w ps = .ok s' ∧ Adds s s' w (cleanSide ps) (dirtySide ps) := by
  induction ps generalizing s ctx with
  | nil => exact ⟨s, rfl, hs, rfl, by simp, by simp, by simp⟩
  | cons p ps ih =>
    obtain ⟨s1, ctx1, h1, h2, h3⟩ := incPiece_ok hs hc w (hp p (by simp))
    obtain ⟨s2, h4, h5⟩ := ih h3.wf h2 (fun p hp' => hp p (by simp [hp']))
    refine ⟨s2, by simp only [incPieces, bind, Except.bind, h1, h4], ?_⟩
    have := h3.trans h5
    simpa [cleanSide, dirtySide] using this

theorem incAlignments_ok {s : BigramString} (hs : WF s) {x y : List Char} (hx : Printable x) (hy : Printable y)
    (as : List (StrAlignment × ℝ)) (ha : ∀ a ∈ as, IsAlignment x y a.1.pieces) :
    ∃ s', incAlignments s as = .ok s' ∧ Adds s s' (as.map Prod.snd).sum x y := by
  induction as generalizing s with
  | nil => exact ⟨s, rfl, hs, rfl, by simp, by simp, by simp⟩
  | cons a as ih =>
    obtain ⟨a, w⟩ := a
    have hal := ha (a, w) (by simp)
    obtain ⟨s1, h1, h2⟩ := incPieces_ok hs (ctx := none) (by intro c hc; cases hc) w
      (pieces_ok ⟨[], by rw [List.append_nil]; exact hal.clean⟩ ⟨[], by rw [List.append_nil]; exact hal.dirty⟩ hx hy)
    obtain ⟨s2, h3, h4⟩ := ih h2.wf (fun b hb => ha b (by simp [hb]))
    rw [hal.clean, hal.dirty] at h2
    refine ⟨s2, by simp only [incAlignments, bind, Except.bind, h1, h3], h4.wf, h4.N.trans h2.N, ?_, ?_, ?_⟩
    · intro c hc; rw [h4.clean c hc, h2.clean c hc]; simp only [List.map_cons, List.sum_cons]; ring
    · intro c hc; rw [h4.dirty c hc, h2.dirty c hc]; simp only [List.map_cons, List.sum_cons]; ring
    · rw [h4.non, h2.non]; simp only [List.map_cons, List.sum_cons]; ring

theorem alignmentWeights_sum (weight : ℝ) {as : List StrAlignment} (h : as ≠ []) :
    ((alignmentWeights weight as).map Prod.snd).sum = weight := by
  unfold alignmentWeights
  simp only [List.map_map]
  have hpos : 0 < (as.map fun a => Real.exp a.cost).sum := by
    apply List.sum_pos
    · intro x hx
      obtain ⟨a, -, rfl⟩ := List.mem_map.mp hx
      exact Real.exp_pos _
    · simpa using h
  have : ∀ (T : ℝ) (l : List StrAlignment), (l.map (Prod.snd ∘ fun a => (a, weight * Real.exp a.cost / T))).sum =
      weight * (l.map fun a => Real.exp a.cost).sum / T := by
    intro T l
    induction l with
    | nil => simp
    | cons a l ih => simp only [List.map_cons, List.sum_cons, ih, Function.comp]; ring
  rw [this, mul_div_assoc, div_self hpos.ne', mul_one]

theorem incorporate_ok {s : BigramString} (hs : WF s) {x : List Char × List Char} (hx : Printable x.1) (hy : Printable x.2) (w : ℝ) :
    ∃ s', s.incorporate x w = .ok s' ∧ Adds { s with N := s.N + w } s' w x.1 x.2 := by
  have hs' : WF { s with N := s.N + w } := ⟨hs.ins, hs.sub⟩
  obtain ⟨R, hR⟩ := topk_ok hs' (k := 2) hx hy
  obtain ⟨heap, P, X, visited, I, -, hend⟩ := Alignment.topk_inv (by omega) hR
  have hne := I.nonempty (by omega) hend
  obtain ⟨s', h1, h2⟩ := incAlignments_ok hs' hx hy (alignmentWeights w R) (by
    intro a ha
    unfold alignmentWeights at ha
    obtain ⟨r, hr, rfl⟩ := List.mem_map.mp ha
    exact (I.spells hr).1)
  rw [alignmentWeights_sum w hne] at h2
  exact ⟨s', by simp only [incorporate, bind, Except.bind, hR, h1], h2⟩

theorem biased_eq {i : Nat} (h : i < 96) : biased i = { counts := (List.replicate 96 (0 : ℝ)).modify i (· + 96 * 96), N := 0 + 96 * 96 } := by
  unfold biased DirichletCategorical.incorporate
  have hr : (DirichletCategorical.mk' numContexts).inRange (i : Int) = true := by
    simp [DirichletCategorical.inRange, DirichletCategorical.mk', numContexts, h]
  simp only [bind, Except.bind, hr, assertR_true]
  simp [DirichletCategorical.mk', numContexts]

theorem init_wf : WF init := by
  have hb : ∀ i, i < 96 → (biased i).counts.length = 96 := by
    intro i hi
    rw [biased_eq hi]
    simp
  refine ⟨⟨by simp [init, numContexts], ?_⟩, ⟨by simp [init, numContexts], ?_⟩⟩
  · intro d hd
    obtain ⟨i, hi, rfl⟩ := List.mem_map.mp hd
    exact hb 0 (by omega)
  · intro d hd
    obtain ⟨i, hi, rfl⟩ := List.mem_map.mp hd
    exact hb i (by simpa [numContexts] using hi)

theorem transAll_spec (l : List DirichletCategorical) (t : Tape) : (transAll l t).1.map DirichletCategorical.counts = l.map DirichletCategorical.counts ∧
    (transAll l t).1.map DirichletCategorical.N = l.map DirichletCategorical.N := by
  induction l generalizing t with
  | nil => exact ⟨rfl, rfl⟩
  | cons d ds ih =>
    simp only [transAll, List.map_cons]
    rw [(ih _).1, (ih _).2]
    exact ⟨rfl, rfl⟩

theorem tables_of_counts {l l' : List DirichletCategorical} (h : l'.map DirichletCategorical.counts = l.map DirichletCategorical.counts)
    (hl : Tables l) : Tables l' := by
  have hlen := congrArg List.length h
  simp only [List.length_map] at hlen
  refine ⟨hlen.trans hl.1, ?_⟩
  intro d hd
  have : d.counts ∈ l'.map DirichletCategorical.counts := List.mem_map_of_mem hd
  rw [h] at this
  obtain ⟨d', hd', e⟩ := List.mem_map.mp this
  rw [← e]
  exact hl.2 d' hd'

theorem trans_wf {s : BigramString} (hs : WF s) (t : Tape) : WF (s.transitionHyperparameters t).1 :=
  ⟨tables_of_counts (transAll_spec _ _).1 hs.ins, tables_of_counts (transAll_spec _ _).1 hs.sub⟩

theorem Reach.wf {s : BigramString} (h : Reach s) : WF s := by
  induction h with
  | init => exact init_wf
  | incorporate _ hx hy hi ih =>
    obtain ⟨s', h1, h2⟩ := incorporate_ok ih hx hy _
    rw [hi] at h1
    injection h1 with h1
    subst h1
    exact h2.wf
  | trans t _ ih => exact trans_wf ih t

end BigramString
end
end Verif
