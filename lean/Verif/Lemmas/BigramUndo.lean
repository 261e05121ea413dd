import Verif.Lemmas.BigramString
/-! The two alignments that the bigram string emission considers for a one character string that is copied faithfully. -/
namespace Verif
noncomputable section
namespace BigramString
open Alignment

/-- the alignments of a character with itself -/
def copied (cost : ℝ) : StrAlignment := ⟨cost, 1, 1, [.mat 'a']⟩
def insDel (cost : ℝ) : StrAlignment := ⟨cost, 1, 1, [.ins 'a', .del 'a']⟩
def delIns (cost : ℝ) : StrAlignment := ⟨cost, 1, 1, [.del 'a', .ins 'a']⟩

theorem copied_cost (c : ℝ) : (copied c).cost = c := rfl
theorem insDel_cost (c : ℝ) : (insDel c).cost = c := rfl
theorem delIns_cost (c : ℝ) : (delIns c).cost = c := rfl

variable {s : BigramString} {lm ld li li' : ℝ}

theorem popMax_pair {x y : StrAlignment} : ((popMax x [y]).1 = x ∧ (popMax x [y]).2 = [y]) ∨ ((popMax x [y]).1 = y ∧ (popMax x [y]).2 = [x]) := by
  unfold popMax
  split
  · exact .inr ⟨rfl, rfl⟩
  · exact .inl ⟨rfl, rfl⟩

theorem cont_root (hm : pieceLogp s (some 'a') (.mat 'a') = .ok lm) (hd : pieceLogp s (some 'a') (.del 'a') = .ok ld)
    (hi : pieceLogp s none (.ins 'a') = .ok li) :
    continuations s.logProbDistance ['a'] ['a'] ⟨0, 0, 0, []⟩ =
      .ok [⟨ld, 1, 0, [.del 'a']⟩, ⟨li, 0, 1, [.ins 'a']⟩, ⟨lm, 1, 1, [.mat 'a']⟩] := by
  simp [continuations, growDel, growIns, growBoth, grow, idxR, bind, Except.bind, logProbDistance, distanceContext, hm, hd, hi]

theorem cont_del (hi' : pieceLogp s (some 'a') (.ins 'a') = .ok li') :
    continuations s.logProbDistance ['a'] ['a'] ⟨ld, 1, 0, [.del 'a']⟩ = .ok [delIns (ld + li')] := by
  simp [continuations, growDel, growIns, growBoth, grow, idxR, bind, Except.bind, logProbDistance, distanceContext, hi', delIns]
  ring

theorem cont_ins (hd : pieceLogp s (some 'a') (.del 'a') = .ok ld) :
    continuations s.logProbDistance ['a'] ['a'] ⟨li, 0, 1, [.ins 'a']⟩ = .ok [insDel (li + ld)] := by
  simp [continuations, growDel, growIns, growBoth, grow, idxR, bind, Except.bind, logProbDistance, distanceContext, hd, insDel]
  ring

/-- what the search returns after the copy -/
def Second (ld li li' : ℝ) (x : StrAlignment) : Prop := x = insDel (-(li + ld)) ∨ x = delIns (-(ld + li'))

section steps
variable {k : Int} {cost : CostFunction} {s1 s2 : List Char} {b top : StrAlignment} {rest heap' : List StrAlignment}
  {visited : Nat × Nat → Int} {found : List StrAlignment}

/-- the search ends with enough alignments -/
theorem loop_done {heap : List StrAlignment} (h : ¬ (found.length : Int) < k) : loop k cost s1 s2 heap visited found = .ok found := by
  rw [loop.eq_def, if_neg h]

/-- the search takes a complete alignment -/
theorem loop_found (h : (found.length : Int) < k) (hp : popMax b rest = (top, heap')) (hv : visited (top.p1, top.p2) + 1 ≤ k)
    (hc : top.p1 = s1.length ∧ top.p2 = s2.length) :
    loop k cost s1 s2 (b :: rest) visited found =
      loop k cost s1 s2 heap' (Function.update visited (top.p1, top.p2) (visited (top.p1, top.p2) + 1))
        (found ++ [{ top with cost := -top.cost }]) := by
  rw [loop.eq_def, if_pos h]
  simp only [hp, Function.update_self]
  rw [if_neg (by omega), if_pos hc]

/-- the search takes an incomplete alignment -/
theorem loop_grow (h : (found.length : Int) < k) (hp : popMax b rest = (top, heap')) (hv : visited (top.p1, top.p2) + 1 ≤ k)
    (hc : ¬ (top.p1 = s1.length ∧ top.p2 = s2.length)) {cs : List StrAlignment} (hcs : continuations cost s1 s2 top = .ok cs) :
    loop k cost s1 s2 (b :: rest) visited found =
      loop k cost s1 s2 (heap' ++ cs) (Function.update visited (top.p1, top.p2) (visited (top.p1, top.p2) + 1)) found := by
  rw [loop.eq_def, if_pos h]
  simp only [hp, Function.update_self]
  rw [if_neg (by omega), if_neg hc]
  split
  · rename_i e he
    rw [hp, hcs] at he
    cases he
  · rename_i cs' he
    rw [hp, hcs] at he
    injection he with he
    rw [he]

end steps

/-- a complete alignment ends the search -/
theorem loop_last {visited : Nat × Nat → Int} (hv : visited (1, 1) = 1) {found x b : StrAlignment} {rest heap' : List StrAlignment}
    (hx : popMax b rest = (x, heap')) (h1 : x.p1 = 1) (h2 : x.p2 = 1) {cost : CostFunction} :
    loop 2 cost ['a'] ['a'] (b :: rest) visited [found] = .ok [found, { x with cost := -x.cost }] := by
  have := loop_found (s1 := ['a']) (s2 := ['a']) (cost := cost) (k := 2) (found := [found]) (visited := visited) (by simp) hx
    (by rw [h1, h2, hv]; norm_num) ⟨h1, h2⟩
  rw [this, loop_done (by simp)]
  rfl

theorem topk_copied (hm : pieceLogp s (some 'a') (.mat 'a') = .ok lm) (hd : pieceLogp s (some 'a') (.del 'a') = .ok ld)
    (hi : pieceLogp s none (.ins 'a') = .ok li) (hi' : pieceLogp s (some 'a') (.ins 'a') = .ok li') (hdm : ld < lm) (him : li < lm) :
    ∃ x, topkAlignments 2 ['a'] ['a'] s.logProbDistance = .ok [copied (-lm), x] ∧ Second ld li li' x := by
  obtain ⟨D, hD⟩ : ∃ D : StrAlignment, D = ⟨ld, 1, 0, [.del 'a']⟩ := ⟨_, rfl⟩
  obtain ⟨I, hI⟩ : ∃ I : StrAlignment, I = ⟨li, 0, 1, [.ins 'a']⟩ := ⟨_, rfl⟩
  obtain ⟨M, hM⟩ : ∃ M : StrAlignment, M = ⟨lm, 1, 1, [.mat 'a']⟩ := ⟨_, rfl⟩
  have cr := cont_root hm hd hi
  have cd := cont_del (ld := ld) hi'
  have ci := cont_ins (li := li) hd
  rw [← hD, ← hI, ← hM] at cr
  rw [← hD] at cd
  rw [← hI] at ci
  -- the first pop after the root gives the copy
  have hpop : popMax D [I, M] = (M, [D, I]) ∨ popMax D [I, M] = (M, [I, D]) := by
    have hDM : ¬ M.Lt D := by rw [hD, hM]; unfold StrAlignment.Lt; simp only; rintro (h | ⟨h, -⟩) <;> linarith
    have h1 : D.Lt M := .inl (by rw [hD, hM]; exact hdm)
    have h2 : I.Lt M := .inl (by rw [hI, hM]; exact him)
    unfold popMax
    split
    · unfold popMax
      rw [if_pos h2]
      exact .inl rfl
    · unfold popMax
      rw [if_pos h1]
      exact .inr rfl
  -- the search after the copy was found
  have key : ∀ (x y : StrAlignment) (visited : Nat × Nat → Int), visited (1, 1) = 1 → visited (1, 0) = 0 → visited (0, 1) = 0 →
      (x = D ∧ y = I ∨ x = I ∧ y = D) →
      ∃ z, loop 2 s.logProbDistance ['a'] ['a'] [x, y] visited [copied (-lm)] = .ok [copied (-lm), z] ∧ Second ld li li' z := by
    intro x y visited v1 v2 v3 hxy
    -- one of the two is taken first
    have hp : popMax x [y] = (D, [I]) ∨ popMax x [y] = (I, [D]) := by
      rcases popMax_pair (x := x) (y := y) with ⟨h1, h2⟩ | ⟨h1, h2⟩ <;> rcases hxy with ⟨rfl, rfl⟩ | ⟨rfl, rfl⟩
      · exact .inl (Prod.ext h1 h2)
      · exact .inr (Prod.ext h1 h2)
      · exact .inr (Prod.ext h1 h2)
      · exact .inl (Prod.ext h1 h2)
    have fin : ∀ (b : StrAlignment) (rest : List StrAlignment) (visited : Nat × Nat → Int) (x : StrAlignment) (h : List StrAlignment),
        visited (1, 1) = 1 → popMax b rest = (x, h) → (x = delIns (ld + li') ∨ x = insDel (li + ld)) →
        ∃ z, loop 2 s.logProbDistance ['a'] ['a'] (b :: rest) visited [copied (-lm)] = .ok [copied (-lm), z] ∧ Second ld li li' z := by
      intro b rest visited x h v hx hx'
      rcases hx' with rfl | rfl
      · exact ⟨_, loop_last v hx rfl rfl, .inr rfl⟩
      · exact ⟨_, loop_last v hx rfl rfl, .inl rfl⟩
    have hD1 : D.p1 = 1 := by rw [hD]
    have hD2 : D.p2 = 0 := by rw [hD]
    have hI1 : I.p1 = 0 := by rw [hI]
    have hI2 : I.p2 = 1 := by rw [hI]
    rcases hp with hp | hp
    · rw [loop_grow (by simp) hp (by rw [hD1, hD2, v2]; norm_num) (by simp [hD2]) cd]
      rcases popMax_pair (x := I) (y := delIns (ld + li')) with ⟨h1, h2⟩ | ⟨h1, h2⟩
      · rw [List.singleton_append, loop_grow (by simp) (Prod.ext h1 h2) (by simp [hD1, hD2, hI1, hI2, v3]) (by simp [hI1]) ci]
        rcases popMax_pair (x := delIns (ld + li')) (y := insDel (li + ld)) with ⟨h1, h2⟩ | ⟨h1, h2⟩
        · exact fin _ _ _ _ _ (by simp [hD1, hD2, hI1, hI2, v1]) (Prod.ext h1 h2) (.inl rfl)
        · exact fin _ _ _ _ _ (by simp [hD1, hD2, hI1, hI2, v1]) (Prod.ext h1 h2) (.inr rfl)
      · exact fin _ _ _ _ _ (by simp [hD1, hD2, v1]) (Prod.ext h1 h2) (.inl rfl)
    · rw [loop_grow (by simp) hp (by rw [hI1, hI2, v3]; norm_num) (by simp [hI1]) ci]
      rcases popMax_pair (x := D) (y := insDel (li + ld)) with ⟨h1, h2⟩ | ⟨h1, h2⟩
      · rw [List.singleton_append, loop_grow (by simp) (Prod.ext h1 h2) (by simp [hD1, hD2, hI1, hI2, v2]) (by simp [hD2]) cd]
        rcases popMax_pair (x := insDel (li + ld)) (y := delIns (ld + li')) with ⟨h1, h2⟩ | ⟨h1, h2⟩
        · exact fin _ _ _ _ _ (by simp [hD1, hD2, hI1, hI2, v1]) (Prod.ext h1 h2) (.inr rfl)
        · exact fin _ _ _ _ _ (by simp [hD1, hD2, hI1, hI2, v1]) (Prod.ext h1 h2) (.inl rfl)
      · exact fin _ _ _ _ _ (by simp [hI1, hI2, v1]) (Prod.ext h1 h2) (.inr rfl)
  unfold topkAlignments
  rw [loop_grow (by simp) (show popMax _ [] = (_, []) from rfl) (by norm_num) (by simp) cr, List.nil_append]
  have hM1 : M.p1 = 1 := by rw [hM]
  have hM2 : M.p2 = 1 := by rw [hM]
  have hMc : ({ M with cost := -M.cost } : StrAlignment) = copied (-lm) := by rw [hM]; rfl
  rcases hpop with hpop | hpop
  · rw [loop_found (s1 := ['a']) (s2 := ['a']) (by simp) hpop (by rw [hM1, hM2]; simp) ⟨hM1, hM2⟩, List.nil_append, hMc]
    exact key _ _ _ (by simp [hM1, hM2]) (by simp [hM1, hM2]) (by simp [hM1, hM2]) (.inl ⟨rfl, rfl⟩)
  · rw [loop_found (s1 := ['a']) (s2 := ['a']) (by simp) hpop (by rw [hM1, hM2]; simp) ⟨hM1, hM2⟩, List.nil_append, hMc]
    exact key _ _ _ (by simp [hM1, hM2]) (by simp [hM1, hM2]) (by simp [hM1, hM2]) (.inr ⟨rfl, rfl⟩)

/-! ### The numbers behind the costs -/

/-- a table of a vector -/
def tab (l : List DirichletCategorical) (i : Nat) : DirichletCategorical := l.getD i (.mk' 0)

/-- a count of a table -/
def num (l : List DirichletCategorical) (i x : Nat) : ℝ := (tab l i).counts.getD x 0

theorem vecLogp_num {l : List DirichletCategorical} {i x : Int} (hl : Tables l) (hi : Idx i) (hx : Idx x)
    (ha : (tab l i.toNat).alpha = 1) :
    vecLogp l i x = .ok (Real.log (1 + num l i.toNat x.toNat) - Real.log ((tab l i.toNat).N + 96)) := by
  obtain ⟨hlt, h⟩ := vecAt_ok hl hi
  have ht : tab l i.toNat = l[i.toNat] := by unfold tab; rw [List.getD_eq_getElem?_getD, List.getElem?_eq_getElem hlt]; rfl
  have hd := hl.2 _ (List.getElem_mem hlt)
  obtain ⟨hx1, hx2⟩ := hx
  have hxlt : x.toNat < l[i.toNat].counts.length := by rw [hd]; omega
  have hr : l[i.toNat].inRange x = true := by simp [DirichletCategorical.inRange, hd, hx1, hx2]
  unfold vecLogp num
  rw [ht] at ha ⊢
  simp only [bind, Except.bind, h, DirichletCategorical.logp, hr, assertR_true, idxR, List.getElem?_eq_getElem hxlt, ha, hd,
    List.getD_eq_getElem?_getD, Option.getD_some, one_mul]
  norm_num

theorem vecInc_num {l : List DirichletCategorical} {i x : Int} (hl : Tables l) (hi : Idx i) (hx : Idx x) (w : ℝ) :
    ∃ l', vecInc l i x w = .ok l' ∧ Tables l' ∧ (∀ j, (tab l' j).alpha = (tab l j).alpha) ∧
      (∀ j, (tab l' j).N = (tab l j).N + if j = i.toNat then w else 0) ∧
      (∀ j y, num l' j y = num l j y + if j = i.toNat ∧ y = x.toNat then w else 0) := by
  obtain ⟨hlt, h⟩ := vecAt_ok hl hi
  obtain ⟨l', h1, h2, -, -⟩ := vecInc_ok hl hi hx w
  obtain ⟨hx1, hx2⟩ := hx
  have hd := hl.2 _ (List.getElem_mem hlt)
  have hxlt : x.toNat < l[i.toNat].counts.length := by rw [hd]; omega
  have hr : l[i.toNat].inRange x = true := by simp [DirichletCategorical.inRange, hd, hx1, hx2]
  have e : vecInc l i x w = .ok (l.set i.toNat { l[i.toNat] with
      counts := l[i.toNat].counts.modify x.toNat (· + w), N := l[i.toNat].N + w }) := by
    unfold vecInc DirichletCategorical.incorporate
    simp only [bind, Except.bind, h, hr, assertR_true]
  rw [h1] at e
  injection e with e
  refine ⟨l', h1, h2, ?_, ?_, ?_⟩ <;> intro j
  all_goals
    by_cases hj : j = i.toNat
    · subst hj
      have ht : tab l i.toNat = l[i.toNat] := by unfold tab; rw [List.getD_eq_getElem?_getD, List.getElem?_eq_getElem hlt]; rfl
      have ht' : tab l' i.toNat = { l[i.toNat] with counts := l[i.toNat].counts.modify x.toNat (· + w), N := l[i.toNat].N + w } := by
        unfold tab; rw [e, List.getD_eq_getElem?_getD, List.getElem?_set_self hlt]; rfl
      simp only [num, ht, ht', if_true, true_and]
      try (intro y; exact getD_modify _ _ _ _ hxlt)
    · have ht : tab l' j = tab l j := by
        unfold tab; rw [e, List.getD_eq_getElem?_getD, List.getD_eq_getElem?_getD, List.getElem?_set_ne (Ne.symm hj)]
      simp [num, ht, hj]

/-- the counts that the alignments of the string `a` with itself depend on: of the insertions without a context, of the insertions
after an `a`, and of the substitutions of an `a` -/
@[ext] structure Nums where
  a66 : ℝ
  aN : ℝ
  b0 : ℝ
  b66 : ℝ
  bN : ℝ
  s0 : ℝ
  s66 : ℝ
  sN : ℝ

def nums (s : BigramString) : Nums where
  a66 := num s.insertions 0 66
  aN := (tab s.insertions 0).N
  b0 := num s.insertions 66 0
  b66 := num s.insertions 66 66
  bN := (tab s.insertions 66).N
  s0 := num s.substitutions 66 0
  s66 := num s.substitutions 66 66
  sN := (tab s.substitutions 66).N

/-- the hyperparameters have not been resampled -/
structure Ones (s : BigramString) : Prop where
  wf : WF s
  a : (tab s.insertions 0).alpha = 1
  b : (tab s.insertions 66).alpha = 1
  c : (tab s.substitutions 66).alpha = 1

theorem idx66 : Idx 66 := by unfold Idx; omega
theorem getIndex_a : getIndex 'a' = 66 := rfl

theorem inc_copied (hs : Ones s) (w c : ℝ) : ∃ s', incPieces s none w (copied c).pieces = .ok s' ∧ Ones s' ∧
    nums s' = ⟨(nums s).a66, (nums s).aN + w, (nums s).b0, (nums s).b66, (nums s).bN, (nums s).s0, (nums s).s66 + w,
      (nums s).sN + w⟩ := by
  obtain ⟨i, hi, i1, i2, i3, i4⟩ := vecInc_num hs.wf.ins idx_zero idx_zero w
  obtain ⟨u, hu, u1, u2, u3, u4⟩ := vecInc_num hs.wf.sub idx66 idx66 w
  refine ⟨{ s with insertions := i, substitutions := u }, ?_, ⟨⟨i1, u1⟩, ?_, ?_, ?_⟩, ?_⟩
  · simp only [copied, incPieces, incPiece, bind, Except.bind, ctxIndex, getIndex_a, hi, hu]
  · rw [i2]; exact hs.a
  · rw [i2]; exact hs.b
  · rw [u2]; exact hs.c
  · apply Nums.ext <;> simp [nums, i3, i4, u3, u4]

theorem inc_insDel (hs : Ones s) (w c : ℝ) : ∃ s', incPieces s none w (insDel c).pieces = .ok s' ∧ Ones s' ∧
    nums s' = ⟨(nums s).a66 + w, (nums s).aN + w + w, (nums s).b0, (nums s).b66, (nums s).bN, (nums s).s0 + w, (nums s).s66,
      (nums s).sN + w⟩ := by
  obtain ⟨i, hi, i1, i2, i3, i4⟩ := vecInc_num hs.wf.ins idx_zero idx66 w
  obtain ⟨j, hj, j1, j2, j3, j4⟩ := vecInc_num i1 idx_zero idx_zero w
  obtain ⟨u, hu, u1, u2, u3, u4⟩ := vecInc_num hs.wf.sub idx66 idx_zero w
  refine ⟨{ s with insertions := j, substitutions := u }, ?_, ⟨⟨j1, u1⟩, ?_, ?_, ?_⟩, ?_⟩
  · simp only [insDel, incPieces, incPiece, bind, Except.bind, ctxIndex, getIndex_a, hi, hj, hu]
  · rw [j2, i2]; exact hs.a
  · rw [j2, i2]; exact hs.b
  · rw [u2]; exact hs.c
  · apply Nums.ext <;> simp [nums, i3, i4, u3, u4, j3, j4]

theorem inc_delIns (hs : Ones s) (w c : ℝ) : ∃ s', incPieces s none w (delIns c).pieces = .ok s' ∧ Ones s' ∧
    nums s' = ⟨(nums s).a66, (nums s).aN + w, (nums s).b0, (nums s).b66 + w, (nums s).bN + w, (nums s).s0 + w, (nums s).s66,
      (nums s).sN + w⟩ := by
  obtain ⟨i, hi, i1, i2, i3, i4⟩ := vecInc_num hs.wf.ins idx_zero idx_zero w
  obtain ⟨u, hu, u1, u2, u3, u4⟩ := vecInc_num hs.wf.sub idx66 idx_zero w
  obtain ⟨j, hj, j1, j2, j3, j4⟩ := vecInc_num i1 idx66 idx66 w
  refine ⟨{ s with insertions := j, substitutions := u }, ?_, ⟨⟨j1, u1⟩, ?_, ?_, ?_⟩, ?_⟩
  · simp only [delIns, incPieces, incPiece, bind, Except.bind, ctxIndex, getIndex_a, hi, hj, hu]
  · rw [j2, i2]; exact hs.a
  · rw [j2, i2]; exact hs.b
  · rw [u2]; exact hs.c
  · apply Nums.ext <;> simp [nums, i3, i4, u3, u4, j3, j4]

theorem exp_neg_logs {u v : ℝ} (hu : 0 < u) (hv : 0 < v) : Real.exp (-(Real.log u - Real.log v)) = v / u := by
  rw [neg_sub, Real.exp_sub, Real.exp_log hu, Real.exp_log hv]

/-- the inverse probabilities of the three alignments -/
def Nums.eM (n : Nums) : ℝ := (n.bN + 96) / (1 + n.b0) * ((n.sN + 96) / (1 + n.s66))
def Nums.eI (n : Nums) : ℝ := (n.aN + 96) / (1 + n.a66) * ((n.bN + 96) / (1 + n.b0) * ((n.sN + 96) / (1 + n.s0)))
def Nums.eD (n : Nums) : ℝ := (n.bN + 96) / (1 + n.b0) * ((n.sN + 96) / (1 + n.s0)) * ((n.bN + 96) / (1 + n.b66))

/-- the numbers after copying with weight `m`, and inserting and deleting with weight `d` -/
def Nums.ins (n : Nums) (m d : ℝ) : Nums :=
  ⟨n.a66 + d, n.aN + m + d + d, n.b0, n.b66, n.bN, n.s0 + d, n.s66 + m, n.sN + m + d⟩
/-- the numbers after copying with weight `m`, and deleting and inserting with weight `d` -/
def Nums.del (n : Nums) (m d : ℝ) : Nums :=
  ⟨n.a66, n.aN + m + d, n.b0, n.b66 + d, n.bN + d, n.s0 + d, n.s66 + m, n.sN + m + d⟩

/-- the numbers are counts, and a copy is the likeliest first step -/
structure Nums.Fine (n : Nums) : Prop where
  a66 : 0 < 1 + n.a66
  aN : 0 < n.aN + 96
  b0 : 0 < 1 + n.b0
  b66 : 0 < 1 + n.b66
  bN : 0 < n.bN + 96
  s0 : 0 < 1 + n.s0
  s66 : 0 < 1 + n.s66
  sN : 0 < n.sN + 96
  del : n.s0 < n.s66
  ins : (1 + n.a66) / (n.aN + 96) < (1 + n.b0) / (n.bN + 96) * ((1 + n.s66) / (n.sN + 96))

theorem incorporate_copied (hs : Ones s) (h : (nums s).Fine) (w : ℝ) :
    ∃ s', s.incorporate (['a'], ['a']) w = .ok s' ∧ Ones s' ∧
      (nums s' = (nums s).ins (w * (nums s).eM / ((nums s).eM + (nums s).eI)) (w * (nums s).eI / ((nums s).eM + (nums s).eI)) ∨
       nums s' = (nums s).del (w * (nums s).eM / ((nums s).eM + (nums s).eD)) (w * (nums s).eD / ((nums s).eM + (nums s).eD))) := by
  have l1 := vecLogp_num hs.wf.ins idx66 idx_zero hs.b
  have l2 := vecLogp_num hs.wf.sub idx66 idx66 hs.c
  have l3 := vecLogp_num hs.wf.sub idx66 idx_zero hs.c
  have l4 := vecLogp_num hs.wf.ins idx_zero idx66 hs.a
  have l5 := vecLogp_num hs.wf.ins idx66 idx66 hs.b
  have hs' : Ones { s with N := s.N + w } := ⟨⟨hs.wf.ins, hs.wf.sub⟩, hs.a, hs.b, hs.c⟩
  obtain ⟨n, hn⟩ : ∃ n, nums s = n := ⟨_, rfl⟩
  have hn' : nums { s with N := s.N + w } = n := hn
  rw [hn] at h ⊢
  have e1 : vecLogp s.insertions 66 0 = .ok (Real.log (1 + n.b0) - Real.log (n.bN + 96)) := by rw [← hn]; exact l1
  have e2 : vecLogp s.substitutions 66 66 = .ok (Real.log (1 + n.s66) - Real.log (n.sN + 96)) := by rw [← hn]; exact l2
  have e3 : vecLogp s.substitutions 66 0 = .ok (Real.log (1 + n.s0) - Real.log (n.sN + 96)) := by rw [← hn]; exact l3
  have e4 : vecLogp s.insertions 0 66 = .ok (Real.log (1 + n.a66) - Real.log (n.aN + 96)) := by rw [← hn]; exact l4
  have e5 : vecLogp s.insertions 66 66 = .ok (Real.log (1 + n.b66) - Real.log (n.bN + 96)) := by rw [← hn]; exact l5
  have hm : pieceLogp { s with N := s.N + w } (some 'a') (.mat 'a') =
      .ok ((Real.log (1 + n.b0) - Real.log (n.bN + 96)) + (Real.log (1 + n.s66) - Real.log (n.sN + 96))) := by
    simp only [pieceLogp, ctxIndex, getIndex_a, bind, Except.bind, e1, e2]
  have hd : pieceLogp { s with N := s.N + w } (some 'a') (.del 'a') =
      .ok ((Real.log (1 + n.b0) - Real.log (n.bN + 96)) + (Real.log (1 + n.s0) - Real.log (n.sN + 96))) := by
    simp only [pieceLogp, ctxIndex, getIndex_a, bind, Except.bind, e1, e3]
  have hi : pieceLogp { s with N := s.N + w } none (.ins 'a') = .ok (Real.log (1 + n.a66) - Real.log (n.aN + 96)) := by
    simp only [pieceLogp, ctxIndex, getIndex_a, e4]
  have hi' : pieceLogp { s with N := s.N + w } (some 'a') (.ins 'a') = .ok (Real.log (1 + n.b66) - Real.log (n.bN + 96)) := by
    simp only [pieceLogp, ctxIndex, getIndex_a, e5]
  have hdm := Real.log_lt_log h.s0 (show 1 + n.s0 < 1 + n.s66 by linarith [h.del])
  have him : Real.log (1 + n.a66) - Real.log (n.aN + 96) <
      (Real.log (1 + n.b0) - Real.log (n.bN + 96)) + (Real.log (1 + n.s66) - Real.log (n.sN + 96)) := by
    have := Real.log_lt_log (div_pos h.a66 h.aN) h.ins
    rw [Real.log_mul (div_pos h.b0 h.bN).ne' (div_pos h.s66 h.sN).ne', Real.log_div h.a66.ne' h.aN.ne', Real.log_div h.b0.ne' h.bN.ne',
      Real.log_div h.s66.ne' h.sN.ne'] at this
    exact this
  obtain ⟨x, hx, hsec⟩ := topk_copied hm hd hi hi' (by linarith) him
  have wM : Real.exp (-((Real.log (1 + n.b0) - Real.log (n.bN + 96)) + (Real.log (1 + n.s66) - Real.log (n.sN + 96)))) = n.eM := by
    rw [neg_add, Real.exp_add, exp_neg_logs h.b0 h.bN, exp_neg_logs h.s66 h.sN]; rfl
  unfold incorporate
  simp only [bind, Except.bind, hx]
  rcases hsec with rfl | rfl
  · have wI : Real.exp (-((Real.log (1 + n.a66) - Real.log (n.aN + 96)) +
        ((Real.log (1 + n.b0) - Real.log (n.bN + 96)) + (Real.log (1 + n.s0) - Real.log (n.sN + 96))))) = n.eI := by
      rw [neg_add, Real.exp_add, neg_add, Real.exp_add, exp_neg_logs h.a66 h.aN, exp_neg_logs h.b0 h.bN, exp_neg_logs h.s0 h.sN]; rfl
    obtain ⟨t1, ht1, o1, m1⟩ := inc_copied hs' (w * n.eM / (n.eM + n.eI))
      (-((Real.log (1 + n.b0) - Real.log (n.bN + 96)) + (Real.log (1 + n.s66) - Real.log (n.sN + 96))))
    obtain ⟨t2, ht2, o2, m2⟩ := inc_insDel o1 (w * n.eI / (n.eM + n.eI)) (-((Real.log (1 + n.a66) - Real.log (n.aN + 96)) +
        ((Real.log (1 + n.b0) - Real.log (n.bN + 96)) + (Real.log (1 + n.s0) - Real.log (n.sN + 96)))))
    refine ⟨t2, ?_, o2, .inl ?_⟩
    · simp only [alignmentWeights, List.map_cons, List.map_nil, List.sum_cons, List.sum_nil, add_zero, incAlignments, bind, Except.bind]
      rw [copied_cost, insDel_cost, wM, wI]
      simp only [ht1, ht2]
    · rw [m2, m1, hn']
      rfl
  · have wD : Real.exp (-(((Real.log (1 + n.b0) - Real.log (n.bN + 96)) + (Real.log (1 + n.s0) - Real.log (n.sN + 96))) +
        (Real.log (1 + n.b66) - Real.log (n.bN + 96)))) = n.eD := by
      rw [neg_add, Real.exp_add, neg_add, Real.exp_add, exp_neg_logs h.b66 h.bN, exp_neg_logs h.b0 h.bN, exp_neg_logs h.s0 h.sN]; rfl
    obtain ⟨t1, ht1, o1, m1⟩ := inc_copied hs' (w * n.eM / (n.eM + n.eD))
      (-((Real.log (1 + n.b0) - Real.log (n.bN + 96)) + (Real.log (1 + n.s66) - Real.log (n.sN + 96))))
    obtain ⟨t2, ht2, o2, m2⟩ := inc_delIns o1 (w * n.eD / (n.eM + n.eD))
      (-(((Real.log (1 + n.b0) - Real.log (n.bN + 96)) + (Real.log (1 + n.s0) - Real.log (n.sN + 96))) +
        (Real.log (1 + n.b66) - Real.log (n.bN + 96))))
    refine ⟨t2, ?_, o2, .inr ?_⟩
    · simp only [alignmentWeights, List.map_cons, List.map_nil, List.sum_cons, List.sum_nil, add_zero, incAlignments, bind, Except.bind]
      rw [copied_cost, delIns_cost, wM, wD]
      simp only [ht1, ht2]
    · rw [m2, m1, hn']
      rfl

/-! ### The fresh emission -/

theorem biased_counts {i : Nat} (hi : i < 96) : biased i = { counts := (List.replicate 96 0).modify i (· + 96 * 96), N := 96 * 96 } := by
  unfold biased DirichletCategorical.incorporate
  have hr : (DirichletCategorical.mk' numContexts).inRange (i : Int) = true := by
    simp [DirichletCategorical.inRange, DirichletCategorical.mk', numContexts, hi]
  simp only [bind, Except.bind, hr, assertR_true]
  simp [DirichletCategorical.mk', numContexts]

theorem tab_init_ins {i : Nat} (hi : i < 96) : tab init.insertions i = biased 0 := by
  unfold tab init
  rw [List.getD_eq_getElem?_getD, List.getElem?_map, List.getElem?_range (by exact hi)]
  rfl

theorem tab_init_sub {i : Nat} (hi : i < 96) : tab init.substitutions i = biased i := by
  simp [tab, init, numContexts, List.getD_eq_getElem?_getD, hi]

theorem biased_num {i x : Nat} (hi : i < 96) : (biased i).counts.getD x 0 = if x = i then 9216 else 0 := by
  rw [biased_counts hi]
  simp only
  rw [getD_modify _ _ _ _ (by simpa using hi)]
  have : (List.replicate 96 (0 : ℝ)).getD x 0 = 0 := by
    rw [List.getD_eq_getElem?_getD, List.getElem?_replicate]
    split <;> rfl
  rw [this]
  split <;> norm_num

theorem nums_init : nums init = ⟨0, 9216, 9216, 0, 9216, 0, 9216, 9216⟩ := by
  have h0 : (biased 0).N = 9216 := by rw [biased_counts (by norm_num)]; norm_num
  have h66 : (biased 66).N = 9216 := by rw [biased_counts (by norm_num)]; norm_num
  simp only [nums, num, tab_init_ins (show 0 < 96 by norm_num), tab_init_ins (show 66 < 96 by norm_num),
    tab_init_sub (show 66 < 96 by norm_num), biased_num (show 0 < 96 by norm_num), biased_num (show 66 < 96 by norm_num), h0, h66]
  norm_num

theorem ones_init : Ones init := by
  refine ⟨Reach.init.wf, ?_, ?_, ?_⟩
  · rw [tab_init_ins (by norm_num), biased_counts (by norm_num)]
  · rw [tab_init_ins (by norm_num), biased_counts (by norm_num)]
  · rw [tab_init_sub (by norm_num), biased_counts (by norm_num)]

end BigramString
end
end Verif
