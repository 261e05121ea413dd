import Verif.Lemmas.Dist
import Mathlib.Algebra.BigOperators.Ring.Finset
import Mathlib.Algebra.BigOperators.Group.Finset.Basic
/-! `Lawful` and `Coherent` for DirichletCategorical, StringCat and Bigram. -/
namespace Verif
noncomputable section

namespace DirichletCategorical

/-- `k` categories with counts `c` and total `n` -/
def of (a : ℝ) (k : Nat) (c : Nat → ℝ) (n : ℝ) : DirichletCategorical :=
  { alpha := a, N := n, counts := (List.range k).map c }

theorem length_of (a k c n) : (of a k c n).counts.length = k := by simp [of]

theorem modify_range (k : Nat) (c : Nat → ℝ) (i : Nat) (w : ℝ) :
    ((List.range k).map c).modify i (· + w) = (List.range k).map (Function.update c i (c i + w)) := by
  apply List.ext_getElem
  · simp
  · intro j h1 h2
    simp only [List.length_modify, List.length_map, List.length_range] at h1
    rw [List.getElem_modify]
    simp only [List.getElem_map, List.getElem_range, Function.update_apply]
    by_cases hij : i = j
    · simp [hij]
    · simp [hij, Ne.symm hij]

theorem inRange_of (a k c n) (i : Nat) (h : i < k) : (of a k c n).inRange (i : Int) = true := by
  simp [inRange, of]; omega

theorem inc_of (a k c n) (i : Nat) (w : ℝ) (h : i < k) :
    (of a k c n).incorporate (i : Int) w = .ok (of a k (Function.update c i (c i + w)) (n + w)) := by
  simp only [incorporate, inRange_of a k c n i h, assertR_true]
  simp only [of, Int.toNat_natCast, modify_range]
  rfl

theorem logp_of (a k c n) (i : Nat) (h : i < k) :
    (of a k c n).logp (i : Int) = .ok (Real.log (a + c i) - Real.log (n + a * k)) := by
  simp only [logp, inRange_of a k c n i h, assertR_true]
  simp [of, idxR, h]
  rfl

theorem score_of (a k c n) : (of a k c n).logpScore =
    lgamma (a * k) - lgamma (a * k + n) + ∑ i ∈ Finset.range k, lgamma (c i + a) - k * lgamma a := by
  simp only [logpScore, length_of]
  congr 2
  simp only [of, List.map_map]
  rfl

theorem coherent_of {a : ℝ} {k : Nat} {c : Nat → ℝ} {n : ℝ} {i : Nat} (ha : 0 < a) (hi : i < k) (hc : 0 ≤ c i)
    (hn : 0 ≤ n) : Real.log (a + c i) - Real.log (n + a * k) =
      (of a k (Function.update c i (c i + 1)) (n + 1)).logpScore - (of a k c n).logpScore := by
  rw [score_of, score_of]
  have hk : (0 : ℝ) < k := by exact_mod_cast (by omega : 0 < k)
  have hak : 0 < a * k := mul_pos ha hk
  have e : ∑ j ∈ Finset.range k, lgamma (Function.update c i (c i + 1) j + a) =
      ∑ j ∈ Finset.range k, lgamma (c j + a) + Real.log (a + c i) := by
    rw [← Finset.add_sum_erase _ _ (Finset.mem_range.2 hi), ← Finset.add_sum_erase (a := i) _ (fun j => lgamma (c j + a)) (Finset.mem_range.2 hi)]
    have : ∑ j ∈ (Finset.range k).erase i, lgamma (Function.update c i (c i + 1) j + a) =
        ∑ j ∈ (Finset.range k).erase i, lgamma (c j + a) := by
      apply Finset.sum_congr rfl
      intro j hj
      rw [Function.update_of_ne (Finset.ne_of_mem_erase hj)]
    rw [this, Function.update_self, show c i + 1 + a = (c i + a) + 1 by ring, lgamma_add_one (by linarith),
      add_comm a (c i)]
    ring
  rw [e, show a * k + (n + 1) = (a * k + n) + 1 by ring, lgamma_add_one (by linarith), add_comm n]
  ring

/-- the state with `k` categories holding the data `m` -/
def rep (a : ℝ) (k : Nat) (m : Multiset Int) : DirichletCategorical :=
  of a k (fun i => (m.count (i : Int) : ℝ)) (Multiset.card m)

/-- the values a categorical distribution with `k` categories accepts -/
def Supp (k : Nat) (x : Int) : Prop := 0 ≤ x ∧ x < k

theorem inc_rep (a k m) {x : Int} (hx : Supp k x) : (rep a k m).incorporate x = .ok (rep a k (x ::ₘ m)) := by
  obtain ⟨i, rfl⟩ := Int.eq_ofNat_of_zero_le hx.1
  have hi : i < k := by have := hx.2; omega
  unfold rep
  rw [inc_of _ _ _ _ _ _ hi]
  congr 1
  congr 1
  · funext j
    simp only [Function.update_apply]
    by_cases hj : j = i
    · subst hj; simp
    · rw [if_neg hj, Multiset.count_cons_of_ne (by exact_mod_cast hj)]
  · simp

theorem dec_rep (a k m) {x : Int} (hx : Supp k x) : (rep a k (x ::ₘ m)).unincorporate x = .ok (rep a k m) := by
  obtain ⟨i, rfl⟩ := Int.eq_ofNat_of_zero_le hx.1
  have hi : i < k := by have := hx.2; omega
  unfold rep unincorporate
  rw [inc_of _ _ _ _ _ _ hi]
  congr 1
  congr 1
  · funext j
    simp only [Function.update_apply]
    by_cases hj : j = i
    · subst hj; simp
    · rw [if_neg hj, Multiset.count_cons_of_ne (by exact_mod_cast hj)]
  · simp

theorem alphaGrid_ne : alphaGrid ≠ [] := by simp [alphaGrid]

theorem trans_mem (d : DirichletCategorical) (t : Tape) :
    ∃ a ∈ alphaGrid, (d.transitionHyperparameters t).1 = { d with alpha := a } :=
  ⟨_, pickGrid_mem alphaGrid_ne, rfl⟩

theorem logp_rep {a k m} {x : Int} (hx : Supp k x) :
    (rep a k m).logp x = .ok (Real.log (a + m.count x) - Real.log (Multiset.card m + a * k)) := by
  obtain ⟨i, rfl⟩ := Int.eq_ofNat_of_zero_le hx.1
  exact logp_of _ _ _ _ _ (by have := hx.2; omega)

/-- DirichletCategorical stores the multiset of its data. -/
def lawful (k : Nat) : Lawful (ops k) (Supp k) where
  H := {a : ℝ // 0 < a}
  Rep := fun a m s => s = rep a k m ∧ ∀ x ∈ m, Supp k x
  fresh := fun t => ⟨⟨1, by norm_num⟩, by simp [ops, rep, of, mk'], by simp⟩
  supported := fun h hx => h.2 _ hx
  inc := by
    rintro h m s x ⟨rfl, hm⟩ hx
    refine ⟨_, inc_rep _ _ _ hx, rfl, ?_⟩
    intro y hy
    rcases Multiset.mem_cons.1 hy with rfl | hy
    · exact hx
    · exact hm _ hy
  dec := by
    rintro h m s x ⟨rfl, hm⟩
    exact ⟨_, dec_rep _ _ _ (hm _ (Multiset.mem_cons_self _ _)), rfl, fun y hy => hm _ (Multiset.mem_cons_of_mem hy)⟩
  count := by rintro h m s ⟨rfl, _⟩; rfl
  logp := by
    rintro h m s x ⟨rfl, hm⟩ hx
    refine ⟨Real.log (h.1 + m.count x) - Real.log (Multiset.card m + h.1 * k), rep h.1 k m, ?_, rfl, hm⟩
    show (DirichletCategorical.logp _ _).bind _ = _
    rw [logp_rep hx]; rfl
  trans := by
    rintro h m s ⟨rfl, hm⟩ t
    obtain ⟨a, ha, he⟩ := trans_mem (rep h.1 k m) t
    exact ⟨⟨a, ZeroMeanNormal.alphaGrid_pos ha⟩, he, hm⟩

theorem scored (k : Nat) : (lawful k).Scored := by rintro h m s s' ⟨rfl, _⟩ ⟨rfl, _⟩; rfl

theorem coherent_rep {a : ℝ} {k m} {x : Int} (ha : 0 < a) (hx : Supp k x) :
    Real.log (a + m.count x) - Real.log (Multiset.card m + a * k) =
      (rep a k (x ::ₘ m)).logpScore - (rep a k m).logpScore := by
  obtain ⟨i, rfl⟩ := Int.eq_ofNat_of_zero_le hx.1
  have hi : i < k := by have := hx.2; omega
  rw [coherent_of (c := fun j : ℕ => (m.count (j : Int) : ℝ)) ha hi (by positivity) (by positivity)]
  have := inc_rep a k m hx
  unfold rep at this
  rw [inc_of _ _ _ _ _ _ hi] at this
  injection this with this
  rw [this]; rfl

theorem coherent (k : Nat) : Coherent (lawful k) := by
  rintro ⟨a, ha⟩ m s x s1 hs hx h1
  obtain ⟨rfl, hm⟩ := hs
  have h1' : (rep a k m).incorporate x = .ok s1 := h1
  rw [inc_rep _ _ _ hx] at h1'
  injection h1' with h1'
  subst h1'
  refine ⟨rep a k m, ?_⟩
  show ((rep a k m).logp x).bind _ = _
  rw [logp_rep hx, coherent_rep ha hx]
  rfl

end DirichletCategorical

namespace StringCat

/-- the state over `strings` holding the data `m` -/
def rep (a : ℝ) (strings : List String) (m : Multiset String) : StringCat :=
  { strings := strings, N := Multiset.card m
    dc := .rep a strings.length (m.map (fun s => (strings.idxOf s : Int))) }

theorem supp_idx {strings : List String} {x : String} (hx : x ∈ strings) :
    DirichletCategorical.Supp strings.length (strings.idxOf x : Int) :=
  ⟨by positivity, by exact_mod_cast List.idxOf_lt_length_of_mem hx⟩

theorem inc_rep (a strings m) {x : String} (hx : x ∈ strings) :
    (rep a strings m).incorporate x = .ok (rep a strings (x ::ₘ m)) := by
  simp only [incorporate, stringToIndex, rep, hx, if_true]
  show (DirichletCategorical.incorporate _ _ _).bind _ = _
  rw [DirichletCategorical.inc_rep _ _ _ (supp_idx hx)]
  simp only [Except.bind, Multiset.card_cons, Multiset.map_cons]
  push_cast; rfl

theorem dec_rep (a strings m) {x : String} (hx : x ∈ strings) :
    (rep a strings (x ::ₘ m)).unincorporate x = .ok (rep a strings m) := by
  simp only [unincorporate, incorporate, stringToIndex, rep, hx, if_true]
  have := DirichletCategorical.dec_rep a strings.length (m.map (fun s => (strings.idxOf s : Int))) (supp_idx hx)
  unfold DirichletCategorical.unincorporate at this
  show (DirichletCategorical.incorporate _ _ _).bind _ = _
  rw [Multiset.map_cons, this]
  simp [Except.bind]

theorem logp_rep {a strings m} {x : String} (hx : x ∈ strings) : (rep a strings m).logp x =
    .ok (Real.log (a + (m.map (fun s => (strings.idxOf s : Int))).count (strings.idxOf x : Int)) -
      Real.log (Multiset.card m + a * strings.length)) := by
  simp only [logp, stringToIndex, rep, hx, if_true]
  show (DirichletCategorical.logp _ _) = _
  rw [DirichletCategorical.logp_rep (supp_idx hx), Multiset.card_map]

/-- StringCat stores the multiset of its data. -/
def lawful (strings : List String) : Lawful (ops strings) (· ∈ strings) where
  H := {a : ℝ // 0 < a}
  Rep := fun a m s => s = rep a strings m ∧ ∀ x ∈ m, x ∈ strings
  fresh := fun t => ⟨⟨1, by norm_num⟩, by
    simp [ops, rep, mk', DirichletCategorical.mk', DirichletCategorical.rep, DirichletCategorical.of], by simp⟩
  supported := fun h hx => h.2 _ hx
  inc := by
    rintro h m s x ⟨rfl, hm⟩ hx
    refine ⟨_, inc_rep _ _ _ hx, rfl, ?_⟩
    intro y hy
    rcases Multiset.mem_cons.1 hy with rfl | hy
    · exact hx
    · exact hm _ hy
  dec := by
    rintro h m s x ⟨rfl, hm⟩
    exact ⟨_, dec_rep _ _ _ (hm _ (Multiset.mem_cons_self _ _)), rfl, fun y hy => hm _ (Multiset.mem_cons_of_mem hy)⟩
  count := by rintro h m s ⟨rfl, _⟩; rfl
  logp := by
    rintro h m s x ⟨rfl, hm⟩ hx
    refine ⟨Real.log (h.1 + (m.map (fun s => (strings.idxOf s : Int))).count (strings.idxOf x : Int)) -
        Real.log (Multiset.card m + h.1 * strings.length), rep h.1 strings m, ?_, rfl, hm⟩
    show (StringCat.logp _ _).bind _ = _
    rw [logp_rep hx]; rfl
  trans := by
    rintro h m s ⟨rfl, hm⟩ t
    obtain ⟨a, ha, he⟩ := DirichletCategorical.trans_mem (rep h.1 strings m).dc t
    refine ⟨⟨a, ZeroMeanNormal.alphaGrid_pos ha⟩, ?_, hm⟩
    show ({ rep h.1 strings m with dc := ((rep h.1 strings m).dc.transitionHyperparameters t).1 } : StringCat) = _
    rw [he]
    rfl

theorem scored (strings : List String) : (lawful strings).Scored := by rintro h m s s' ⟨rfl, _⟩ ⟨rfl, _⟩; rfl

theorem coherent (strings : List String) : Coherent (lawful strings) := by
  rintro ⟨a, ha⟩ m s x s1 hs hx h1
  obtain ⟨rfl, hm⟩ := hs
  have h1' : (rep a strings m).incorporate x = .ok s1 := h1
  rw [inc_rep _ _ _ hx] at h1'
  injection h1' with h1'
  subst h1'
  refine ⟨rep a strings m, ?_⟩
  show ((rep a strings m).logp x).bind _ = .ok (StringCat.logpScore _ - StringCat.logpScore _, _)
  rw [logp_rep hx]
  have := DirichletCategorical.coherent_rep (m := m.map (fun s => (strings.idxOf s : Int))) ha (supp_idx hx)
  rw [Multiset.card_map] at this
  rw [this]
  simp only [logpScore, rep, Multiset.map_cons]
  rfl

end StringCat

namespace Bigram
open DirichletCategorical (of)

/-- `k` rows of `k` categories with counts `f` and totals `g` -/
def rows (a : ℝ) (k : Nat) (f : Nat → Nat → ℝ) (g : Nat → ℝ) : List DirichletCategorical :=
  (List.range k).map fun i => of a k (f i) (g i)

/-- add `w` at `(i, j)` -/
def bump (f : Nat → Nat → ℝ) (i j : Nat) (w : ℝ) : Nat → Nat → ℝ :=
  Function.update f i (Function.update (f i) j (f i j + w))

/-- add `w` at `i` -/
def bump1 (g : Nat → ℝ) (i : Nat) (w : ℝ) : Nat → ℝ := Function.update g i (g i + w)

theorem bump_apply (f i j w i' j') : bump f i j w i' j' = f i' j' + if i' = i ∧ j' = j then w else 0 := by
  unfold bump
  by_cases h : i' = i
  · subst h
    by_cases h2 : j' = j
    · subst h2; simp
    · simp [h2]
  · simp [h]

theorem bump1_apply (g i w i') : bump1 g i w i' = g i' + if i' = i then w else 0 := by
  unfold bump1
  by_cases h : i' = i
  · subst h; simp
  · simp [h]

theorem idx_rows {a k f g i} (hi : i < k) : idxR (rows a k f g) i = .ok (of a k (f i) (g i)) := by
  simp [idxR, rows, hi]

theorem set_rows {a k f g i} (c : Nat → ℝ) (n : ℝ) :
    (rows a k f g).set i (of a k c n) = rows a k (Function.update f i c) (Function.update g i n) := by
  apply List.ext_getElem
  · simp [rows]
  · intro j h1 h2
    simp only [rows, List.length_set, List.length_map, List.length_range] at h1
    rw [List.getElem_set]
    simp only [rows, List.getElem_map, List.getElem_range, Function.update_apply]
    by_cases hij : i = j
    · simp [hij]
    · simp [hij, Ne.symm hij]

theorem incAt_rows {a k f g i j w} (hi : i < k) (hj : j < k) :
    incAt (rows a k f g) i j w = .ok (rows a k (bump f i j w) (bump1 g i w)) := by
  simp only [incAt, idx_rows hi]
  show (DirichletCategorical.incorporate _ _ _).bind _ = _
  rw [DirichletCategorical.inc_of _ _ _ _ _ _ hj]
  simp only [Except.bind, set_rows]
  rfl

/-- the transitions of a sequence of indices: the pairs of successive elements -/
def pairs : List Nat → List (Nat × Nat)
  | i :: j :: rest => (i, j) :: pairs (j :: rest)
  | _ => []

/-- `f` with `w` added for each pair of `l` -/
def addPairs (f : Nat → Nat → ℝ) (w : ℝ) (l : List (Nat × Nat)) : Nat → Nat → ℝ :=
  fun i j => f i j + w * ((l : Multiset (Nat × Nat)).count (i, j) : ℝ)

/-- `g` with `w` added for each pair of `l` with first component `i` -/
def addRow (g : Nat → ℝ) (w : ℝ) (l : List (Nat × Nat)) : Nat → ℝ :=
  fun i => g i + w * ((l.map Prod.fst).count i : ℝ)

theorem addPairs_nil (f w) : addPairs f w [] = f := by funext i j; simp [addPairs]

theorem addRow_nil (g w) : addRow g w [] = g := by funext i; simp [addRow]

theorem addPairs_bump (f i j w l) : addPairs (bump f i j w) w l = addPairs f w ((i, j) :: l) := by
  funext i' j'
  simp only [addPairs, bump_apply, ← Multiset.cons_coe, Multiset.count_cons, Prod.mk.injEq]
  by_cases h : i' = i ∧ j' = j
  · obtain ⟨rfl, rfl⟩ := h; simp; ring
  · simp only [if_neg h]; push_cast; ring

theorem addRow_bump (g i j w l) : addRow (bump1 g i w) w l = addRow g w ((i, j) :: l) := by
  funext i'
  simp only [addRow, bump1_apply, List.map_cons, List.count_cons]
  by_cases h : i' = i
  · subst h; simp; ring
  · have : ¬ ((i == i') = true) := by simp only [beq_iff_eq]; exact fun e => h e.symm
    simp only [if_neg h, if_neg this]; push_cast; ring

theorem incPairs_rows {a k w} : ∀ (l : List Nat) {f g}, (∀ i ∈ l, i < k) →
    incPairs (rows a k f g) w l = .ok (rows a k (addPairs f w (pairs l)) (addRow g w (pairs l))) := by
  intro l
  induction l with
  | nil => intro f g _; simp [incPairs, pairs, addPairs_nil, addRow_nil]
  | cons i l ih =>
    intro f g h
    cases l with
    | nil => simp [incPairs, pairs, addPairs_nil, addRow_nil]
    | cons j l =>
      simp only [incPairs, incAt_rows (h i (by simp)) (h j (by simp))]
      show incPairs _ _ _ = _
      rw [ih (fun x hx => h x (by simp at hx ⊢; tauto))]
      rw [addPairs_bump, addRow_bump _ _ j]
      rfl

/-- the score of rows -/
theorem score_rows (a k f g) : ((rows a k f g).map DirichletCategorical.logpScore).sum =
    ∑ i ∈ Finset.range k, (of a k (f i) (g i)).logpScore := by
  simp only [rows, List.map_map]; rfl

theorem score_bump {a : ℝ} {k : Nat} {f : Nat → Nat → ℝ} {g : Nat → ℝ} {i j : Nat} (ha : 0 < a) (hi : i < k) (hj : j < k) (hf : 0 ≤ f i j) (hg : 0 ≤ g i) :
    Real.log (a + f i j) - Real.log (g i + a * k) =
    ((rows a k (bump f i j 1) (bump1 g i 1)).map DirichletCategorical.logpScore).sum -
      ((rows a k f g).map DirichletCategorical.logpScore).sum := by
  rw [score_rows, score_rows, DirichletCategorical.coherent_of ha hj hf hg,
    ← Finset.add_sum_erase _ _ (Finset.mem_range.2 hi), ← Finset.add_sum_erase (a := i) _ (fun i => (of a k (f i) (g i)).logpScore) (Finset.mem_range.2 hi)]
  have : ∑ x ∈ (Finset.range k).erase i, (of a k (bump f i j 1 x) (bump1 g i 1 x)).logpScore =
      ∑ x ∈ (Finset.range k).erase i, (of a k (f x) (g x)).logpScore := by
    apply Finset.sum_congr rfl
    intro x hx
    simp only [bump, bump1]
    rw [Function.update_of_ne (Finset.ne_of_mem_erase hx), Function.update_of_ne (Finset.ne_of_mem_erase hx)]
  rw [this]
  simp only [bump, bump1, Function.update_self]
  ring

theorem logpPairs_rows {a k} (ha : 0 < a) : ∀ (l : List Nat) {f g}, (∀ i ∈ l, i < k) →
    (∀ i j, 0 ≤ f i j) → (∀ i, 0 ≤ g i) →
    logpPairs (rows a k f g) l = .ok
      (((rows a k (addPairs f 1 (pairs l)) (addRow g 1 (pairs l))).map DirichletCategorical.logpScore).sum -
        ((rows a k f g).map DirichletCategorical.logpScore).sum,
       rows a k (addPairs f 1 (pairs l)) (addRow g 1 (pairs l))) := by
  intro l
  induction l with
  | nil => intro f g _ _ _; simp [logpPairs, pairs, addPairs_nil, addRow_nil]
  | cons i l ih =>
    intro f g h hf hg
    cases l with
    | nil => simp [logpPairs, pairs, addPairs_nil, addRow_nil]
    | cons j l =>
      have hi := h i (by simp)
      have hj := h j (by simp)
      simp only [logpPairs, idx_rows hi, incAt_rows hi hj]
      show (DirichletCategorical.logp _ _).bind _ = _
      rw [DirichletCategorical.logp_of _ _ _ _ _ hj]
      show (logpPairs _ _).bind _ = _
      rw [ih (fun x hx => h x (by simp at hx ⊢; tauto))
        (by intro i' j'; rw [bump_apply]; have := hf i' j'; split <;> linarith)
        (by intro i'; rw [bump1_apply]; have := hg i'; split <;> linarith)]
      simp only [Except.bind]
      rw [addPairs_bump, addRow_bump _ _ j, score_bump ha hi hj (hf _ _) (hg _)]
      congr 2
      simp only [pairs]
      ring

/-- the indices of the characters of a string -/
def idxs (lo : Nat) (x : List Char) : List Nat := x.map (fun c => c.toNat - lo)

/-- the transitions of a string, from the start symbol to the stop symbol (both numbered `hi - lo + 1`) -/
def trans (lo hi : Nat) (x : List Char) : List (Nat × Nat) :=
  pairs ((hi - lo + 1) :: idxs lo x ++ [hi - lo + 1])

/-- all transitions of the strings of `m` -/
def allTrans (lo hi : Nat) (m : Multiset (List Char)) : Multiset (Nat × Nat) :=
  (m.map (fun x => (trans lo hi x : Multiset (Nat × Nat)))).sum

theorem charsToIndices_eq {b : Bigram} : ∀ {x : List Char},
    (∀ c ∈ x, b.minChar ≤ c.toNat ∧ c.toNat ≤ b.maxChar) → b.charsToIndices x = .ok (idxs b.minChar x) := by
  intro x
  induction x with
  | nil => intro _; rfl
  | cons c x ih =>
    intro h
    have hc := h c (by simp)
    simp only [charsToIndices, charToIndex, hc, decide_true, Bool.and_self, assertR_true,
      ih (fun d hd => h d (by simp [hd]))]
    rfl

theorem stringToIndices_eq {b : Bigram} {x : List Char}
    (h : ∀ c ∈ x, b.minChar ≤ c.toNat ∧ c.toNat ≤ b.maxChar) :
    b.stringToIndices x = .ok (b.numChars :: idxs b.minChar x ++ [b.numChars]) := by
  simp only [stringToIndices, charsToIndices_eq h]; rfl

theorem idxs_lt {lo hi : Nat} {x : List Char} (h : ∀ c ∈ x, lo ≤ c.toNat ∧ c.toNat ≤ hi) :
    ∀ i ∈ ((hi - lo + 1) :: idxs lo x ++ [hi - lo + 1]), i < hi - lo + 1 + 1 := by
  intro i hi'
  simp only [List.cons_append, List.mem_cons, List.mem_append, idxs, List.mem_map, List.not_mem_nil, or_false] at hi'
  rcases hi' with rfl | ⟨c, hc, rfl⟩ | rfl
  · omega
  · have := h c hc; omega
  · omega

/-- the state with hyperparameter `a` holding the data `m` -/
def rep (a : ℝ) (maxLength lo hi : Nat) (m : Multiset (List Char)) : Bigram :=
  { alpha := a, N := Multiset.card m, maxLength := maxLength, minChar := lo, maxChar := hi
    dists := rows a (hi - lo + 1 + 1) (fun i j => ((allTrans lo hi m).count (i, j) : ℝ))
      (fun i => (((allTrans lo hi m).map Prod.fst).count i : ℝ)) }

theorem addPairs_all (lo hi m x) : addPairs (fun i j => ((allTrans lo hi m).count (i, j) : ℝ)) 1 (trans lo hi x) =
    fun i j => ((allTrans lo hi (x ::ₘ m)).count (i, j) : ℝ) := by
  funext i j
  simp only [addPairs, allTrans, Multiset.map_cons, Multiset.sum_cons, Multiset.count_add]
  push_cast; ring

theorem addRow_all (lo hi m x) :
    addRow (fun i => (((allTrans lo hi m).map Prod.fst).count i : ℝ)) 1 (trans lo hi x) =
    fun i => (((allTrans lo hi (x ::ₘ m)).map Prod.fst).count i : ℝ) := by
  funext i
  simp only [addRow, allTrans, Multiset.map_cons, Multiset.sum_cons, Multiset.map_add, Multiset.count_add,
    Multiset.map_coe, Multiset.coe_count]
  push_cast; ring

theorem addPairs_neg (lo hi m x) :
    addPairs (fun i j => ((allTrans lo hi (x ::ₘ m)).count (i, j) : ℝ)) (-1) (trans lo hi x) =
    fun i j => ((allTrans lo hi m).count (i, j) : ℝ) := by
  funext i j
  simp only [addPairs, allTrans, Multiset.map_cons, Multiset.sum_cons, Multiset.count_add]
  push_cast; ring

theorem addRow_neg (lo hi m x) :
    addRow (fun i => (((allTrans lo hi (x ::ₘ m)).map Prod.fst).count i : ℝ)) (-1) (trans lo hi x) =
    fun i => (((allTrans lo hi m).map Prod.fst).count i : ℝ) := by
  funext i
  simp only [addRow, allTrans, Multiset.map_cons, Multiset.sum_cons, Multiset.map_add, Multiset.count_add,
    Multiset.map_coe, Multiset.coe_count]
  push_cast; ring

theorem incorporate_eq {b : Bigram} {x : List Char} {w : ℝ} {a : ℝ} {f g}
    (hx : Accepts b.maxLength b.minChar b.maxChar x) (hb : b.dists = rows a (b.maxChar - b.minChar + 1 + 1) f g) :
    b.incorporate x w = .ok { b with
      N := b.N + w
      dists := rows a (b.maxChar - b.minChar + 1 + 1) (addPairs f w (trans b.minChar b.maxChar x))
        (addRow g w (trans b.minChar b.maxChar x)) } := by
  unfold incorporate
  rw [if_neg (by rintro ⟨h1, h2⟩; have := hx.1 h1; omega)]
  simp only [stringToIndices_eq hx.2]
  show (incPairs _ _ _).bind _ = _
  rw [hb, show b.numChars = b.maxChar - b.minChar + 1 from rfl, incPairs_rows _ (idxs_lt hx.2)]
  rfl

theorem inc_rep {a maxLength lo hi m x} (hx : Accepts maxLength lo hi x) :
    (rep a maxLength lo hi m).incorporate x = .ok (rep a maxLength lo hi (x ::ₘ m)) := by
  rw [incorporate_eq hx rfl]
  simp only [rep, addPairs_all, addRow_all, Multiset.card_cons]
  push_cast; rfl

theorem dec_rep {a maxLength lo hi m x} (hx : Accepts maxLength lo hi x) :
    (rep a maxLength lo hi (x ::ₘ m)).unincorporate x = .ok (rep a maxLength lo hi m) := by
  unfold unincorporate
  rw [incorporate_eq hx rfl]
  simp only [rep, addPairs_neg, addRow_neg, Multiset.card_cons]
  push_cast
  simp

theorem logp_rep {a maxLength lo hi m x} (ha : 0 < a) (hx : ∀ c ∈ x, lo ≤ c.toNat ∧ c.toNat ≤ hi) :
    (rep a maxLength lo hi m).logp x = .ok
      ((rep a maxLength lo hi (x ::ₘ m)).logpScore - (rep a maxLength lo hi m).logpScore,
       rep a maxLength lo hi m) := by
  simp only [logp]
  rw [stringToIndices_eq (b := rep a maxLength lo hi m) hx]
  show (logpPairs (rows _ _ _ _) _).bind _ = _
  rw [show (rep a maxLength lo hi m).numChars = hi - lo + 1 from rfl,
    show (rep a maxLength lo hi m).minChar = lo from rfl,
    logpPairs_rows ha _ (idxs_lt hx) (by intros; positivity) (by intros; positivity)]
  show (incPairs _ _ _).bind _ = _
  rw [incPairs_rows _ (idxs_lt hx)]
  have e1 := addPairs_all lo hi m x
  have e2 := addRow_all lo hi m x
  have e3 := addPairs_neg lo hi m x
  have e4 := addRow_neg lo hi m x
  unfold trans at e1 e2 e3 e4
  simp only [e1, e2, e3, e4]
  rfl

/-- Bigram stores the multiset of its data. -/
def lawful (maxLength lo hi : Nat) : Lawful (ops maxLength lo hi) (Accepts maxLength lo hi) where
  H := {a : ℝ // 0 < a}
  Rep := fun a m s => s = rep a maxLength lo hi m ∧ ∀ x ∈ m, Accepts maxLength lo hi x
  fresh := fun t => ⟨⟨1, by norm_num⟩, by
    simp [ops, rep, mk', rows, allTrans, DirichletCategorical.mk', DirichletCategorical.of], by simp⟩
  supported := fun h hx => h.2 _ hx
  inc := by
    rintro h m s x ⟨rfl, hm⟩ hx
    refine ⟨_, inc_rep hx, rfl, ?_⟩
    intro y hy
    rcases Multiset.mem_cons.1 hy with rfl | hy
    · exact hx
    · exact hm _ hy
  dec := by
    rintro h m s x ⟨rfl, hm⟩
    exact ⟨_, dec_rep (hm _ (Multiset.mem_cons_self _ _)), rfl, fun y hy => hm _ (Multiset.mem_cons_of_mem hy)⟩
  count := by rintro h m s ⟨rfl, _⟩; rfl
  logp := by
    rintro h m s x ⟨rfl, hm⟩ hx
    exact ⟨_, _, logp_rep h.2 hx.2, rfl, hm⟩
  trans := by
    rintro h m s ⟨rfl, hm⟩ t
    refine ⟨⟨_, ZeroMeanNormal.alphaGrid_pos (pickGrid_mem (dflt := (rep h.1 maxLength lo hi m).alpha) (t := t)
      DirichletCategorical.alphaGrid_ne)⟩, ?_, hm⟩
    show Bigram.setAlpha _ _ = _
    simp only [setAlpha, rep, rows, List.map_map]
    congr 1

theorem scored (maxLength lo hi : Nat) : (lawful maxLength lo hi).Scored := by rintro h m s s' ⟨rfl, _⟩ ⟨rfl, _⟩; rfl

theorem coherent (maxLength lo hi : Nat) : Coherent (lawful maxLength lo hi) := by
  rintro ⟨a, ha⟩ m s x s1 hs hx h1
  obtain ⟨rfl, hm⟩ := hs
  have h1' : (rep a maxLength lo hi m).incorporate x = .ok s1 := h1
  rw [inc_rep hx] at h1'
  injection h1' with h1'
  subst h1'
  exact ⟨_, logp_rep ha hx.2⟩

end Bigram

end
end Verif
