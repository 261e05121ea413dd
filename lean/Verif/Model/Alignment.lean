import Verif.Model.Dist
import Mathlib.Data.Real.Basic
import Mathlib.Data.List.Basic
import Mathlib.Tactic.Linarith
import Mathlib.Tactic.Ring
/-!
Model of cxx/emissions/string_alignment.{hh,cc}: the k best alignments of two strings.

Strings are lists of characters.  `std::push_heap` / `std::pop_heap` are modelled by what the standard says they do: the heap
is a collection, and `pop` takes out a greatest element.
-/
namespace Verif

/-- string_alignment.hh:8-29 `AlignPiece`: a variant of `Deletion`, `Insertion`, `Substitution`, `Match`. -/
inductive AlignPiece where
  | del (deleted : Char)
  | ins (inserted : Char)
  | sub (original replacement : Char)
  | mat (c : Char)
  deriving DecidableEq, Repr

/-- string_alignment.hh:29: variants are compared by index first, then by content (defaulted `<=>`, lines 10, 15, 21, 26). -/
def AlignPiece.code : AlignPiece → List Nat
  | .del c => [0, c.toNat]
  | .ins c => [1, c.toNat]
  | .sub a b => [2, a.toNat, b.toNat]
  | .mat c => [3, c.toNat]

/-- string_alignment.hh:31-39 `StrAlignment`. -/
structure StrAlignment where
  cost : ℝ
  p1 : Nat
  p2 : Nat
  pieces : List AlignPiece

namespace StrAlignment

/-- string_alignment.hh:38: the defaulted `operator<=>` compares the members in order of declaration. -/
def Lt (a b : StrAlignment) : Prop :=
  a.cost < b.cost ∨ (a.cost = b.cost ∧ (a.p1 < b.p1 ∨ (a.p1 = b.p1 ∧ (a.p2 < b.p2 ∨ (a.p2 = b.p2 ∧
    a.pieces.map AlignPiece.code < b.pieces.map AlignPiece.code)))))

end StrAlignment

/-- string_alignment.hh:45 `CostFunction`: the alignment (whose `cost` member still is the one of its prefix, negated) and the cost of
the prefix.  It may fail. -/
abbrev CostFunction := StrAlignment → ℝ → Res ℝ

namespace Alignment

open Classical in
/-- string_alignment.cc:23-25: `heap.front()`, `pop_heap` and `pop_back` on the heap `b :: l`: a greatest element and the rest. -/
noncomputable def popMax (b : StrAlignment) : List StrAlignment → StrAlignment × List StrAlignment
  | [] => (b, [])
  | x :: xs =>
    if b.Lt x then
      let r := popMax x xs
      (r.1, b :: r.2)
    else
      let r := popMax b xs
      (r.1, x :: r.2)

/-- string_alignment.cc:46-50, 55-60, 67-80: a copy of the alignment moved on to `(p1, p2)` by one piece, with its cost negated. -/
noncomputable def grow (cost : CostFunction) (top : StrAlignment) (old : ℝ) (p1 p2 : Nat) (p : AlignPiece) : Res StrAlignment := do
  let a : StrAlignment := { top with p1 := p1, p2 := p2, pieces := top.pieces ++ [p] }
  let c ← cost a old
  .ok { a with cost := -c }

/-- string_alignment.cc:45-53: the continuation by a deletion. -/
noncomputable def growDel (cost : CostFunction) (s1 : List Char) (top : StrAlignment) (old : ℝ) : Res (List StrAlignment) :=
  if top.p1 < s1.length then do
    let c ← idxR s1 top.p1
    let a ← grow cost top old (top.p1 + 1) top.p2 (.del c)
    .ok [a]
  else .ok []

/-- string_alignment.cc:55-63: the continuation by an insertion. -/
noncomputable def growIns (cost : CostFunction) (s2 : List Char) (top : StrAlignment) (old : ℝ) : Res (List StrAlignment) :=
  if top.p2 < s2.length then do
    let c ← idxR s2 top.p2
    let a ← grow cost top old top.p1 (top.p2 + 1) (.ins c)
    .ok [a]
  else .ok []

/-- string_alignment.cc:65-83: the continuation by a match or a substitution. -/
noncomputable def growBoth (cost : CostFunction) (s1 s2 : List Char) (top : StrAlignment) (old : ℝ) : Res (List StrAlignment) :=
  if top.p1 < s1.length ∧ top.p2 < s2.length then do
    let c1 ← idxR s1 top.p1
    let c2 ← idxR s2 top.p2
    let a ← grow cost top old (top.p1 + 1) (top.p2 + 1) (if c1 = c2 then .mat c1 else .sub c1 c2)
    .ok [a]
  else .ok []

/-- string_alignment.cc:44-83: all the single piece continuations. -/
noncomputable def continuations (cost : CostFunction) (s1 s2 : List Char) (top : StrAlignment) : Res (List StrAlignment) := do
  let d ← growDel cost s1 top (-top.cost)
  let i ← growIns cost s2 top (-top.cost)
  let b ← growBoth cost s1 s2 top (-top.cost)
  .ok (d ++ i ++ b)

/-- Termination measure: the number of characters not yet aligned. -/
def remaining (s1 s2 : List Char) (a : StrAlignment) : Nat := (s1.length - a.p1) + (s2.length - a.p2)

/-- Termination measure of the heap. -/
def weight (s1 s2 : List Char) (heap : List StrAlignment) : Nat := (heap.map fun a => 4 ^ (remaining s1 s2 a + 1)).sum

theorem popMax_perm (b : StrAlignment) (l : List StrAlignment) :
    ((popMax b l).1 :: (popMax b l).2).Perm (b :: l) := by
  induction l generalizing b with
  | nil => exact .refl _
  | cons x xs ih =>
    unfold popMax
    split
    · exact (List.Perm.swap _ _ _).trans ((ih x).cons b)
    · exact ((List.Perm.swap _ _ _).trans ((ih b).cons x)).trans (List.Perm.swap _ _ _)

theorem grow_fields {cost : CostFunction} {top old p1 p2 p a} (h : grow cost top old p1 p2 p = .ok a) :
    a.p1 = p1 ∧ a.p2 = p2 ∧ a.pieces = top.pieces ++ [p] ∧
      cost { top with p1 := p1, p2 := p2, pieces := top.pieces ++ [p] } old = .ok (-a.cost) := by
  unfold grow at h
  simp only [bind, Except.bind] at h
  cases hc : cost { top with p1 := p1, p2 := p2, pieces := top.pieces ++ [p] } old with
  | error e => rw [hc] at h; cases h
  | ok c =>
    rw [hc] at h
    injection h with h
    subst h
    simp

theorem weight_perm {s1 s2 : List Char} {l l' : List StrAlignment} (h : l.Perm l') : weight s1 s2 l = weight s1 s2 l' :=
  (h.map _).sum_nat

theorem weight_cons (s1 s2 : List Char) (a : StrAlignment) (l : List StrAlignment) :
    weight s1 s2 (a :: l) = 4 ^ (remaining s1 s2 a + 1) + weight s1 s2 l := by simp [weight]

theorem weight_append (s1 s2 : List Char) (l l' : List StrAlignment) :
    weight s1 s2 (l ++ l') = weight s1 s2 l + weight s1 s2 l' := by simp [weight]

theorem growDel_weight {cost : CostFunction} {s1 s2 : List Char} {top : StrAlignment} {old l}
    (h : growDel cost s1 top old = .ok l) : weight s1 s2 l ≤ 4 ^ remaining s1 s2 top := by
  unfold growDel at h
  split at h
  · rename_i hlt
    simp only [bind, Except.bind, idxR, List.getElem?_eq_getElem hlt] at h
    cases hg : grow cost top old (top.p1 + 1) top.p2 (.del s1[top.p1]) with
    | error e => rw [hg] at h; cases h
    | ok a =>
      rw [hg] at h
      injection h with h
      subst h
      obtain ⟨h1, h2, -, -⟩ := grow_fields hg
      simp only [weight, remaining, h1, h2, List.map_cons, List.map_nil, List.sum_cons, List.sum_nil, Nat.add_zero]
      exact Nat.pow_le_pow_right (by omega) (by omega)
  · injection h with h; subst h; simp [weight]

theorem growIns_weight {cost : CostFunction} {s1 s2 : List Char} {top : StrAlignment} {old l}
    (h : growIns cost s2 top old = .ok l) : weight s1 s2 l ≤ 4 ^ remaining s1 s2 top := by
  unfold growIns at h
  split at h
  · rename_i hlt
    simp only [bind, Except.bind, idxR, List.getElem?_eq_getElem hlt] at h
    cases hg : grow cost top old top.p1 (top.p2 + 1) (.ins s2[top.p2]) with
    | error e => rw [hg] at h; cases h
    | ok a =>
      rw [hg] at h
      injection h with h
      subst h
      obtain ⟨h1, h2, -, -⟩ := grow_fields hg
      simp only [weight, remaining, h1, h2, List.map_cons, List.map_nil, List.sum_cons, List.sum_nil, Nat.add_zero]
      exact Nat.pow_le_pow_right (by omega) (by omega)
  · injection h with h; subst h; simp [weight]

theorem growBoth_weight {cost : CostFunction} {s1 s2 : List Char} {top : StrAlignment} {old l}
    (h : growBoth cost s1 s2 top old = .ok l) : weight s1 s2 l ≤ 4 ^ remaining s1 s2 top := by
  unfold growBoth at h
  split at h
  · rename_i hlt
    simp only [bind, Except.bind, idxR, List.getElem?_eq_getElem hlt.1, List.getElem?_eq_getElem hlt.2] at h
    cases hg : grow cost top old (top.p1 + 1) (top.p2 + 1)
        (if s1[top.p1] = s2[top.p2] then .mat s1[top.p1] else .sub s1[top.p1] s2[top.p2]) with
    | error e => rw [hg] at h; cases h
    | ok a =>
      rw [hg] at h
      injection h with h
      subst h
      obtain ⟨h1, h2, -, -⟩ := grow_fields hg
      simp only [weight, remaining, h1, h2, List.map_cons, List.map_nil, List.sum_cons, List.sum_nil, Nat.add_zero]
      exact Nat.pow_le_pow_right (by omega) (by omega)
  · injection h with h; subst h; simp [weight]

theorem continuations_split {cost : CostFunction} {s1 s2 : List Char} {top : StrAlignment} {l}
    (h : continuations cost s1 s2 top = .ok l) : ∃ d i b, growDel cost s1 top (-top.cost) = .ok d ∧
      growIns cost s2 top (-top.cost) = .ok i ∧ growBoth cost s1 s2 top (-top.cost) = .ok b ∧ l = d ++ i ++ b := by
  unfold continuations at h
  simp only [bind, Except.bind] at h
  split at h
  · cases h
  split at h
  · cases h
  split at h
  · cases h
  injection h with h
  exact ⟨_, _, _, by assumption, by assumption, by assumption, h.symm⟩

theorem continuations_weight {cost : CostFunction} {s1 s2 : List Char} {top : StrAlignment} {l}
    (h : continuations cost s1 s2 top = .ok l) : weight s1 s2 l < 4 ^ (remaining s1 s2 top + 1) := by
  obtain ⟨d, i, b, hd, hi, hb, rfl⟩ := continuations_split h
  have h1 := growDel_weight (s2 := s2) hd
  have h2 := growIns_weight (s1 := s1) hi
  have h3 := growBoth_weight hb
  have h4 : 0 < 4 ^ remaining s1 s2 top := Nat.pow_pos (by omega)
  rw [weight_append, weight_append, Nat.pow_succ]
  omega

/-- string_alignment.cc:21-84: the search loop.  `visited` is the `std::map` of visit counts (`operator[]` starts at 0); `found` the
alignments shipped so far, `num_found = found.length`. -/
noncomputable def loop (k : Int) (cost : CostFunction) (s1 s2 : List Char) (heap : List StrAlignment) (visited : Nat × Nat → Int)
    (found : List StrAlignment) : Res (List StrAlignment) :=
  if (found.length : Int) < k then
    match heap with
    | [] => .ok found
    | b :: rest =>
      let top := (popMax b rest).1
      let heap' := (popMax b rest).2
      let here := (top.p1, top.p2)
      let visited' := Function.update visited here (visited here + 1)
      if k < visited' here then
        loop k cost s1 s2 heap' visited' found
      else if top.p1 = s1.length ∧ top.p2 = s2.length then
        loop k cost s1 s2 heap' visited' (found ++ [{ top with cost := -top.cost }])
      else
        match _h : continuations cost s1 s2 top with
        | .error e => .error e
        | .ok cs => loop k cost s1 s2 (heap' ++ cs) visited' found
  else .ok found
termination_by weight s1 s2 heap
decreasing_by
  · have := weight_perm (s1 := s1) (s2 := s2) (popMax_perm b rest)
    rw [weight_cons] at this
    have h4 : 0 < 4 ^ (remaining s1 s2 (popMax b rest).1 + 1) := Nat.pow_pos (by omega)
    omega
  · have := weight_perm (s1 := s1) (s2 := s2) (popMax_perm b rest)
    rw [weight_cons] at this
    have h4 : 0 < 4 ^ (remaining s1 s2 (popMax b rest).1 + 1) := Nat.pow_pos (by omega)
    omega
  · have := weight_perm (s1 := s1) (s2 := s2) (popMax_perm b rest)
    rw [weight_cons] at this
    have h4 : weight s1 s2 cs < 4 ^ (remaining s1 s2 (popMax b rest).1 + 1) := continuations_weight _h
    rw [weight_append]
    omega

end Alignment

/-- string_alignment.cc:5-85 `topk_alignments`, called with an empty output vector (as all callers do). -/
noncomputable def topkAlignments (k : Int) (s1 s2 : List Char) (cost : CostFunction) : Res (List StrAlignment) :=
  Alignment.loop k cost s1 s2 [{ cost := 0, p1 := 0, p2 := 0, pieces := [] }] (fun _ => 0) []

/-- string_alignment.cc:87-94 `edit_distance`: `align_pieces.back()` of an empty vector is undefined behaviour. -/
noncomputable def editDistance : CostFunction := fun a old =>
  match a.pieces.getLast? with
  | none => .error .ub
  | some (.mat _) => .ok old
  | some _ => .ok (old + 1)

/-- stringcat.cc:52: `d < lowest_distance`. -/
def StringCat.closer (d : ℝ) : Option ℝ → Prop
  | none => True
  | some l => d < l

open Classical in
/-- stringcat.cc:46-56: the loop of `nearest`; `lowest` is `none` for `numeric_limits<double>::max()`. -/
noncomputable def StringCat.nearestLoop (x : String) (nearest : String) (lowest : Option ℝ) : List String → Res String
  | [] => .ok nearest
  | s :: ss => do
    let as ← topkAlignments 1 s.toList x.toList editDistance
    let a ← idxR as 0
    if StringCat.closer a.cost lowest then StringCat.nearestLoop x s (some a.cost) ss
    else StringCat.nearestLoop x nearest lowest ss

/-- stringcat.cc:41-59 `nearest`; with no strings `&(strings[0])` is undefined behaviour. -/
noncomputable def StringCat.nearest (d : StringCat) (x : String) : Res String :=
  if x ∈ d.strings then .ok x
  else do
    let s ← idxR d.strings 0
    StringCat.nearestLoop x s none d.strings

/-- base.hh:55-59: `nearest` of the distributions that do not override it (all but DirichletCategorical, StringCat and StringNat, and
also the adapters of distributions/adapter.hh, whatever they adapt). -/
def Distribution.defaultNearest {T : Type} (x : T) : T := x

end Verif
