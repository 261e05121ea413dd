import Verif.Model.Alignment
/-!
Specification of string alignments and of the edit distance.  Only the data types of the model are used.
-/
namespace Verif

/-- the characters of the first string a piece accounts for -/
def AlignPiece.clean : AlignPiece → List Char
  | .del c => [c]
  | .ins _ => []
  | .sub a _ => [a]
  | .mat c => [c]

/-- the characters of the second string a piece accounts for -/
def AlignPiece.dirty : AlignPiece → List Char
  | .del _ => []
  | .ins c => [c]
  | .sub _ b => [b]
  | .mat c => [c]

/-- the first string spelled by a sequence of pieces -/
def cleanSide (ps : List AlignPiece) : List Char := ps.flatMap AlignPiece.clean

/-- the second string spelled by a sequence of pieces -/
def dirtySide (ps : List AlignPiece) : List Char := ps.flatMap AlignPiece.dirty

/-- `ps` is an alignment of `s` and `t`: it spells both strings, and a substitution changes the character. -/
structure IsAlignment (s t : List Char) (ps : List AlignPiece) : Prop where
  clean : cleanSide ps = s
  dirty : dirtySide ps = t
  subs : ∀ a b, AlignPiece.sub a b ∈ ps → a ≠ b

/-- `c` is the cost of the pieces `ps` according to the cost function: 0 for no piece, and then the value of the cost function for each
longer prefix, given the cost of the shorter one. -/
inductive StepCost (cost : CostFunction) : List AlignPiece → ℝ → Prop
  | nil : StepCost cost [] 0
  | snoc (ps : List AlignPiece) (p : AlignPiece) (c c' : ℝ) : StepCost cost ps c →
      cost { cost := -c, p1 := (cleanSide (ps ++ [p])).length, p2 := (dirtySide (ps ++ [p])).length, pieces := ps ++ [p] } c
        = .ok c' → StepCost cost (ps ++ [p]) c'

/-- no step lowers the cost -/
def CostFunction.NonNeg (cost : CostFunction) : Prop := ∀ a old c, cost a old = .ok c → old ≤ c

/-- each step adds a cost that depends on the last piece and the positions only -/
def CostFunction.Local (cost : CostFunction) : Prop :=
  ∃ w : Nat → Nat → AlignPiece → ℝ, ∀ z p1 p2 ps p old, cost ⟨z, p1, p2, ps ++ [p]⟩ old = .ok (old + w p1 p2 p)

/-- one single-character edit -/
inductive Edit : List Char → List Char → Prop
  | insert (l r : List Char) (c : Char) : Edit (l ++ r) (l ++ c :: r)
  | delete (l r : List Char) (c : Char) : Edit (l ++ c :: r) (l ++ r)
  | substitute (l r : List Char) (c d : Char) : Edit (l ++ c :: r) (l ++ d :: r)

/-- `n` single-character edits turn the first string into the second -/
inductive Edits : Nat → List Char → List Char → Prop
  | refl (s : List Char) : Edits 0 s s
  | step {n : Nat} {s t u : List Char} : Edits n s t → Edit t u → Edits (n + 1) s u

/-- the least number of single-character edits turning `s` into `t` is `n` -/
def IsEditDistance (s t : List Char) (n : Nat) : Prop := Edits n s t ∧ ∀ m, Edits m s t → n ≤ m

end Verif
