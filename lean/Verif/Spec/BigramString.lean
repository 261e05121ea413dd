import Verif.Model.BigramString
import Verif.Spec.Alignment
/-! Specification vocabulary for the bigram string emission: what a state has counted. -/
namespace Verif
noncomputable section

/-- the characters the emission has tables for: `' '` to `'~'` -/
def Printable (s : List Char) : Prop := ∀ c ∈ s, 32 ≤ c.toNat ∧ c.toNat ≤ 126

namespace BigramString

/-- the total weight of the clean characters `c` seen (substituted, deleted or kept) -/
def cleanSeen (s : BigramString) (c : Char) : ℝ := ((s.substitutions[(getIndex c).toNat]?).map DirichletCategorical.N).getD 0

/-- the total weight of the outcomes `j` of the distributions of a list -/
def outcome (l : List DirichletCategorical) (j : Nat) : ℝ := (l.map fun d => d.counts.getD j 0).sum

/-- the total weight of the dirty characters `c` seen (inserted, or the result of a substitution or match) -/
def dirtySeen (s : BigramString) (c : Char) : ℝ :=
  outcome s.insertions (getIndex c).toNat + outcome s.substitutions (getIndex c).toNat

/-- the total weight of the decisions not to insert -/
def nonInsertions (s : BigramString) : ℝ := outcome s.insertions 0

/-- The states that occur: every history of `incorporate` (with any weights, hence also `unincorporate`) on printable strings and of
hyperparameter transitions. -/
inductive Reach : BigramString → Prop
  | init : Reach init
  | incorporate {s s' : BigramString} {x : List Char × List Char} {w : ℝ} : Reach s → Printable x.1 → Printable x.2 →
      s.incorporate x w = .ok s' → Reach s'
  | trans {s : BigramString} (t : Tape) : Reach s → Reach (s.transitionHyperparameters t).1

end BigramString
end
end Verif
