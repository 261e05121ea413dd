import Verif.Model.Emission
import Verif.Spec.Dist
import Mathlib.Algebra.BigOperators.Ring.Finset
import Mathlib.Algebra.BigOperators.Group.Finset.Basic
/-! Specification of emissions: what a noise model and a proposal are. -/
namespace Verif.Spec
noncomputable section

/-- C43: the probabilities of the dirty values `vals` given the clean value `clean` sum to one, in every state that a legal
history can reach. -/
def NoiseNormalised {V : Type} (D : DistOps (V × V)) (supp : V × V → Prop) (vals : Finset V) (clean : V) : Prop :=
  ∀ m s, D.Holds supp m s → ∃ lp : V → ℝ, (∀ d ∈ vals, ∃ s', D.logp s (clean, d) = .ok (lp d, s')) ∧
    ∑ d ∈ vals, Real.exp (lp d) = 1

/-- `x` is a most frequent element of `l`. -/
def IsMode {V : Type} [DecidableEq V] (l : List V) (x : V) : Prop := x ∈ l ∧ ∀ y, l.count y ≤ l.count x

end
end Verif.Spec
