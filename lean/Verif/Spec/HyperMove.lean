import Mathlib.Analysis.SpecialFunctions.Log.Basic
import Mathlib.Probability.Distributions.Gaussian.Real
/-! Specification of draws of hyperparameters. -/
namespace Verif.Spec
noncomputable section

/-- `l` lists, each once, the states `d'` that have the data of `d` and hyperparameters on the grid, together with probabilities that are proportional to the exponentials of
their scores. -/
structure Posterior {S : Type} (same : S → S → Prop) (onGrid : S → Prop) (score : S → ℝ) (d : S) (l : List (S × ℝ)) : Prop where
  points : ∀ d', d' ∈ l.map Prod.fst ↔ same d d' ∧ onGrid d'
  once : (l.map Prod.fst).Nodup
  prob : ∀ d' p, (d', p) ∈ l → p = Real.exp (score d') / (l.map (fun x => Real.exp (score x.1))).sum

/-- the density of the log-normal distribution -/
def lognormal (mean stddev x : ℝ) : ℝ := ProbabilityTheory.gaussianPDFReal mean (Real.toNNReal (stddev ^ 2)) (Real.log x) / x

end
end Verif.Spec
