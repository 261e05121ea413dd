import Mathlib.Analysis.SpecialFunctions.Pow.Real
import Mathlib.MeasureTheory.Measure.WithDensity
import Mathlib.Probability.Distributions.Gaussian.Real
/-! Specification of the Skellam distribution, and of Markov chain steps that keep a distribution. -/
namespace Verif.Spec
noncomputable section
open MeasureTheory
open scoped ENNReal Nat

/-- the modified Bessel function of the first kind, of order `n` -/
def bessel (n : Nat) (y : ℝ) : ℝ := ∑' k : Nat, (y / 2) ^ (2 * k + n) / (k ! * (k + n)!)

/-- the probability of `x` under the Skellam distribution with rates `r` -/
def skellam (r : ℝ × ℝ) (x : Int) : ℝ :=
  Real.exp (-(r.1 + r.2)) * (r.1 / r.2) ^ ((x : ℝ) / 2) * bessel x.natAbs (2 * Real.sqrt (r.1 * r.2))

/-- two independent normal draws -/
def normals (mean1 stddev1 mean2 stddev2 : ℝ) : Measure (ℝ × ℝ) :=
  (ProbabilityTheory.gaussianReal mean1 (Real.toNNReal (stddev1 ^ 2))).prod (ProbabilityTheory.gaussianReal mean2 (Real.toNNReal (stddev2 ^ 2)))

/-- two independent log-normal draws -/
def logNormals (mean1 stddev1 mean2 stddev2 : ℝ) : Measure (ℝ × ℝ) :=
  (normals mean1 stddev1 mean2 stddev2).map (fun z => (Real.exp z.1, Real.exp z.2))

/-- the uniform distribution on the unit interval -/
def uniform : Measure ℝ := volume.restrict (Set.Ioo 0 1)

/-- the posterior distribution of a parameter, up to its total mass: the prior weighted with the likelihood -/
def posteriorMeasure {Θ : Type} [MeasurableSpace Θ] (prior : Measure Θ) (likelihood : Θ → ℝ) : Measure Θ :=
  prior.withDensity (fun θ => ENNReal.ofReal (likelihood θ))

/-- `P θ B` being the probability that a step from `θ` ends in `B`: the flow from `A` to `B` is that from `B` to `A`. -/
def Reversible {Θ : Type} [MeasurableSpace Θ] (π : Measure Θ) (P : Θ → Set Θ → ℝ≥0∞) : Prop :=
  ∀ A B, MeasurableSet A → MeasurableSet B → ∫⁻ θ in A, P θ B ∂π = ∫⁻ θ in B, P θ A ∂π

/-- A step from a draw of `π` ends in `B` with the probability that `π` gives to `B`. -/
def Stationary {Θ : Type} [MeasurableSpace Θ] (π : Measure Θ) (P : Θ → Set Θ → ℝ≥0∞) : Prop :=
  ∀ B, MeasurableSet B → ∫⁻ θ, P θ B ∂π = π B

end
end Verif.Spec
