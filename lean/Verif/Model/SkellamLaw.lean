import Verif.Model.Dist
import Mathlib.Probability.Distributions.Gaussian.Real
import Mathlib.Probability.Distributions.Poisson.Basic
/-! The probabilities with which a Skellam distribution samples and steps.  The draws of the standard library's distributions are modelled as exact draws from the
distributions they are named after. -/
namespace Verif
noncomputable section
open MeasureTheory ProbabilityTheory
open scoped ENNReal

/-- nonconjugate.hh:54-55: the draw `p`.  `std::uniform_real_distribution` can return 0, where `log` is minus infinity and the proposal is accepted; this has probability 0
and is left out. -/
def uniformLaw : Measure ℝ := volume.restrict (Set.Ioo 0 1)

namespace Skellam

/-- skellam.cc:54-57 `init_theta`: the two normal draws. -/
def initLaw (d : Skellam) : Measure (ℝ × ℝ) :=
  (gaussianReal d.mean1 (Real.toNNReal (d.stddev1 ^ 2))).prod (gaussianReal d.mean2 (Real.toNNReal (d.stddev2 ^ 2)))

/-- nonconjugate.hh:48-62 `transition_theta`, called when the latent values are `r`: the probability that they are in `B` afterwards. -/
def thetaProb (besselI : Nat → ℝ → ℝ) (d : Skellam) (r : ℝ × ℝ) (B : Set (ℝ × ℝ)) : ℝ≥0∞ :=
  (d.initLaw.prod uniformLaw)
    {x | ∃ d', transitionTheta besselI { d with mu1 := r.1, mu2 := r.2 } x.1.1 x.1.2 x.2 = .ok d' ∧ (d'.mu1, d'.mu2) ∈ B}

/-- skellam.cc:19-23 `sample`: the difference of two Poisson draws. -/
def sampleLaw (d : Skellam) : Measure Int :=
  ((poissonMeasure (Real.toNNReal d.mu1)).prod (poissonMeasure (Real.toNNReal d.mu2))).map (fun k => (k.1 : Int) - k.2)

end Skellam
end
end Verif
