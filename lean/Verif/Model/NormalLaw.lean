import Verif.Model.Priors
import Mathlib.Probability.Distributions.Gaussian.Real
import Mathlib.Probability.Distributions.Gamma
/-! The law of the samples of a Normal distribution.  The draws of the standard library's distributions are modelled as exact draws from the distributions they are named
after. -/
namespace Verif
noncomputable section
open MeasureTheory ProbabilityTheory

/-- normal.cc:59-72 `sample`: the law of its result, when the gamma draw has shape `nu / 2` (and scale 1; `Normal.sample` scales it with `2 / sprime`) and the two normal
draws are standard (`Normal.sample` shifts and scales them). -/
def Normal.sampleLaw (d : Normal) : Measure ℝ :=
  let nu := d.v + d.N
  ((gammaMeasure (nu / 2) 1).prod ((gaussianReal 0 1).prod (gaussianReal 0 1))).map (fun p => d.sample p.1 p.2.1 p.2.2)

/-- `std::student_t_distribution` with `n` degrees of freedom: a standard normal draw divided by the square root of a chi-squared draw over `n`; a chi-squared draw with `n`
degrees of freedom is twice a gamma draw of shape `n / 2` (and scale 1). -/
def studentT (n : ℝ) : Measure ℝ :=
  ((gammaMeasure (n / 2) 1).prod (gaussianReal 0 1)).map (fun p => p.2 / Real.sqrt (2 * p.1 / n))

/-- zero_mean_normal.cc:49-55 `sample`: the law of its result. -/
def ZeroMeanNormal.sampleLaw (d : ZeroMeanNormal) : Measure ℝ := (studentT d.sampleParams.1).map d.sample

end
end Verif
