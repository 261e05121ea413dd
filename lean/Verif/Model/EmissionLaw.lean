import Verif.Model.Emission
import Verif.Model.SampleLaw
import Verif.Model.NormalLaw
/-! The probabilities with which the emissions corrupt a clean value, in terms of those of `choice` and of the standard library's distributions. -/
namespace Verif
noncomputable section
open MeasureTheory

/-- bitflip.hh:27-29 `sample_corrupted`. -/
def BitFlip.corruptLaw (clean : Bool) : List (Bool × ℝ) := [(!clean, 1)]

/-- identity.hh:24-26 `sample_corrupted`. -/
def IdentityEmission.corruptLaw {V : Type} (clean : V) : List (V × ℝ) := [(clean, 1)]

/-- categorical.hh:46-48 `sample_corrupted`: the values with their probabilities. -/
def CategoricalEmission.corruptLaw (s : CategoricalEmission.St) (clean : Int) : Res (List (Int × ℝ)) := do
  let d ← CategoricalEmission.row s clean
  let ps ← d.sampleLaw
  .ok (((List.range ps.length).map Int.ofNat).zip ps)

/-- sometimes.hh:67-72 `sample_corrupted`: the values with their probabilities; a value may be listed more than once.  `base` are those of the base emission.  Simplification:
the result is an error if the base emission fails, although the code then fails only with the probability of the coin. -/
def Sometimes.corruptLaw {V : Type} {W : WEmis V} (base : W.S → V → Res (List (V × ℝ))) (s : Sometimes.St W) (clean : V) : Res (List (V × ℝ)) := do
  let coin ← s.bb.sampleLaw
  let parts ← coin.mapM (fun c => do
    let l ← if c.1 then base s.be clean else .ok [(clean, 1)]
    .ok (l.map (fun x => (x.1, c.2 * x.2))))
  .ok parts.flatten

/-- gaussian.hh:27-29 `sample_corrupted`: the law of its result. -/
def Gaussian.corruptLaw (s : Gaussian.St) (clean : ℝ) : Measure ℝ := s.zmn.sampleLaw.map (fun e => clean + e)

end
end Verif
