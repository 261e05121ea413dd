import Verif.Model.Math
/-! Specification of the choice functions. -/
namespace Verif.Spec
noncomputable section

/-- The probabilities that are proportional to the exponentials of the log weights. -/
def softmax (l : List (WithBot ℝ)) : List ℝ := l.map (fun x => expW x / (l.map expW).sum)

end
end Verif.Spec
