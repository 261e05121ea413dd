import Verif.Model.Math
/-!
Model of the choice functions of `/repo/cxx/util_math.cc`: the probabilities with which they return each index.
-/
namespace Verif
noncomputable section

/-- `std::discrete_distribution` made of weights: the probability of each index.  Without weights there is one index, 0.  The weights must not all be zero.
Simplification: the generator is replaced by its probabilities, and negative weights, which are not used, are not excluded. -/
def discrete (ws : List ℝ) : Res (List ℝ) :=
  if ws = [] then .ok [1]
  else if ws.sum = 0 then .error .ub
  else .ok (ws.map (fun w => w / ws.sum))

/-- util_math.cc:60-64 `choice`. -/
def choiceProbs (ws : List ℝ) : Res (List ℝ) := discrete ws

/-- util_math.cc:66-73 `log_choice`.  If all weights are `-inf` the normalised ones are not numbers in the code, and zero here; both are undefined behaviour in
`std::discrete_distribution`. -/
def logChoiceProbs (ws : List (WithBot ℝ)) : Res (List ℝ) := do
  let ns ← logNormalize ws
  choiceProbs (ns.map expW)

/-- util_math.cc:104-107: the weights of `sample_from_logps`.  `*std::max_element` of an empty vector is undefined behaviour; if all weights are `-inf` the result is as for
`log_choice`. -/
def sampleWeights (l : List (WithBot ℝ)) : Res (List ℝ) := do
  let m ← idxR l (maxIndex l)
  .ok (l.map (fun x => expDiff x m))

/-- util_math.cc:101-110 `sample_from_logps`. -/
def sampleProbs (l : List (WithBot ℝ)) : Res (List ℝ) := do
  let ws ← sampleWeights l
  discrete ws

end
end Verif
