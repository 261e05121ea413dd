import Verif.Basic.FMap
import Mathlib.Analysis.SpecialFunctions.Gamma.Basic
import Mathlib.Analysis.SpecialFunctions.Log.Basic
import Mathlib.Order.WithBot
/-!
Model of `/repo/cxx/util_math.cc`.  `double` is modelled by `ℝ`; a log weight that may be `-inf` by `WithBot ℝ`
(`⊥` is `-inf`).
-/
namespace Verif
noncomputable section

/-- C's `lgamma` (log of the absolute value of Γ; `Real.log` ignores the sign of its argument).
Simplification: the poles, where C returns `+inf`, are not represented. -/
def lgamma (x : ℝ) : ℝ := Real.log (Real.Gamma x)

/-- util_math.cc:11-13 `lbeta`. -/
def lbeta (z w : ℝ) : ℝ := lgamma z + lgamma w - lgamma (z + w)

/-- util_math.cc:15-23 `linspace`. -/
def linspace (start stop : ℝ) (num : Nat) (endpoint : Bool) : List ℝ :=
  let step := (stop - start) / ((num : ℝ) - (if endpoint then 1 else 0))
  (List.range num).map (fun (i : Nat) => start + step * (i : ℝ))

/-- util_math.cc:25-32 `log_linspace`. -/
def logLinspace (start stop : ℝ) (num : Nat) (endpoint : Bool) : List ℝ :=
  (linspace (Real.log start) (Real.log stop) num endpoint).map Real.exp

/-- `exp` of a log weight: `exp(-inf) = 0`. -/
def expW : WithBot ℝ → ℝ
  | ⊥ => 0
  | (x : ℝ) => Real.exp x

/-- `log` of a non-negative weight: `log(0) = -inf`. -/
def logW (x : ℝ) : WithBot ℝ := if x = 0 then ⊥ else (Real.log x : ℝ)

/-- `std::max_element`: index of the first maximal element; the range must not be empty. -/
def maxIndex : List (WithBot ℝ) → Nat
  | [] => 0
  | a :: l => if ∀ b ∈ l, b ≤ a then 0 else maxIndex l + 1

/-- util_math.cc:53-55: `exp(w - m)` if `w` is finite, nothing otherwise. -/
def expDiff : WithBot ℝ → WithBot ℝ → ℝ
  | (w : ℝ), (m : ℝ) => Real.exp (w - m)
  | _, _ => 0

/-- util_math.cc:49-56, the loop of `logsumexp`: add up `exp(weights[i] - m)` over the finite weights at the
indices other than `max_index`; `i` is the index of the head of the list. -/
def logsumexpLoop (m : WithBot ℝ) (maxIdx : Nat) : Nat → List (WithBot ℝ) → ℝ
  | _, [] => 0
  | i, w :: l =>
    (if i = maxIdx then 0 else expDiff w m) + logsumexpLoop m maxIdx (i + 1) l

/-- util_math.cc:43-58 `logsumexp`.  On an empty vector `weights[max_index]` reads past the end. -/
def logsumexp (weights : List (WithBot ℝ)) : Res (WithBot ℝ) := do
  let maxIdx := maxIndex weights
  let m ← idxR weights maxIdx
  let s := logsumexpLoop m maxIdx 0 weights
  -- log1p(s) + m
  .ok (m.map (fun m => Real.log (1 + s) + m))

/-- `a - b` for log weights; `x - (-inf)` is not used on this path and is represented by `-inf`. -/
def subW : WithBot ℝ → WithBot ℝ → WithBot ℝ
  | (a : ℝ), (b : ℝ) => ((a - b : ℝ) : WithBot ℝ)
  | _, _ => ⊥

/-- util_math.cc:34-41 `log_normalize`. -/
def logNormalize (weights : List (WithBot ℝ)) : Res (List (WithBot ℝ)) := do
  let Z ← logsumexp weights
  .ok (weights.map (fun w => subW w Z))

end

/-- util_math.cc:84-97: extend each tuple of `result` by each element of the next lists in turn. -/
def productLoop (result : List (List Int)) : List (List Int) → List (List Int)
  | [] => result
  | l :: ls => productLoop (result.flatMap (fun e => l.map (fun f => e ++ [f]))) ls

/-- util_math.cc:75-99 `product`.  `lists[0]` is undefined behaviour if `lists` is empty. -/
def product (lists : List (List Int)) : Res (List (List Int)) :=
  if lists.any (·.isEmpty) then .ok []
  else match lists with
    | [] => .error .ub
    | l :: ls => .ok (productLoop (l.map (fun e => [e])) ls)

end Verif
