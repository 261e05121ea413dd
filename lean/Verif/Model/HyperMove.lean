import Verif.Model.Choice
import Verif.Model.Dist
import Verif.Model.CRP
/-!
Model of the `transition_hyperparameters` of the distributions and of `CRP::transition_alpha` as draws: each state that they may leave the object in, with its probability.
-/
namespace Verif
noncomputable section

/-- The common part of the functions `transition_hyperparameters`: the score of each point of the grid is computed, and `sample_from_logps` chooses a point.  Simplification: as
for `pickGrid`, no score is NaN over the reals. -/
def gridDraw {S} (score : S → ℝ) (points : List S) : Res (List (S × ℝ)) := do
  let ps ← sampleProbs (points.map (fun s => ((score s : ℝ) : WithBot ℝ)))
  .ok (points.zip ps)

/-- beta_bernoulli.cc:37-60 `transition_hyperparameters`. -/
def BetaBernoulli.hyperDraw (d : BetaBernoulli) : Res (List (BetaBernoulli × ℝ)) :=
  gridDraw logpScore (grid.flatMap (fun a => grid.map (fun b => { d with alpha := a, beta := b })))

/-- dirichlet_categorical.cc:42-61 `transition_hyperparameters`. -/
def DirichletCategorical.hyperDraw (d : DirichletCategorical) : Res (List (DirichletCategorical × ℝ)) :=
  gridDraw logpScore (alphaGrid.map (fun a => { d with alpha := a }))

/-- normal.cc:74-105 `transition_hyperparameters`. -/
def Normal.hyperDraw (d : Normal) : Res (List (Normal × ℝ)) :=
  gridDraw logpScore (grid.map (fun h => { d with r := h.1, v := h.2.1, m := h.2.2.1, s := h.2.2.2 }))

/-- zero_mean_normal.cc:62-85 `transition_hyperparameters`. -/
def ZeroMeanNormal.hyperDraw (d : ZeroMeanNormal) : Res (List (ZeroMeanNormal × ℝ)) :=
  gridDraw logpScore (grid.map (fun h => { d with alpha := h.1, beta := h.2 }))

/-- stringcat.cc:37-39 `transition_hyperparameters`. -/
def StringCat.hyperDraw (d : StringCat) : Res (List (StringCat × ℝ)) := do
  let l ← d.dc.hyperDraw
  .ok (l.map (fun x => ({ d with dc := x.1 }, x.2)))

/-- bigram.cc:110-129 `transition_hyperparameters`. -/
def Bigram.hyperDraw (b : Bigram) : Res (List (Bigram × ℝ)) := gridDraw logpScore (DirichletCategorical.alphaGrid.map b.setAlpha)

/-- skellam.cc:7-11 `lognormal_logp`. -/
def lognormalLogp (x mean stddev : ℝ) : ℝ :=
  let y := (Real.log x - mean) / stddev;
  -(y * y) / 2.0 - Real.log (x * stddev) - 0.5 * Real.log (2.0 * Real.pi)

/-- skellam.cc:25-52 `transition_hyperparameters`. -/
def Skellam.hyperDraw (d : Skellam) : Res (List (Skellam × ℝ)) :=
  gridDraw (fun d => lognormalLogp d.mu1 d.mean1 d.stddev1 + lognormalLogp d.mu2 d.mean2 d.stddev2)
    (grid.map (fun h => { d with mean1 := h.1, stddev1 := h.2.1, mean2 := h.2.2.1, stddev2 := h.2.2.2 }))

/-- crp.cc:105-118 `CRP::transition_alpha`, with `log_choice`. -/
def CRP.alphaDraw (c : CRP) : Res (List (CRP × ℝ)) :=
  if c.N = 0 then .ok [(c, 1)]
  else do
    let points := (logLinspace (1 / (c.N : ℝ)) ((c.N : ℝ) + 1) 20 true).map (fun a => { c with alpha := a })
    let ps ← logChoiceProbs (points.map (fun c => ((c.logpScore : ℝ) : WithBot ℝ)))
    .ok (points.zip ps)

end
end Verif
