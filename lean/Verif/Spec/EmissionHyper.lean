import Verif.Model.Dist
/-! Specification of the data and the hyperparameter grids of the parts of emissions. -/
namespace Verif.Spec
noncomputable section

/-- two coins with the same data -/
def SameCoin (d d' : BetaBernoulli) : Prop := d'.N = d.N ∧ d'.s = d.s

/-- the hyperparameters of a coin are on the grid -/
def CoinGrid (d : BetaBernoulli) : Prop := d.alpha ∈ logLinspace 1e-4 1e4 10 true ∧ d.beta ∈ logLinspace 1e-4 1e4 10 true

/-- two vectors of categorical distributions with the same data -/
def SameRows (ds ds' : List DirichletCategorical) : Prop := List.Forall₂ (fun d d' => d'.N = d.N ∧ d'.counts = d.counts) ds ds'

/-- the hyperparameters of all distributions of a vector are on the grid -/
def RowsGrid (ds : List DirichletCategorical) : Prop := ∀ d ∈ ds, d.alpha ∈ DirichletCategorical.alphaGrid

end
end Verif.Spec
