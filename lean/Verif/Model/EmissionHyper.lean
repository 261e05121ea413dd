import Verif.Model.HyperMove
import Verif.Model.Emission
import Verif.Model.BigramString
/-!
Model of the `transition_hyperparameters` of the emissions as draws: each state that they may leave the emission in, with its probability.
-/
namespace Verif
noncomputable section

/-- Two draws, one after the other, the second of which does not depend on the outcome of the first: the probabilities multiply. -/
def bothDraw {A B : Type} (x : Res (List (A × ℝ))) (y : Res (List (B × ℝ))) : Res (List ((A × B) × ℝ)) := do
  let l ← x
  let m ← y
  .ok (l.flatMap (fun a => m.map (fun b => ((a.1, b.1), a.2 * b.2))))

/-- the states after a draw, from what was drawn -/
def mapDraw {A S : Type} (f : A → S) (x : Res (List (A × ℝ))) : Res (List (S × ℝ)) := do
  let l ← x
  .ok (l.map (fun a => (f a.1, a.2)))

/-- bitflip.hh:26 `transition_hyperparameters`: does nothing. -/
def BitFlip.hyperDraw (s : BitFlip.S) : Res (List (BitFlip.S × ℝ)) := .ok [(s, 1)]

/-- identity.hh:23 `transition_hyperparameters`: does nothing. -/
def IdentityEmission.hyperDraw {V : Type} [DecidableEq V] (s : (IdentityEmission V).S) : Res (List ((IdentityEmission V).S × ℝ)) := .ok [(s, 1)]

/-- gaussian.hh:23-25 `transition_hyperparameters`. -/
def Gaussian.hyperDraw (s : Gaussian.St) : Res (List (Gaussian.St × ℝ)) := mapDraw (fun z => { s with zmn := z }) s.zmn.hyperDraw

/-- the loops of categorical.hh:41-43 and bigram_string.cc:207-212: each distribution of a vector in turn. -/
def rowsDraw : List DirichletCategorical → Res (List (List DirichletCategorical × ℝ))
  | [] => .ok [([], 1)]
  | d :: ds => mapDraw (fun x => x.1 :: x.2) (bothDraw d.hyperDraw (rowsDraw ds))

/-- categorical.hh:40-44 `transition_hyperparameters`. -/
def CategoricalEmission.hyperDraw (s : CategoricalEmission.St) : Res (List (CategoricalEmission.St × ℝ)) := mapDraw (fun ds => { s with dists := ds }) (rowsDraw s.dists)

/-- sometimes.hh:62-65 `transition_hyperparameters`; `base` is that of the base emission. -/
def Sometimes.hyperDraw {V : Type} {W : WEmis V} (base : W.S → Res (List (W.S × ℝ))) (s : Sometimes.St W) : Res (List (Sometimes.St W × ℝ)) :=
  mapDraw (fun x => { s with be := x.1, bb := x.2 }) (bothDraw (base s.be) s.bb.hyperDraw)

/-- simple_string.hh:125-129 `transition_hyperparameters`. -/
def SimpleString.hyperDraw (s : SimpleString.St) : Res (List (SimpleString.St × ℝ)) :=
  mapDraw (fun x => { s with sub := x.1, ins := x.2.1, del := x.2.2 }) (bothDraw s.sub.hyperDraw (bothDraw s.ins.hyperDraw s.del.hyperDraw))

/-- bigram_string.cc:206-213 `transition_hyperparameters`. -/
def BigramString.hyperDraw (s : BigramString) : Res (List (BigramString × ℝ)) :=
  mapDraw (fun x => { s with insertions := x.1, substitutions := x.2 }) (bothDraw (rowsDraw s.insertions) (rowsDraw s.substitutions))

end
end Verif
