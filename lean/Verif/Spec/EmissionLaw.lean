import Verif.Model.Emission
/-! The probability of a value, from a list of values with probabilities. -/
namespace Verif.Spec

/-- the sum of the probabilities listed for `v` -/
noncomputable def probOf {V : Type} [DecidableEq V] (law : List (V × ℝ)) (v : V) : ℝ := ((law.filter (fun x => x.1 = v)).map Prod.snd).sum

/-- The states an emission reaches by adding pairs that `supp` allows and by hyperparameter transitions, without removing anything. -/
inductive Grown {V : Type} (W : WEmis V) (supp : V × V → Prop) : W.S → Prop
  | fresh : Grown W supp W.fresh
  | inc {s s' x} : Grown W supp s → supp x → W.incW s x 1 = .ok s' → Grown W supp s'
  | trans {s} (t : Tape) : Grown W supp s → Grown W supp (W.trans s t).1

end Verif.Spec
