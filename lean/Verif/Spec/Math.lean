import Verif.Model.Math
/-! Independent specification of the Cartesian product. -/
namespace Verif.Spec

/-- all ways to choose one element of each list, in lexicographic order of positions -/
def cartesian {α : Type _} : List (List α) → List (List α)
  | [] => [[]]
  | l :: ls => l.flatMap (fun a => (cartesian ls).map (fun x => a :: x))

/-- `x` picks one element of every list -/
def Picks (x : List Int) (lists : List (List Int)) : Prop :=
  x.length = lists.length ∧ ∀ i (h : i < lists.length) (hx : i < x.length), x[i] ∈ lists[i]

end Verif.Spec
