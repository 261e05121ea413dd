import Verif.Spec.GenDB
/-! Specification of the places of the values of attributes in a `GenDB`. -/
namespace Verif
namespace GenDB
open PClean

/-- The tuple at which the attributes of the entity `i` of class `c` belong: it ends with `i`, and each of its entities is the one that the references lead to. -/
def PlaceOf (s : PClean.Schema) (e : Ents) (c : String) (i : Int) (k : Items) : Prop :=
  ∃ ds, Layout s c ds ∧ Follows e ds (RefAt s c) k ∧ k.getLast? = some i

end GenDB
end Verif
