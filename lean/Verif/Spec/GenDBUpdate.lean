import Verif.Spec.GenDBPlaces
import Verif.Spec.GenDBRows
import Verif.Spec.GenDBConserve
/-! Specification of the tuples at which values are after a reference has got another value. -/
namespace Verif
namespace GenDB
open PClean

/-- The tuple of the relation that carries the query field `q`, whose path goes through the class `c`, on to that class, for the entity `i` of `c`. -/
def LinkOf (s : PClean.Schema) (e : Ents) (n c : String) (i : Int) (k : Items) : Prop :=
  ∃ q f hops d x j p ds pre g post, s.query.fields.find? q = some f ∧ PathTo s s.query.recordClass f.classPath hops d x j p ∧ Layout s d ds ∧
    hops = pre ++ (c, g) :: post ∧ pre ≠ [] ∧ n = viaRel c q ∧
    Follows e (ds ++ ((c, g) :: post).reverse.map (·.1)) (TupleRef s d ds.length ((c, g) :: post)) k ∧ k.getLast? = some i

/-- The tuple at which the relation `n` has the value of the entity `i` of class `c`: it ends with `i`, and each of its entities is the one that the references lead to.
The relation is one of a query field, of an attribute of a class, or (with emissions at each hop) one that carries a query field from class to class. -/
def Belongs (s : PClean.Schema) (finalOnly : Bool) (e : Ents) (n c : String) (i : Int) (k : Items) : Prop :=
  (c = s.query.recordClass ∧ TupleOf s e n i k) ∨
  (c ≠ s.query.recordClass ∧ ∃ x j p, HasScalar s c x j p ∧ n = varRel c x ∧ PlaceOf s e c i k) ∨
  (finalOnly = false ∧ LinkOf s e n c i k)

/-- `e'` are the references `e`, but the entity `i` of class `c` refers by `f` to `w`. -/
def Redirected (e : Ents) (c f : String) (i w : Int) (e' : Ents) : Prop :=
  ∀ c' f' i' v, HasRef e' c' f' i' v ↔ if c' = c ∧ f' = f ∧ i' = i then v = w else HasRef e c' f' i' v

end GenDB
end Verif
