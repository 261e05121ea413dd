import Verif.Spec.GenDB
import Verif.Spec.Incorporate
/-!
Specification of the rows of a `GenDB`.
-/
namespace Verif
namespace GenDB
open PClean
variable {V : Type} {F : Family V}

/-- The references among the entities of a tuple of the relation of a query field, whose variable belongs to the class `d` with a layout of `n` positions: the
references inside of the layout of `d`, and those of the classes on the path, whose entities come after it. -/
def TupleRef (s : PClean.Schema) (d : String) (n : Nat) (hops : List (String × String)) (i : Nat) (g : String) (j : Nat) : Prop :=
  RefAt s d i g j ∨ HopRef n hops.reverse i g j

/-- The tuple of the query field `q` that belongs to the row `id`: it ends with `id`, and each of its entities is the one that the references lead to. -/
def TupleOf (s : PClean.Schema) (e : Ents) (q : String) (id : Int) (k : Items) : Prop :=
  ∃ f hops d x j p ds, s.query.fields.find? q = some f ∧ PathTo s s.query.recordClass f.classPath hops d x j p ∧ Layout s d ds ∧
    Follows e (ds ++ hops.reverse.map (·.1)) (TupleRef s d ds.length hops) k ∧ k.getLast? = some id

/-- Each value of the row is one of a query field, and one that its relation can take. -/
def Fits (L : FamilyLaws F) (D : DB F) (row : FMap String V) : Prop :=
  ∀ q v, row.find? q = some v → ∃ f spec, D.schema.query.fields.find? q = some f ∧ D.H.schema.find? q = some spec ∧ UtilIO.Takes L D.H.schema v spec

/-- A row that is incorporated: with new entities or not, its number and its values. -/
structure Row (V : Type) where
  unique : Bool
  id : Int
  vals : FMap String V

/-- `Loaded L D₀ rows D`: the database `D` comes from `D₀` by incorporating these rows, the last one first, which have different numbers. -/
inductive Loaded (L : FamilyLaws F) (D₀ : DB F) : List (Row V) → DB F → Prop
  | nil : Loaded L D₀ [] D₀
  | row {rows D n t D' t'} {x : Row V} : Loaded L D₀ rows D → (∀ y ∈ rows, y.id ≠ x.id) → Fits L D₀ x.vals → depth D₀.schema ≤ n →
      D.incorporate n x.unique x.id x.vals t = .ok (D', t') → Loaded L D₀ (x :: rows) D'

/-- A schema from which the constructor makes a database whose rows can be incorporated: its names are proper, its query fields have paths, no three
references lead on one after the other from a class with variables, and the record class is declared clean if the query asks for one of its variables. -/
structure Fine (s : PClean.Schema) (clean : Bool) : Prop where
  names : NamesOk s
  query : QueryOk s
  shallow : ∀ c x j p, HasScalar s c x j p → ShallowAt s c
  mode : ∀ k f x, s.query.fields.find? k = some f → f.classPath = [x] → clean = true

/-- A query field whose variable is one of the record class, or any query field with `only_final_emissions`, is a variable of a class without references. -/
def Indexed (s : PClean.Schema) (finalOnly : Bool) : Prop := ∀ q f hops d x j p, s.query.fields.find? q = some f →
  PathTo s s.query.recordClass f.classPath hops d x j p → hops = [] ∨ finalOnly = true → ∀ g y, ¬ Refers s d g y

/-- The classes on the path of a query field, but for the record class, have no reference field but the one of the path. -/
def Unbranched (s : PClean.Schema) : Prop := ∀ q f hops d x j p c g, s.query.fields.find? q = some f →
  PathTo s s.query.recordClass f.classPath hops d x j p → (c, g) ∈ hops.tail → ∀ f y, Refers s c f y → f = g

/-- Different references to entities of the same class have different identifiers. -/
def Distinct (s : PClean.Schema) (hash : String → Int) : Prop := ∀ c f i c' f' i' d, Refers s c f d → Refers s c' f' d →
  refId hash c f i = refId hash c' f' i' → c = c' ∧ f = f' ∧ i = i'

end GenDB
end Verif
