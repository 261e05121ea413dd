import Verif.Model.PCleanMain
import Verif.Spec.Priors
import Verif.Spec.GenDBRows
import Verif.Spec.PCleanLib
/-! Specification of the input files of the program `pclean`. -/
namespace Verif
namespace PCleanMain
open PClean GenDB
noncomputable section

/-- The distribution and the emission of a scalar variable. -/
def PartsOf (j : String) (p : FMap String String) (c : Prior) (e : EmisPrior) : Prop :=
  (∃ d, jointDist j p = .ok d ∧ getPrior d = .ok c) ∧ ∃ d, jointEmis j p = .ok d ∧ getEmisPrior d = .ok e

/-- The variable has a distribution, which samples values of its support, and an emission, which takes these values. -/
def Modelled (w : World) (j : String) (p : FMap String String) : Prop :=
  ∃ c e, PartsOf j p c e ∧ Prior.Samples c ∧ ∀ v, Prior.Supports w c v → EmisPrior.Takes e v

/-- What a text means for a query field whose variable has these parts: a value of the distribution if the variable is one of the record class (which is clean),
and otherwise a value of the emission. -/
def Means (w : World) (c : Prior) (e : EmisPrior) (hops : List (String × String)) (x : String) (v : Value) : Prop :=
  if hops = [] then fromString w c.obsType x = .ok v ∧ Prior.Supports w c v else fromString w e.obsType x = .ok v ∧ EmisPrior.Takes e v

/-- The value that the table has for the query field `q` in row number `i`. -/
def CellMeans (w : World) (s : PClean.Schema) (df : DataFrame) (q : String) (i : Nat) (v : Value) : Prop :=
  ∃ f hops d x j p c e text, s.query.fields.find? q = some f ∧ PathTo s s.query.recordClass f.classPath hops d x j p ∧ PartsOf j p c e ∧
    Cell df q i text ∧ text ≠ "" ∧ Means w c e hops text v

/-- A schema for which a database is made: no class leads back to itself, references lead to classes, the names, paths and depths are as `Fine`, `Indexed` and
`Distinct` say, no two query fields ask for the same variable of the record class, and the variables are modelled. -/
structure ProperSchema (w : World) (hash : String → Int) (clean finalOnly : Bool) (s : PClean.Schema) : Prop where
  acyclic : Acyclic s
  closed : Closed s
  fine : Fine s clean
  indexed : Indexed s finalOnly
  distinct : Distinct s hash
  once : ∀ k f k' f' x, s.query.fields.find? k = some f → s.query.fields.find? k' = some f' → f.classPath = [x] → f'.classPath = [x] → k = k'
  modelled : ∀ c x j p, HasScalar s c x j p → Modelled w j p

/-- A table with `m` rows for the schema: it has columns, all of `m` cells, and the cells of query fields that are not empty are printable and have values. -/
structure ProperTable (w : World) (s : PClean.Schema) (df : DataFrame) (m : Nat) : Prop where
  columns : ∃ q col, df.data.find? q = some col
  rect : Rectangular df m
  cells : ∀ q f i text, s.query.fields.find? q = some f → Cell df q i text → text ≠ "" → (∀ c ∈ text.toList, isPrint c = true) ∧ ∃ v, CellMeans w s df q i v

/-- The number of rows of a table, which is that of its first column. -/
def rowCount (df : DataFrame) : Nat :=
  match df.data.entries with
  | [] => 0
  | (_, vals) :: _ => vals.length

/-- The files of a run are a schema and a table for it. -/
structure Proper (w : World) (hash : String → Int) (a : Args) (s : PClean.Schema) (df : DataFrame) (m : Nat) : Prop where
  schema : ∃ ok, readSchema a.schema PClean.Schema.empty = .ok (ok, s)
  proper : ProperSchema w hash a.clean a.finalOnly s
  obs : DataFrame.fromCsv a.obs = .ok df
  table : ProperTable w s df m

end
end PCleanMain
end Verif
