import Verif.Model.PCleanLib
import Verif.Spec.GenDBRows
/-!
Specification of the rows of a data frame.
-/
namespace Verif
namespace GenDB
open PClean
variable {V : Type} {F : Family V}

/-- The cell of column `q` and row number `i` has the text `x`. -/
def Cell (df : DataFrame) (q : String) (i : Nat) (x : String) : Prop := ∃ col, df.data.find? q.toList = some col ∧ col[i]? = some x.toList

/-- The value that the data frame has for the query field `q` in row number `i`: the cell is not empty, and its text means `v` for the relation of the field. -/
def CellValue (D : DB F) (parse : F.C ⊕ F.E → String → Res V) (df : DataFrame) (q : String) (i : Nat) (v : V) : Prop :=
  ∃ f spec x, D.schema.query.fields.find? q = some f ∧ D.H.schema.find? q = some spec ∧ Cell df q i x ∧ x ≠ "" ∧ parse spec.kind x = .ok v

/-- All columns have `n` cells. -/
def Rectangular (df : DataFrame) (n : Nat) : Prop := ∀ q col, df.data.find? q = some col → col.length = n

/-- The cells of the query fields that are not empty are printable, and their texts mean values that the relations can take. -/
def Legible (L : FamilyLaws F) (D : DB F) (parse : F.C ⊕ F.E → String → Res V) (df : DataFrame) : Prop :=
  ∀ q f spec i x, D.schema.query.fields.find? q = some f → D.H.schema.find? q = some spec → Cell df q i x → x ≠ "" →
    (∀ c ∈ x.toList, isPrint c = true) ∧ ∃ v, parse spec.kind x = .ok v ∧ UtilIO.Takes L D.H.schema v spec

end GenDB
end Verif
