import Verif.Model.CSV
import Verif.Spec.Parse
import Mathlib.Data.List.Forall2
/-!
Specification of comma-separated files.
-/
namespace Verif
namespace DataFrame

/-- A value that a comma-separated file can hold: no commas or line ends, not empty, and not ending in a blank. -/
def Field (f : List Char) : Prop := ',' ∉ f ∧ '\n' ∉ f ∧ ∃ c, f.getLast? = some c ∧ ¬ Lex.Blank c

/-- The values of a column. -/
def col (df : DataFrame) (c : List Char) : List (List Char) := (df.data.find? c).getD []

/-- A data frame with `n` rows: the columns have different names, and each has `n` values. -/
structure Table (df : DataFrame) (n : Nat) : Prop where
  distinct : df.columns.Nodup
  data : ∀ c, df.data.contains c = true ↔ c ∈ df.columns
  rows : ∀ c ∈ df.columns, (df.col c).length = n

/-- All names and values can be written; only the last of several columns may have empty values. -/
def Writable (df : DataFrame) : Prop :=
  (∀ c ∈ df.columns, Field c) ∧
  ∀ j c v, df.columns[j]? = some c → v ∈ df.col c → Field v ∨ (v = [] ∧ j + 1 = df.columns.length ∧ 2 ≤ df.columns.length)

/-- The text of a value: the value, which has no blanks at its end, followed by blanks; an empty value has no text. -/
def ValueText (raw v : List Char) : Prop :=
  ',' ∉ raw ∧ ((raw = [] ∧ v = []) ∨ ∃ b, raw = v ++ b ∧ (∀ c ∈ b, Lex.Blank c) ∧ ∃ c, v.getLast? = some c ∧ ¬ Lex.Blank c)

/-- The text of a row: the texts of the values with commas between them. -/
def RowText (line : List Char) (vs : List (List Char)) : Prop :=
  ∃ raw, line = List.intercalate [','] raw ∧ List.Forall₂ ValueText raw vs

/-- Only the last of several values is empty. -/
def Legible (vs : List (List Char)) : Prop :=
  vs ≠ [] ∧ ∀ j v, vs[j]? = some v → v ≠ [] ∨ (j + 1 = vs.length ∧ 2 ≤ vs.length)

/-- The frame consists of the rows. -/
def Holds (df : DataFrame) (rows : List (List (List Char))) : Prop :=
  df.Table rows.length ∧ ∀ j c, df.columns[j]? = some c → df.col c = rows.map (·.getD j [])

end DataFrame
end Verif
