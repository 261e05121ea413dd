import Verif.Model.ObsFile
import Verif.Spec.UtilIO
import Verif.Spec.Text
/-!
Specification of observation files.
-/
namespace Verif
variable {V : Type}
namespace UtilIO

/-- A line of an observation file. -/
structure Row where
  value : String
  rel : String
  items : List String

/-- The fields of a line, in the order in which they are in the file. -/
def Row.fields (w : Row) : List String := w.value :: w.rel :: w.items

/-- The line consists of the fields, with commas after them; the last comma can be missing. -/
def RowText (line : List Char) (w : Row) : Prop := Text.Consists ',' line (w.fields.map String.toList)

/-- The text consists of the lines of the rows. -/
def FileText (text : List Char) (ws : List Row) : Prop := ∃ ls, Text.Consists '\n' text ls ∧ List.Forall₂ RowText ls ws

/-- The observations of a relation, in the order of the file. -/
def rowsOf (ws : List Row) (r : String) : List (List String × String) := (ws.filter (fun w => w.rel == r)).map (fun w => (w.items, w.value))

/-- The observations that the lines of a file say: for each relation with lines, those in the order of the file. -/
def OfRows (rows : List Row) (obs : ObsMap String) : Prop := ∀ r, obs.find? r = if rowsOf rows r = [] then none else some (rowsOf rows r)

/-- The name of an entity: its name in the encoding, or a new name made from the domain and the code. -/
def nameOf (e : Encoding) (d : String) (c : Int) : String := (Encoding.entity e d c).getD ("new_" ++ d ++ "_" ++ String.ofList (Text.intText c))

/-- The names of the entities of an observation. -/
def namesOf (e : Encoding) (doms : List String) (codes : List Int) : List String := List.zipWith (nameOf e) doms codes

/-- The observations with the names of their entities, as they are in the file. -/
def named {F : Family V} (schema : Schema F) (e : Encoding) (obs : ObsMap Int) (r : String) : List (List String × String) :=
  ((obs.find? r).getD []).map (fun o => (namesOf e (((schema.find? r).map RelSpec.doms).getD []) o.1, o.2))

/-- All relations are in the schema, observations have at most as many entities as there are domains, and each of the domains used is in the encoding. -/
def Printable {F : Family V} (schema : Schema F) (obs : ObsMap Int) (e : Encoding) : Prop :=
  ∀ r l, obs.find? r = some l → ∃ spec, schema.find? r = some spec ∧ ∀ o ∈ l, o.1.length ≤ spec.doms.length ∧
    ∀ d ∈ spec.doms.take o.1.length, ∃ m, e.rev.find? d = some m

/-- A field of a line that can be read back. -/
def PlainField (f : String) : Prop := ',' ∉ f.toList ∧ '\n' ∉ f.toList

/-- Observations that can be read back: no field has a comma or a line end; there are entities, and the last is not the empty string. -/
def PlainObs (r : String) (l : List (List String × String)) : Prop :=
  PlainField r ∧ ∀ o ∈ l, PlainField o.2 ∧ (∀ x ∈ o.1, PlainField x) ∧ ∃ x, o.1.getLast? = some x ∧ x ≠ ""

end UtilIO
end Verif
