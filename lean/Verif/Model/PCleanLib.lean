import Verif.Model.GenDB
import Verif.Model.CSV
import Verif.Model.Incorporate
/-!
Model of the remaining functions of `/repo/cxx/pclean/pclean_lib.cc`: rows from a data frame, and the encoding for the output.  `make_pclean_samples` is in
`Model/GenDB.lean`.
-/
namespace Verif
namespace GenDB
open PClean
noncomputable section
variable {V : Type} {F : Family V}

/-- `std::isprint` in the C locale.  Simplification: it is also false for characters that are not ASCII, which the code gives as negative numbers. -/
def isPrint (c : Char) : Bool := 32 ≤ c.toNat && c.toNat ≤ 126

namespace DB

/-- pclean_lib.cc:27-47: the value of a cell of a query column, if there is one.  `parse` is `Relation::from_string` (relation.hh:127-132, relation.cc:4-6). -/
def cellValue (D : DB F) (parse : F.C ⊕ F.E → String → Res V) (col val : List Char) : Res (Option V) :=
  if val.isEmpty then .ok none
  else if !val.all isPrint then .error .exit
  else do
    let (_, rel) ← D.H.getRelation (String.ofList col)
    let v ← parse rel.tag (String.ofList val)
    .ok (some v)

/-- pclean_lib.cc:47: `row_values[col_name] = ov`. -/
def putCell (m : FMap String V) (q : String) : Option V → FMap String V
  | none => m
  | some v => m.set q v

/-- pclean_lib.cc:18-48: the values of row `i`.  The message about a column that is skipped is left out. -/
def rowValues (D : DB F) (parse : F.C ⊕ F.E → String → Res V) (i : Nat) : List (List Char × List (List Char)) → FMap String V → Res (FMap String V)
  | [], m => .ok m
  | (col, vals) :: l, m =>
    if !D.schema.query.fields.contains (String.ofList col) then rowValues D parse i l m
    else do
      let val ← idxR vals i
      let v ← D.cellValue parse col val
      rowValues D parse i l (putCell m (String.ofList col) v)

/-- pclean_lib.cc:16-54: the rows from number `i` on; `k` rows are left. -/
def incorporateRows (n : Nat) (parse : F.C ⊕ F.E → String → Res V) (df : DataFrame) : Nat → Nat → DB F → Tape → Res (DB F × Tape)
  | 0, _, D, t => .ok (D, t)
  | k + 1, i, D, t => do
    let row ← D.rowValues parse i df.data.entries ∅
    let (D, t) ← D.incorporate n true i row t
    incorporateRows n parse df k (i + 1) D t

/-- pclean_lib.cc:12-55 `incorporate_observations`; the number of rows is read from the first column, and reading it from an empty map is undefined behaviour.
`n` bounds the nesting of `sample_and_incorporate_for_class`. -/
def incorporateObservations (n : Nat) (parse : F.C ⊕ F.E → String → Res V) (df : DataFrame) (D : DB F) (t : Tape) : Res (DB F × Tape) :=
  match df.data.entries with
  | [] => .error .ub
  | (_, vals) :: _ => incorporateRows n parse df vals.length 0 D t

/-- pclean_lib.cc:92-96: the names of the entities `0, …, k - 1` of a class are added to its names. -/
def dummyNames (d : String) : Nat → FMap Int String
  | 0 => ∅
  | k + 1 => (dummyNames d k).set k (d ++ ":" ++ String.ofList (Text.intText k))

/-- pclean_lib.cc:91-97: the loop over the entity CRPs; a class without entities gets no names. -/
def dummyRev : List (String × CRP) → FMap String (FMap Int String)
  | [] => ∅
  | (d, crp) :: l => if crp.maxTable < 0 then dummyRev l else (dummyRev l).set d (dummyNames d (crp.maxTable + 1).toNat)

/-- pclean_lib.cc:87-100 `make_dummy_encoding_from_gendb`. -/
def dummyEncoding (D : DB F) : Encoding := { rev := dummyRev D.ents.crps.entries }

end DB
end
end GenDB
end Verif
