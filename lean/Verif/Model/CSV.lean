import Verif.Basic.FMap
import Verif.Model.Text
/-!
Model of pclean/csv.cc: data frames and comma-separated files.
-/
namespace Verif
open Text

/-- pclean/csv.hh:12-34 `DataFrame`. -/
structure DataFrame where
  columns : List (List Char) := []
  data : FMap (List Char) (List (List Char)) := ∅
  deriving DecidableEq

namespace DataFrame

/-- csv.cc:48-50, on the reversed part: `back()` of an empty string is undefined behaviour. -/
def stripRev : List Char → Res (List Char)
  | [] => .error .ub
  | c :: cs => if isSpace c then stripRev cs else .ok (c :: cs)

/-- csv.cc:48-50: erase white space from the end of a part. -/
def strip (part : List Char) : Res (List Char) := (stripRev part.reverse).map List.reverse

/-- csv.cc:57 and 62: `df.data[df.columns[i]].push_back(v)`. -/
def push (df : DataFrame) (i : Nat) (v : List Char) : Res DataFrame := do
  let c ← idxR df.columns i
  .ok { df with data := df.data.set c ((df.data.find? c).getD [] ++ [v]) }

/-- csv.cc:46-55, for the line with the column names. -/
def headerLoop : List (List Char) → DataFrame → Res DataFrame
  | [], df => .ok df
  | p :: ps, df => do
    let p ← strip p
    headerLoop ps { columns := df.columns ++ [p], data := df.data.set p [] }

/-- csv.cc:46-58, for a line with values. -/
def rowLoop : List (List Char) → Nat → DataFrame → Res (DataFrame × Nat)
  | [], i, df => .ok (df, i)
  | p :: ps, i, df => do
    let p ← strip p
    let df ← df.push i p
    rowLoop ps (i + 1) df

/-- csv.cc:60-63: a comma at the end of the line is followed by an empty value. -/
def addLast (line : List Char) (df : DataFrame) (i : Nat) : Res (DataFrame × Nat) :=
  if line.getLast? = some ',' then do
    let df ← df.push i []
    .ok (df, i + 1)
  else .ok (df, i)

/-- csv.cc:59-69: the checks after a line that is not the first. -/
def checkRow (line : List Char) (df : DataFrame) (i : Nat) : Res DataFrame := do
  let r ← addLast line df i
  assertR (r.2 == r.1.columns.length)
  .ok r.1

/-- csv.cc:42-69: a line that is not empty. -/
def readLine (names : List (List Char)) (line : List Char) (first : Bool) (df : DataFrame) : Res DataFrame :=
  if first && names.isEmpty then headerLoop (parts ',' line) df
  else do
    let r ← rowLoop (parts ',' line) 0 df
    if first then .ok r.1 else checkRow line r.1 r.2

/-- csv.cc:36-71: the loop over the lines. -/
def lineLoop (names : List (List Char)) : List (List Char) → Bool → DataFrame → Res DataFrame
  | [], _, df => .ok df
  | line :: ls, first, df =>
    if line = [] then lineLoop names ls first df
    else do
      let df ← readLine names line first df
      lineLoop names ls false df

/-- csv.cc:23-74 `from_csv`. -/
def fromCsv (text : List Char) (names : List (List Char) := []) : Res DataFrame :=
  lineLoop names (lines text) true { columns := names, data := names.foldl (fun m c => m.set c []) ∅ }

/-- csv.cc:91-96 and 100-106: fields separated by commas. -/
def joinComma : List (List Char) → List Char
  | [] => []
  | [f] => f
  | f :: g :: fs => f ++ ',' :: joinComma (g :: fs)

/-- csv.cc:105: `data[columns[j]][i]` for each column; a column without data is empty. -/
def rowAt (data : FMap (List Char) (List (List Char))) (i : Nat) : List (List Char) → Res (List (List Char))
  | [] => .ok []
  | c :: cs => do
    let v ← idxR ((data.find? c).getD []) i
    let vs ← rowAt data i cs
    .ok (v :: vs)

/-- csv.cc:99-108: the rows from `i` on. -/
def rowsFrom (df : DataFrame) : Nat → Nat → Res (List Char)
  | _, 0 => .ok []
  | i, n + 1 => do
    let vs ← rowAt df.data i df.columns
    let rest ← rowsFrom df (i + 1) n
    .ok (joinComma vs ++ '\n' :: rest)

/-- csv.cc:86-110 `to_csv`: the text that is written.  Simplification: the empty entries that `data[...]` creates for columns without data
are not kept. -/
def toCsv (df : DataFrame) : Res (List Char) :=
  match df.columns with
  | [] => .ok []
  | c :: _ => do
    let rest ← rowsFrom df 0 ((df.data.find? c).getD []).length
    .ok (joinComma df.columns ++ '\n' :: rest)

/-- pclean_lib.cc:79-81: append the values of a sample to the columns. -/
def addSample (df : DataFrame) (values : FMap (List Char) (List Char)) : DataFrame :=
  values.entries.foldl (fun df (c, v) => { df with data := df.data.set c ((df.data.find? c).getD [] ++ [v]) }) df

/-- pclean_lib.cc:76-83: the loop over the samples.  `sample i g` is `make_pclean_sample` (pclean_lib.cc:59-71) for row `i`: the values of
the query fields and the new state of the database and the random numbers. -/
def sampleLoop {σ : Type} (sample : Int → σ → Res (FMap (List Char) (List Char) × σ)) : Nat → Int → DataFrame → σ → Res (DataFrame × σ)
  | 0, _, df, g => .ok (df, g)
  | n + 1, i, df, g => do
    let r ← sample i g
    sampleLoop sample n (i + 1) (df.addSample r.1) r.2

/-- pclean_lib.cc:73-85 `make_pclean_samples`. -/
def makeSamples {σ : Type} (sample : Int → σ → Res (FMap (List Char) (List Char) × σ)) (n : Nat) (start : Int) (g : σ) : Res (DataFrame × σ) :=
  sampleLoop sample n start {} g

end DataFrame
end Verif
