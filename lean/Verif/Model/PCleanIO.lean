import Verif.Model.Parse
import Verif.Basic.Outcome
import Verif.Basic.FMap
/-!
Model of PClean schemas (`/repo/cxx/pclean/schema.hh`) and of reading them from a file (`/repo/cxx/pclean/io.cc`).
-/
namespace Verif
namespace PClean
open Text

/-- schema.hh:11-20 and 24 the alternatives `ScalarVar` and `ClassVar` of a variable. -/
inductive VarSpec where
  | scalar (jointName : String) (params : FMap String String)
  | cls (className : String)
  deriving DecidableEq

/-- schema.hh:22-25 `PCleanVariable`. -/
structure Variable where
  name : String
  spec : VarSpec
  deriving DecidableEq

/-- schema.hh:27-32 `PCleanClass`. -/
structure Class where
  name : String
  vars : FMap String Variable
  deriving DecidableEq

/-- schema.hh:36-41 `QueryField`. -/
structure QueryField where
  name : String
  classPath : List String
  deriving DecidableEq

/-- schema.hh:43-46 `PCleanQuery`. -/
structure Query where
  recordClass : String
  fields : FMap String QueryField
  deriving DecidableEq

/-- schema.hh:48-52 `PCleanSchema`. -/
structure Schema where
  classes : FMap String Class
  query : Query
  deriving DecidableEq

/-- a schema before anything is read -/
def Schema.empty : Schema := ⟨∅, ⟨"", ∅⟩⟩

/-- io.cc:38-54: the parameters of a scalar variable, from the tokens from position `i` on.  `none` models the result `false`.  The loop stops when at
most one token is left; `tokens[i+3]` is read without a look at the number of tokens. -/
def readParams : List Token → FMap String String → Res (Option (FMap String String))
  | [], m => .ok (some m)
  | [_], m => .ok (some m)
  | [_, _], _ => .ok none
  | [_, eq, _], _ => if eq.val ≠ "=".toList then .ok none else .error .ub
  | k :: eq :: v :: sep :: ts, m =>
    if eq.val ≠ "=".toList then .ok none
    else if sep.val ≠ ",".toList ∧ sep.val ≠ ")".toList then .ok none
    else readParams ts (m.set (String.ofList k.val) (String.ofList v.val))

/-- `std::isupper` of the first character of a string; for the empty string that is the terminating NUL. -/
def startsUpper (s : List Char) : Bool :=
  match s with
  | [] => false
  | c :: _ => "ABCDEFGHIJKLMNOPQRSTUVWXYZ".toList.contains c

/-- io.cc:26-58 `resolve_variable_definition`; the caller has checked that there are three tokens. -/
def resolveVariable (tokens : List Token) : Res (Option VarSpec) := do
  let t2 ← idxR tokens 2
  if tokens.length = 3 ∧ startsUpper t2.val = true then .ok (some (.cls (String.ofList t2.val)))
  else do
    let m ← readParams (tokens.drop 4) ∅
    .ok (m.map (fun m => .scalar (String.ofList t2.val) m))

/-- io.cc:82-101: a line of a class. -/
def readVariable (tokens : List Token) : Res (Option Variable) :=
  match tokens with
  | t0 :: t1 :: _ :: _ =>
    if t1.val ≠ "~".toList then .ok none
    else do
      let spec ← resolveVariable tokens
      .ok (spec.map (fun spec => ⟨String.ofList t0.val, spec⟩))
  | _ => .ok none

/-- io.cc:66-104 `read_class`: the variables, and the lines that are left.  A class ends with an empty line or with the file. -/
def readClass : List (List Char) → FMap String Variable → Res (Option (FMap String Variable × List (List Char)))
  | [], vars => .ok (some (vars, []))
  | [] :: ls, vars => .ok (some (vars, ls))
  | line :: ls, vars =>
    match tokenize line with
    | none => .ok none
    | some [] => readClass ls vars
    | some tokens => do
      match ← readVariable tokens with
      | none => .ok none
      | some v => readClass ls (vars.set v.name v)

/-- io.cc:151-160: the path of a field, from the tokens before the last two; names stand at even positions, points at odd ones. -/
def readPath : List Token → Option (List String)
  | [] => some []
  | [t] => some [String.ofList t.val]
  | t :: dot :: ts => if dot.val ≠ ".".toList then none else (readPath ts).map (String.ofList t.val :: ·)

/-- io.cc:131-161: a line of a query; `none` models the result `false`. -/
def readQueryLine (tokens : List Token) (q : Query) : Option Query :=
  match tokens with
  | [] => some q
  | t0 :: rest =>
    if t0.val = "from".toList then
      match rest with
      | [t1] => if q.recordClass ≠ "" then none else some { q with recordClass := String.ofList t1.val }
      | _ => none
    else if tokens.length < 3 then none
    else
      match readPath (tokens.take (tokens.length - 2)), tokens.getLast? with
      | some path, some last =>
        let name := String.ofList last.val
        some { q with fields := q.fields.set name ⟨name, path⟩ }
      | _, _ => none

/-- io.cc:115-164 `read_query`: the result, the query (which is changed also if the result is `false`), and the lines that are left. -/
def readQuery : List (List Char) → Query → Bool × Query × List (List Char)
  | [], q => (true, q, [])
  | [] :: ls, q => (true, q, ls)
  | line :: ls, q =>
    match tokenize line with
    | none => (false, q, ls)
    | some tokens =>
      match readQueryLine tokens q with
      | none => (false, q, ls)
      | some q => readQuery ls q

/-- io.cc:169-234: the loop of `read_schema` over the lines.  `fuel` is a bound on the number of iterations; the number of lines is one.  A class
that is not read is not added. -/
def schemaLoop : Nat → List (List Char) → Schema → Res (Bool × Schema)
  | _, [], s => .ok (true, s)
  | 0, _ :: _, s => .ok (false, s)
  | fuel + 1, line :: ls, s =>
    match tokenize line with
    | none => .ok (false, s)
    | some [] => schemaLoop fuel ls s
    | some (t0 :: rest) =>
      if t0.type ≠ .identifier then .ok (false, s)
      else if t0.val = "class".toList then
        match rest with
        | [t1] => do
          match ← readClass ls ∅ with
          | none => .ok (false, s)
          | some (vars, ls) =>
            let name := String.ofList t1.val
            schemaLoop fuel ls { s with classes := s.classes.set name ⟨name, vars⟩ }
        | _ => .ok (false, s)
      else if t0.val = "observe".toList then
        if s.query.recordClass ≠ "" then .ok (false, s)
        else if rest ≠ [] then .ok (false, s)
        else
          match readQuery ls s.query with
          | (false, q, _) => .ok (false, { s with query := q })
          | (true, q, ls) => schemaLoop fuel ls { s with query := q }
      else .ok (false, s)

/-- io.cc:166-236 `read_schema`, given the text of the file: the result, and the schema, which is changed also if the result is `false`. -/
def readSchema (text : List Char) (s : Schema) : Res (Bool × Schema) := schemaLoop (lines text).length (lines text) s

end PClean
end Verif
