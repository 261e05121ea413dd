import Verif.Model.PCleanIO
import Verif.Spec.SchemaFile
/-!
Specification of PClean schema files.
-/
namespace Verif
namespace PClean
open Lex

/-! ### What is accepted -/

/-- The token has this text; the quotes of a token are not looked at. -/
def Is (t : Token) (s : String) : Prop := t.val = s.toList

/-- `VarParams m0 ts m`: the tokens are `k1 = v1, ..., kn = vn )`, and perhaps one more token; any comma may also be a parenthesis.  `m` is `m0` with
these parameters. -/
inductive VarParams : FMap String String → List Token → FMap String String → Prop
  | nil {m} : VarParams m [] m
  | one {m t} : VarParams m [t] m
  | more {m k eq v sep ts m'} : Is eq "=" → Is sep "," ∨ Is sep ")" → VarParams (m.set (String.ofList k.val) (String.ofList v.val)) ts m' →
      VarParams m (k :: eq :: v :: sep :: ts) m'

/-- the text starts with a capital letter -/
def Capital (s : List Char) : Prop := ∃ c cs, s = c :: cs ∧ c ∈ "ABCDEFGHIJKLMNOPQRSTUVWXYZ".toList

/-- The lines of a class that are accepted: `name ~ Class`, `name ~ joint` and `name ~ joint(k1 = v1, ...)`; the token before the parameters is
not looked at. -/
inductive VarLine : List Token → Variable → Prop
  | cls {n tilde c} : Is tilde "~" → Capital c.val → VarLine [n, tilde, c] ⟨String.ofList n.val, .cls (String.ofList c.val)⟩
  | plain {n tilde j} : Is tilde "~" → ¬ Capital j.val → VarLine [n, tilde, j] ⟨String.ofList n.val, .scalar (String.ofList j.val) ∅⟩
  | scalar {n tilde j par ts m} : Is tilde "~" → VarParams ∅ ts m →
      VarLine (n :: tilde :: j :: par :: ts) ⟨String.ofList n.val, .scalar (String.ofList j.val) m⟩

/-- Parameters that break off after a value. -/
inductive VarParamsCut : List Token → Prop
  | here {k eq v} : Is eq "=" → VarParamsCut [k, eq, v]
  | more {k eq v sep ts} : Is eq "=" → Is sep "," ∨ Is sep ")" → VarParamsCut ts → VarParamsCut (k :: eq :: v :: sep :: ts)

/-- The lines of a class for which the reader reads past the end of the tokens: they break off after the value of a parameter. -/
inductive VarCut : List Token → Prop
  | mk {n tilde j par ts} : Is tilde "~" → VarParamsCut ts → VarCut (n :: tilde :: j :: par :: ts)

/-- `ClassBody m ls m' rest`: the lines `ls` are the lines of a class, to an empty line or the end of the file, and then `rest`. -/
inductive ClassBody : FMap String Variable → List (List Char) → FMap String Variable → List (List Char) → Prop
  | eof {m} : ClassBody m [] m []
  | empty {m rest} : ClassBody m ([] :: rest) m rest
  | skip {m line ls m' rest} : line ≠ [] → Lexed line [] → ClassBody m ls m' rest → ClassBody m (line :: ls) m' rest
  | var {m line ts v ls m' rest} : Lexed line ts → VarLine ts v → ClassBody (m.set v.name v) ls m' rest → ClassBody m (line :: ls) m' rest

/-- `Path ts p`: the tokens are `a.b.c`, perhaps with a point after the last name. -/
inductive Path : List Token → List String → Prop
  | nil : Path [] []
  | one {t} : Path [t] [String.ofList t.val]
  | more {t dot ts p} : Is dot "." → Path ts p → Path (t :: dot :: ts) (String.ofList t.val :: p)

/-- `QueryBody q ls q' rest`: the lines `ls` are the lines of a query, to an empty line or the end of the file, and then `rest`.  In `a.b as N`
any token may stand for `as`. -/
inductive QueryBody : Query → List (List Char) → Query → List (List Char) → Prop
  | eof {q} : QueryBody q [] q []
  | empty {q rest} : QueryBody q ([] :: rest) q rest
  | skip {q line ls q' rest} : line ≠ [] → Lexed line [] → QueryBody q ls q' rest → QueryBody q (line :: ls) q' rest
  | from {q line kw cl ls q' rest} : Lexed line [kw, cl] → Is kw "from" → q.recordClass = "" →
      QueryBody { q with recordClass := String.ofList cl.val } ls q' rest → QueryBody q (line :: ls) q' rest
  | field {q line t ts kw n p ls q' rest} : Lexed line (t :: ts ++ [kw, n]) → ¬ Is t "from" → Path (t :: ts) p →
      QueryBody { q with fields := q.fields.set (String.ofList n.val) ⟨String.ofList n.val, p⟩ } ls q' rest → QueryBody q (line :: ls) q' rest

/-- `File s ls s'`: the lines are classes and queries.  A query may follow another one only if that had no `from`. -/
inductive File : Schema → List (List Char) → Schema → Prop
  | eof {s} : File s [] s
  | skip {s line ls s'} : Lexed line [] → File s ls s' → File s (line :: ls) s'
  | cls {s line kw n ls vars rest s'} : Lexed line [kw, n] → kw.type = .identifier → Is kw "class" → ClassBody ∅ ls vars rest →
      File { s with classes := s.classes.set (String.ofList n.val) ⟨String.ofList n.val, vars⟩ } rest s' → File s (line :: ls) s'
  | query {s line kw ls q rest s'} : Lexed line [kw] → kw.type = .identifier → Is kw "observe" → s.query.recordClass = "" →
      QueryBody s.query ls q rest → File { s with query := q } rest s' → File s (line :: ls) s'

/-- `ClassCut ls`: some line of the class that starts with these lines breaks off after a value, and the lines before it are accepted. -/
inductive ClassCut : List (List Char) → Prop
  | here {line ts ls} : Lexed line ts → VarCut ts → ClassCut (line :: ls)
  | skip {line ls} : line ≠ [] → Lexed line [] → ClassCut ls → ClassCut (line :: ls)
  | var {line ts v ls} : Lexed line ts → VarLine ts v → ClassCut ls → ClassCut (line :: ls)

/-- `FileCut s ls`: some class has a line that breaks off after a value, and everything before it is accepted. -/
inductive FileCut : Schema → List (List Char) → Prop
  | here {s line kw n ls} : Lexed line [kw, n] → kw.type = .identifier → Is kw "class" → ClassCut ls → FileCut s (line :: ls)
  | skip {s line ls} : Lexed line [] → FileCut s ls → FileCut s (line :: ls)
  | cls {s line kw n ls vars rest} : Lexed line [kw, n] → kw.type = .identifier → Is kw "class" → ClassBody ∅ ls vars rest →
      FileCut { s with classes := s.classes.set (String.ofList n.val) ⟨String.ofList n.val, vars⟩ } rest → FileCut s (line :: ls)
  | query {s line kw ls q rest} : Lexed line [kw] → kw.type = .identifier → Is kw "observe" → s.query.recordClass = "" →
      QueryBody s.query ls q rest → FileCut { s with query := q } rest → FileCut s (line :: ls)

/-! ### How a schema is written -/

/-- an identifier of the schema language, without line breaks and NUL by the definition of `InName` -/
def Name (s : String) : Prop := ∃ c w, s.toList = c :: w ∧ (Letter c ∨ c = '_') ∧ ∀ x ∈ w, InName x

/-- a value of a parameter that can be written in quotes -/
def Quotable (s : String) : Prop := ('"' ∉ s.toList ∨ '\'' ∉ s.toList) ∧ '\n' ∉ s.toList ∧ Char.ofNat 0 ∉ s.toList

def idTok (s : String) : Token := ⟨.identifier, s.toList⟩
def symTok (c : Char) : Token := ⟨.symbol, [c]⟩
def strTok (s : String) : Token := ⟨.string, s.toList⟩

/-- a line with these tokens, each followed by a blank -/
def lineOf (ts : List Token) : List Char := writeLine (ts.map (fun t => (t, [' '])))

/-- `k1 = "v1" , ..., kn = "vn" )` -/
def paramTokens : List (String × String) → List Token
  | [] => [symTok ')']
  | [p] => [idTok p.1, symTok '=', strTok p.2, symTok ')']
  | p :: l => idTok p.1 :: symTok '=' :: strTok p.2 :: symTok ',' :: paramTokens l

/-- `name ~ Class` or `name ~ joint ( k1 = "v1" , ... )` -/
def Variable.tokens (v : Variable) : List Token :=
  match v.spec with
  | .cls c => [idTok v.name, symTok '~', idTok c]
  | .scalar j ps => [idTok v.name, symTok '~', idTok j, symTok '('] ++ paramTokens ps.entries

/-- `class Name`, the variables and an empty line -/
def Class.lines (c : Class) : List (List Char) :=
  lineOf [idTok "class", idTok c.name] :: c.vars.entries.map (fun e => lineOf e.2.tokens) ++ [[]]

/-- `a . b . c` -/
def pathTokens : List String → List Token
  | [] => []
  | [a] => [idTok a]
  | a :: l => idTok a :: symTok '.' :: pathTokens l

/-- `a . b . c as Name` -/
def QueryField.tokens (f : QueryField) : List Token := pathTokens f.classPath ++ [idTok "as", idTok f.name]

/-- `observe`, the fields, `from Class` and an empty line -/
def Query.lines (q : Query) : List (List Char) :=
  lineOf [idTok "observe"] :: q.fields.entries.map (fun e => lineOf e.2.tokens) ++ [lineOf [idTok "from", idTok q.recordClass], []]

/-- The lines of the file of a schema. -/
def Schema.lines (s : Schema) : List (List Char) := s.classes.entries.flatMap (fun e => e.2.lines) ++ s.query.lines

/-- The file of a schema. -/
def Schema.text (s : Schema) : List Char := s.lines.flatMap (· ++ ['\n'])

/-- A variable that can be written. -/
def Variable.Ok (v : Variable) : Prop := Name v.name ∧
  match v.spec with
  | .cls c => Name c ∧ Capital c.toList
  | .scalar j ps => Name j ∧ ∀ k v, ps.find? k = some v → Name k ∧ Quotable v

/-- A schema that can be written: all names are identifiers, classes start with a capital letter, classes, variables and fields are stored under their
names, there is a query, and no path starts with `from`. -/
structure Schema.Ok (s : Schema) : Prop where
  classes : ∀ n c, s.classes.find? n = some c → c.name = n ∧ Name n ∧ ∀ m v, c.vars.find? m = some v → v.name = m ∧ v.Ok
  fields : ∀ n f, s.query.fields.find? n = some f → f.name = n ∧ Name n ∧ (∀ a ∈ f.classPath, Name a) ∧ f.classPath ≠ [] ∧ f.classPath.head? ≠ some "from"
  query : Name s.query.recordClass

end PClean
end Verif
