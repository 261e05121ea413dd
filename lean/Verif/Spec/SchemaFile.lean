import Verif.Model.SchemaFile
import Verif.Spec.Parse
/-!
Specification of distribution specifications and schema files.
-/
namespace Verif

/-- The names of the distributions, and the types of their values. -/
def distTable : List (String × DistEnum × ObsType) :=
  [("bernoulli", .bernoulli, .bool), ("bigram", .bigram, .string), ("categorical", .categorical, .int), ("normal", .normal, .double),
   ("skellam", .skellam, .int), ("stringcat", .stringcat, .string), ("string_nat", .string_nat, .string),
   ("string_normal", .string_normal, .string), ("string_skellam", .string_skellam, .string)]

/-- The names of the emissions, and the types of their values. -/
def emisTable : List (String × EmisEnum × ObsType) :=
  [("bigram", .bigram_string, .string), ("gaussian", .gaussian, .double), ("simple_string", .simple_string, .string),
   ("sometimes_bitflip", .sometimes_bitflip, .bool), ("sometimes_categorical", .sometimes_categorical, .int),
   ("sometimes_gaussian", .sometimes_gaussian, .double)]

/-- an argument `k=v` -/
abbrev Arg := List Char × List Char

/-- An argument that can be written: no comma, and no `=` in the key. -/
def Arg.Ok (a : Arg) : Prop := ',' ∉ a.1 ∧ '=' ∉ a.1 ∧ ',' ∉ a.2

/-- `k1=v1,k2=v2,...` -/
def argsText : List Arg → List Char
  | [] => []
  | [a] => a.1 ++ '=' :: a.2
  | a :: l => a.1 ++ '=' :: a.2 ++ ',' :: argsText l

/-- the arguments, in addition to those that were there before; of two with the same key the later one counts -/
def putArgs (args : FMap String String) (l : List Arg) : FMap String String :=
  l.foldl (fun m a => m.set (String.ofList a.1) (String.ofList a.2)) args

/-- `p` is the object for the specification: a maximal length is the argument `maxlength` or the default, the categories are as many as the argument
`k` says, and the strings joined with the delimiter are the argument `strings`. -/
def Prior.Of (p : Prior) (spec : DistSpec) : Prop :=
  match spec.distribution, p with
  | .bernoulli, .bernoulli => True
  | .bigram, .bigram n => (spec.args.find? "maxlength" = none ∧ n = 80) ∨ spec.args.find? "maxlength" = some (String.ofList (Text.intText n))
  | .categorical, .categorical k => spec.args.find? "k" = some (String.ofList (Text.intText k))
  | .normal, .normal => True
  | .skellam, .skellam => True
  | .stringcat, .stringcat l => ∃ delim : Char, (spec.args.find? "delim" = none ∧ delim = ' ' ∨ spec.args.find? "delim" = some (String.ofList [delim])) ∧
      (∀ x ∈ l, delim ∉ x.toList) ∧ l ≠ [] ∧ spec.args.find? "strings" = some (String.ofList ([delim].intercalate (l.map String.toList)))
  | .string_nat, .stringNat n => (spec.args.find? "maxlength" = none ∧ n = 20) ∨ spec.args.find? "maxlength" = some (String.ofList (Text.intText n))
  | .string_normal, .stringNormal => True
  | .string_skellam, .stringSkellam => True
  | _, _ => False

namespace UtilIO

/-- A declaration of a schema file as it is written: the name of the relation, the distribution or emission, the parameters with
the tokens of their values, the base relation if there is one, and the domains. -/
structure Written where
  name : List Char
  dist : List Char
  params : List (List Char × Token)
  base : Option (List Char)
  doms : List (List Char)

def idTok (s : List Char) : Token := ⟨.identifier, s⟩
def symTok (c : Char) : Token := ⟨.symbol, [c]⟩

/-- `k1 = v1, k2 = v2, ...` -/
def paramToks : List (List Char × Token) → List Token
  | [] => []
  | [p] => [idTok p.1, symTok '=', p.2]
  | p :: l => idTok p.1 :: symTok '=' :: p.2 :: symTok ',' :: paramToks l

/-- `d1, d2, ...` -/
def domToks : List (List Char) → List Token
  | [] => []
  | [d] => [idTok d]
  | d :: l => idTok d :: symTok ',' :: domToks l

/-- `name ~ dist[k1 = v1, ...](base; d1, ...)`; the brackets are left out if there are no parameters. -/
def Written.tokens (w : Written) : List Token :=
  [idTok w.name, symTok '~', idTok w.dist] ++
  (if w.params = [] then [] else symTok '[' :: paramToks w.params ++ [symTok ']']) ++
  [symTok '('] ++ (match w.base with | none => [] | some b => [idTok b, symTok ';']) ++ domToks w.doms ++ [symTok ')']

/-- the parameters, of two with the same key the later one -/
def Written.paramMap (w : Written) : FMap String String :=
  w.params.foldl (fun m p => m.set (String.ofList p.1) (String.ofList p.2.val)) ∅

/-- What a declaration says. -/
def Written.decl (w : Written) : Decl :=
  { name := String.ofList w.name, dist := w.dist, params := w.paramMap, base := String.ofList (w.base.getD []), doms := w.doms.map String.ofList }

/-- A declaration that can be written: at least one domain, and the base relation has a name. -/
structure Written.Ok (w : Written) : Prop where
  doms : w.doms ≠ []
  base : w.base ≠ some []

/-- The line for a declaration, with a blank after each token. -/
def Written.text (w : Written) : List Char := Lex.writeLine (w.tokens.map (fun t => (t, [' '])))

/-- The declaration can be written on a line: its names are identifiers, and the values of parameters are tokens without line breaks. -/
def Written.Spelled (w : Written) : Prop := ∀ t ∈ w.tokens, Lex.Writable t ∧ '\n' ∉ t.val ∧ Char.ofNat 0 ∉ t.val

/-- The entry of the schema for a declaration. -/
def Written.Declares {V : Type} {F : Family V} (mkC : List Char → FMap String String → Res F.C) (mkE : List Char → FMap String String → Res F.E)
    (w : Written) (n : String) (spec : RelSpec F) : Prop :=
  n = String.ofList w.name ∧
  match w.base with
  | none => ∃ c, mkC w.dist w.paramMap = .ok c ∧ spec = .clean c (w.doms.map String.ofList) false
  | some b => ∃ e, mkE w.dist w.paramMap = .ok e ∧ spec = .noisy e (w.doms.map String.ofList) (String.ofList b) false

/-- The token has this text; `load_schema` does not ask whether it is quoted. -/
def Token.Is (t : Token) (s : String) : Prop := t.val = s.toList

/-- `Params ts m rest`: the tokens `ts` are `k1 = v1, ..., kn = vn ]` and then `rest`, and `m` is `m0` with these parameters. -/
inductive Params : FMap String String → List Token → FMap String String → List Token → Prop
  | last {m0 p eq v sep rest} : p.type = .identifier → Token.Is eq "=" → Token.Is sep "]" →
      Params m0 (p :: eq :: v :: sep :: rest) (m0.set (String.ofList p.val) (String.ofList v.val)) rest
  | more {m0 p eq v sep ts m rest} : p.type = .identifier → Token.Is eq "=" → Token.Is sep "," →
      Params (m0.set (String.ofList p.val) (String.ofList v.val)) ts m rest → Params m0 (p :: eq :: v :: sep :: ts) m rest

/-- `Domains ts ds`: the tokens `ts` are `d1, ..., dn )` and then anything. -/
inductive Domains : List Token → List String → Prop
  | last {d sep rest} : Token.Is sep ")" → Domains (d :: sep :: rest) [String.ofList d.val]
  | more {d sep ts ds} : Token.Is sep "," → Domains ts ds → Domains (d :: sep :: ts) (String.ofList d.val :: ds)

/-- `(base; d1, ...)` or `(d1, ...)`, and then anything. -/
inductive Tail : List Token → String → List String → Prop
  | noisy {par b semi ts ds} : Token.Is par "(" → b.type = .identifier → Token.Is semi ";" → Domains ts ds →
      Tail (par :: b :: semi :: ts) (String.ofList b.val) ds
  | clean {par d sep ts ds} : Token.Is par "(" → d.type = .identifier → ¬ Token.Is sep ";" → Domains (d :: sep :: ts) ds →
      Tail (par :: d :: sep :: ts) "" ds

/-- The lines that `load_schema` accepts. -/
inductive Line : List Token → Decl → Prop
  | params {r tilde dist br ts m rest base doms} : r.type = .identifier → Token.Is tilde "~" → dist.type = .identifier → Token.Is br "[" →
      Params ∅ ts m rest → Tail rest base doms →
      Line (r :: tilde :: dist :: br :: ts) { name := String.ofList r.val, dist := dist.val, params := m, base := base, doms := doms }
  | plain {r tilde dist br ts base doms} : r.type = .identifier → Token.Is tilde "~" → dist.type = .identifier → ¬ Token.Is br "[" →
      Tail (br :: ts) base doms →
      Line (r :: tilde :: dist :: br :: ts) { name := String.ofList r.val, dist := dist.val, params := ∅, base := base, doms := doms }

/-- parameters that break off after `=` or after a value -/
inductive ParamsCut : List Token → Prop
  | eq {p eq} : p.type = .identifier → Token.Is eq "=" → ParamsCut [p, eq]
  | value {p eq v} : p.type = .identifier → Token.Is eq "=" → ParamsCut [p, eq, v]
  | more {p eq v sep ts} : p.type = .identifier → Token.Is eq "=" → Token.Is sep "," → ParamsCut ts → ParamsCut (p :: eq :: v :: sep :: ts)

/-- domains that break off after a comma or after a domain -/
inductive DomainsCut : List Token → Prop
  | nil : DomainsCut []
  | one {d} : DomainsCut [d]
  | more {d sep ts} : Token.Is sep "," → DomainsCut ts → DomainsCut (d :: sep :: ts)

inductive TailCut : List Token → Prop
  | one {par d} : Token.Is par "(" → d.type = .identifier → TailCut [par, d]
  | noisy {par b semi ts} : Token.Is par "(" → b.type = .identifier → Token.Is semi ";" → DomainsCut ts → TailCut (par :: b :: semi :: ts)
  | clean {par d sep ts} : Token.Is par "(" → d.type = .identifier → ¬ Token.Is sep ";" → DomainsCut (d :: sep :: ts) → TailCut (par :: d :: sep :: ts)

/-- The lines for which `load_schema` reads past the end of the tokens: they break off where it does not look at the number of tokens. -/
inductive Cut : List Token → Prop
  | dist {r tilde dist} : r.type = .identifier → Token.Is tilde "~" → dist.type = .identifier → Cut [r, tilde, dist]
  | params {r tilde dist br ts} : r.type = .identifier → Token.Is tilde "~" → dist.type = .identifier → Token.Is br "[" → ParamsCut ts →
      Cut (r :: tilde :: dist :: br :: ts)
  | tail {r tilde dist br ts m rest} : r.type = .identifier → Token.Is tilde "~" → dist.type = .identifier → Token.Is br "[" →
      Params ∅ ts m rest → TailCut rest → Cut (r :: tilde :: dist :: br :: ts)
  | plain {r tilde dist br ts} : r.type = .identifier → Token.Is tilde "~" → dist.type = .identifier → ¬ Token.Is br "[" → TailCut (br :: ts) →
      Cut (r :: tilde :: dist :: br :: ts)

end UtilIO
end Verif
