import Verif.Model.Parse
import Verif.Model.UtilIO
/-!
Model of distribution and emission specifications (`/repo/cxx/distributions/get_distribution.cc`, `/repo/cxx/emissions/get_emission.cc`),
of the table of joint names (`/repo/cxx/pclean/get_joint_relations.cc`) and of schema files (`load_schema` of `/repo/cxx/util_io.cc`).
-/
namespace Verif
open Text
variable {V : Type}

/-- util_observation.hh:14-19 `ObservationEnum`. -/
inductive ObsType where
  | bool | double | int | string
  deriving DecidableEq, Repr

/-- get_distribution.hh:20-30 `DistributionEnum`. -/
inductive DistEnum where
  | bernoulli | bigram | categorical | normal | skellam | stringcat | string_skellam | string_nat | string_normal
  deriving DecidableEq, Repr

/-- get_distribution.hh:32-40 `DistributionSpec`. -/
structure DistSpec where
  distribution : DistEnum
  obsType : ObsType
  args : FMap String String

/-- get_distribution.cc:33-38: the arguments in parentheses; a part without `=` fails an assertion. -/
def specArgs : List (List Char) → FMap String String → Res (FMap String String)
  | [], args => .ok args
  | part :: l, args => do
    assertR (part.contains '=')
    specArgs l (args.set (String.ofList (part.takeWhile (· != '='))) (String.ofList (part.dropWhile (· != '=')).tail))

/-- get_distribution.cc:40-70: the distribution and the type for a name. -/
def distByName (name : String) : Res (DistEnum × ObsType) :=
  if name = "bernoulli" then .ok (.bernoulli, .bool)
  else if name = "bigram" then .ok (.bigram, .string)
  else if name = "categorical" then .ok (.categorical, .int)
  else if name = "normal" then .ok (.normal, .double)
  else if name = "skellam" then .ok (.skellam, .int)
  else if name = "stringcat" then .ok (.stringcat, .string)
  else if name = "string_nat" then .ok (.string_nat, .string)
  else if name = "string_normal" then .ok (.string_normal, .string)
  else if name = "string_skellam" then .ok (.string_skellam, .string)
  else .error .exit

/-- get_distribution.cc:20-71 the constructor of `DistributionSpec`. -/
def DistSpec.make (distStr : List Char) (args : FMap String String) : Res DistSpec := do
  let name := distStr.takeWhile (· != '(')
  let rest := distStr.drop name.length
  let args ←
    if rest = [] then .ok args
    else do
      assertR (rest.head? == some '(')
      assertR (rest.getLast? == some ')')
      specArgs (parts ',' ((rest.drop 1).take (rest.length - 2))) args
  let (d, o) ← distByName (String.ofList name)
  .ok { distribution := d, obsType := o, args := args }

/-- get_emission.hh:19-26 `EmissionEnum`. -/
inductive EmisEnum where
  | bigram_string | gaussian | simple_string | sometimes_bitflip | sometimes_categorical | sometimes_gaussian
  deriving DecidableEq, Repr

/-- get_emission.hh:28-36 `EmissionSpec`. -/
structure EmisSpec where
  emission : EmisEnum
  obsType : ObsType
  args : FMap String String

/-- get_emission.cc:22-43: the emission and the type for a name. -/
def emisByName (name : String) : Res (EmisEnum × ObsType) :=
  if name = "bigram" then .ok (.bigram_string, .string)
  else if name = "gaussian" then .ok (.gaussian, .double)
  else if name = "simple_string" then .ok (.simple_string, .string)
  else if name = "sometimes_bitflip" then .ok (.sometimes_bitflip, .bool)
  else if name = "sometimes_categorical" then .ok (.sometimes_categorical, .int)
  else if name = "sometimes_gaussian" then .ok (.sometimes_gaussian, .double)
  else .error .exit

/-- get_emission.cc:18-44 the constructor of `EmissionSpec`. -/
def EmisSpec.make (emisStr : List Char) (args : FMap String String) : Res EmisSpec := do
  let (e, o) ← emisByName (String.ofList emisStr)
  .ok { emission := e, obsType := o, args := args }

/-- get_joint_relations.cc:10-26 `JOINT_NAME_TO_PARTS`. -/
def jointParts : List (String × String × String) :=
  [("bool", "bernoulli", "sometimes_bitflip"),
   ("categorical", "categorical", "sometimes_categorical"),
   ("real", "normal", "sometimes_gaussian"),
   ("string", "bigram", "bigram"),
   ("stringcat", "stringcat", "bigram"),
   ("typo_int", "string_skellam", "bigram"),
   ("typo_nat", "string_nat", "bigram"),
   ("typo_real", "string_normal", "bigram")]

/-- get_joint_relations.cc:28-42: the distribution of `get_distribution_relation`. -/
def jointDist (joint : String) (params : FMap String String) : Res DistSpec :=
  match jointParts.lookup joint with
  | none => .error .exit
  | some (d, _) => DistSpec.make d.toList params

/-- get_joint_relations.cc:44-60: the emission of `get_emission_relation`. -/
def jointEmis (joint : String) (params : FMap String String) : Res EmisSpec :=
  match jointParts.lookup joint with
  | none => .error .exit
  | some (_, e) => EmisSpec.make e.toList params

/-! ### get_prior -/

/-- `std::stoi` and `std::stoul`: the number at the start of the text; without one an exception is thrown.  Numbers have any size, see
`readInt`; a negative number that `std::stoul` wraps around is not modelled. -/
def stoi (s : String) : Res Int :=
  match readInt s.toList with
  | none => .error .assert
  | some (n, _) => .ok n

/-- `boost::split(strings, s, boost::is_any_of(delim))`: the parts between the delimiters, also empty ones. -/
def splitAny (delim : Char) : List Char → List Char → List (List Char)
  | acc, [] => [acc]
  | acc, c :: cs => if c = delim then acc :: splitAny delim [] cs else splitAny delim (acc ++ [c]) cs

/-- An object that `get_prior(const DistributionSpec&)` returns, with its parameters. -/
inductive Prior where
  | bernoulli
  | bigram (maxLength : Int)
  | categorical (k : Int)
  | normal
  | skellam
  | stringcat (strings : List String)
  | stringNat (maxLength : Int)
  | stringNormal
  | stringSkellam

/-- get_distribution.cc:98-103: the delimiter of the strings. -/
def stringcatDelim (args : FMap String String) : Res Char :=
  match args.find? "delim" with
  | none => .ok ' '
  | some d => do
    assertR (d.toList.length == 1)
    idxR d.toList 0

/-- get_distribution.cc:73-127 `get_prior`. -/
def getPrior (spec : DistSpec) : Res Prior :=
  match spec.distribution with
  | .bernoulli => .ok .bernoulli
  | .bigram =>
    match spec.args.find? "maxlength" with
    | none => .ok (.bigram 80)
    | some s => do
      let n ← stoi s
      .ok (.bigram n)
  | .categorical => do
    assertR (spec.args.size == 1)
    let s ← spec.args.atKey "k"
    let n ← stoi s
    .ok (.categorical n)
  | .normal => .ok .normal
  | .skellam => .ok .skellam
  | .stringcat => do
    let delim ← stringcatDelim spec.args
    let s ← spec.args.atKey "strings"
    .ok (.stringcat ((splitAny delim [] s.toList).map String.ofList))
  | .string_nat =>
    match spec.args.find? "maxlength" with
    | none => .ok (.stringNat 20)
    | some s => do
      let n ← stoi s
      .ok (.stringNat n)
  | .string_normal => .ok .stringNormal
  | .string_skellam => .ok .stringSkellam

/-- the `Distribution<T>*` alternative of `DistributionVariant` (get_distribution.hh:45-49) that holds the object -/
def Prior.obsType : Prior → ObsType
  | .bernoulli => .bool
  | .bigram _ => .string
  | .categorical _ => .int
  | .normal => .double
  | .skellam => .int
  | .stringcat _ => .string
  | .stringNat _ => .string
  | .stringNormal => .string
  | .stringSkellam => .string

/-- An object that `get_prior(const EmissionSpec&)` returns, with its parameters. -/
inductive EmisPrior where
  | bigram
  | gaussian
  | simpleString
  | sometimesBitflip
  | sometimesCategorical (k : Int)
  | sometimesGaussian

/-- get_emission.cc:46-67 `get_prior`. -/
def getEmisPrior (spec : EmisSpec) : Res EmisPrior :=
  match spec.emission with
  | .bigram_string => .ok .bigram
  | .gaussian => .ok .gaussian
  | .simple_string => .ok .simpleString
  | .sometimes_bitflip => .ok .sometimesBitflip
  | .sometimes_categorical => do
    let s ← spec.args.atKey "k"
    let n ← stoi s
    .ok (.sometimesCategorical n)
  | .sometimes_gaussian => .ok .sometimesGaussian

/-- the `Emission<T>*` alternative of `EmissionVariant` (get_emission.hh:14-17) that holds the object -/
def EmisPrior.obsType : EmisPrior → ObsType
  | .bigram => .string
  | .gaussian => .double
  | .simpleString => .string
  | .sometimesBitflip => .bool
  | .sometimesCategorical _ => .int
  | .sometimesGaussian => .double

/-! ### load_schema -/
namespace UtilIO

/-- util_io.cc:98-121: the parameters; the arguments are the tokens after `[` or `,`.  The index into the tokens is modelled by the rest of the tokens:
`TYPE_CHECK` and `VAL_CHECK` (util_io.cc:39-67) at the end of the tokens fail, other reads there are undefined behaviour. -/
def loadParams : List Token → FMap String String → Res (FMap String String × List Token)
  | [], _ => .error .assert
  | p :: ts, params =>
    if p.type ≠ .identifier then .error .assert
    else match ts with
      | [] => .error .assert
      | eq :: ts =>
        if eq.val ≠ "=".toList then .error .assert
        else match ts with
          | [] => .error .ub
          | v :: ts =>
            match ts with
            | [] => .error .ub
            | sep :: ts =>
              if sep.val = ",".toList then loadParams ts (params.set (String.ofList p.val) (String.ofList v.val))
              else if sep.val = "]".toList then .ok (params.set (String.ofList p.val) (String.ofList v.val), ts)
              else .error .exit

/-- util_io.cc:137-148: the domains; the tokens after the closing parenthesis are ignored. -/
def loadDomains : List Token → Res (List String)
  | [] => .error .ub
  | d :: ts =>
    match ts with
    | [] => .error .ub
    | sep :: ts =>
      if sep.val = ",".toList then do
        let ds ← loadDomains ts
        .ok (String.ofList d.val :: ds)
      else if sep.val = ")".toList then .ok [String.ofList d.val]
      else .error .exit

/-- What a line of a schema file says: the relation, the name of its distribution or emission, the parameters, the base
relation (empty if there is none) and the domains. -/
structure Decl where
  name : String
  dist : List Char
  params : FMap String String
  base : String
  doms : List String

/-- util_io.cc:123-148: from the opening parenthesis. -/
def loadTail (name : String) (dist : List Char) (params : FMap String String) : List Token → Res Decl
  | [] => .error .assert
  | par :: ts =>
    if par.val ≠ "(".toList then .error .assert
    else match ts with
      | [] => .error .assert
      | d :: rest =>
        if d.type ≠ .identifier then .error .assert
        else match rest with
          | [] => .error .ub
          | semi :: rest' =>
            if semi.val = ";".toList then do
              let doms ← loadDomains rest'
              .ok { name := name, dist := dist, params := params, base := String.ofList d.val, doms := doms }
            else do
              let doms ← loadDomains ts
              .ok { name := name, dist := dist, params := params, base := "", doms := doms }

/-- util_io.cc:84-148: a line with tokens.  Reading `tokens[3]` of a line with three tokens is undefined behaviour. -/
def loadDecl : List Token → Res Decl
  | [] => .error .assert
  | r :: ts =>
    if r.type ≠ .identifier then .error .assert
    else match ts with
      | [] => .error .assert
      | tilde :: ts =>
        if tilde.val ≠ "~".toList then .error .assert
        else match ts with
          | [] => .error .assert
          | dist :: ts =>
            if dist.type ≠ .identifier then .error .assert
            else match ts with
              | [] => .error .ub
              | br :: rest =>
                if br.val = "[".toList then do
                  let (params, rest) ← loadParams rest ∅
                  loadTail (String.ofList r.val) dist.val params rest
                else loadTail (String.ofList r.val) dist.val ∅ ts

/-- util_io.cc:150-167: the relation is added.  `mkC` and `mkE` are the constructors of `DistributionSpec` and `EmissionSpec`. -/
def addDecl {F : Family V} (mkC : List Char → FMap String String → Res F.C) (mkE : List Char → FMap String String → Res F.E)
    (schema : Schema F) (d : Decl) : Res (Schema F) :=
  if d.base = "" then do
    assertR (decide (0 < d.doms.length))
    let c ← mkC d.dist d.params
    .ok (schema.set d.name (.clean c d.doms false))
  else do
    assertR (decide (0 < d.doms.length))
    let e ← mkE d.dist d.params
    .ok (schema.set d.name (.noisy e d.doms d.base false))

/-- util_io.cc:76-168: the lines. -/
def schemaLines {F : Family V} (mkC : List Char → FMap String String → Res F.C) (mkE : List Char → FMap String String → Res F.E) :
    List (List Char) → Schema F → Res (Schema F)
  | [], schema => .ok schema
  | line :: ls, schema =>
    match tokenize line with
    | none => .error .assert
    | some [] => schemaLines mkC mkE ls schema
    | some tokens => do
      let d ← loadDecl tokens
      let schema ← addDecl mkC mkE schema d
      schemaLines mkC mkE ls schema

/-- util_io.cc:69-173 `load_schema`, given the text of the file. -/
def loadSchema {F : Family V} (mkC : List Char → FMap String String → Res F.C) (mkE : List Char → FMap String String → Res F.E)
    (text : List Char) : Res (Schema F) := do
  let schema ← schemaLines mkC mkE (lines text) ∅
  verifyDomains schema
  .ok schema

end UtilIO
end Verif
