import Verif.Model.Rel
import Verif.Model.SchemaFile
import Verif.Model.BigramString
/-!
The distributions and emissions of the repository as one family: what `get_prior` (`/repo/cxx/distributions/get_distribution.cc`,
`/repo/cxx/emissions/get_emission.cc`) makes, over the observations of `/repo/cxx/util_observation.hh`.
-/
namespace Verif
noncomputable section

/-- util_observation.hh:14 `ObservationVariant`. -/
inductive Value where
  | bool (b : Bool)
  | real (x : ℝ)
  | int (n : Int)
  | str (s : String)

namespace Value

/-- `std::get<bool>(value)` (irm.cc:53, 267); another alternative throws an exception. -/
def getBool : Value → Res Bool
  | .bool b => .ok b
  | _ => .error .assert

/-- `std::get<double>(value)`. -/
def getReal : Value → Res ℝ
  | .real x => .ok x
  | _ => .error .assert

/-- `std::get<int>(value)`. -/
def getInt : Value → Res Int
  | .int n => .ok n
  | _ => .error .assert

/-- `std::get<std::string>(value)`. -/
def getStr : Value → Res String
  | .str s => .ok s
  | _ => .error .assert

/-- `std::get<std::string>(value)`, as a list of characters. -/
def getChars : Value → Res (List Char)
  | .str s => .ok s.toList
  | _ => .error .assert

end Value

/-- `get` for both members of a pair -/
def pairGet {V W : Type} (get : W → Res V) (x : W × W) : Res (V × V) := do
  let a ← get x.1
  let b ← get x.2
  .ok (a, b)

/-- `get` for the members of a list -/
def listGet {V W : Type} (get : W → Res V) : List W → Res (List V)
  | [] => .ok []
  | x :: l => do
    let a ← get x
    let l ← listGet get l
    .ok (a :: l)

/-- A distribution over `V`, used through values of the type `W`: `get` takes a `V` out of a `W`. -/
def DistOps.via {V W : Type} (get : W → Res V) (D : DistOps V) : DistOps W where
  S := D.S
  N := D.N
  inc := fun s x => (get x).bind fun v => D.inc s v
  dec := fun s x => (get x).bind fun v => D.dec s v
  logp := fun s x => (get x).bind fun v => D.logp s v
  score := D.score
  trans := D.trans
  theta := D.theta
  fresh := D.fresh

/-- The same with samples and nearest values; `put` makes a `W` of a `V`. -/
def CleanOps.via {V W : Type} (get : W → Res V) (put : V → W) (C : CleanOps V) : CleanOps W where
  toDistOps := C.toDistOps.via get
  sample := fun s t => (C.sample s t).bind fun r => .ok (put r.1, r.2)
  nearest := fun s x => (get x).bind fun v => (C.nearest s v).bind fun y => .ok (put y)

/-- The same for emissions. -/
def EmisOps.via {V W : Type} (get : W → Res V) (put : V → W) (E : EmisOps V) : EmisOps W where
  toDistOps := E.toDistOps.via (pairGet get)
  corrupt := fun s x t => (get x).bind fun v => (E.corrupt s v t).bind fun r => .ok (put r.1, r.2)
  propose := fun s l t => (listGet get l).bind fun l => (E.propose s l t).bind fun r => .ok (put r.1, r.2)

/-- What the standard library provides and the model does not define: the Bessel functions, draws from continuous distributions and from
Poisson distributions as functions of the tape, and reading and printing `double`s. -/
structure World where
  /-- `std::cyl_bessel_i` -/
  besselI : Nat → ℝ → ℝ
  /-- the two standard normal draws of `Skellam::init_theta` -/
  initDraws : Tape → ℝ × ℝ
  /-- the uniform draw of `transition_theta` -/
  accept : Tape → ℝ
  /-- a standard Student-t draw -/
  student : Tape → ℝ × Tape
  /-- a standard normal draw -/
  normal : Tape → ℝ × Tape
  /-- a draw from a gamma distribution with the given shape and scale 1 -/
  gamma : ℝ → Tape → ℝ × Tape
  /-- a draw from a Poisson distribution with the given mean -/
  poisson : ℝ → Tape → Nat × Tape
  /-- `stream >> x` for a `double x`, given the whole text -/
  readReal : String → Res ℝ
  /-- `stream << x` for a `double x` -/
  showReal : ℝ → String

/-- normal.cc:59-72 `sample`, given a standard gamma draw with shape `nu / 2` and two standard normal draws. -/
def Normal.sample (d : Normal) (g z1 z2 : ℝ) : ℝ :=
  let rn := d.r + d.N
  let (mprime, sprime) := d.posteriorHypers
  let rho := g * (2 / sprime)
  let smean := mprime + z1 * (1 / Real.sqrt (rho * rn))
  let stdDev := 1 / Real.sqrt rho
  smean + z2 * stdDev

/-- skellam.cc:19-23 `sample`. -/
def Skellam.sample (w : World) (d : Skellam) (t : Tape) : Int × Tape :=
  let (a, t) := w.poisson d.mu1 t
  let (b, t) := w.poisson d.mu2 t
  ((a : Int) - (b : Int), t)

/-- beta_bernoulli.hh:11-40 with beta_bernoulli.cc:29-35 `sample`. -/
def BetaBernoulli.clean : CleanOps Bool where
  toDistOps := BetaBernoulli.ops
  sample := fun s t => let (b, t) := Sometimes.flip t; .ok (b, s, t)
  nearest := fun _ x => .ok x

/-- dirichlet_categorical.hh:13-40. -/
def DirichletCategorical.clean (k : Nat) : CleanOps Int where
  toDistOps := DirichletCategorical.ops k
  sample := fun (s : DirichletCategorical) t => let (x, t) := s.sample t; .ok ((x : Int), s, t)
  nearest := fun (s : DirichletCategorical) x => .ok (s.nearest x)

/-- normal.hh:28-60. -/
def Normal.clean (w : World) : CleanOps ℝ where
  toDistOps := Normal.ops
  sample := fun (s : Normal) t =>
    let (g, t) := w.gamma ((s.v + s.N) / 2) t
    let (z1, t) := w.normal t
    let (z2, t) := w.normal t
    .ok (s.sample g z1 z2, s, t)
  nearest := fun _ x => .ok x

/-- skellam.hh:14-60. -/
def Skellam.clean (w : World) : CleanOps Int where
  toDistOps := Skellam.ops w.besselI w.initDraws w.accept
  sample := fun (s : Skellam) t => let (x, t) := Skellam.sample w s t; .ok (x, s, t)
  nearest := fun _ x => .ok x

/-- stringcat.hh:13-45. -/
def StringCat.clean (strings : List String) : CleanOps String where
  toDistOps := StringCat.ops strings
  sample := fun (s : StringCat) t => (s.sample t).bind fun r => .ok (r.1, s, r.2)
  nearest := fun (s : StringCat) x => s.nearest x

/-- The number of draws that `Bigram::sample` makes for the string `x` (bigram.cc:82, 94): one for each character, and one for the end,
unless the string has the maximal length. -/
def Bigram.drawsFor (b : Bigram) (x : List Char) : Nat := if x.length = b.maxLength then x.length else x.length + 1

/-- bigram.hh:9-80.  The stop symbol ends a tape on which `sample` would need more draws, so that a tape stands for a run that ends; each
run that ends has a tape.  (A run whose draws never are the stop symbol does not end.) -/
def Bigram.clean (maxLength minChar maxChar : Nat) (nearest : List Char → List Char) : CleanOps (List Char) where
  toDistOps := Bigram.ops maxLength minChar maxChar
  sample := fun (s : Bigram) t => match s.sample (t ++ [s.numChars]) with
    | none => .error .ub
    | some r => r.bind fun x => .ok (x.1, x.2, t.drop (s.drawsFor x.1))
  nearest := fun _ x => .ok (nearest x)

/-- adapter.hh:14-64 with `to_string` (adapter.hh:29-33) as `shown`; `nearest` is not overridden. -/
def CleanOps.adapt {V : Type} (C : CleanOps V) (parse : String → Res V) (shown : V → String) : CleanOps String where
  toDistOps := C.toDistOps.adapt parse
  sample := fun s t => (C.sample s.2 t).bind fun r => .ok (shown r.1, (s.1, r.2.1), r.2.2)
  nearest := fun _ x => .ok x

open Text in
/-- `std::istringstream(x) >> n` for a new `int n` (adapter.hh:23-27, relation.hh:127-132): 0 if the text does not start with a number;
without any text `n` keeps its indeterminate value. -/
def streamInt (x : String) : Res Int :=
  if x.toList.all isSpace then .error .ub
  else match readInt x.toList with
    | none => .ok 0
    | some (n, _) => .ok n

/-- The same for a `bool`: the number 0 is `false`, every other number is `true`, and other text is `false`. -/
def streamBool (x : String) : Res Bool := do
  let n ← streamInt x
  .ok (n != 0)

/-- get_distribution.cc:73-127: the objects.  Simplification: a negative argument counts as 0. -/
def Prior.ops (w : World) : Prior → CleanOps Value
  | .bernoulli => BetaBernoulli.clean.via Value.getBool .bool
  | .bigram n => (Bigram.clean n.toNat 32 126 id).via Value.getChars (fun x => .str (String.ofList x))
  | .categorical k => (DirichletCategorical.clean k.toNat).via Value.getInt .int
  | .normal => (Normal.clean w).via Value.getReal .real
  | .skellam => (Skellam.clean w).via Value.getInt .int
  | .stringcat strings => (StringCat.clean strings).via Value.getStr .str
  | .stringNat n => (Bigram.clean n.toNat 48 57 StringNat.nearest).via Value.getChars (fun x => .str (String.ofList x))
  | .stringNormal => ((Normal.clean w).adapt w.readReal w.showReal).via Value.getStr .str
  | .stringSkellam => ((Skellam.clean w).adapt streamInt (fun n => String.ofList (Text.intText n))).via Value.getStr .str

/-- get_emission.cc:46-67: the objects. -/
def EmisPrior.ops (w : World) : EmisPrior → EmisOps Value
  | .bigram => BigramStringEmission.ops.via Value.getChars (fun x => .str (String.ofList x))
  | .gaussian => (GaussianEmission w.student).ops.via Value.getReal .real
  | .simpleString => SimpleStringEmission.ops.via Value.getChars (fun x => .str (String.ofList x))
  | .sometimesBitflip => (Sometimes BitFlip).ops.via Value.getBool .bool
  | .sometimesCategorical k => (Sometimes (CategoricalEmission k.toNat) true).ops.via Value.getInt .int
  | .sometimesGaussian => (Sometimes (GaussianEmission w.student)).ops.via Value.getReal .real

/-- The distributions and emissions that a schema can name. -/
def priors (w : World) : Family Value where
  C := Prior
  E := EmisPrior
  dist := Prior.ops w
  emis := EmisPrior.ops w

/-- relation.hh:127-132, relation.cc:4-6 `Relation::from_string`: the type of the relation determines how a value is read. -/
def fromString (w : World) : ObsType → String → Res Value
  | .bool, x => (streamBool x).bind fun b => .ok (.bool b)
  | .double, x => (w.readReal x).bind fun b => .ok (.real b)
  | .int, x => (streamInt x).bind fun b => .ok (.int b)
  | .string, x => .ok (.str x)

/-- The same for the relations of a family of priors. -/
def parseValue (w : World) : (priors w).C ⊕ (priors w).E → String → Res Value
  | .inl c, x => fromString w (Prior.obsType c) x
  | .inr e, x => fromString w (EmisPrior.obsType e) x

end
end Verif
