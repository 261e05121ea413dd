import Verif.Model.Priors
import Verif.Spec.Sampling
/-! Specification of the distributions and emissions of the repository as one family. -/
namespace Verif
noncomputable section

/-- the alternative of `ObservationVariant` that a value has -/
def Value.type : Value → ObsType
  | .bool _ => .bool
  | .real _ => .double
  | .int _ => .int
  | .str _ => .string

/-- a text of at most `n` characters (any number if `n` is not positive), all with codes from `lo` to `hi` -/
def TextIn (n : Int) (lo hi : Nat) (s : String) : Prop :=
  (0 < n → (s.toList.length : Int) ≤ n) ∧ ∀ c ∈ s.toList, lo ≤ c.toNat ∧ c.toNat ≤ hi

/-- The values that a distribution can take.  (Simplification: `string_normal` and `string_skellam` also take texts with other characters than `' '` to `'~'`;
without these their values are values of the emission `bigram`, too.) -/
def Prior.Supports (w : World) : Prior → Value → Prop
  | .bernoulli, v => ∃ b, v = .bool b
  | .bigram n, v => ∃ s, v = .str s ∧ TextIn n 32 126 s
  | .categorical k, v => ∃ i, v = .int i ∧ 0 ≤ i ∧ i < k
  | .normal, v => ∃ x, v = .real x
  | .skellam, v => ∃ i, v = .int i
  | .stringcat strings, v => ∃ s, v = .str s ∧ s ∈ strings
  | .stringNat n, v => ∃ s, v = .str s ∧ TextIn n 48 57 s
  | .stringNormal, v => ∃ s, v = .str s ∧ TextIn 0 32 126 s ∧ ∃ x, w.readReal s = .ok x
  | .stringSkellam, v => ∃ s, v = .str s ∧ TextIn 0 32 126 s ∧ ∃ c ∈ s.toList, Text.isSpace c = false

/-- The values that an emission can be given, as clean and as dirty values: for `bigram` the texts of the characters `' '` to `'~'`, for
`sometimes_categorical` the categories, and for the other emissions all values of their type. -/
def EmisPrior.Takes : EmisPrior → Value → Prop
  | .bigram, v => ∃ s, v = .str s ∧ ∀ c ∈ s.toList, 32 ≤ c.toNat ∧ c.toNat ≤ 126
  | .gaussian, v => ∃ x, v = .real x
  | .simpleString, v => ∃ s, v = .str s
  | .sometimesBitflip, v => ∃ b, v = .bool b
  | .sometimesCategorical k, v => ∃ i, v = .int i ∧ 0 ≤ i ∧ i < k
  | .sometimesGaussian, v => ∃ x, v = .real x

/-- The pairs of a clean value and a dirty value that an emission accepts. -/
def EmisPrior.Supports (e : EmisPrior) (x : Value × Value) : Prop := e.Takes x.1 ∧ e.Takes x.2

/-- The emissions whose `unincorporate` undoes `incorporate`: all but `bigram` and `sometimes_categorical`. -/
def EmisPrior.Undoes : EmisPrior → Prop
  | .bigram => False
  | .sometimesCategorical _ => False
  | _ => True

/-- The distributions whose `sample` returns a value in the support and leaves the distribution alone: those with a value at all, and of
`bigram` and `string_nat` those without a maximal length (see C15). -/
def Prior.Samples : Prior → Prop
  | .bigram n => n ≤ 0
  | .stringNat n => n ≤ 0
  | .categorical k => 0 < k
  | .stringcat strings => strings ≠ []
  | _ => True

/-- A printed `double` consists of printable characters and can be read. -/
def World.Readable (w : World) : Prop := ∀ x, TextIn 0 32 126 (w.showReal x) ∧ ∃ y, w.readReal (w.showReal x) = .ok y

/-- The type of the values of a relation. -/
def RelSpec.obsType {w : World} : RelSpec (priors w) → ObsType
  | .clean c _ _ => Prior.obsType c
  | .noisy e _ _ _ => EmisPrior.obsType e

/-- The observation is a value of the relation's distribution or emission. -/
def RelSpec.Takes {w : World} : RelSpec (priors w) → Verif.Value → Prop
  | .clean c _ _, v => Prior.Supports w c v
  | .noisy e _ _ _, v => EmisPrior.Takes e v

/-- What a schema must satisfy for observations to work: the noise of a relation takes the values of its base relation, a noisy relation has at
least as many domains as its base, and the distributions of base relations sample values of their support. -/
structure Sound {w : World} (schema : Schema (priors w)) : Prop where
  arity : ∀ n spec b sp, schema.find? n = some spec → spec.base? = some b → schema.find? b = some sp → sp.doms.length ≤ spec.doms.length
  takes : ∀ n e doms b o sp, schema.find? n = some (.noisy e doms b o) → schema.find? b = some sp → ∀ v, sp.Takes v → EmisPrior.Takes e v
  bases : ∀ n c doms o m spec, schema.find? n = some (.clean c doms o) → schema.find? m = some spec → spec.base? = some n → Prior.Samples c

/-- What inference needs in addition: the noise can be undone. -/
def Undoing {w : World} (schema : Schema (priors w)) : Prop :=
  ∀ n e doms b o, schema.find? n = some (.noisy e doms b o) → EmisPrior.Undoes e

/-- In addition the distributions of the other relations sample values of their support. -/
structure Sampleable {w : World} (schema : Schema (priors w)) : Prop extends Sound schema where
  all : ∀ n c doms o, schema.find? n = some (.clean c doms o) → Prior.Samples c

end
end Verif
