import Verif.Spec.HIRM
/-! Specification of sampling from an HIRM. -/
namespace Verif
open Spec
noncomputable section
variable {V : Type} {F : Family V}

/-- Sampling from the distribution returns a supported value and leaves the distribution as it is.  (False for `Bigram` with a maximal length,
see C15.) -/
def FamilyLaws.Sampleable (L : FamilyLaws F) (c : F.C) : Prop :=
  ∀ m s t, (F.dist c).Holds (L.suppC c) m s → ∃ x t', (F.dist c).sample s t = .ok (x, s, t') ∧ L.suppC c x

/-- Corrupting a base value gives a value that the emission accepts for it, if there is one. -/
structure Samples (L : FamilyLaws F) : Prop where
  noisy : ∀ e m s b t, (F.emis e).Holds (L.suppE e) m s → (∃ y, L.suppE e (b, y)) →
    ∃ x t', (F.emis e).corrupt s b t = .ok (x, t') ∧ L.suppE e (b, x)

/-- the values that a relation can have -/
def RelSpec.Value (L : FamilyLaws F) : RelSpec F → V → Prop
  | .clean c _ _, v => L.suppC c v
  | .noisy e _ _ _, v => ∃ b, L.suppE e (b, v)

/-- The emission of each noisy relation accepts the values of its base relation, and the distributions of base relations can be sampled
from. -/
structure Usable (L : FamilyLaws F) (schema : Schema F) : Prop where
  accepts : ∀ n e doms b o sp, schema.find? n = some (.noisy e doms b o) → schema.find? b = some sp → ∀ v, sp.Value L v → ∃ y, L.suppE e (v, y)
  bases : ∀ n c doms o m spec, schema.find? n = some (.clean c doms o) → schema.find? m = some spec → spec.base? = some n → L.Sampleable c

/-- In addition the distributions of the other relations can be sampled from. -/
structure Compatible (L : FamilyLaws F) (schema : Schema F) : Prop extends Usable L schema where
  all : ∀ n c doms o, schema.find? n = some (.clean c doms o) → L.Sampleable c

namespace HIRM

/-- the value observed for a tuple of a relation -/
def value (H : HIRM F) (n : String) (k : Items) : Option V := (H.dataOf n).bind (·.find? k)

/-- no relation of the schema has `r` as its base -/
def Leaf (schema : Schema F) (r : String) : Prop := ∀ n spec, schema.find? n = some spec → spec.base? ≠ some r

/-- tuple `k` of relation `n` is the base tuple of an observation that `H'` has and `H` has not -/
def Needed (H H' : HIRM F) (n : String) (k : Items) : Prop :=
  ∃ m spec sp k' v, H.schema.find? m = some spec ∧ spec.base? = some n ∧ H.schema.find? n = some sp ∧
    H.value m k' = none ∧ H'.value m k' = some v ∧ k'.take sp.doms.length = k

/-- `H'` has, for each leaf relation, the observations of `H` and the listed ones, which are new and distinct; the other relations have
gained the base values of new observations, and nothing else. -/
structure Sampled (H H' : HIRM F) (obs : String → List (Items × V)) : Prop where
  schema : H'.schema = H.schema
  kept : ∀ n k v, H.value n k = some v → H'.value n k = some v
  distinct : ∀ r, ((obs r).map Prod.fst).Nodup
  new : ∀ r k v, (k, v) ∈ obs r → H.value r k = none ∧ H'.value r k = some v
  leaf : ∀ r k v, Leaf H.schema r → H.value r k = none → H'.value r k = some v → (k, v) ∈ obs r
  base : ∀ n k v, ¬ Leaf H.schema n → H.value n k = none → H'.value n k = some v → Needed H H' n k

end HIRM
end
end Verif
