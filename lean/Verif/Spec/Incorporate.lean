import Verif.Model.Incorporate
import Verif.Spec.UtilIO
import Verif.Spec.Sampling
/-!
Specification of `incorporate_observations`.
-/
namespace Verif
open Spec
variable {V : Type} {F : Family V} {M : Type}

/-- the value observed for a tuple of a relation -/
def IRM.value (I : IRM F) (n : String) (k : Items) : Option V := (I.rels.find? n).bind (fun x => x.2.data.find? k)

namespace UtilIO

/-- The codes of the entities of a tuple. -/
def Codes (enc : Encoding) (doms : List String) (items : List String) (k : Items) : Prop :=
  k.length = items.length ∧ ∀ (i : Nat) (x : String) (c : Int), items[i]? = some x → k[i]? = some c →
    ∃ d, doms[i]? = some d ∧ Encoding.code enc d x = some c

/-- The observation `o` (entities and text of the value) says that relation `r` has the value `v` for the tuple `k`. -/
def Says (X : Host F M) (parse : F.C ⊕ F.E → String → Res V) (enc : Encoding) (m : M) (r : String) (o : List String × String) (k : Items) (v : V) : Prop :=
  ∃ spec rel, (X.schema m).find? r = some spec ∧ Codes enc spec.doms o.1 k ∧ X.get m r = .ok rel ∧ parse rel.tag o.2 = .ok v

/-- `m'` is `m` with the observations: every observation has been stored, each for a tuple that had no value, and no two of the same
relation for the same tuple; what was there is still there; and what else is new are values of relations without observations, for tuples
that noisy relations need. -/
structure Incorporated (X : Host F M) (value : M → String → Items → Option V) (parse : F.C ⊕ F.E → String → Res V) (enc : Encoding)
    (obs : ObsMap String) (m m' : M) : Prop where
  schema : X.schema m' = X.schema m
  kept : ∀ n k v, value m n k = some v → value m' n k = some v
  each : ∀ r l, obs.find? r = some l → ∀ o ∈ l, ∃ k v, Says X parse enc m r o k v ∧ value m r k = none ∧ value m' r k = some v
  once : ∀ r l, obs.find? r = some l → l.Pairwise (fun o o' => ∀ k v k' v', Says X parse enc m r o k v → Says X parse enc m r o' k' v' → k ≠ k')
  only : ∀ r k v, value m r k = none → value m' r k = some v →
    (∃ l, obs.find? r = some l ∧ ∃ o ∈ l, Says X parse enc m r o k v) ∨
    ((obs.find? r).getD [] = [] ∧ ∃ n ∈ ((X.baseToNoisy m).find? r).getD [], ∃ k' v', value m' n k' = some v' ∧ k <+: k')

/-- The value is in the support of the relation, whatever value its base relation has. -/
def Takes (L : FamilyLaws F) (schema : Schema F) (v : V) : RelSpec F → Prop
  | .clean c _ _ => L.suppC c v
  | .noisy e _ b _ => ∀ sp bv, schema.find? b = some sp → sp.Value L bv → L.suppE e (bv, v)

/-- All observations have values in the supports of their relations. -/
def Supported (X : Host F M) (L : FamilyLaws F) (parse : F.C ⊕ F.E → String → Res V) (obs : ObsMap String) (m : M) : Prop :=
  ∀ r spec l o v, (X.schema m).find? r = some spec → obs.find? r = some l → o ∈ l → parse spec.kind o.2 = .ok v → Takes L (X.schema m) v spec

/-- The observations of relation `r` suit the relation: each has as many entities as the relation has domains, the entities have codes, the
text of the value can be read, the relation has no value for the tuple yet, and no two of the observations are for the same tuple. -/
structure Suits (value : M → String → Items → Option V) (parse : F.C ⊕ F.E → String → Res V) (enc : Encoding)
    (m : M) (r : String) (spec : RelSpec F) (l : List (List String × String)) : Prop where
  each : ∀ o ∈ l, ∃ k v, Codes enc spec.doms o.1 k ∧ k.length = spec.doms.length ∧ value m r k = none ∧ parse spec.kind o.2 = .ok v
  distinct : l.Pairwise (fun o o' => ∀ k k', Codes enc spec.doms o.1 k → Codes enc spec.doms o'.1 k' → k ≠ k')

end UtilIO
end Verif
