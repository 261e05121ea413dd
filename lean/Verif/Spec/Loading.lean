import Verif.Spec.Told
import Verif.Spec.Incorporate
/-!
Specification: cluster files that suit a schema and observations.
-/
namespace Verif
variable {V : Type}
namespace UtilIO

/-- The clusters of one IRM suit it: they are of domains of its relations, their numbers are not negative, they list entities that occur in
the observations, and each entity at most once. -/
structure SuitsIrm {F : Family V} (schema : Schema F) (obs : ObsMap String) (rels : List String) (cl : Clusters) : Prop where
  domain : ∀ d m, cl.find? d = some m → ∃ n ∈ rels, ∃ spec, schema.find? n = some spec ∧ d ∈ spec.doms
  table : ∀ d m c items, cl.find? d = some m → m.find? c = some items → 0 ≤ c
  occurs : ∀ d c x, x ∈ listed cl d c → Occurs schema obs d x
  once : ∀ d c, (listed cl d c).Nodup
  one : ∀ d c c' x, x ∈ listed cl d c → x ∈ listed cl d c' → c = c'

/-- The clusters of an HIRM suit the schema: each relation is listed in exactly one cluster, the numbers of the clusters are not negative,
and each has clusters of entities that suit its relations. -/
structure SuitsHirm {F : Family V} (schema : Schema F) (obs : ObsMap String) (relations : FMap Int (List String)) (irms : FMap Int Clusters) : Prop where
  table : ∀ tb l, relations.find? tb = some l → 0 ≤ tb ∧ l ≠ [] ∧ l.Nodup
  each : ∀ n, schema.contains n = true ↔ ∃ tb l, relations.find? tb = some l ∧ n ∈ l
  one : ∀ tb tb' l l' n, relations.find? tb = some l → relations.find? tb' = some l' → n ∈ l → n ∈ l' → tb = tb'
  irm : ∀ tb l, relations.find? tb = some l → ∃ cl, irms.find? tb = some cl ∧ SuitsIrm schema obs l cl

/-- Every relation comes after its base in the order of the names. -/
def BasesEarlier {F : Family V} (schema : Schema F) : Prop :=
  ∀ n spec b, schema.find? n = some spec → spec.base? = some b → schema.contains b = true ∧ Key.lt b n = true

/-- Observations that a model without values takes: they are of relations of the schema that are not bases, each with as many entities as
its relation has domains and with a text that can be read as a value; no relation has two for the same entities; and every noisy relation
that is not a base has some. -/
structure Fitting {F : Family V} (parse : F.C ⊕ F.E → String → Res V) (schema : Schema F) (obs : ObsMap String) : Prop where
  each : ∀ r l, obs.find? r = some l → ∃ spec, schema.find? r = some spec ∧ ∀ o ∈ l, o.1.length = spec.doms.length ∧ ∃ v, parse spec.kind o.2 = .ok v
  distinct : ∀ r l, obs.find? r = some l → (l.map Prod.fst).Nodup
  leaf : ∀ r l, obs.find? r = some l → l ≠ [] → HIRM.Leaf schema r
  all : ∀ n spec b, schema.find? n = some spec → spec.base? = some b → HIRM.Leaf schema n → obs.contains n = true

end UtilIO
end Verif
