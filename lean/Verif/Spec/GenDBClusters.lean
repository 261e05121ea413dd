import Verif.Spec.HIRM
import Verif.Spec.Relation
/-! Specification of clusters that are in order. -/
namespace Verif
namespace HIRM
variable {V : Type} {F : Family V}

/-- C75: the relations are shared out to the components, in each component the clusters of a domain are a partition of its entities, and every stored value is
about entities that are in clusters. -/
structure InOrder (H : HIRM F) : Prop where
  /-- schema, codes, relation CRP and components agree -/
  shared : H.Consistent
  /-- the entities of a domain are those that have a cluster -/
  members : ∀ tb I d dom, H.irms.find? tb = some I → I.doms.find? d = some dom → ∀ i, dom.items.contains i = true ↔ ∃ z, dom.crp.seating i = some z
  /-- an entity is in exactly one cluster, its own -/
  clusters : ∀ tb I d dom, H.irms.find? tb = some I → I.doms.find? d = some dom → ∀ i z,
    (∃ s, dom.crp.tables.find? z = some s ∧ s.contains i = true) ↔ dom.crp.seating i = some z
  /-- no cluster is empty -/
  nonempty : ∀ tb I d dom, H.irms.find? tb = some I → I.doms.find? d = some dom → ∀ z s, dom.crp.tables.find? z = some s → ∃ i, s.contains i = true
  /-- the clusters count their entities -/
  counted : ∀ tb I d dom, H.irms.find? tb = some I → I.doms.find? d = some dom → dom.crp.N = dom.items.size
  /-- a relation of a component has the domains of its specification, and each of them is a domain of the component -/
  domains : ∀ tb I n id rel, H.irms.find? tb = some I → I.rels.find? n = some (id, rel) → ∃ spec, H.schema.find? n = some spec ∧ rel.doms = spec.doms ∧
    ∀ d ∈ spec.doms, I.doms.contains d = true
  /-- each entity of a stored tuple has a cluster in its domain -/
  tuples : ∀ tb I n id rel, H.irms.find? tb = some I → I.rels.find? n = some (id, rel) → ∀ k v, rel.data.find? k = some v → ∃ z, tupleSeat I.doms rel.doms k = some z

end HIRM
end Verif
