import Verif.Model.IRM
import Verif.Spec.Relation
import Mathlib.Logic.Function.Basic
/-! Specification of the joint predictive distribution of an IRM: a mixture over the clusters of the entities involved. -/
namespace Verif
open Spec
noncomputable section
variable {V : Type} {F : Family V}
namespace Spec

/-- an entity: a domain and an item of it -/
abbrev Ent := String × Int

/-- the clusters that an entity may be in, with their probabilities: its own cluster if it is known; otherwise the tables that the
domain's CRP offers to a new customer, each in proportion to its weight (C03: its number of customers, or `alpha` for the new
table), divided by `alpha + N` -/
def candidates (σ : Doms) (u : Ent) : List (Int × ℝ) :=
  match σ.find? u.1 with
  | none => []
  | some dom =>
    match dom.crp.seating u.2 with
    | some z => [(z, 1)]
    | none => dom.crp.tablesWeights.entries.map (fun e => (e.1, e.2 / (dom.crp.alpha + dom.crp.N)))

/-- the mean of `G` over all assignments of the listed entities to candidate clusters, chosen independently; `a` says
where the other entities are -/
def mixture (cand : Ent → List (Int × ℝ)) (G : (Ent → Int) → ℝ) : List Ent → (Ent → Int) → ℝ
  | [], a => G a
  | u :: us, a => ((cand u).map (fun c => c.2 * mixture cand G us (Function.update a u c.1))).sum

end Spec

namespace IRM

/-- the log probability that cluster `z` of the relation gives to a value; without that cluster, that of a new distribution -/
def valueLogp (I : IRM F) (name : String) (z : Items) (v : V) : ℝ :=
  match I.rels.find? name with
  | some (_, .clean c r) =>
    match (F.dist c).logp ((r.clusters.find? z).getD ((F.dist c).fresh []).1) v with
    | .ok (x, _) => x
    | .error _ => 0
  | _ => 0

/-- the domains of a relation -/
def domsOf (I : IRM F) (name : String) : List String := ((I.rels.find? name).map (·.2.doms)).getD []

/-- the entities of a tuple of a relation -/
def entities (I : IRM F) (name : String) (items : Items) : List Ent := (I.domsOf name).zip items

/-- the joint probability of the observations if the entities are in the clusters `a` -/
def jointGiven (I : IRM F) (obs : List (String × Items × V)) (a : Ent → Int) : ℝ :=
  (obs.map (fun o => Real.exp (I.valueLogp o.1 ((I.entities o.1 o.2.1).map a) o.2.2))).prod

/-- `logp` is defined for the observation by the code: the relation is clean, the tuple has its arity, the value is in the support -/
def Predictable (suppC : (c : F.C) → V → Prop) (I : IRM F) (o : String × Items × V) : Prop :=
  ∃ id c r, I.rels.find? o.1 = some (id, .clean c r) ∧ o.2.1.length = r.doms.length ∧ suppC c o.2.2 ∧
    ∀ t t', ((F.dist c).fresh t).1 = ((F.dist c).fresh t').1

end IRM
end
end Verif
