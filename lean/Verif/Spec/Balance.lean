import Verif.Spec.IRM
import Mathlib.Analysis.SpecialFunctions.Exp
/-! Specification: when two states of an IRM partition the entities in the same way, and with what probability an entity move leads from one
state to another. -/
namespace Verif
noncomputable section

/-- The parameters of the relation's clusters have never been resampled: every cluster is a new distribution object on which values have been
incorporated, unincorporated and evaluated, and it now holds the values of the observations assigned to it. -/
def CleanRel.Unmoved {V : Type} {D : DistOps V} (supp : V → Prop) (σ : Doms) (r : CleanRel D) : Prop :=
  ∀ z c, r.clusters.find? z = some c → ∃ t ops, (∀ o ∈ ops, o.keepsHypers) ∧
    remaining supp ops 0 = some (contents (tupleSeat σ r.doms) r.data z) ∧ D.run (D.fresh t).1 ops = .ok c

variable {V : Type} {F : Family V}

/-- so for the clusters of a relation; those of a noisy relation are the clusters of its emissions -/
def Rel.Unmoved (L : FamilyLaws F) (σ : Doms) : Rel F → Prop
  | .clean c r => r.Unmoved (L.suppC c) σ
  | .noisy e _ r => r.emission.Unmoved (L.suppE e) σ

/-- the relation has an observation that uses entity `i` of domain `d` -/
def Rel.Observes (r : Rel F) (d : String) (i : Int) : Prop := ∃ k, r.data.contains k = true ∧ Uses r.doms d i k

namespace IRM

/-- two entities of a domain are in the same cluster in `I` exactly if they are in `I'`; the names of the clusters may differ -/
def SamePartition (I I' : IRM F) : Prop :=
  ∀ d i j, (∃ z, seatOf I.doms d i = some z ∧ seatOf I.doms d j = some z) ↔
    ∃ z, seatOf I'.doms d i = some z ∧ seatOf I'.doms d j = some z

/-- the domains have the same concentrations -/
def SameAlphas (I I' : IRM F) : Prop :=
  ∀ d dom dom', I.doms.find? d = some dom → I'.doms.find? d = some dom' → dom'.crp.alpha = dom.crp.alpha

/-- A move of entity `i` of domain `d` may lead from `I` to `I'`, and the table that leads there is drawn with probability `p`:
`transition_cluster_assignment_item` (irm.cc:118-162) computes log weights of the candidate tables, and `log_choice` (util_math.cc:66-73) draws one of
them in proportion to the exponentials of the weights. -/
def MovesTo (I : IRM F) (d : String) (i : Int) (p : ℝ) (I' : IRM F) : Prop :=
  ∃ t tables logps order I1 t1 z x t2 t', ∃ k : Nat, itemScores I d i t = .ok (tables, logps, order, I1, t1) ∧
    tables[k]? = some z ∧ logps[k]? = some x ∧ p = Real.exp x / (logps.map Real.exp).sum ∧ moveItem d i z order I1 t2 = .ok (I', t')

end IRM
end
end Verif
