import Verif.Model.LatentValue
import Verif.Spec.NoisyRelation
/-! Specification of latent value transitions. -/
namespace Verif
noncomputable section
variable {V : Type}

/-- `incorporate` adds one to the count of a distribution and `unincorporate` takes one away, in every state. -/
structure DistOps.Counted (D : DistOps V) : Prop where
  inc : ∀ {s s' x}, D.inc s x = .ok s' → D.N s' = D.N s + 1
  dec : ∀ {s s' x}, D.dec s x = .ok s' → D.N s' = D.N s - 1

/-- the number of observations a relation's cluster says it has -/
def CleanRel.count {D : DistOps V} (r : CleanRel D) (z : Items) : Option ℝ := (r.clusters.find? z).map D.N

/-- the same for a relation of an IRM; the clusters of a noisy relation are those of its emission relation -/
def Rel.count {F : Family V} : Rel F → Items → Option ℝ
  | .clean _ r => r.count
  | .noisy _ _ r => r.emission.count

/-- The noisy relation is the same up to the statistics of its clusters: the same stored values, the same stored pairs, the same
domains, and the same number of observations in every cluster. -/
structure LatentNoisy.SameData {F : Family V} (p p' : LatentNoisy F) : Prop where
  name : p'.name = p.name
  σ : p'.σ = p.σ
  e : p'.e = p.e
  doms : p'.r.doms = p.r.doms
  data : p'.r.data = p.r.data
  pairs : p'.r.emission.data = p.r.emission.data
  counts : p'.r.emission.count = p.r.emission.count

/-- laws of every distribution and every emission of a family -/
structure FamilyLaws (F : Family V) where
  suppC : F.C → V → Prop
  suppE : F.E → V × V → Prop
  dist : ∀ c, Lawful (F.dist c).toDistOps (suppC c)
  emis : ∀ e, Lawful (F.emis e).toDistOps (suppE e)

/-- what `operator[]` does to the index of a noisy relation: a missing entry is created empty -/
def LatentNoisy.touch {F : Family V} (bi : Items) (p : LatentNoisy F) : LatentNoisy F :=
  { p with r := { p.r with baseToNoisy := p.r.baseToNoisy.set bi ((p.r.baseToNoisy.find? bi).getD ∅) } }

end
end Verif
