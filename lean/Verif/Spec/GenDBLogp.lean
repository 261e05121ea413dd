import Verif.Spec.GenDBConserve
/-! Specification: what a distribution says of a value that has been taken out, and the values held by the clusters. -/
namespace Verif
noncomputable section
variable {V : Type}

/-- The log probability of a value that has just been taken out is what the score has lost, and asking for it does not change the score. -/
def DistOps.Tells (D : DistOps V) (supp : V → Prop) : Prop := ∀ m x s s' lp s'', D.Holds supp (x ::ₘ m) s → D.dec s x = .ok s' → D.logp s' x = .ok (lp, s'') →
  lp = D.score s - D.score s' ∧ D.score s'' = D.score s'

/-- so for the distribution or emission of a relation -/
def FamilyLaws.Tells {F : Family V} (L : FamilyLaws F) : F.C ⊕ F.E → Prop
  | .inl c => (F.dist c).toDistOps.Tells (L.suppC c)
  | .inr e => (F.emis e).toDistOps.Tells (L.suppE e)

/-- so for all relations of a model -/
def HIRM.SchemaTells {F : Family V} (L : FamilyLaws F) (H : HIRM F) : Prop := ∀ n spec, H.schema.find? n = some spec → L.Tells spec.kind

end
end Verif
