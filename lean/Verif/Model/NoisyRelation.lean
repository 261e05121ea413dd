import Verif.Model.Relation
/-!
Model of `/repo/cxx/noisy_relation.hh`.

A noisy relation holds a pointer to its base relation, of which it uses `get_domains().size()`, `get_value` and
`get_data`.  The model passes what the pointer shows at the time of the call as an argument (`BaseView`).
-/
namespace Verif
noncomputable section

/-- What a noisy relation sees of its base relation (relation.hh:97 `get_domains`, :100 `get_value`, :103-104 `get_data`). -/
structure BaseView (V : Type) where
  arity : Nat
  data : FMap Items V

/-- clean_relation.hh:489-492 and noisy_relation.hh:154-157 `get_value`. -/
def BaseView.getValue {V : Type} (b : BaseView V) (items : Items) : Res V := do
  assertR (b.data.contains items)
  b.data.atKey items

/-- An emission (emissions/base.hh:9-24): a distribution over pairs (clean, dirty) that can also corrupt a clean value
and propose a clean value for a list of dirty ones. -/
structure EmisOps (V : Type) extends DistOps (V × V) where
  corrupt : S → V → Tape → Res (V × Tape)
  propose : S → List V → Tape → Res (V × Tape)

/-- noisy_relation.hh:37-61 `class NoisyRelation`; the constructor creates the emission relation over the same domains.
Simplification: the name is left out, and the base pointer is an argument of the methods. -/
structure NoisyRel {V : Type} (E : DistOps (V × V)) where
  doms : List String
  data : FMap Items V := ∅
  baseToNoisy : FMap Items (FSet Items) := ∅
  emission : CleanRel E

namespace NoisyRel
variable {V : Type} {E : DistOps (V × V)}

/-- noisy_relation.hh:56-61 the constructor. -/
def mk' (E : DistOps (V × V)) (doms : List String) : Res (NoisyRel E) := do
  let em ← CleanRel.mk' E doms
  .ok { doms := doms, emission := em }

/-- noisy_relation.hh:180-184 `get_base_items`; reading past the end of `items` is undefined behaviour. -/
def baseItems (b : BaseView V) (items : Items) : Res Items :=
  if b.arity ≤ items.length then .ok (items.take b.arity) else .error .ub

/-- noisy_relation.hh:186-189 `get_base_value`. -/
def baseValue (b : BaseView V) (items : Items) : Res V := do
  let bi ← baseItems b items
  b.getValue bi

/-- noisy_relation.hh:68, 77: `base_to_noisy_items[base_items].insert(items)`. -/
def link (m : FMap Items (FSet Items)) (bi items : Items) : FMap Items (FSet Items) :=
  m.set bi (FSet.insert ((m.find? bi).getD ∅) items)

/-- noisy_relation.hh:63-69 `incorporate`. -/
def incorporate (σ : Doms) (b : BaseView V) (r : NoisyRel E) (items : Items) (value : V) (t : Tape) :
    Res (Doms × NoisyRel E × Tape) := do
  let bi ← baseItems b items
  let bv ← b.getValue bi
  let (σ, em, t) ← CleanRel.incorporate σ r.emission items (bv, value) t
  .ok (σ, { r with emission := em, data := r.data.set items value, baseToNoisy := link r.baseToNoisy bi items }, t)

/-- noisy_relation.hh:90-94 `incorporate_to_cluster`. -/
def incorporateToCluster (σ : Doms) (b : BaseView V) (r : NoisyRel E) (items : Items) (value : V) : Res (NoisyRel E) := do
  let bv ← baseValue b items
  let em ← CleanRel.incorporateToCluster σ r.emission items (bv, value)
  .ok { r with emission := em }

/-- noisy_relation.hh:96-102 `cleanup_base_to_noisy`. -/
def unlink (b : BaseView V) (m : FMap Items (FSet Items)) (items : Items) : Res (FMap Items (FSet Items)) := do
  let bi ← baseItems b items
  let s ← m.atKey bi
  let s := s.erase items
  .ok (if s.size = 0 then m.erase bi else m.set bi s)

/-- noisy_relation.hh:104-108 `cleanup_data`. -/
def cleanupData (b : BaseView V) (r : NoisyRel E) (items : Items) : Res (NoisyRel E) := do
  let em ← r.emission.cleanupData items
  let m ← unlink b r.baseToNoisy items
  .ok { r with emission := em, data := r.data.erase items, baseToNoisy := m }

/-- noisy_relation.hh:110 `cleanup_clusters`. -/
def cleanupClusters (r : NoisyRel E) : NoisyRel E := { r with emission := r.emission.cleanupClusters }

/-- noisy_relation.hh:112-114 `unincorporate_from_cluster`. -/
def unincorporateFromCluster (σ : Doms) (r : NoisyRel E) (items : Items) : Res (NoisyRel E) := do
  let em ← CleanRel.unincorporateFromCluster σ r.emission items
  .ok { r with emission := em }

/-- noisy_relation.hh:116-121 `unincorporate`. -/
def unincorporate (σ : Doms) (b : BaseView V) (r : NoisyRel E) (items : Items) : Res (NoisyRel E) := do
  assertR (r.data.contains items)
  let em ← CleanRel.unincorporate σ r.emission items
  let m ← unlink b r.baseToNoisy items
  .ok { r with emission := em, data := r.data.erase items, baseToNoisy := m }

/-- noisy_relation.hh:123-126 `logp_gibbs_approx`. -/
def logpGibbsApprox (σ : Doms) (r : NoisyRel E) (d : String) (item table : Int) (t : Tape) : Res (ℝ × NoisyRel E × Tape) := do
  let (lp, em, t) ← CleanRel.logpGibbsApprox σ r.emission d item table t
  .ok (lp, { r with emission := em }, t)

/-- noisy_relation.hh:128-132 `logp_gibbs_exact`. -/
def logpGibbsExact (σ : Doms) (r : NoisyRel E) (d : String) (item : Int) (tables : List Int) (t : Tape) :
    Res (List ℝ × NoisyRel E × Tape) := do
  let (lps, em, t) ← CleanRel.logpGibbsExact σ r.emission d item tables t
  .ok (lps, { r with emission := em }, t)

/-- noisy_relation.hh:134-137 `logp`. -/
def logp (σ : Doms) (b : BaseView V) (r : NoisyRel E) (items : Items) (value : V) (t : Tape) :
    Res (WithBot ℝ × NoisyRel E × Tape) := do
  let bv ← baseValue b items
  let (lp, em, t) ← CleanRel.logp σ r.emission items (bv, value) t
  .ok (lp, { r with emission := em }, t)

/-- noisy_relation.hh:139 `logp_score`. -/
def logpScore (r : NoisyRel E) : ℝ := r.emission.logpScore

/-- noisy_relation.hh:141-144 `set_cluster_assignment_gibbs`. -/
def setClusterAssignmentGibbs (σ : Doms) (r : NoisyRel E) (d : String) (item table : Int) (t : Tape) :
    Res (NoisyRel E × Tape) := do
  let (em, t) ← CleanRel.setClusterAssignmentGibbs σ r.emission d item table t
  .ok ({ r with emission := em }, t)

/-- noisy_relation.hh:146-148 `has_observation`. -/
def hasObservation (r : NoisyRel E) (d : String) (item : Int) : Res Bool := r.emission.hasObservation d item

/-- noisy_relation.hh:154-157 `get_value`. -/
def getValue (r : NoisyRel E) (items : Items) : Res V := do
  assertR (r.data.contains items)
  r.data.atKey items

/-- noisy_relation.hh:171-176 `update_value`.  Note the order of the pair: the code passes (noisy value, base value), while
everywhere else the pair is (base value, noisy value). -/
def updateValue (σ : Doms) (b : BaseView V) (r : NoisyRel E) (items : Items) (value : V) : Res (NoisyRel E) := do
  assertR (r.data.contains items)
  let bv ← baseValue b items
  let em ← CleanRel.updateValue σ r.emission items (value, bv)
  .ok { r with emission := em, data := r.data.set items value }

/-- noisy_relation.hh:203-205 `transition_cluster_hparams`. -/
def transitionClusterHparams (r : NoisyRel E) (numThetaSteps : Nat) (t : Tape) : NoisyRel E × Tape :=
  let (em, t) := r.emission.transitionClusterHparams numThetaSteps t
  ({ r with emission := em }, t)

/-- noisy_relation.hh:211-217 `cluster_or_prior_logp`: not implemented, exits. -/
def clusterOrPriorLogp (_r : NoisyRel E) (_z : Items) (_value : V) (_t : Tape) : Res (ℝ × NoisyRel E × Tape) := .error .exit

/-- noisy_relation.hh:219-238 `cluster_or_prior_logp_from_items`; minus infinity if the base value is unknown. -/
def clusterOrPriorLogpFromItems (σ : Doms) (b : BaseView V) (r : NoisyRel E) (items : Items) (value : V) (t : Tape) :
    Res (WithBot ℝ × NoisyRel E × Tape) := do
  let bi ← baseItems b items
  match b.data.find? bi with
  | none => .ok (⊥, r, t)
  | some bv =>
    let (lp, em, t) ← CleanRel.clusterOrPriorLogpFromItems σ r.emission items (bv, value) t
    .ok ((lp : WithBot ℝ), { r with emission := em }, t)

end NoisyRel

namespace NoisyRel
variable {V : Type} {E : EmisOps V}

/-- noisy_relation.hh:240-254 `sample_at_items`. -/
def sampleAtItems (σ : Doms) (b : BaseView V) (r : NoisyRel E.toDistOps) (items : Items) (t : Tape) : Res (V × Tape) := do
  let bv ← baseValue b items
  if ← CleanRel.clustersContains σ r.emission items then
    let z ← CleanRel.clusterOf σ r.emission items
    let c ← r.emission.clusters.atKey z
    E.corrupt c bv t
  else
    let (c, t) := E.fresh t
    E.corrupt c bv t

/-- noisy_relation.hh:71-82 `sample_and_incorporate`. -/
def sampleAndIncorporate (σ : Doms) (b : BaseView V) (r : NoisyRel E.toDistOps) (items : Items) (t : Tape) :
    Res (V × Doms × NoisyRel E.toDistOps × Tape) := do
  let (z, σ, em, t) ← CleanRel.incorporateItems σ r.emission items t
  let r := { r with emission := em }
  let bv ← baseValue b items
  let bi ← baseItems b items
  let (x, t) ← sampleAtItems σ b r items t
  let c ← r.emission.clusters.atKey z
  let c ← E.inc c (bv, x)
  let em := r.emission
  .ok (x, σ, { r with data := r.data.set items x, baseToNoisy := link r.baseToNoisy bi items,
                      emission := { em with clusters := em.clusters.set z c, data := em.data.set items (bv, x) } }, t)

end NoisyRel
end
end Verif
