import Verif.Model.NoisyRelation
/-!
The relations stored in an IRM: `Relation<T>*` (relation.hh) pointing to a `CleanRelation` or to a `NoisyRelation`.
-/
namespace Verif
noncomputable section

/-- The distributions and emissions a schema can name (`DistributionSpec`, get_distribution.hh; `EmissionSpec`,
get_emission.hh).  Simplification: one value type `V` stands for `ObservationVariant`; that an observation has the type of
its relation (`std::get` in irm.cc:53) is part of the partiality of `inc`. -/
structure Family (V : Type) where
  C : Type
  E : Type
  dist : C → CleanOps V
  emis : E → EmisOps V

/-- A `Relation<T>*`: where the object it points to is stored (the IRM's table in an HIRM, or no table for a stand-alone
IRM, and the relation's name) and the identity of that object; an object created later at the same place is
a different object. -/
structure Ptr where
  table : Option Int
  name : String
  id : Nat
  deriving DecidableEq

/-- A relation object of an IRM.  A noisy relation holds the pointer to its base relation (noisy_relation.hh:46). -/
inductive Rel {V : Type} (F : Family V) where
  | clean (c : F.C) (r : CleanRel (F.dist c).toDistOps)
  | noisy (e : F.E) (base : Ptr) (r : NoisyRel (F.emis e).toDistOps)

/-- Dereference a base pointer, given what it points to; a dangling pointer is undefined behaviour. -/
def derefR {α : Type} : Option α → Res α
  | some b => .ok b
  | none => .error .ub

namespace Rel
variable {V : Type} {F : Family V}

/-- relation.hh:97 `get_domains` -/
def doms : Rel F → List String
  | .clean _ r => r.doms
  | .noisy _ _ r => r.doms

/-- relation.hh:103-104 `get_data` -/
def data : Rel F → FMap Items V
  | .clean _ r => r.data
  | .noisy _ _ r => r.data

/-- what a noisy relation sees of this relation through its base pointer -/
def view (r : Rel F) : BaseView V := { arity := r.doms.length, data := r.data }

/-- the base pointer of a noisy relation -/
def base? : Rel F → Option Ptr
  | .clean _ _ => none
  | .noisy _ p _ => some p

/-- relation.hh:28-29 `incorporate`; `b` is what the base pointer points to (clean_relation.hh:106, noisy_relation.hh:63). -/
def incorporate (σ : Doms) (b : Option (BaseView V)) (r : Rel F) (items : Items) (value : V) (t : Tape) :
    Res (Doms × Rel F × Tape) :=
  match r with
  | .clean c r => do
    let (σ, r, t) ← CleanRel.incorporate σ r items value t
    .ok (σ, .clean c r, t)
  | .noisy e p r => do
    let b ← derefR b
    let (σ, r, t) ← NoisyRel.incorporate σ b r items value t
    .ok (σ, .noisy e p r, t)

/-- relation.hh:39 `unincorporate` (clean_relation.hh:146, noisy_relation.hh:116). -/
def unincorporate (σ : Doms) (b : Option (BaseView V)) (r : Rel F) (items : Items) : Res (Rel F) :=
  match r with
  | .clean c r => do
    let r ← CleanRel.unincorporate σ r items
    .ok (.clean c r)
  | .noisy e p r => do
    let b ← derefR b
    let r ← NoisyRel.unincorporate σ b r items
    .ok (.noisy e p r)

/-- relation.hh:43-44 `incorporate_to_cluster` (clean_relation.hh:164, noisy_relation.hh:90). -/
def incorporateToCluster (σ : Doms) (b : Option (BaseView V)) (r : Rel F) (items : Items) (value : V) : Res (Rel F) :=
  match r with
  | .clean c r => do
    let r ← CleanRel.incorporateToCluster σ r items value
    .ok (.clean c r)
  | .noisy e p r => do
    let b ← derefR b
    let r ← NoisyRel.incorporateToCluster σ b r items value
    .ok (.noisy e p r)

/-- relation.hh:46 `unincorporate_from_cluster` (clean_relation.hh:170, noisy_relation.hh:112). -/
def unincorporateFromCluster (σ : Doms) (r : Rel F) (items : Items) : Res (Rel F) :=
  match r with
  | .clean c r => do
    let r ← CleanRel.unincorporateFromCluster σ r items
    .ok (.clean c r)
  | .noisy e p r => do
    let r ← NoisyRel.unincorporateFromCluster σ r items
    .ok (.noisy e p r)

/-- relation.hh:107 `update_value` (clean_relation.hh:494, noisy_relation.hh:171). -/
def updateValue (σ : Doms) (b : Option (BaseView V)) (r : Rel F) (items : Items) (value : V) : Res (Rel F) :=
  match r with
  | .clean c r => do
    let r ← CleanRel.updateValue σ r items value
    .ok (.clean c r)
  | .noisy e p r => do
    let b ← derefR b
    let r ← NoisyRel.updateValue σ b r items value
    .ok (.noisy e p r)

/-- relation.hh:133-136 `nearest`: clean relations override it (clean_relation.hh:521), for noisy relations it is the identity. -/
def nearest (σ : Doms) (r : Rel F) (x : V) (items : Items) (t : Tape) : Res (V × Tape) :=
  match r with
  | .clean _ r => CleanRel.nearest σ r x items t
  | .noisy _ _ _ => .ok (x, t)

/-- relation.hh `has_observation` (clean_relation.hh:483, noisy_relation.hh:146). -/
def hasObservation (r : Rel F) (d : String) (item : Int) : Res Bool :=
  match r with
  | .clean _ r => r.hasObservation d item
  | .noisy _ _ r => r.hasObservation d item

/-- relation.hh `logp_gibbs_exact` (clean_relation.hh:368, noisy_relation.hh:128). -/
def logpGibbsExact (σ : Doms) (r : Rel F) (d : String) (item : Int) (tables : List Int) (t : Tape) :
    Res (List ℝ × Rel F × Tape) :=
  match r with
  | .clean c r => do
    let (lps, r, t) ← CleanRel.logpGibbsExact σ r d item tables t
    .ok (lps, .clean c r, t)
  | .noisy e p r => do
    let (lps, r, t) ← NoisyRel.logpGibbsExact σ r d item tables t
    .ok (lps, .noisy e p r, t)

/-- relation.hh `set_cluster_assignment_gibbs` (clean_relation.hh:454, noisy_relation.hh:141). -/
def setClusterAssignmentGibbs (σ : Doms) (r : Rel F) (d : String) (item table : Int) (t : Tape) : Res (Rel F × Tape) :=
  match r with
  | .clean c r => do
    let (r, t) ← CleanRel.setClusterAssignmentGibbs σ r d item table t
    .ok (.clean c r, t)
  | .noisy e p r => do
    let (r, t) ← NoisyRel.setClusterAssignmentGibbs σ r d item table t
    .ok (.noisy e p r, t)

/-- relation.hh `logp_score` (clean_relation.hh:446, noisy_relation.hh:139). -/
def logpScore (r : Rel F) : ℝ :=
  match r with
  | .clean _ r => r.logpScore
  | .noisy _ _ r => r.logpScore

/-- relation.hh `transition_cluster_hparams` (clean_relation.hh:512, noisy_relation.hh:203). -/
def transitionClusterHparams (r : Rel F) (n : Nat) (t : Tape) : Rel F × Tape :=
  match r with
  | .clean c r =>
    let (r, t) := r.transitionClusterHparams n t
    (.clean c r, t)
  | .noisy e p r =>
    let (r, t) := r.transitionClusterHparams n t
    (.noisy e p r, t)

/-- relation.hh `cluster_or_prior_logp` (clean_relation.hh:221, noisy_relation.hh:211). -/
def clusterOrPriorLogp (r : Rel F) (z : Items) (value : V) (t : Tape) : Res (ℝ × Rel F × Tape) :=
  match r with
  | .clean c r => do
    let (lp, r, t) ← r.clusterOrPriorLogp z value t
    .ok (lp, .clean c r, t)
  | .noisy e p r => do
    let (lp, r, t) ← r.clusterOrPriorLogp z value t
    .ok (lp, .noisy e p r, t)

/-- relation.hh `cleanup_clusters` (clean_relation.hh:135, noisy_relation.hh:110). -/
def cleanupClusters (r : Rel F) : Rel F :=
  match r with
  | .clean c r => .clean c r.cleanupClusters
  | .noisy e p r => .noisy e p r.cleanupClusters

/-- relation.hh `sample_and_incorporate` (clean_relation.hh:112, noisy_relation.hh:71). -/
def sampleAndIncorporate (σ : Doms) (b : Option (BaseView V)) (r : Rel F) (items : Items) (t : Tape) :
    Res (V × Doms × Rel F × Tape) :=
  match r with
  | .clean c r => do
    let (x, σ, r, t) ← CleanRel.sampleAndIncorporate σ r items t
    .ok (x, σ, .clean c r, t)
  | .noisy e p r => do
    let b ← derefR b
    let (x, σ, r, t) ← NoisyRel.sampleAndIncorporate σ b r items t
    .ok (x, σ, .noisy e p r, t)

end Rel
end
end Verif
