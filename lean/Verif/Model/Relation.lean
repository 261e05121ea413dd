import Verif.Basic.Order
import Verif.Model.CRP
import Verif.Spec.Dist
/-!
Model of `/repo/cxx/clean_relation.hh` and `/repo/cxx/relation.hh`.

A relation holds pointers to `Domain` objects it shares with other relations.  The model keeps the domains in a store
indexed by name; a relation holds names and its methods take and return the store.  Simplification: two different
domains of one relation have different names (true for every relation created by an IRM, irm.cc:304-317).
-/
namespace Verif
noncomputable section

/-- relation.hh `T_items` -/
abbrev Items := List Int

/-- The `Domain` objects, by name. -/
abbrev Doms := FMap String Domain

/-- Dereference a `Domain*`; a dangling pointer is undefined behaviour. -/
def Doms.get (σ : Doms) (d : String) : Res Domain :=
  match σ.find? d with
  | some x => .ok x
  | none => .error .ub

/-- clean_relation.hh:52-55 the type of `data_r` -/
abbrev RevIndex := FMap String (FMap Int (FSet Items))

/-- clean_relation.hh:33-55 `class CleanRelation`.  `D` models the distribution or emission created from `prior_spec`.
Simplification: the name, used only in messages, is left out. -/
structure CleanRel {V : Type} (D : DistOps V) where
  doms : List String
  clusters : FMap Items D.S := ∅
  data : FMap Items V := ∅
  dataR : RevIndex := ∅

namespace CleanRel
variable {V : Type} {D : DistOps V}

/-- clean_relation.hh:57-67 the constructor (without the name). -/
def mk' (D : DistOps V) (doms : List String) : Res (CleanRel D) := do
  assertR (!doms.isEmpty)
  .ok { doms := doms, dataR := doms.foldl (fun m d => m.set d ∅) ∅ }

/-- clean_relation.hh:92-96: record the tuple `items` under item `i` of domain `d`. -/
def indexAdd (m : RevIndex) (d : String) (i : Int) (items : Items) : Res RevIndex := do
  let md ← m.atKey d
  let md := if md.contains i then md else md.set i ∅
  let s ← md.atKey i
  .ok (m.set d (md.set i (FSet.insert s items)))

/-- clean_relation.hh:90-97: the loop of `incorporate_items`; reading past the end of `items` is undefined behaviour. -/
def incLoop (items : Items) : List String → Items → Doms → RevIndex → Tape → Res (Doms × RevIndex × Tape)
  | [], _, σ, m, t => .ok (σ, m, t)
  | _ :: _, [], _, _, _ => .error .ub
  | d :: ds, i :: is, σ, m, t => do
    let dom ← σ.get d
    let (dom, t) ← dom.incorporate i t
    let m ← indexAdd m d i items
    incLoop items ds is (σ.set d dom) m t

/-- clean_relation.hh:184-186 -/
def assignLoop (σ : Doms) : List String → Items → Res Items
  | d :: ds, i :: is => do
    let dom ← σ.get d
    let z ← dom.getClusterAssignment i
    let zs ← assignLoop σ ds is
    .ok (z :: zs)
  | _, _ => .ok []

/-- clean_relation.hh:178-188 `get_cluster_assignment`. -/
def clusterOf (σ : Doms) (r : CleanRel D) (items : Items) : Res Items :=
  if items.length ≠ r.doms.length then .error .exit
  else assignLoop σ r.doms items

/-- clean_relation.hh:88-104 `incorporate_items`. -/
def incorporateItems (σ : Doms) (r : CleanRel D) (items : Items) (t : Tape) :
    Res (Items × Doms × CleanRel D × Tape) := do
  assertR (!r.data.contains items)
  let (σ, m, t) ← incLoop items r.doms items σ r.dataR t
  let r := { r with dataR := m }
  let z ← clusterOf σ r items
  if r.clusters.contains z then .ok (z, σ, r, t)
  else
    let (c, t) := D.fresh t
    .ok (z, σ, { r with clusters := r.clusters.set z c }, t)

/-- clean_relation.hh:106-110 `incorporate`. -/
def incorporate (σ : Doms) (r : CleanRel D) (items : Items) (value : V) (t : Tape) :
    Res (Doms × CleanRel D × Tape) := do
  let (z, σ, r, t) ← incorporateItems σ r items t
  let r := { r with data := r.data.set items value }
  let c ← r.clusters.atKey z
  let c ← D.inc c value
  .ok (σ, { r with clusters := r.clusters.set z c }, t)

/-- clean_relation.hh:122-130: the loop of `cleanup_data`; reading past the end of `items` is undefined behaviour. -/
def cleanLoop (items : Items) : List String → Items → RevIndex → Res RevIndex
  | [], _, m => .ok m
  | _ :: _, [], _ => .error .ub
  | d :: ds, i :: is, m => do
    let md ← m.atKey d
    match md.find? i with
    | none => cleanLoop items ds is m
    | some s =>
      let s := s.erase items
      let md := if s.size = 0 then md.erase i else md.set i s
      cleanLoop items ds is (m.set d md)

/-- clean_relation.hh:121-132 `cleanup_data`. -/
def cleanupData (r : CleanRel D) (items : Items) : Res (CleanRel D) := do
  let m ← cleanLoop items r.doms items r.dataR
  .ok { r with dataR := m, data := r.data.erase items }

/-- clean_relation.hh:135-144 `cleanup_clusters`. -/
def cleanupClusters (r : CleanRel D) : CleanRel D :=
  { r with clusters := r.clusters.filter (fun _ c => decide (D.N c ≠ 0)) }

/-- clean_relation.hh:150-154 and 462-467: take `x` out of the cluster at `z`, and delete the cluster if it is now empty. -/
def takeOut (clusters : FMap Items D.S) (z : Items) (x : V) : Res (FMap Items D.S) := do
  let c ← clusters.atKey z
  let c ← D.dec c x
  .ok (if D.N c = 0 then clusters.erase z else clusters.set z c)

/-- clean_relation.hh:146-156 `unincorporate`. -/
def unincorporate (σ : Doms) (r : CleanRel D) (items : Items) : Res (CleanRel D) := do
  assertR (r.data.contains items)
  let value ← r.data.atKey items
  let z ← clusterOf σ r items
  let cl ← takeOut r.clusters z value
  cleanupData { r with clusters := cl } items

/-- clean_relation.hh:164-168 `incorporate_to_cluster`. -/
def incorporateToCluster (σ : Doms) (r : CleanRel D) (items : Items) (value : V) : Res (CleanRel D) := do
  let z ← clusterOf σ r items
  assertR (r.clusters.contains z)
  let c ← r.clusters.atKey z
  let c ← D.inc c value
  .ok { r with clusters := r.clusters.set z c }

/-- clean_relation.hh:489-492 `get_value`. -/
def getValue (r : CleanRel D) (items : Items) : Res V := do
  assertR (r.data.contains items)
  r.data.atKey items

/-- clean_relation.hh:170-176 `unincorporate_from_cluster`. -/
def unincorporateFromCluster (σ : Doms) (r : CleanRel D) (items : Items) : Res (CleanRel D) := do
  let z ← clusterOf σ r items
  assertR (r.clusters.contains z)
  let value ← r.getValue items
  let c ← r.clusters.atKey z
  let c ← D.dec c value
  .ok { r with clusters := r.clusters.set z c }

/-- clean_relation.hh:494-498 `update_value`. -/
def updateValue (σ : Doms) (r : CleanRel D) (items : Items) (value : V) : Res (CleanRel D) := do
  let r ← unincorporateFromCluster σ r items
  let r ← incorporateToCluster σ r items value
  let _ ← r.data.atKey items
  .ok { r with data := r.data.set items value }

/-- clean_relation.hh:194-199: the loop of `clusters_contains`; `none` if an item is not in its domain. -/
def containsLoop (σ : Doms) : List String → Items → Res (Option Items)
  | d :: ds, i :: is => do
    let dom ← σ.get d
    if dom.items.contains i then
      let z ← dom.getClusterAssignment i
      let zs ← containsLoop σ ds is
      .ok (zs.map (z :: ·))
    else .ok none
  | _, _ => .ok (some [])

/-- clean_relation.hh:190-201 `clusters_contains`. -/
def clustersContains (σ : Doms) (r : CleanRel D) (items : Items) : Res Bool := do
  assertR (decide (items.length = r.doms.length))
  match ← containsLoop σ r.doms items with
  | none => .ok false
  | some z => .ok (r.clusters.contains z)

/-- clean_relation.hh:203-209 `prior_logp`. -/
def priorLogp (D : DistOps V) (value : V) (t : Tape) : Res (ℝ × Tape) := do
  let (c, t) := D.fresh t
  let (lp, _) ← D.logp c value
  .ok (lp, t)

/-- clean_relation.hh:221-227 `cluster_or_prior_logp`.  The state is returned because `logp` may touch it. -/
def clusterOrPriorLogp (r : CleanRel D) (z : Items) (value : V) (t : Tape) : Res (ℝ × CleanRel D × Tape) :=
  match r.clusters.find? z with
  | some c => do
    let (lp, c) ← D.logp c value
    .ok (lp, { r with clusters := r.clusters.set z c }, t)
  | none => do
    let (lp, t) ← priorLogp D value t
    .ok (lp, r, t)

/-- clean_relation.hh:211-219 `cluster_or_prior_logp_from_items`. -/
def clusterOrPriorLogpFromItems (σ : Doms) (r : CleanRel D) (items : Items) (value : V) (t : Tape) :
    Res (ℝ × CleanRel D × Tape) := do
  if ← clustersContains σ r items then
    let z ← clusterOf σ r items
    let c ← r.clusters.atKey z
    let (lp, c) ← D.logp c value
    .ok (lp, { r with clusters := r.clusters.set z c }, t)
  else
    let (lp, t) ← priorLogp D value t
    .ok (lp, r, t)

/-- clean_relation.hh:247-254; the second component counts the hits. -/
def gibbsLoop (σ : Doms) (d : String) (item table : Int) : List String → Items → Res (Items × Nat)
  | d' :: ds, i :: is => do
    if d' = d ∧ i = item then
      let (zs, hits) ← gibbsLoop σ d item table ds is
      .ok (table :: zs, hits + 1)
    else
      let dom ← σ.get d'
      let z ← dom.getClusterAssignment i
      let (zs, hits) ← gibbsLoop σ d item table ds is
      .ok (z :: zs, hits)
  | _, _ => .ok ([], 0)

/-- clean_relation.hh:240-257 `get_cluster_assignment_gibbs`. -/
def clusterOfGibbs (σ : Doms) (r : CleanRel D) (items : Items) (d : String) (item table : Int) : Res Items := do
  assertR (decide (items.length = r.doms.length))
  let (z, hits) ← gibbsLoop σ d item table r.doms items
  assertR (decide (hits > 0))
  .ok z

/-- clean_relation.hh:263, 278, 310, 458: `data_r.at(domain.name).at(item)`. -/
def observationsOf (r : CleanRel D) (d : String) (item : Int) : Res (FSet Items) := do
  let m ← r.dataR.atKey d
  m.atKey item

/-- clean_relation.hh:263-271: the loop of `logp_gibbs_approx_current`. -/
def approxCurrent (σ : Doms) : List Items → CleanRel D → Res (ℝ × CleanRel D)
  | [], r => .ok (0, r)
  | items :: l, r => do
    let x ← r.data.atKey items
    let z ← clusterOf σ r items
    let c ← r.clusters.atKey z
    let c ← D.dec c x
    let (lp, c) ← D.logp c x
    let c ← D.inc c x
    let (rest, r) ← approxCurrent σ l { r with clusters := r.clusters.set z c }
    .ok (lp + rest, r)

/-- clean_relation.hh:278-290: the loop of `logp_gibbs_approx_variant`. -/
def approxVariant (σ : Doms) (d : String) (item table : Int) : List Items → CleanRel D → Tape → Res (ℝ × CleanRel D × Tape)
  | [], r, t => .ok (0, r, t)
  | items :: l, r, t => do
    let x ← r.data.atKey items
    let z ← clusterOfGibbs σ r items d item table
    let (lp, r, t) ← clusterOrPriorLogp r z x t
    let (rest, r, t) ← approxVariant σ d item table l r t
    .ok (lp + rest, r, t)

/-- clean_relation.hh:259-300 `logp_gibbs_approx` with `logp_gibbs_approx_current` and `logp_gibbs_approx_variant`. -/
def logpGibbsApprox (σ : Doms) (r : CleanRel D) (d : String) (item table : Int) (t : Tape) : Res (ℝ × CleanRel D × Tape) := do
  let dom ← σ.get d
  let tableCurrent ← dom.getClusterAssignment item
  let s ← observationsOf r d item
  let (l, t) := shuffle s.keys t
  if tableCurrent = table then do
    let (lp, r) ← approxCurrent σ l r
    .ok (lp, r, t)
  else approxVariant σ d item table l r t

/-- clean_relation.hh:310-313 -/
def groupLoop (σ : Doms) (r : CleanRel D) : List Items → FMap Items (List Items) → Res (FMap Items (List Items))
  | [], m => .ok m
  | items :: l, m => do
    let z ← clusterOf σ r items
    groupLoop σ r l (m.set z ((m.find? z).getD [] ++ [items]))

/-- clean_relation.hh:304-315 `get_cluster_to_items_list`. -/
def clusterToItemsList (σ : Doms) (r : CleanRel D) (d : String) (item : Int) (t : Tape) :
    Res (FMap Items (List Items) × Tape) := do
  let s ← observationsOf r d item
  let (l, t) := shuffle s.keys t
  let m ← groupLoop σ r l ∅
  .ok (m, t)

/-- clean_relation.hh:322-326, 356-359: unincorporate the values stored for the listed tuples. -/
def decItems (r : CleanRel D) : List Items → D.S → Res D.S
  | [], c => .ok c
  | items :: l, c => do
    let x ← r.data.atKey items
    let c ← D.dec c x
    decItems r l c

/-- clean_relation.hh:328-331, 350-354: incorporate the values stored for the listed tuples. -/
def incItems (r : CleanRel D) : List Items → D.S → Res D.S
  | [], c => .ok c
  | items :: l, c => do
    let x ← r.data.atKey items
    let c ← D.inc c x
    incItems r l c

/-- clean_relation.hh:333-334, 362-363: the "approximate floating point equality" of two scores. -/
def scoresAgree (a b : ℝ) : Bool := decide (|a - b| ≤ (2 : ℝ)⁻¹ ^ 52 * |b|)

/-- clean_relation.hh:317-336 `logp_gibbs_exact_current`. -/
def exactCurrent (σ : Doms) (r : CleanRel D) (l : List Items) : Res (ℝ × CleanRel D) := do
  assertR (!l.isEmpty)
  let first ← idxR l 0
  let z ← clusterOf σ r first
  let c ← r.clusters.atKey z
  let logp0 := D.score c
  let c ← decItems r l c
  let logp1 := D.score c
  let c ← incItems r l c
  assertR (scoresAgree (D.score c) logp0)
  .ok (logp0 - logp1, { r with clusters := r.clusters.set z c })

/-- clean_relation.hh:338-366 `logp_gibbs_exact_variant`. -/
def exactVariant (σ : Doms) (r : CleanRel D) (d : String) (item table : Int) (l : List Items) (t : Tape) :
    Res (ℝ × CleanRel D × Tape) := do
  assertR (!l.isEmpty)
  let first ← idxR l 0
  let z ← clusterOfGibbs σ r first d item table
  let (prior, t) := D.fresh t
  let c := (r.clusters.find? z).getD prior
  let logp0 := D.score c
  let c ← incItems r l c
  let logp1 := D.score c
  let c ← decItems r l c
  assertR (scoresAgree (D.score c) logp0)
  .ok (logp1 - logp0, if r.clusters.contains z then { r with clusters := r.clusters.set z c } else r, t)

/-- clean_relation.hh:377-384: the score of one table. -/
def exactTable (σ : Doms) (d : String) (item tableCurrent table : Int) :
    List (List Items) → CleanRel D → Tape → Res (ℝ × CleanRel D × Tape)
  | [], r, t => .ok (0, r, t)
  | l :: ls, r, t => do
    let (lp, r, t) ← if table = tableCurrent then do
        let (lp, r) ← exactCurrent σ r l
        .ok (lp, r, t)
      else exactVariant σ r d item table l t
    let (rest, r, t) ← exactTable σ d item tableCurrent table ls r t
    .ok (lp + rest, r, t)

/-- clean_relation.hh:376-386 -/
def exactTables (σ : Doms) (d : String) (item tableCurrent : Int) (groups : List (List Items)) :
    List Int → CleanRel D → Tape → Res (List ℝ × CleanRel D × Tape)
  | [], r, t => .ok ([], r, t)
  | table :: tables, r, t => do
    let (lp, r, t) ← exactTable σ d item tableCurrent table groups r t
    let (lps, r, t) ← exactTables σ d item tableCurrent groups tables r t
    .ok (lp :: lps, r, t)

/-- clean_relation.hh:368-388 `logp_gibbs_exact`. -/
def logpGibbsExact (σ : Doms) (r : CleanRel D) (d : String) (item : Int) (tables : List Int) (t : Tape) :
    Res (List ℝ × CleanRel D × Tape) := do
  let (groups, t) ← clusterToItemsList σ r d item t
  let dom ← σ.get d
  let tableCurrent ← dom.getClusterAssignment item
  let (groups, t) := shuffle groups.vals t
  exactTables σ d item tableCurrent groups tables r t

/-- clean_relation.hh:446-452 `logp_score` (the order of summation does not matter in ℝ). -/
def logpScore (r : CleanRel D) : ℝ := (r.clusters.vals.map D.score).sum

/-- clean_relation.hh:470-478: put `x` into the cluster at `z`, creating it if necessary. -/
def putIn (clusters : FMap Items D.S) (z : Items) (x : V) (t : Tape) : Res (FMap Items D.S × Tape) :=
  match clusters.find? z with
  | none => do
    let (c, t) := D.fresh t
    let c ← D.inc c x
    .ok (clusters.set z c, t)
  | some c => do
    assertR (decide (D.N c > 0))
    let c ← D.inc c x
    .ok (clusters.set z c, t)

/-- clean_relation.hh:458-479: the loop of `set_cluster_assignment_gibbs`. -/
def setGibbsLoop (σ : Doms) (d : String) (item table : Int) : List Items → CleanRel D → Tape → Res (CleanRel D × Tape)
  | [], r, t => .ok (r, t)
  | items :: l, r, t => do
    let x ← r.data.atKey items
    let zPrev ← clusterOf σ r items
    let cl ← takeOut r.clusters zPrev x
    let zNew ← clusterOfGibbs σ r items d item table
    let (cl, t) ← putIn cl zNew x t
    setGibbsLoop σ d item table l { r with clusters := cl } t

/-- clean_relation.hh:454-481 `set_cluster_assignment_gibbs`. -/
def setClusterAssignmentGibbs (σ : Doms) (r : CleanRel D) (d : String) (item table : Int) (t : Tape) :
    Res (CleanRel D × Tape) := do
  let dom ← σ.get d
  let cur ← dom.getClusterAssignment item
  assertR (decide (table ≠ cur))
  let s ← observationsOf r d item
  let (l, t) := shuffle s.keys t
  setGibbsLoop σ d item table l r t

/-- clean_relation.hh:483-485 `has_observation`. -/
def hasObservation (r : CleanRel D) (d : String) (item : Int) : Res Bool := do
  let m ← r.dataR.atKey d
  .ok (m.contains item)

/-- clean_relation.hh:514-516 -/
def thetaSteps (D : DistOps V) : Nat → D.S → Tape → D.S × Tape
  | 0, c, t => (c, t)
  | n + 1, c, t => thetaSteps D n (D.theta c t).1 (D.theta c t).2

/-- clean_relation.hh:513-518 -/
def hparamsLoop (D : DistOps V) (n : Nat) : List (Items × D.S) → FMap Items D.S → Tape → FMap Items D.S × Tape
  | [], cl, t => (cl, t)
  | (z, c) :: l, cl, t =>
    let (c, t) := thetaSteps D n c t
    let (c, t) := D.trans c t
    hparamsLoop D n l (cl.set z c) t

/-- clean_relation.hh:512-519 `transition_cluster_hparams`. -/
def transitionClusterHparams (r : CleanRel D) (numThetaSteps : Nat) (t : Tape) : CleanRel D × Tape :=
  let (l, t) := shuffle r.clusters.entries t
  let (cl, t) := hparamsLoop D numThetaSteps l r.clusters t
  ({ r with clusters := cl }, t)

/-- clean_relation.hh:398-418: the possible tables of one item with their log weights. -/
def tableChoices (σ : Doms) (d : String) (item : Int) : Res (List (Int × ℝ)) := do
  let dom ← σ.get d
  if dom.items.contains item then
    let z ← dom.getClusterAssignment item
    .ok [(z, 0)]
  else
    let Z := Real.log (dom.crp.alpha + dom.crp.N)
    .ok (dom.crp.tablesWeights.entries.map (fun e => (e.1, Real.log e.2 - Z)))

/-- clean_relation.hh:397-422 -/
def choicesLoop (σ : Doms) : List String → Items → Res (List (List (Int × ℝ)))
  | d :: ds, i :: is => do
    let c ← tableChoices σ d i
    let cs ← choicesLoop σ ds is
    .ok (c :: cs)
  | [], _ => .ok []
  | _ :: _, [] => .error .outOfRange

/-- clean_relation.hh:429-434: the tables chosen by `indexes` and the sum of their log weights. -/
def pickTables : List (List (Int × ℝ)) → List Int → Res (Items × ℝ)
  | c :: cs, i :: is => do
    let e ← atR c i.toNat
    let (z, w) ← pickTables cs is
    .ok (e.1 :: z, e.2 + w)
  | _, _ => .ok ([], 0)

/-- clean_relation.hh:424-442 -/
def logpLoop (choices : List (List (Int × ℝ))) (value : V) :
    List (List Int) → CleanRel D → Tape → Res (List (WithBot ℝ) × CleanRel D × Tape)
  | [], r, t => .ok ([], r, t)
  | indexes :: l, r, t => do
    let (z, w) ← pickTables choices indexes
    let (prior, t) := D.fresh t
    let c := (r.clusters.find? z).getD prior
    let (lp, c) ← D.logp c value
    let r := if r.clusters.contains z then { r with clusters := r.clusters.set z c } else r
    let (lps, r, t) ← logpLoop choices value l r t
    .ok (((lp + w : ℝ) : WithBot ℝ) :: lps, r, t)

/-- clean_relation.hh:390-444 `logp`. -/
def logp (σ : Doms) (r : CleanRel D) (items : Items) (value : V) (t : Tape) : Res (WithBot ℝ × CleanRel D × Tape) := do
  assertR (decide (items.length = r.doms.length))
  let choices ← choicesLoop σ r.doms items
  let prod ← product (choices.map (fun c => (List.range c.length).map (fun (k : Nat) => (k : Int))))
  let (lps, r, t) ← logpLoop choices value prod r t
  let v ← logsumexp lps
  .ok (v, r, t)

end CleanRel

/-- A distribution that can also be sampled from and that knows its nearest supported value (base.hh:39-40, 55-59). -/
structure CleanOps (V : Type) extends DistOps V where
  sample : S → Tape → Res (V × S × Tape)
  nearest : S → V → Res V

namespace CleanRel
variable {V : Type} {C : CleanOps V}

/-- clean_relation.hh:229-238 `sample_at_items`. -/
def sampleAtItems (σ : Doms) (r : CleanRel C.toDistOps) (items : Items) (t : Tape) :
    Res (V × CleanRel C.toDistOps × Tape) := do
  if ← clustersContains σ r items then
    let z ← clusterOf σ r items
    let c ← r.clusters.atKey z
    let (x, c, t) ← C.sample c t
    .ok (x, { r with clusters := r.clusters.set z c }, t)
  else
    let (c, t) := C.fresh t
    let (x, _, t) ← C.sample c t
    .ok (x, r, t)

/-- clean_relation.hh:112-118 `sample_and_incorporate`. -/
def sampleAndIncorporate (σ : Doms) (r : CleanRel C.toDistOps) (items : Items) (t : Tape) :
    Res (V × Doms × CleanRel C.toDistOps × Tape) := do
  let (z, σ, r, t) ← incorporateItems σ r items t
  let (x, r, t) ← sampleAtItems σ r items t
  let r := { r with data := r.data.set items x }
  let c ← r.clusters.atKey z
  let c ← C.inc c x
  .ok (x, σ, { r with clusters := r.clusters.set z c }, t)

/-- clean_relation.hh:521-530 `nearest`. -/
def nearest (σ : Doms) (r : CleanRel C.toDistOps) (x : V) (items : Items) (t : Tape) : Res (V × Tape) := do
  let z ← clusterOf σ r items
  match r.clusters.find? z with
  | some c =>
    let x ← C.nearest c x
    .ok (x, t)
  | none =>
    let (c, t) := C.fresh t
    let x ← C.nearest c x
    .ok (x, t)

end CleanRel
end
end Verif
