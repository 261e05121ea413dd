import Verif.Model.LatentValue
/-!
Model of `/repo/cxx/irm.hh` and `/repo/cxx/irm.cc`.

The `Domain` objects of an IRM are the store `doms`; its `Relation` objects are `rels`, each with the identity of the object.
A noisy relation holds a pointer to its base relation, which in an HIRM may be in another IRM: the functions that
follow base pointers take the environment `env`, which says what every pointer currently shows.
-/
namespace Verif
noncomputable section
variable {V : Type}

/-- clean_relation.hh:21-31 `T_clean_relation` and noisy_relation.hh:21-35 `T_noisy_relation`; irm.hh:14 `T_relation`. -/
inductive RelSpec (F : Family V) where
  | clean (c : F.C) (doms : List String) (observed : Bool)
  | noisy (e : F.E) (doms : List String) (base : String) (observed : Bool)

/-- `domains` of a `T_relation` -/
def RelSpec.doms {F : Family V} : RelSpec F → List String
  | .clean _ ds _ => ds
  | .noisy _ ds _ _ => ds

/-- `is_observed` of a `T_relation` -/
def RelSpec.observed {F : Family V} : RelSpec F → Bool
  | .clean _ _ o => o
  | .noisy _ _ _ o => o

/-- irm.hh:19 `T_schema` -/
abbrev Schema (F : Family V) := FMap String (RelSpec F)

/-- What base pointers show. -/
abbrev Env (V : Type) := Ptr → Option (BaseView V)

/-- irm.hh:21-31 `class IRM`. -/
structure IRM (F : Family V) where
  schema : Schema F := ∅
  doms : Doms := ∅
  rels : FMap String (Nat × Rel F) := ∅
  domToRels : FMap String (FSet String) := ∅
  baseToNoisy : FMap String (List String) := ∅

namespace IRM
variable {F : Family V}

/-- The base pointers inside a stand-alone IRM: a pointer shows the relation of that name, unless it has been deleted. -/
def env (I : IRM F) : Env V := fun p =>
  match p.table, I.rels.find? p.name with
  | none, some (id, r) => if id = p.id then some r.view else none
  | _, _ => none

/-- what the base pointer of `r` shows -/
def baseOf (env : Env V) (r : Rel F) : Option (BaseView V) := r.base?.bind env

/-- irm.cc:49-58 `incorporate`. -/
def incorporate (env : Env V) (I : IRM F) (r : String) (items : Items) (value : V) (t : Tape) : Res (IRM F × Tape) := do
  let (id, rel) ← I.rels.atKey r
  let (σ, rel, t) ← rel.incorporate I.doms (baseOf env rel) items value t
  .ok ({ I with doms := σ, rels := I.rels.set r (id, rel) }, t)

/-- irm.cc:70-76: has any of the relations an observation of the item? -/
def anyHas (I : IRM F) (d : String) (i : Int) : List String → Bool → Res Bool
  | [], b => .ok b
  | r :: rs, b => do
    let (_, rel) ← I.rels.atKey r
    let h ← rel.hasObservation d i
    anyHas I d i rs (b || h)

/-- irm.cc:64-67: every pair of domain and item starts with `false`. -/
def flagInit : List String → Items → FMap (String × Int) Bool → Res (FMap (String × Int) Bool)
  | [], _, m => .ok m
  | _ :: _, [], _ => .error .ub
  | d :: ds, i :: is, m => flagInit ds is (m.set (d, i) false)

/-- irm.cc:68-78: which of the items are still observed by some relation.  The order in which the relations of a domain are
visited does not matter, their answers are or-ed. -/
def flagLoop (I : IRM F) : List String → Items → FMap (String × Int) Bool → Res (FMap (String × Int) Bool)
  | [], _, m => .ok m
  | _ :: _, [], _ => .error .ub
  | d :: ds, i :: is, m => do
    let names ← I.domToRels.atKey d
    let b ← m.atKey (d, i)
    let b ← anyHas I d i names.keys b
    flagLoop I ds is (m.set (d, i) b)

/-- irm.cc:79-86: take the items that are not observed any more out of their domains, once each. -/
def dropLoop : List String → Items → FMap (String × Int) Bool → Doms → Res Doms
  | [], _, _, σ => .ok σ
  | _ :: _, [], _, _ => .error .ub
  | d :: ds, i :: is, m, σ => do
    if ← m.atKey (d, i) then dropLoop ds is m σ
    else
      let dom ← σ.get d
      let dom ← dom.unincorporate i
      dropLoop ds is (m.set (d, i) true) (σ.set d dom)

/-- irm.cc:60-87 `unincorporate`. -/
def unincorporate (env : Env V) (I : IRM F) (r : String) (items : Items) : Res (IRM F) := do
  let (id, rel) ← I.rels.atKey r
  let rel ← rel.unincorporate I.doms (baseOf env rel) items
  let I := { I with rels := I.rels.set r (id, rel) }
  let spec ← I.schema.atKey r
  let m ← flagInit spec.doms items ∅
  let m ← flagLoop I spec.doms items m
  let σ ← dropLoop spec.doms items m I.doms
  .ok { I with doms := σ }

/-- irm.cc:89-99 `has_observation`.  Simplification: the code stops at the first relation that has one. -/
def hasObservation (I : IRM F) (d : String) (i : Int) : Res Bool := do
  let names ← I.domToRels.atKey d
  let _ ← I.doms.atKey d
  anyHas I d i names.keys false

/-- irm.cc:132-143, 144-146: add the log probabilities of the relations that observe the item. -/
def scoreItem (d : String) (item : Int) (tables : List Int) : List String → IRM F → List ℝ → Tape →
    Res (List ℝ × IRM F × Tape)
  | [], I, logps, t => .ok (logps, I, t)
  | r :: rs, I, logps, t => do
    let (id, rel) ← I.rels.atKey r
    if ← rel.hasObservation d item then
      let (lps, rel, t) ← rel.logpGibbsExact I.doms d item tables t
      assertR (decide (lps.length = tables.length))
      assertR (decide (lps.length = logps.length))
      scoreItem d item tables rs { I with rels := I.rels.set r (id, rel) } (List.zipWith (· + ·) logps lps) t
    else
      scoreItem d item tables rs I logps t

/-- irm.cc:121-146: the candidate tables of an item and their log weights; also the order in which the relations of the
domain are visited (the same in both loops, since the set does not change). -/
def itemScores (I : IRM F) (d : String) (item : Int) (t : Tape) :
    Res (List Int × List ℝ × List String × IRM F × Tape) := do
  let dom ← I.doms.atKey d
  let w ← dom.tablesWeightsGibbs item
  let names ← I.domToRels.atKey d
  let (order, t) := shuffle names.keys t
  let (logps, I, t) ← scoreItem d item w.keys order I (w.vals.map Real.log) t
  .ok (w.keys, logps, order, I, t)

/-- irm.cc:153-160: tell the relations that observe the item. -/
def moveRels (d : String) (item table : Int) : List String → IRM F → Tape → Res (IRM F × Tape)
  | [], I, t => .ok (I, t)
  | r :: rs, I, t => do
    let (id, rel) ← I.rels.atKey r
    if ← rel.hasObservation d item then
      let (rel, t) ← rel.setClusterAssignmentGibbs I.doms d item table t
      moveRels d item table rs { I with rels := I.rels.set r (id, rel) } t
    else
      moveRels d item table rs I t

/-- irm.cc:150-162: move the item to the chosen table, if that is not where it is. -/
def moveItem (d : String) (item choice : Int) (order : List String) (I : IRM F) (t : Tape) : Res (IRM F × Tape) := do
  let dom ← I.doms.atKey d
  let cur ← dom.getClusterAssignment item
  if choice ≠ cur then
    let (I, t) ← moveRels d item choice order I t
    let dom ← dom.setClusterAssignmentGibbs item choice
    .ok ({ I with doms := I.doms.set d dom }, t)
  else .ok (I, t)

/-- irm.cc:118-162 `transition_cluster_assignment_item`.  `log_choice` (util_math.cc:66-73) returns any index of the
vector, depending on the generator; all log weights are finite. -/
def transitionItem (I : IRM F) (d : String) (item : Int) (t : Tape) : Res (IRM F × Tape) := do
  let (tables, logps, order, I, t) ← itemScores I d item t
  assertR (decide (tables.length = logps.length))
  let (k, t) := draw tables.length t
  let choice ← idxR tables k
  moveItem d item choice order I t

/-- irm.cc:103-105, 112-114: transition the listed items of one domain. -/
def transitionItems (d : String) : List Int → IRM F → Tape → Res (IRM F × Tape)
  | [], I, t => .ok (I, t)
  | i :: is, I, t => do
    let (I, t) ← transitionItem I d i t
    transitionItems d is I t

/-- irm.cc:109-116 `transition_cluster_assignments`; the items of a domain are visited in any order. -/
def transitionDomains : List String → IRM F → Tape → Res (IRM F × Tape)
  | [], I, t => .ok (I, t)
  | d :: ds, I, t => do
    let dom ← I.doms.atKey d
    let (items, t) := shuffle dom.items.keys t
    let (I, t) ← transitionItems d items I t
    transitionDomains ds I t

/-- irm.cc:101-107 `transition_cluster_assignments_all`; the domains are visited in any order. -/
def transitionAll (I : IRM F) (t : Tape) : Res (IRM F × Tape) :=
  let (ds, t) := shuffle I.doms.keys t
  transitionDomains ds I t

/-- irm.cc:170-173: the noisy relations of the base relation that `p` points to.  A relation of that name that is not noisy is
cast to one, which is undefined behaviour.  Simplification: so is a noisy relation with a different base object, although
the code reads through that pointer only if there is a tuple to process. -/
def noisyOf (I : IRM F) (p : Ptr) : List String → Res (List (LatentNoisy F))
  | [] => .ok []
  | n :: ns => do
    let (_, rel) ← I.rels.atKey n
    match rel with
    | .clean _ _ => .error .ub
    | .noisy e q r =>
      if q = p then
        let l ← noisyOf I p ns
        .ok ({ name := n, σ := I.doms, e := e, r := r } :: l)
      else .error .ub

/-- irm.cc:174-176: transition the latent value of each listed tuple. -/
def latentLoop : List Items → LatentBase F → List (LatentNoisy F) → Tape → Res (LatentBase F × List (LatentNoisy F) × Tape)
  | [], base, noisy, t => .ok (base, noisy, t)
  | items :: l, base, noisy, t => do
    let (o, t) ← Latent.transition items base noisy t
    latentLoop l o.base o.noisy t

/-- the noisy relations after the transitions are the same objects -/
def storeNoisy (I : IRM F) (p : Ptr) : List (LatentNoisy F) → Res (IRM F)
  | [] => .ok I
  | x :: xs => do
    let (id, _) ← I.rels.atKey x.name
    storeNoisy { I with rels := I.rels.set x.name (id, .noisy x.e p x.r) } p xs

/-- irm.cc:164-179 `transition_latent_values_relation` of a stand-alone IRM. -/
def transitionLatentRelation (env : Env V) (I : IRM F) (r : String) (t : Tape) : Res (IRM F × Tape) := do
  let (id, rel) ← I.rels.atKey r
  let names ← I.baseToNoisy.atKey r
  let p : Ptr := { table := none, name := r, id := id }
  let noisy ← noisyOf I p names.dedup
  let (noisy, t) := shuffle noisy t
  let (keys, t) := shuffle rel.data.keys t
  let (base, noisy, t) ← latentLoop keys { σ := I.doms, own := baseOf env rel, rel := rel } noisy t
  let I ← storeNoisy { I with rels := I.rels.set r (id, base.rel) } p noisy
  .ok (I, t)

/-- irm.cc:190-196, 217-245: an item of the joint predictive with its candidate tables and log weights. -/
structure Slot where
  dom : String
  item : Int
  choices : List (Int × ℝ)

/-- irm.cc:212-246: the items of one observation that are not in the universe yet. -/
def slotsOne (σ : Doms) : List String → Items → List Slot → Res (List Slot)
  | d :: ds, i :: is, acc =>
    if acc.any (fun s => decide (s.dom = d ∧ s.item = i)) then slotsOne σ ds is acc
    else do
      let c ← CleanRel.tableChoices σ d i
      slotsOne σ ds is (acc ++ [{ dom := d, item := i, choices := c }])
  | [], _, acc => .ok acc
  | _ :: _, [], _ => .error .outOfRange

/-- irm.cc:199-247: the universe of all observations; the observations must be distinct and have the right arity. -/
def slots (I : IRM F) : List (String × Items × V) → List (String × Items) → List Slot → Res (List Slot)
  | [], _, acc => .ok acc
  | (r, items, _) :: obs, seen, acc => do
    assertR (!decide ((r, items) ∈ seen))
    let (_, rel) ← I.rels.atKey r
    assertR (decide (items.length = rel.doms.length))
    let acc ← slotsOne I.doms rel.doms items acc
    slots I obs ((r, items) :: seen) acc

/-- irm.cc:263-270: the clusters of a tuple, given the choice for every slot. -/
def tupleTables (slots : List Slot) (indexes : List Int) : List String → Items → Res Items
  | d :: ds, i :: is => do
    let loc := slots.findIdx (fun s => decide (s.dom = d ∧ s.item = i))
    let s ← atR slots loc
    let k ← atR indexes loc
    let e ← atR s.choices k.toNat
    let z ← tupleTables slots indexes ds is
    .ok (e.1 :: z)
  | [], _ => .ok []
  | _ :: _, [] => .error .outOfRange

/-- irm.cc:255-258: the log weight of a combination. -/
def weightOf : List Slot → List Int → Res ℝ
  | s :: ss, k :: ks => do
    let e ← atR s.choices k.toNat
    let w ← weightOf ss ks
    .ok (e.2 + w)
  | _, _ => .ok 0

/-- irm.cc:276-280: the log probability of the observations under one combination.  It may update caches in the clusters. -/
def combLogp (slots : List Slot) (indexes : List Int) : List (String × Items × V) → IRM F → Tape → Res (ℝ × IRM F × Tape)
  | [], I, t => .ok (0, I, t)
  | (r, items, v) :: obs, I, t => do
    let (id, rel) ← I.rels.atKey r
    let z ← tupleTables slots indexes rel.doms items
    let (lp, rel, t) ← rel.clusterOrPriorLogp z v t
    let (s, I, t) ← combLogp slots indexes obs { I with rels := I.rels.set r (id, rel) } t
    .ok (lp + s, I, t)

/-- irm.cc:252-282 -/
def logpLoop (slots : List Slot) (obs : List (String × Items × V)) : List (List Int) → IRM F → Tape →
    Res (List (WithBot ℝ) × IRM F × Tape)
  | [], I, t => .ok ([], I, t)
  | indexes :: l, I, t => do
    let w ← weightOf slots indexes
    let (s, I, t) ← combLogp slots indexes obs I t
    let (lps, I, t) ← logpLoop slots obs l I t
    .ok (((w + s : ℝ) : WithBot ℝ) :: lps, I, t)

/-- irm.cc:183-284 `logp`. -/
def logp (I : IRM F) (obs : List (String × Items × V)) (t : Tape) : Res (WithBot ℝ × IRM F × Tape) := do
  let ss ← slots I obs [] []
  let prod ← product (ss.map (fun s => (List.range s.choices.length).map (fun (k : Nat) => (k : Int))))
  let (lps, I, t) ← logpLoop ss obs prod I t
  let v ← logsumexp lps
  .ok (v, I, t)

/-- irm.cc:290-302 `logp_score`. -/
def logpScore (I : IRM F) : ℝ :=
  (I.doms.vals.map (fun d => d.crp.logpScore)).sum + (I.rels.vals.map (fun r => r.2.logpScore)).sum

/-- irm.cc:304-317 `add_domains` (without the vector of pointers it returns). -/
def addDomains (name : String) : List String → IRM F → Res (IRM F)
  | [], I => .ok I
  | d :: ds, I => do
    let I ← if I.doms.contains d then Except.ok I
      else do
        assertR (!I.domToRels.contains d)
        .ok { I with doms := I.doms.set d { name := d }, domToRels := I.domToRels.set d ∅ }
    let s ← I.domToRels.atKey d
    addDomains name ds { I with domToRels := I.domToRels.set d (FSet.insert s name) }

/-- irm.cc:319-328 `add_relation` of a clean relation; `id` is the identity of the new object. -/
def addClean (id : Nat) (I : IRM F) (name : String) (c : F.C) (doms : List String) (observed : Bool) : Res (IRM F) := do
  assertR (!I.schema.contains name)
  assertR (!I.rels.contains name)
  let I ← addDomains name doms I
  let r ← CleanRel.mk' (F.dist c).toDistOps doms
  .ok { I with rels := I.rels.set name (id, .clean c r), schema := I.schema.set name (.clean c doms observed) }

/-- irm.cc:358-379 `add_relation_with_base`; `id` is the identity of the new object, `p` the base pointer. -/
def addWithBase (id : Nat) (I : IRM F) (name : String) (e : F.E) (doms : List String) (base : String) (observed : Bool) (p : Ptr) :
    Res (IRM F) := do
  assertR (!I.schema.contains name)
  assertR (!I.rels.contains name)
  let I ← addDomains name doms I
  let r ← NoisyRel.mk' (F.emis e).toDistOps doms
  .ok { I with
    rels := I.rels.set name (id, .noisy e p r), schema := I.schema.set name (.noisy e doms base observed),
    baseToNoisy := I.baseToNoisy.set base ((I.baseToNoisy.find? base).getD [] ++ [name]) }

/-- irm.cc:330-356 `add_relation` of a noisy relation.  If the base is not a relation of this IRM, the code looks it up in the
IRM's own schema (`schema.at` throws if it is missing) and tries to add it again, which fails the first assertion of
`add_relation`.  Simplification: the entry of `base_to_noisy_relations` is made after the relation object, not before. -/
def addNoisy (id : Nat) (I : IRM F) (name : String) (e : F.E) (doms : List String) (base : String) (observed : Bool) :
    Res (IRM F) := do
  assertR (!I.schema.contains name)
  assertR (!I.rels.contains name)
  let I ← addDomains name doms I
  if !I.rels.contains base then
    let _ ← I.schema.atKey base
    .error .assert
  else
    let (bid, _) ← I.rels.atKey base
    let r ← NoisyRel.mk' (F.emis e).toDistOps doms
    .ok { I with
      rels := I.rels.set name (id, .noisy e { table := none, name := base, id := bid } r),
      schema := I.schema.set name (.noisy e doms base observed),
      baseToNoisy := I.baseToNoisy.set base ((I.baseToNoisy.find? base).getD [] ++ [name]) }

/-- irm.cc:319-356 `add_relation`. -/
def addRelation (id : Nat) (I : IRM F) (name : String) : RelSpec F → Res (IRM F)
  | .clean c doms o => addClean id I name c doms o
  | .noisy e doms base o => addNoisy id I name e doms base o

/-- irm.cc:34-36: add the relations in the order of the map, that is by name. -/
def addAll : List (String × RelSpec F) → Nat → IRM F → Res (IRM F)
  | [], _, I => .ok I
  | (name, spec) :: l, id, I => do
    let I ← addRelation id I name spec
    addAll l (id + 1) I

/-- irm.cc:32-38 the constructor. -/
def mk' (schema : Schema F) : Res (IRM F) := do
  let I ← addAll schema.entries 0 {}
  assertR (decide (I.schema.size = I.rels.size))
  .ok I

/-- irm.cc:388-396: forget the relation in each of its domains; a domain without relations is deleted. -/
def dropDomains (name : String) : List String → IRM F → Res (IRM F)
  | [], I => .ok I
  | d :: ds, I => do
    let s ← I.domToRels.atKey d
    let s := s.erase name
    if s.size = 0 then
      let _ ← I.doms.atKey d
      dropDomains name ds { I with domToRels := I.domToRels.erase d, doms := I.doms.erase d }
    else dropDomains name ds { I with domToRels := I.domToRels.set d s }

/-- irm.cc:381-400 `remove_relation`.  The entries of `base_to_noisy_relations` stay. -/
def removeRelation (I : IRM F) (name : String) : Res (IRM F) := do
  let (_, rel) ← I.rels.atKey name
  let I ← dropDomains name rel.doms.dedup I
  .ok { I with rels := I.rels.erase name, schema := I.schema.erase name }

/-- irm.cc:436-445 -/
def latentSweep (env : IRM F → Env V) : List String → IRM F → Tape → Res (IRM F × Tape)
  | [], I, t => .ok (I, t)
  | r :: rs, I, t => do
    let spec ← I.schema.atKey r
    if !spec.observed then
      let (I, t) ← transitionLatentRelation (env I) I r t
      latentSweep env rs I t
    else latentSweep env rs I t

/-- irm.cc:455-463 -/
def hparamsSweep (n : Nat) : List String → IRM F → Tape → Res (IRM F × Tape)
  | [], I, t => .ok (I, t)
  | r :: rs, I, t => do
    let (id, rel) ← I.rels.atKey r
    let (rel, t) := rel.transitionClusterHparams n t
    hparamsSweep n rs { I with rels := I.rels.set r (id, rel) } t

/-- irm.cc:465-469 -/
def alphaSweep : List String → IRM F → Tape → Res (IRM F × Tape)
  | [], I, t => .ok (I, t)
  | d :: ds, I, t => do
    let dom ← I.doms.atKey d
    let (crp, t) := dom.crp.transitionAlpha t
    alphaSweep ds { I with doms := I.doms.set d { dom with crp := crp } } t

/-- irm.cc:428-470 `single_step_irm_inference`, without the clock and the printing of scores. -/
def singleStep (I : IRM F) (numThetaSteps : Nat) (transitionLatents : Bool) (t : Tape) : Res (IRM F × Tape) := do
  let (I, t) ← if transitionLatents then
      let (rs, t) := shuffle I.baseToNoisy.keys t
      latentSweep env rs I t
    else Except.ok (I, t)
  let (I, t) ← transitionAll I t
  let (rs, t) := shuffle I.rels.keys t
  let (I, t) ← hparamsSweep numThetaSteps rs I t
  let (ds, t) := shuffle I.doms.keys t
  alphaSweep ds I t

end IRM
end
end Verif
