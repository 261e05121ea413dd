import Verif.Model.IRM
/-!
Model of `/repo/cxx/hirm.hh`, `/repo/cxx/hirm.cc` and of `inference_hirm` in `/repo/cxx/inference.cc`.

An HIRM clusters relations with a CRP; each table of that CRP has its own IRM.  The base pointer of a noisy relation may lead into
another IRM of the same HIRM.
-/
namespace Verif
noncomputable section
variable {V : Type}

/-- hirm.hh:17-28 `class HIRM`; `next` is the identity that the next relation object will get. -/
structure HIRM (F : Family V) where
  schema : Schema F := ∅
  irms : FMap Int (IRM F) := ∅
  relToCode : FMap String Int := ∅
  codeToRel : FMap Int String := ∅
  baseToNoisy : FMap String (List String) := ∅
  crp : CRP := {}
  next : Nat := 0

namespace HIRM
variable {F : Family V}

/-- What the base pointers of an HIRM show: the relation of that name in the IRM of that table, unless it has been deleted. -/
def env (H : HIRM F) : Env V := fun p =>
  match p.table with
  | none => none
  | some tb =>
    match H.irms.find? tb with
    | none => none
    | some I =>
      match I.rels.find? p.name with
      | none => none
      | some (id, r) => if id = p.id then some r.view else none

/-- hirm.cc:53-56 `relation_to_table`. -/
def relationToTable (H : HIRM F) (r : String) : Res Int := do
  let rc ← H.relToCode.atKey r
  H.crp.assignments.atKey rc

/-- hirm.cc:58-62 `relation_to_irm`, with the table of the IRM. -/
def relationToIrm (H : HIRM F) (r : String) : Res (Int × IRM F) := do
  let tb ← H.relationToTable r
  let I ← H.irms.atKey tb
  .ok (tb, I)

/-- hirm.cc:64-67 `get_relation`: the relation object, and the pointer to it. -/
def getRelation (H : HIRM F) (r : String) : Res (Ptr × Rel F) := do
  let (tb, I) ← H.relationToIrm r
  let (id, rel) ← I.rels.atKey r
  .ok ({ table := some tb, name := r, id := id }, rel)

/-- hirm.cc:42-46 `incorporate`. -/
def incorporate (H : HIRM F) (r : String) (items : Items) (value : V) (t : Tape) : Res (HIRM F × Tape) := do
  let (tb, I) ← H.relationToIrm r
  let (I, t) ← IRM.incorporate H.env I r items value t
  .ok ({ H with irms := H.irms.set tb I }, t)

/-- hirm.cc:48-51 `unincorporate`. -/
def unincorporate (H : HIRM F) (r : String) (items : Items) : Res (HIRM F) := do
  let (tb, I) ← H.relationToIrm r
  let I ← IRM.unincorporate H.env I r items
  .ok { H with irms := H.irms.set tb I }

/-- hirm.cc:82-97 `add_relation_to_irm`. -/
def addRelationToIrm (H : HIRM F) (I : IRM F) (r : String) : RelSpec F → Res (IRM F)
  | .clean c doms o => IRM.addClean H.next I r c doms o
  | .noisy e doms base o => do
    let (p, _) ← H.getRelation base
    IRM.addWithBase H.next I r e doms base o p

/-- hirm.cc:127-129, 220-222: incorporate the listed observations into relation `r` of an IRM. -/
def fill (env : Env V) (r : String) : List (Items × V) → IRM F → Tape → Res (IRM F × Tape)
  | [], I, t => .ok (I, t)
  | (items, v) :: l, I, t => do
    let (I, t) ← IRM.incorporate env I r items v t
    fill env r l I t

/-- hirm.cc:124-131, 219-222: add the relation to an IRM and give it the observations, in any order.  Simplification: the base
relation is read in the state before the observations are added; they go to `r`, which is not its own base. -/
def putRelation (H : HIRM F) (I : IRM F) (r : String) (spec : RelSpec F) (data : FMap Items V) (t : Tape) : Res (IRM F × Tape) := do
  let I ← H.addRelationToIrm I r spec
  let (l, t) := shuffle data.entries t
  fill H.env r l I t

/-- hirm.cc:111-139: the log weight of each listed table, with the relation added to the IRMs of the other tables; `aux` is
the table that has no IRM yet, with its auxiliary IRM. -/
def scoreTables (r : String) (cur : Int) (spec : RelSpec F) (data : FMap Items V) :
    List (Int × ℝ) → HIRM F → Option (Int × IRM F) → Tape → Res (List (Int × ℝ) × HIRM F × Option (Int × IRM F) × Tape)
  | [], H, aux, t => .ok ([], H, aux, t)
  | (tb, w) :: l, H, aux, t => do
    let I ← match H.irms.find? tb with
      | some I => Except.ok I
      | none => do
        assertR aux.isNone
        .ok {}
    let (I, H', t) ← if tb ≠ cur then do
        let (I, t) ← H.putRelation I r spec data t
        .ok (I, { H with next := H.next + 1 }, t)
      else Except.ok (I, H, t)
    let (_, rel) ← I.rels.atKey r
    let lp := Real.log w + rel.logpScore
    let (H', aux) := if H.irms.contains tb then ({ H' with irms := H'.irms.set tb I }, aux) else (H', some (tb, I))
    let (lps, H', aux, t) ← scoreTables r cur spec data l H' aux t
    .ok ((tb, lp) :: lps, H', aux, t)

/-- hirm.cc:145-157: remove the relation from the IRMs of the listed tables that were not chosen. -/
def dropOthers (r : String) (cur choice : Int) (crp : CRP) : List Int → FMap Int (IRM F) → Res (FMap Int (IRM F))
  | [], m => .ok m
  | tb :: l, m => do
    let I ← m.atKey tb
    let I ← if tb ≠ choice then do
        assertR (I.rels.contains r)
        I.removeRelation r
      else Except.ok I
    if I.rels.size = 0 then
      let s ← crp.tables.atKey tb
      assertR (decide (s.size = 1))
      assertR (decide (tb = cur))
      dropOthers r cur choice crp l (m.erase tb)
    else dropOthers r cur choice crp l (m.set tb I)

/-- hirm.cc:184-193: point the listed noisy relations to the relation object `r`.  A relation that is not noisy is
cast to a noisy one, which is undefined behaviour. -/
def updateLoop (r : String) : List String → HIRM F → Res (HIRM F)
  | [], H => .ok H
  | n :: ns, H => do
    let (tb, I) ← H.relationToIrm n
    let (id, rel) ← I.rels.atKey n
    match rel with
    | .clean _ _ => .error .ub
    | .noisy e _ q =>
      let (p, _) ← H.getRelation r
      updateLoop r ns { H with irms := H.irms.set tb { I with rels := I.rels.set n (id, .noisy e p q) } }

/-- hirm.cc:181-195 `update_base_relation`. -/
def updateBase (H : HIRM F) (r : String) : Res (HIRM F) :=
  match H.baseToNoisy.find? r with
  | none => .ok H
  | some l => updateLoop r l H

/-- hirm.cc:169-174, 229-234: the tables that have an IRM are the tables of the CRP. -/
def checkTables (H : HIRM F) : Res Unit := do
  assertR (decide (H.irms.size = H.crp.tables.size))
  assertR (H.irms.keys.all (fun tb => H.crp.tables.contains tb))

/-- hirm.cc:144-178: move the relation to the chosen table; `order` is the order in which the tables of the CRP are visited. -/
def settle (H : HIRM F) (r : String) (rc cur choice : Int) (order : List Int) (aux : Option (Int × IRM F)) : Res (HIRM F) := do
  let irms ← dropOthers r cur choice H.crp order H.irms
  let irms := match aux with
    | some (tb, I) => if choice = tb then irms.set choice I else irms
    | none => irms
  let crp ← H.crp.unincorporate rc
  let crp ← crp.incorporate rc choice
  let H := { H with irms := irms, crp := crp }
  checkTables H
  updateBase H r

/-- hirm.cc:99-179 `transition_cluster_assignment_relation`.  `log_choice` (util_math.cc:66-73) returns any index of the vector,
depending on the generator; all log weights are finite. -/
def transitionRelation (H : HIRM F) (r : String) (t : Tape) : Res (HIRM F × Tape) := do
  let rc ← H.relToCode.atKey r
  let cur ← H.crp.assignments.atKey rc
  let (_, rel) ← H.getRelation r
  let spec ← H.schema.atKey r
  let w ← H.crp.tablesWeightsGibbs cur
  let (l, t) := shuffle w.entries t
  let (lps, H, aux, t) ← scoreTables r cur spec rel.data l H none t
  let (k, t) := draw lps.length t
  let choice ← idxR lps k
  let (order, t) := shuffle H.crp.tables.keys t
  let H ← H.settle r rc cur choice.1 order aux
  .ok (H, t)

/-- hirm.cc:75-80 `transition_cluster_assignments`. -/
def transitionRelations : List String → HIRM F → Tape → Res (HIRM F × Tape)
  | [], H, t => .ok (H, t)
  | r :: rs, H, t => do
    let (H, t) ← H.transitionRelation r t
    transitionRelations rs H t

/-- hirm.cc:69-73 `transition_cluster_assignments_all`; the relations are visited in any order. -/
def transitionAll (H : HIRM F) (t : Tape) : Res (HIRM F × Tape) :=
  let (rs, t) := shuffle H.relToCode.keys t
  transitionRelations rs H t

/-- hirm.cc:197-235 `set_cluster_assignment_gibbs`. -/
def setClusterAssignmentGibbs (H : HIRM F) (r : String) (table : Int) (t : Tape) : Res (HIRM F × Tape) := do
  assertR (decide (H.irms.size = H.crp.tables.size))
  let rc ← H.relToCode.atKey r
  let cur ← H.crp.assignments.atKey rc
  let (_, rel) ← H.getRelation r
  let spec ← H.schema.atKey r
  let I ← H.irms.atKey cur
  let I ← I.removeRelation r
  let irms := if I.rels.size = 0 then H.irms.erase cur else H.irms.set cur I
  let irms := if irms.contains table then irms else irms.set table {}
  let H := { H with irms := irms }
  let I ← H.irms.atKey table
  let (I, t) ← H.putRelation I r spec rel.data t
  let crp ← H.crp.unincorporate rc
  let crp ← crp.incorporate rc table
  let H := { H with irms := H.irms.set table I, crp := crp, next := H.next + 1 }
  let H ← H.updateBase r
  checkTables H
  .ok (H, t)

/-- hirm.cc:237-269 `add_relation`.  If the base of a noisy relation is not a relation of this HIRM, the code looks it up in the
HIRM's own schema (`schema.at` throws if it is missing) and tries to add it again, which fails the first assertion. -/
def addRelation (H : HIRM F) (name : String) (spec : RelSpec F) (t : Tape) : Res (HIRM F × Tape) := do
  assertR (!H.schema.contains name)
  let schema := H.schema.set name spec
  let rc := 1 + H.codeToRel.maxKey?.getD 0
  let (table, t) := H.crp.sample t
  let crp ← H.crp.incorporate rc table
  let irms := if H.irms.contains table then H.irms else H.irms.set table {}
  let baseToNoisy ← match spec with
    | .clean _ _ _ => Except.ok H.baseToNoisy
    | .noisy _ _ base _ =>
      if !H.relToCode.contains base then do
        let _ ← schema.atKey base
        .error .assert
      else .ok (H.baseToNoisy.set base ((H.baseToNoisy.find? base).getD [] ++ [name]))
  let H := { H with schema := schema, crp := crp, irms := irms, baseToNoisy := baseToNoisy }
  let I ← H.irms.atKey table
  let I ← H.addRelationToIrm I name spec
  assertR (!H.relToCode.contains name)
  assertR (!H.codeToRel.contains rc)
  .ok ({ H with
    irms := H.irms.set table I, relToCode := H.relToCode.set name rc, codeToRel := H.codeToRel.set rc name, next := H.next + 1 }, t)

/-- hirm.cc:10-29: one pass over the schema: the new state, whether a relation was added, whether one is pending. -/
def addPass : List (String × RelSpec F) → HIRM F → Bool → Bool → Tape → Res (HIRM F × Bool × Bool × Tape)
  | [], H, added, pending, t => .ok (H, added, pending, t)
  | (name, spec) :: l, H, added, pending, t =>
    if H.schema.contains name then addPass l H added pending t
    else match spec with
      | .clean _ _ _ => do
        let (H, t) ← H.addRelation name spec t
        addPass l H true pending t
      | .noisy _ _ base _ =>
        if H.schema.contains base then do
          let (H, t) ← H.addRelation name spec t
          addPass l H true pending t
        else addPass l H added true t

/-- hirm.cc:7-39: passes until nothing is pending.  Each pass but the last adds a relation; `fuel` bounds their number, and
running out of it is not an outcome of the code (`ub`, which theorem `C31_hirm_constructor` excludes). -/
def addPasses (schema : Schema F) : Nat → HIRM F → Tape → Res (HIRM F × Tape)
  | 0, _, _ => .error .ub
  | fuel + 1, H, t => do
    let (H, added, pending, t) ← addPass schema.entries H false false t
    if !pending then .ok (H, t)
    else if !added then .error .exit
    else addPasses schema fuel H t

/-- hirm.cc:6-40 the constructor. -/
def mk' (schema : Schema F) (t : Tape) : Res (HIRM F × Tape) := addPasses schema (schema.size + 1) {} t

/-- hirm.cc:274-289 `remove_relation`.  The entries of `base_to_noisy_relations` stay. -/
def removeRelation (H : HIRM F) (name : String) : Res (HIRM F) := do
  let schema := H.schema.erase name
  let rc ← H.relToCode.atKey name
  let table ← H.crp.assignments.atKey rc
  let s ← H.crp.tables.atKey table
  let crp ← H.crp.unincorporate rc
  let I ← H.irms.atKey table
  let I ← I.removeRelation name
  let irms ← if s.size = 1 then do
      assertR (decide (I.rels.size = 0))
      .ok (H.irms.erase table)
    else Except.ok (H.irms.set table I)
  .ok { H with
    schema := schema, crp := crp, irms := irms, relToCode := H.relToCode.erase name, codeToRel := H.codeToRel.erase rc }

/-- hirm.cc:296-300: the noisy relations of the base relation that `p` points to; as in `IRM.noisyOf`. -/
def noisyOf (H : HIRM F) (p : Ptr) : List String → Res (List (LatentNoisy F))
  | [] => .ok []
  | n :: ns => do
    let (_, I) ← H.relationToIrm n
    let (_, rel) ← I.rels.atKey n
    match rel with
    | .clean _ _ => .error .ub
    | .noisy e q r =>
      if q = p then
        let l ← noisyOf H p ns
        .ok ({ name := n, σ := I.doms, e := e, r := r } :: l)
      else .error .ub

/-- the noisy relations after the transitions are the same objects -/
def storeNoisy (p : Ptr) : List (LatentNoisy F) → HIRM F → Res (HIRM F)
  | [], H => .ok H
  | x :: xs, H => do
    let (tb, I) ← H.relationToIrm x.name
    let (id, _) ← I.rels.atKey x.name
    storeNoisy p xs { H with irms := H.irms.set tb { I with rels := I.rels.set x.name (id, .noisy x.e p x.r) } }

/-- hirm.cc:291-306 `transition_latent_values_relation`. -/
def transitionLatentRelation (H : HIRM F) (r : String) (t : Tape) : Res (HIRM F × Tape) := do
  let (tb, I) ← H.relationToIrm r
  let (id, rel) ← I.rels.atKey r
  let names ← H.baseToNoisy.atKey r
  let p : Ptr := { table := some tb, name := r, id := id }
  let noisy ← H.noisyOf p names.dedup
  let (noisy, t) := shuffle noisy t
  let (keys, t) := shuffle rel.data.keys t
  let (base, noisy, t) ← IRM.latentLoop keys { σ := I.doms, own := IRM.baseOf H.env rel, rel := rel } noisy t
  let H ← storeNoisy p noisy { H with irms := H.irms.set tb { I with rels := I.rels.set r (id, base.rel) } }
  .ok (H, t)

/-- hirm.cc:312-322: group the observations by the table of their relation. -/
def groupObs (H : HIRM F) : List (String × Items × V) → FMap Int (List (String × Items × V)) → Res (FMap Int (List (String × Items × V)))
  | [], m => .ok m
  | (r, items, v) :: obs, m => do
    let tb ← H.relationToTable r
    groupObs H obs (m.set tb ((m.find? tb).getD [] ++ [(r, items, v)]))

/-- hirm.cc:323-326: add the log probabilities of the groups.  They may update caches in the clusters. -/
def logpGroups : List (Int × List (String × Items × V)) → HIRM F → Tape → Res (WithBot ℝ × HIRM F × Tape)
  | [], H, t => .ok (0, H, t)
  | (tb, o) :: l, H, t => do
    let I ← H.irms.atKey tb
    let (lp, I, t) ← I.logp o t
    let (s, H, t) ← logpGroups l { H with irms := H.irms.set tb I } t
    .ok (lp + s, H, t)

/-- hirm.cc:308-328 `logp`; the groups are visited in any order. -/
def logp (H : HIRM F) (obs : List (String × Items × V)) (t : Tape) : Res (WithBot ℝ × HIRM F × Tape) := do
  let m ← H.groupObs obs ∅
  let (l, t) := shuffle m.entries t
  logpGroups l H t

/-- hirm.cc:330-337 `logp_score`. -/
def logpScore (H : HIRM F) : ℝ := H.crp.logpScore + (H.irms.vals.map (fun I => I.logpScore)).sum

/-- hirm.cc:357-359: sample a value of relation `r` and incorporate it; the printing of the value is left out. -/
def sampleOne (H : HIRM F) (r : String) (items : Items) (t : Tape) : Res (V × HIRM F × Tape) := do
  let (tb, I) ← H.relationToIrm r
  let (id, rel) ← I.rels.atKey r
  let (x, σ, rel, t) ← rel.sampleAndIncorporate I.doms (IRM.baseOf H.env rel) items t
  .ok (x, { H with irms := H.irms.set tb { I with doms := σ, rels := I.rels.set r (id, rel) } }, t)

/-- hirm.cc:339-361 `sample_and_incorporate_relation`.  `fuel` bounds the depth of the recursion through base relations; a chain
longer than the schema never ends, which is undefined behaviour.  Simplification: the value itself is returned, not its
printed form. -/
def sampleRelation : Nat → HIRM F → String → Items → Tape → Res (V × HIRM F × Tape)
  | 0, _, _, _, _ => .error .ub
  | fuel + 1, H, r, items, t => do
    let spec ← H.schema.atKey r
    let (H, t) ← match spec with
      | .clean _ _ _ => Except.ok (H, t)
      | .noisy _ _ base _ => do
        let (_, rel) ← H.getRelation r
        let b ← derefR (IRM.baseOf H.env rel)
        let bi ← NoisyRel.baseItems b items
        if b.data.contains bi then .ok (H, t)
        else do
          let (_, H, t) ← sampleRelation fuel H base bi t
          .ok (H, t)
    H.sampleOne r items t

/-- hirm.cc:379-385: draw an entity from the CRP of each listed domain: the entities, the CRP customers that stand for them, and the
new CRPs. -/
def drawEntities : List String → FMap String CRP → Tape → Res (Items × List (String × Int) × FMap String CRP × Tape)
  | [], m, t => .ok ([], [], m, t)
  | d :: ds, m, t => do
    let c := (m.find? d).getD {}
    let (entity, t) := c.sample t
    let item : Int := c.assignments.size
    let c ← c.incorporate item entity
    let (es, cs, m, t) ← drawEntities ds (m.set d c) t
    .ok (entity :: es, (d, item) :: cs, m, t)

/-- hirm.cc:396-399: take the customers out again. -/
def undraw : List (String × Int) → FMap String CRP → Res (FMap String CRP)
  | [], m => .ok m
  | (d, item) :: l, m => do
    let c ← ((m.find? d).getD {}).unincorporate item
    undraw l (m.set d c)

/-- The state of the sampling loop. -/
structure Sampling (F : Family V) where
  H : HIRM F
  crps : FMap String CRP
  obs : FMap String (List (Items × V)) := ∅

/-- hirm.cc:374-401: the loop that samples `n` observations of one relation, given how many are there.  `fuel` bounds the number of
rounds; `none` says that the loop is still running. -/
def sampleLoop (r : String) (doms : List String) (n : Nat) : Nat → Nat → Sampling F → Tape → Res (Option (Sampling F × Tape))
  | 0, num, s, t => if num < n then .ok none else .ok (some (s, t))
  | fuel + 1, num, s, t =>
    if num < n then do
      let (es, cs, crps, t) ← drawEntities doms s.crps t
      let (_, rel) ← s.H.getRelation r
      if rel.data.contains es then
        let crps ← undraw cs crps
        sampleLoop r doms n fuel num { s with crps := crps } t
      else
        let (v, H, t) ← sampleRelation (s.H.schema.size + 1) s.H r es t
        sampleLoop r doms n fuel (num + 1)
          { H := H, crps := crps, obs := s.obs.set r ((s.obs.find? r).getD [] ++ [(es, v)]) } t
    else .ok (some (s, t))

/-- hirm.cc:368-403: the leaf relations one after the other. -/
def sampleLeaves (n fuel : Nat) : List (String × RelSpec F) → Sampling F → Tape → Res (Option (Sampling F × Tape))
  | [], s, t => .ok (some (s, t))
  | (r, spec) :: l, s, t =>
    if s.H.baseToNoisy.contains r then sampleLeaves n fuel l s t
    else do
      match ← sampleLoop r spec.doms n fuel 0 s t with
      | none => .ok none
      | some (s, t) => sampleLeaves n fuel l s t

/-- hirm.cc:415-418: the entities of one domain of one IRM are seated as tables of the domain's CRP. -/
def seatEntities (d : String) : List Int → FMap String CRP → Res (FMap String CRP)
  | [], m => .ok m
  | i :: is, m => do
    let c := (m.find? d).getD {}
    let c ← c.incorporate c.assignments.size i
    seatEntities d is (m.set d c)

/-- hirm.cc:414-419 -/
def seatDomains : List (String × Domain) → FMap String CRP → Res (FMap String CRP)
  | [], m => .ok m
  | (d, dom) :: l, m => do
    let m ← seatEntities d dom.crp.assignments.keys m
    seatDomains l m

/-- hirm.cc:407-421 `initialize_domain_crps`.  Simplification: the entities are visited in order; the code visits the IRMs, domains
and entities in any order, which only changes the names of the CRP customers. -/
def seatIrms : List (IRM F) → FMap String CRP → Res (FMap String CRP)
  | [], m => .ok m
  | I :: l, m => do
    let m ← seatDomains I.doms.entries m
    seatIrms l m

/-- hirm.cc:363-405 `sample_and_incorporate`: `none` if it is still running after `fuel` rounds of a loop.  The strings of the code
are values here. -/
def sampleAndIncorporate (H : HIRM F) (n fuel : Nat) (t : Tape) : Res (Option (Sampling F × Tape)) := do
  let crps ← seatIrms H.irms.vals ∅
  sampleLeaves n fuel H.schema.entries { H := H, crps := crps } t

/-- hirm.cc:423-427 `cleanup_relation_clusters`. -/
def cleanupLoop : List String → HIRM F → Res (HIRM F)
  | [], H => .ok H
  | r :: rs, H => do
    let (tb, I) ← H.relationToIrm r
    let (id, rel) ← I.rels.atKey r
    cleanupLoop rs { H with irms := H.irms.set tb { I with rels := I.rels.set r (id, rel.cleanupClusters) } }

/-- hirm.cc:423-427 `cleanup_relation_clusters`. -/
def cleanupRelationClusters (H : HIRM F) : Res (HIRM F) := cleanupLoop H.schema.keys H

/-- inference.cc:52-59 -/
def latentSweep : List String → HIRM F → Tape → Res (HIRM F × Tape)
  | [], H, t => .ok (H, t)
  | r :: rs, H, t => do
    let spec ← H.schema.atKey r
    if !spec.observed then
      let (H, t) ← H.transitionLatentRelation r t
      latentSweep rs H t
    else latentSweep rs H t

/-- inference.cc:67-69: one inference step in each listed IRM, without latent values. -/
def stepIrms : List Int → HIRM F → Tape → Res (HIRM F × Tape)
  | [], H, t => .ok (H, t)
  | tb :: l, H, t => do
    let I ← H.irms.atKey tb
    let (I, t) ← I.singleStep 10 false t
    stepIrms l { H with irms := H.irms.set tb I } t

/-- inference.cc:47-70: one iteration of `inference_hirm`, without the clock and the printing of scores. -/
def inferenceStep (H : HIRM F) (t : Tape) : Res (HIRM F × Tape) := do
  let (rs, t) := shuffle H.baseToNoisy.keys t
  let (H, t) ← latentSweep rs H t
  let (H, t) ← H.transitionAll t
  let (tbs, t) := shuffle H.irms.keys t
  stepIrms tbs H t

/-- inference.cc:42-71 `inference_hirm`; the time limit is left out. -/
def inference : Nat → HIRM F → Tape → Res (HIRM F × Tape)
  | 0, H, t => .ok (H, t)
  | k + 1, H, t => do
    let (H, t) ← H.inferenceStep t
    inference k H t

end HIRM
end
end Verif
