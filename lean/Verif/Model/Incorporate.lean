import Verif.Model.ClusterFile
/-!
Model of `incorporate_observations`, `from_txt` and `logp` of `/repo/cxx/util_io.cc`.

These functions take a `std::variant<IRM*, HIRM*>`: `Host` lists the member functions that they use, and `IRM.host` and `HIRM.host` are the two
alternatives of the variant.
-/
namespace Verif
noncomputable section
variable {V : Type}

/-- The distribution or the emission of a relation: it determines the type of its values, which `from_string` needs. -/
def Rel.tag {F : Family V} : Rel F → F.C ⊕ F.E
  | .clean c _ => .inl c
  | .noisy e _ _ => .inr e

/-- relation.hh `sample_at_items` (clean_relation.hh:229, noisy_relation.hh:240). -/
def Rel.sampleAtItems {F : Family V} (σ : Doms) (b : Option (BaseView V)) (r : Rel F) (items : Items) (t : Tape) : Res (V × Rel F × Tape) :=
  match r with
  | .clean c r => do
    let (x, r, t) ← CleanRel.sampleAtItems σ r items t
    .ok (x, .clean c r, t)
  | .noisy e p r => do
    let b ← derefR b
    let (x, t) ← NoisyRel.sampleAtItems σ b r items t
    .ok (x, .noisy e p r, t)

/-- util_io.cc:327 `std::variant<IRM*, HIRM*> h_irm`, as far as `incorporate_observations` uses it. -/
structure Host (F : Family V) (M : Type) where
  schema : M → Schema F
  baseToNoisy : M → FMap String (List String)
  /-- `get_relation` -/
  get : M → String → Res (Rel F)
  /-- `incorporate` -/
  incorporate : M → String → Items → V → Tape → Res (M × Tape)
  /-- `sample_at_items` of the relation -/
  sampleAt : M → String → Items → Tape → Res (V × M × Tape)
  /-- what base pointers show -/
  env : M → Env V

/-- irm.cc:402-404 `get_relation` and clean_relation.hh:229, noisy_relation.hh:240 `sample_at_items`. -/
def IRM.sampleAt {F : Family V} (I : IRM F) (r : String) (items : Items) (t : Tape) : Res (V × IRM F × Tape) := do
  let (id, rel) ← I.rels.atKey r
  let (x, rel, t) ← rel.sampleAtItems I.doms (IRM.baseOf I.env rel) items t
  .ok (x, { I with rels := I.rels.set r (id, rel) }, t)

/-- hirm.cc:64-67 `get_relation` and clean_relation.hh:229, noisy_relation.hh:240 `sample_at_items`. -/
def HIRM.sampleAt {F : Family V} (H : HIRM F) (r : String) (items : Items) (t : Tape) : Res (V × HIRM F × Tape) := do
  let (tb, I) ← H.relationToIrm r
  let (id, rel) ← I.rels.atKey r
  let (x, rel, t) ← rel.sampleAtItems I.doms (IRM.baseOf H.env rel) items t
  .ok (x, { H with irms := H.irms.set tb { I with rels := I.rels.set r (id, rel) } }, t)

/-- An `IRM*`: irm.hh:21-31, irm.cc:49-58, 402-404. -/
def IRM.host (F : Family V) : Host F (IRM F) where
  schema I := I.schema
  baseToNoisy I := I.baseToNoisy
  get I r := do
    let (_, rel) ← I.rels.atKey r
    .ok rel
  incorporate I r items v t := IRM.incorporate I.env I r items v t
  sampleAt I r items t := I.sampleAt r items t
  env I := I.env

/-- An `HIRM*`: hirm.hh:17-28, hirm.cc:42-46, 64-67. -/
def HIRM.host (F : Family V) : Host F (HIRM F) where
  schema H := H.schema
  baseToNoisy H := H.baseToNoisy
  get H r := do
    let (_, rel) ← H.getRelation r
    .ok rel
  incorporate H r items v t := H.incorporate r items v t
  sampleAt H r items t := H.sampleAt r items t
  env H := H.env

namespace UtilIO
variable {F : Family V} {M : Type}

/-- util_io.cc:347-350: the base items of the listed items are added to the items of the base. -/
def collectBase (b : BaseView V) (base : String) : List Items → FMap String (FSet Items) → Res (FMap String (FSet Items))
  | [], m => .ok m
  | items :: l, m => do
    let bi ← NoisyRel.baseItems b items
    collectBase b base l (m.set base (FSet.insert ((m.find? base).getD ∅) bi))

/-- util_io.cc:361-365: incorporate the observations of a relation.  `parse` is `Relation::from_string` (relation.hh:127-132, relation.cc:4-6). -/
def feed (X : Host F M) (parse : F.C ⊕ F.E → String → Res V) (r : String) (kind : F.C ⊕ F.E) :
    List (Items × String) → M → Tape → Res (M × Tape)
  | [], m, t => .ok (m, t)
  | (items, s) :: l, m, t => do
    let v ← parse kind s
    let (m, t) ← X.incorporate m r items v t
    feed X parse r kind l m t

/-- util_io.cc:370-386: sample a value for each of the items, and incorporate it if there is none. -/
def sampleMissing (X : Host F M) (r : String) : List Items → M → Tape → Res (M × Tape)
  | [], m, t => .ok (m, t)
  | items :: l, m, t => do
    let (v, m, t) ← X.sampleAt m r items t
    let rel ← X.get m r
    if rel.data.contains items then sampleMissing X r l m t
    else
      let (m, t) ← X.incorporate m r items v t
      sampleMissing X r l m t

/-- The variables that `incorporate_observations_relation` changes (util_io.cc:325-332). -/
structure IncState (M : Type) where
  m : M
  items : FMap String (FSet Items) := ∅
  completed : FSet String := ∅

/-- util_io.cc:341-353: note the base items of the items of a noisy relation.  Casting a relation that is not noisy, and
following a dangling base pointer, are undefined behaviour. -/
def noteBase (X : Host F M) (r base : String) (rel : Rel F) (s : IncState M) (t : Tape) : Res (IncState M × Tape) := do
  let is ← s.items.atKey r
  let (l, t) := shuffle is.keys t
  let b ← derefR (IRM.baseOf (X.env s.m) rel)
  let items ← collectBase b base l s.items
  .ok ({ s with items := items }, t)

/-- util_io.cc:358-387: incorporate what belongs to the relation itself. -/
def incOwn (X : Host F M) (parse : F.C ⊕ F.E → String → Res V) (obs : ObsMap Int) (r : String) (rel : Rel F) (s : IncState M) (t : Tape) :
    Res (IncState M × Tape) := do
  match obs.find? r with
  | some l => do
    let (m, t) ← feed X parse r rel.tag l s.m t
    .ok ({ s with m := m, completed := FSet.insert s.completed r }, t)
  | none => do
    let is ← s.items.atKey r
    let (l, t) := shuffle is.keys t
    let (m, t) ← sampleMissing X r l s.m t
    .ok ({ s with m := m, completed := FSet.insert s.completed r }, t)

/-- util_io.cc:325-389 `incorporate_observations_relation`.  `fuel` bounds the depth of the recursion; a chain of bases with more links
than `noisy_to_base` has entries never ends, which is undefined behaviour. -/
def incRelation (X : Host F M) (parse : F.C ⊕ F.E → String → Res V) (obs : ObsMap Int) (noisyToBase : FMap String String) :
    Nat → String → IncState M → Tape → Res (IncState M × Tape)
  | 0, _, _, _ => .error .ub
  | fuel + 1, r, s, t => do
    let rel ← X.get s.m r
    match noisyToBase.find? r with
    | none => incOwn X parse obs r rel s t
    | some base => do
      let (s, t) ← if obs.contains base then .ok (s, t) else noteBase X r base rel s t
      let (s, t) ← incRelation X parse obs noisyToBase fuel base s t
      incOwn X parse obs r rel s t

/-- util_io.cc:402-414: the noisy relations of a base. -/
def linkNoisy (all : FMap String (List String)) (obs : ObsMap String) (base : String) : List String → FMap String String → Res (FMap String String)
  | [], m => .ok m
  | n :: ns, m => if !all.contains n && !obs.contains n then .error .exit else linkNoisy all obs base ns (m.set n base)

/-- util_io.cc:401-415: `noisy_to_base`. -/
def linkBases (all : FMap String (List String)) (obs : ObsMap String) : List (String × List String) → FMap String String → Res (FMap String String)
  | [], m => .ok m
  | (base, ns) :: l, m => do
    let m ← linkNoisy all obs base ns m
    linkBases all obs l m

/-- util_io.cc:420-422: the items of the observations of a relation. -/
def itemsOf (r : String) : List (Items × String) → FMap String (FSet Items) → FMap String (FSet Items)
  | [], m => m
  | (items, _) :: l, m => itemsOf r l (m.set r (FSet.insert ((m.find? r).getD ∅) items))

/-- util_io.cc:417-423: the items of all observations. -/
def allItems : List (String × List (Items × String)) → FMap String (FSet Items) → FMap String (FSet Items)
  | [], m => m
  | (r, l) :: rest, m => allItems rest (itemsOf r l m)

/-- util_io.cc:426-432: the observed relations. -/
def incLoop (X : Host F M) (parse : F.C ⊕ F.E → String → Res V) (obs : ObsMap Int) (noisyToBase : FMap String String) :
    List String → IncState M → Tape → Res (IncState M × Tape)
  | [], s, t => .ok (s, t)
  | r :: l, s, t => do
    if s.completed.contains r then incLoop X parse obs noisyToBase l s t
    else
      let (s, t) ← incRelation X parse obs noisyToBase (noisyToBase.size + 1) r s t
      incLoop X parse obs noisyToBase l s t

/-- util_io.cc:391-433 `incorporate_observations`.  The unordered containers are visited in the orders that the tape chooses. -/
def incorporateObservations (X : Host F M) (parse : F.C ⊕ F.E → String → Res V) (m : M) (enc : Encoding) (obs : ObsMap String) (t : Tape) :
    Res (M × Tape) := do
  let (e, t) ← encodeObservations (X.schema m) obs enc t
  let (bases, t) := shuffle (X.baseToNoisy m).entries t
  let n2b ← linkBases (X.baseToNoisy m) obs bases ∅
  let (order, t) := shuffle e.keys t
  let (s, t) ← incLoop X parse e n2b order { m := m, items := allItems e.entries ∅ } t
  .ok (s.m, t)

/-- util_io.cc:740-744: the observations of a relation. -/
def logpOne (parse : F.C ⊕ F.E → String → Res V) (r : String) (kind : F.C ⊕ F.E) : List (Items × String) → Res (List (String × Items × V))
  | [] => .ok []
  | (items, s) :: l => do
    let v ← parse kind s
    let rest ← logpOne parse r kind l
    .ok ((r, items, v) :: rest)

/-- util_io.cc:736-745: the observations of all relations. -/
def logpObs (X : Host F M) (parse : F.C ⊕ F.E → String → Res V) (m : M) : List (String × List (Items × String)) → Res (List (String × Items × V))
  | [] => .ok []
  | (r, l) :: rest => do
    let rel ← X.get m r
    let here ← logpOne parse r rel.tag l
    let there ← logpObs X parse m rest
    .ok (here ++ there)

/-- util_io.cc:732-748 `logp`, up to the call of `IRM::logp` or `HIRM::logp`: the observations that are passed to it. -/
def logpArgs (X : Host F M) (parse : F.C ⊕ F.E → String → Res V) (m : M) (enc : Encoding) (obs : ObsMap String) (t : Tape) :
    Res (List (String × Items × V) × Tape) := do
  let (e, t) ← encodeObservations (X.schema m) obs enc t
  let (l, t) := shuffle e.entries t
  let l ← logpObs X parse m l
  .ok (l, t)

/-! ### from_txt -/

/-- util_io.cc:655-658: put the items of a cluster there (domain.hh:21-32). -/
def seatItems (fwd : FMap String (FMap String Int)) (d : String) (table : Int) : List String → Doms → Tape → Res (Doms × Tape)
  | [], σ, t => .ok (σ, t)
  | item :: l, σ, t => do
    let m ← fwd.atKey d
    let c ← m.atKey item
    let dom ← σ.atKey d
    let (dom, t) ← dom.incorporate c t table
    seatItems fwd d table l (σ.set d dom) t

/-- util_io.cc:653-660: the clusters of a domain. -/
def seatTables (fwd : FMap String (FMap String Int)) (d : String) : List (Int × List String) → Doms → Tape → Res (Doms × Tape)
  | [], σ, t => .ok (σ, t)
  | (table, items) :: l, σ, t => do
    assertR (decide (0 ≤ table))
    let (σ, t) ← seatItems fwd d table items σ t
    seatTables fwd d l σ t

/-- util_io.cc:651-662 and 700-710: the clusters of the domains. -/
def seatClusters (fwd : FMap String (FMap String Int)) : List (String × FMap Int (List String)) → Doms → Tape → Res (Doms × Tape)
  | [], σ, t => .ok (σ, t)
  | (d, tables) :: l, σ, t => do
    let dom ← σ.atKey d
    assertR (dom.items.size == 0)
    let (σ, t) ← seatTables fwd d tables.entries σ t
    seatClusters fwd l σ t

/-- util_io.cc:636-666 `from_txt(IRM)`, after the files have been read (`load_schema`, `load_observations` and `load_clusters_irm`) and for an
IRM without relations. -/
def irmFromTxt (parse : F.C ⊕ F.E → String → Res V) (schema : Schema F) (obs : ObsMap String) (clusters : Clusters) (t : Tape) : Res (IRM F × Tape) := do
  let (enc, t) ← calculateEncoding schema obs t
  let I ← IRM.addAll schema.entries 0 {}
  let (σ, t) ← seatClusters enc.fwd clusters.entries I.doms t
  incorporateObservations (IRM.host F) parse { I with doms := σ } enc obs t

/-- util_io.cc:681-685: add the relations, each at the table -1. -/
def addAside : List (String × RelSpec F) → HIRM F → Tape → Res (HIRM F × Tape)
  | [], H, t => .ok (H, t)
  | (r, spec) :: l, H, t => do
    let (H, t) ← H.addRelation r spec t
    assertR (H.irms.size == H.crp.tables.size)
    let (H, t) ← H.setClusterAssignmentGibbs r (-1) t
    addAside l H t

/-- util_io.cc:690-697: move the relations of a cluster to its table. -/
def moveAll (table : Int) : List String → HIRM F → Tape → Res (HIRM F × Tape)
  | [], H, t => .ok (H, t)
  | r :: l, H, t => do
    assertR (H.irms.size == H.crp.tables.size)
    let cur ← H.relationToTable r
    if cur ≠ table then
      assertR (H.irms.size == H.crp.tables.size)
      let (H, t) ← H.setClusterAssignmentGibbs r table t
      moveAll table l H t
    else moveAll table l H t

/-- util_io.cc:687-711: the relation clusters. -/
def seatIrms (fwd : FMap String (FMap String Int)) (irms : FMap Int Clusters) : List (Int × List String) → HIRM F → Tape → Res (HIRM F × Tape)
  | [], H, t => .ok (H, t)
  | (table, rs) :: l, H, t => do
    assertR (H.irms.size == H.crp.tables.size)
    let (H, t) ← moveAll table rs H t
    let I ← H.irms.atKey table
    let cl ← irms.atKey table
    assertR (I.rels.size == rs.length)
    let (σ, t) ← seatClusters fwd cl.entries I.doms t
    seatIrms fwd irms l { H with irms := H.irms.set table { I with doms := σ } } t

/-- util_io.cc:668-717 `from_txt(HIRM)`, after the files have been read and for an HIRM without relations. -/
def hirmFromTxt (parse : F.C ⊕ F.E → String → Res V) (schema : Schema F) (obs : ObsMap String) (relations : FMap Int (List String))
    (irms : FMap Int Clusters) (t : Tape) : Res (HIRM F × Tape) := do
  let (enc, t) ← calculateEncoding schema obs t
  let (H, t) ← addAside schema.entries {} t
  let (H, t) ← seatIrms enc.fwd irms relations.entries H t
  assertR (!H.irms.contains (-1))
  incorporateObservations (HIRM.host F) parse H enc obs t

end UtilIO
end
end Verif
