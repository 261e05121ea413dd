import Verif.Model.GenDB
/-!
Model of the transitions of references in `class GenDB` (`/repo/cxx/gendb.cc`, lines 286-883), of `sample_from_logps` (`/repo/cxx/util_math.cc`) and of
`inference_gendb` (`/repo/cxx/inference.cc`).
-/
namespace Verif
noncomputable section
variable {V : Type} {F : Family V}

/-- util_math.cc:101-110 `sample_from_logps`: the index of any element that is not minus infinity, depending on the generator.  If all elements are minus
infinity, the weights are not numbers, which `std::discrete_distribution` does not allow; the maximum of no elements is read past their end. -/
def sampleFromLogps (l : List (WithBot ℝ)) (t : Tape) : Res (Nat × Tape) :=
  let ks := (List.range l.length).filter (fun k => ((l[k]?).getD ⊥).isSome)
  if ks = [] then .error .ub
  else
    let (k, t) := draw ks.length t
    .ok (ks.getD k 0, t)

namespace Rel

/-- relation.hh:109-110 `get_data_r` (clean_relation.hh:507, noisy_relation.hh:166). -/
def dataR : Rel F → RevIndex
  | .clean _ r => r.dataR
  | .noisy _ _ r => r.emission.dataR

/-- relation.hh:100 `get_value` (clean_relation.hh:489, noisy_relation.hh:154). -/
def getValue (r : Rel F) (items : Items) : Res V :=
  match r with
  | .clean _ r => r.getValue items
  | .noisy _ _ r => r.getValue items

/-- relation.hh:66 `cleanup_data` (clean_relation.hh:121, noisy_relation.hh:104). -/
def cleanupData (b : Option (BaseView V)) (r : Rel F) (items : Items) : Res (Rel F) :=
  match r with
  | .clean c r => do
    let r ← r.cleanupData items
    .ok (.clean c r)
  | .noisy e p r => do
    let b ← derefR b
    let r ← r.cleanupData b items
    .ok (.noisy e p r)

end Rel

namespace CleanRel
variable {D : DistOps V}

/-- clean_relation.hh:211-219 `cluster_or_prior_logp_from_items` without a generator: if there is no cluster, an assertion fails. -/
def clusterLogpFromItems (σ : Doms) (r : CleanRel D) (items : Items) (value : V) : Res (ℝ × CleanRel D) := do
  if ← clustersContains σ r items then do
    let z ← clusterOf σ r items
    let c ← r.clusters.atKey z
    let (lp, c) ← D.logp c value
    .ok (lp, { r with clusters := r.clusters.set z c })
  else .error .assert

end CleanRel

namespace NoisyRel
variable {E : DistOps (V × V)}

/-- noisy_relation.hh:219-238 `cluster_or_prior_logp_from_items` without a generator; minus infinity if the base value is unknown. -/
def clusterLogpFromItems (σ : Doms) (b : BaseView V) (r : NoisyRel E) (items : Items) (value : V) : Res (WithBot ℝ × NoisyRel E) := do
  let bi ← baseItems b items
  match b.data.find? bi with
  | none => .ok (⊥, r)
  | some bv => do
    let (lp, em) ← CleanRel.clusterLogpFromItems σ r.emission items (bv, value)
    .ok ((lp : WithBot ℝ), { r with emission := em })

end NoisyRel

namespace Rel

/-- relation.hh:52-53 `cluster_or_prior_logp_from_items` without a generator. -/
def clusterLogpFromItems (σ : Doms) (b : Option (BaseView V)) (r : Rel F) (items : Items) (value : V) : Res (WithBot ℝ × Rel F) :=
  match r with
  | .clean c r => do
    let (lp, r) ← r.clusterLogpFromItems σ items value
    .ok ((lp : WithBot ℝ), .clean c r)
  | .noisy e p r => do
    let b ← derefR b
    let (lp, r) ← r.clusterLogpFromItems σ b items value
    .ok (lp, .noisy e p r)

/-- gendb.cc:381-388, 595-602: the value and its log probability after it has been taken out, and the relation without it. -/
def takeOut (σ : Doms) (b : Option (BaseView V)) (r : Rel F) (items : Items) : Res (WithBot ℝ × V × Rel F) := do
  let v ← r.getValue items
  let r ← r.unincorporateFromCluster σ items
  let (lp, r) ← r.clusterLogpFromItems σ b items v
  let r ← r.cleanupData b items
  .ok (lp, v, r)

end Rel

namespace HIRM

/-- gendb.cc:381-388, 595-602: `Rel.takeOut` on a relation of an HIRM. -/
def takeOut (H : HIRM F) (r : String) (items : Items) : Res (WithBot ℝ × V × HIRM F) := do
  let (tb, I) ← H.relationToIrm r
  let (id, rel) ← I.rels.atKey r
  let (lp, v, rel) ← rel.takeOut I.doms (IRM.baseOf H.env rel) items
  .ok (lp, v, { H with irms := H.irms.set tb { I with rels := I.rels.set r (id, rel) } })

/-- gendb.cc:394, 608: `get_base_items` of a noisy relation. -/
def baseItems (H : HIRM F) (r : String) (items : Items) : Res Items := do
  let (_, rel) ← H.getRelation r
  let b ← derefR (IRM.baseOf H.env rel)
  NoisyRel.baseItems b items

end HIRM

namespace GenDB
open PClean

/-- gendb.cc:318-319 `stored_value_map`: values that have been taken out of relations. -/
abbrev Stored (V : Type) := FMap String (FMap Items V)

/-- gendb.cc:320-321 `unincorporated_from_domains`: (IRM, class, entity) ↦ cluster. -/
abbrev DomOut := FMap (Int × String × Int) Int

/-- gendb.cc:537 `unincorporated`: (class, reference field, entity) ↦ referenced entity. -/
abbrev EntOut := FMap (String × String × Int) Int

/-- `stored_value_map[rel][items] = value` -/
def store (st : Stored V) (rel : String) (items : Items) (v : V) : Stored V := st.set rel (((st.find? rel).getD ∅).set items v)

/-- `reference_values.at(c).at({f, i}) = v` -/
def setRef (e : Ents) (c f : String) (i v : Int) : Res Ents := do
  let m ← e.refs.atKey c
  let _ ← m.atKey (f, i)
  .ok { e with refs := e.refs.set c (m.set (f, i) v) }

/-- gendb.cc:367-400 `unincorporate_reference_relation`: the log probability, the HIRM and the values taken out.  The first natural bounds the length of
the chain of base relations.  Simplification: the base relation is found by its name, as in the code. -/
def unincRel : Nat → HIRM F → String → Items → Nat → Stored V → Res (WithBot ℝ × HIRM F × Stored V)
  | 0, _, _, _, _, _ => .error .ub
  | n + 1, H, rel, items, ind, st => do
    let (_, r) ← H.getRelation rel
    if !r.data.contains items || decide (items.length ≤ ind) then .ok (0, H, st)
    else do
      let (lp, v, H) ← H.takeOut rel items
      let spec ← H.schema.atKey rel
      match spec with
      | .clean _ _ _ => .ok (lp, H, store st rel items v)
      | .noisy _ _ base _ => do
        let bi ← H.baseItems rel items
        let (lp', H, st) ← unincRel n H base bi ind (store st rel items v)
        .ok (lp + lp', H, st)

/-- gendb.cc:340-348: the loop over the tuples that contain the entity. -/
def unincItems (n : Nat) (rel : String) (ind : Nat) (i : Int) : List Items → HIRM F → Stored V → Res (WithBot ℝ × HIRM F × Stored V)
  | [], H, st => .ok (0, H, st)
  | items :: l, H, st => do
    let j ← idxR items ind
    if j = i then do
      let (lp, H, st) ← unincRel n H rel items ind st
      let (lp', H, st) ← unincItems n rel ind i l H st
      .ok (lp + lp', H, st)
    else unincItems n rel ind i l H st

/-- gendb.cc:339-349: the loop over the positions of the class. -/
def unincInds (n : Nat) (rel : String) (i : Int) (l : List Items) : List Nat → HIRM F → Stored V → Res (WithBot ℝ × HIRM F × Stored V)
  | [], H, st => .ok (0, H, st)
  | ind :: inds, H, st => do
    let (lp, H, st) ← unincItems n rel ind i l H st
    let (lp', H, st) ← unincInds n rel i l inds H st
    .ok (lp + lp', H, st)

/-- gendb.cc:323-351: the loop over the relations.  The tuples of an entity are visited in any order. -/
def unincRels (n : Nat) (c : String) (i : Int) : List (String × List Nat) → HIRM F → Stored V → Tape → Res (WithBot ℝ × HIRM F × Stored V × Tape)
  | [], H, st, t => .ok (0, H, st, t)
  | (rel, inds) :: l, H, st, t => do
    let (_, r) ← H.getRelation rel
    let m ← r.dataR.atKey c
    match m.find? i with
    | none => unincRels n c i l H st t
    | some s => do
      let (lp, H, st) ← unincInds n rel i (shuffle s.keys t).1 inds H st
      let (lp', H, st, t) ← unincRels n c i l H st (shuffle s.keys t).2
      .ok (lp + lp', H, st, t)

/-- gendb.cc:513-520: the loop over the references of an entity; `rec` is the recursive call. -/
def dropRefs (rec : Int → Nat → HIRM F → DomOut → Res (WithBot ℝ × HIRM F × DomOut)) (e : Ents) (c : String) (i : Int) :
    List (String × Nat) → HIRM F → DomOut → Res (WithBot ℝ × HIRM F × DomOut)
  | [], H, out => .ok (0, H, out)
  | (f, j) :: l, H, out => do
    let v ← getRef e c f i
    let (lp, H, out) ← rec v j H out
    let (lp', H, out) ← dropRefs rec e c i l H out
    .ok (lp + lp', H, out)

/-- gendb.cc:503-507: the log probability of a cluster after an entity has left it. -/
def leftLogp (crp : CRP) (cluster : Int) : WithBot ℝ := if crp.tables.contains cluster then crp.logp cluster else ((crp.logpNewTable : ℝ) : WithBot ℝ)

/-- gendb.cc:481-522 `unincorporate_from_domain_cluster_relation`; the natural bounds the nesting of calls, see `uniqueItems`. -/
def dropEntity (relIdx : FMap String RefIdx) (e : Ents) (rel : String) : Nat → Int → Nat → HIRM F → DomOut → Res (WithBot ℝ × HIRM F × DomOut)
  | 0, _, _, _, _ => .error .ub
  | n + 1, item, ind, H, out => do
    let (code, I) ← H.relationToIrm rel
    let spec ← H.schema.atKey rel
    let c ← atR spec.doms ind
    let dom ← I.doms.atKey c
    if out.contains (code, c, item) then .ok (0, H, out)
    else do
      let has ← I.hasObservation c item
      if has || !dom.items.contains item then .ok (0, H, out)
      else do
        let cluster ← dom.crp.assignments.atKey item
        let dom ← dom.unincorporate item
        match refsAt relIdx rel ind with
        | none => .ok (leftLogp dom.crp cluster, { H with irms := H.irms.set code { I with doms := I.doms.set c dom } }, out.set (code, c, item) cluster)
        | some m => do
          let (lp, H, out) ← dropRefs (dropEntity relIdx e rel n) e c item m.entries
            { H with irms := H.irms.set code { I with doms := I.doms.set c dom } } (out.set (code, c, item) cluster)
          .ok (leftLogp dom.crp cluster + lp, H, out)

/-- gendb.cc:358-363: the loop over the positions of the class in a relation. -/
def dropInds (relIdx : FMap String RefIdx) (e : Ents) (f : String) (v : Int) (rel : String) : List Nat → HIRM F → DomOut → Res (WithBot ℝ × HIRM F × DomOut)
  | [], H, out => .ok (0, H, out)
  | ind :: inds, H, out => do
    let idx ← relIdx.atKey rel
    let m ← idx.atKey ind
    let j ← m.atKey f
    let spec ← H.schema.atKey rel
    let (lp, H, out) ← dropEntity relIdx e rel (spec.doms.length + 1) v j H out
    let (lp', H, out) ← dropInds relIdx e f v rel inds H out
    .ok (lp + lp', H, out)

/-- gendb.cc:357-364: the loop over the relations. -/
def dropRels (relIdx : FMap String RefIdx) (e : Ents) (f : String) (v : Int) : List (String × List Nat) → HIRM F → DomOut → Res (WithBot ℝ × HIRM F × DomOut)
  | [], H, out => .ok (0, H, out)
  | (rel, inds) :: l, H, out => do
    let (lp, H, out) ← dropInds relIdx e f v rel inds H out
    let (lp', H, out) ← dropRels relIdx e f v l H out
    .ok (lp + lp', H, out)

/-- gendb.cc:421-428: the loop over the stored tuples of a relation.  Simplification: they are visited in order; the order only matters if two tuples
become the same one. -/
def newItems (rels : Schema F) (relIdx : FMap String RefIdx) (e : Ents) (rel : String) : List (Items × V) → Stored V → Res (Stored V)
  | [], st => .ok st
  | (items, v) :: l, st => do
    let j ← DB.back items
    let items' ← relationItems rels relIdx rel e items.length (items.length - 1) j (List.replicate items.length 0)
    newItems rels relIdx e rel l (store st rel items' v)

/-- gendb.cc:420-429: the loop over the relations. -/
def newStored (rels : Schema F) (relIdx : FMap String RefIdx) (e : Ents) : List (String × FMap Items V) → Stored V → Res (Stored V)
  | [], st => .ok st
  | (rel, m) :: l, st => do
    let st ← newItems rels relIdx e rel m.entries st
    newStored rels relIdx e l st

/-- gendb.cc:408-433 `update_reference_items`. -/
def updateItems (rels : Schema F) (relIdx : FMap String RefIdx) (e : Ents) (c f : String) (i v : Int) (st : Stored V) : Res (Stored V) := do
  let e ← setRef e c f i v
  newStored rels relIdx e st.entries ∅

/-- gendb.cc:466-472: the loop over the stored values of a relation. -/
def putItems (rel : String) : List (Items × V) → HIRM F → Tape → Res (HIRM F × Tape)
  | [], H, t => .ok (H, t)
  | (items, v) :: l, H, t => do
    let (_, r) ← H.getRelation rel
    if r.data.contains items then putItems rel l H t
    else do
      let (H, t) ← H.incorporate rel items v t
      putItems rel l H t

/-- gendb.cc:458-465: first the base relation, if values of it are stored; `rec` is the recursive call. -/
def putBase (rec : String → HIRM F → Tape → Res (HIRM F × Tape)) (st : Stored V) (rel : String) (H : HIRM F) (t : Tape) : Res (HIRM F × Tape) := do
  let spec ← H.schema.atKey rel
  match spec with
  | .clean _ _ _ => .ok (H, t)
  | .noisy _ _ base _ => if st.contains base then rec base H t else .ok (H, t)

/-- gendb.cc:453-473 `incorporate_reference_relation`; the natural bounds the length of the chain of base relations.  Simplification: the base relation is
found by its name, not by the pointer of the noisy relation.  The stored values are visited in any order. -/
def putRel (st : Stored V) : Nat → String → HIRM F → Tape → Res (HIRM F × Tape)
  | 0, _, _, _ => .error .ub
  | n + 1, rel, H, t => do
    let (H, t) ← putBase (putRel st n) st rel H t
    let m ← st.atKey rel
    putItems rel (shuffle m.entries t).1 H (shuffle m.entries t).2

/-- gendb.cc:442-447: the loop over the relations. -/
def putRels (n : Nat) (st : Stored V) : List String → HIRM F → Tape → Res (HIRM F × Tape)
  | [], H, t => .ok (H, t)
  | rel :: l, H, t => do
    let (H, t) ← putRel st n rel H t
    putRels n st l H t

/-- gendb.cc:437-448 `incorporate_reference`. -/
def putStored (st : Stored V) (H : HIRM F) (t : Tape) : Res (HIRM F × Tape) := putRels (H.schema.size + 1) st st.keys H t

/-- gendb.cc:556-564: the loop over the variables of the referenced class; `rec` is the recursive call. -/
def clearVars (rec : String → String → Int → Ents → EntOut → Res (WithBot ℝ × Ents × EntOut)) (d : String) (j : Int) :
    List (String × Variable) → Ents → EntOut → Res (WithBot ℝ × Ents × EntOut)
  | [], e, out => .ok (0, e, out)
  | (f, v) :: vs, e, out =>
    match v.spec with
    | .scalar _ _ => clearVars rec d j vs e out
    | .cls _ => do
      let (lp, e, out) ← rec d f j e out
      let (lp', e, out) ← clearVars rec d j vs e out
      .ok (lp + lp', e, out)

/-- gendb.cc:547-550: take the reference out of the entity CRP, if it is that of an ancestor. -/
def clearOwn (hash : String → Int) (ancestor : Bool) (c f : String) (i : Int) (d : String) (j : Int) (e : Ents) (out : EntOut) : Res (CRP × Ents × EntOut) := do
  let crp ← e.crps.atKey d
  if ancestor then do
    let crp ← crp.unincorporate (refId hash c f i)
    .ok (crp, { e with crps := e.crps.set d crp }, out.set (c, f, i) j)
  else .ok (crp, e, out)

/-- gendb.cc:534-573 `unincorporate_from_entity_cluster`; the first natural bounds the nesting of calls, see `sampleAncestors`. -/
def clearRefs (s : PClean.Schema) (hash : String → Int) : Nat → Bool → String → String → Int → Ents → EntOut → Res (WithBot ℝ × Ents × EntOut)
  | 0, _, _, _, _, _, _ => .error .ub
  | n + 1, ancestor, c, f, i, e, out => do
    let j ← getRef e c f i
    let d ← refTarget s c f
    let (crp, e, out) ← clearOwn hash ancestor c f i d j e out
    if crp.tables.contains j then do
      let cl ← s.classes.atKey d
      let (lp, e, out) ← clearVars (clearRefs s hash n true) d j cl.vars.entries e out
      .ok ((if ancestor then crp.logp j else 0) + lp, e, out)
    else .ok (if ancestor then ((crp.logpNewTable : ℝ) : WithBot ℝ) else 0, e, out)

/-- gendb.cc:577-613 `unincorporate_reference_relation_singleton`; the natural bounds the length of the chain of base relations. -/
def unincSingle (crps : FMap String CRP) : Nat → HIRM F → String → Items → Stored V → Res (WithBot ℝ × HIRM F × Stored V)
  | 0, _, _, _, _ => .error .ub
  | n + 1, H, rel, items, st => do
    let (_, r) ← H.getRelation rel
    let spec ← H.schema.atKey rel
    if !r.data.contains items then .ok (0, H, st)
    else do
      let c ← DB.back spec.doms
      let crp ← crps.atKey c
      let j ← DB.back items
      if crp.tables.contains j then .ok (0, H, st)
      else do
        let (lp, v, H) ← H.takeOut rel items
        match spec with
        | .clean _ _ _ => .ok (lp, H, store st rel items v)
        | .noisy _ _ base _ => do
          let bi ← H.baseItems rel items
          let (lp', H, st) ← unincSingle crps n H base bi (store st rel items v)
          .ok (lp + lp', H, st)

namespace DB

/-- gendb.cc:297-303: the positions of the class in a relation; the indices of the relation are looked up only if the class is there. -/
def relInds (D : DB F) (c f rel : String) (ds : List String) : Res (List Nat) :=
  if ds.contains c then do
    let idx ← D.relIdx.atKey rel
    indsLoop idx c f ds 0
  else .ok []

/-- gendb.cc:292-305: the loop over the query fields. -/
def domainIndsLoop (D : DB F) (c f : String) : List String → FMap String (List Nat) → Res (FMap String (List Nat))
  | [], m => .ok m
  | rel :: l, m => do
    let spec ← D.H.schema.atKey rel
    let inds ← D.relInds c f rel spec.doms
    domainIndsLoop D c f l (if inds = [] then m else m.set rel inds)

/-- gendb.cc:289-307 `get_domain_inds`. -/
def domainInds (D : DB F) (c f : String) : Res (FMap String (List Nat)) := domainIndsLoop D c f D.schema.query.fields.keys ∅

/-- gendb.cc:312-363 `unincorporate_reference`. -/
def unincReference (D : DB F) (inds : FMap String (List Nat)) (c f : String) (i : Int) (st : Stored V) (out : DomOut) (t : Tape) :
    Res (WithBot ℝ × DB F × Stored V × DomOut × Tape) := do
  let (lp, H, st, t) ← unincRels (D.H.schema.size + 1) c i inds.entries D.H st t
  let v ← getRef D.ents c f i
  let (lp', H, out) ← dropRels D.relIdx D.ents f v inds.entries H out
  .ok (lp + lp', { D with H := H }, st, out, t)

/-- gendb.cc:644-647: the tuple of a relation for an entity of its class. -/
def itemsOf (D : DB F) (rel : String) (i : Int) : Res Items := do
  let spec ← D.H.schema.atKey rel
  relationItems D.H.schema D.relIdx rel D.ents spec.doms.length (spec.doms.length - 1) i (List.replicate spec.doms.length 0)

/-- gendb.cc:634-646: the first loop over the relations of the class. -/
def singleRels (i : Int) : List String → DB F → Stored V → Res (WithBot ℝ × DB F × Stored V)
  | [], D, st => .ok (0, D, st)
  | rel :: l, D, st => do
    let items ← D.itemsOf rel i
    let (lp, H, st) ← unincSingle D.ents.crps (D.H.schema.size + 1) D.H rel items st
    let (lp', D, st) ← singleRels i l { D with H := H } st
    .ok (lp + lp', D, st)

/-- gendb.cc:647-655: the second loop over the relations of the class. -/
def singleDoms (i : Int) : List String → DB F → DomOut → Res (WithBot ℝ × DB F × DomOut)
  | [], D, out => .ok (0, D, out)
  | rel :: l, D, out => do
    let items ← D.itemsOf rel i
    let j ← back items
    let (lp, H, out) ← dropEntity D.relIdx D.ents rel (items.length + 1) j (items.length - 1) D.H out
    let (lp', D, out) ← singleDoms i l { D with H := H } out
    .ok (lp + lp', D, out)

/-- gendb.cc:619-658 `unincorporate_singleton`. -/
def unincSingleton (D : DB F) (c f : String) (i : Int) (d : String) (st : Stored V) (out : DomOut) (ent : EntOut) :
    Res (WithBot ℝ × DB F × Stored V × DomOut × EntOut) := do
  let v ← getRef D.ents c f i
  let (lp₁, e, ent) ← clearRefs D.schema D.hash (depth D.schema) false c f i D.ents ent
  let D := { D with ents := e }
  let rels ← D.classRels.atKey d
  let (lp₂, D, st) ← singleRels v rels D st
  let (lp₃, D, out) ← singleDoms v rels D out
  .ok (lp₁ + lp₂ + lp₃, D, st, out, ent)

/-- gendb.cc:754-765: the loop over the relations of the class of a new entity. -/
def seatRels (i : Int) : List String → DB F → Tape → Res (DB F × Tape)
  | [], D, t => .ok (D, t)
  | rel :: l, D, t => do
    let items ← D.itemsOf rel i
    let (D, t) ← D.ensureValue rel items t
    seatRels i l D t

/-- gendb.cc:744-766: make a row for a new entity. -/
def seatNew (D : DB F) (d : String) (i : Int) (t : Tape) : Res (DB F × Tape) := do
  let (_, e, t) ← sampleAncestors D.schema D.hash (depth D.schema) d i D.ents t
  let rels ← D.classRels.atKey d
  seatRels i rels { D with ents := e } t

/-- The local variables of `transition_reference` that the loop over the candidates changes (gendb.cc:688-719). -/
structure Move (F : Family V) where
  D : DB F
  logps : List (WithBot ℝ) := []
  outs : FMap Int DomOut := ∅
  single : Stored V := ∅
  ent : EntOut := ∅

/-- What the loop over the candidates reads (gendb.cc:660-719). -/
structure MoveArgs (V : Type) where
  c : String
  f : String
  i : Int
  d : String
  init : Int
  single : Int
  cur : WithBot ℝ
  inds : FMap String (List Nat)
  stored : Stored V

/-- gendb.cc:741-766: make a row for the candidate if it is a new entity. -/
def seatIf (a : MoveArgs V) (table : Int) (D : DB F) (t : Tape) : Res (DB F × Tape) := if table = a.single then D.seatNew a.d table t else .ok (D, t)

/-- gendb.cc:788-795: remove the row of the candidate if it is a new entity. -/
def clearIf (a : MoveArgs V) (table : Int) (D : DB F) (m : Move F) (out : DomOut) : Res (WithBot ℝ × DB F × Stored V × DomOut × EntOut) :=
  if table = a.single then D.unincSingleton a.c a.f a.i a.d m.single out m.ent else .ok (0, D, m.single, out, m.ent)

/-- gendb.cc:724-798: a candidate that is not the present value. -/
def tryTable (a : MoveArgs V) (table : Int) (w : ℝ) (D : DB F) (m : Move F) (t : Tape) : Res (Move F × Tape) := do
  let (D, t) ← seatIf a table D t
  let st ← updateItems D.H.schema D.relIdx D.ents a.c a.f a.i table a.stored
  let (H, t) ← putStored st D.H t
  let (lp, D, _, out, t) ← { D with H := H }.unincReference a.inds a.c a.f a.i st ((m.outs.find? table).getD ∅) t
  let (lp', D, single, out, ent) ← clearIf a table D m out
  .ok ({ D := D, logps := m.logps ++ [((Real.log w : ℝ) : WithBot ℝ) + lp + lp'], outs := m.outs.set table out, single := single, ent := ent }, t)

/-- gendb.cc:729-798: a candidate. -/
def oneTable (a : MoveArgs V) (table : Int) (w : ℝ) (D : DB F) (m : Move F) (t : Tape) : Res (Move F × Tape) :=
  if table = a.init then .ok ({ m with D := D, logps := m.logps ++ [((Real.log w : ℝ) : WithBot ℝ) + a.cur] }, t) else tryTable a table w D m t

/-- gendb.cc:721-798: the loop over the candidates. -/
def candidates (a : MoveArgs V) : List (Int × ℝ) → Move F → Tape → Res (Move F × Tape)
  | [], m, t => .ok (m, t)
  | (table, w) :: l, m, t => do
    let e ← setRef m.D.ents a.c a.f a.i table
    let (m, t) ← oneTable a table w { m.D with ents := e } m t
    candidates a l m t

/-- gendb.cc:829-836: the entities go back to their clusters. -/
def rejoin : List ((Int × String × Int) × Int) → HIRM F → Tape → Res (HIRM F × Tape)
  | [], H, t => .ok (H, t)
  | ((code, c, item), cluster) :: l, H, t => do
    let I ← H.irms.atKey code
    let dom ← I.doms.atKey c
    if dom.items.contains item then rejoin l H t
    else do
      let (dom, t) ← dom.incorporate item t cluster
      rejoin l { H with irms := H.irms.set code { I with doms := I.doms.set c dom } } t

/-- gendb.cc:846-853: the references of a new entity go back to the entity CRPs. -/
def reseat (s : PClean.Schema) (hash : String → Int) : List ((String × String × Int) × Int) → Ents → Res Ents
  | [], e => .ok e
  | ((c, f, i), v) :: l, e => do
    let d ← refTarget s c f
    let crp ← e.crps.atKey d
    let crp ← crp.incorporate (refId hash c f i) v
    reseat s hash l { e with crps := e.crps.set d crp }

/-- gendb.cc:855-859: the references of an entity that is gone are erased. -/
def eraseRefs : List ((String × String × Int) × Int) → Ents → Res Ents
  | [], e => .ok e
  | ((c, f, i), _) :: l, e => do
    let m ← e.refs.atKey c
    eraseRefs l { e with refs := e.refs.set c (m.erase (f, i)) }

/-- gendb.cc:842-860: the references of a new entity. -/
def settleNew (s : PClean.Schema) (hash : String → Int) (crp : CRP) (v : Int) (ent : EntOut) (e : Ents) : Res Ents :=
  if !crp.tables.contains v then reseat s hash ent.entries e else eraseRefs ent.entries e

/-- gendb.cc:838-862: the entity CRPs and the references of the chosen candidate. -/
def settleEnts (s : PClean.Schema) (hash : String → Int) (c f : String) (i v : Int) (d : String) (ent : EntOut) (e : Ents) : Res Ents := do
  let e ← setRef e c f i v
  let crp ← e.crps.atKey d
  let e ← settleNew s hash crp v ent e
  let crp ← e.crps.atKey d
  let crp ← crp.incorporate (refId hash c f i) v
  .ok { e with crps := e.crps.set d crp }

/-- gendb.cc:813-867 `reincorporate_new_refval`.  The generator of the code is a local one; here it is any. -/
def reincorporate (D : DB F) (c f : String) (i v : Int) (d : String) (st : Stored V) (out : DomOut) (ent : EntOut) (t : Tape) : Res (DB F × Tape) := do
  let (H, t) ← rejoin out.entries D.H t
  let e ← settleEnts D.schema D.hash c f i v d ent D.ents
  let (H, t) ← putStored st H t
  let H ← H.cleanupRelationClusters
  .ok ({ D with H := H, ents := e }, t)

/-- gendb.cc:697-703: the candidate that is not a table of the entity CRP, or else the present value. -/
def singleOf (crp : CRP) (init : Int) (ks : List Int) : Int := ks.foldl (fun s k => if crp.tables.contains k then s else k) init

/-- `std::map::merge` -/
def mergeStored (st st' : Stored V) : Stored V := st'.entries.foldl (fun m e => if m.contains e.1 then m else m.set e.1 e.2) st

/-- gendb.cc:705-719: take the reference out of its entity CRP and, if it was the only one, the row of the entity. -/
def leave (D : DB F) (c f : String) (i : Int) (d : String) (init single : Int) (out : DomOut) : Res (WithBot ℝ × Move F) := do
  let crp ← D.ents.crps.atKey d
  let crp ← crp.unincorporate (refId D.hash c f i)
  let D := { D with ents := { D.ents with crps := D.ents.crps.set d crp } }
  if single = init then do
    let (lp, D, st, out, ent) ← D.unincSingleton c f i d ∅ out ∅
    .ok (lp, { D := D, outs := (∅ : FMap Int DomOut).set init out, single := st, ent := ent })
  else .ok (0, { D := D, outs := (∅ : FMap Int DomOut).set init out })

/-- gendb.cc:800-810: sample a candidate and move the reference there. -/
def finish (a : MoveArgs V) (ks : List Int) (m : Move F) (t : Tape) : Res (DB F × Tape) := do
  let (k, t) ← sampleFromLogps m.logps t
  let v ← atR ks k
  let st ← updateItems m.D.H.schema m.D.relIdx m.D.ents a.c a.f a.i v a.stored
  let out ← m.outs.atKey v
  m.D.reincorporate a.c a.f a.i v a.d (if a.single = v then mergeStored st m.single else st) out m.ent t

/-- gendb.cc:676-810: the transition if there is more than one candidate. -/
def moveRef (D : DB F) (c f : String) (i : Int) (d : String) (init : Int) (crp : CRP) (w : FMap Int ℝ) (t : Tape) : Res (DB F × Tape) := do
  let inds ← D.domainInds c f
  let (cur, D, stored, out, t) ← D.unincReference inds c f i ∅ ∅ t
  let single := singleOf crp init w.keys
  let (cur', m) ← D.leave c f i d init single out
  let a : MoveArgs V := { c := c, f := f, i := i, d := d, init := init, single := single, cur := cur + cur', inds := inds, stored := stored }
  let (m, t) ← candidates a w.entries m t
  finish a w.keys m t

/-- gendb.cc:660-811 `transition_reference`. -/
def transitionReference (D : DB F) (c f : String) (i : Int) (t : Tape) : Res (DB F × Tape) := do
  let d ← refTarget D.schema c f
  let init ← getRef D.ents c f i
  let crp ← D.ents.crps.atKey d
  let w ← crp.tablesWeightsGibbs init
  if w.size = 1 then .ok (D, t) else D.moveRef c f i d init crp w t

/-- gendb.cc:879-882: the loop over the references of a class. -/
def transitionRefs (c : String) : List (String × Int) → DB F → Tape → Res (DB F × Tape)
  | [], D, t => .ok (D, t)
  | (f, i) :: l, D, t => do
    let (D, t) ← D.transitionReference c f i t
    transitionRefs c l D t

/-- gendb.cc:873-877: the loop over the variables of a class; `rec` is the recursive call. -/
def transitionVars (rec : String → DB F → Tape → Res (DB F × Tape)) : List (String × Variable) → DB F → Tape → Res (DB F × Tape)
  | [], D, t => .ok (D, t)
  | (_, v) :: vs, D, t =>
    match v.spec with
    | .scalar _ _ => transitionVars rec vs D t
    | .cls d => do
      let (D, t) ← rec d D t
      transitionVars rec vs D t

/-- gendb.cc:869-883 `transition_reference_class_and_ancestors`; the natural bounds the nesting of calls, see `sampleAncestors`.  Simplification: the
references of the class are listed before the first transition; a transition adds references only to classes that the class refers to. -/
def transitionClass : Nat → String → DB F → Tape → Res (DB F × Tape)
  | 0, _, _, _ => .error .ub
  | n + 1, c, D, t => do
    let cl ← D.schema.classes.atKey c
    let (D, t) ← transitionVars (transitionClass n) cl.vars.entries D t
    let m ← D.ents.refs.atKey c
    transitionRefs c m.keys D t

/-- inference.cc:77-89: one iteration of `inference_gendb`, without the clock and the printing of scores. -/
def inferenceStep (k : Nat) (D : DB F) (t : Tape) : Res (DB F × Tape) := do
  let (H, t) ← HIRM.inference k D.H t
  let D := { D with H := H }
  transitionClass (depth D.schema) D.schema.query.recordClass D t

/-- inference.cc:73-90 `inference_gendb`; the time limit is left out. -/
def inference (k : Nat) : Nat → DB F → Tape → Res (DB F × Tape)
  | 0, D, t => .ok (D, t)
  | n + 1, D, t => do
    let (D, t) ← D.inferenceStep k t
    inference k n D t

end DB
end GenDB
end
end Verif
