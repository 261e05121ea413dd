import Verif.Model.GenDBSchema
import Verif.Model.HIRM
/-!
Model of `class GenDB` (`/repo/cxx/gendb.hh`, `/repo/cxx/gendb.cc`, lines 18-307): the entities, the references between them and the incorporation of rows.
-/
namespace Verif
namespace GenDB
open PClean
noncomputable section
variable {V : Type} {F : Family V}

/-- gendb.hh:206-207 `reference_values`: class ↦ ((reference field, entity of the class) ↦ entity of the referenced class). -/
abbrev RefVals := FMap String (FMap (String × Int) Int)

/-- gendb.hh:206-215 `reference_values` and `entity_crps`. -/
structure Ents where
  refs : RefVals
  crps : FMap String CRP

/-- gendb.hh:202-237 `class GenDB`.  `hash` is `std::hash<std::string>`, converted to `int`; it is an arbitrary function here. -/
structure DB (F : Family V) where
  schema : PClean.Schema
  hash : String → Int
  relIdx : FMap String RefIdx
  classRels : FMap String (List String)
  H : HIRM F
  ents : Ents

/-- gendb.cc:149-156 `get_reference_id`. -/
def refId (hash : String → Int) (c f : String) (i : Int) : Int := hash (c ++ " " ++ toString i ++ " " ++ f)

/-- `reference_values.at(c).at({f, i})` -/
def getRef (e : Ents) (c f : String) (i : Int) : Res Int := do
  let m ← e.refs.atKey c
  m.atKey (f, i)

/-- gendb.cc:96-98 and 169-170: `reference_values.at(c)[{f, i}] = v` and the reference becomes a customer of the table `v` of the entity CRP of `d`. -/
def addRef (hash : String → Int) (c f : String) (i : Int) (d : String) (v : Int) (e : Ents) : Res Ents := do
  let m ← e.refs.atKey c
  let crp ← e.crps.atKey d
  let crp ← crp.incorporate (refId hash c f i) v
  .ok ⟨e.refs.set c (m.set (f, i) v), e.crps.set d crp⟩

/-- `items[ind] = i` -/
def setItem (items : Items) (ind : Nat) (i : Int) : Res Items := if ind < items.length then .ok (items.set ind i) else .error .ub

/-- gendb.cc:88-90, 275-277: the reference indices of a relation at a position, if there are any. -/
def refsAt (relIdx : FMap String RefIdx) (rel : String) (ind : Nat) : Option (FMap String Nat) := (relIdx.find? rel).bind (·.find? ind)

/-- gendb.cc:91-99: unless there is one, make a reference to a new entity. -/
def ensureUnique (hash : String → Int) (ds : List String) (c f : String) (i : Int) (j : Nat) (e : Ents) : Res Ents := do
  let m ← e.refs.atKey c
  if m.contains (f, i) then .ok e
  else do
    let d ← atR ds j
    let crp ← e.crps.atKey d
    addRef hash c f i d (crp.maxTable + 1) e

/-- gendb.cc:90-103: the loop over the references of an entity; `rec` is the recursive call. -/
def uniqueLoop (rec : Nat → Int → Items → Ents → Res (Items × Ents)) (hash : String → Int) (ds : List String) (c : String) (i : Int) :
    List (String × Nat) → Items → Ents → Res (Items × Ents)
  | [], items, e => .ok (items, e)
  | (f, j) :: l, items, e => do
    let e ← ensureUnique hash ds c f i j e
    let v ← getRef e c f i
    let (items, e) ← rec j v items e
    uniqueLoop rec hash ds c i l items e

/-- gendb.cc:82-106 `get_unique_entities_relation`.  The first natural bounds the nesting of calls, which the code does not: the reference indices of
`makeSchema` always lead to lower positions (`relIdx_lt`). -/
def uniqueItems (hash : String → Int) (rels : Schema F) (relIdx : FMap String RefIdx) (rel : String) : Nat → Nat → Int → Items → Ents → Res (Items × Ents)
  | 0, _, _, _, _ => .error .ub
  | n + 1, ind, i, items, e => do
    let spec ← rels.atKey rel
    let items ← setItem items ind i
    match refsAt relIdx rel ind with
    | none => .ok (items, e)
    | some m => do
      let c ← idxR spec.doms ind
      uniqueLoop (uniqueItems hash rels relIdx rel n) hash spec.doms c i m.entries items e

/-- gendb.cc:278-282: the loop over the references of an entity; `rec` is the recursive call. -/
def itemsLoop (rec : Nat → Int → Items → Res Items) (e : Ents) (c : String) (i : Int) : List (String × Nat) → Items → Res Items
  | [], items => .ok items
  | (f, j) :: l, items => do
    let v ← getRef e c f i
    let items ← rec j v items
    itemsLoop rec e c i l items

/-- gendb.cc:270-285 `get_relation_items`; the first natural bounds the nesting of calls as above. -/
def relationItems (rels : Schema F) (relIdx : FMap String RefIdx) (rel : String) (e : Ents) : Nat → Nat → Int → Items → Res Items
  | 0, _, _, _ => .error .ub
  | n + 1, ind, i, items => do
    let spec ← rels.atKey rel
    let items ← setItem items ind i
    match refsAt relIdx rel ind with
    | none => .ok items
    | some m => do
      let c ← atR spec.doms ind
      itemsLoop (relationItems rels relIdx rel e n) e c i m.entries items

/-- gendb.cc:160-171 `sample_and_incorporate_reference`. -/
def sampleRef (hash : String → Int) (c f : String) (i : Int) (d : String) (e : Ents) (t : Tape) : Res (Ents × Tape) := do
  let crp ← e.crps.atKey d
  let (v, t) := crp.sample t
  let e ← addRef hash c f i d v e
  .ok (e, t)

/-- gendb.cc:132-134, 250-254: sample a reference unless there is one. -/
def ensureRef (hash : String → Int) (c f : String) (i : Int) (d : String) (e : Ents) (t : Tape) : Res (Ents × Tape) := do
  let m ← e.refs.atKey c
  if m.contains (f, i) then .ok (e, t) else sampleRef hash c f i d e t

/-- gendb.cc:246-260: the loop over the variables of a class; `rec` is the recursive call. -/
def ancestorsLoop (rec : String → Int → Ents → Tape → Res (Items × Ents × Tape)) (hash : String → Int) (c : String) (i : Int) :
    List (String × Variable) → Items → Ents → Tape → Res (Items × Ents × Tape)
  | [], items, e, t => .ok (items, e, t)
  | (f, v) :: vs, items, e, t =>
    match v.spec with
    | .scalar _ _ => ancestorsLoop rec hash c i vs items e t
    | .cls d => do
      let (e, t) ← ensureRef hash c f i d e t
      let r ← getRef e c f i
      let (l, e, t) ← rec d r e t
      ancestorsLoop rec hash c i vs (items ++ l) e t

/-- gendb.cc:239-264 `sample_class_ancestors`; the first natural bounds the nesting of calls, which in the code end because the references of the schema
have no cycle. -/
def sampleAncestors (s : PClean.Schema) (hash : String → Int) : Nat → String → Int → Ents → Tape → Res (Items × Ents × Tape)
  | 0, _, _, _, _ => .error .ub
  | n + 1, c, i, e, t => do
    let cl ← getClass s c
    let (items, e, t) ← ancestorsLoop (sampleAncestors s hash n) hash c i cl.vars.entries [] e t
    .ok (items ++ [i], e, t)

/-- gendb.cc:126-130: the class to which a reference field leads; `std::get<ClassVar>` of a scalar variable throws an exception, modelled as
`outOfRange`. -/
def refTarget (s : PClean.Schema) (c f : String) : Res String := do
  let cl ← s.classes.atKey c
  let v ← cl.vars.atKey f
  match v.spec with
  | .scalar _ _ => .error .outOfRange
  | .cls d => .ok d

/-- gendb.cc:112-145 `sample_entities_relation`.  An empty class path reads past its end. -/
def sampleEntities (s : PClean.Schema) (hash : String → Int) : String → List String → Int → Ents → Tape → Res (Items × Ents × Tape)
  | _, [], _, _, _ => .error .ub
  | c, [_], i, e, t => sampleAncestors s hash (depth s) c i e t
  | c, f :: g :: path, i, e, t => do
    let d ← refTarget s c f
    let (e, t) ← ensureRef hash c f i d e t
    let r ← getRef e c f i
    let (items, e, t) ← sampleEntities s hash d (g :: path) r e t
    .ok (items ++ [i], e, t)

/-- gendb.cc:35-39: the relations of each class, in the order of their names. -/
def classRelsLoop : List (String × RelSpec F) → FMap String (List String) → Res (FMap String (List String))
  | [], m => .ok m
  | (rel, spec) :: l, m =>
    match spec.doms.getLast? with
    | none => .error .ub
    | some c => classRelsLoop l (m.set c ((m.find? c).getD [] ++ [rel]))

/-- gendb.cc:18-40 the constructor. -/
def make (s : PClean.Schema) (hash : String → Int) (mkC : String → FMap String String → Res F.C) (mkE : String → FMap String String → Res F.E)
    (clean finalOnly : Bool) (t : Tape) : Res (DB F × Tape) := do
  let L ← layoutsOf s
  let b ← makeSchema s L mkC mkE clean finalOnly
  let (H, t) ← HIRM.mk' b.schema t
  let classRels ← classRelsLoop H.schema.entries ∅
  .ok (⟨s, hash, b.relIdx, classRels, H, ⟨s.classes.mapVals (fun _ _ => ∅), s.classes.mapVals (fun _ _ => {})⟩⟩, t)

namespace DB

/-- gendb.cc:42-48 `logp_score`. -/
def logpScore (D : DB F) : ℝ := (D.ents.crps.vals.map CRP.logpScore).sum + D.H.logpScore

/-- gendb.cc:180-187, 212-219: the items of the base relation that a noisy relation sees. -/
def baseItems (D : DB F) (rel : String) (items : Items) : Res Items := do
  let (_, r) ← D.H.getRelation rel
  let b ← derefR (IRM.baseOf D.H.env r)
  NoisyRel.baseItems b items

/-- `v.back()` -/
def back {α} (l : List α) : Res α :=
  match l.getLast? with
  | none => .error .ub
  | some a => .ok a

/-- gendb.cc:227-232: sample a value of a relation unless there is one. -/
def ensureValue (D : DB F) (rel : String) (items : Items) (t : Tape) : Res (DB F × Tape) := do
  let (_, r) ← D.H.getRelation rel
  if r.data.contains items then .ok (D, t)
  else do
    let (_, H, t) ← HIRM.sampleRelation (D.H.schema.size + 1) D.H rel items t
    .ok ({ D with H := H }, t)

/-- gendb.cc:210-226 (and 178-194): if the relation is noisy, sample the values of the class of its base relation; `rec` is
`sample_and_incorporate_for_class`. -/
def forBase (rec : String → Int → DB F → Tape → Res (DB F × Tape)) (rel : String) (items : Items) (D : DB F) (t : Tape) : Res (DB F × Tape) := do
  let spec ← D.H.schema.atKey rel
  match spec with
  | .clean _ _ _ => .ok (D, t)
  | .noisy _ _ base _ => do
    let bi ← D.baseItems rel items
    let bspec ← D.H.schema.atKey base
    let c ← back bspec.doms
    let i ← back bi
    rec c i D t

/-- gendb.cc:204-232: the loop over the relations of a class. -/
def forRels (rec : String → Int → DB F → Tape → Res (DB F × Tape)) (c : String) (i : Int) : List String → DB F → Tape → Res (DB F × Tape)
  | [], D, t => .ok (D, t)
  | rel :: l, D, t => do
    let (_, e, t) ← sampleAncestors D.schema D.hash (depth D.schema) c i D.ents t
    let D := { D with ents := e }
    let spec ← D.H.schema.atKey rel
    let items ← relationItems D.H.schema D.relIdx rel D.ents spec.doms.length (spec.doms.length - 1) i (List.replicate spec.doms.length 0)
    let (D, t) ← forBase rec rel items D t
    let (D, t) ← ensureValue D rel items t
    forRels rec c i l D t

/-- gendb.cc:201-233 `sample_and_incorporate_for_class`; the natural bounds the nesting of calls, which the code does not. -/
def forClass : Nat → String → Int → DB F → Tape → Res (DB F × Tape)
  | 0, _, _, _, _ => .error .ub
  | n + 1, c, i, D, t => do
    let rels ← D.classRels.atKey c
    forRels (forClass n) c i rels D t

/-- gendb.cc:175-196 `incorporate_query_relation`. -/
def incorporateQuery (n : Nat) (rel : String) (items : Items) (value : V) (D : DB F) (t : Tape) : Res (DB F × Tape) := do
  let (D, t) ← forBase (forClass n) rel items D t
  let (H, t) ← D.H.incorporate rel items value t
  .ok ({ D with H := H }, t)

/-- gendb.cc:63-75: the entities of a tuple of a query relation. -/
def rowItems (unique : Bool) (rel : String) (id : Int) (D : DB F) (t : Tape) : Res (Items × DB F × Tape) := do
  let f ← D.schema.query.fields.atKey rel
  if unique then do
    let spec ← D.H.schema.atKey rel
    let (items, e) ← uniqueItems D.hash D.H.schema D.relIdx rel spec.doms.length (spec.doms.length - 1) id (List.replicate spec.doms.length 0) D.ents
    .ok (items, { D with ents := e }, t)
  else do
    let (items, e, t) ← sampleEntities D.schema D.hash D.schema.query.recordClass f.classPath id D.ents t
    .ok (items, { D with ents := e }, t)

/-- gendb.cc:60-79: the loop over the values of a row. -/
def incorporateLoop (n : Nat) (unique : Bool) (id : Int) : List (String × V) → DB F → Tape → Res (DB F × Tape)
  | [], D, t => .ok (D, t)
  | (rel, v) :: l, D, t => do
    let (items, D, t) ← rowItems unique rel id D t
    let (D, t) ← incorporateQuery n rel items v D t
    incorporateLoop n unique id l D t

/-- gendb.cc:50-80 `incorporate`; `n` bounds the nesting of `sample_and_incorporate_for_class`. -/
def incorporate (n : Nat) (unique : Bool) (id : Int) (row : FMap String V) (D : DB F) (t : Tape) : Res (DB F × Tape) :=
  incorporateLoop n unique id row.entries D t

/-- pclean_lib.cc:60-72: the loop of `make_pclean_sample` over the query fields. -/
def sampleFields (id : Int) : List (String × QueryField) → FMap String V → DB F → Tape → Res (FMap String V × DB F × Tape)
  | [], m, D, t => .ok (m, D, t)
  | (_, f) :: l, m, D, t => do
    let (items, e, t) ← sampleEntities D.schema D.hash D.schema.query.recordClass f.classPath id D.ents t
    let D := { D with ents := e }
    let (v, H, t) ← HIRM.sampleRelation (D.H.schema.size + 1) D.H f.name items t
    sampleFields id l (m.set f.name v) { D with H := H } t

/-- pclean_lib.cc:59-72 `make_pclean_sample`.  Simplification: the values themselves, not their printed forms. -/
def sampleRow (id : Int) (D : DB F) (t : Tape) : Res (FMap String V × DB F × Tape) := sampleFields id D.schema.query.fields.entries ∅ D t

/-- pclean_lib.cc:76-84 -/
def sampleRows : Nat → Int → FMap String (List V) → DB F → Tape → Res (FMap String (List V) × DB F × Tape)
  | 0, _, df, D, t => .ok (df, D, t)
  | k + 1, id, df, D, t => do
    let (m, D, t) ← sampleRow id D t
    sampleRows k (id + 1) (m.entries.foldl (fun df e => df.set e.1 ((df.find? e.1).getD [] ++ [e.2])) df) D t

/-- pclean_lib.cc:73-85 `make_pclean_samples`. -/
def makeSamples (k : Nat) (start : Int) (D : DB F) (t : Tape) : Res (FMap String (List V) × DB F × Tape) := sampleRows k start ∅ D t

/-- gendb.cc:297-303: the positions of a class in a relation at which it has the reference field. -/
def indsLoop (m : RefIdx) (c f : String) : List String → Nat → Res (List Nat)
  | [], _ => .ok []
  | d :: ds, i =>
    if d = c then do
      let r ← m.atKey i
      let l ← indsLoop m c f ds (i + 1)
      .ok (if r.contains f then i :: l else l)
    else indsLoop m c f ds (i + 1)

end DB
end
end GenDB
end Verif
