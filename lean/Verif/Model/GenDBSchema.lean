import Verif.Model.PCleanIO
import Verif.Model.IRM
/-!
Model of what `GenDB` computes from a PClean schema (`/repo/cxx/gendb.cc`, lines 887-1100): the domains of each class, the reference indices of each class
and of each relation, and the schema of the HIRM.
-/
namespace Verif
namespace GenDB
open PClean

/-- gendb.hh:222 `domains`: the domain layout of each class. -/
abbrev Doms := FMap String (List String)

/-- gendb.hh:227-237 the reference indices of a class or of a relation: position ↦ (name of a reference field ↦ position of the referenced entity).
Simplification: positions are naturals instead of `int`. -/
abbrev RefIdx := FMap Nat (FMap String Nat)

/-- How deep calls of the two recursive functions below can nest.  The C++ code has no such bound: on a schema whose references form a cycle it overflows the
stack.  The model fails with `ub` when more than this many calls are nested, which for a schema without such a cycle never happens (`C45_defined`). -/
def depth (s : PClean.Schema) : Nat := s.classes.size + 1

/-- gendb.cc:905-906: `assert(schema.classes.contains(name))` and `schema.classes.at(name)`. -/
def getClass (s : PClean.Schema) (name : String) : Res Class :=
  match s.classes.find? name with
  | none => .error .assert
  | some c => .ok c

/-- gendb.cc:889-891, 911-913, 897-899 and 940-942: compute the entry of a class unless it is there. -/
def once {W} (compute : String → FMap String W → Res (FMap String W)) (c : String) (m : FMap String W) : Res (FMap String W) :=
  if m.contains c then .ok m else compute c m

/-- gendb.cc:909-918: the loop over the variables of a class; `compute` is the recursive call.  Simplification: after the call the entry is always there,
so that `domains[...]` does not insert an empty one. -/
def domainsLoop (compute : String → Doms → Res Doms) : List (String × Variable) → List String → Doms → Res (List String × Doms)
  | [], ds, m => .ok (ds, m)
  | (_, v) :: vs, ds, m =>
    match v.spec with
    | .scalar _ _ => domainsLoop compute vs ds m
    | .cls d => do
      let m ← once compute d m
      domainsLoop compute vs (ds ++ (m.find? d).getD []) m

/-- gendb.cc:903-923 `GenDB::compute_domains_for`; the first argument bounds the nesting of calls. -/
def computeDomainsFor (s : PClean.Schema) : Nat → String → Doms → Res Doms
  | 0, _, _ => .error .ub
  | n + 1, name, m => do
    let c ← getClass s name
    let (ds, m) ← domainsLoop (computeDomainsFor s n) c.vars.entries [] m
    .ok (m.set name (ds ++ [name]))

/-- gendb.cc:888-892: the loop over the classes. -/
def domainsCache (s : PClean.Schema) : List String → Doms → Res Doms
  | [], m => .ok m
  | c :: cs, m => do
    let m ← once (computeDomainsFor s (depth s)) c m
    domainsCache s cs m

/-- gendb.cc:887-893 `GenDB::compute_domains_cache`. -/
def computeDomains (s : PClean.Schema) : Res Doms := domainsCache s s.classes.keys ∅

/-- gendb.cc:950-957: the reference indices of a referenced class are shifted by `off`.  As in the code, the map `child` is not emptied between the
positions of that class. -/
def addInner (off : Nat) : List (Nat × FMap String Nat) → FMap String Nat → RefIdx → RefIdx
  | [], _, inner => inner
  | (ind, ref) :: rest, child, inner =>
    let child := ref.entries.foldl (fun m e => m.set e.1 (e.2 + off)) child
    addInner off rest child (inner.set (ind + off) child)

/-- The local variables of `compute_reference_indices_for` and the member `class_reference_indices`. -/
structure RefState where
  off : Nat
  own : FMap String Nat
  inner : RefIdx
  idx : FMap String RefIdx

/-- gendb.cc:938-960: the loop over the variables of a class; `compute` is the recursive call. -/
def refsLoop (compute : String → FMap String RefIdx → Res (FMap String RefIdx)) (doms : Doms) : List (String × Variable) → RefState → Res RefState
  | [], st => .ok st
  | (f, v) :: vs, st =>
    match v.spec with
    | .scalar _ _ => refsLoop compute doms vs st
    | .cls d => do
      let idx ← once compute d st.idx
      let ds ← doms.atKey d
      let off := st.off + ds.length
      let inner := match idx.find? d with
        | none => st.inner
        | some m => addInner st.off m.entries ∅ st.inner
      refsLoop compute doms vs ⟨off, st.own.set f (off - 1), inner, idx⟩

/-- gendb.cc:925-968 `GenDB::compute_reference_indices_for`; the first natural bounds the nesting of calls. -/
def computeRefsFor (s : PClean.Schema) (doms : Doms) : Nat → String → FMap String RefIdx → Res (FMap String RefIdx)
  | 0, _, _ => .error .ub
  | n + 1, name, idx => do
    let c ← getClass s name
    let st ← refsLoop (computeRefsFor s doms n) doms c.vars.entries ⟨0, ∅, ∅, idx⟩
    if st.own.size > 0 then .ok (st.idx.set name (st.inner.set st.off st.own)) else .ok st.idx

/-- gendb.cc:896-900: the loop over the classes. -/
def refsCache (s : PClean.Schema) (doms : Doms) : List String → FMap String RefIdx → Res (FMap String RefIdx)
  | [], idx => .ok idx
  | c :: cs, idx => do
    let idx ← once (computeRefsFor s doms (depth s)) c idx
    refsCache s doms cs idx

/-- gendb.cc:895-901 `GenDB::compute_reference_indices_cache`. -/
def computeRefs (s : PClean.Schema) (doms : Doms) : Res (FMap String RefIdx) := refsCache s doms s.classes.keys ∅

/-! ### The HIRM schema -/

/-- `PCleanVariable{}`, which `vars[...]` makes for an unknown name (schema.hh:22-25). -/
def noVariable : Variable := ⟨"", .scalar "" ∅⟩

/-- gendb.cc:974-990: follow a class path from a class.  Gives the names of the classes after this one, the names of the variables and the last variable.
`std::get<ClassVar>` of a scalar variable throws an exception, modelled as `outOfRange`. -/
def walk (s : PClean.Schema) : Class → List String → Res (List String × List String × Variable)
  | _, [] => .error .ub
  | c, [f] =>
    let v := (c.vars.find? f).getD noVariable
    .ok ([], [v.name], v)
  | c, f :: g :: fs =>
    let v := (c.vars.find? f).getD noVariable
    match v.spec with
    | .scalar _ _ => .error .outOfRange
    | .cls d => do
      let c' ← s.classes.atKey d
      let (cs, vs, last) ← walk s c' (g :: fs)
      .ok (d :: cs, v.name :: vs, last)

/-- gendb.cc:994: `last_class.vars[...]` is a scalar variable or `std::get<ScalarVar>` throws. -/
def scalarOf (v : Variable) : Res (String × FMap String String) :=
  match v.spec with
  | .scalar j p => .ok (j, p)
  | .cls _ => .error .outOfRange

/-- The members of a `GenDB` that the construction of the HIRM schema reads. -/
structure Layouts where
  doms : Doms
  classIdx : FMap String RefIdx

/-- gendb.cc:26-27: the caches are filled. -/
def layoutsOf (s : PClean.Schema) : Res Layouts := do
  let doms ← computeDomains s
  let idx ← computeRefs s doms
  .ok ⟨doms, idx⟩

variable {V : Type}

/-- The HIRM schema and `relation_reference_indices` (gendb.hh:227-231) while they are built. -/
structure Build (F : Family V) where
  schema : Schema F
  relIdx : FMap String RefIdx

/-- `std::map::merge`: the entries whose keys are not in the target move to it. -/
def mergeIdx (target source : RefIdx) : RefIdx × RefIdx :=
  (source.entries.foldl (fun m e => if m.contains e.1 then m else m.set e.1 e.2) target, source.filter (fun k _ => target.contains k))

/-- `m[i][f] = j` -/
def setIdx (m : RefIdx) (i : Nat) (f : String) (j : Nat) : RefIdx := m.set i (((m.find? i).getD ∅).set f j)

/-- gendb.cc:1009-1012, 1031-1034, 1061-1064 and 1084-1087: if there are indices `src[a]`, they become those of `m[b]`. -/
def inherit (src : FMap String RefIdx) (a : String) (m : FMap String RefIdx) (b : String) : FMap String RefIdx :=
  match src.find? a with
  | some i => m.set b i
  | none => m

/-- gendb.cc:1037-1068: the chain of noisy relations of a query field, from the class that has the queried variable to the record class.  The list has the
classes on the way and the reference fields by which they refer to the class before. -/
def chain {F : Family V} (f : String) (mkE : Res F.E) : List (String × String) → String → List String → RefIdx → Build F → Res (Build F)
  | [], _, _, _, b => .ok b
  | (c, v) :: hops, prev, ds, refs, b => do
    let ds := ds ++ [c]
    let refs := setIdx refs (ds.length - 1) v (ds.length - 2)
    let e ← mkE
    let name := if hops.isEmpty then f else c ++ "::" ++ f
    let schema := b.schema.set name (.noisy e ds prev hops.isEmpty)
    let relIdx := inherit b.relIdx prev b.relIdx name
    let m := mergeIdx ((relIdx.find? name).getD ∅) refs
    chain f mkE hops name ds m.2 ⟨schema, relIdx.set name m.1⟩

/-- gendb.cc:1018-1023: the domains and the reference indices of the relation of a query field with `only_final_emissions`. -/
def finalDoms : List (String × String) → List String → RefIdx → List String × RefIdx
  | [], ds, refs => (ds, refs)
  | (c, v) :: hops, ds, refs =>
    let ds := ds ++ [c]
    finalDoms hops ds (setIdx refs (ds.length - 1) v (ds.length - 2))

/-- gendb.cc:970-1071 `GenDB::make_relations_for_queryfield`.  `mkC` and `mkE` are `get_distribution_relation` and `get_emission_relation`
(get_joint_relations.cc) without the domains. -/
def queryField {F : Family V} (s : PClean.Schema) (L : Layouts) (mkE : String → FMap String String → Res F.E) (clean finalOnly : Bool)
    (rc : Class) (f : QueryField) (b : Build F) : Res (Build F) := do
  let (cs, vs, last) ← walk s rc f.classPath
  let classNames := rc.name :: cs
  let base := classNames.getLast (by simp [classNames]) ++ ":" ++ last.name
  let lastDoms := (L.doms.find? (classNames.getLast (by simp [classNames]))).getD []
  if f.classPath.length = 1 then
    if clean then
      match ← b.schema.atKey base with
      | .noisy _ _ _ _ => .error .outOfRange
      | .clean c ds _ => .ok ⟨(b.schema.set f.name (.clean c ds true)).erase base, b.relIdx⟩
    else
      let (j, p) ← scalarOf last
      let e ← mkE j p
      .ok ⟨b.schema.set f.name (.noisy e lastDoms base true), inherit L.classIdx rc.name b.relIdx f.name⟩
  else
    let hops := (classNames.zip vs.dropLast).reverse
    if finalOnly then
      let (ds, refs) := finalDoms hops lastDoms ((b.relIdx.find? f.name).getD ∅)
      let (j, p) ← scalarOf last
      let e ← mkE j p
      let relIdx := b.relIdx.set f.name refs
      .ok ⟨b.schema.set f.name (.noisy e ds base true), inherit relIdx base relIdx f.name⟩
    else
      chain f.name (do let (j, p) ← scalarOf last; mkE j p) hops base lastDoms ∅ b

/-- gendb.cc:1078-1090: the clean relations of the scalar variables of a class. -/
def cleanRels {F : Family V} (L : Layouts) (mkC : String → FMap String String → Res F.C) (cname : String) :
    List (String × Variable) → Build F → Res (Build F)
  | [], b => .ok b
  | (x, v) :: vs, b =>
    match v.spec with
    | .cls _ => cleanRels L mkC cname vs b
    | .scalar j p => do
      let c ← mkC j p
      let name := cname ++ ":" ++ x
      cleanRels L mkC cname vs ⟨b.schema.set name (.clean c ((L.doms.find? cname).getD []) false), inherit L.classIdx cname b.relIdx name⟩

/-- gendb.cc:1078: the loop over the classes. -/
def cleanClasses {F : Family V} (L : Layouts) (mkC : String → FMap String String → Res F.C) : List (String × Class) → Build F → Res (Build F)
  | [], b => .ok b
  | (cname, c) :: cs, b => do
    let b ← cleanRels L mkC cname c.vars.entries b
    cleanClasses L mkC cs b

/-- gendb.cc:1095-1098: the loop over the query fields. -/
def queryFields {F : Family V} (s : PClean.Schema) (L : Layouts) (mkE : String → FMap String String → Res F.E) (clean finalOnly : Bool)
    (rc : Class) : List (String × QueryField) → Build F → Res (Build F)
  | [], b => .ok b
  | (_, f) :: fs, b => do
    let b ← queryField s L mkE clean finalOnly rc f b
    queryFields s L mkE clean finalOnly rc fs b

/-- gendb.cc:1073-1100 `GenDB::make_hirm_schema`. -/
def makeSchema {F : Family V} (s : PClean.Schema) (L : Layouts) (mkC : String → FMap String String → Res F.C)
    (mkE : String → FMap String String → Res F.E) (clean finalOnly : Bool) : Res (Build F) := do
  let b ← cleanClasses L mkC s.classes.entries ⟨∅, ∅⟩
  let rc ← s.classes.atKey s.query.recordClass
  queryFields s L mkE clean finalOnly rc s.query.fields.entries b

end GenDB
end Verif
