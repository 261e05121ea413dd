import Verif.Model.IRM
/-!
Model of `/repo/cxx/util_io.cc`: schemas, observations and their encoding.
-/
namespace Verif
variable {V : Type}

/-- observations.hh:16-27 `T_observations` (entities are strings) and `T_encoded_observations` (entities are integers): for each relation
the observed entities and the text of the value. -/
abbrev ObsMap (N : Type) := FMap String (List (List N × String))

/-- util_io.hh:9-11 `T_encoding`. -/
structure Encoding where
  fwd : FMap String (FMap String Int) := ∅
  rev : FMap String (FMap Int String) := ∅

/-- The local variables of `calculate_encoding` (util_io.cc:261-263). -/
structure EncState extends Encoding where
  counter : FMap String Int := ∅

namespace UtilIO

/-- util_io.cc:266-271: the domains of a relation get empty maps. -/
def initDomains : List String → EncState → EncState
  | [], e => e
  | d :: ds, e => initDomains ds { fwd := e.fwd.set d ∅, rev := e.rev.set d ∅, counter := e.counter.set d 0 }

/-- util_io.cc:265-272: the loop over the schema. -/
def initSchema {F : Family V} : List (String × RelSpec F) → EncState → EncState
  | [], e => e
  | (_, spec) :: l, e => initSchema l (initDomains spec.doms e)

/-- util_io.cc:284-289: an item of a domain. -/
def encItem (d item : String) (e : EncState) : Res EncState := do
  let m ← e.fwd.atKey d
  if m.contains item then .ok e
  else
    let code := (e.counter.find? d).getD 0
    .ok { fwd := e.fwd.set d (m.set item code)
          rev := e.rev.set d (((e.rev.find? d).getD ∅).set code item)
          counter := e.counter.set d (code + 1) }

/-- util_io.cc:280-291: the items of an observation, from number `k` on. -/
def encItems (doms : List String) : List String → Nat → EncState → Res EncState
  | [], _, e => .ok e
  | item :: items, k, e => do
    let d ← atR doms k
    let e ← encItem d item e
    encItems doms items (k + 1) e

/-- util_io.cc:275-292: the observations of a relation. -/
def encRel {F : Family V} (schema : Schema F) (r : String) : List (List String × String) → EncState → Res EncState
  | [], e => .ok e
  | (items, _) :: obs, e => do
    let spec ← schema.atKey r
    let e ← encItems spec.doms items 0 e
    encRel schema r obs e

/-- util_io.cc:274-293: the relations. -/
def encRels {F : Family V} (schema : Schema F) : List (String × List (List String × String)) → EncState → Res EncState
  | [], e => .ok e
  | (r, obs) :: l, e => do
    let e ← encRel schema r obs e
    encRels schema l e

/-- util_io.cc:258-295 `calculate_encoding`.  The observations are visited in the order that the tape chooses. -/
def calculateEncoding {F : Family V} (schema : Schema F) (obs : ObsMap String) (t : Tape) : Res (Encoding × Tape) := do
  let (l, t) := shuffle obs.entries t
  let e ← encRels schema l (initSchema schema.entries {})
  .ok (e.toEncoding, t)

/-- util_io.cc:310-313: the codes of the items of an observation, from number `k` on. -/
def codesOf (fwd : FMap String (FMap String Int)) (doms : List String) : List String → Nat → Res Items
  | [], _ => .ok []
  | item :: items, k => do
    let d ← idxR doms k
    let m ← fwd.atKey d
    let c ← m.atKey item
    let cs ← codesOf fwd doms items (k + 1)
    .ok (c :: cs)

/-- util_io.cc:308-315: the observations of a relation; the relation gets an entry with its first observation. -/
def encodeRel (fwd : FMap String (FMap String Int)) (r : String) (doms : List String) : List (List String × String) → ObsMap Int → Res (ObsMap Int)
  | [], m => .ok m
  | (items, v) :: obs, m => do
    let cs ← codesOf fwd doms items 0
    encodeRel fwd r doms obs (m.set r ((m.find? r).getD [] ++ [(cs, v)]))

/-- util_io.cc:303-316: the relations. -/
def encodeRels {F : Family V} (schema : Schema F) (fwd : FMap String (FMap String Int)) :
    List (String × List (List String × String)) → ObsMap Int → Res (ObsMap Int)
  | [], m => .ok m
  | (r, obs) :: l, m => do
    let spec ← schema.atKey r
    let m ← encodeRel fwd r spec.doms obs m
    encodeRels schema fwd l m

/-- util_io.cc:297-319 `encode_observations`; `schema` is the schema of the model.  The observations are visited in the order that the tape
chooses. -/
def encodeObservations {F : Family V} (schema : Schema F) (obs : ObsMap String) (enc : Encoding) (t : Tape) : Res (ObsMap Int × Tape) := do
  let (l, t) := shuffle obs.entries t
  let m ← encodeRels schema enc.fwd l ∅
  .ok (m, t)

/-- util_io.cc:722-724: copy. -/
def copyObs : List (String × List (List String × String)) → ObsMap String → ObsMap String
  | [], m => m
  | (r, o) :: l, m => copyObs l (m.set r o)

/-- util_io.cc:725-728: append. -/
def appendObs : List (String × List (List String × String)) → ObsMap String → ObsMap String
  | [], m => m
  | (r, o) :: l, m => appendObs l (m.set r ((m.find? r).getD [] ++ o))

/-- util_io.cc:719-730 `merge_observations`. -/
def mergeObservations (obs1 obs2 : ObsMap String) (t : Tape) : ObsMap String × Tape :=
  let (l1, t) := shuffle obs1.entries t
  let (l2, t) := shuffle obs2.entries t
  (appendObs l2 (copyObs l1 ∅), t)

/-- util_io.cc:28-32: compare the domains of the base with the first domains of the noisy relation, from number `i` on. -/
def checkDomains (doms : List String) : List String → Nat → Res Unit
  | [], _ => .ok ()
  | b :: bs, i => do
    let d ← idxR doms i
    assertR (b == d)
    checkDomains doms bs (i + 1)

/-- util_io.cc:20-36: the relations. -/
def verifyRels {F : Family V} (schema : Schema F) : List (String × RelSpec F) → Res Unit
  | [] => .ok ()
  | (_, .clean _ _ _) :: l => verifyRels schema l
  | (_, .noisy _ doms base _) :: l => do
    let b ← schema.atKey base
    checkDomains doms b.doms 0
    verifyRels schema l

/-- util_io.cc:19-37 `verify_noisy_relation_domains`. -/
def verifyDomains {F : Family V} (schema : Schema F) : Res Unit := verifyRels schema schema.entries

end UtilIO
end Verif
