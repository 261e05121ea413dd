import Verif.Model.UtilIO
import Verif.Model.Text
/-!
Model of the observation files of `/repo/cxx/util_io.cc`.  A file is its text.
-/
namespace Verif
variable {V : Type}

/-- `is_observed = true` (util_io.cc:215) -/
def RelSpec.observe {F : Family V} : RelSpec F → RelSpec F
  | .clean c ds _ => .clean c ds true
  | .noisy e ds b _ => .noisy e ds b true

namespace UtilIO

/-- util_io.cc:188-209: a line, from its parts. -/
def loadLine {F : Family V} (schema : Schema F) (obs : ObsMap String) : List (List Char) → Res (ObsMap String)
  | [] => .error .assert
  | [_] => .error .assert
  | v :: r :: items =>
    if schema.contains (String.ofList r) then
      if items = [] then .error .assert
      else .ok (obs.set (String.ofList r) (((obs.find? (String.ofList r)).getD []) ++ [(items.map String.ofList, String.ofList v)]))
    else .error .exit

/-- util_io.cc:182-210: the lines. -/
def loadLines {F : Family V} (schema : Schema F) : List (List Char) → ObsMap String → Res (ObsMap String)
  | [], obs => .ok obs
  | l :: ls, obs => do
    let obs ← loadLine schema obs (Text.parts ',' l)
    loadLines schema ls obs

/-- util_io.cc:214-216: the observed relations are marked. -/
def markAll {F : Family V} : List String → Schema F → Res (Schema F)
  | [], schema => .ok schema
  | r :: rs, schema => do
    let spec ← schema.atKey r
    markAll rs (schema.set r spec.observe)

/-- util_io.cc:176-218 `load_observations`; the schema is changed. -/
def loadObservations {F : Family V} (schema : Schema F) (text : List Char) (t : Tape) : Res ((ObsMap String × Schema F) × Tape) := do
  let obs ← loadLines schema (Text.lines text) ∅
  let (keys, t) := shuffle obs.keys t
  let schema ← markAll keys schema
  .ok ((obs, schema), t)

/-- util_io.cc:234-240: what is written for an entity. -/
def entityText (e : Encoding) (d : String) (c : Int) : Res (List Char) := do
  let m ← e.rev.atKey d
  match m.find? c with
  | none => .ok ("new_".toList ++ d.toList ++ "_".toList ++ Text.intText c)
  | some n => .ok n.toList

/-- util_io.cc:232-241: the entities, from number `i` on. -/
def entitiesText (e : Encoding) (doms : List String) : List Int → Nat → Res (List Char)
  | [], _ => .ok []
  | c :: cs, i => do
    let d ← idxR doms i
    let n ← entityText e d c
    let rest ← entitiesText e doms cs (i + 1)
    .ok (',' :: n ++ rest)

/-- util_io.cc:230-243: the observations of a relation. -/
def relText (e : Encoding) (r : String) (doms : List String) : List (List Int × String) → Res (List Char)
  | [] => .ok []
  | (codes, v) :: obs => do
    let items ← entitiesText e doms codes 0
    let rest ← relText e r doms obs
    .ok (v.toList ++ ',' :: r.toList ++ items ++ '\n' :: rest)

/-- util_io.cc:225-244: the relations. -/
def relsText {F : Family V} (schema : Schema F) (e : Encoding) : List (String × List (List Int × String)) → Res (List Char)
  | [] => .ok []
  | (r, obs) :: l => do
    let spec ← schema.atKey r
    let here ← relText e r spec.doms obs
    let rest ← relsText schema e l
    .ok (here ++ rest)

/-- util_io.cc:220-245 `write_observations`, with the schema of the model.  What is written before a failure is not modelled. -/
def writeObservations {F : Family V} (schema : Schema F) (obs : ObsMap Int) (e : Encoding) (t : Tape) : Res (List Char × Tape) := do
  let (l, t) := shuffle obs.entries t
  let text ← relsText schema e l
  .ok (text, t)

end UtilIO
end Verif
