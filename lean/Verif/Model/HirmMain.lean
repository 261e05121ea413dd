import Verif.Model.Incorporate
import Verif.Model.SchemaFile
import Verif.Model.ObsFile
import Verif.Model.Priors
/-!
Model of the program `/repo/cxx/hirm_main.cc`: a run of `hirm` reads a schema, observations and perhaps held-out observations and initial
clusters, does inference, saves the clusters, and perhaps prints the log probability of the held-out observations and writes samples.

Files are their texts.  The parsing of the command line, the messages and `free` are left out.
-/
namespace Verif
noncomputable section
variable {V : Type}

/-- What the program knows of distributions and emissions: `DistributionSpec` and `get_prior`, `EmissionSpec` and `get_emission`
(distributions/get_distribution.cc, emissions/get_emission.cc), `from_string` (relation.hh:127-132) and `operator<<` (hirm.cc:358). -/
structure Reader (F : Family V) where
  mkC : List Char → FMap String String → Res F.C
  mkE : List Char → FMap String String → Res F.E
  parse : F.C ⊕ F.E → String → Res V
  print : V → String

/-- hirm.cc:357-360 `ss << value`. -/
def showValue (w : World) : Value → String
  | .bool b => if b then "1" else "0"
  | .real x => w.showReal x
  | .int n => String.ofList (Text.intText n)
  | .str s => s

/-- The distributions and emissions of the program.  Simplification: in the code the specification of a schema line is turned into a
distribution when the relation is added to the model, here when the schema is read, so that a specification with bad arguments fails earlier. -/
def reader (w : World) : Reader (priors w) where
  mkC dist params := (DistSpec.make dist params).bind getPrior
  mkE emis params := (EmisSpec.make emis params).bind getEmisPrior
  parse := parseValue w
  print := showValue w

namespace HirmMain
open UtilIO
variable {F : Family V}

/-- The files and the options of a run (hirm_main.cc:50-69). -/
structure Args where
  /-- the text of `<path>.schema` -/
  schema : List Char
  /-- the text of `<path>.obs` -/
  obs : List Char
  /-- the text of the file of the option `heldout`, if it is given -/
  heldout : Option (List Char) := none
  /-- the text of the file of the option `load`, if it is given -/
  clusters : Option (List Char) := none
  /-- The number of iterations that are done: the option `iters`, or fewer if the time of the option `timeout` runs out. -/
  iters : Nat := 10
  /-- the option `samples` -/
  samples : Nat := 0

/-- The variables of hirm_main.cc:74-90 after the files have been read. -/
structure Inputs (F : Family V) where
  schema : Schema F
  observations : ObsMap String
  heldout : ObsMap String
  encoding : Encoding

/-- hirm_main.cc:77-87: the held-out observations, and the observations that are encoded.  `load_observations` marks the relations of the
held-out observations as observed, too. -/
def readHeldout (schema : Schema F) (obs : ObsMap String) : Option (List Char) → Tape → Res ((Schema F × ObsMap String × ObsMap String) × Tape)
  | none, t => .ok ((schema, ∅, obs), t)
  | some text, t => do
    let ((heldout, schema), t) ← loadObservations schema text t
    let (merged, t) := mergeObservations obs heldout t
    .ok ((schema, heldout, merged), t)

/-- hirm_main.cc:70-90: read the files and make the encoding. -/
def readInputs (R : Reader F) (a : Args) (t : Tape) : Res (Inputs F × Tape) := do
  let schema ← loadSchema R.mkC R.mkE a.schema
  let ((obs, schema), t) ← loadObservations schema a.obs t
  let ((schema, heldout, merged), t) ← readHeldout schema obs a.heldout t
  let (enc, t) ← calculateEncoding schema merged t
  .ok ({ schema := schema, observations := obs, heldout := heldout, encoding := enc }, t)

/-- hirm_main.cc:131-139: a new HIRM with the observations, or one with the initial clusters.  `from_txt` reads the schema and the
observations again (util_io.cc:668-676). -/
def startHirm (R : Reader F) (a : Args) (i : Inputs F) (t : Tape) : Res (HIRM F × Tape) :=
  match a.clusters with
  | none => do
    let (H, t) ← HIRM.mk' i.schema t
    incorporateObservations (HIRM.host F) R.parse H i.encoding i.observations t
  | some text => do
    let schema ← loadSchema R.mkC R.mkE a.schema
    let ((obs, schema), t) ← loadObservations schema a.obs t
    let (rels, irms) ← loadClustersHirm text
    hirmFromTxt R.parse schema obs rels irms t

/-- hirm_main.cc:70-143, mode `hirm`: up to the end of inference. -/
def fitHirm (R : Reader F) (a : Args) (t : Tape) : Res ((Inputs F × HIRM F) × Tape) := do
  let (i, t) ← readInputs R a t
  let (H, t) ← startHirm R a i t
  let (H, t) ← H.inference a.iters t
  .ok ((i, H), t)

/-- hirm_main.cc:70-147, mode `hirm`: up to the saving of the clusters.  The text of the file `<path>.<seed>.hirm`. -/
def saveHirm (R : Reader F) (a : Args) (t : Tape) : Res ((Inputs F × HIRM F × List Char) × Tape) := do
  let ((i, H), t) ← fitHirm R a t
  let (text, t) ← hirmText H i.encoding t
  .ok ((i, H, text), t)

/-- hirm_main.cc:149-152: the log probability of the held-out observations.  `logp` can add default clusters to the model. -/
def heldoutHirm (R : Reader F) (a : Args) (i : Inputs F) (H : HIRM F) (t : Tape) : Res (Option (WithBot ℝ) × HIRM F × Tape) :=
  match a.heldout with
  | none => .ok (none, H, t)
  | some _ => do
    let (l, t) ← logpArgs (HIRM.host F) R.parse H i.encoding i.heldout t
    let (lp, H, t) ← H.logp l t
    .ok (some lp, H, t)

/-- hirm.cc:357-360: the samples as strings. -/
def printed (print : V → String) (obs : FMap String (List (Items × V))) : ObsMap Int :=
  (obs.entries.map (fun e => (e.1, e.2.map (fun o => (o.1, print o.2))))).foldl (fun m e => m.set e.1 e.2) ∅

/-- hirm_main.cc:154-160: the text of the file `<path>.<seed>.hirm.samples`.  The result is `none` if the sampling loop has not ended after
`fuel` rounds. -/
def samplesHirm (R : Reader F) (a : Args) (i : Inputs F) (fuel : Nat) (H : HIRM F) (t : Tape) : Res (Option (Option (List Char) × Tape)) :=
  if 0 < a.samples then do
    match ← H.sampleAndIncorporate a.samples fuel t with
    | none => .ok none
    | some (s, t) => do
      let (text, t) ← writeObservations s.H.schema (printed R.print s.obs) i.encoding t
      .ok (some (some text, t))
  else .ok (some (none, t))

/-- What a run leaves: the saved clusters, the log probability that is printed, and the samples. -/
structure Output where
  clusters : List Char
  logp : Option (WithBot ℝ)
  samples : Option (List Char)

/-- hirm_main.cc:14-166, mode `hirm`.  The result is `none` if the sampling loop has not ended after `fuel` rounds. -/
def runHirm (R : Reader F) (a : Args) (fuel : Nat) (t : Tape) : Res (Option (Output × Tape)) := do
  let ((i, H, text), t) ← saveHirm R a t
  let (lp, H, t) ← heldoutHirm R a i H t
  match ← samplesHirm R a i fuel H t with
  | none => .ok none
  | some (s, t) => .ok (some ({ clusters := text, logp := lp, samples := s }, t))

/-! ### Mode `irm` -/

/-- hirm_main.cc:96-104 -/
def startIrm (R : Reader F) (a : Args) (i : Inputs F) (t : Tape) : Res (IRM F × Tape) :=
  match a.clusters with
  | none => do
    let I ← IRM.mk' i.schema
    incorporateObservations (IRM.host F) R.parse I i.encoding i.observations t
  | some text => do
    let schema ← loadSchema R.mkC R.mkE a.schema
    let ((obs, schema), t) ← loadObservations schema a.obs t
    let cl ← loadClustersIrm text
    irmFromTxt R.parse schema obs cl t

/-- inference.cc:31-41 `inference_irm`; the time limit is left out. -/
def inferenceIrm : Nat → IRM F → Tape → Res (IRM F × Tape)
  | 0, I, t => .ok (I, t)
  | k + 1, I, t => do
    let (I, t) ← I.singleStep 10 true t
    inferenceIrm k I t

/-- hirm_main.cc:70-108, mode `irm`. -/
def fitIrm (R : Reader F) (a : Args) (t : Tape) : Res ((Inputs F × IRM F) × Tape) := do
  let (i, t) ← readInputs R a t
  let (I, t) ← startIrm R a i t
  let (I, t) ← inferenceIrm a.iters I t
  .ok ((i, I), t)

/-- hirm_main.cc:70-112, mode `irm`. -/
def saveIrm (R : Reader F) (a : Args) (t : Tape) : Res ((Inputs F × IRM F × List Char) × Tape) := do
  let ((i, I), t) ← fitIrm R a t
  let (text, t) ← irmText I i.encoding t
  .ok ((i, I, text), t)

/-- hirm_main.cc:114-117 -/
def heldoutIrm (R : Reader F) (a : Args) (i : Inputs F) (I : IRM F) (t : Tape) : Res (Option (WithBot ℝ) × Tape) :=
  match a.heldout with
  | none => .ok (none, t)
  | some _ => do
    let (l, t) ← logpArgs (IRM.host F) R.parse I i.encoding i.heldout t
    let (lp, _, t) ← I.logp l t
    .ok (some lp, t)

/-- hirm_main.cc:14-126, mode `irm`: there are no samples. -/
def runIrm (R : Reader F) (a : Args) (t : Tape) : Res (Output × Tape) := do
  let ((i, I, text), t) ← saveIrm R a t
  let (lp, t) ← heldoutIrm R a i I t
  .ok ({ clusters := text, logp := lp, samples := none }, t)

end HirmMain
end
end Verif
