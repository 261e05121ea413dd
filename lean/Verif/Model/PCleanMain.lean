import Verif.Model.GenDBMove
import Verif.Model.PCleanLib
import Verif.Model.PCleanIO
import Verif.Model.HirmMain
/-!
Model of the program `/repo/cxx/pclean/pclean.cc`: a run of `pclean` reads a schema and a data frame, incorporates the rows, does inference, and perhaps saves
the clusters, prints the log likelihood of held-out rows and writes samples.

Files are their texts.  The parsing of the command line and the messages are left out.
-/
namespace Verif
namespace PCleanMain
open GenDB UtilIO
noncomputable section
variable {V : Type} {F : Family V}

/-- What the program knows of distributions and emissions: `get_distribution_relation` and `get_emission_relation` (pclean/get_joint_relations.cc:28-60),
`from_string` (relation.hh:127-132) and `operator<<` (hirm.cc:357-360); and `std::hash` of the strings that identify references (gendb.cc:147-156). -/
structure Reader (F : Family V) where
  mkC : String → FMap String String → Res F.C
  mkE : String → FMap String String → Res F.E
  parse : F.C ⊕ F.E → String → Res V
  print : V → String
  hash : String → Int

/-- The distributions and emissions of the program.  Simplification: as in `Verif.reader`, distributions are made when the schema is. -/
def reader (w : World) (hash : String → Int) : Reader (priors w) where
  mkC joint params := (jointDist joint params).bind getPrior
  mkE joint params := (jointEmis joint params).bind getEmisPrior
  parse := parseValue w
  print := showValue w
  hash := hash

/-- The files and the options of a run (pclean.cc:23-52).  A schema file that cannot be opened counts as empty (io.cc:13-16); the other files are
assumed to be there (csv.cc:12-15). -/
structure Args where
  /-- the text of the file of the option `schema` -/
  schema : List Char
  /-- the text of the file of the option `obs` -/
  obs : List Char
  /-- whether there is an option `output` -/
  output : Bool := false
  /-- the text of the file of the option `heldout`, if its name is not empty -/
  heldout : Option (List Char) := none
  /-- The number of iterations that are done: the option `iters`, or fewer if the time of the option `timeout` runs out. -/
  iters : Nat := 10
  /-- the option `inference_iters` -/
  inferenceIters : Nat := 1
  /-- the option `samples` -/
  samples : Nat := 0
  /-- the option `transition_entities` -/
  transitionEntities : Bool := true
  /-- the option `only_final_emissions` -/
  finalOnly : Bool := false
  /-- the option `record_class_is_clean` -/
  clean : Bool := true

/-- pclean.cc:68-84: the schema and the database.  If the schema cannot be read there is a message, and the program goes on with what it has read. -/
def makeDB (R : Reader F) (a : Args) (t : Tape) : Res (DB F × Tape) := do
  let (_, s) ← PClean.readSchema a.schema PClean.Schema.empty
  GenDB.make s R.hash R.mkC R.mkE a.clean a.finalOnly t

/-- pclean.cc:68-94: up to the incorporation of the rows.  The nesting of calls, which the code does not bound, is bounded by the depth of the schema. -/
def load (R : Reader F) (a : Args) (t : Tape) : Res ((DataFrame × DB F) × Tape) := do
  let (D, t) ← makeDB R a t
  let df ← DataFrame.fromCsv a.obs
  let (D, t) ← D.incorporateObservations (depth D.schema) R.parse df t
  .ok ((df, D), t)

/-- pclean.cc:101-107: inference. -/
def infer (a : Args) (D : DB F) (t : Tape) : Res (DB F × Tape) :=
  if a.transitionEntities then DB.inference a.inferenceIters a.iters D t
  else do
    let (H, t) ← D.H.inference a.iters t
    .ok ({ D with H := H }, t)

/-- pclean.cc:68-107: up to the end of inference. -/
def fit (R : Reader F) (a : Args) (t : Tape) : Res ((DataFrame × DB F) × Tape) := do
  let ((df, D), t) ← load R a t
  let (D, t) ← infer a D t
  .ok ((df, D), t)

/-- pclean.cc:110-115: the text of the file of the option `output`. -/
def save (a : Args) (D : DB F) (t : Tape) : Res (Option (List Char) × Tape) :=
  if a.output then do
    let (text, t) ← hirmText D.H D.dummyEncoding t
    .ok (some text, t)
  else .ok (none, t)

/-- pclean.cc:117-126: the log likelihood of the held-out rows. -/
def heldout (R : Reader F) (a : Args) (D : DB F) (t : Tape) : Res (Option ℝ × DB F × Tape) :=
  match a.heldout with
  | none => .ok (none, D, t)
  | some text => do
    let df ← DataFrame.fromCsv text
    let (D', t) ← D.incorporateObservations (depth D.schema) R.parse df t
    .ok (some (D'.logpScore - D.logpScore), D', t)

/-- pclean_lib.cc:73-85: the data frame of the samples, with the values printed.  Its columns have no names (see C38). -/
def sampleFrame (print : V → String) (m : FMap String (List V)) : DataFrame :=
  { data := (m.entries.map (fun e => (e.1.toList, e.2.map (fun v => (print v).toList)))).foldl (fun m e => m.set e.1 e.2) ∅ }

/-- pclean.cc:128-137: the text of the file of samples.  Its name is made of the option `output`, and without this option an exception is thrown. -/
def samples (R : Reader F) (a : Args) (df : DataFrame) (D : DB F) (t : Tape) : Res (Option (List Char) × Tape) :=
  if 0 < a.samples then
    if !a.output then .error .assert
    else match df.data.entries with
      | [] => .error .ub
      | (_, vals) :: _ => do
        let (m, _, t) ← D.makeSamples a.samples vals.length t
        let text ← (sampleFrame R.print m).toCsv
        .ok (some text, t)
  else .ok (none, t)

/-- What a run leaves: the database, the saved clusters, the log likelihood that is printed, and the samples. -/
structure Output (F : Family V) where
  db : DB F
  clusters : Option (List Char)
  logp : Option ℝ
  samples : Option (List Char)

/-- pclean.cc:22-140 -/
def run (R : Reader F) (a : Args) (t : Tape) : Res (Output F × Tape) := do
  let ((df, D), t) ← fit R a t
  let (text, t) ← save a D t
  let (lp, D', t) ← heldout R a D t
  let (s, t) ← samples R a df D' t
  .ok (⟨D, text, lp, s⟩, t)

end
end PCleanMain
end Verif
