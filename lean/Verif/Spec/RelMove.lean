import Verif.Spec.HIRM
/-! Specification: the parts of the score of an HIRM, and the two halves of a relation move. -/
namespace Verif
noncomputable section
variable {V : Type} {F : Family V}
namespace HIRM

/-- the `logp_score` of a relation of the HIRM (zero if there is no such relation) -/
def scoreOf (H : HIRM F) (n : String) : ℝ := ((H.relOf n).map (fun x => x.2.2.logpScore)).getD 0

/-- the sum of the scores of all relations of the schema -/
def dataScore (H : HIRM F) : ℝ := (H.schema.keys.map H.scoreOf).sum

/-- the sum of the scores of the partitions of the entities, over all domains of all IRMs -/
def entityScore (H : HIRM F) : ℝ := (H.irms.vals.map (fun I => (I.doms.vals.map (fun d => d.crp.logpScore)).sum)).sum

/-- hirm.cc:101-139, the first half of `transition_cluster_assignment_relation`: the candidate tables with the log weights handed to
`log_choice`; besides, the code and the table of the relation and the state with the relation added everywhere. -/
def relationScores (H : HIRM F) (r : String) (t : Tape) : Res (List (Int × ℝ) × Int × Int × HIRM F × Option (Int × IRM F) × Tape) := do
  let rc ← H.relToCode.atKey r
  let cur ← H.crp.assignments.atKey rc
  let (_, rel) ← H.getRelation r
  let spec ← H.schema.atKey r
  let w ← H.crp.tablesWeightsGibbs cur
  let (l, t) := shuffle w.entries t
  let (lps, H, aux, t) ← scoreTables r cur spec rel.data l H none t
  .ok (lps, rc, cur, H, aux, t)

end HIRM
end
end Verif
