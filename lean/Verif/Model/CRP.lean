import Verif.Model.Math
/-!
Model of `/repo/cxx/distributions/crp.{hh,cc}` and `/repo/cxx/domain.hh`.
-/
namespace Verif

/-- crp.hh:13-22 `class CRP`: `T_item` and table ids are `int`, modelled by `Int`; `alpha` is a real. -/
structure CRP where
  alpha : ℝ := 1
  N : Int := 0
  tables : FMap Int (FSet Int) := ∅
  assignments : FMap Int Int := ∅

namespace CRP

/-- crp.cc:13-21 `CRP::incorporate`. -/
def incorporate (c : CRP) (item table : Int) : Res CRP := do
  assertR (!c.assignments.contains item)
  let tables := if c.tables.contains table then c.tables else c.tables.set table ∅
  let s ← tables.atKey table
  .ok { c with
    tables := tables.set table (FSet.insert s item)
    assignments := c.assignments.set item table
    N := c.N + 1 }

/-- crp.cc:23-32 `CRP::unincorporate`. -/
def unincorporate (c : CRP) (item : Int) : Res CRP := do
  assertR (c.assignments.contains item)
  let table ← c.assignments.atKey item
  let s ← c.tables.atKey table
  let s' := s.erase item
  let tables := c.tables.set table s'
  let tables := if s'.size = 0 then tables.erase table else tables
  .ok { c with tables := tables, assignments := c.assignments.erase item, N := c.N - 1 }

/-- crp.cc:72-77 `CRP::max_table`.  `rbegin()` of an empty map is undefined; it cannot be reached since
`N = 0` for an empty seating, and is represented by -1. -/
def maxTable (c : CRP) : Int :=
  if c.N = 0 then -1 else c.tables.maxKey?.getD (-1)

noncomputable section

/-- crp.cc:79-90 `CRP::tables_weights`. -/
def tablesWeights (c : CRP) : FMap Int ℝ :=
  if c.N = 0 then (∅ : FMap Int ℝ).set 0 1
  else (c.tables.mapVals (fun _ s => ((s.size : Nat) : ℝ))).set (c.maxTable + 1) c.alpha

/-- crp.cc:92-103 `CRP::tables_weights_gibbs`. -/
def tablesWeightsGibbs (c : CRP) (table : Int) : Res (FMap Int ℝ) := do
  assertR (decide (c.N > 0))
  assertR (c.tables.contains table)
  let dist := c.tablesWeights
  let w ← dist.atKey table
  let w' := w - 1
  let dist := dist.set table w'
  if w' = 0 then
    let dist := dist.set table c.alpha
    .ok (match dist.maxKey? with
      | some tMax => dist.erase tMax
      | none => dist)
  else .ok dist

/-- crp.cc:34-46 `CRP::sample`: draw one of the tables of `tables_weights`. -/
def sample (c : CRP) (t : Tape) : Int × Tape :=
  let ks := c.tablesWeights.keys
  let (i, t) := draw ks.length t
  (ks.getD i 0, t)

/-- crp.cc:48 `CRP::logp_new_table`. -/
def logpNewTable (c : CRP) : ℝ := Real.log c.alpha - Real.log (c.N + c.alpha)

/-- crp.cc:50-58 `CRP::logp`; `⊥` is `-inf`. -/
def logp (c : CRP) (table : Int) : WithBot ℝ :=
  match c.tablesWeights.find? table with
  | none => ⊥
  | some numer => ((Real.log numer - Real.log (c.N + c.alpha) : ℝ) : WithBot ℝ)

/-- crp.cc:60-70 `CRP::logp_score`. -/
def logpScore (c : CRP) : ℝ :=
  let term1 := (c.tables.size : ℝ) * Real.log c.alpha
  let term2 := (c.tables.vals.map (fun s => lgamma ((s.size : Nat) : ℝ))).sum
  let term3 := lgamma c.alpha
  let term4 := lgamma (c.N + c.alpha)
  term1 + term2 + term3 - term4

/-- crp.cc:105-118 `CRP::transition_alpha`: the index drawn from the 20-point grid selects `alpha`. -/
def transitionAlpha (c : CRP) (t : Tape) : CRP × Tape :=
  if c.N = 0 then (c, t)
  else
    let grid := logLinspace (1 / (c.N : ℝ)) ((c.N : ℝ) + 1) 20 true
    let (i, t) := draw grid.length t
    ({ c with alpha := grid.getD i 0 }, t)

end
end CRP

/-- domain.hh:14-18 `class Domain`. -/
structure Domain where
  name : String
  items : FSet Int := ∅
  crp : CRP := {}

namespace Domain

/-- domain.hh:21-32 `Domain::incorporate`; `table = -1` is the default argument, `prng` is a non-null tape. -/
noncomputable def incorporate (d : Domain) (item : Int) (t : Tape) (table : Int := -1) :
    Res (Domain × Tape) := do
  if d.items.contains item then
    assertR (decide (table = -1))
    .ok (d, t)
  else
    let (tb, t) := if 0 ≤ table then (table, t) else d.crp.sample t
    let crp ← d.crp.incorporate item tb
    .ok ({ d with items := FSet.insert d.items item, crp := crp }, t)

/-- domain.hh:33-37 `Domain::unincorporate`. -/
def unincorporate (d : Domain) (item : Int) : Res Domain := do
  assertR (d.items.contains item)
  let crp ← d.crp.unincorporate item
  .ok { d with crp := crp, items := d.items.erase item }

/-- domain.hh:38-41 `Domain::get_cluster_assignment`. -/
def getClusterAssignment (d : Domain) (item : Int) : Res Int := do
  assertR (d.items.contains item)
  d.crp.assignments.atKey item

/-- domain.hh:42-47 `Domain::set_cluster_assignment_gibbs`. -/
def setClusterAssignmentGibbs (d : Domain) (item table : Int) : Res Domain := do
  assertR (d.items.contains item)
  let cur ← d.crp.assignments.atKey item
  assertR (decide (cur ≠ table))
  let crp ← d.crp.unincorporate item
  let crp ← crp.incorporate item table
  .ok { d with crp := crp }

/-- domain.hh:51-55 `Domain::tables_weights_gibbs`. -/
noncomputable def tablesWeightsGibbs (d : Domain) (item : Int) : Res (FMap Int ℝ) := do
  let table ← d.getClusterAssignment item
  d.crp.tablesWeightsGibbs table

end Domain
end Verif
