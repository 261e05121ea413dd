import Verif.Model.Choice
import Verif.Model.CRP
import Verif.Model.Dist
/-! The probabilities with which the discrete distributions sample, in terms of those of `choice`. -/
namespace Verif
noncomputable section

/-- beta_bernoulli.cc:29-35 `sample`: the items with their probabilities. -/
def BetaBernoulli.sampleLaw (d : BetaBernoulli) : Res (List (Bool × ℝ)) := do
  let p := Real.exp (d.logp true)
  let ps ← choiceProbs [1 - p, p]
  .ok ([false, true].zip ps)

/-- dirichlet_categorical.cc:35-40 `sample`: the probability of each index. -/
def DirichletCategorical.sampleLaw (d : DirichletCategorical) : Res (List ℝ) := choiceProbs (d.counts.map (fun y => y + d.alpha))

/-- stringcat.cc:33-35 `sample`: the string of each index, with the probability of the index.  Simplification: an index without a string, which the constructor excludes,
would be dropped. -/
def StringCat.sampleLaw (d : StringCat) : Res (List (String × ℝ)) := do
  let ps ← d.dc.sampleLaw
  .ok (d.strings.zip ps)

/-- crp.cc:34-46 `CRP::sample`: the tables with their probabilities. -/
def CRP.sampleLaw (c : CRP) : Res (List (Int × ℝ)) := do
  let dist := c.tablesWeights
  let ps ← choiceProbs dist.vals
  .ok (dist.keys.zip ps)

/-- the sum of `f` at the numbers of a list -/
def sumR (f : Nat → Res ℝ) : List Nat → Res ℝ
  | [] => .ok 0
  | i :: l => do
    let x ← f i
    let s ← sumR f l
    .ok (x + s)

namespace Bigram

/-- bigram.cc:82-84 and 94-96: draw the next index from the row of `cur`, incorporate the transition and go on with `k`, which gives the probability of an event. -/
def nextProb (ds : List DirichletCategorical) (cur : Nat) (k : Nat → List DirichletCategorical → Res ℝ) : Res ℝ := do
  let d ← idxR ds cur
  let ps ← d.sampleLaw
  sumR (fun next => do
    let p ← idxR ps next
    let ds ← incAt ds cur next 1
    let q ← k next ds
    .ok (p * q)) (List.range ps.length)

/-- bigram.cc:89-97: the probability that the loop of `sample`, entered with the index `cur` and the string `acc`, ends within `n` rounds with the string `x`. -/
def loopProb (b : Bigram) (x : List Char) : Nat → List DirichletCategorical → Nat → List Char → Res ℝ
  | 0, _, _, _ => .ok 0
  | n + 1, ds, cur, acc => do
    let (acc, stop) ← b.sampleHead cur acc
    if stop then .ok (if acc = x then 1 else 0)
    else nextProb ds cur (fun next ds => loopProb b x n ds next acc)

/-- bigram.cc:73-101 `sample`: the probability that it returns `x` within `n` rounds of its loop.  The call of `unincorporate` at the end, which does not change the string, is left
out (see C15). -/
def sampleProb (b : Bigram) (x : List Char) (n : Nat) : Res ℝ :=
  nextProb b.dists b.numChars (fun next ds => b.loopProb x n ds next [])

end Bigram
end
end Verif
