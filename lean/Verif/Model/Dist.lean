import Verif.Model.Math
import Mathlib.Algebra.Order.Floor.Ring
import Mathlib.Analysis.SpecialFunctions.Sqrt
import Mathlib.Analysis.Real.Pi.Bounds
/-!
Model of the distributions in `/repo/cxx/distributions/`.  `double` is modelled by `ℝ` (no rounding, no NaN).

`Distribution::unincorporate(x)` is `incorporate(x, -1.0)` (base.hh:20-25) for every class.
-/
namespace Verif
noncomputable section

/-- conversion of a `double` to `int`: truncation towards zero -/
def truncInt (x : ℝ) : Int := if 0 ≤ x then ⌊x⌋ else ⌈x⌉

/-- The cell of a hyperparameter grid selected by a draw (`hypers[sample_from_logps(logps, prng)]`).
Simplification: no score is NaN over the reals, so the filter `!std::isnan(lp)` keeps the whole grid. -/
def pickGrid {α} (grid : List α) (dflt : α) (t : Tape) : α × Tape :=
  let (i, t) := draw grid.length t
  (grid.getD i dflt, t)

/-! ### BetaBernoulli -/

/-- beta_bernoulli.hh:10-22. -/
structure BetaBernoulli where
  alpha : ℝ := 1
  beta : ℝ := 1
  N : ℝ := 0
  s : Int := 0

namespace BetaBernoulli

/-- beta_bernoulli.cc:10-14 `incorporate`; `s` is an `int`, so `s += weight * x` truncates. -/
def incorporate (d : BetaBernoulli) (x : Bool) (weight : ℝ := 1) : BetaBernoulli :=
  { d with N := d.N + weight, s := truncInt ((d.s : ℝ) + weight * (if x then 1 else 0)) }

/-- base.hh:20-25 `unincorporate`. -/
def unincorporate (d : BetaBernoulli) (x : Bool) : BetaBernoulli := d.incorporate x (-1)

/-- beta_bernoulli.cc:16-21 `logp`. -/
def logp (d : BetaBernoulli) (x : Bool) : ℝ :=
  (if x then Real.log (d.s + d.alpha) else Real.log (d.N - d.s + d.beta)) -
    Real.log (d.N + d.alpha + d.beta)

/-- beta_bernoulli.cc:23-27 `logp_score`. -/
def logpScore (d : BetaBernoulli) : ℝ :=
  lbeta (d.s + d.alpha) (d.N - d.s + d.beta) - lbeta d.alpha d.beta

/-- beta_bernoulli.hh:19-22: the hyperparameter grids. -/
def grid : List ℝ := logLinspace 1e-4 1e4 10 true

/-- beta_bernoulli.cc:37-60 `transition_hyperparameters`. -/
def transitionHyperparameters (d : BetaBernoulli) (t : Tape) : BetaBernoulli × Tape :=
  let (h, t) := pickGrid (grid.flatMap (fun a => grid.map (fun b => (a, b)))) (d.alpha, d.beta) t
  ({ d with alpha := h.1, beta := h.2 }, t)

end BetaBernoulli

/-! ### DirichletCategorical -/

/-- dirichlet_categorical.hh:13-20. -/
structure DirichletCategorical where
  alpha : ℝ := 1
  N : ℝ := 0
  counts : List ℝ

namespace DirichletCategorical

/-- dirichlet_categorical.hh:18-20: constructor with `k` categories. -/
def mk' (k : Nat) : DirichletCategorical := { counts := List.replicate k 0 }

/-- the range check of dirichlet_categorical.cc:13 and 19 -/
def inRange (d : DirichletCategorical) (x : Int) : Bool :=
  decide (0 ≤ x) && decide (x < (d.counts.length : Int))

/-- dirichlet_categorical.cc:12-16 `incorporate`. -/
def incorporate (d : DirichletCategorical) (x : Int) (weight : ℝ := 1) : Res DirichletCategorical := do
  assertR (d.inRange x)
  .ok { d with counts := d.counts.modify x.toNat (· + weight), N := d.N + weight }

/-- base.hh:20-25 `unincorporate`. -/
def unincorporate (d : DirichletCategorical) (x : Int) : Res DirichletCategorical := d.incorporate x (-1)

/-- dirichlet_categorical.cc:18-23 `logp`. -/
def logp (d : DirichletCategorical) (x : Int) : Res ℝ := do
  assertR (d.inRange x)
  let c ← idxR d.counts x.toNat
  .ok (Real.log (d.alpha + c) - Real.log (d.N + d.alpha * d.counts.length))

/-- dirichlet_categorical.cc:25-33 `logp_score`. -/
def logpScore (d : DirichletCategorical) : ℝ :=
  let k := (d.counts.length : ℝ)
  let a := d.alpha * k
  lgamma a - lgamma (a + d.N) + (d.counts.map (fun x => lgamma (x + d.alpha))).sum - k * lgamma d.alpha

/-- dirichlet_categorical.cc:35-40 `sample`: an index of `counts`. -/
def sample (d : DirichletCategorical) (t : Tape) : Nat × Tape := draw d.counts.length t

/-- dirichlet_categorical.hh:10-11 `ALPHA_GRID`. -/
def alphaGrid : List ℝ := [1e-4, 1e-3, 1e-2, 1e-1, 1.0, 10.0, 100.0, 1000.0, 10000.0]

/-- dirichlet_categorical.cc:42-61 `transition_hyperparameters`. -/
def transitionHyperparameters (d : DirichletCategorical) (t : Tape) : DirichletCategorical × Tape :=
  let (a, t) := pickGrid alphaGrid d.alpha t
  ({ d with alpha := a }, t)

/-- dirichlet_categorical.cc:63-72 `nearest`; `counts.size() - 1` converted to `int` is -1 if there are no categories. -/
def nearest (d : DirichletCategorical) (x : Int) : Int :=
  if x < 0 then 0
  else if (d.counts.length : Int) ≤ x then (d.counts.length : Int) - 1
  else x

end DirichletCategorical

/-! ### Normal -/

/-- normal.hh:27-44; `M_2PI` is 2π. -/
structure Normal where
  r : ℝ := 1
  v : ℝ := 1
  m : ℝ := 0
  s : ℝ := 1
  N : ℝ := 0
  mean : ℝ := 0
  var : ℝ := 0

namespace Normal

/-- normal.cc:10-13 `logZ`. -/
def logZ (r v s : ℝ) : ℝ :=
  (v + 1) / 2 * Real.log 2 + 0.5 * Real.log Real.pi - 0.5 * Real.log r - 0.5 * v * Real.log s + lgamma (0.5 * v)

/-- normal.cc:15-25 `incorporate` (Welford's update, with a reset when `N` becomes zero). -/
def incorporate (d : Normal) (x : ℝ) (weight : ℝ := 1) : Normal :=
  let N := d.N + weight
  if N = 0 then { d with N := N, mean := 0, var := 0 }
  else
    let oldMean := d.mean
    let mean := d.mean + weight * (x - d.mean) / N
    let var := d.var + weight * ((x - mean) * (x - oldMean) - d.var) / N
    { d with N := N, mean := mean, var := var }

/-- base.hh:20-25 `unincorporate`. -/
def unincorporate (d : Normal) (x : ℝ) : Normal := d.incorporate x (-1)

/-- normal.cc:27-36 `posterior_hypers`: (m', s'). -/
def posteriorHypers (d : Normal) : ℝ × ℝ :=
  let mdelta := d.r * (d.m - d.mean) / (d.r + d.N)
  let mprime := d.mean + mdelta
  let sprime := d.s + d.r * (d.m - mprime) * (d.m + mprime) +
    d.N * (d.var - 2 * d.mean * mdelta - mdelta * mdelta)
  (mprime, sprime)

/-- normal.cc:38-50 `logp`: incorporates and unincorporates `x` on `this`; returns the value and the
final state of the object. -/
def logp (d : Normal) (x : ℝ) : ℝ × Normal :=
  let sprime := d.posteriorHypers.2
  let d1 := d.incorporate x
  let sprime2 := d1.posteriorHypers.2
  let d2 := d1.unincorporate x
  (-0.5 * Real.log (2 * Real.pi) + logZ (d2.r + d2.N + 1) (d2.v + d2.N + 1) sprime2 -
    logZ (d2.r + d2.N) (d2.v + d2.N) sprime, d2)

/-- normal.cc:52-57 `logp_score`. -/
def logpScore (d : Normal) : ℝ :=
  -0.5 * d.N * Real.log (2 * Real.pi) + logZ (d.r + d.N) (d.v + d.N) d.posteriorHypers.2 - logZ d.r d.v d.s

/-- normal.hh:16-23: the hyperparameter grids. -/
def grid : List (ℝ × ℝ × ℝ × ℝ) :=
  [0.1, 1.0, 10.0].flatMap fun r => [0.5, 1.0, 2.0, 5.0].flatMap fun v =>
    [-1.0, 0.0, 1.0].flatMap fun m => [0.5, 1.0, 2.0].map fun s => (r, v, m, s)

/-- normal.cc:74-105 `transition_hyperparameters`. -/
def transitionHyperparameters (d : Normal) (t : Tape) : Normal × Tape :=
  let (h, t) := pickGrid grid (d.r, d.v, d.m, d.s) t
  ({ d with r := h.1, v := h.2.1, m := h.2.2.1, s := h.2.2.2 }, t)

end Normal

/-! ### ZeroMeanNormal -/

/-- zero_mean_normal.hh:15-24. -/
structure ZeroMeanNormal where
  alpha : ℝ := 1
  beta : ℝ := 1
  N : ℝ := 0
  var : ℝ := 0

/-- zero_mean_normal.cc:11-19 `log_t_distribution`. -/
def logTDistribution (x v variance : ℝ) : ℝ :=
  let vShift := (v + 1) / 2
  lgamma vShift - lgamma (v / 2) - 0.5 * Real.log (Real.pi * v * variance)
    - vShift * Real.log (1 + x * x / (variance * v))

namespace ZeroMeanNormal

/-- zero_mean_normal.cc:21-28 `incorporate`. -/
def incorporate (d : ZeroMeanNormal) (x : ℝ) (weight : ℝ := 1) : ZeroMeanNormal :=
  let N := d.N + weight
  if N = 0 then { d with N := N, var := 0 }
  else { d with N := N, var := d.var + weight * (x * x - d.var) / N }

/-- base.hh:20-25 `unincorporate`. -/
def unincorporate (d : ZeroMeanNormal) (x : ℝ) : ZeroMeanNormal := d.incorporate x (-1)

/-- zero_mean_normal.cc:32-34, the degrees of freedom `2 * alpha_n` and `t_variance` used by `logp`. -/
def logpParams (d : ZeroMeanNormal) : ℝ × ℝ :=
  let alphaN := d.alpha + d.N / 2
  let betaN := d.beta + 0.5 * d.var * d.N
  (2 * alphaN, betaN / alphaN)

/-- zero_mean_normal.cc:30-36 `logp`. -/
def logp (d : ZeroMeanNormal) (x : ℝ) : ℝ := logTDistribution x d.logpParams.1 d.logpParams.2

/-- zero_mean_normal.cc:38-47 `logp_score`. -/
def logpScore (d : ZeroMeanNormal) : ℝ :=
  let alphaN := d.alpha + d.N / 2
  d.alpha * Real.log d.beta - lgamma d.alpha - (d.N / 2) * Real.log (2 * Real.pi) + lgamma alphaN
    - alphaN * Real.log (d.beta + 0.5 * d.var * d.N)

/-- zero_mean_normal.cc:50-53, the degrees of freedom and `t_variance` used by `sample`; the sample is a
standard Student-t draw times `sqrt(t_variance)`. -/
def sampleParams (d : ZeroMeanNormal) : ℝ × ℝ :=
  let alphaN := d.alpha + d.N / 2
  let betaN := d.beta + d.var * d.N
  (2 * alphaN, betaN / alphaN)

/-- zero_mean_normal.cc:49-55 `sample`, given the standard Student-t draw `z`. -/
def sample (d : ZeroMeanNormal) (z : ℝ) : ℝ := z * Real.sqrt d.sampleParams.2

/-- zero_mean_normal.cc:57-60 the grids. -/
def grid : List (ℝ × ℝ) :=
  DirichletCategorical.alphaGrid.flatMap fun a => DirichletCategorical.alphaGrid.map fun b => (a, b)

/-- zero_mean_normal.cc:62-85 `transition_hyperparameters`. -/
def transitionHyperparameters (d : ZeroMeanNormal) (t : Tape) : ZeroMeanNormal × Tape :=
  let (h, t) := pickGrid grid (d.alpha, d.beta) t
  ({ d with alpha := h.1, beta := h.2 }, t)

end ZeroMeanNormal

/-! ### StringCat -/

/-- stringcat.hh:13-19; `std::string` is modelled by `String`. -/
structure StringCat where
  strings : List String
  dc : DirichletCategorical
  N : ℝ := 0

namespace StringCat

/-- stringcat.hh:19: constructor. -/
def mk' (vs : List String) : StringCat := { strings := vs, dc := .mk' vs.length }

/-- stringcat.cc:11-18 `string_to_index`: index of the first occurrence, `exit(1)` if there is none. -/
def stringToIndex (d : StringCat) (s : String) : Res Int :=
  if s ∈ d.strings then .ok (d.strings.idxOf s) else .error .exit

/-- stringcat.cc:20-23 `incorporate`. -/
def incorporate (d : StringCat) (s : String) (weight : ℝ := 1) : Res StringCat := do
  let i ← d.stringToIndex s
  let dc ← d.dc.incorporate i weight
  .ok { d with dc := dc, N := d.N + weight }

/-- base.hh:20-25 `unincorporate`. -/
def unincorporate (d : StringCat) (s : String) : Res StringCat := d.incorporate s (-1)

/-- stringcat.cc:25-27 `logp`. -/
def logp (d : StringCat) (s : String) : Res ℝ := do
  let i ← d.stringToIndex s
  d.dc.logp i

/-- stringcat.cc:29-31 `logp_score`. -/
def logpScore (d : StringCat) : ℝ := d.dc.logpScore

/-- stringcat.cc:33-35 `sample`; `strings[i]`. -/
def sample (d : StringCat) (t : Tape) : Res (String × Tape) := do
  let (i, t) := d.dc.sample t
  let s ← idxR d.strings i
  .ok (s, t)

/-- stringcat.cc:37-39. -/
def transitionHyperparameters (d : StringCat) (t : Tape) : StringCat × Tape :=
  let (dc, t) := d.dc.transitionHyperparameters t
  ({ d with dc := dc }, t)

end StringCat

/-! ### Bigram -/

/-- bigram.hh:9-37.  Characters are `Char`, compared by code; in C++ a `char` outside ASCII is negative or above
`max_char`, here it is above `maxChar`: both are refused. -/
structure Bigram where
  alpha : ℝ := 1
  N : ℝ := 0
  maxLength : Nat
  minChar : Nat
  maxChar : Nat
  dists : List DirichletCategorical

namespace Bigram

/-- bigram.hh:29 `num_chars`. -/
def numChars (b : Bigram) : Nat := b.maxChar - b.minChar + 1

/-- bigram.hh:27-37 constructor (defaults 80, ' ', '~'). -/
def mk' (maxLength : Nat := 80) (minChar : Nat := 32) (maxChar : Nat := 126) : Bigram :=
  let total := maxChar - minChar + 1 + 1
  { maxLength, minChar, maxChar, dists := List.replicate total (.mk' total) }

/-- bigram.cc:15-18 `char_to_index`. -/
def charToIndex (b : Bigram) (c : Char) : Res Nat := do
  assertR (decide (b.minChar ≤ c.toNat) && decide (c.toNat ≤ b.maxChar))
  .ok (c.toNat - b.minChar)

/-- bigram.cc:20-24 `index_to_char`. -/
def indexToChar (b : Bigram) (i : Nat) : Res Char := do
  let c := i + b.minChar
  assertR (decide (b.minChar ≤ c) && decide (c ≤ b.maxChar))
  .ok (Char.ofNat c)

/-- bigram.cc:30-32: the loop of `string_to_indices`. -/
def charsToIndices (b : Bigram) : List Char → Res (List Nat)
  | [] => .ok []
  | c :: cs => do
    let i ← b.charToIndex c
    let is ← b.charsToIndices cs
    .ok (i :: is)

/-- bigram.cc:26-35 `string_to_indices`. -/
def stringToIndices (b : Bigram) (s : List Char) : Res (List Nat) := do
  let is ← b.charsToIndices s
  .ok (b.numChars :: is ++ [b.numChars])

/-- `transition_dists[i].incorporate(j, weight)`. -/
def incAt (ds : List DirichletCategorical) (i j : Nat) (weight : ℝ) : Res (List DirichletCategorical) := do
  let d ← idxR ds i
  let d' ← d.incorporate j weight
  .ok (ds.set i d')

/-- bigram.cc:44-46: incorporate each pair of successive indices. -/
def incPairs (ds : List DirichletCategorical) (weight : ℝ) : List Nat → Res (List DirichletCategorical)
  | i :: j :: rest => do
    let ds ← incAt ds i j weight
    incPairs ds weight (j :: rest)
  | _ => .ok ds

/-- bigram.cc:37-48 `incorporate`. -/
def incorporate (b : Bigram) (x : List Char) (weight : ℝ := 1) : Res Bigram := do
  if 0 < b.maxLength ∧ b.maxLength < x.length then .error .exit
  else
    let inds ← b.stringToIndices x
    let ds ← incPairs b.dists weight inds
    .ok { b with dists := ds, N := b.N + weight }

/-- base.hh:20-25 `unincorporate`. -/
def unincorporate (b : Bigram) (x : List Char) : Res Bigram := b.incorporate x (-1)

/-- bigram.cc:53-58: accumulate the log probabilities, incorporating each transition. -/
def logpPairs (ds : List DirichletCategorical) : List Nat → Res (ℝ × List DirichletCategorical)
  | i :: j :: rest => do
    let d ← idxR ds i
    let lp ← d.logp j
    let ds ← incAt ds i j 1
    let (total, ds) ← logpPairs ds (j :: rest)
    .ok (lp + total, ds)
  | _ => .ok (0, ds)

/-- bigram.cc:50-63 `logp`: returns the value and the final state. -/
def logp (b : Bigram) (s : List Char) : Res (ℝ × Bigram) := do
  let inds ← b.stringToIndices s
  let (total, ds) ← logpPairs b.dists inds
  let ds ← incPairs ds (-1) inds
  .ok (total, { b with dists := ds })

/-- bigram.cc:65-71 `logp_score`. -/
def logpScore (b : Bigram) : ℝ := (b.dists.map DirichletCategorical.logpScore).sum

/-- bigram.cc:89-93: the loop condition, the appended character and the `break`: the string so far, and whether
the loop stops here. -/
def sampleHead (b : Bigram) (cur : Nat) (acc : List Char) : Res (List Char × Bool) :=
  if cur = b.numChars then .ok (acc, true)
  else do
    let c ← b.indexToChar cur
    .ok (acc ++ [c], decide ((acc ++ [c]).length = b.maxLength))

/-- bigram.cc:82-83 and 94-95: draw the next index with `x` and incorporate the transition. -/
def sampleNext (ds : List DirichletCategorical) (cur x : Nat) : Res (Nat × List DirichletCategorical) := do
  let d ← idxR ds cur
  let next := x % d.counts.length
  let ds ← incAt ds cur next 1
  .ok (next, ds)

/-- bigram.cc:89-97: the loop of `sample`.  Each draw consumes one element of the tape; `none` means that
the draws ran out before the loop stopped. -/
def sampleLoop (b : Bigram) : List DirichletCategorical → Nat → List Char → Tape →
    Option (Res (List Char × List DirichletCategorical))
  | ds, cur, acc, [] =>
    match b.sampleHead cur acc with
    | .error e => some (.error e)
    | .ok (acc, true) => some (.ok (acc, ds))
    | .ok (_, false) => none
  | ds, cur, acc, x :: t =>
    match b.sampleHead cur acc with
    | .error e => some (.error e)
    | .ok (acc, true) => some (.ok (acc, ds))
    | .ok (acc, false) =>
      match sampleNext ds cur x with
      | .error e => some (.error e)
      | .ok (next, ds) => sampleLoop b ds next acc t

/-- bigram.cc:73-101 `sample`: the sampled string and the final state. -/
def sample (b : Bigram) : Tape → Option (Res (List Char × Bigram))
  | [] => none
  | x :: t =>
    match sampleNext b.dists b.numChars x with
    | .error e => some (.error e)
    | .ok (next, ds) =>
      (sampleLoop b ds next [] t).map fun r => do
        let (str, ds) ← r
        let b' ← unincorporate { b with dists := ds, N := b.N + 1 } str
        .ok (str, b')

/-- bigram.cc:103-108 `set_alpha`. -/
def setAlpha (b : Bigram) (a : ℝ) : Bigram :=
  { b with alpha := a, dists := b.dists.map (fun d => { d with alpha := a }) }

/-- bigram.cc:110-129 `transition_hyperparameters`. -/
def transitionHyperparameters (b : Bigram) (t : Tape) : Bigram × Tape :=
  let (a, t) := pickGrid DirichletCategorical.alphaGrid b.alpha t
  (b.setAlpha a, t)

end Bigram

/-- string_nat.hh:16 constructor (default 20). -/
def StringNat.mk' (maxLength : Nat := 20) : Bigram := Bigram.mk' maxLength 48 57

/-- string_nat.hh:18-26 `nearest`: keep the digits. -/
def StringNat.nearest (x : List Char) : List Char := x.filter (fun c => decide (48 ≤ c.toNat) && decide (c.toNat ≤ 57))

/-! ### Non-conjugate distributions, Skellam -/

/-- nonconjugate.hh:8-12 and skellam.hh:8-16. -/
structure Skellam where
  mean1 : ℝ := 0
  mean2 : ℝ := 0
  stddev1 : ℝ := 1
  stddev2 : ℝ := 1
  mu1 : ℝ := 1
  mu2 : ℝ := 1
  N : ℝ := 0
  seen : FMap Int ℝ := ∅

namespace Skellam

/-- nonconjugate.hh:32-35 `incorporate`: `seen[x] += weight` (absent entries start at 0). -/
def incorporate (d : Skellam) (x : Int) (weight : ℝ := 1) : Skellam :=
  { d with seen := d.seen.set x ((d.seen.find? x).getD 0 + weight), N := d.N + weight }

/-- base.hh:20-25 `unincorporate`. -/
def unincorporate (d : Skellam) (x : Int) : Skellam := d.incorporate x (-1)

/-- skellam.cc:13-17 `logp`.  The modified Bessel function of the first kind is a parameter of the model. -/
def logp (besselI : Nat → ℝ → ℝ) (d : Skellam) (x : Int) : ℝ :=
  -d.mu1 - d.mu2 + ((x : ℝ) / 2) * Real.log (d.mu1 / d.mu2)
    + Real.log (besselI x.natAbs (2 * Real.sqrt (d.mu1 * d.mu2)))

/-- nonconjugate.hh:37-43 `logp_score`. -/
def logpScore (besselI : Nat → ℝ → ℝ) (d : Skellam) : ℝ :=
  (d.seen.entries.map (fun e => d.logp besselI e.1 * e.2)).sum

/-- skellam.cc:61-66 `store_latents`. -/
def storeLatents (d : Skellam) : List ℝ := [d.mu1, d.mu2]

/-- skellam.cc:68-72 `set_latents`. -/
def setLatents (d : Skellam) (v : List ℝ) : Res Skellam := do
  assertR (decide (v.length = 2))
  let a ← idxR v 0
  let b ← idxR v 1
  .ok { d with mu1 := a, mu2 := b }

/-- skellam.cc:54-59 `init_theta`, given the two normal draws. -/
def initTheta (d : Skellam) (z1 z2 : ℝ) : Skellam := { d with mu1 := Real.exp z1, mu2 := Real.exp z2 }

/-- nonconjugate.hh:48-62 `transition_theta`, given the draws `z1 z2` of `init_theta` and the uniform draw `p`. -/
def transitionTheta (besselI : Nat → ℝ → ℝ) (d : Skellam) (z1 z2 p : ℝ) : Res Skellam :=
  let oldLatents := d.storeLatents
  let oldScore := d.logpScore besselI
  let d := d.initTheta z1 z2
  let newScore := d.logpScore besselI
  let threshold := newScore - oldScore
  if Real.log p ≤ threshold then .ok d
  else d.setLatents oldLatents

/-- skellam.hh:5-6 and skellam.cc:28-40: the hyperparameter grid. -/
def grid : List (ℝ × ℝ × ℝ × ℝ) :=
  [-10.0, 0.0, 10.0].flatMap fun m1 => [0.1, 1.0, 10.0].flatMap fun s1 =>
    [-10.0, 0.0, 10.0].flatMap fun m2 => [0.1, 1.0, 10.0].map fun s2 => (m1, s1, m2, s2)

/-- skellam.cc:25-52 `transition_hyperparameters`. -/
def transitionHyperparameters (d : Skellam) (t : Tape) : Skellam × Tape :=
  let (h, t) := pickGrid grid (d.mean1, d.stddev1, d.mean2, d.stddev2) t
  ({ d with mean1 := h.1, stddev1 := h.2.1, mean2 := h.2.2.1, stddev2 := h.2.2.2 }, t)

end Skellam

end
end Verif
