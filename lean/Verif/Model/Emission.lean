import Verif.Model.NoisyRelation
import Verif.Model.Dist
/-!
Model of `/repo/cxx/emissions/`: `base.hh`, `bitflip.hh`, `identity.hh`, `gaussian.hh`, `categorical.hh`, `sometimes.hh` and
`simple_string.hh`.
-/
namespace Verif
noncomputable section

/-- The interface `Emission` (emissions/base.hh:9-24 and distributions/base.hh:11-60) with the weight of `incorporate`, which
`Sometimes` needs. -/
structure WEmis (V : Type) where
  S : Type
  N : S → ℝ
  incW : S → V × V → ℝ → Res S
  logp : S → V × V → Res (ℝ × S)
  score : S → ℝ
  trans : S → Tape → S × Tape
  fresh : S
  corrupt : S → V → Tape → Res (V × Tape)
  propose : S → List V → Tape → Res (V × Tape)

/-- The interface with weights 1 and -1 (distributions/base.hh:17, 20-25). -/
def WEmis.ops {V : Type} (W : WEmis V) : EmisOps V where
  S := W.S
  N := W.N
  inc := fun s x => W.incW s x 1
  dec := fun s x => W.incW s x (-1)
  logp := W.logp
  score := W.score
  trans := W.trans
  fresh := fun t => (W.fresh, t)
  corrupt := W.corrupt
  propose := W.propose

/-- emissions/bitflip.hh:9-36 `BitFlip`; the state is `N`.  `corrupted[0]` of an empty vector is undefined behaviour. -/
def BitFlip : WEmis Bool where
  S := ℝ
  N := fun s => s
  incW := fun s x w => do
    assertR (x.1 != x.2)
    .ok (s + w)
  logp := fun s x => do
    assertR (x.1 != x.2)
    .ok (0, s)
  score := fun _ => 0
  trans := fun s t => (s, t)
  fresh := 0
  corrupt := fun _ clean t => .ok (!clean, t)
  propose := fun _ corrupted t => do
    let c ← idxR corrupted 0
    .ok (!c, t)

/-- emissions/identity.hh:6-33 `IdentityEmission`; the state is `N`. -/
def IdentityEmission (V : Type) : WEmis V where
  S := ℝ
  N := fun s => s
  incW := fun s _ w => .ok (s + w)
  logp := fun s _ => .ok (0, s)
  score := fun _ => 0
  trans := fun s t => (s, t)
  fresh := 0
  corrupt := fun _ clean t => .ok (clean, t)
  propose := fun _ corrupted t => do
    let c ← idxR corrupted 0
    .ok (c, t)

namespace Gaussian

/-- emissions/gaussian.hh:6-10; the state: `N` and the zero-mean normal. -/
structure St where
  N : ℝ := 0
  zmn : ZeroMeanNormal := {}

/-- the loop of gaussian.hh:36-42: `n` values have been seen. -/
def meanLoop (mean : ℝ) (n : Nat) : List ℝ → ℝ
  | [] => mean
  | c :: cs => meanLoop (mean + (c - mean) / ((n + 1 : Nat) : ℝ)) (n + 1) cs

end Gaussian

/-- emissions/gaussian.hh:6-44 `GaussianEmission`; `z` gives the student-t draw of `ZeroMeanNormal::sample` as a function of the
tape. -/
def GaussianEmission (z : Tape → ℝ × Tape) : WEmis ℝ where
  S := Gaussian.St
  N := fun s => s.N
  incW := fun s x w => .ok { N := s.N + w, zmn := s.zmn.incorporate (x.2 - x.1) w }
  logp := fun s x => .ok (s.zmn.logp (x.2 - x.1), s)
  score := fun s => s.zmn.logpScore
  trans := fun s t =>
    let (h, t) := s.zmn.transitionHyperparameters t
    ({ s with zmn := h }, t)
  fresh := {}
  corrupt := fun s clean t =>
    let (d, t) := z t
    .ok (clean + s.zmn.sample d, t)
  propose := fun _ corrupted t => .ok (Gaussian.meanLoop 0 0 corrupted, t)

namespace CategoricalEmission

/-- emissions/categorical.hh:12-21; the state: `N` and one categorical distribution per clean value. -/
structure St where
  N : ℝ := 0
  dists : List DirichletCategorical

/-- `emission_dists[x]` for an `int`: undefined behaviour if out of range (a negative index is a huge `size_t`). -/
def row (s : St) (x : Int) : Res DirichletCategorical := if x < 0 then .error .ub else idxR s.dists x.toNat

/-- categorical.hh:23-26 `incorporate`. -/
def incorporate (s : St) (x : Int × Int) (w : ℝ) : Res St := do
  let d ← row s x.1
  let d ← d.incorporate x.2 w
  .ok { N := s.N + w, dists := s.dists.set x.1.toNat d }

/-- categorical.hh:28-30 `logp`. -/
def logp (s : St) (x : Int × Int) : Res ℝ := do
  let d ← row s x.1
  d.logp x.2

/-- categorical.hh:32-38 `logp_score`. -/
def logpScore (s : St) : ℝ := (s.dists.map DirichletCategorical.logpScore).sum

/-- categorical.hh:40-44 `transition_hyperparameters`. -/
def transLoop : List DirichletCategorical → Tape → List DirichletCategorical × Tape
  | [], t => ([], t)
  | d :: ds, t =>
    let (d, t) := d.transitionHyperparameters t
    let (ds, t) := transLoop ds t
    (d :: ds, t)

/-- categorical.hh:46-48 `sample_corrupted`. -/
def corrupt (s : St) (clean : Int) (t : Tape) : Res (Int × Tape) := do
  let d ← row s clean
  let (x, t) := d.sample t
  .ok ((x : Int), t)

/-- categorical.hh:56-59: the log probability of all observations. -/
def total (d : DirichletCategorical) : List Int → Res ℝ
  | [] => .ok 0
  | c :: cs => do
    let lp ← d.logp c
    let rest ← total d cs
    .ok (lp + rest)

/-- the loop of categorical.hh:55-64; `none` is the initial `lowest()`, which is below every log probability. -/
def bestLoop (corrupted : List Int) (best : Nat) (bestLp : Option ℝ) : Nat → List DirichletCategorical → Res Nat
  | _, [] => .ok best
  | i, d :: ds => do
    let lp ← total d corrupted
    match bestLp with
    | none => bestLoop corrupted i (some lp) (i + 1) ds
    | some b => if b < lp then bestLoop corrupted i (some lp) (i + 1) ds else bestLoop corrupted best bestLp (i + 1) ds

end CategoricalEmission

open CategoricalEmission in
/-- emissions/categorical.hh:12-68 `CategoricalEmission` with `k` states. -/
def CategoricalEmission (k : Nat) : WEmis Int where
  S := St
  N := fun s => s.N
  incW := incorporate
  logp := fun s x => (logp s x).bind fun v => .ok (v, s)
  score := logpScore
  trans := fun s t =>
    let (ds, t) := transLoop s.dists t
    ({ s with dists := ds }, t)
  fresh := { dists := List.replicate k (.mk' k) }
  corrupt := corrupt
  propose := fun s corrupted t => (bestLoop corrupted 0 none 0 s.dists).bind fun b => .ok ((b : Int), t)

/-- The voting loop of sometimes.hh:81-90 and simple_string.hh:168-182: `counts[c]` is the number of times `c` has been seen,
which the model computes from the list of the values seen so far.  Returns the mode. -/
def modeLoop {V : Type} [DecidableEq V] (seen : List V) (maxCount : Nat) (mode : V) : List V → V
  | [] => mode
  | c :: cs =>
    let n := (c :: seen).count c
    if maxCount < n then modeLoop (c :: seen) n c cs else modeLoop (c :: seen) maxCount mode cs

namespace Sometimes
variable {V : Type}

/-- emissions/sometimes.hh:10-15; the state: `N`, the coin, and the state of the base emission. -/
structure St (W : WEmis V) where
  N : ℝ := 0
  bb : BetaBernoulli := {}
  be : W.S := W.fresh

/-- beta_bernoulli.cc:29-35 `sample`. -/
def flip (t : Tape) : Bool × Tape :=
  let (i, t) := draw 2 t
  (i == 1, t)

variable [DecidableEq V]

/-- sometimes.hh:30-48 `incorporate`. -/
def incorporate (W : WEmis V) (dirtyCanEqualClean : Bool) (s : St W) (x : V × V) (w : ℝ) : Res (St W) := do
  if x.1 ≠ x.2 then
    let be ← W.incW s.be x w
    .ok { N := s.N + w, bb := s.bb.incorporate true w, be := be }
  else if dirtyCanEqualClean then
    let (lp, be) ← W.logp s.be x
    let p := Real.exp (s.bb.logp true + lp)
    let bb := s.bb.incorporate true (p * w)
    let be ← W.incW be x (p * w)
    .ok { N := s.N + w, bb := bb.incorporate false ((1 - p) * w), be := be }
  else
    .ok { s with N := s.N + w, bb := s.bb.incorporate false w }

/-- sometimes.hh:50-58 `logp`. -/
def logp (W : WEmis V) (dirtyCanEqualClean : Bool) (s : St W) (x : V × V) : Res (ℝ × St W) := do
  if x.1 ≠ x.2 then
    let (lp, be) ← W.logp s.be x
    .ok (s.bb.logp true + lp, { s with be := be })
  else if !dirtyCanEqualClean then
    .ok (s.bb.logp false, s)
  else
    let (lp, be) ← W.logp s.be x
    .ok (Real.log (Real.exp (s.bb.logp false) + Real.exp (s.bb.logp true + lp)), { s with be := be })

/-- sometimes.hh:62-65 `transition_hyperparameters`. -/
def trans (W : WEmis V) (s : St W) (t : Tape) : St W × Tape :=
  let (be, t) := W.trans s.be t
  let (bb, t) := s.bb.transitionHyperparameters t
  ({ s with bb := bb, be := be }, t)

/-- sometimes.hh:67-72 `sample_corrupted`. -/
def corrupt (W : WEmis V) (s : St W) (clean : V) (t : Tape) : Res (V × Tape) :=
  let (b, t) := flip t
  if b then W.corrupt s.be clean t else .ok (clean, t)

/-- sometimes.hh:74-91 `propose_clean`; `corrupted[0]` of an empty vector is undefined behaviour. -/
def propose (corrupted : List V) (t : Tape) : Res (V × Tape) := do
  let c ← idxR corrupted 0
  .ok (modeLoop [] 0 c corrupted, t)

end Sometimes

/-- emissions/sometimes.hh:10-92 `Sometimes`. -/
def Sometimes {V : Type} [DecidableEq V] (W : WEmis V) (dirtyCanEqualClean : Bool := false) : WEmis V where
  S := Sometimes.St W
  N := fun s => s.N
  incW := Sometimes.incorporate W dirtyCanEqualClean
  logp := Sometimes.logp W dirtyCanEqualClean
  score := fun s => s.bb.logpScore + W.score s.be
  trans := Sometimes.trans W
  fresh := {}
  corrupt := Sometimes.corrupt W
  propose := fun _ => Sometimes.propose

namespace SimpleString

/-- emissions/simple_string.hh:14-20; the state: `N` and three coins. -/
structure St where
  N : ℝ := 0
  sub : BetaBernoulli := {}
  ins : BetaBernoulli := {}
  del : BetaBernoulli := {}

/-- simple_string.hh:34-108 `corporate`. -/
def corporate (s : St) (clean dirty : List Char) (w : ℝ) : St :=
  match clean, dirty with
  | [], [] => { s with ins := s.ins.incorporate false w }
  | [], d => { s with ins := s.ins.incorporate true (w * d.length) }
  | c, [] => { s with del := s.del.incorporate true (w * c.length), ins := s.ins.incorporate false (w * c.length) }
  | c :: cs, d :: ds =>
    if c = d then
      corporate { s with sub := s.sub.incorporate false w, ins := s.ins.incorporate false w, del := s.del.incorporate false w } cs ds w
    else if (c :: cs).getLast? = (d :: ds).getLast? then
      corporate { s with sub := s.sub.incorporate false w, ins := s.ins.incorporate false w, del := s.del.incorporate false w }
        (c :: cs).dropLast (d :: ds).dropLast w
    else if cs.length < ds.length then
      corporate { s with ins := s.ins.incorporate true w } (c :: cs) ds w
    else if ds.length < cs.length then
      corporate { s with del := s.del.incorporate true w, ins := s.ins.incorporate false w } cs (d :: ds) w
    else
      corporate { s with sub := s.sub.incorporate true w, ins := s.ins.incorporate false w, del := s.del.incorporate false w } cs ds w
termination_by clean.length + dirty.length
decreasing_by all_goals (simp; try omega)

/-- simple_string.hh:24-28 `incorporate`. -/
def incorporate (s : St) (x : List Char × List Char) (w : ℝ) : St :=
  corporate { s with N := s.N + w } x.1 x.2 w

/-- simple_string.hh:117-123 `logp_score`; the character range has `'~' + 1 - ' ' = 95` characters. -/
def logpScore (s : St) : ℝ :=
  s.sub.logpScore + s.ins.logpScore + s.del.logpScore + ((s.sub.s + s.ins.s : Int) : ℝ) * Real.log 95

/-- simple_string.hh:110-115 `logp`: incorporates the pair, and undoes it. -/
def logp (s : St) (x : List Char × List Char) : ℝ × St :=
  let s1 := incorporate s x 1
  let s2 := incorporate s1 x (-1)
  (logpScore s1 - logpScore s2, s2)

/-- simple_string.hh:125-129 `transition_hyperparameters`. -/
def trans (s : St) (t : Tape) : St × Tape :=
  let (sub, t) := s.sub.transitionHyperparameters t
  let (ins, t) := s.ins.transitionHyperparameters t
  let (del, t) := s.del.transitionHyperparameters t
  ({ s with sub := sub, ins := ins, del := del }, t)

/-- simple_string.hh:131-134 `random_character`: uniform on `' '` (32) to `'~' + 1` (127), both included. -/
def randomCharacter (t : Tape) : Char × Tape :=
  let (i, t) := draw 96 t
  (Char.ofNat (32 + i), t)

/-- simple_string.hh:139-141, 151-153: `while (insertions.sample(prng)) s += random_character(prng)`.  The tape is finite, so
the loop ends: runs of the coin without end are not modelled. -/
def insertLoop : Tape → List Char × Tape
  | [] => ([], [])
  | d :: t =>
    if d % 2 = 1 then
      match t with
      | [] => ([(randomCharacter []).1], [])
      | c :: t =>
        let (cs, t) := insertLoop t
        ((randomCharacter [c]).1 :: cs, t)
    else ([], t)

/-- simple_string.hh:136-155 `sample_corrupted`. -/
def corrupt : List Char → Tape → List Char × Tape
  | [], t => insertLoop t
  | c :: cs, t =>
    let (ins, t) := insertLoop t
    let (del, t) := Sometimes.flip t
    if del then
      let (rest, t) := corrupt cs t
      (ins ++ rest, t)
    else
      let (sub, t) := Sometimes.flip t
      let (c', t) := if sub then randomCharacter t else (c, t)
      let (rest, t) := corrupt cs t
      (ins ++ c' :: rest, t)

/-- the character of a string at a position, NUL if the string is shorter (simple_string.hh:171-176) -/
def charAt (i : Nat) (s : List Char) : Char := s.getD i (Char.ofNat 0)

/-- simple_string.hh:165-188: the loop of `propose_clean`; `fuel` bounds the number of iterations (see `propose`). -/
def voteLoop (corrupted : List (List Char)) : Nat → Nat → List Char
  | 0, _ => []
  | fuel + 1, i =>
    let mode := modeLoop [] 0 (Char.ofNat 0) (corrupted.map (charAt i))
    if mode = Char.ofNat 0 then [] else mode :: voteLoop corrupted fuel (i + 1)

/-- the length of the longest string -/
def maxLen (l : List (List Char)) : Nat := l.foldr (fun s n => max s.length n) 0

/-- simple_string.hh:157-189 `propose_clean`: past the longest string every vote is NUL, so `maxLen` iterations are enough. -/
def propose (corrupted : List (List Char)) : List Char := voteLoop corrupted (maxLen corrupted + 1) 0

end SimpleString

/-- emissions/simple_string.hh:14-190 `SimpleStringEmission`. -/
def SimpleStringEmission : WEmis (List Char) where
  S := SimpleString.St
  N := fun s => s.N
  incW := fun s x w => .ok (SimpleString.incorporate s x w)
  logp := fun s x => .ok (SimpleString.logp s x)
  score := SimpleString.logpScore
  trans := SimpleString.trans
  fresh := {}
  corrupt := fun _ clean t => .ok (SimpleString.corrupt clean t)
  propose := fun _ corrupted t => .ok (SimpleString.propose corrupted, t)

end
end Verif
