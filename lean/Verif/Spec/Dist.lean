import Verif.Model.Dist
import Mathlib.Data.Multiset.Basic
import Mathlib.Algebra.BigOperators.Group.Multiset.Basic
/-!
Specification of what a distribution object is: a container for a multiset of values.
-/
namespace Verif
noncomputable section

/-- The interface `Distribution<T>` (distributions/base.hh:11-60), as seen by a caller.  `unincorporate` is
`incorporate` with weight -1 (base.hh:20-25).  `logp` also returns the state it leaves behind: several C++ classes
evaluate it by mutating the object and undoing the mutation. -/
structure DistOps (V : Type) where
  S : Type
  N : S → ℝ
  inc : S → V → Res S
  dec : S → V → Res S
  logp : S → V → Res (ℝ × S)
  score : S → ℝ
  /-- `transition_hyperparameters` -/
  trans : S → Tape → S × Tape
  /-- `transition_theta` (base.hh:53: nothing to do, unless the distribution is non-conjugate) -/
  theta : S → Tape → S × Tape := fun s t => (s, t)
  /-- creation of an object, with the random parameters it draws, if any -/
  fresh : Tape → S × Tape

/-- One step of a history of a distribution: incorporate or unincorporate a value, evaluate `logp`, or transition the
hyperparameters or the parameters with given draws. -/
inductive DataOp (V : Type) where
  | inc (x : V)
  | dec (x : V)
  | eval (x : V)
  | trans (t : Tape)
  | theta (t : Tape)

/-- The step leaves the hyperparameters alone. -/
def DataOp.keepsHypers {V : Type} : DataOp V → Bool
  | .trans _ => false
  | .theta _ => false
  | _ => true

open Classical in
/-- The data present after a history that starts with the data `m`: `none` if the history incorporates or evaluates an
unsupported value, or removes a value that is not present. -/
def remaining {V : Type} (supp : V → Prop) : List (DataOp V) → Multiset V → Option (Multiset V)
  | [], m => some m
  | .inc x :: h, m => if supp x then remaining supp h (x ::ₘ m) else none
  | .dec x :: h, m => if x ∈ m then remaining supp h (m.erase x) else none
  | .eval x :: h, m => if supp x then remaining supp h m else none
  | .trans _ :: h, m => remaining supp h m
  | .theta _ :: h, m => remaining supp h m

/-- Run a history. -/
def DistOps.run {V : Type} (D : DistOps V) : D.S → List (DataOp V) → Res D.S
  | s, [] => .ok s
  | s, .inc x :: h => (D.inc s x).bind fun s => D.run s h
  | s, .dec x :: h => (D.dec s x).bind fun s => D.run s h
  | s, .eval x :: h => (D.logp s x).bind fun r => D.run r.2 h
  | s, .trans t :: h => D.run (D.trans s t).1 h
  | s, .theta t :: h => D.run (D.theta s t).1 h

/-- `s` is the state of an object of type `D` that now holds the data `m`: the result of some history of a fresh object. -/
def DistOps.Holds {V : Type} (D : DistOps V) (supp : V → Prop) (m : Multiset V) (s : D.S) : Prop :=
  ∃ t ops, remaining supp ops 0 = some m ∧ D.run (D.fresh t).1 ops = .ok s

/-- No legal history fails, and `N` is the number of values held. -/
def DistOps.Total {V : Type} (D : DistOps V) (supp : V → Prop) : Prop :=
  ∀ t ops m, remaining supp ops 0 = some m → ∃ s, D.run (D.fresh t).1 ops = .ok s ∧ D.N s = Multiset.card m

/-- C10: incorporating a supported value and unincorporating it restores the state, and evaluating `logp` does not change it. -/
def DistOps.RoundTrip {V : Type} (D : DistOps V) (supp : V → Prop) : Prop :=
  ∀ m s x, D.Holds supp m s → supp x →
    (∃ s1, D.inc s x = .ok s1 ∧ D.dec s1 x = .ok s) ∧ ∃ v, D.logp s x = .ok (v, s)

/-- evaluating `logp` of a supported value succeeds and does not change the state -/
def DistOps.LogpPure {V : Type} (D : DistOps V) (supp : V → Prop) : Prop :=
  ∀ m s x, D.Holds supp m s → supp x → ∃ v, D.logp s x = .ok (v, s)

theorem DistOps.RoundTrip.logpPure {V : Type} {D : DistOps V} {supp : V → Prop} (h : D.RoundTrip supp) : D.LogpPure supp :=
  fun m s x hs hx => (h m s x hs hx).2

/-- C11: two histories that leave the same data behind, from the same state, end in the same state. -/
def DistOps.Exchangeable {V : Type} (D : DistOps V) (supp : V → Prop) : Prop :=
  ∀ m0 s0 h1 h2 m, D.Holds supp m0 s0 → (∀ o ∈ h1, o.keepsHypers) → (∀ o ∈ h2, o.keepsHypers) →
    remaining supp h1 m0 = some m → remaining supp h2 m0 = some m →
    ∃ s, D.run s0 h1 = .ok s ∧ D.run s0 h2 = .ok s ∧ D.N s = Multiset.card m

/-- C13: the predictive probability is the ratio of the marginal likelihoods: `logp x` is the score after
incorporating `x` minus the score before. -/
def DistOps.ScoreRatio {V : Type} (D : DistOps V) (supp : V → Prop) : Prop :=
  ∀ m s x, D.Holds supp m s → supp x →
    ∃ s1 s2, D.inc s x = .ok s1 ∧ D.logp s x = .ok (D.score s1 - D.score s, s2)

/-- `D` stores a multiset of supported values: there is an abstraction relation `Rep h m s` ("the state `s` holds
exactly the data `m`, with hyperparameters `h`"), which `incorporate` and `unincorporate` follow, and which
determines `N`. -/
structure Lawful {V : Type} (D : DistOps V) (supp : V → Prop) where
  H : Type
  Rep : H → Multiset V → D.S → Prop
  fresh : ∀ t, ∃ h, Rep h 0 (D.fresh t).1
  supported : ∀ {h m s x}, Rep h m s → x ∈ m → supp x
  inc : ∀ {h m s x}, Rep h m s → supp x → ∃ s', D.inc s x = .ok s' ∧ Rep h (x ::ₘ m) s'
  dec : ∀ {h m s x}, Rep h (x ::ₘ m) s → ∃ s', D.dec s x = .ok s' ∧ Rep h m s'
  count : ∀ {h m s}, Rep h m s → D.N s = Multiset.card m
  logp : ∀ {h m s x}, Rep h m s → supp x → ∃ v s', D.logp s x = .ok (v, s') ∧ Rep h m s'
  trans : ∀ {h m s}, Rep h m s → ∀ t, ∃ h', Rep h' m (D.trans s t).1
  theta : ∀ {h m s}, Rep h m s → ∀ t, ∃ h', Rep h' m (D.theta s t).1 := by exact fun hr _ => ⟨_, hr⟩

/-- The data and the hyperparameters determine the score. -/
def Lawful.Scored {V : Type} {D : DistOps V} {supp : V → Prop} (L : Lawful D supp) : Prop :=
  ∀ h m s s', L.Rep h m s → L.Rep h m s' → D.score s = D.score s'

/-- C13 in terms of the abstraction relation. -/
def Coherent {V : Type} {D : DistOps V} {supp : V → Prop} (L : Lawful D supp) : Prop :=
  ∀ h m s x s1, L.Rep h m s → supp x → D.inc s x = .ok s1 →
    ∃ s', D.logp s x = .ok (D.score s1 - D.score s, s')

/-! The distributions of the repository as instances of the interface. -/

/-- beta_bernoulli.hh/cc -/
def BetaBernoulli.ops : DistOps Bool where
  S := BetaBernoulli
  N := fun s => s.N
  inc := fun s x => .ok (s.incorporate x)
  dec := fun s x => .ok (s.unincorporate x)
  logp := fun s x => .ok (s.logp x, s)
  score := fun s => s.logpScore
  trans := fun s t => s.transitionHyperparameters t
  fresh := fun t => ({}, t)

/-- dirichlet_categorical.hh/cc with `k` categories -/
def DirichletCategorical.ops (k : Nat) : DistOps Int where
  S := DirichletCategorical
  N := fun s => s.N
  inc := fun s x => s.incorporate x
  dec := fun s x => s.unincorporate x
  logp := fun s x => (s.logp x).bind fun v => .ok (v, s)
  score := fun s => s.logpScore
  trans := fun s t => s.transitionHyperparameters t
  fresh := fun t => (.mk' k, t)

/-- normal.hh/cc -/
def Normal.ops : DistOps ℝ where
  S := Normal
  N := fun s => s.N
  inc := fun s x => .ok (s.incorporate x)
  dec := fun s x => .ok (s.unincorporate x)
  logp := fun s x => .ok (s.logp x)
  score := fun s => s.logpScore
  trans := fun s t => s.transitionHyperparameters t
  fresh := fun t => ({}, t)

/-- zero_mean_normal.hh/cc -/
def ZeroMeanNormal.ops : DistOps ℝ where
  S := ZeroMeanNormal
  N := fun s => s.N
  inc := fun s x => .ok (s.incorporate x)
  dec := fun s x => .ok (s.unincorporate x)
  logp := fun s x => .ok (s.logp x, s)
  score := fun s => s.logpScore
  trans := fun s t => s.transitionHyperparameters t
  fresh := fun t => ({}, t)

/-- stringcat.hh/cc over the given strings -/
def StringCat.ops (strings : List String) : DistOps String where
  S := StringCat
  N := fun s => s.N
  inc := fun s x => s.incorporate x
  dec := fun s x => s.unincorporate x
  logp := fun s x => (s.logp x).bind fun v => .ok (v, s)
  score := fun s => s.logpScore
  trans := fun s t => s.transitionHyperparameters t
  fresh := fun t => (.mk' strings, t)

/-- bigram.hh/cc (and string_nat.hh) -/
def Bigram.ops (maxLength minChar maxChar : Nat) : DistOps (List Char) where
  S := Bigram
  N := fun s => s.N
  inc := fun s x => s.incorporate x
  dec := fun s x => s.unincorporate x
  logp := fun s x => s.logp x
  score := fun s => s.logpScore
  trans := fun s t => s.transitionHyperparameters t
  fresh := fun t => (.mk' maxLength minChar maxChar, t)

/-- skellam.hh/cc; `z` gives the normal draws of `init_theta` as functions of the tape, `p` the uniform draw of
`transition_theta`. -/
def Skellam.ops (besselI : Nat → ℝ → ℝ) (z : Tape → ℝ × ℝ) (p : Tape → ℝ) : DistOps Int where
  S := Skellam
  N := fun s => s.N
  inc := fun s x => .ok (s.incorporate x)
  dec := fun s x => .ok (s.unincorporate x)
  logp := fun s x => .ok (s.logp besselI x, s)
  score := fun s => s.logpScore besselI
  trans := fun s t => s.transitionHyperparameters t
  theta := fun s t => (match s.transitionTheta besselI (z t).1 (z t).2 (p t) with
    | .ok s' => s'
    | .error _ => s, t.drop 3)
  fresh := fun t => (Skellam.initTheta {} (z t).1 (z t).2, t.drop 2)

/-- The strings a bigram model accepts: not too long, all characters in the range. -/
def Bigram.Accepts (maxLength minChar maxChar : Nat) (x : List Char) : Prop :=
  (0 < maxLength → x.length ≤ maxLength) ∧ ∀ c ∈ x, minChar ≤ c.toNat ∧ c.toNat ≤ maxChar

end
end Verif

namespace Verif
noncomputable section

/-- adapter.hh:14-64 `DistributionAdapter`: a distribution over strings made of a distribution over `V`; the state is the
adapter's own `N` (base.hh:13) and the state of the adapted distribution.  `parse` models `from_string` (adapter.hh:23-27), a parameter
of the model. -/
def DistOps.adapt {V : Type} (D : DistOps V) (parse : String → Res V) : DistOps String where
  S := ℝ × D.S
  N := fun s => s.1
  inc := fun s x => (parse x).bind fun v => (D.inc s.2 v).bind fun d => .ok (s.1 + 1, d)
  dec := fun s x => (parse x).bind fun v => (D.dec s.2 v).bind fun d => .ok (s.1 + -1, d)
  logp := fun s x => (parse x).bind fun v => (D.logp s.2 v).bind fun r => .ok (r.1, (s.1, r.2))
  score := fun s => D.score s.2
  trans := fun s t => ((s.1, (D.trans s.2 t).1), (D.trans s.2 t).2)
  theta := fun s t => ((s.1, (D.theta s.2 t).1), (D.theta s.2 t).2)
  fresh := fun t => ((0, (D.fresh t).1), (D.fresh t).2)

end
end Verif

namespace Verif
noncomputable section

/-- The predictive probabilities of the listed values sum to one, and evaluating them does not change the state. -/
def DistOps.Normalised {V : Type} (D : DistOps V) (supp : V → Prop) (vals : List V) : Prop :=
  ∀ m s, D.Holds supp m s → ∃ f : V → ℝ, (∀ v ∈ vals, D.logp s v = .ok (f v, s)) ∧ (vals.map (fun v => Real.exp (f v))).sum = 1

end
end Verif
