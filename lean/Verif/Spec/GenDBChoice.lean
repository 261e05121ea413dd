import Verif.Model.GenDBMove
/-! Specification of the choice among the candidates of a reference. -/
namespace Verif
namespace GenDB
open DB
noncomputable section
variable {V : Type} {F : Family V}

/-- The log weights of the candidates `cands`, in their order: the one of the present value `a.init` is the logarithm of its weight plus `a.cur`, the one of another candidate is
what was found when that candidate was tried (C86). -/
structure Weighs (F : Family V) (a : MoveArgs V) (cands : List (Int × ℝ)) (logps : List (WithBot ℝ)) : Prop where
  length : logps.length = cands.length
  present : ∀ (j : Nat) (x : ℝ), cands[j]? = some (a.init, x) → logps[j]? = some (((Real.log x : ℝ) : WithBot ℝ) + a.cur)
  other : ∀ (j : Nat) (table : Int) (x : ℝ), cands[j]? = some (table, x) → table ≠ a.init → ∃ (m : Move F) (e : Ents) (u : Tape) (m' : Move F) (u' : Tape) (lp : WithBot ℝ),
    setRef m.D.ents a.c a.f a.i table = .ok e ∧ tryTable a table x { m.D with ents := e } m u = .ok (m', u') ∧
    m'.logps = m.logps ++ [((Real.log x : ℝ) : WithBot ℝ) + lp] ∧ logps[j]? = some (((Real.log x : ℝ) : WithBot ℝ) + lp)

end
end GenDB
end Verif
