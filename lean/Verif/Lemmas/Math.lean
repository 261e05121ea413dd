import Verif.Model.Math
import Mathlib.Algebra.BigOperators.Group.List.Basic
/-! Helper lemmas about grids, lgamma, logsumexp. -/
namespace Verif

theorem lgamma_add_one {x : ℝ} (hx : 0 < x) : lgamma (x + 1) = Real.log x + lgamma x := by
  unfold lgamma
  rw [Real.Gamma_add_one hx.ne', Real.log_mul hx.ne' (Real.Gamma_pos_of_pos hx).ne']

theorem lgamma_one : lgamma 1 = 0 := by simp [lgamma]

theorem length_linspace (a b : ℝ) (n : Nat) (e : Bool) : (linspace a b n e).length = n := by
  simp [linspace]

theorem length_logLinspace (a b : ℝ) (n : Nat) (e : Bool) : (logLinspace a b n e).length = n := by
  simp [logLinspace, length_linspace]

theorem logLinspace_pos {a b : ℝ} {n : Nat} {e : Bool} {x : ℝ} (h : x ∈ logLinspace a b n e) : 0 < x := by
  simp only [logLinspace, List.mem_map] at h
  obtain ⟨y, _, rfl⟩ := h
  exact Real.exp_pos _

end Verif
