import Verif.Spec.Metropolis
import Mathlib.Analysis.SpecialFunctions.Exponential
import Mathlib.MeasureTheory.Constructions.BorelSpace.Metrizable
/-! The modified Bessel functions: their series converge, and they are positive and measurable. -/
namespace Verif
open Verif.Spec
open scoped Nat
noncomputable section

theorem bessel_summable (n : Nat) (y : ℝ) : Summable (fun k : Nat => (y / 2) ^ (2 * k + n) / (k ! * (k + n)! : ℝ)) := by
  refine Summable.of_norm_bounded (g := fun k : Nat => |y / 2| ^ n * (((y / 2) ^ 2) ^ k / k !)) ((Real.summable_pow_div_factorial _).mul_left _) fun k => ?_
  have h1 : (1 : ℝ) ≤ ((k + n)! : ℝ) := by exact_mod_cast Nat.one_le_iff_ne_zero.2 (Nat.factorial_ne_zero _)
  have h2 : (0 : ℝ) < (k ! : ℝ) := by exact_mod_cast Nat.factorial_pos k
  rw [Real.norm_eq_abs, abs_div, abs_pow, abs_of_pos (by positivity : (0 : ℝ) < k ! * (k + n)!)]
  have h3 : |y / 2| ^ (2 * k + n) = |y / 2| ^ n * ((y / 2) ^ 2) ^ k := by
    rw [pow_add, pow_mul, sq_abs, mul_comm]
  rw [h3, ← mul_div_assoc]
  apply div_le_div_of_nonneg_left (by positivity) h2
  exact le_mul_of_one_le_right h2.le h1

theorem bessel_pos (n : Nat) {y : ℝ} (hy : 0 < y) : 0 < bessel n y := by
  unfold bessel
  refine (bessel_summable n y).tsum_pos (fun k => by positivity) 0 (by positivity)

theorem bessel_measurable (n : Nat) : Measurable (bessel n) := by
  refine measurable_of_tendsto_metrizable (f := fun (N : Nat) (y : ℝ) => ∑ k ∈ Finset.range N, (y / 2) ^ (2 * k + n) / (k ! * (k + n)! : ℝ)) (fun N => by fun_prop) ?_
  rw [tendsto_pi_nhds]
  intro y
  exact (bessel_summable n y).hasSum.tendsto_sum_nat

end
end Verif
