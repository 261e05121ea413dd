import Mathlib.Probability.Distributions.Gaussian.Real
import Mathlib.Probability.Distributions.Gamma
import Mathlib.MeasureTheory.Group.Convolution
/-! A normal draw whose precision is a gamma draw. -/
namespace Verif
noncomputable section
open MeasureTheory ProbabilityTheory
open scoped ENNReal

/-- two scaled standard normal draws add up to a normal draw -/
theorem two_normals (m c1 c2 : ℝ) :
    ((gaussianReal 0 1).prod (gaussianReal 0 1)).map (fun z : ℝ × ℝ => m + z.1 * c1 + z.2 * c2) =
      gaussianReal m (Real.toNNReal (c1 ^ 2 + c2 ^ 2)) := by
  have h1 : (gaussianReal 0 1).map (fun z => m + z * c1) = gaussianReal m (Real.toNNReal (c1 ^ 2)) := by
    have e : (fun z : ℝ => m + z * c1) = (fun z => m + z) ∘ (fun z => z * c1) := rfl
    rw [e, ← Measure.map_map (by fun_prop) (by fun_prop), gaussianReal_map_mul_const, gaussianReal_map_const_add]
    congr 1
    · simp
    · rw [mul_one]; ext; simp [Real.coe_toNNReal _ (sq_nonneg c1)]
  have h2 : (gaussianReal 0 1).map (fun z => z * c2) = gaussianReal 0 (Real.toNNReal (c2 ^ 2)) := by
    rw [gaussianReal_map_mul_const]
    congr 1
    · simp
    · rw [mul_one]; ext; simp [Real.coe_toNNReal _ (sq_nonneg c2)]
  have e : (fun z : ℝ × ℝ => m + z.1 * c1 + z.2 * c2) = (fun z : ℝ × ℝ => z.1 + z.2) ∘ (Prod.map (fun z => m + z * c1) (fun z => z * c2)) := rfl
  rw [e, ← Measure.map_map (by fun_prop) (by fun_prop), ← Measure.map_prod_map _ _ (by fun_prop) (by fun_prop), h1, h2]
  have := gaussianReal_conv_gaussianReal (m₁ := m) (m₂ := 0) (v₁ := Real.toNNReal (c1 ^ 2)) (v₂ := Real.toNNReal (c2 ^ 2))
  rw [Measure.conv] at this
  rw [this, add_zero, Real.toNNReal_add (sq_nonneg _) (sq_nonneg _)]

/-- the density of the mixture -/
def tDensity (a s k m x : ℝ) : ℝ :=
  Real.Gamma (a + 1 / 2) / Real.Gamma a / √(Real.pi * (s * k)) * (1 / (1 + (x - m) ^ 2 / (s * k))) ^ (a + 1 / 2)

theorem gauss_eq {s k g : ℝ} (hs : 0 < s) (hk : 0 < k) (hg : 0 < g) (m x : ℝ) :
    gaussianPDFReal m (Real.toNNReal (s * k / (2 * g))) x = g ^ (1 / 2 : ℝ) / √(Real.pi * (s * k)) * Real.exp (-((x - m) ^ 2 / (s * k) * g)) := by
  unfold gaussianPDFReal
  rw [Real.coe_toNNReal _ (by positivity), ← Real.sqrt_eq_rpow, ← Real.sqrt_div hg.le]
  congr 1
  · rw [← Real.sqrt_inv]; congr 1; field_simp
  · congr 1; field_simp

theorem lintegral_mix {a s k : ℝ} (ha : 0 < a) (hs : 0 < s) (hk : 0 < k) (m x : ℝ) :
    ∫⁻ g, gammaPDF a 1 g * gaussianPDF m (Real.toNNReal (s * k / (2 * g))) x = ENNReal.ofReal (tDensity a s k m x) := by
  have hq : 0 < 1 + (x - m) ^ 2 / (s * k) := by positivity
  have h0 : ∫⁻ g, gammaPDF a 1 g * gaussianPDF m (Real.toNNReal (s * k / (2 * g))) x =
      ∫⁻ g in Set.Ioi 0, gammaPDF a 1 g * gaussianPDF m (Real.toNNReal (s * k / (2 * g))) x := by
    rw [← lintegral_add_compl _ (measurableSet_Ioi (a := (0 : ℝ)))]
    conv_rhs => rw [← add_zero (∫⁻ g in Set.Ioi 0, _)]
    congr 1
    refine (setLIntegral_congr_fun measurableSet_Ioi.compl (g := fun _ => 0) fun g hg => ?_).trans (by simp)
    have hg' : g ≤ 0 := by simpa using hg
    rcases hg'.lt_or_eq with h | h
    · simp [gammaPDF_of_neg h]
    · subst h; simp [gaussianPDF]
  rw [h0]
  have h1 : ∫⁻ g in Set.Ioi 0, gammaPDF a 1 g * gaussianPDF m (Real.toNNReal (s * k / (2 * g))) x =
      ∫⁻ g in Set.Ioi 0, ENNReal.ofReal (1 / Real.Gamma a / √(Real.pi * (s * k)) * (g ^ (a + 1 / 2 - 1) * Real.exp (-((1 + (x - m) ^ 2 / (s * k)) * g)))) := by
    refine setLIntegral_congr_fun measurableSet_Ioi fun g hg => ?_
    have hg' : 0 < g := hg
    have hG := Real.Gamma_pos_of_pos ha
    rw [gammaPDF_of_nonneg hg'.le, gaussianPDF, gauss_eq hs hk hg', ← ENNReal.ofReal_mul (by positivity)]
    congr 1
    rw [show a + 1 / 2 - 1 = (a - 1) + 1 / 2 by ring, Real.rpow_add hg', Real.one_rpow,
      show -((1 + (x - m) ^ 2 / (s * k)) * g) = -(1 * g) + -((x - m) ^ 2 / (s * k) * g) by ring, Real.exp_add]
    ring
  have hG := Real.Gamma_pos_of_pos ha
  have hG2 : 0 < Real.Gamma (a + 1 / 2) := Real.Gamma_pos_of_pos (by positivity)
  have hi := Real.integral_rpow_mul_exp_neg_mul_Ioi (a := a + 1 / 2) (by positivity) hq
  have hint : Integrable (fun g : ℝ => 1 / Real.Gamma a / √(Real.pi * (s * k)) * (g ^ (a + 1 / 2 - 1) * Real.exp (-((1 + (x - m) ^ 2 / (s * k)) * g)))) (volume.restrict (Set.Ioi 0)) := by
    refine Integrable.const_mul ?_ _
    by_contra hn
    rw [integral_undef hn] at hi
    have : 0 < (1 / (1 + (x - m) ^ 2 / (s * k))) ^ (a + 1 / 2) * Real.Gamma (a + 1 / 2) := by positivity
    linarith
  rw [h1, ← ofReal_integral_eq_lintegral_ofReal hint]
  · rw [integral_const_mul, hi]
    congr 1
    unfold tDensity
    ring
  · refine (ae_restrict_iff' measurableSet_Ioi).2 (Filter.Eventually.of_forall fun g hg => ?_)
    have hg' : 0 < g := hg
    show 0 ≤ _
    positivity

theorem mix_law {a s k : ℝ} (ha : 0 < a) (hs : 0 < s) (hk : 0 < k) (m : ℝ) (f : ℝ → ℝ × ℝ → ℝ) (hf : Measurable (Function.uncurry f))
    (h : ∀ g, 0 < g → ((gaussianReal 0 1).prod (gaussianReal 0 1)).map (f g) = gaussianReal m (Real.toNNReal (s * k / (2 * g)))) :
    ((gammaMeasure a 1).prod ((gaussianReal 0 1).prod (gaussianReal 0 1))).map (fun p => f p.1 p.2) =
      volume.withDensity (fun x => ENNReal.ofReal (tDensity a s k m x)) := by
  ext A hA
  have hf' : Measurable (fun p : ℝ × (ℝ × ℝ) => f p.1 p.2) := hf
  rw [Measure.map_apply hf' hA, Measure.prod_apply (hf' hA), withDensity_apply _ hA]
  have hm : Measurable (fun p : ℝ × ℝ => gaussianPDF m (Real.toNNReal (s * k / (2 * p.1))) p.2) := by
    unfold gaussianPDF gaussianPDFReal
    fun_prop
  have hg : Measurable (gammaPDF a 1) := by unfold gammaPDF; fun_prop
  have e1 : ∫⁻ g, ((gaussianReal 0 1).prod (gaussianReal 0 1)) (Prod.mk g ⁻¹' ((fun p : ℝ × (ℝ × ℝ) => f p.1 p.2) ⁻¹' A)) ∂(gammaMeasure a 1) =
      ∫⁻ g, ∫⁻ x in A, gammaPDF a 1 g * gaussianPDF m (Real.toNNReal (s * k / (2 * g))) x := by
    unfold gammaMeasure
    rw [lintegral_withDensity_eq_lintegral_mul₀' hg.aemeasurable (by
      exact (measurable_measure_prodMk_left (hf' hA)).aemeasurable)]
    have hne : ∀ᵐ g : ℝ, g ≠ 0 := by
      rw [ae_iff]; simp
    refine lintegral_congr_ae ?_
    filter_upwards [hne] with g hg0
    show gammaPDF a 1 g * _ = _
    rw [lintegral_const_mul _ (measurable_gaussianPDF _ _)]
    rcases lt_or_gt_of_ne hg0 with h1 | h1
    · rw [gammaPDF_of_neg h1, zero_mul, zero_mul]
    · congr 1
      have hv : Real.toNNReal (s * k / (2 * g)) ≠ 0 := by
        rw [Ne, Real.toNNReal_eq_zero, not_le]; positivity
      have h2 := h g h1
      have h3 : ((gaussianReal 0 1).prod (gaussianReal 0 1)) (f g ⁻¹' A) = gaussianReal m (Real.toNNReal (s * k / (2 * g))) A := by
        rw [← h2, Measure.map_apply (show Measurable (f g) from hf'.comp measurable_prodMk_left) hA]
      rw [gaussianReal_apply _ hv] at h3
      exact h3
  rw [e1, lintegral_lintegral_swap]
  · exact lintegral_congr fun x => lintegral_mix ha hs hk m x
  · exact ((hg.comp measurable_fst).mul hm).aemeasurable

end
end Verif
