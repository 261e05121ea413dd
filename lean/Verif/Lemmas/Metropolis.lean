import Verif.Model.SkellamLaw
import Mathlib.MeasureTheory.Measure.Lebesgue.Basic
import Mathlib.MeasureTheory.Measure.Prod
import Mathlib.Analysis.SpecialFunctions.Log.Basic
import Mathlib.MeasureTheory.Function.SpecialFunctions.Basic
open MeasureTheory Set ENNReal
/-! Detailed balance of a Metropolis step whose proposals come from the prior. -/
namespace Verif
noncomputable section

theorem unif_univ : uniformLaw univ = 1 := by simp [uniformLaw]

instance : IsProbabilityMeasure uniformLaw := ⟨unif_univ⟩

theorem unif_accept (c : ℝ) : uniformLaw {p | Real.log p ≤ c} = ENNReal.ofReal (min 1 (Real.exp c)) := by
  have hm : MeasurableSet {p : ℝ | Real.log p ≤ c} := measurableSet_le Real.measurable_log measurable_const
  unfold uniformLaw
  rw [Measure.restrict_apply hm]
  by_cases hc : 1 ≤ Real.exp c
  · have : {p : ℝ | Real.log p ≤ c} ∩ Ioo 0 1 = Ioo 0 1 := by
      ext p
      simp only [mem_inter_iff, mem_setOf_eq, mem_Ioo, and_iff_right_iff_imp]
      rintro ⟨h0, h1⟩
      exact (Real.log_le_iff_le_exp h0).mpr (h1.le.trans hc)
    rw [this, min_eq_left hc]
    simp
  · push Not at hc
    have : {p : ℝ | Real.log p ≤ c} ∩ Ioo 0 1 = Ioc 0 (Real.exp c) := by
      ext p
      simp only [mem_inter_iff, mem_setOf_eq, mem_Ioo, mem_Ioc]
      constructor
      · rintro ⟨h, h0, _⟩
        exact ⟨h0, (Real.log_le_iff_le_exp h0).mp h⟩
      · rintro ⟨h0, h⟩
        exact ⟨(Real.log_le_iff_le_exp h0).mpr h, h0, h.trans_lt hc⟩
    rw [this, min_eq_right hc.le]
    simp

variable {Θ : Type*} [MeasurableSpace Θ] {μ : Measure Θ} [IsProbabilityMeasure μ] {s : Θ → ℝ}

/-- what a step makes of `z`, given the proposal and the uniform draw -/
def metropolis (s : Θ → ℝ) (z : Θ) (x : Θ × ℝ) : Θ := if Real.log x.2 ≤ s x.1 - s z then x.1 else z

open Classical in
theorem metropolis_into (hs : Measurable s) {B : Set Θ} (hB : MeasurableSet B) (z : Θ) :
    ENNReal.ofReal (Real.exp (s z)) * (μ.prod uniformLaw) {x | metropolis s z x ∈ B} =
      ∫⁻ z', (B.indicator 1 z' * ENNReal.ofReal (min (Real.exp (s z)) (Real.exp (s z'))) +
        B.indicator 1 z * (ENNReal.ofReal (Real.exp (s z)) * uniformLaw {p | ¬ Real.log p ≤ s z' - s z})) ∂μ := by
  have hacc : MeasurableSet {x : Θ × ℝ | Real.log x.2 ≤ s x.1 - s z} :=
    measurableSet_le (Real.measurable_log.comp measurable_snd) ((hs.comp measurable_fst).sub measurable_const)
  have hset : MeasurableSet {x : Θ × ℝ | metropolis s z x ∈ B} := by
    have : Measurable (fun x : Θ × ℝ => metropolis s z x) := Measurable.ite hacc measurable_fst measurable_const
    exact this hB
  rw [Measure.prod_apply hset, ← lintegral_const_mul _ (measurable_measure_prodMk_left hset)]
  refine lintegral_congr fun z' => ?_
  have hmp : MeasurableSet {p : ℝ | Real.log p ≤ s z' - s z} := measurableSet_le Real.measurable_log measurable_const
  have hsplit : uniformLaw (Prod.mk z' ⁻¹' {x : Θ × ℝ | metropolis s z x ∈ B}) =
      B.indicator 1 z' * uniformLaw {p | Real.log p ≤ s z' - s z} + B.indicator 1 z * uniformLaw {p | ¬ Real.log p ≤ s z' - s z} := by
    have h1 : Prod.mk z' ⁻¹' {x : Θ × ℝ | metropolis s z x ∈ B} =
        ({p | Real.log p ≤ s z' - s z} ∩ {p | z' ∈ B}) ∪ ({p | ¬ Real.log p ≤ s z' - s z} ∩ {p | z ∈ B}) := by
      ext p
      simp only [mem_preimage, mem_setOf_eq, mem_union, mem_inter_iff, metropolis]
      split <;> simp_all
    have hd : Disjoint ({p | Real.log p ≤ s z' - s z} ∩ {p : ℝ | z' ∈ B}) ({p | ¬ Real.log p ≤ s z' - s z} ∩ {p | z ∈ B}) := by
      rw [Set.disjoint_left]
      rintro p ⟨h, _⟩ ⟨h', _⟩
      exact h' h
    have hm2 : MeasurableSet ({p : ℝ | ¬ Real.log p ≤ s z' - s z} ∩ {p | z ∈ B}) := hmp.compl.inter (MeasurableSet.const _)
    rw [h1, measure_union hd hm2]
    congr 1
    · by_cases h : z' ∈ B <;> simp [h]
    · by_cases h : z ∈ B <;> simp [h]
  rw [hsplit, mul_add, unif_accept]
  congr 1
  · rw [← mul_assoc, mul_comm (ENNReal.ofReal _) (B.indicator 1 z'), mul_assoc, ← ENNReal.ofReal_mul (Real.exp_pos _).le]
    congr 2
    rw [mul_min_of_nonneg _ _ (Real.exp_pos _).le, mul_one, ← Real.exp_add]
    congr 2
    ring
  · rw [← mul_assoc, mul_comm (ENNReal.ofReal _) (B.indicator 1 z), mul_assoc]

/-- detailed balance of a Metropolis step whose proposals come from the prior -/
theorem metropolis_balance (hs : Measurable s) {A B : Set Θ} (hA : MeasurableSet A) (hB : MeasurableSet B) :
    ∫⁻ z in A, ENNReal.ofReal (Real.exp (s z)) * (μ.prod uniformLaw) {x | metropolis s z x ∈ B} ∂μ =
      ∫⁻ z in B, ENNReal.ofReal (Real.exp (s z)) * (μ.prod uniformLaw) {x | metropolis s z x ∈ A} ∂μ := by
  have hf : Measurable (fun x : Θ × Θ => ENNReal.ofReal (min (Real.exp (s x.1)) (Real.exp (s x.2)))) :=
    ((Real.measurable_exp.comp (hs.comp measurable_fst)).min (Real.measurable_exp.comp (hs.comp measurable_snd))).ennreal_ofReal
  have key : ∀ {A B : Set Θ}, MeasurableSet A → MeasurableSet B →
      ∫⁻ z in A, ENNReal.ofReal (Real.exp (s z)) * (μ.prod uniformLaw) {x | metropolis s z x ∈ B} ∂μ =
        ∫⁻ z, ∫⁻ z', A.indicator 1 z * B.indicator 1 z' * ENNReal.ofReal (min (Real.exp (s z)) (Real.exp (s z'))) ∂μ ∂μ +
          ∫⁻ z, (A ∩ B).indicator 1 z * ∫⁻ z', (ENNReal.ofReal (Real.exp (s z)) * uniformLaw {p | ¬ Real.log p ≤ s z' - s z}) ∂μ ∂μ := by
    intro A B hA hB
    have hi : ∀ {C : Set Θ}, MeasurableSet C → Measurable (C.indicator (1 : Θ → ℝ≥0∞)) := fun hC => measurable_one.indicator hC
    have hm : Measurable (fun x : Θ × Θ => A.indicator (1 : Θ → ℝ≥0∞) x.1 * B.indicator (1 : Θ → ℝ≥0∞) x.2 * ENNReal.ofReal (min (Real.exp (s x.1)) (Real.exp (s x.2)))) :=
      (((hi hA).comp measurable_fst).mul ((hi hB).comp measurable_snd)).mul hf
    rw [← lintegral_indicator hA, ← lintegral_add_left hm.lintegral_prod_right']
    refine lintegral_congr fun z => ?_
    by_cases hz : z ∈ A
    · rw [indicator_of_mem hz, metropolis_into hs hB, lintegral_add_left (by
        exact (hi hB).mul (hf.comp measurable_prodMk_left))]
      congr 1
      · refine lintegral_congr fun z' => ?_
        rw [indicator_of_mem hz, Pi.one_apply, one_mul]
      · by_cases hzb : z ∈ B
        · rw [indicator_of_mem hzb, indicator_of_mem (mem_inter hz hzb)]
          simp
        · rw [indicator_of_notMem hzb, indicator_of_notMem (fun h => hzb h.2)]
          simp
    · rw [indicator_of_notMem hz, indicator_of_notMem (fun h => hz h.1)]
      simp [hz]
  rw [key hA hB, key hB hA, inter_comm B A]
  congr 1
  rw [lintegral_lintegral_swap]
  · refine lintegral_congr fun z => lintegral_congr fun z' => ?_
    rw [mul_comm (A.indicator 1 z'), min_comm]
  · have hi : ∀ {C : Set Θ}, MeasurableSet C → Measurable (C.indicator (1 : Θ → ℝ≥0∞)) := fun hC => measurable_one.indicator hC
    exact ((((hi hA).comp measurable_fst).mul ((hi hB).comp measurable_snd)).mul hf).aemeasurable

end
end Verif
