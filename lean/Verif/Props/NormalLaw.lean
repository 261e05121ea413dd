import Verif.Model.NormalLaw
import Verif.Lemmas.StudentT
import Verif.Props.Dist
/-! ### C94: the samples of Normal have the density that `logp` reports -/
namespace Verif
open MeasureTheory ProbabilityTheory
open scoped ENNReal
noncomputable section

/-- the data keep the scale of the posterior positive -/
theorem Normal.sprime_eq (h : ℝ × ℝ × ℝ × ℝ) (hr : 0 < h.1) (d : Multiset ℝ) (x : ℝ) :
    (Normal.rep h (x ::ₘ d)).posteriorHypers.2 = (Normal.rep h d).posteriorHypers.2 +
      (x - (Normal.rep h d).posteriorHypers.1) ^ 2 * ((h.1 + Multiset.card d) / (h.1 + Multiset.card d + 1)) := by
  simp only [Normal.posteriorHypers, Normal.rep, Multiset.card_cons, Multiset.sum_cons, Multiset.map_cons]
  rcases Multiset.empty_or_exists_mem d with rfl | ⟨y, hy⟩
  · have : h.1 + 1 ≠ 0 := by positivity
    simp
    field_simp
    ring
  · have hp : (0 : ℝ) < Multiset.card d := by exact_mod_cast Multiset.card_pos.2 (by rintro rfl; simp at hy)
    have h1 : h.1 + (Multiset.card d : ℝ) ≠ 0 := by positivity
    have h2 : h.1 + (Multiset.card d : ℝ) + 1 ≠ 0 := by positivity
    have h3 : h.1 + ((Multiset.card d : ℝ) + 1) ≠ 0 := by positivity
    push_cast
    field_simp
    ring

theorem Normal.sprime_pos (h : ℝ × ℝ × ℝ × ℝ) (hr : 0 < h.1) (hs : 0 < h.2.2.2) (d : Multiset ℝ) : 0 < (Normal.rep h d).posteriorHypers.2 := by
  induction d using Multiset.induction with
  | empty =>
    simp only [Normal.posteriorHypers, Normal.rep]
    simp
    field_simp
    simpa using hs
  | cons x d ih =>
    rw [Normal.sprime_eq h hr]
    positivity

theorem Normal.exp_logp (h : ℝ × ℝ × ℝ × ℝ) (hr : 0 < h.1) (hv : 0 < h.2.1) (hs : 0 < h.2.2.2) (d : Multiset ℝ) (x : ℝ) :
    Real.exp ((Normal.rep h d).logp x).1 = tDensity ((h.2.1 + Multiset.card d) / 2) (Normal.rep h d).posteriorHypers.2
      ((h.1 + Multiset.card d + 1) / (h.1 + Multiset.card d)) (Normal.rep h d).posteriorHypers.1 x := by
  have hsp := Normal.sprime_pos h hr hs d
  have hc : (0 : ℝ) ≤ Multiset.card d := by positivity
  simp only [Normal.logp, Normal.inc_rep, Normal.dec_rep]
  rw [Normal.sprime_eq h hr]
  set S := (Normal.rep h d).posteriorHypers.2
  set M := (Normal.rep h d).posteriorHypers.1
  show Real.exp (-0.5 * Real.log (2 * Real.pi) + Normal.logZ (h.1 + Multiset.card d + 1) (h.2.1 + Multiset.card d + 1) _ -
    Normal.logZ (h.1 + Multiset.card d) (h.2.1 + Multiset.card d) S) = _
  have hR : 0 < h.1 + (Multiset.card d : ℝ) := by positivity
  have hA : 0 < h.2.1 + (Multiset.card d : ℝ) := by positivity
  generalize h.1 + (Multiset.card d : ℝ) = R at *
  generalize h.2.1 + (Multiset.card d : ℝ) = A at *
  have hpi := Real.pi_pos
  have hq : 0 < 1 + (x - M) ^ 2 / (S * ((R + 1) / R)) := by positivity
  have e1 : S + (x - M) ^ 2 * (R / (R + 1)) = S * (1 + (x - M) ^ 2 / (S * ((R + 1) / R))) := by field_simp
  have hG := Real.Gamma_pos_of_pos (show 0 < A / 2 by positivity)
  have hG2 := Real.Gamma_pos_of_pos (show 0 < A / 2 + 1 / 2 by positivity)
  have hpos : 0 < tDensity (A / 2) S ((R + 1) / R) M x := by unfold tDensity; positivity
  rw [← Real.exp_log hpos]
  congr 1
  have e2 : Real.log (tDensity (A / 2) S ((R + 1) / R) M x) = Real.log (Real.Gamma (A / 2 + 1 / 2)) - Real.log (Real.Gamma (A / 2)) -
      (Real.log Real.pi + (Real.log S + (Real.log (R + 1) - Real.log R))) / 2 - (A / 2 + 1 / 2) * Real.log (1 + (x - M) ^ 2 / (S * ((R + 1) / R))) := by
    unfold tDensity
    rw [Real.log_mul (by positivity) (by positivity), Real.log_div (by positivity) (by positivity), Real.log_div (by positivity) (by positivity),
      Real.log_sqrt (by positivity), Real.log_rpow (by positivity), Real.log_div one_ne_zero hq.ne', Real.log_one,
      Real.log_mul hpi.ne' (by positivity), Real.log_mul hsp.ne' (by positivity), Real.log_div (by positivity) hR.ne']
    ring
  rw [e2]
  unfold Normal.logZ lgamma
  rw [e1, Real.log_mul hsp.ne' hq.ne', Real.log_mul (by norm_num) hpi.ne']
  rw [show (0.5 : ℝ) * (A + 1) = A / 2 + 1 / 2 by ring, show (0.5 : ℝ) * A = A / 2 by ring]
  ring

/-- **C94.** `sample` draws a value from the distribution whose density is `exp (logp x)`, whatever the data held. -/
theorem C94_normal (m : Multiset ℝ) (s : Normal) (hs : Normal.ops.Holds (fun _ => True) m s) :
    s.sampleLaw = volume.withDensity (fun x => ENNReal.ofReal (Real.exp (s.logp x).1)) := by
  obtain ⟨⟨h, hr, hv, hs'⟩, hrep⟩ := Normal.lawful.holds hs
  have hrep' : s = Normal.rep h m := hrep
  subst hrep'
  have hsp := Normal.sprime_pos h hr hs' m
  have hR : 0 < h.1 + (Multiset.card m : ℝ) := by positivity
  simp only [Normal.exp_logp h hr hv hs' m]
  have hA : 0 < (h.2.1 + (Multiset.card m : ℝ)) / 2 := by positivity
  have hk : 0 < (h.1 + (Multiset.card m : ℝ) + 1) / (h.1 + (Multiset.card m : ℝ)) := by positivity
  refine mix_law hA hsp hk _ (fun g z => (Normal.rep h m).sample g z.1 z.2) ?_ ?_
  · unfold Normal.sample Function.uncurry
    dsimp only
    fun_prop
  · intro g hg
    have := two_normals (Normal.rep h m).posteriorHypers.1 (1 / √(g * (2 / (Normal.rep h m).posteriorHypers.2) * (h.1 + Multiset.card m)))
      (1 / √(g * (2 / (Normal.rep h m).posteriorHypers.2)))
    refine Eq.trans this ?_
    congr 2
    rw [div_pow, div_pow, Real.sq_sqrt (by positivity), Real.sq_sqrt (by positivity)]
    field_simp
    ring

/-- **C94.** The reported densities integrate to one. -/
theorem C94_normalized (m : Multiset ℝ) (s : Normal) (hs : Normal.ops.Holds (fun _ => True) m s) :
    ∫⁻ x, ENNReal.ofReal (Real.exp (s.logp x).1) = 1 := by
  have h := C94_normal m s hs
  obtain ⟨⟨h', hr, hv, hs'⟩, hrep⟩ := Normal.lawful.holds hs
  have hrep' : s = Normal.rep h' m := hrep
  have hnu : 0 < (s.v + s.N) / 2 := by
    subst hrep'
    show 0 < (h'.2.1 + (Multiset.card m : ℝ)) / 2
    positivity
  have := isProbabilityMeasure_gammaMeasure hnu one_pos
  have h1 : s.sampleLaw Set.univ = 1 := by
    unfold Normal.sampleLaw
    rw [Measure.map_apply (by unfold Normal.sample; dsimp only; fun_prop) MeasurableSet.univ]
    simp
  rw [h, withDensity_apply _ MeasurableSet.univ, Measure.restrict_univ] at h1
  exact h1

/-- A Normal that holds two data; the density it reports is then the one of its samples. -/
example : ∃ s, Normal.ops.Holds (fun _ => True) {5, 2} s ∧ s.sampleLaw = volume.withDensity (fun x => ENNReal.ofReal (Real.exp (s.logp x).1)) := by
  have hr : remaining (fun _ => True) [.inc 2, .trans [17], .inc 5] 0 = some ({5, 2} : Multiset ℝ) := by simp only [remaining, if_true]; rfl
  obtain ⟨s, h, _⟩ := Normal.lawful.total [] _ _ hr
  have h' : Normal.ops.Holds (fun _ => True) {5, 2} s := ⟨_, _, hr, h⟩
  exact ⟨s, h', C94_normal _ _ h'⟩

theorem one_normal (c : ℝ) : (gaussianReal 0 1).map (fun z => z * c) = gaussianReal 0 (Real.toNNReal (c ^ 2)) := by
  rw [gaussianReal_map_mul_const]
  congr 1
  · simp
  · rw [mul_one]; ext; simp [Real.coe_toNNReal _ (sq_nonneg c)]

theorem ZeroMeanNormal.law_eq {s : ZeroMeanNormal} (ha : 0 < s.alpha + s.N / 2) (hb : 0 < s.beta + s.var * s.N) :
    s.sampleLaw = volume.withDensity (fun x => ENNReal.ofReal (tDensity (s.alpha + s.N / 2) (2 * (s.beta + s.var * s.N)) 1 0 x)) := by
  have hm1 : Measurable (fun p : ℝ × ℝ => p.2 / Real.sqrt (2 * p.1 / s.sampleParams.1)) := by fun_prop
  have hm2 : Measurable s.sample := by unfold ZeroMeanNormal.sample; fun_prop
  rw [← mix_law ha (show 0 < 2 * (s.beta + s.var * s.N) by positivity) one_pos 0
    (fun g z => s.sample (z.1 / Real.sqrt (2 * g / s.sampleParams.1))) (by unfold ZeroMeanNormal.sample Function.uncurry; fun_prop) ?_]
  · unfold ZeroMeanNormal.sampleLaw studentT
    rw [Measure.map_map hm2 hm1]
    have e1 : s.sampleParams.1 / 2 = s.alpha + s.N / 2 := by simp only [ZeroMeanNormal.sampleParams]; ring
    rw [e1]
    have e2 : (gammaMeasure (s.alpha + s.N / 2) 1).prod (gaussianReal 0 1) =
        ((gammaMeasure (s.alpha + s.N / 2) 1).prod ((gaussianReal 0 1).prod (gaussianReal 0 1))).map (Prod.map id Prod.fst) := by
      have := isProbabilityMeasure_gammaMeasure ha one_pos
      rw [← Measure.map_prod_map _ _ measurable_id measurable_fst, Measure.map_id, Measure.map_fst_prod]
      simp
    rw [e2, Measure.map_map (hm2.comp hm1) (by fun_prop)]
    rfl
  · intro g hg
    have hn : 0 < s.sampleParams.1 := by simp only [ZeroMeanNormal.sampleParams]; positivity
    have e3 : (fun z : ℝ × ℝ => s.sample (z.1 / Real.sqrt (2 * g / s.sampleParams.1))) =
        (fun z => z * (√s.sampleParams.2 / √(2 * g / s.sampleParams.1))) ∘ Prod.fst := by
      funext z; simp only [ZeroMeanNormal.sample, Function.comp]; ring
    rw [e3, ← Measure.map_map (by fun_prop) measurable_fst, Measure.map_fst_prod]
    simp only [measure_univ, one_smul]
    rw [one_normal]
    congr 2
    rw [div_pow, Real.sq_sqrt (by simp only [ZeroMeanNormal.sampleParams]; positivity), Real.sq_sqrt (by positivity)]
    simp only [ZeroMeanNormal.sampleParams]
    have hA : s.alpha * 2 + s.N ≠ 0 := by linarith
    field_simp

theorem ZeroMeanNormal.exp_logp {s : ZeroMeanNormal} (ha : 0 < s.alpha + s.N / 2) (hb : 0 < s.beta + 0.5 * s.var * s.N) (x : ℝ) :
    Real.exp (s.logp x) = tDensity (s.alpha + s.N / 2) (2 * (s.beta + 0.5 * s.var * s.N)) 1 0 x := by
  unfold ZeroMeanNormal.logp ZeroMeanNormal.logpParams
  dsimp only
  generalize s.alpha + s.N / 2 = A at *
  generalize s.beta + 0.5 * s.var * s.N = B at *
  have hpi := Real.pi_pos
  have hG := Real.Gamma_pos_of_pos ha
  have hG2 := Real.Gamma_pos_of_pos (show 0 < A + 1 / 2 by positivity)
  have hq : 0 < 1 + x ^ 2 / (2 * B) := by positivity
  have hpos : 0 < tDensity A (2 * B) 1 0 x := by unfold tDensity; positivity
  rw [← Real.exp_log hpos]
  congr 1
  have e2 : Real.log (tDensity A (2 * B) 1 0 x) = Real.log (Real.Gamma (A + 1 / 2)) - Real.log (Real.Gamma A) - Real.log (Real.pi * (2 * B)) / 2 -
      (A + 1 / 2) * Real.log (1 + x ^ 2 / (2 * B)) := by
    unfold tDensity
    simp only [sub_zero, mul_one]
    rw [Real.log_mul (by positivity) (by positivity), Real.log_div (by positivity) (by positivity), Real.log_div (by positivity) (by positivity),
      Real.log_sqrt (by positivity), Real.log_rpow (by positivity), Real.log_div one_ne_zero hq.ne', Real.log_one]
    ring
  rw [e2]
  unfold logTDistribution lgamma
  dsimp only
  rw [show 2 * A / 2 = A by ring, show (2 * A + 1) / 2 = A + 1 / 2 by ring, show Real.pi * (2 * A) * (B / A) = Real.pi * (2 * B) by field_simp,
    show B / A * (2 * A) = 2 * B by field_simp, show x * x = x ^ 2 by ring]
  ring

theorem tDensity_continuous {a s k : ℝ} (hs : 0 < s) (hk : 0 < k) (ha : 0 < a) (m : ℝ) : Continuous (tDensity a s k m) := by
  unfold tDensity
  refine continuous_const.mul (Continuous.rpow_const ?_ fun _ => Or.inr (by positivity))
  exact continuous_const.div (by fun_prop) fun x => by positivity

theorem ZeroMeanNormal.sumsq_zero (m : Multiset ℝ) : (m.map (fun x => x * x)).sum = 0 ↔ ∀ x ∈ m, x = 0 := by
  induction m using Multiset.induction with
  | empty => simp
  | cons a m ih =>
    have h1 := ZeroMeanNormal.sumsq_nonneg m
    have h2 := mul_self_nonneg a
    simp only [Multiset.map_cons, Multiset.sum_cons, Multiset.mem_cons, forall_eq_or_imp]
    constructor
    · intro h
      have ha : a * a = 0 := by linarith
      exact ⟨by simpa using ha, ih.mp (by linarith)⟩
    · rintro ⟨rfl, h⟩; simp [ih.mpr h]

theorem ZeroMeanNormal.law_iff {h : ℝ × ℝ} (ha : 0 < h.1) (hb : 0 < h.2) {m : Multiset ℝ} {s : ZeroMeanNormal} (hr' : s = ZeroMeanNormal.rep h m) :
    s.sampleLaw = volume.withDensity (fun x => ENNReal.ofReal (Real.exp (s.logp x))) ↔ ∀ x ∈ m, x = 0 := by
  have hv := ZeroMeanNormal.var_mul_N h m
  rw [← hr'] at hv
  have hv0 : 0 ≤ s.var * s.N := by rw [hv]; exact ZeroMeanNormal.sumsq_nonneg m
  have hA : 0 < s.alpha + s.N / 2 := by
    rw [hr']; show 0 < h.1 + (Multiset.card m : ℝ) / 2; positivity
  have hbeta : 0 < s.beta := by rw [hr']; exact hb
  have hB1 : 0 < s.beta + s.var * s.N := by linarith
  have hB2 : 0 < s.beta + 0.5 * s.var * s.N := by rw [mul_assoc]; linarith
  rw [ZeroMeanNormal.law_eq hA hB1]
  simp only [ZeroMeanNormal.exp_logp hA hB2]
  have e : (∀ x ∈ m, x = 0) ↔ s.beta + s.var * s.N = s.beta + 0.5 * s.var * s.N := by
    rw [← ZeroMeanNormal.sumsq_zero, ← hv, mul_assoc]
    constructor <;> intro h <;> linarith
  rw [e]
  constructor
  · intro h
    have c1 := tDensity_continuous (a := s.alpha + s.N / 2) (s := 2 * (s.beta + s.var * s.N)) (k := 1) (by positivity) one_pos hA 0
    have c2 := tDensity_continuous (a := s.alpha + s.N / 2) (s := 2 * (s.beta + 0.5 * s.var * s.N)) (k := 1) (by positivity) one_pos hA 0
    have k1 := ENNReal.continuous_ofReal.comp c1
    have k2 := ENNReal.continuous_ofReal.comp c2
    have h' := (withDensity_eq_iff_of_sigmaFinite k1.measurable.aemeasurable k2.measurable.aemeasurable).1 h
    have h0 := congrFun ((k1.ae_eq_iff_eq volume k2).1 h') 0
    have hG := Real.Gamma_pos_of_pos hA
    have hG2 := Real.Gamma_pos_of_pos (show 0 < s.alpha + s.N / 2 + 1 / 2 by positivity)
    simp only [Function.comp] at h0
    rw [ENNReal.ofReal_eq_ofReal_iff (by unfold tDensity; positivity) (by unfold tDensity; positivity)] at h0
    simp only [tDensity, sub_self, mul_one, ne_eq, OfNat.ofNat_ne_zero, not_false_eq_true, zero_pow, zero_div, add_zero, div_one, Real.one_rpow] at h0
    have h1 := mul_left_cancel₀ (by positivity) ((div_eq_div_iff (by positivity) (by positivity)).1 h0)
    have h2 := (Real.sqrt_inj (by positivity) (by positivity)).1 h1
    have hpi := Real.pi_pos
    have h3 := mul_left_cancel₀ hpi.ne' h2
    linarith
  · intro h
    rw [h]

/-- **C94**, `ZeroMeanNormal`: the samples have the density that `logp` reports exactly when all data held are zero.
MISSING (false in the code, by this theorem): the property for other data. -/
theorem C94_zero_mean_partial (m : Multiset ℝ) (s : ZeroMeanNormal) (hs : ZeroMeanNormal.ops.Holds (fun _ => True) m s) :
    s.sampleLaw = volume.withDensity (fun x => ENNReal.ofReal (Real.exp (s.logp x))) ↔ ∀ x ∈ m, x = 0 := by
  obtain ⟨⟨h, ha, hb⟩, hr⟩ := ZeroMeanNormal.lawful.holds hs
  exact ZeroMeanNormal.law_iff ha hb hr

/-- **C94**, `ZeroMeanNormal`: the reported densities integrate to one. -/
theorem C94_zero_mean_normalized (m : Multiset ℝ) (s : ZeroMeanNormal) (hs : ZeroMeanNormal.ops.Holds (fun _ => True) m s) :
    ∫⁻ x, ENNReal.ofReal (Real.exp (s.logp x)) = 1 := by
  obtain ⟨⟨h, ha, hb⟩, hr⟩ := ZeroMeanNormal.lawful.holds hs
  have hr' : s = ZeroMeanNormal.rep h m := hr
  have hv := ZeroMeanNormal.var_mul_N h m
  rw [← hr'] at hv
  have hv0 : 0 ≤ s.var * s.N := by rw [hv]; exact ZeroMeanNormal.sumsq_nonneg m
  have hA : 0 < s.alpha + s.N / 2 := by
    rw [hr']; show 0 < h.1 + (Multiset.card m : ℝ) / 2; positivity
  have hbeta : 0 < s.beta := by rw [hr']; exact hb
  have hB2 : 0 < s.beta + 0.5 * s.var * s.N := by rw [mul_assoc]; linarith
  simp only [ZeroMeanNormal.exp_logp hA hB2]
  -- the law of the samples of a distribution without data whose prior is the posterior of `s`
  have h1 := ZeroMeanNormal.law_eq (s := { alpha := s.alpha + s.N / 2, beta := s.beta + 0.5 * s.var * s.N }) (by simpa using hA) (by simpa using hB2)
  simp only [zero_div, add_zero, mul_zero] at h1
  have h2 := congrArg (fun μ => μ Set.univ) h1
  simp only [withDensity_apply _ MeasurableSet.univ, Measure.restrict_univ] at h2
  rw [← h2]
  unfold ZeroMeanNormal.sampleLaw studentT
  have e1 : 0 < (ZeroMeanNormal.sampleParams { alpha := s.alpha + s.N / 2, beta := s.beta + 0.5 * s.var * s.N }).1 / 2 := by
    simp only [ZeroMeanNormal.sampleParams]; simpa using hA
  have := isProbabilityMeasure_gammaMeasure e1 one_pos
  rw [Measure.map_apply (by unfold ZeroMeanNormal.sample; fun_prop) MeasurableSet.univ, Set.preimage_univ, Measure.map_apply (by fun_prop) MeasurableSet.univ, Set.preimage_univ]
  simp

/-- A ZeroMeanNormal holding a datum other than zero: its samples do not have the density it reports. -/
theorem C94_zero_mean_false : ∃ s, ZeroMeanNormal.ops.Holds (fun _ => True) {1} s ∧
    s.sampleLaw ≠ volume.withDensity (fun x => ENNReal.ofReal (Real.exp (s.logp x))) := by
  have hr : remaining (fun _ => True) [.inc 1] 0 = some ({1} : Multiset ℝ) := by simp only [remaining, if_true]; rfl
  obtain ⟨s, h, _⟩ := ZeroMeanNormal.lawful.total [] _ _ hr
  have hs : ZeroMeanNormal.ops.Holds (fun _ => True) {1} s := ⟨_, _, hr, h⟩
  refine ⟨_, hs, fun h => ?_⟩
  have := (C94_zero_mean_partial _ _ hs).1 h 1 (by simp)
  norm_num at this

end
end Verif
