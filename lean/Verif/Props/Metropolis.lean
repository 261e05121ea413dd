import Verif.Lemmas.Metropolis
import Verif.Lemmas.Bessel
import Verif.Props.Dist
/-! ### C91, C92: the steps and the samples of the Skellam distribution -/
namespace Verif
open Verif.Spec MeasureTheory
open scoped ENNReal Nat
noncomputable section

theorem exp_logp_skellam (d : Skellam) (h1 : 0 < d.mu1) (h2 : 0 < d.mu2) (x : Int) : Real.exp (d.logp bessel x) = skellam (d.mu1, d.mu2) x := by
  unfold Skellam.logp skellam
  rw [Real.exp_add, Real.exp_add, Real.exp_log (bessel_pos _ (by positivity)), Real.rpow_def_of_pos (by positivity), mul_comm ((x : ℝ) / 2)]
  congr 3
  ring

theorem skellam_pos {r : ℝ × ℝ} (h1 : 0 < r.1) (h2 : 0 < r.2) (x : Int) : 0 < skellam r x := by
  rw [← exp_logp_skellam { mu1 := r.1, mu2 := r.2 } h1 h2]
  exact Real.exp_pos _

/-- the score, as a function of the latent values, is the logarithm of the likelihood -/
theorem exp_score_skellam {h m} {d : Skellam} (hr : Skellam.Rep h m d) {r : ℝ × ℝ} (h1 : 0 < r.1) (h2 : 0 < r.2) :
    Real.exp (Skellam.logpScore bessel { d with mu1 := r.1, mu2 := r.2 }) = (m.map (skellam r)).prod := by
  have hr' : Skellam.Rep (d.mean1, d.mean2, d.stddev1, d.stddev2, r.1, r.2) m { d with mu1 := r.1, mu2 := r.2 } := ⟨rfl, hr.2.1, hr.2.2⟩
  rw [Skellam.score_rep bessel hr']
  clear hr hr'
  induction m using Multiset.induction with
  | empty => simp
  | cons x m ih =>
    rw [Multiset.map_cons, Multiset.sum_cons, Multiset.map_cons, Multiset.prod_cons, Real.exp_add, ih]
    congr 1
    exact exp_logp_skellam { d with mu1 := r.1, mu2 := r.2 } h1 h2 x

theorem score_measurable (d : Skellam) : Measurable (fun r : ℝ × ℝ => Skellam.logpScore bessel { d with mu1 := r.1, mu2 := r.2 }) := by
  suffices key : ∀ l : List (Int × ℝ), Measurable (fun r : ℝ × ℝ => (l.map (fun e => Skellam.logp bessel { d with mu1 := r.1, mu2 := r.2 } e.1 * e.2)).sum) by
    unfold Skellam.logpScore
    exact key d.seen.entries
  intro l
  induction l with
  | nil => simp
  | cons e l ih =>
    simp only [List.map_cons, List.sum_cons]
    refine Measurable.add (Measurable.mul_const ?_ _) ih
    unfold Skellam.logp
    have hb := (bessel_measurable e.1.natAbs).comp
      ((measurable_const (a := (2 : ℝ))).mul (Real.continuous_sqrt.measurable.comp ((measurable_fst (α := ℝ) (β := ℝ)).mul measurable_snd)))
    have hl : Measurable (fun r : ℝ × ℝ => Real.log (r.1 / r.2)) := Real.measurable_log.comp (measurable_fst.div measurable_snd)
    exact ((measurable_fst.neg.sub measurable_snd).add (measurable_const.mul hl)).add (Real.measurable_log.comp hb)

def expPair (z : ℝ × ℝ) : ℝ × ℝ := (Real.exp z.1, Real.exp z.2)

theorem expPair_measurable : Measurable expPair :=
  (Real.measurable_exp.comp measurable_fst).prodMk (Real.measurable_exp.comp measurable_snd)

/-- a step is a Metropolis step -/
theorem transitionTheta_metropolis (d : Skellam) (r z : ℝ × ℝ) (p : ℝ) :
    ∃ d', Skellam.transitionTheta bessel { d with mu1 := r.1, mu2 := r.2 } z.1 z.2 p = .ok d' ∧
      (d'.mu1, d'.mu2) = metropolis (fun r : ℝ × ℝ => Skellam.logpScore bessel { d with mu1 := r.1, mu2 := r.2 }) r (expPair z, p) := by
  obtain ⟨d', h1, _, h3, h4⟩ := C17_transition_theta bessel { d with mu1 := r.1, mu2 := r.2 } z.1 z.2 p
  refine ⟨d', h1, ?_⟩
  unfold metropolis
  split
  · rename_i h
    rw [h3 h]; rfl
  · rename_i h
    rw [h4 (not_le.1 h)]

instance (d : Skellam) : IsProbabilityMeasure d.initLaw := by
  unfold Skellam.initLaw; infer_instance

instance (d : Skellam) : IsProbabilityMeasure (d.initLaw.map expPair) :=
  Measure.isProbabilityMeasure_map expPair_measurable.aemeasurable

theorem thetaProb_eq (d : Skellam) (r : ℝ × ℝ) {B : Set (ℝ × ℝ)} (hB : MeasurableSet B) :
    d.thetaProb bessel r B = ((d.initLaw.map expPair).prod uniformLaw)
      {x | metropolis (fun r : ℝ × ℝ => Skellam.logpScore bessel { d with mu1 := r.1, mu2 := r.2 }) r x ∈ B} := by
  have hm : Measurable (metropolis (fun r : ℝ × ℝ => Skellam.logpScore bessel { d with mu1 := r.1, mu2 := r.2 }) r) :=
    Measurable.ite (measurableSet_le (Real.measurable_log.comp measurable_snd) (((score_measurable d).comp measurable_fst).sub measurable_const)) measurable_fst measurable_const
  have h0 : uniformLaw = uniformLaw.map id := Measure.map_id.symm
  unfold Skellam.thetaProb
  conv_rhs => rw [h0, Measure.map_prod_map _ _ expPair_measurable measurable_id, Measure.map_apply (expPair_measurable.prodMap measurable_id) (show MeasurableSet {x | metropolis _ r x ∈ B} from hm hB)]
  congr 1
  ext x
  obtain ⟨d', h1, h2⟩ := transitionTheta_metropolis d r x.1 x.2
  simp only [Set.mem_ofPred_eq, Set.mem_preimage]
  constructor
  · rintro ⟨e, h3, h4⟩
    have := h1.symm.trans h3
    injection this with this
    subst this
    rw [h2] at h4
    exact h4
  · intro h
    exact ⟨d', h1, by rw [h2]; exact h⟩

theorem posteriorMeasure_eq {h m} {d : Skellam} (hr : Skellam.Rep h m d) :
    posteriorMeasure (logNormals d.mean1 d.stddev1 d.mean2 d.stddev2) (fun r => (m.map (skellam r)).prod) =
      (d.initLaw.map expPair).withDensity (fun r => ENNReal.ofReal (Real.exp (Skellam.logpScore bessel { d with mu1 := r.1, mu2 := r.2 }))) := by
  refine withDensity_congr_ae ?_
  have hs : MeasurableSet {r : ℝ × ℝ | 0 < r.1 ∧ 0 < r.2} :=
    (measurableSet_lt measurable_const measurable_fst).inter (measurableSet_lt measurable_const measurable_snd)
  have : ∀ᵐ r ∂(d.initLaw.map expPair), 0 < r.1 ∧ 0 < r.2 := by
    rw [ae_map_iff expPair_measurable.aemeasurable hs]
    exact Filter.Eventually.of_forall fun z => ⟨Real.exp_pos _, Real.exp_pos _⟩
  filter_upwards [this] with r hpos
  rw [exp_score_skellam hr hpos.1 hpos.2]

/-- **C91.** `transition_theta` satisfies detailed balance with respect to the posterior of the latent values: their log-normal prior, weighted with the likelihood of all data
held.  `m` are the data after any history. -/
theorem C91_reversible (z : Tape → ℝ × ℝ) (p : Tape → ℝ) (m : Multiset Int) (d : Skellam) (hd : (Skellam.ops bessel z p).Holds (fun _ => True) m d) :
    Reversible (posteriorMeasure (logNormals d.mean1 d.stddev1 d.mean2 d.stddev2) (fun r => (m.map (skellam r)).prod)) (d.thetaProb bessel) := by
  obtain ⟨h, hr⟩ := (Skellam.lawful bessel z p).holds hd
  intro A B hA hB
  rw [posteriorMeasure_eq hr]
  have hw : Measurable (fun r : ℝ × ℝ => ENNReal.ofReal (Real.exp (Skellam.logpScore bessel { d with mu1 := r.1, mu2 := r.2 }))) :=
    (Real.measurable_exp.comp (score_measurable d)).ennreal_ofReal
  rw [setLIntegral_withDensity_eq_setLIntegral_mul_non_measurable _ hw _ hA (Filter.Eventually.of_forall fun _ => ENNReal.ofReal_lt_top),
    setLIntegral_withDensity_eq_setLIntegral_mul_non_measurable _ hw _ hB (Filter.Eventually.of_forall fun _ => ENNReal.ofReal_lt_top)]
  have := metropolis_balance (μ := d.initLaw.map expPair) (score_measurable d) hA hB
  simp only [Pi.mul_apply, thetaProb_eq d _ hA, thetaProb_eq d _ hB]
  exact this

/-- **C91.** A step always ends somewhere. -/
theorem C91_total (d : Skellam) (r : ℝ × ℝ) : d.thetaProb bessel r Set.univ = 1 := by
  rw [thetaProb_eq d r MeasurableSet.univ]
  simp

/-- **C91.** `transition_theta` leaves the posterior as it is. -/
theorem C91_stationary (z : Tape → ℝ × ℝ) (p : Tape → ℝ) (m : Multiset Int) (d : Skellam) (hd : (Skellam.ops bessel z p).Holds (fun _ => True) m d) :
    Stationary (posteriorMeasure (logNormals d.mean1 d.stddev1 d.mean2 d.stddev2) (fun r => (m.map (skellam r)).prod)) (d.thetaProb bessel) := by
  intro B hB
  have := C91_reversible z p m d hd Set.univ B MeasurableSet.univ hB
  rw [Measure.restrict_univ] at this
  rw [this]
  simp [C91_total]

/-- **C91.** The latent values stay positive. -/
theorem C91_positive (z : Tape → ℝ × ℝ) (p : Tape → ℝ) (m : Multiset Int) (d : Skellam) (hd : (Skellam.ops bessel z p).Holds (fun _ => True) m d) :
    0 < d.mu1 ∧ 0 < d.mu2 := by
  obtain ⟨t, ops, _, h⟩ := hd
  suffices key : ∀ (ops : List (DataOp Int)) (s s' : Skellam), 0 < s.mu1 ∧ 0 < s.mu2 → (Skellam.ops bessel z p).run s ops = .ok s' → 0 < s'.mu1 ∧ 0 < s'.mu2 from
    key ops _ d ⟨Real.exp_pos _, Real.exp_pos _⟩ h
  intro ops
  induction ops with
  | nil => intro s s' hs h; injection h with h; subst h; exact hs
  | cons o ops ih =>
    intro s s' hs h
    cases o with
    | inc x => exact ih (s.incorporate x) _ hs h
    | dec x => exact ih (s.unincorporate x) _ hs h
    | eval x => exact ih _ _ hs h
    | trans u => exact ih (s.transitionHyperparameters u).1 _ hs h
    | theta u =>
      refine ih _ _ ?_ h
      obtain ⟨d', h1, h2, _⟩ := C17_transition_theta bessel s (z u).1 (z u).2 (p u)
      simp only [Skellam.ops, h1]
      rcases h2 with rfl | rfl
      · exact hs
      · exact ⟨Real.exp_pos _, Real.exp_pos _⟩

/-- **C91.** The proposal `y` is accepted with probability one if it makes the data more likely, and otherwise with the ratio of the two likelihoods. -/
theorem C91_accept (z : Tape → ℝ × ℝ) (p : Tape → ℝ) (m : Multiset Int) (d : Skellam) (hd : (Skellam.ops bessel z p).Holds (fun _ => True) m d)
    (y : ℝ × ℝ) (hy : (Real.exp y.1, Real.exp y.2) ≠ (d.mu1, d.mu2)) :
    uniform {q | d.transitionTheta bessel y.1 y.2 q = .ok { d with mu1 := Real.exp y.1, mu2 := Real.exp y.2 }} =
      ENNReal.ofReal (min 1 ((m.map (skellam (Real.exp y.1, Real.exp y.2))).prod / (m.map (skellam (d.mu1, d.mu2))).prod)) := by
  obtain ⟨h1, h2⟩ := C91_positive z p m d hd
  obtain ⟨h, hr⟩ := (Skellam.lawful bessel z p).holds hd
  rw [← exp_score_skellam hr (r := (Real.exp y.1, Real.exp y.2)) (Real.exp_pos _) (Real.exp_pos _), ← exp_score_skellam hr (r := (d.mu1, d.mu2)) h1 h2, ← Real.exp_sub,
    ← unif_accept]
  show uniformLaw _ = _
  congr 1
  ext q
  simp only [Set.mem_ofPred_eq]
  obtain ⟨d', e1, _, e3, e4⟩ := C17_transition_theta bessel d y.1 y.2 q
  constructor
  · intro hq
    by_contra hc
    have := e4 (not_le.1 hc)
    rw [e1] at hq
    injection hq with hq
    apply hy
    exact Prod.ext (congrArg Skellam.mu1 (hq.symm.trans this)) (congrArg Skellam.mu2 (hq.symm.trans this))
  · intro hq
    rw [e1, e3 hq]

/-! ### C92 -/

theorem poisson_term {a b : ℝ} (ha : 0 < a) (hb : 0 < b) (n j : Nat) :
    (Real.exp (-a) * a ^ (j + n) / (j + n)!) * (Real.exp (-b) * b ^ j / j !) =
      Real.exp (-(a + b)) * (a / b) ^ ((n : ℝ) / 2) * ((2 * Real.sqrt (a * b) / 2) ^ (2 * j + n) / (j ! * (j + n)!)) := by
  have h1 : (a / b) ^ ((n : ℝ) / 2) = (Real.sqrt a / Real.sqrt b) ^ n := by
    rw [← Real.sqrt_div ha.le, Real.sqrt_eq_rpow, ← Real.rpow_natCast, ← Real.rpow_mul (by positivity)]
    congr 1; ring
  have hu : 0 < Real.sqrt a := Real.sqrt_pos.2 ha
  have hv : 0 < Real.sqrt b := Real.sqrt_pos.2 hb
  rw [h1, Real.sqrt_mul ha.le, neg_add, Real.exp_add]
  have ea : a = Real.sqrt a ^ 2 := (Real.sq_sqrt ha.le).symm
  have eb : b = Real.sqrt b ^ 2 := (Real.sq_sqrt hb.le).symm
  have h3 : a ^ (j + n) * b ^ j = (Real.sqrt a / Real.sqrt b) ^ n * (2 * (Real.sqrt a * Real.sqrt b) / 2) ^ (2 * j + n) := by
    conv_lhs => rw [ea, eb]
    rw [mul_div_cancel_left₀ _ (two_ne_zero), div_pow, mul_pow, pow_add (Real.sqrt b)]
    field_simp
    ring
  have h4 : (Real.exp (-a) * a ^ (j + n) / (j + n)!) * (Real.exp (-b) * b ^ j / j !) = Real.exp (-a) * Real.exp (-b) * (a ^ (j + n) * b ^ j) / (j ! * (j + n)!) := by
    field_simp
  rw [h4, h3]
  ring

theorem poisson_sum {a b : ℝ} (ha : 0 < a) (hb : 0 < b) (n : Nat) :
    ∑' j : Nat, ENNReal.ofReal (Real.exp (-a) * a ^ (j + n) / (j + n)!) * ENNReal.ofReal (Real.exp (-b) * b ^ j / j !) =
      ENNReal.ofReal (Real.exp (-(a + b)) * (a / b) ^ ((n : ℝ) / 2) * bessel n (2 * Real.sqrt (a * b))) := by
  unfold bessel
  rw [← tsum_mul_left, ENNReal.ofReal_tsum_of_nonneg (fun j => by positivity) ((bessel_summable _ _).mul_left _)]
  congr 1
  funext j
  rw [← ENNReal.ofReal_mul (by positivity), poisson_term ha hb]

/-- **C92.** The probability with which `sample` returns `x` is the one that `logp` reports, the probability under the Skellam distribution. -/
theorem C92_sample (d : Skellam) (h1 : 0 < d.mu1) (h2 : 0 < d.mu2) (x : Int) :
    d.sampleLaw {x} = ENNReal.ofReal (Real.exp (d.logp bessel x)) ∧ Real.exp (d.logp bessel x) = skellam (d.mu1, d.mu2) x := by
  refine ⟨?_, exp_logp_skellam d h1 h2 x⟩
  rw [exp_logp_skellam d h1 h2]
  have e1 : ((Real.toNNReal d.mu1 : NNReal) : ℝ) = d.mu1 := Real.coe_toNNReal _ h1.le
  have e2 : ((Real.toNNReal d.mu2 : NNReal) : ℝ) = d.mu2 := Real.coe_toNNReal _ h2.le
  unfold Skellam.sampleLaw skellam
  rw [Measure.map_apply .of_discrete (MeasurableSet.singleton x)]
  rcases le_total 0 x with hx | hx
  · obtain ⟨n, rfl⟩ := Int.eq_ofNat_of_zero_le hx
    have hset : (fun k : Nat × Nat => (k.1 : Int) - k.2) ⁻¹' {(n : Int)} = ⋃ j : Nat, ({j + n} ×ˢ {j} : Set (Nat × Nat)) := by
      ext ⟨k, l⟩
      simp only [Set.mem_preimage, Set.mem_singleton_iff, Set.mem_iUnion, Set.mem_prod]
      constructor
      · intro h; exact ⟨l, by omega, rfl⟩
      · rintro ⟨j, rfl, rfl⟩; push_cast; ring
    rw [hset, measure_iUnion (fun i j hij => by
      rw [Function.onFun, Set.disjoint_left]
      rintro ⟨k, l⟩ ⟨_, h⟩ ⟨_, h'⟩
      exact hij (h.symm.trans h')) (fun j => .of_discrete)]
    simp only [Measure.prod_prod, ProbabilityTheory.poissonMeasure_singleton, e1, e2]
    rw [poisson_sum h1 h2]
    simp
  · obtain ⟨n, hn⟩ := Int.eq_ofNat_of_zero_le (neg_nonneg.2 hx)
    have hxn : x = -(n : Int) := by omega
    subst hxn
    have hset : (fun k : Nat × Nat => (k.1 : Int) - k.2) ⁻¹' {-(n : Int)} = ⋃ j : Nat, ({j} ×ˢ {j + n} : Set (Nat × Nat)) := by
      ext ⟨k, l⟩
      simp only [Set.mem_preimage, Set.mem_singleton_iff, Set.mem_iUnion, Set.mem_prod]
      constructor
      · intro h; exact ⟨k, rfl, by omega⟩
      · rintro ⟨j, rfl, rfl⟩; push_cast; ring
    rw [hset, measure_iUnion (fun i j hij => by
      rw [Function.onFun, Set.disjoint_left]
      rintro ⟨k, l⟩ ⟨h, _⟩ ⟨h', _⟩
      exact hij (h.symm.trans h')) (fun j => .of_discrete)]
    simp only [Measure.prod_prod, ProbabilityTheory.poissonMeasure_singleton, e1, e2]
    have := poisson_sum h2 h1 n
    simp only [mul_comm (ENNReal.ofReal (Real.exp (-d.mu2) * _ / _))] at this
    rw [this, add_comm d.mu2, mul_comm d.mu2]
    have hinv : (d.mu2 / d.mu1) ^ ((n : ℝ) / 2) = (d.mu1 / d.mu2) ^ (((-(n : Int) : Int) : ℝ) / 2) := by
      rw [← inv_div, Real.inv_rpow (by positivity), ← Real.rpow_neg (by positivity)]
      congr 1; push_cast; ring
    rw [hinv]
    simp

/-- **C92.** The probabilities that `logp` reports add up to one. -/
theorem C92_normalized (d : Skellam) (h1 : 0 < d.mu1) (h2 : 0 < d.mu2) : HasSum (fun x : Int => Real.exp (d.logp bessel x)) 1 := by
  have hp : IsProbabilityMeasure d.sampleLaw := Measure.isProbabilityMeasure_map Measurable.of_discrete.aemeasurable
  have h : ∑' x : Int, ENNReal.ofReal (Real.exp (d.logp bessel x)) = 1 := by
    rw [← hp.measure_univ, ← Set.iUnion_of_singleton, measure_iUnion (fun i j hij => by simpa using hij) (fun _ => .of_discrete)]
    exact tsum_congr fun x => ((C92_sample d h1 h2 x).1).symm
  have hs : Summable (fun x : Int => Real.exp (d.logp bessel x)) := by
    have := ENNReal.summable_toReal (f := fun x : Int => ENNReal.ofReal (Real.exp (d.logp bessel x))) (by rw [h]; exact ENNReal.one_ne_top)
    simpa only [ENNReal.toReal_ofReal (Real.exp_pos _).le] using this
  have h' := ENNReal.ofReal_tsum_of_nonneg (fun x => (Real.exp_pos (d.logp bessel x)).le) hs
  rw [h] at h'
  have : ∑' x : Int, Real.exp (d.logp bessel x) = 1 := by
    rw [← ENNReal.ofReal_one] at h'
    exact (ENNReal.ofReal_eq_ofReal_iff (tsum_nonneg fun _ => (Real.exp_pos _).le) zero_le_one).1 h'
  rw [← this]
  exact hs.hasSum

theorem skellam_le_one {r : ℝ × ℝ} (h1 : 0 < r.1) (h2 : 0 < r.2) (x : Int) : skellam r x ≤ 1 := by
  have := le_hasSum (C92_normalized { mu1 := r.1, mu2 := r.2 } h1 h2) x (fun _ _ => (Real.exp_pos _).le)
  rwa [exp_logp_skellam _ h1 h2] at this

/-- **C91.** The posterior is a distribution: its total mass is neither zero nor infinite. -/
theorem C91_proper (z : Tape → ℝ × ℝ) (p : Tape → ℝ) (m : Multiset Int) (d : Skellam) (hd : (Skellam.ops bessel z p).Holds (fun _ => True) m d) :
    posteriorMeasure (logNormals d.mean1 d.stddev1 d.mean2 d.stddev2) (fun r => (m.map (skellam r)).prod) Set.univ ≠ 0 ∧
      posteriorMeasure (logNormals d.mean1 d.stddev1 d.mean2 d.stddev2) (fun r => (m.map (skellam r)).prod) Set.univ ≤ 1 := by
  obtain ⟨h, hr⟩ := (Skellam.lawful bessel z p).holds hd
  rw [posteriorMeasure_eq hr, withDensity_apply _ MeasurableSet.univ, Measure.restrict_univ]
  have hw : Measurable (fun r : ℝ × ℝ => ENNReal.ofReal (Real.exp (Skellam.logpScore bessel { d with mu1 := r.1, mu2 := r.2 }))) :=
    (Real.measurable_exp.comp (score_measurable d)).ennreal_ofReal
  constructor
  · intro h0
    rw [lintegral_eq_zero_iff hw] at h0
    obtain ⟨r, hr⟩ := h0.exists
    exact (ENNReal.ofReal_pos.2 (Real.exp_pos _)).ne' hr
  · have hs : MeasurableSet {r : ℝ × ℝ | 0 < r.1 ∧ 0 < r.2} :=
      (measurableSet_lt measurable_const measurable_fst).inter (measurableSet_lt measurable_const measurable_snd)
    have hpos : ∀ᵐ r ∂(d.initLaw.map expPair), 0 < r.1 ∧ 0 < r.2 := by
      rw [ae_map_iff expPair_measurable.aemeasurable hs]
      exact Filter.Eventually.of_forall fun z => ⟨Real.exp_pos _, Real.exp_pos _⟩
    calc _ ≤ ∫⁻ _, 1 ∂(d.initLaw.map expPair) := by
          refine lintegral_mono_ae ?_
          filter_upwards [hpos] with r hr'
          rw [exp_score_skellam hr hr'.1 hr'.2, ENNReal.ofReal_le_one]
          clear hr hd
          suffices key : 0 ≤ (m.map (skellam r)).prod ∧ (m.map (skellam r)).prod ≤ 1 from key.2
          induction m using Multiset.induction with
          | empty => simp
          | cons x m ih =>
            rw [Multiset.map_cons, Multiset.prod_cons]
            exact ⟨mul_nonneg (skellam_pos hr'.1 hr'.2 x).le ih.1, mul_le_one₀ (skellam_le_one hr'.1 hr'.2 x) ih.1 ih.2⟩
      _ = 1 := by simp

/-- C91, C92: a distribution that has seen 3 and -1 -/
example : ∃ d : Skellam, (Skellam.ops bessel (fun _ => (0, 1)) (fun _ => 0.5)).Holds (fun _ => True) {3, -1} d ∧ 0 < d.mu1 ∧ 0 < d.mu2 ∧ d.mu1 ≠ d.mu2 ∧
    (Real.exp 2, Real.exp 2) ≠ (d.mu1, d.mu2) :=
  ⟨((Skellam.initTheta {} 0 1).incorporate (-1)).incorporate 3, ⟨[], [.inc (-1), .inc 3], by simp [remaining], rfl⟩, Real.exp_pos _, Real.exp_pos _,
    fun h => zero_ne_one (Real.exp_injective h), fun h => two_ne_zero (Real.exp_injective (congrArg Prod.fst h))⟩

end
end Verif
