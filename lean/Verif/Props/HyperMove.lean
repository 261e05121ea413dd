import Verif.Model.HyperMove
import Verif.Spec.HyperMove
import Verif.Props.Choice
import Verif.Props.CRP
import Verif.Lemmas.Dist
import Verif.Lemmas.DistCat
/-!
C90: hyperparameters are drawn from their posterior on the grid.
-/
namespace Verif
open Spec
noncomputable section
variable {S : Type} {same : S → S → Prop} {onGrid : S → Prop} {score score' : S → ℝ} {d d' : S} {l l' : List (S × ℝ)}

theorem zip_softmax {points : List S} : points.zip (softmax (points.map (fun s => ((score s : ℝ) : WithBot ℝ)))) =
    points.map (fun s => (s, Real.exp (score s) / (points.map (fun s => Real.exp (score s))).sum)) := by
  have : softmax (points.map (fun s => ((score s : ℝ) : WithBot ℝ))) = points.map (fun s => Real.exp (score s) / (points.map (fun s => Real.exp (score s))).sum) := by
    unfold softmax
    rw [List.map_map, List.map_map]
    rfl
  rw [this]
  clear this
  generalize (points.map (fun s => Real.exp (score s))).sum = z
  induction points with
  | nil => rfl
  | cons a l ih => simp only [List.map_cons, List.zip_cons_cons, ih]

theorem gridDraw_eq {points : List S} (h : points ≠ []) : gridDraw score points = .ok (points.map (fun s => (s, Real.exp (score s) / (points.map (fun s => Real.exp (score s))).sum))) := by
  obtain ⟨a, ha⟩ := List.exists_mem_of_ne_nil _ h
  unfold gridDraw
  rw [C89_sample (x := score a) (List.mem_map.mpr ⟨a, ha, rfl⟩)]
  show Except.ok _ = _
  rw [zip_softmax]

theorem posterior_of {points : List S} (h1 : ∀ d', d' ∈ points ↔ same d d' ∧ onGrid d') (h2 : points.Nodup) :
    Posterior same onGrid score d (points.map (fun s => (s, Real.exp (score s) / (points.map (fun s => Real.exp (score s))).sum))) := by
  have hf : (points.map (fun s => (s, Real.exp (score s) / (points.map (fun s => Real.exp (score s))).sum))).map Prod.fst = points := by
    rw [List.map_map]
    exact List.map_id' points
  refine ⟨by rw [hf]; exact h1, by rw [hf]; exact h2, ?_⟩
  intro d' p hp
  obtain ⟨s, _, hs⟩ := List.mem_map.mp hp
  cases hs
  rw [List.map_map]
  rfl

theorem gridDraw_posterior {points : List S} (h : points ≠ []) (h1 : ∀ d', d' ∈ points ↔ same d d' ∧ onGrid d') (h2 : points.Nodup) :
    ∃ l, gridDraw score points = .ok l ∧ Posterior same onGrid score d l := ⟨_, gridDraw_eq h, posterior_of h1 h2⟩

/-- A part of the score that depends on the data only makes no difference. -/
theorem posterior_shift (h : Posterior same onGrid score d l) {z : ℝ} (hz : ∀ d', same d d' → score' d' = score d' + z) : Posterior same onGrid score' d l := by
  refine ⟨h.points, h.once, ?_⟩
  intro d' p hp
  have he : ∀ x ∈ l, Real.exp (score' x.1) = Real.exp (score x.1) * Real.exp z := by
    intro x hx
    rw [hz x.1 ((h.points x.1).mp (List.mem_map_of_mem hx)).1, Real.exp_add]
  rw [List.map_congr_left he, List.sum_map_mul_right, he _ hp, mul_div_mul_right _ _ (Real.exp_pos z).ne']
  exact h.prob d' p hp

/-- **C90**: the probabilities sum up to one, and the flow between two states of the grid with the same data is the same in both directions, in proportion to the exponentials of
the scores. -/
theorem C90_balance (hsame : Equivalence same) (h : Posterior same onGrid score d l) (h' : Posterior same onGrid score d' l') (hg : onGrid d) (hg' : onGrid d') (hs : same d d') :
    (l.map Prod.snd).sum = 1 ∧ ∃ p q, (d', p) ∈ l ∧ (d, q) ∈ l' ∧ Real.exp (score d) * p = Real.exp (score d') * q := by
  have hz : (l.map (fun x => Real.exp (score x.1))).sum = (l'.map (fun x => Real.exp (score x.1))).sum := by
    have hp : (l.map Prod.fst).Perm (l'.map Prod.fst) := by
      rw [List.perm_ext_iff_of_nodup h.once h'.once]
      intro e
      rw [h.points, h'.points]
      exact ⟨fun ⟨a, b⟩ => ⟨hsame.trans (hsame.symm hs) a, b⟩, fun ⟨a, b⟩ => ⟨hsame.trans hs a, b⟩⟩
    have := (hp.map (fun x => Real.exp (score x))).sum_eq
    rw [List.map_map, List.map_map] at this
    exact this
  have hpos : (l.map (fun x => Real.exp (score x.1))).sum ≠ 0 := by
    obtain ⟨x, hx, _⟩ := List.mem_map.mp ((h.points d).mpr ⟨hsame.refl d, hg⟩)
    refine ne_of_gt (lt_of_lt_of_le (Real.exp_pos (score x.1)) (List.single_le_sum ?_ _ (List.mem_map_of_mem hx)))
    intro y hy
    obtain ⟨w, _, rfl⟩ := List.mem_map.mp hy
    exact (Real.exp_pos _).le
  constructor
  · have : l.map Prod.snd = l.map (fun x => Real.exp (score x.1) * ((l.map (fun x => Real.exp (score x.1))).sum)⁻¹) :=
      List.map_congr_left (fun x hx => by rw [h.prob x.1 x.2 hx, div_eq_mul_inv])
    rw [this, List.sum_map_mul_right]
    exact mul_inv_cancel₀ hpos
  · obtain ⟨x, hx, hx'⟩ := List.mem_map.mp ((h.points d').mpr ⟨hs, hg'⟩)
    obtain ⟨y, hy, hy'⟩ := List.mem_map.mp ((h'.points d).mpr ⟨hsame.symm hs, hg⟩)
    obtain ⟨x1, p⟩ := x
    obtain ⟨y1, q⟩ := y
    cases hx'
    cases hy'
    refine ⟨p, q, hx, hy, ?_⟩
    rw [h.prob _ _ hx, h'.prob _ _ hy, ← hz]
    ring

/-! ### The distributions -/

theorem alphaGrid_nodup : DirichletCategorical.alphaGrid.Nodup := by
  unfold DirichletCategorical.alphaGrid
  norm_num

theorem logLinspace_nodup {a b : ℝ} (ha : 0 < a) (hab : a < b) {n : Nat} (hn : 2 ≤ n) : (logLinspace a b n true).Nodup := by
  have h := (C09_log_linspace ha hab hn).2.2.2.2
  have : (logLinspace a b n true).Pairwise (· < ·) := by
    rw [← List.isChain_iff_pairwise, List.isChain_iff_getElem]
    intro i hi
    exact (h i _ _ (List.getElem?_eq_getElem (by omega)) (List.getElem?_eq_getElem hi)).1
  exact this.imp (fun h => ne_of_lt h)

/-- **C90**, `BetaBernoulli`. -/
theorem C90_beta_bernoulli (d : BetaBernoulli) : ∃ l, d.hyperDraw = .ok l ∧
    Posterior (fun d d' => d'.N = d.N ∧ d'.s = d.s) (fun d' => d'.alpha ∈ logLinspace 1e-4 1e4 10 true ∧ d'.beta ∈ logLinspace 1e-4 1e4 10 true) BetaBernoulli.logpScore d l := by
  have hn : (BetaBernoulli.grid).Nodup := logLinspace_nodup (by norm_num) (by norm_num) (by norm_num)
  have hne : BetaBernoulli.grid ≠ [] := by
    intro h
    have := length_logLinspace 1e-4 1e4 10 true
    rw [show logLinspace 1e-4 1e4 10 true = [] from h] at this
    cases this
  refine gridDraw_posterior ?_ ?_ ?_
  · obtain ⟨a, ha⟩ := List.exists_mem_of_ne_nil _ hne
    exact List.ne_nil_of_mem (List.mem_flatMap.mpr ⟨a, ha, List.mem_map.mpr ⟨a, ha, rfl⟩⟩)
  · intro d'
    rw [List.mem_flatMap]
    constructor
    · rintro ⟨a, ha, h⟩
      obtain ⟨b, hb, rfl⟩ := List.mem_map.mp h
      exact ⟨⟨rfl, rfl⟩, ha, hb⟩
    · rintro ⟨⟨h1, h2⟩, ha, hb⟩
      refine ⟨_, ha, List.mem_map.mpr ⟨_, hb, ?_⟩⟩
      cases d'
      cases h1
      cases h2
      rfl
  · have : BetaBernoulli.grid.flatMap (fun a => BetaBernoulli.grid.map (fun b => ({ d with alpha := a, beta := b } : BetaBernoulli))) =
        (BetaBernoulli.grid.product BetaBernoulli.grid).map (fun h => { d with alpha := h.1, beta := h.2 }) := by
      unfold List.product
      rw [List.map_flatMap]
      simp only [List.map_map]
      rfl
    rw [this]
    refine List.Nodup.map ?_ (hn.product hn)
    intro x y h
    simp only [BetaBernoulli.mk.injEq] at h
    exact Prod.ext h.1 h.2.1

/-- **C90**, `DirichletCategorical`. -/
theorem C90_dirichlet (d : DirichletCategorical) : ∃ l, d.hyperDraw = .ok l ∧
    Posterior (fun d d' => d'.N = d.N ∧ d'.counts = d.counts) (fun d' => d'.alpha ∈ DirichletCategorical.alphaGrid) DirichletCategorical.logpScore d l := by
  refine gridDraw_posterior (by simpa using DirichletCategorical.alphaGrid_ne) ?_ ?_
  · intro d'
    rw [List.mem_map]
    constructor
    · rintro ⟨a, ha, rfl⟩
      exact ⟨⟨rfl, rfl⟩, ha⟩
    · rintro ⟨⟨h1, h2⟩, ha⟩
      refine ⟨_, ha, ?_⟩
      cases d'
      cases h1
      cases h2
      rfl
  · refine List.Nodup.map ?_ alphaGrid_nodup
    intro x y h
    simp only [DirichletCategorical.mk.injEq] at h
    exact h.1

theorem quads {R V M S : List ℝ} : (R.flatMap fun r => V.flatMap fun v => M.flatMap fun m => S.map fun s => (r, v, m, s)) = R.product (V.product (M.product S)) := by
  unfold List.product
  simp only [List.map_flatMap, List.map_map]
  rfl

/-- **C90**, `Normal`. -/
theorem C90_normal (d : Normal) : ∃ l, d.hyperDraw = .ok l ∧
    Posterior (fun d d' => d'.N = d.N ∧ d'.mean = d.mean ∧ d'.var = d.var)
      (fun d' => d'.r ∈ [0.1, 1.0, 10.0] ∧ d'.v ∈ [0.5, 1.0, 2.0, 5.0] ∧ d'.m ∈ [-1.0, 0.0, 1.0] ∧ d'.s ∈ [0.5, 1.0, 2.0]) Normal.logpScore d l := by
  have hg : Normal.grid = List.product [0.1, 1.0, 10.0] (List.product [0.5, 1.0, 2.0, 5.0] (List.product [-1.0, 0.0, 1.0] [0.5, 1.0, 2.0])) := quads
  refine gridDraw_posterior ?_ ?_ ?_
  · rw [hg]
    simp [List.product]
  · intro d'
    rw [List.mem_map, hg]
    constructor
    · rintro ⟨⟨r, v, m, s⟩, h, rfl⟩
      simp only [List.pair_mem_product] at h
      exact ⟨⟨rfl, rfl, rfl⟩, h⟩
    · rintro ⟨⟨h1, h2, h3⟩, h⟩
      refine ⟨(d'.r, d'.v, d'.m, d'.s), by simp only [List.pair_mem_product]; exact h, ?_⟩
      cases d'
      cases h1
      cases h2
      cases h3
      rfl
  · rw [hg]
    refine List.Nodup.map ?_ (List.Nodup.product (by norm_num) (List.Nodup.product (by norm_num) (List.Nodup.product (by norm_num) (by norm_num))))
    rintro ⟨r, v, m, s⟩ ⟨r', v', m', s'⟩ h
    simp only [Normal.mk.injEq] at h
    obtain ⟨rfl, rfl, rfl, rfl, _⟩ := h
    rfl

/-- **C90**, `ZeroMeanNormal`. -/
theorem C90_zero_mean_normal (d : ZeroMeanNormal) : ∃ l, d.hyperDraw = .ok l ∧
    Posterior (fun d d' => d'.N = d.N ∧ d'.var = d.var) (fun d' => d'.alpha ∈ DirichletCategorical.alphaGrid ∧ d'.beta ∈ DirichletCategorical.alphaGrid) ZeroMeanNormal.logpScore d l := by
  have hg : ZeroMeanNormal.grid = List.product DirichletCategorical.alphaGrid DirichletCategorical.alphaGrid := rfl
  refine gridDraw_posterior ?_ ?_ ?_
  · rw [hg]
    simp [List.product, DirichletCategorical.alphaGrid]
  · intro d'
    rw [List.mem_map, hg]
    constructor
    · rintro ⟨⟨a, b⟩, h, rfl⟩
      exact ⟨⟨rfl, rfl⟩, List.pair_mem_product.mp h⟩
    · rintro ⟨⟨h1, h2⟩, h⟩
      refine ⟨(d'.alpha, d'.beta), List.pair_mem_product.mpr h, ?_⟩
      cases d'
      cases h1
      cases h2
      rfl
  · rw [hg]
    refine List.Nodup.map ?_ (alphaGrid_nodup.product alphaGrid_nodup)
    rintro ⟨a, b⟩ ⟨a', b'⟩ h
    simp only [ZeroMeanNormal.mk.injEq] at h
    obtain ⟨rfl, rfl, _⟩ := h
    rfl

/-- **C90**, `StringCat`. -/
theorem C90_stringcat (d : StringCat) : ∃ l, d.hyperDraw = .ok l ∧
    Posterior (fun d d' => d'.strings = d.strings ∧ d'.N = d.N ∧ d'.dc.N = d.dc.N ∧ d'.dc.counts = d.dc.counts) (fun d' => d'.dc.alpha ∈ DirichletCategorical.alphaGrid) StringCat.logpScore d l := by
  obtain ⟨l, h1, h2⟩ := C90_dirichlet d.dc
  unfold StringCat.hyperDraw
  rw [h1]
  refine ⟨_, rfl, ?_, ?_, ?_⟩
  · intro d'
    rw [List.map_map, List.mem_map]
    constructor
    · rintro ⟨x, hx, rfl⟩
      have := (h2.points x.1).mp (List.mem_map_of_mem hx)
      exact ⟨⟨rfl, rfl, this.1⟩, this.2⟩
    · rintro ⟨⟨k1, k2, k3⟩, k4⟩
      obtain ⟨x, hx, hx'⟩ := List.mem_map.mp ((h2.points d'.dc).mpr ⟨k3, k4⟩)
      refine ⟨x, hx, ?_⟩
      cases d'
      cases k1
      cases k2
      cases hx'
      rfl
  · have : (l.map (fun x => (({ d with dc := x.1 } : StringCat), x.2))).map Prod.fst = (l.map Prod.fst).map (fun c => ({ d with dc := c } : StringCat)) := by
      rw [List.map_map, List.map_map]
      rfl
    rw [this]
    refine h2.once.map ?_
    intro x y h
    simp only [StringCat.mk.injEq] at h
    exact h.2.1
  · intro d' p hp
    obtain ⟨x, hx, hx'⟩ := List.mem_map.mp hp
    cases hx'
    rw [List.map_map]
    exact h2.prob x.1 x.2 hx

/-- **C90**, `Bigram` (and `StringNat`): the same concentration is set in all its distributions. -/
theorem C90_bigram (b : Bigram) : ∃ l, b.hyperDraw = .ok l ∧
    Posterior (fun b b' => b'.N = b.N ∧ b'.maxLength = b.maxLength ∧ b'.minChar = b.minChar ∧ b'.maxChar = b.maxChar ∧
        b'.dists.map (fun d => (d.N, d.counts)) = b.dists.map (fun d => (d.N, d.counts)))
      (fun b' => b'.alpha ∈ DirichletCategorical.alphaGrid ∧ ∀ d ∈ b'.dists, d.alpha = b'.alpha) Bigram.logpScore b l := by
  refine gridDraw_posterior (by simpa using DirichletCategorical.alphaGrid_ne) ?_ ?_
  · intro b'
    rw [List.mem_map]
    constructor
    · rintro ⟨a, ha, rfl⟩
      refine ⟨⟨rfl, rfl, rfl, rfl, ?_⟩, ha, ?_⟩
      · show (b.dists.map _).map _ = _
        rw [List.map_map]
        rfl
      · intro d hd
        obtain ⟨d₀, _, rfl⟩ := List.mem_map.mp hd
        rfl
    · rintro ⟨⟨h1, h2, h3, h4, h5⟩, ha, hd⟩
      refine ⟨b'.alpha, ha, ?_⟩
      have : b.dists.map (fun d => { d with alpha := b'.alpha }) = b'.dists := by
        have e1 : b.dists.map (fun d => ({ d with alpha := b'.alpha } : DirichletCategorical)) = (b.dists.map (fun d => (d.N, d.counts))).map (fun x => { alpha := b'.alpha, N := x.1, counts := x.2 }) := by
          rw [List.map_map]
          rfl
        rw [e1, ← h5, List.map_map]
        conv_rhs => rw [← List.map_id b'.dists]
        refine List.map_congr_left ?_
        intro d hdm
        show ({ alpha := b'.alpha, N := d.N, counts := d.counts } : DirichletCategorical) = d
        rw [← hd d hdm]
      unfold Bigram.setAlpha
      rw [this]
      cases b'
      cases h1
      cases h2
      cases h3
      cases h4
      rfl
  · refine List.Nodup.map ?_ alphaGrid_nodup
    intro x y h
    exact congrArg Bigram.alpha h

/-- **C90**, the density: `lognormal_logp` is the logarithm of the log-normal density. -/
theorem C90_lognormal {x stddev : ℝ} (mean : ℝ) (hx : 0 < x) (hs : 0 < stddev) : Real.exp (lognormalLogp x mean stddev) = lognormal mean stddev x := by
  unfold lognormalLogp lognormal ProbabilityTheory.gaussianPDFReal
  dsimp only
  have h2 : 0 < 2 * Real.pi := by positivity
  rw [Real.coe_toNNReal _ (sq_nonneg stddev), Real.exp_sub, Real.exp_sub, Real.exp_log (mul_pos hx hs)]
  have e1 : Real.exp (0.5 * Real.log (2.0 * Real.pi)) = Real.sqrt (2 * Real.pi) := by
    rw [Real.sqrt_eq_rpow, Real.rpow_def_of_pos h2]
    congr 1
    norm_num
    ring
  have e2 : Real.sqrt (2 * Real.pi * stddev ^ 2) = Real.sqrt (2 * Real.pi) * stddev := by
    rw [Real.sqrt_mul h2.le, Real.sqrt_sq hs.le]
  have e3 : -((Real.log x - mean) / stddev * ((Real.log x - mean) / stddev)) / 2.0 = -(Real.log x - mean) ^ 2 / (2 * stddev ^ 2) := by
    have : stddev ≠ 0 := hs.ne'
    norm_num
    field_simp
  rw [e1, e2, e3]
  have : Real.sqrt (2 * Real.pi) ≠ 0 := (Real.sqrt_pos.mpr h2).ne'
  have := hs.ne'
  field_simp

/-- **C90**, `Skellam`: the score is the logarithm of the density of its latent values under the hyperparameters plus the score of the data given the latent values. -/
theorem C90_skellam (besselI : Nat → ℝ → ℝ) (d : Skellam) : ∃ l, d.hyperDraw = .ok l ∧
    Posterior (fun d d' => d'.mu1 = d.mu1 ∧ d'.mu2 = d.mu2 ∧ d'.N = d.N ∧ d'.seen = d.seen)
      (fun d' => d'.mean1 ∈ [-10.0, 0.0, 10.0] ∧ d'.stddev1 ∈ [0.1, 1.0, 10.0] ∧ d'.mean2 ∈ [-10.0, 0.0, 10.0] ∧ d'.stddev2 ∈ [0.1, 1.0, 10.0])
      (fun d' => lognormalLogp d'.mu1 d'.mean1 d'.stddev1 + lognormalLogp d'.mu2 d'.mean2 d'.stddev2 + d'.logpScore besselI) d l := by
  have hg : Skellam.grid = List.product [-10.0, 0.0, 10.0] (List.product [0.1, 1.0, 10.0] (List.product [-10.0, 0.0, 10.0] [0.1, 1.0, 10.0])) := quads
  have : ∃ l, d.hyperDraw = .ok l ∧ Posterior (fun d d' => d'.mu1 = d.mu1 ∧ d'.mu2 = d.mu2 ∧ d'.N = d.N ∧ d'.seen = d.seen)
      (fun d' => d'.mean1 ∈ [-10.0, 0.0, 10.0] ∧ d'.stddev1 ∈ [0.1, 1.0, 10.0] ∧ d'.mean2 ∈ [-10.0, 0.0, 10.0] ∧ d'.stddev2 ∈ [0.1, 1.0, 10.0])
      (fun d' => lognormalLogp d'.mu1 d'.mean1 d'.stddev1 + lognormalLogp d'.mu2 d'.mean2 d'.stddev2) d l := by
    refine gridDraw_posterior ?_ ?_ ?_
    · rw [hg]
      simp [List.product]
    · intro d'
      rw [List.mem_map, hg]
      constructor
      · rintro ⟨⟨r, v, m, s⟩, h, rfl⟩
        simp only [List.pair_mem_product] at h
        exact ⟨⟨rfl, rfl, rfl, rfl⟩, h⟩
      · rintro ⟨⟨h1, h2, h3, h4⟩, h⟩
        refine ⟨(d'.mean1, d'.stddev1, d'.mean2, d'.stddev2), by simp only [List.pair_mem_product]; exact h, ?_⟩
        cases d'
        cases h1
        cases h2
        cases h3
        cases h4
        rfl
    · rw [hg]
      refine List.Nodup.map ?_ (List.Nodup.product (by norm_num) (List.Nodup.product (by norm_num) (List.Nodup.product (by norm_num) (by norm_num))))
      rintro ⟨r, v, m, s⟩ ⟨r', v', m', s'⟩ h
      simp only [Skellam.mk.injEq] at h
      obtain ⟨rfl, rfl, rfl, rfl, _⟩ := h
      rfl
  obtain ⟨l, h1, h2⟩ := this
  refine ⟨l, h1, posterior_shift h2 (z := d.logpScore besselI) ?_⟩
  rintro d' ⟨k1, k2, _, k4⟩
  congr 1
  unfold Skellam.logpScore Skellam.logp
  rw [k1, k2, k4]

/-- **C90**, `CRP::transition_alpha` with customers. -/
theorem C90_crp {c : CRP} (hN : 0 < c.N) : ∃ l, c.alphaDraw = .ok l ∧
    Posterior (fun c c' => c'.N = c.N ∧ c'.tables = c.tables ∧ c'.assignments = c.assignments) (fun c' => c'.alpha ∈ logLinspace (1 / (c'.N : ℝ)) ((c'.N : ℝ) + 1) 20 true) CRP.logpScore c l := by
  have hn : (1 : ℝ) ≤ c.N := by exact_mod_cast hN
  have hp : (0 : ℝ) < 1 / (c.N : ℝ) := by positivity
  have hlt : 1 / (c.N : ℝ) < (c.N : ℝ) + 1 := by
    have : 1 / (c.N : ℝ) ≤ 1 := (div_le_one (by linarith)).mpr hn
    linarith
  have hnd := logLinspace_nodup hp hlt (n := 20) (by norm_num)
  have hne : (logLinspace (1 / (c.N : ℝ)) ((c.N : ℝ) + 1) 20 true).map (fun a => ({ c with alpha := a } : CRP)) ≠ [] := by
    intro h
    have := congrArg List.length h
    rw [List.length_map, length_logLinspace] at this
    cases this
  obtain ⟨x, hx⟩ := List.exists_mem_of_ne_nil _ hne
  unfold CRP.alphaDraw
  rw [if_neg (by omega)]
  dsimp only
  rw [C89_log_choice (x := x.logpScore) (List.mem_map.mpr ⟨x, hx, rfl⟩)]
  refine ⟨_, rfl, ?_⟩
  rw [zip_softmax]
  refine posterior_of ?_ ?_
  · intro c'
    rw [List.mem_map]
    constructor
    · rintro ⟨a, ha, rfl⟩
      exact ⟨⟨rfl, rfl, rfl⟩, ha⟩
    · rintro ⟨⟨h1, h2, h3⟩, ha⟩
      rw [h1] at ha
      refine ⟨_, ha, ?_⟩
      cases c'
      cases h1
      cases h2
      cases h3
      rfl
  · refine List.Nodup.map ?_ hnd
    intro x y h
    exact congrArg CRP.alpha h

/-- **C90**: without customers nothing changes. -/
theorem C90_crp_empty {c : CRP} (hN : c.N = 0) : c.alphaDraw = .ok [(c, 1)] := if_pos hN

/-! ### Concrete cases -/

/-- `C90_balance` for two Dirichlet categorical distributions on the grid with the same data -/
example : ∃ l l' p q, (⟨1.0, 3, [2, 1]⟩ : DirichletCategorical).hyperDraw = .ok l ∧ (⟨10.0, 3, [2, 1]⟩ : DirichletCategorical).hyperDraw = .ok l' ∧
    ((⟨10.0, 3, [2, 1]⟩ : DirichletCategorical), p) ∈ l ∧ ((⟨1.0, 3, [2, 1]⟩ : DirichletCategorical), q) ∈ l' ∧
    Real.exp (⟨1.0, 3, [2, 1]⟩ : DirichletCategorical).logpScore * p = Real.exp (⟨10.0, 3, [2, 1]⟩ : DirichletCategorical).logpScore * q := by
  obtain ⟨l, h1, h2⟩ := C90_dirichlet ⟨1.0, 3, [2, 1]⟩
  obtain ⟨l', h1', h2'⟩ := C90_dirichlet ⟨10.0, 3, [2, 1]⟩
  obtain ⟨_, p, q, k1, k2, k3⟩ := C90_balance ⟨fun _ => ⟨rfl, rfl⟩, fun h => ⟨h.1.symm, h.2.symm⟩, fun h h' => ⟨h'.1.trans h.1, h'.2.trans h.2⟩⟩ h2 h2'
    (by simp [DirichletCategorical.alphaGrid]) (by simp [DirichletCategorical.alphaGrid]) ⟨rfl, rfl⟩
  exact ⟨l, l', p, q, h1, h1', k1, k2, k3⟩

/-- `C90_crp` for a reachable CRP -/
example : exampleCRP.Reachable ∧ 0 < exampleCRP.N := ⟨exampleCRP_reachable, by decide⟩

end
end Verif
