import Verif.Props.EmissionHyper
/-!
C90 and C96: the outcomes of the model of `transition_hyperparameters` of the distributions and emissions that reads its draws from a tape are the states of positive probability.
-/
namespace Verif
open Spec
noncomputable section

/-- the outcomes of a function of the tape are the states with the property, and a finite part of the tape determines the outcome -/
structure Outcomes {S : Type} (tr : Tape → S × Tape) (P : S → Prop) : Prop where
  sound : ∀ t, P (tr t).1
  complete : ∀ s, P s → ∃ p : Tape, ∀ t, tr (p ++ t) = (s, t)

section general
variable {A B S : Type} {P : A → Prop} {Q : B → Prop}

theorem outcomes_pick {g : List A} (d : A) (h : g ≠ []) : Outcomes (pickGrid g d) (· ∈ g) := by
  refine ⟨fun t => pickGrid_mem h, ?_⟩
  intro x hx
  obtain ⟨i, hi, rfl⟩ := List.getElem_of_mem hx
  refine ⟨[i], fun t => ?_⟩
  simp [pickGrid, draw, Nat.mod_eq_of_lt hi, hi]

theorem outcomes_both {f : Tape → A × Tape} {g : Tape → B × Tape} (hf : Outcomes f P) (hg : Outcomes g Q) :
    Outcomes (fun t => (((f t).1, (g (f t).2).1), (g (f t).2).2)) (fun x => P x.1 ∧ Q x.2) := by
  refine ⟨fun t => ⟨hf.sound t, hg.sound _⟩, ?_⟩
  rintro ⟨a, b⟩ ⟨ha, hb⟩
  obtain ⟨p, hp⟩ := hf.complete a ha
  obtain ⟨q, hq⟩ := hg.complete b hb
  refine ⟨p ++ q, fun t => ?_⟩
  simp only [List.append_assoc, hp, hq]

theorem outcomes_map {f : Tape → A × Tape} (m : A → S) {R : S → Prop} (hf : Outcomes f P) (h : ∀ s, R s ↔ ∃ y, P y ∧ m y = s) :
    Outcomes (fun t => (m (f t).1, (f t).2)) R := by
  refine ⟨fun t => (h _).mpr ⟨_, hf.sound t, rfl⟩, ?_⟩
  intro s hs
  obtain ⟨y, hy, rfl⟩ := (h s).mp hs
  obtain ⟨p, hp⟩ := hf.complete y hy
  exact ⟨p, fun t => by simp only [hp]⟩

theorem support_of {same : S → S → Prop} {grid : S → Prop} {score : S → ℝ} {s : S} {x : Res (List (S × ℝ))} {tr : Tape → S × Tape}
    (hx : ∃ l, x = .ok l ∧ Posterior same grid score s l) (ht : Outcomes tr (fun s' => same s s' ∧ grid s')) (s' : S) :
    (∃ t, (tr t).1 = s') ↔ ∃ l p, x = .ok l ∧ (s', p) ∈ l ∧ 0 < p := by
  obtain ⟨l, rfl, h⟩ := hx
  have h1 : (∃ t, (tr t).1 = s') ↔ s' ∈ l.map Prod.fst := by
    rw [h.points]
    constructor
    · rintro ⟨t, rfl⟩
      exact ht.sound t
    · intro hs
      obtain ⟨p, hp⟩ := ht.complete s' hs
      exact ⟨p ++ [], by rw [hp]⟩
  rw [h1]
  constructor
  · intro hs
    obtain ⟨⟨a, p⟩, hm, rfl⟩ := List.mem_map.mp hs
    refine ⟨l, p, rfl, hm, ?_⟩
    rw [h.prob _ _ hm]
    refine div_pos (Real.exp_pos _) (lt_of_lt_of_le (Real.exp_pos (score a)) (List.single_le_sum ?_ _ (List.mem_map_of_mem (f := fun x => Real.exp (score x.1)) hm)))
    intro y hy
    obtain ⟨w, _, rfl⟩ := List.mem_map.mp hy
    exact (Real.exp_pos _).le
  · rintro ⟨l', p, hl, hm, _⟩
    cases hl
    exact List.mem_map_of_mem (f := Prod.fst) hm

end general

theorem coin_outcomes (d : BetaBernoulli) : Outcomes d.transitionHyperparameters (fun d' => SameCoin d d' ∧ CoinGrid d') := by
  have hne : BetaBernoulli.grid ≠ [] := by
    intro h
    have := length_logLinspace 1e-4 1e4 10 true
    rw [show logLinspace 1e-4 1e4 10 true = [] from h] at this
    cases this
  refine outcomes_map (fun h : ℝ × ℝ => ({ d with alpha := h.1, beta := h.2 } : BetaBernoulli)) (outcomes_pick (d.alpha, d.beta) (g := BetaBernoulli.grid.flatMap (fun a => BetaBernoulli.grid.map (fun b => (a, b)))) ?_) ?_
  · obtain ⟨a, ha⟩ := List.exists_mem_of_ne_nil _ hne
    exact List.ne_nil_of_mem (List.mem_flatMap.mpr ⟨a, ha, List.mem_map.mpr ⟨a, ha, rfl⟩⟩)
  · intro d'
    constructor
    · rintro ⟨⟨h1, h2⟩, ha, hb⟩
      refine ⟨(d'.alpha, d'.beta), List.mem_flatMap.mpr ⟨_, ha, List.mem_map.mpr ⟨_, hb, rfl⟩⟩, ?_⟩
      cases d'
      cases h1
      cases h2
      rfl
    · rintro ⟨y, hy, rfl⟩
      obtain ⟨a, ha, hy⟩ := List.mem_flatMap.mp hy
      obtain ⟨b, hb, rfl⟩ := List.mem_map.mp hy
      exact ⟨⟨rfl, rfl⟩, ha, hb⟩

theorem row_outcomes (d : DirichletCategorical) : Outcomes d.transitionHyperparameters (fun d' => (d'.N = d.N ∧ d'.counts = d.counts) ∧ d'.alpha ∈ DirichletCategorical.alphaGrid) := by
  refine outcomes_map (fun a => ({ d with alpha := a } : DirichletCategorical)) (outcomes_pick d.alpha DirichletCategorical.alphaGrid_ne) ?_
  intro d'
  constructor
  · rintro ⟨⟨h1, h2⟩, ha⟩
    refine ⟨d'.alpha, ha, ?_⟩
    cases d'
    cases h1
    cases h2
    rfl
  · rintro ⟨y, hy, rfl⟩
    exact ⟨⟨rfl, rfl⟩, hy⟩

theorem zmn_outcomes (d : ZeroMeanNormal) : Outcomes d.transitionHyperparameters
    (fun d' => (d'.N = d.N ∧ d'.var = d.var) ∧ d'.alpha ∈ DirichletCategorical.alphaGrid ∧ d'.beta ∈ DirichletCategorical.alphaGrid) := by
  refine outcomes_map (fun h : ℝ × ℝ => ({ d with alpha := h.1, beta := h.2 } : ZeroMeanNormal)) (outcomes_pick (d.alpha, d.beta) (g := ZeroMeanNormal.grid) (by simp [ZeroMeanNormal.grid, DirichletCategorical.alphaGrid])) ?_
  intro d'
  constructor
  · rintro ⟨⟨h1, h2⟩, ha, hb⟩
    refine ⟨(d'.alpha, d'.beta), List.mem_flatMap.mpr ⟨_, ha, List.mem_map.mpr ⟨_, hb, rfl⟩⟩, ?_⟩
    cases d'
    cases h1
    cases h2
    rfl
  · rintro ⟨y, hy, rfl⟩
    obtain ⟨a, ha, hy⟩ := List.mem_flatMap.mp hy
    obtain ⟨b, hb, rfl⟩ := List.mem_map.mp hy
    exact ⟨⟨rfl, rfl⟩, ha, hb⟩

theorem rows_outcomes (ds : List DirichletCategorical) : Outcomes (CategoricalEmission.transLoop ds) (fun ds' => SameRows ds ds' ∧ RowsGrid ds') := by
  induction ds with
  | nil =>
    refine ⟨fun t => ⟨.nil, by simp [RowsGrid, CategoricalEmission.transLoop]⟩, ?_⟩
    rintro s ⟨h, _⟩
    cases h
    exact ⟨[], fun t => rfl⟩
  | cons d ds ih =>
    refine outcomes_map (fun x : DirichletCategorical × List DirichletCategorical => x.1 :: x.2) (outcomes_both (row_outcomes d) ih) ?_
    intro s'
    constructor
    · rintro ⟨h1, h2⟩
      cases h1 with
      | cons h h' => exact ⟨(_, _), ⟨⟨h, h2 _ List.mem_cons_self⟩, h', fun e he => h2 e (List.mem_cons_of_mem _ he)⟩, rfl⟩
    · rintro ⟨⟨a, b⟩, ⟨⟨h1, h2⟩, h3, h4⟩, rfl⟩
      refine ⟨.cons h1 h3, ?_⟩
      intro e he
      rcases List.mem_cons.mp he with rfl | he
      · exact h2
      · exact h4 e he

theorem transAll_eq (ds : List DirichletCategorical) : BigramString.transAll ds = CategoricalEmission.transLoop ds := by
  induction ds with
  | nil => rfl
  | cons d ds ih =>
    funext t
    simp only [BigramString.transAll, CategoricalEmission.transLoop, ih]

theorem gaussian_outcomes (z : Tape → ℝ × Tape) (s : Gaussian.St) : Outcomes ((GaussianEmission z).trans s)
    (fun s' : Gaussian.St => (s'.N = s.N ∧ s'.zmn.N = s.zmn.N ∧ s'.zmn.var = s.zmn.var) ∧ s'.zmn.alpha ∈ DirichletCategorical.alphaGrid ∧ s'.zmn.beta ∈ DirichletCategorical.alphaGrid) := by
  refine outcomes_map (fun h => ({ s with zmn := h } : Gaussian.St)) (zmn_outcomes s.zmn) ?_
  intro s'
  constructor
  · rintro ⟨⟨h1, h2⟩, h3⟩
    refine ⟨s'.zmn, ⟨h2, h3⟩, ?_⟩
    cases s'
    cases h1
    rfl
  · rintro ⟨y, ⟨h1, h2⟩, rfl⟩
    exact ⟨⟨rfl, h1⟩, h2⟩

theorem categorical_outcomes (k : Nat) (s : CategoricalEmission.St) : Outcomes ((CategoricalEmission k).trans s)
    (fun s' : CategoricalEmission.St => (s'.N = s.N ∧ SameRows s.dists s'.dists) ∧ RowsGrid s'.dists) := by
  refine outcomes_map (fun ds => ({ s with dists := ds } : CategoricalEmission.St)) (rows_outcomes s.dists) ?_
  intro s'
  constructor
  · rintro ⟨⟨h1, h2⟩, h3⟩
    refine ⟨s'.dists, ⟨h2, h3⟩, ?_⟩
    cases s'
    cases h1
    rfl
  · rintro ⟨y, ⟨h1, h2⟩, rfl⟩
    exact ⟨⟨rfl, h1⟩, h2⟩

theorem sometimes_outcomes {V : Type} [DecidableEq V] {W : WEmis V} (s : Sometimes.St W) (same : W.S → W.S → Prop) (onGrid : W.S → Prop) (eq : Bool)
    (h : Outcomes (W.trans s.be) (fun b => same s.be b ∧ onGrid b)) :
    Outcomes ((Sometimes W eq).trans s) (fun s' : Sometimes.St W => (s'.N = s.N ∧ SameCoin s.bb s'.bb ∧ same s.be s'.be) ∧ CoinGrid s'.bb ∧ onGrid s'.be) := by
  refine outcomes_map (fun x : W.S × BetaBernoulli => ({ s with be := x.1, bb := x.2 } : Sometimes.St W)) (outcomes_both h (coin_outcomes s.bb)) ?_
  intro s'
  constructor
  · rintro ⟨⟨h1, h2, h3⟩, h4, h5⟩
    refine ⟨(s'.be, s'.bb), ⟨⟨h3, h5⟩, h2, h4⟩, ?_⟩
    cases s'
    cases h1
    rfl
  · rintro ⟨y, ⟨⟨h1, h2⟩, h3, h4⟩, rfl⟩
    exact ⟨⟨rfl, h3, h1⟩, h4, h2⟩

theorem simple_outcomes (s : SimpleString.St) : Outcomes (SimpleStringEmission.trans s)
    (fun s' : SimpleString.St => (s'.N = s.N ∧ SameCoin s.sub s'.sub ∧ SameCoin s.ins s'.ins ∧ SameCoin s.del s'.del) ∧ CoinGrid s'.sub ∧ CoinGrid s'.ins ∧ CoinGrid s'.del) := by
  refine outcomes_map (fun x : BetaBernoulli × BetaBernoulli × BetaBernoulli => ({ s with sub := x.1, ins := x.2.1, del := x.2.2 } : SimpleString.St))
    (outcomes_both (coin_outcomes s.sub) (outcomes_both (coin_outcomes s.ins) (coin_outcomes s.del))) ?_
  intro s'
  constructor
  · rintro ⟨⟨h1, h2, h3, h4⟩, h5, h6, h7⟩
    refine ⟨(s'.sub, s'.ins, s'.del), ⟨⟨h2, h5⟩, ⟨h3, h6⟩, h4, h7⟩, ?_⟩
    cases s'
    cases h1
    rfl
  · rintro ⟨y, ⟨⟨h2, h5⟩, ⟨h3, h6⟩, h4, h7⟩, rfl⟩
    exact ⟨⟨rfl, h2, h3, h4⟩, h5, h6, h7⟩

theorem bigram_outcomes (s : BigramString) : Outcomes (BigramStringEmission.trans s)
    (fun s' : BigramString => (s'.N = s.N ∧ SameRows s.insertions s'.insertions ∧ SameRows s.substitutions s'.substitutions) ∧ RowsGrid s'.insertions ∧ RowsGrid s'.substitutions) := by
  have h1 := rows_outcomes s.insertions
  have h2 := rows_outcomes s.substitutions
  rw [← transAll_eq] at h1 h2
  refine outcomes_map (fun x : List DirichletCategorical × List DirichletCategorical => ({ s with insertions := x.1, substitutions := x.2 } : BigramString)) (outcomes_both h1 h2) ?_
  intro s'
  constructor
  · rintro ⟨⟨h1, h2, h3⟩, h4, h5⟩
    refine ⟨(s'.insertions, s'.substitutions), ⟨⟨h2, h4⟩, h3, h5⟩, ?_⟩
    cases s'
    cases h1
    rfl
  · rintro ⟨y, ⟨⟨h2, h4⟩, h3, h5⟩, rfl⟩
    exact ⟨⟨rfl, h2, h3⟩, h4, h5⟩

/-! ### The distributions -/

theorem grid_support {A S : Type} {g : List A} (h : g ≠ []) (d : A) (f : A → S) (score : S → ℝ) (s' : S) :
    (∃ t, f (pickGrid g d t).1 = s') ↔ ∃ l p, gridDraw score (g.map f) = .ok l ∧ (s', p) ∈ l ∧ 0 < p := by
  have h1 : (∃ t, f (pickGrid g d t).1 = s') ↔ s' ∈ g.map f := by
    rw [List.mem_map]
    constructor
    · rintro ⟨t, rfl⟩
      exact ⟨_, pickGrid_mem h, rfl⟩
    · rintro ⟨a, ha, rfl⟩
      obtain ⟨p, hp⟩ := (outcomes_pick d h).complete a ha
      exact ⟨p ++ [], by rw [hp]⟩
  rw [h1, gridDraw_eq (by simpa using h)]
  have hpos : ∀ a ∈ g.map f, 0 < Real.exp (score a) / ((g.map f).map (fun s => Real.exp (score s))).sum := by
    intro a ha
    refine div_pos (Real.exp_pos _) (lt_of_lt_of_le (Real.exp_pos (score a)) (List.single_le_sum ?_ _ (List.mem_map_of_mem (f := fun x => Real.exp (score x)) ha)))
    intro y hy
    obtain ⟨w, _, rfl⟩ := List.mem_map.mp hy
    exact (Real.exp_pos _).le
  constructor
  · intro hs
    exact ⟨_, _, rfl, List.mem_map.mpr ⟨s', hs, rfl⟩, hpos s' hs⟩
  · rintro ⟨l, p, hl, hm, _⟩
    cases hl
    obtain ⟨a, ha, he⟩ := List.mem_map.mp hm
    cases he
    exact ha

/-- **C90**: the states in which the transition of the model may leave a `BetaBernoulli`, for all random draws, are those of positive probability. -/
theorem C90_support_beta_bernoulli (d d' : BetaBernoulli) : (∃ t, (d.transitionHyperparameters t).1 = d') ↔ ∃ l p, d.hyperDraw = .ok l ∧ (d', p) ∈ l ∧ 0 < p :=
  support_of (C90_beta_bernoulli d) (coin_outcomes d) d'

/-- **C90**: the same for `DirichletCategorical`. -/
theorem C90_support_dirichlet (d d' : DirichletCategorical) : (∃ t, (d.transitionHyperparameters t).1 = d') ↔ ∃ l p, d.hyperDraw = .ok l ∧ (d', p) ∈ l ∧ 0 < p :=
  support_of (C90_dirichlet d) (row_outcomes d) d'

/-- **C90**: the same for `ZeroMeanNormal`. -/
theorem C90_support_zero_mean_normal (d d' : ZeroMeanNormal) : (∃ t, (d.transitionHyperparameters t).1 = d') ↔ ∃ l p, d.hyperDraw = .ok l ∧ (d', p) ∈ l ∧ 0 < p :=
  support_of (C90_zero_mean_normal d) (zmn_outcomes d) d'

/-- **C90**: the same for `Normal`. -/
theorem C90_support_normal (d d' : Normal) : (∃ t, (d.transitionHyperparameters t).1 = d') ↔ ∃ l p, d.hyperDraw = .ok l ∧ (d', p) ∈ l ∧ 0 < p :=
  grid_support (by simp [Normal.grid]) (d.r, d.v, d.m, d.s) (fun h => ({ d with r := h.1, v := h.2.1, m := h.2.2.1, s := h.2.2.2 } : Normal)) Normal.logpScore d'

/-- **C90**: the same for `Skellam`. -/
theorem C90_support_skellam (d d' : Skellam) : (∃ t, (d.transitionHyperparameters t).1 = d') ↔ ∃ l p, d.hyperDraw = .ok l ∧ (d', p) ∈ l ∧ 0 < p :=
  grid_support (by simp [Skellam.grid]) (d.mean1, d.stddev1, d.mean2, d.stddev2) (fun h => ({ d with mean1 := h.1, stddev1 := h.2.1, mean2 := h.2.2.1, stddev2 := h.2.2.2 } : Skellam)) _ d'

/-- **C90**: the same for `Bigram`. -/
theorem C90_support_bigram (b b' : Bigram) : (∃ t, (b.transitionHyperparameters t).1 = b') ↔ ∃ l p, b.hyperDraw = .ok l ∧ (b', p) ∈ l ∧ 0 < p :=
  grid_support DirichletCategorical.alphaGrid_ne b.alpha b.setAlpha Bigram.logpScore b'

/-- **C90**: the same for `StringCat`. -/
theorem C90_support_stringcat (d d' : StringCat) : (∃ t, (d.transitionHyperparameters t).1 = d') ↔ ∃ l p, d.hyperDraw = .ok l ∧ (d', p) ∈ l ∧ 0 < p := by
  refine support_of (C90_stringcat d) (outcomes_map (fun c => ({ d with dc := c } : StringCat)) (row_outcomes d.dc) ?_) d'
  intro s
  constructor
  · rintro ⟨⟨h1, h2, h3⟩, h4⟩
    refine ⟨s.dc, ⟨h3, h4⟩, ?_⟩
    cases s
    cases h1
    cases h2
    rfl
  · rintro ⟨y, ⟨h1, h2⟩, rfl⟩
    exact ⟨⟨rfl, rfl, h1⟩, h2⟩

/-- **C90**: the same for `transition_alpha` of a CRP, empty or not. -/
theorem C90_support_crp {c : CRP} (hc : 0 ≤ c.N) (c' : CRP) : (∃ t, (c.transitionAlpha t).1 = c') ↔ ∃ l p, c.alphaDraw = .ok l ∧ (c', p) ∈ l ∧ 0 < p := by
  by_cases hN : c.N = 0
  · rw [C90_crp_empty hN]
    constructor
    · rintro ⟨t, rfl⟩
      refine ⟨_, 1, rfl, ?_, one_pos⟩
      rw [CRP.transitionAlpha, if_pos hN]
      exact List.mem_singleton_self _
    · rintro ⟨l, p, hl, hm, _⟩
      cases hl
      cases List.mem_singleton.mp hm
      exact ⟨[], by rw [CRP.transitionAlpha, if_pos hN]⟩
  · refine support_of (C90_crp (by omega)) (tr := c.transitionAlpha) ?_ c'
    have ht : c.transitionAlpha = fun t => (({ c with alpha := (pickGrid (logLinspace (1 / (c.N : ℝ)) ((c.N : ℝ) + 1) 20 true) 0 t).1 } : CRP),
        (pickGrid (logLinspace (1 / (c.N : ℝ)) ((c.N : ℝ) + 1) 20 true) 0 t).2) := by
      funext t
      rw [CRP.transitionAlpha, if_neg hN]
      rfl
    rw [ht]
    refine outcomes_map (fun a => ({ c with alpha := a } : CRP)) (outcomes_pick 0 ?_) ?_
    · intro h
      have := length_logLinspace (1 / (c.N : ℝ)) ((c.N : ℝ) + 1) 20 true
      rw [h] at this
      cases this
    · intro s
      constructor
      · rintro ⟨⟨h1, h2, h3⟩, h4⟩
        refine ⟨s.alpha, by rw [← h1]; exact h4, ?_⟩
        cases s
        cases h1
        cases h2
        cases h3
        rfl
      · rintro ⟨y, hy, rfl⟩
        exact ⟨⟨rfl, rfl, rfl⟩, hy⟩

/-- `C90_support_crp` for a reachable CRP -/
example : exampleCRP.Reachable ∧ 0 ≤ exampleCRP.N := ⟨exampleCRP_reachable, by decide⟩

/-! ### The emissions -/

/-- **C96**: the states in which the transition of the model may leave a `GaussianEmission`, for all random draws, are those of positive probability. -/
theorem C96_support_gaussian (z : Tape → ℝ × Tape) (s s' : Gaussian.St) :
    (∃ t, ((GaussianEmission z).trans s t).1 = s') ↔ ∃ l p, Gaussian.hyperDraw s = .ok l ∧ (s', p) ∈ l ∧ 0 < p :=
  support_of (C96_gaussian z s) (gaussian_outcomes z s) s'

/-- **C96**: the same for `CategoricalEmission`. -/
theorem C96_support_categorical (k : Nat) (s s' : CategoricalEmission.St) :
    (∃ t, ((CategoricalEmission k).trans s t).1 = s') ↔ ∃ l p, CategoricalEmission.hyperDraw s = .ok l ∧ (s', p) ∈ l ∧ 0 < p :=
  support_of (C96_categorical k s) (categorical_outcomes k s) s'

/-- **C96**: the same for sometimes-categorical noise. -/
theorem C96_support_sometimes_categorical (k : Nat) (s s' : Sometimes.St (CategoricalEmission k)) :
    (∃ t, ((Sometimes (CategoricalEmission k) true).trans s t).1 = s') ↔ ∃ l p, Sometimes.hyperDraw CategoricalEmission.hyperDraw s = .ok l ∧ (s', p) ∈ l ∧ 0 < p :=
  support_of (C96_sometimes (W := CategoricalEmission k) true s (C96_categorical k s.be)) (sometimes_outcomes (W := CategoricalEmission k) s
    (fun (s s' : CategoricalEmission.St) => s'.N = s.N ∧ SameRows s.dists s'.dists) (fun s' : CategoricalEmission.St => RowsGrid s'.dists) true (categorical_outcomes k s.be)) s'

/-- **C96**: the same for sometimes-Gaussian noise. -/
theorem C96_support_sometimes_gaussian (z : Tape → ℝ × Tape) (s s' : Sometimes.St (GaussianEmission z)) :
    (∃ t, ((Sometimes (GaussianEmission z)).trans s t).1 = s') ↔ ∃ l p, Sometimes.hyperDraw Gaussian.hyperDraw s = .ok l ∧ (s', p) ∈ l ∧ 0 < p :=
  support_of (C96_sometimes (W := GaussianEmission z) false s (C96_gaussian z s.be)) (sometimes_outcomes (W := GaussianEmission z) s
    (fun (s s' : Gaussian.St) => s'.N = s.N ∧ s'.zmn.N = s.zmn.N ∧ s'.zmn.var = s.zmn.var)
    (fun s' : Gaussian.St => s'.zmn.alpha ∈ DirichletCategorical.alphaGrid ∧ s'.zmn.beta ∈ DirichletCategorical.alphaGrid) false (gaussian_outcomes z s.be)) s'

/-- **C96**: the same for sometimes-bitflip noise. -/
theorem C96_support_sometimes_bitflip (s s' : Sometimes.St BitFlip) :
    (∃ t, ((Sometimes BitFlip).trans s t).1 = s') ↔ ∃ l p, Sometimes.hyperDraw BitFlip.hyperDraw s = .ok l ∧ (s', p) ∈ l ∧ 0 < p :=
  support_of (C96_sometimes (W := BitFlip) false s (C96_bitflip s.be))
    (sometimes_outcomes (W := BitFlip) s (fun s s' => s' = s) (fun _ => True) false ⟨fun _ => ⟨rfl, trivial⟩, fun b hb => ⟨[], fun t => by rw [hb.1]; rfl⟩⟩) s'

/-- **C96**: the same for `SimpleStringEmission`. -/
theorem C96_support_simple_string (s s' : SimpleString.St) :
    (∃ t, (SimpleStringEmission.trans s t).1 = s') ↔ ∃ l p, SimpleString.hyperDraw s = .ok l ∧ (s', p) ∈ l ∧ 0 < p :=
  support_of (C96_simple_string s) (simple_outcomes s) s'

/-- **C96**: the same for `BigramStringEmission`. -/
theorem C96_support_bigram_string (s s' : BigramString) :
    (∃ t, (BigramStringEmission.trans s t).1 = s') ↔ ∃ l p, s.hyperDraw = .ok l ∧ (s', p) ∈ l ∧ 0 < p :=
  support_of (C96_bigram_string s) (bigram_outcomes s) s'

/-- a transition of a two-state emission that changes the hyperparameters of both rows -/
example : ∃ t, ((CategoricalEmission 2).trans (CategoricalEmission 2).fresh t).1 =
    ({ dists := [{ (DirichletCategorical.mk' 2) with alpha := 10 }, { (DirichletCategorical.mk' 2) with alpha := 100 }] } : CategoricalEmission.St) := by
  refine ⟨[5, 6], ?_⟩
  simp [CategoricalEmission, CategoricalEmission.transLoop, DirichletCategorical.transitionHyperparameters, pickGrid, draw, DirichletCategorical.alphaGrid, List.replicate]
  norm_num

end
end Verif
