import Verif.Model.EmissionHyper
import Verif.Spec.HyperMove
import Verif.Spec.EmissionHyper
import Verif.Props.HyperMove
/-!
C96: the hyperparameters of a noise model are drawn from their joint posterior on the grid.
-/
namespace Verif
open Spec
noncomputable section

section general
variable {A B S : Type} {same1 : A → A → Prop} {grid1 : A → Prop} {score1 : A → ℝ} {same2 : B → B → Prop} {grid2 : B → Prop} {score2 : B → ℝ}

theorem sum_product_exp (f : A → ℝ) (g : B → ℝ) (l : List (A × ℝ)) (m : List (B × ℝ)) :
    ((l.flatMap (fun a => m.map (fun b => ((a.1, b.1), a.2 * b.2)))).map (fun x => Real.exp (f x.1.1 + g x.1.2))).sum =
      (l.map (fun x => Real.exp (f x.1))).sum * (m.map (fun x => Real.exp (g x.1))).sum := by
  induction l with
  | nil => simp
  | cons a l ih =>
    rw [List.flatMap_cons, List.map_append, List.sum_append, ih, List.map_cons, List.sum_cons, add_mul, List.map_map]
    congr 1
    rw [← List.sum_map_mul_left]
    congr 1
    exact List.map_congr_left (fun b _ => Real.exp_add _ _)

theorem posterior_both {a : A} {b : B} {x : Res (List (A × ℝ))} {y : Res (List (B × ℝ))} (hx : ∃ l, x = .ok l ∧ Posterior same1 grid1 score1 a l)
    (hy : ∃ m, y = .ok m ∧ Posterior same2 grid2 score2 b m) :
    ∃ l, bothDraw x y = .ok l ∧ Posterior (fun p q => same1 p.1 q.1 ∧ same2 p.2 q.2) (fun p => grid1 p.1 ∧ grid2 p.2) (fun p => score1 p.1 + score2 p.2) (a, b) l := by
  obtain ⟨l, rfl, h⟩ := hx
  obtain ⟨m, rfl, k⟩ := hy
  refine ⟨_, rfl, ?_⟩
  have hf : (l.flatMap (fun a => m.map (fun b => ((a.1, b.1), a.2 * b.2)))).map Prod.fst = (l.map Prod.fst).product (m.map Prod.fst) := by
    unfold List.product
    rw [List.map_flatMap, List.flatMap_map]
    simp only [List.map_map]
    rfl
  refine ⟨?_, ?_, ?_⟩
  · rintro ⟨p, q⟩
    rw [hf, show (p, q) ∈ (l.map Prod.fst).product (m.map Prod.fst) ↔ _ from List.pair_mem_product, h.points, k.points]
    exact ⟨fun ⟨⟨a, b⟩, c, d⟩ => ⟨⟨a, c⟩, b, d⟩, fun ⟨⟨a, c⟩, b, d⟩ => ⟨⟨a, b⟩, c, d⟩⟩
  · rw [hf]
    exact h.once.product k.once
  · intro d' p hp
    obtain ⟨u, hu, hp⟩ := List.mem_flatMap.mp hp
    obtain ⟨v, hv, hp⟩ := List.mem_map.mp hp
    cases hp
    rw [sum_product_exp, h.prob _ _ hu, k.prob _ _ hv, Real.exp_add, div_mul_div_comm]

theorem posterior_map {a : A} {x : Res (List (A × ℝ))} {f : A → S} {same : S → S → Prop} {grid : S → Prop} {score : S → ℝ} {s : S}
    (hx : ∃ l, x = .ok l ∧ Posterior same1 grid1 score1 a l) (hf : Function.Injective f)
    (hp : ∀ s', same s s' ∧ grid s' ↔ ∃ y, same1 a y ∧ grid1 y ∧ f y = s') (z : ℝ) (hs : ∀ y, same1 a y → score (f y) = score1 y + z) :
    ∃ l, mapDraw f x = .ok l ∧ Posterior same grid score s l := by
  obtain ⟨l, rfl, h⟩ := hx
  refine ⟨_, rfl, ?_⟩
  have hm : (l.map (fun a => (f a.1, a.2))).map Prod.fst = (l.map Prod.fst).map f := by
    rw [List.map_map, List.map_map]
    rfl
  have he : ∀ x ∈ l, Real.exp (score (f x.1)) = Real.exp (score1 x.1) * Real.exp z := by
    intro x hx
    rw [hs x.1 ((h.points x.1).mp (List.mem_map_of_mem hx)).1, Real.exp_add]
  refine ⟨?_, ?_, ?_⟩
  · intro s'
    rw [hm, hp, List.mem_map]
    constructor
    · rintro ⟨y, hy, rfl⟩
      exact ⟨y, ((h.points y).mp hy).1, ((h.points y).mp hy).2, rfl⟩
    · rintro ⟨y, h1, h2, rfl⟩
      exact ⟨y, (h.points y).mpr ⟨h1, h2⟩, rfl⟩
  · rw [hm]
    exact h.once.map hf
  · intro d' p hp
    obtain ⟨u, hu, hp⟩ := List.mem_map.mp hp
    cases hp
    rw [List.map_map, h.prob _ _ hu]
    have : l.map ((fun x => Real.exp (score x.1)) ∘ fun a : A × ℝ => (f a.1, a.2)) = l.map (fun x => Real.exp (score1 x.1) * Real.exp z) := List.map_congr_left he
    rw [this, List.sum_map_mul_right, he _ hu, mul_div_mul_right _ _ (Real.exp_pos z).ne']

end general

/-! ### The emissions -/

theorem rowsDraw_posterior (ds : List DirichletCategorical) :
    ∃ l, rowsDraw ds = .ok l ∧ Posterior SameRows RowsGrid (fun ds => (ds.map DirichletCategorical.logpScore).sum) ds l := by
  induction ds with
  | nil =>
    refine ⟨_, rfl, ?_, by simp, ?_⟩
    · intro d'
      simp [SameRows, RowsGrid]
      rintro rfl
      simp
    · intro d' p hp
      simp at hp
      obtain ⟨rfl, rfl⟩ := hp
      simp
  | cons d ds ih =>
    refine posterior_map (posterior_both (C90_dirichlet d) ih) ?_ ?_ 0 ?_
    · rintro ⟨a, b⟩ ⟨a', b'⟩ h
      simp only [List.cons.injEq] at h
      rw [h.1, h.2]
    · intro s'
      constructor
      · rintro ⟨h1, h2⟩
        cases h1 with
        | cons h h' => exact ⟨(_, _), ⟨h, h'⟩, ⟨h2 _ List.mem_cons_self, fun e he => h2 e (List.mem_cons_of_mem _ he)⟩, rfl⟩
      · rintro ⟨⟨a, b⟩, ⟨h1, h2⟩, ⟨h3, h4⟩, rfl⟩
        refine ⟨.cons h1 h2, ?_⟩
        intro e he
        rcases List.mem_cons.mp he with rfl | he
        · exact h3
        · exact h4 e he
    · rintro ⟨a, b⟩ _
      simp

/-- **C96**, `BitFlip`, which has no hyperparameters: the state stays as it is. -/
theorem C96_bitflip (s : BitFlip.S) : ∃ l, BitFlip.hyperDraw s = .ok l ∧ Posterior (fun s s' => s' = s) (fun _ => True) BitFlip.score s l := by
  refine ⟨_, rfl, by simp, by simp, ?_⟩
  intro d' p hp
  simp at hp
  obtain ⟨rfl, rfl⟩ := hp
  simp

/-- **C96**, `IdentityEmission`, which has no hyperparameters: the state stays as it is. -/
theorem C96_identity {V : Type} [DecidableEq V] (s : (IdentityEmission V).S) :
    ∃ l, IdentityEmission.hyperDraw s = .ok l ∧ Posterior (fun s s' => s' = s) (fun _ => True) (IdentityEmission V).score s l := by
  refine ⟨_, rfl, by simp, by simp, ?_⟩
  intro d' p hp
  simp at hp
  obtain ⟨rfl, rfl⟩ := hp
  simp

/-- **C96**, `GaussianEmission`. -/
theorem C96_gaussian (z : Tape → ℝ × Tape) (s : Gaussian.St) : ∃ l, Gaussian.hyperDraw s = .ok l ∧
    Posterior (fun s s' => s'.N = s.N ∧ s'.zmn.N = s.zmn.N ∧ s'.zmn.var = s.zmn.var) (fun s' => s'.zmn.alpha ∈ DirichletCategorical.alphaGrid ∧ s'.zmn.beta ∈ DirichletCategorical.alphaGrid) (GaussianEmission z).score s l := by
  refine posterior_map (C90_zero_mean_normal s.zmn) ?_ ?_ 0 ?_
  · intro a b h
    simp only [Gaussian.St.mk.injEq, true_and] at h
    exact h
  · intro s'
    constructor
    · rintro ⟨⟨h1, h2⟩, h3⟩
      refine ⟨s'.zmn, h2, h3, ?_⟩
      cases s'
      cases h1
      rfl
    · rintro ⟨y, h1, h2, rfl⟩
      exact ⟨⟨rfl, h1⟩, h2⟩
  · intro y _
    exact (add_zero _).symm

/-- **C96**, `CategoricalEmission`: all rows together. -/
theorem C96_categorical (k : Nat) (s : CategoricalEmission.St) : ∃ l, CategoricalEmission.hyperDraw s = .ok l ∧
    Posterior (fun s s' => s'.N = s.N ∧ SameRows s.dists s'.dists) (fun s' => RowsGrid s'.dists) (CategoricalEmission k).score s l := by
  refine posterior_map (rowsDraw_posterior s.dists) ?_ ?_ 0 ?_
  · intro a b h
    simp only [CategoricalEmission.St.mk.injEq, true_and] at h
    exact h
  · intro s'
    constructor
    · rintro ⟨⟨h1, h2⟩, h3⟩
      refine ⟨s'.dists, h2, h3, ?_⟩
      cases s'
      cases h1
      rfl
    · rintro ⟨y, h1, h2, rfl⟩
      exact ⟨⟨rfl, h1⟩, h2⟩
  · intro y _
    exact (add_zero _).symm

/-- **C96**, `Sometimes`: if the base emission draws its hyperparameters from their posterior, then so does the whole emission, jointly with those of its coin. -/
theorem C96_sometimes {V : Type} [DecidableEq V] {W : WEmis V} {base : W.S → Res (List (W.S × ℝ))} {same : W.S → W.S → Prop} {onGrid : W.S → Prop} (eq : Bool) (s : Sometimes.St W)
    (hbase : ∃ l, base s.be = .ok l ∧ Posterior same onGrid W.score s.be l) : ∃ l, Sometimes.hyperDraw base s = .ok l ∧
    Posterior (fun s s' => s'.N = s.N ∧ SameCoin s.bb s'.bb ∧ same s.be s'.be) (fun s' => CoinGrid s'.bb ∧ onGrid s'.be) (Sometimes W eq).score s l := by
  refine posterior_map (posterior_both hbase (C90_beta_bernoulli s.bb)) ?_ ?_ 0 ?_
  · rintro ⟨a, b⟩ ⟨a', b'⟩ h
    simp only [Sometimes.St.mk.injEq, true_and] at h
    rw [h.1, h.2]
  · intro s'
    constructor
    · rintro ⟨⟨h1, h2, h3⟩, h4, h5⟩
      refine ⟨(s'.be, s'.bb), ⟨h3, h2⟩, ⟨h5, h4⟩, ?_⟩
      cases s'
      cases h1
      rfl
    · rintro ⟨y, ⟨h1, h2⟩, ⟨h3, h4⟩, rfl⟩
      exact ⟨⟨rfl, h2, h1⟩, h4, h3⟩
  · rintro ⟨a, b⟩ _
    show b.logpScore + W.score a = W.score a + b.logpScore + 0
    ring

/-- **C96**, `SimpleStringEmission`: its three coins together. -/
theorem C96_simple_string (s : SimpleString.St) : ∃ l, SimpleString.hyperDraw s = .ok l ∧
    Posterior (fun s s' => s'.N = s.N ∧ SameCoin s.sub s'.sub ∧ SameCoin s.ins s'.ins ∧ SameCoin s.del s'.del) (fun s' => CoinGrid s'.sub ∧ CoinGrid s'.ins ∧ CoinGrid s'.del)
      SimpleStringEmission.score s l := by
  refine posterior_map (posterior_both (C90_beta_bernoulli s.sub) (posterior_both (C90_beta_bernoulli s.ins) (C90_beta_bernoulli s.del))) ?_ ?_
    (((s.sub.s + s.ins.s : Int) : ℝ) * Real.log 95) ?_
  · rintro ⟨a, b, c⟩ ⟨a', b', c'⟩ h
    simp only [SimpleString.St.mk.injEq, true_and] at h
    rw [h.1, h.2.1, h.2.2]
  · intro s'
    constructor
    · rintro ⟨⟨h1, h2⟩, h3⟩
      refine ⟨(s'.sub, s'.ins, s'.del), h2, h3, ?_⟩
      cases s'
      cases h1
      rfl
    · rintro ⟨y, h1, h2, rfl⟩
      exact ⟨⟨rfl, h1⟩, h2⟩
  · rintro ⟨a, b, c⟩ ⟨⟨_, h1⟩, ⟨_, h2⟩, _⟩
    show a.logpScore + b.logpScore + c.logpScore + ((a.s + b.s : Int) : ℝ) * Real.log 95 = a.logpScore + (b.logpScore + c.logpScore) + _
    rw [h1, h2]
    ring

/-- **C96**, `BigramStringEmission`: all insertion and substitution distributions together. -/
theorem C96_bigram_string (s : BigramString) : ∃ l, s.hyperDraw = .ok l ∧
    Posterior (fun s s' => s'.N = s.N ∧ SameRows s.insertions s'.insertions ∧ SameRows s.substitutions s'.substitutions) (fun s' => RowsGrid s'.insertions ∧ RowsGrid s'.substitutions)
      BigramStringEmission.score s l := by
  refine posterior_map (posterior_both (rowsDraw_posterior s.insertions) (rowsDraw_posterior s.substitutions)) ?_ ?_ 0 ?_
  · rintro ⟨a, b⟩ ⟨a', b'⟩ h
    simp only [BigramString.mk.injEq] at h
    simp_all
  · intro s'
    constructor
    · rintro ⟨⟨h1, h2⟩, h3⟩
      refine ⟨(s'.insertions, s'.substitutions), h2, h3, ?_⟩
      cases s'
      cases h1
      rfl
    · rintro ⟨y, h1, h2, rfl⟩
      exact ⟨⟨rfl, h1⟩, h2⟩
  · intro y _
    exact (add_zero _).symm

/-- sometimes-categorical and sometimes-bitflip meet the hypothesis of `C96_sometimes` -/
example (k : Nat) (s : Sometimes.St (CategoricalEmission k)) : ∃ l, Sometimes.hyperDraw CategoricalEmission.hyperDraw s = .ok l ∧
    Posterior (fun s s' => s'.N = s.N ∧ SameCoin s.bb s'.bb ∧ CategoricalEmission.St.N s'.be = CategoricalEmission.St.N s.be ∧ SameRows (CategoricalEmission.St.dists s.be) (CategoricalEmission.St.dists s'.be))
      (fun s' => CoinGrid s'.bb ∧ RowsGrid (CategoricalEmission.St.dists s'.be)) (Sometimes (CategoricalEmission k) true).score s l :=
  C96_sometimes (W := CategoricalEmission k) true s (C96_categorical k s.be)

example (s : Sometimes.St BitFlip) : ∃ l, Sometimes.hyperDraw BitFlip.hyperDraw s = .ok l ∧
    Posterior (fun s s' => s'.N = s.N ∧ SameCoin s.bb s'.bb ∧ s'.be = s.be) (fun s' => CoinGrid s'.bb ∧ True) (Sometimes BitFlip).score s l :=
  C96_sometimes (W := BitFlip) false s (C96_bitflip s.be)

end
end Verif
