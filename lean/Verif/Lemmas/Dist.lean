import Verif.Spec.Dist
import Verif.Lemmas.Math
import Mathlib.Tactic.Linarith
import Mathlib.Tactic.FieldSimp
import Mathlib.Tactic.Ring
import Mathlib.Tactic.NormNum
import Mathlib.Tactic.Positivity
import Mathlib.Data.Multiset.Count
/-! `Lawful` and `Coherent` for the simple distributions. -/
namespace Verif
noncomputable section

theorem truncInt_int (n : Int) : truncInt (n : ℝ) = n := by
  unfold truncInt; split <;> simp

theorem pickGrid_mem {α} {grid : List α} {dflt : α} {t : Tape} (h : grid ≠ []) :
    (pickGrid grid dflt t).1 ∈ grid := by
  have hl := draw_lt (List.length_pos_iff.2 h) t
  simp only [pickGrid]
  rw [List.getD_eq_getElem?_getD, List.getElem?_eq_getElem hl]
  exact List.getElem_mem _

/-! ### generic consequences of `Lawful` -/

theorem Lawful.run {V : Type} {D : DistOps V} {supp : V → Prop} (L : Lawful D supp) :
    ∀ (ops : List (DataOp V)) {h : L.H} {m m' : Multiset V} {s : D.S}, L.Rep h m s → remaining supp ops m = some m' →
      ∃ s' h', D.run s ops = .ok s' ∧ L.Rep h' m' s' ∧ ((∀ o ∈ ops, o.keepsHypers) → h' = h) := by
  classical
  intro ops
  induction ops with
  | nil =>
    intro h m m' s hs hr; simp only [remaining, Option.some.injEq] at hr; subst hr; exact ⟨s, h, rfl, hs, fun _ => rfl⟩
  | cons o ops ih =>
    intro h m m' s hs hr
    cases o with
    | inc x =>
      simp only [remaining] at hr
      split at hr
      · rename_i hx
        obtain ⟨s1, h1, h2⟩ := L.inc hs hx
        obtain ⟨s', h', h3, h4, h5⟩ := ih h2 hr
        refine ⟨s', h', ?_, h4, fun hk => h5 (fun o ho => hk o (List.mem_cons_of_mem _ ho))⟩
        simp only [DistOps.run, h1]; exact h3
      · cases hr
    | dec x =>
      simp only [remaining] at hr
      split at hr
      · rename_i hx
        rw [← Multiset.cons_erase hx] at hs
        obtain ⟨s1, h1, h2⟩ := L.dec hs
        obtain ⟨s', h', h3, h4, h5⟩ := ih h2 hr
        refine ⟨s', h', ?_, h4, fun hk => h5 (fun o ho => hk o (List.mem_cons_of_mem _ ho))⟩
        simp only [DistOps.run, h1]; exact h3
      · cases hr
    | eval x =>
      simp only [remaining] at hr
      split at hr
      · rename_i hx
        obtain ⟨v, s1, h1, h2⟩ := L.logp hs hx
        obtain ⟨s', h', h3, h4, h5⟩ := ih h2 hr
        refine ⟨s', h', ?_, h4, fun hk => h5 (fun o ho => hk o (List.mem_cons_of_mem _ ho))⟩
        simp only [DistOps.run, h1]; exact h3
      · cases hr
    | trans t =>
      simp only [remaining] at hr
      obtain ⟨h1, h2⟩ := L.trans hs t
      obtain ⟨s', h', h3, h4, h5⟩ := ih h2 hr
      refine ⟨s', h', h3, h4, fun hk => ?_⟩
      have := hk _ (List.mem_cons_self (a := DataOp.trans t) (l := ops))
      simp [DataOp.keepsHypers] at this
    | theta t =>
      simp only [remaining] at hr
      obtain ⟨h1, h2⟩ := L.theta hs t
      obtain ⟨s', h', h3, h4, h5⟩ := ih h2 hr
      refine ⟨s', h', h3, h4, fun hk => ?_⟩
      have := hk _ (List.mem_cons_self (a := DataOp.theta t) (l := ops))
      simp [DataOp.keepsHypers] at this

/-- The state is determined by the hyperparameters and the data. -/
def Lawful.Exact {V : Type} {D : DistOps V} {supp : V → Prop} (L : Lawful D supp) : Prop :=
  ∀ h m s s', L.Rep h m s → L.Rep h m s' → s = s'

theorem Lawful.holds {V : Type} {D : DistOps V} {supp : V → Prop} (L : Lawful D supp) {m s} (h : D.Holds supp m s) :
    ∃ h, L.Rep h m s := by
  obtain ⟨t, ops, hr, hs⟩ := h
  obtain ⟨h0, hf⟩ := L.fresh t
  obtain ⟨s', h', h1, h2, _⟩ := L.run ops hf hr
  rw [hs] at h1; cases h1
  exact ⟨h', h2⟩

theorem Lawful.total {V : Type} {D : DistOps V} {supp : V → Prop} (L : Lawful D supp) : D.Total supp := by
  intro t ops m hr
  obtain ⟨h0, hf⟩ := L.fresh t
  obtain ⟨s', h', h1, h2, _⟩ := L.run ops hf hr
  exact ⟨s', h1, L.count h2⟩

theorem Lawful.Exact.roundTrip {V : Type} {D : DistOps V} {supp : V → Prop} {L : Lawful D supp} (E : L.Exact) :
    D.RoundTrip supp := by
  intro m s x hs hx
  obtain ⟨h, hr⟩ := L.holds hs
  obtain ⟨s1, h1, h2⟩ := L.inc hr hx
  obtain ⟨s2, h3, h4⟩ := L.dec h2
  obtain ⟨v, s3, h5, h6⟩ := L.logp hr hx
  refine ⟨⟨s1, h1, ?_⟩, v, ?_⟩
  · rw [h3, E _ _ _ _ h4 hr]
  · rw [h5, E _ _ _ _ h6 hr]

theorem Lawful.Exact.exchangeable {V : Type} {D : DistOps V} {supp : V → Prop} {L : Lawful D supp} (E : L.Exact) :
    D.Exchangeable supp := by
  intro m0 s0 h1 h2 m hs k1 k2 r1 r2
  obtain ⟨h, hr⟩ := L.holds hs
  obtain ⟨sa, ha, a1, a2, a3⟩ := L.run h1 hr r1
  obtain ⟨sb, hb, b1, b2, b3⟩ := L.run h2 hr r2
  rw [a3 k1] at a2
  rw [b3 k2] at b2
  refine ⟨sa, a1, ?_, L.count a2⟩
  rw [b1, E _ _ _ _ a2 b2]

theorem Coherent.scoreRatio {V : Type} {D : DistOps V} {supp : V → Prop} {L : Lawful D supp} (C : Coherent L) :
    D.ScoreRatio supp := by
  intro m s x hs hx
  obtain ⟨h, hr⟩ := L.holds hs
  obtain ⟨s1, h1, h2⟩ := L.inc hr hx
  obtain ⟨s2, h3⟩ := C _ _ _ _ _ hr hx h1
  exact ⟨s1, s2, h1, h3⟩

/-! ### BetaBernoulli -/
namespace BetaBernoulli

/-- the state with hyperparameters `a b` holding the data `m` -/
def rep (h : ℝ × ℝ) (m : Multiset Bool) : BetaBernoulli :=
  { alpha := h.1, beta := h.2, N := Multiset.card m, s := (m.count true : Int) }

theorem inc_rep (h m x) : (rep h m).incorporate x = rep h (x ::ₘ m) := by
  have : ((m.count true : ℕ) : ℝ) + 1 = (((m.count true : ℤ) + 1 : ℤ) : ℝ) := by push_cast; ring
  cases x
  · simp only [rep, incorporate]
    simp
    exact truncInt_int _
  · simp only [rep, incorporate, if_true, mul_one, Multiset.card_cons, Multiset.count_cons_self]
    congr 1
    · push_cast; ring
    · have := truncInt_int ((m.count true : ℤ) + 1)
      push_cast at this ⊢
      exact this

theorem dec_rep (h m x) : (rep h (x ::ₘ m)).unincorporate x = rep h m := by
  cases x
  · simp only [rep, unincorporate, incorporate, Multiset.card_cons]
    congr 1
    · push_cast; ring
    · have := truncInt_int ((m.count true : ℤ))
      simpa using this
  · simp only [rep, unincorporate, incorporate, if_true, Multiset.card_cons, Multiset.count_cons_self]
    congr 1
    · push_cast; ring
    · have := truncInt_int ((m.count true : ℤ))
      rw [← this]; congr 1; push_cast; ring

def PosH := {h : ℝ × ℝ // 0 < h.1 ∧ 0 < h.2}

theorem grid_pos {x} (h : x ∈ grid) : 0 < x := logLinspace_pos h

theorem grid_ne : grid ≠ [] := by
  intro h
  have := length_logLinspace 1e-4 1e4 10 true
  unfold grid at h; rw [h] at this; simp at this

theorem trans_mem (d : BetaBernoulli) (t : Tape) :
    (d.transitionHyperparameters t).1.alpha ∈ grid ∧ (d.transitionHyperparameters t).1.beta ∈ grid ∧
    (d.transitionHyperparameters t).1 = { d with
      alpha := (d.transitionHyperparameters t).1.alpha, beta := (d.transitionHyperparameters t).1.beta } := by
  have hne : (grid.flatMap (fun a => grid.map (fun b => (a, b)))) ≠ [] := by
    intro h
    rw [List.flatMap_eq_nil_iff] at h
    obtain ⟨a, l, ha⟩ := List.exists_cons_of_ne_nil grid_ne
    have := h a (by rw [ha]; simp)
    simp [grid_ne] at this
  have := pickGrid_mem (dflt := (d.alpha, d.beta)) (t := t) hne
  simp only [List.mem_flatMap, List.mem_map] at this
  obtain ⟨a, ha, b, hb, he⟩ := this
  refine ⟨?_, ?_, rfl⟩
  · simp only [transitionHyperparameters]; rw [← he]; exact ha
  · simp only [transitionHyperparameters]; rw [← he]; exact hb

/-- BetaBernoulli stores the multiset of its data. -/
def lawful : Lawful ops (fun _ => True) where
  H := PosH
  Rep := fun h m s => s = rep h.1 m
  fresh := fun t => ⟨⟨(1, 1), by norm_num, by norm_num⟩, by simp [ops, rep]⟩
  supported := fun _ _ => trivial
  inc := by rintro h m s x rfl _; exact ⟨_, rfl, inc_rep _ _ _⟩
  dec := by rintro h m s x rfl; exact ⟨_, rfl, dec_rep _ _ _⟩
  count := by rintro h m s rfl; rfl
  logp := by rintro h m s x rfl _; exact ⟨_, _, rfl, rfl⟩
  trans := by
    rintro h m s rfl t
    obtain ⟨h1, h2, h3⟩ := trans_mem (rep h.1 m) t
    exact ⟨⟨(_, _), grid_pos h1, grid_pos h2⟩, h3⟩

theorem scored : lawful.Scored := by rintro h m s s' rfl rfl; rfl

theorem coherent : Coherent lawful := by
  rintro ⟨⟨a, b⟩, ha, hb⟩ m s x s1 hs _ h1
  have hs' : s = rep (a, b) m := hs
  subst hs'
  injection h1 with h1
  subst h1
  refine ⟨rep (a, b) m, ?_⟩
  show (Except.ok (BetaBernoulli.logp (rep (a, b) m) x, rep (a, b) m) : Res (ℝ × BetaBernoulli)) =
    .ok (BetaBernoulli.logpScore ((rep (a, b) m).incorporate x) - BetaBernoulli.logpScore (rep (a, b) m), rep (a, b) m)
  congr 2
  rw [inc_rep]
  simp only at ha hb
  have hc : (m.count true : ℝ) ≤ Multiset.card m := by exact_mod_cast Multiset.count_le_card _ _
  have h0 : (0 : ℝ) ≤ m.count true := by positivity
  cases x
  · simp only [logp, rep, logpScore, lbeta, Multiset.card_cons, Multiset.count_cons]
    push_cast
    simp only [add_zero]
    rw [show (Multiset.card m : ℝ) + 1 - (m.count true : ℝ) + b = ((Multiset.card m : ℝ) - m.count true + b) + 1 by ring,
      lgamma_add_one (by linarith),
      show (m.count true : ℝ) + a + ((Multiset.card m : ℝ) - m.count true + b + 1) =
        ((m.count true : ℝ) + a + ((Multiset.card m : ℝ) - m.count true + b)) + 1 by ring,
      lgamma_add_one (by linarith)]
    rw [show (m.count true : ℝ) + a + ((Multiset.card m : ℝ) - m.count true + b) = Multiset.card m + a + b by ring]
    ring
  · simp only [logp, rep, logpScore, lbeta, Multiset.card_cons, Multiset.count_cons_self, if_true]
    push_cast
    rw [show (m.count true : ℝ) + 1 + a = (m.count true + a) + 1 by ring,
      lgamma_add_one (by linarith),
      show (Multiset.card m : ℝ) + 1 - (m.count true + 1) + b = (Multiset.card m : ℝ) - m.count true + b by ring,
      show (m.count true : ℝ) + a + 1 + ((Multiset.card m : ℝ) - m.count true + b) =
        ((m.count true : ℝ) + a + ((Multiset.card m : ℝ) - m.count true + b)) + 1 by ring,
      lgamma_add_one (by linarith)]
    rw [show (m.count true : ℝ) + a + ((Multiset.card m : ℝ) - m.count true + b) = Multiset.card m + a + b by ring]
    ring

end BetaBernoulli

/-! ### Normal -/
namespace Normal

/-- the state with hyperparameters `(r, v, m, s)` holding the data `d` -/
def rep (h : ℝ × ℝ × ℝ × ℝ) (d : Multiset ℝ) : Normal :=
  let n := (Multiset.card d : ℝ)
  { r := h.1, v := h.2.1, m := h.2.2.1, s := h.2.2.2, N := n, mean := d.sum / n
    var := (d.map (fun x => x * x)).sum / n - d.sum / n * (d.sum / n) }

theorem inc_rep (h d x) : (rep h d).incorporate x = rep h (x ::ₘ d) := by
  have hn : (0 : ℝ) ≤ Multiset.card d := by positivity
  have hN : (rep h d).N + 1 ≠ 0 := by simp only [rep]; linarith
  unfold incorporate
  simp only
  rw [if_neg hN]
  simp only [rep, Multiset.card_cons, Multiset.sum_cons, Multiset.map_cons]
  rcases Multiset.empty_or_exists_mem d with rfl | ⟨y, hy⟩
  · simp
  · have hp : (0 : ℝ) < Multiset.card d := by exact_mod_cast Multiset.card_pos.2 (by rintro rfl; simp at hy)
    congr 1
    · push_cast; ring
    · push_cast; field_simp; ring
    · push_cast; field_simp; ring

theorem dec_rep (h d x) : (rep h (x ::ₘ d)).unincorporate x = rep h d := by
  simp only [rep, unincorporate, incorporate, Multiset.card_cons, Multiset.sum_cons, Multiset.map_cons]
  rcases Multiset.empty_or_exists_mem d with rfl | ⟨y, hy⟩
  · simp
  · have hp : (0 : ℝ) < Multiset.card d := by exact_mod_cast Multiset.card_pos.2 (by rintro rfl; simp at hy)
    rw [if_neg (by push_cast; linarith)]
    congr 1
    · push_cast; ring
    · push_cast
      rw [show (Multiset.card d : ℝ) + 1 + -1 = Multiset.card d by ring]
      field_simp; ring
    · push_cast
      rw [show (Multiset.card d : ℝ) + 1 + -1 = Multiset.card d by ring]
      field_simp; ring

theorem grid_pos {h} (hh : h ∈ grid) : 0 < h.1 ∧ 0 < h.2.1 ∧ 0 < h.2.2.2 := by
  simp only [grid, List.mem_flatMap, List.mem_map] at hh
  obtain ⟨r, hr, v, hv, m, hm, s, hs, rfl⟩ := hh
  simp only [List.mem_cons, List.not_mem_nil, or_false] at hr hv hs
  refine ⟨?_, ?_, ?_⟩
  · rcases hr with rfl | rfl | rfl <;> norm_num
  · rcases hv with rfl | rfl | rfl | rfl <;> norm_num
  · rcases hs with rfl | rfl | rfl <;> norm_num

theorem trans_mem (d : Normal) (t : Tape) : ∃ h ∈ grid, (d.transitionHyperparameters t).1 =
    { d with r := h.1, v := h.2.1, m := h.2.2.1, s := h.2.2.2 } :=
  ⟨_, pickGrid_mem (by simp [grid]), rfl⟩

/-- Normal stores the multiset of its data. -/
def lawful : Lawful ops (fun _ => True) where
  H := {h : ℝ × ℝ × ℝ × ℝ // 0 < h.1 ∧ 0 < h.2.1 ∧ 0 < h.2.2.2}
  Rep := fun h m s => s = rep h.1 m
  fresh := fun t => ⟨⟨(1, 1, 0, 1), by norm_num⟩, by simp [ops, rep]⟩
  supported := fun _ _ => trivial
  inc := by rintro h m s x rfl _; exact ⟨_, rfl, inc_rep _ _ _⟩
  dec := by rintro h m s x rfl; exact ⟨_, rfl, dec_rep _ _ _⟩
  count := by rintro h m s rfl; rfl
  logp := by
    rintro h m s x rfl _
    refine ⟨_, _, rfl, ?_⟩
    show ((rep h.1 m).incorporate x).unincorporate x = rep h.1 m
    rw [inc_rep, dec_rep]
  trans := by
    rintro h m s rfl t
    obtain ⟨h', hm, he⟩ := trans_mem (rep h.1 m) t
    exact ⟨⟨h', grid_pos hm⟩, he⟩

theorem scored : lawful.Scored := by rintro h m s s' rfl rfl; rfl

theorem coherent : Coherent lawful := by
  rintro ⟨h, hp⟩ m s x s1 hs _ h1
  have hs' : s = rep h m := hs
  subst hs'
  injection h1 with h1
  subst h1
  refine ⟨rep h m, ?_⟩
  show (Except.ok (Normal.logp (rep h m) x) : Res (ℝ × Normal)) =
    .ok (Normal.logpScore ((rep h m).incorporate x) - Normal.logpScore (rep h m), rep h m)
  simp only [Except.ok.injEq, Normal.logp, Prod.mk.injEq, inc_rep, dec_rep, and_true, logpScore]
  have e1 : (rep h (x ::ₘ m)).N = (rep h m).N + 1 := by simp [rep]
  have e2 : (rep h (x ::ₘ m)).r = (rep h m).r := rfl
  have e3 : (rep h (x ::ₘ m)).v = (rep h m).v := rfl
  have e4 : (rep h (x ::ₘ m)).s = (rep h m).s := rfl
  rw [e1, e2, e3, e4, ← add_assoc, ← add_assoc]
  ring

end Normal

/-! ### ZeroMeanNormal -/
namespace ZeroMeanNormal

/-- the state with hyperparameters `(alpha, beta)` holding the data `d` -/
def rep (h : ℝ × ℝ) (d : Multiset ℝ) : ZeroMeanNormal :=
  let n := (Multiset.card d : ℝ)
  { alpha := h.1, beta := h.2, N := n, var := (d.map (fun x => x * x)).sum / n }

theorem inc_rep (h d x) : (rep h d).incorporate x = rep h (x ::ₘ d) := by
  have hn : (0 : ℝ) ≤ Multiset.card d := by positivity
  have hN : (rep h d).N + 1 ≠ 0 := by simp only [rep]; linarith
  unfold incorporate
  simp only
  rw [if_neg hN]
  simp only [rep, Multiset.card_cons, Multiset.sum_cons, Multiset.map_cons]
  rcases Multiset.empty_or_exists_mem d with rfl | ⟨y, hy⟩
  · simp
  · have hp : (0 : ℝ) < Multiset.card d := by exact_mod_cast Multiset.card_pos.2 (by rintro rfl; simp at hy)
    congr 1
    · push_cast; ring
    · push_cast; field_simp; ring

theorem dec_rep (h d x) : (rep h (x ::ₘ d)).unincorporate x = rep h d := by
  simp only [rep, unincorporate, incorporate, Multiset.card_cons, Multiset.map_cons, Multiset.sum_cons]
  rcases Multiset.empty_or_exists_mem d with rfl | ⟨y, hy⟩
  · simp
  · have hp : (0 : ℝ) < Multiset.card d := by exact_mod_cast Multiset.card_pos.2 (by rintro rfl; simp at hy)
    rw [if_neg (by push_cast; linarith)]
    congr 1
    · push_cast; ring
    · push_cast
      rw [show (Multiset.card d : ℝ) + 1 + -1 = Multiset.card d by ring]
      field_simp; ring

theorem alphaGrid_pos {x} (h : x ∈ DirichletCategorical.alphaGrid) : 0 < x := by
  simp only [DirichletCategorical.alphaGrid, List.mem_cons, List.not_mem_nil, or_false] at h
  rcases h with rfl | rfl | rfl | rfl | rfl | rfl | rfl | rfl | rfl <;> norm_num

theorem grid_pos {h} (hh : h ∈ grid) : 0 < h.1 ∧ 0 < h.2 := by
  simp only [grid, List.mem_flatMap, List.mem_map] at hh
  obtain ⟨a, ha, b, hb, rfl⟩ := hh
  exact ⟨alphaGrid_pos ha, alphaGrid_pos hb⟩

theorem trans_mem (d : ZeroMeanNormal) (t : Tape) : ∃ h ∈ grid, (d.transitionHyperparameters t).1 =
    { d with alpha := h.1, beta := h.2 } :=
  ⟨_, pickGrid_mem (by simp [grid, DirichletCategorical.alphaGrid]), rfl⟩

/-- ZeroMeanNormal stores the multiset of its data. -/
def lawful : Lawful ops (fun _ => True) where
  H := {h : ℝ × ℝ // 0 < h.1 ∧ 0 < h.2}
  Rep := fun h m s => s = rep h.1 m
  fresh := fun t => ⟨⟨(1, 1), by norm_num⟩, by simp [ops, rep]⟩
  supported := fun _ _ => trivial
  inc := by rintro h m s x rfl _; exact ⟨_, rfl, inc_rep _ _ _⟩
  dec := by rintro h m s x rfl; exact ⟨_, rfl, dec_rep _ _ _⟩
  count := by rintro h m s rfl; rfl
  logp := by rintro h m s x rfl _; exact ⟨_, _, rfl, rfl⟩
  trans := by
    rintro h m s rfl t
    obtain ⟨h', hm, he⟩ := trans_mem (rep h.1 m) t
    exact ⟨⟨h', grid_pos hm⟩, he⟩

theorem scored : lawful.Scored := by rintro h m s s' rfl rfl; rfl

theorem var_mul_N (h d) : (rep h d).var * (rep h d).N = (d.map (fun x => x * x)).sum := by
  simp only [rep]
  rcases Multiset.empty_or_exists_mem d with rfl | ⟨y, hy⟩
  · simp
  · have hp : (0 : ℝ) < Multiset.card d := by exact_mod_cast Multiset.card_pos.2 (by rintro rfl; simp at hy)
    field_simp

theorem sumsq_nonneg (d : Multiset ℝ) : 0 ≤ (d.map (fun x => x * x)).sum := by
  apply Multiset.sum_nonneg
  intro x hx
  rw [Multiset.mem_map] at hx
  obtain ⟨y, _, rfl⟩ := hx
  exact mul_self_nonneg y

theorem coherent : Coherent lawful := by
  rintro ⟨⟨a, b⟩, ha, hb⟩ d s x s1 hs _ h1
  have hs' : s = rep (a, b) d := hs
  subst hs'
  injection h1 with h1
  subst h1
  refine ⟨rep (a, b) d, ?_⟩
  show (Except.ok (ZeroMeanNormal.logp (rep (a, b) d) x, rep (a, b) d) : Res (ℝ × ZeroMeanNormal)) =
    .ok (ZeroMeanNormal.logpScore ((rep (a, b) d).incorporate x) - ZeroMeanNormal.logpScore (rep (a, b) d), rep (a, b) d)
  congr 2
  rw [inc_rep]
  simp only at ha hb
  simp only [logp, logpParams, logTDistribution, logpScore]
  have hv := var_mul_N (a, b) d
  have hv' := var_mul_N (a, b) (x ::ₘ d)
  simp only [Multiset.map_cons, Multiset.sum_cons] at hv'
  have hN : (rep (a, b) (x ::ₘ d)).N = (rep (a, b) d).N + 1 := by simp [rep]
  have hN0 : 0 ≤ (rep (a, b) d).N := by simp [rep]
  have ea : (rep (a, b) d).alpha = a := rfl
  have eb : (rep (a, b) d).beta = b := rfl
  have ea' : (rep (a, b) (x ::ₘ d)).alpha = a := rfl
  have eb' : (rep (a, b) (x ::ₘ d)).beta = b := rfl
  rw [mul_assoc 0.5 (rep (a, b) (x ::ₘ d)).var, hv', hN, mul_assoc 0.5 (rep (a, b) d).var, hv, ea, eb, ea', eb']
  have hs0 := sumsq_nonneg d
  generalize (d.map (fun x => x * x)).sum = q at *
  generalize (rep (a, b) d).N = n at *
  have hA : 0 < a + n / 2 := by linarith
  have hB : 0 < b + 0.5 * q := by norm_num; linarith
  have e1 : (2 * (a + n / 2) + 1) / 2 = a + n / 2 + 1 / 2 := by ring
  have e2 : 2 * (a + n / 2) / 2 = a + n / 2 := by ring
  have e3 : Real.pi * (2 * (a + n / 2)) * ((b + 0.5 * q) / (a + n / 2)) = 2 * Real.pi * (b + 0.5 * q) := by
    field_simp
  have e4 : 1 + x * x / ((b + 0.5 * q) / (a + n / 2) * (2 * (a + n / 2))) =
      (b + 0.5 * (x * x + q)) / (b + 0.5 * q) := by
    field_simp
    ring
  have hx : 0 ≤ x * x := mul_self_nonneg x
  have hC : 0 < b + 0.5 * (x * x + q) := by norm_num; linarith
  rw [e1, e2, e3, e4, Real.log_div hC.ne' hB.ne', Real.log_mul (by positivity) hB.ne']
  rw [show a + (n + 1) / 2 = a + n / 2 + 1 / 2 by ring]
  ring

end ZeroMeanNormal

/-! ### Skellam -/
namespace Skellam

/-- nonconjugate.hh: `s` holds the data `m`; entries of `seen` whose count has dropped to zero may remain. -/
def Rep (h : ℝ × ℝ × ℝ × ℝ × ℝ × ℝ) (m : Multiset Int) (s : Skellam) : Prop :=
  h = (s.mean1, s.mean2, s.stddev1, s.stddev2, s.mu1, s.mu2) ∧ s.N = Multiset.card m ∧
  ∀ x, (s.seen.find? x).getD 0 = (m.count x : ℝ)

theorem sum_entries_eq (f : Int → ℝ) (seen : FMap Int ℝ) (m : Multiset Int)
    (h : ∀ x, (seen.find? x).getD 0 = (m.count x : ℝ)) :
    (seen.entries.map (fun e => f e.1 * e.2)).sum = (m.map f).sum := by
  classical
  have h1 : (seen.entries.map (fun e => f e.1 * e.2)).sum =
      (seen.keys.map (fun k => f k * (m.count k : ℝ))).sum := by
    unfold FMap.keys
    rw [List.map_map]
    congr 1
    apply List.map_congr_left
    rintro ⟨k, v⟩ hkv
    have := h k
    rw [(FMap.mem_entries).1 hkv] at this
    simp only [Option.getD_some] at this
    simp [this]
  have h2 : (m.map f).sum = ∑ k ∈ seen.keys.toFinset, m.count k • f k := by
    rw [Finset.sum_multiset_map_count]
    apply Finset.sum_subset
    · intro x hx
      rw [Multiset.mem_toFinset] at hx
      rw [List.mem_toFinset, FMap.mem_keys]
      have := h x
      have hc : 0 < m.count x := Multiset.count_pos.2 hx
      cases hf : seen.find? x with
      | none => rw [hf] at this; simp only [Option.getD_none] at this; exact absurd this.symm (by exact_mod_cast hc.ne')
      | some v => exact ⟨v, rfl⟩
    · intro x _ hx
      rw [Multiset.mem_toFinset] at hx
      simp [Multiset.count_eq_zero.2 hx]
  rw [h1, h2, List.sum_toFinset _ seen.nodupKeys]
  congr 1
  apply List.map_congr_left
  intro k _
  rw [nsmul_eq_mul, mul_comm]

theorem score_rep (besselI : Nat → ℝ → ℝ) {h m s} (hr : Rep h m s) :
    s.logpScore besselI = (m.map (s.logp besselI)).sum :=
  sum_entries_eq _ _ _ hr.2.2

theorem logp_rep (besselI : Nat → ℝ → ℝ) {h m m' s s'} (hr : Rep h m s) (hr' : Rep h m' s') :
    s.logp besselI = s'.logp besselI := by
  have := hr.1.symm.trans hr'.1
  simp only [Prod.mk.injEq] at this
  funext x
  simp only [logp, this]

theorem inc_rep {h m s} (x) (hr : Rep h m s) : Rep h (x ::ₘ m) (s.incorporate x) := by
  refine ⟨hr.1, ?_, ?_⟩
  · simp [incorporate, hr.2.1]
  · intro y
    simp only [incorporate]
    by_cases hy : y = x
    · subst hy; rw [FMap.find?_set_self, Option.getD_some, hr.2.2]; simp
    · rw [FMap.find?_set_ne _ hy, hr.2.2, Multiset.count_cons_of_ne hy]

theorem dec_rep {h m s} (x) (hr : Rep h (x ::ₘ m) s) : Rep h m (s.unincorporate x) := by
  refine ⟨hr.1, ?_, ?_⟩
  · simp [unincorporate, incorporate, hr.2.1]
  · intro y
    simp only [incorporate, unincorporate]
    by_cases hy : y = x
    · subst hy; rw [FMap.find?_set_self, Option.getD_some, hr.2.2]; simp
    · rw [FMap.find?_set_ne _ hy, hr.2.2, Multiset.count_cons_of_ne hy]

theorem grid_pos {h} (hh : h ∈ grid) : 0 < h.2.1 ∧ 0 < h.2.2.2 := by
  simp only [grid, List.mem_flatMap, List.mem_map] at hh
  obtain ⟨r, hr, v, hv, m, hm, s, hs, rfl⟩ := hh
  simp only [List.mem_cons, List.not_mem_nil, or_false] at hv hs
  refine ⟨?_, ?_⟩
  · rcases hv with rfl | rfl | rfl <;> norm_num
  · rcases hs with rfl | rfl | rfl <;> norm_num

theorem trans_mem (d : Skellam) (t : Tape) : ∃ h ∈ grid, (d.transitionHyperparameters t).1 =
    { d with mean1 := h.1, stddev1 := h.2.1, mean2 := h.2.2.1, stddev2 := h.2.2.2 } :=
  ⟨_, pickGrid_mem (by simp [grid]), rfl⟩

/-- Skellam stores the multiset of its data. -/
def lawful (besselI : Nat → ℝ → ℝ) (z : Tape → ℝ × ℝ) (p : Tape → ℝ) : Lawful (ops besselI z p) (fun _ => True) where
  H := ℝ × ℝ × ℝ × ℝ × ℝ × ℝ
  Rep := Rep
  fresh := fun t => ⟨_, rfl, by simp [ops, initTheta], by intro x; simp [ops, initTheta]⟩
  supported := fun _ _ => trivial
  inc := fun hr _ => ⟨_, rfl, inc_rep _ hr⟩
  dec := fun hr => ⟨_, rfl, dec_rep _ hr⟩
  count := fun hr => hr.2.1
  logp := fun hr _ => ⟨_, _, rfl, hr⟩
  trans := fun hr t => ⟨_, rfl, hr.2.1, hr.2.2⟩
  theta := by
    intro h m s hr t
    have key : ∀ s' : Skellam, s'.N = s.N → s'.seen = s.seen → ∃ h', Rep h' m s' := fun s' h1 h2 =>
      ⟨_, rfl, by rw [h1]; exact hr.2.1, by rw [h2]; exact hr.2.2⟩
    apply key
    all_goals
      simp only [ops, transitionTheta]
      split
      · rename_i s' hs'
        split at hs' <;> cases hs' <;> rfl
      · rfl

theorem scored (besselI : Nat → ℝ → ℝ) (z : Tape → ℝ × ℝ) (p : Tape → ℝ) : (lawful besselI z p).Scored := by
  intro h m s s' hr hr'
  show s.logpScore besselI = s'.logpScore besselI
  rw [score_rep besselI hr, score_rep besselI hr', logp_rep besselI hr hr']

theorem coherent (besselI : Nat → ℝ → ℝ) (z : Tape → ℝ × ℝ) (p : Tape → ℝ) : Coherent (lawful besselI z p) := by
  intro h m s x s1 hr _ h1
  injection h1 with h1
  subst h1
  refine ⟨s, ?_⟩
  have hr' : Rep h m s := hr
  have hi := inc_rep x hr'
  show (Except.ok (Skellam.logp besselI s x, s) : Res (ℝ × Skellam)) =
    .ok (Skellam.logpScore besselI (Skellam.incorporate s x) - Skellam.logpScore besselI s, s)
  congr 2
  rw [score_rep besselI hr', score_rep besselI hi, logp_rep besselI hi hr']
  simp

end Skellam

end
end Verif
