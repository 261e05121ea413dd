import Verif.Lemmas.DistMore
/-!
C09 (transitions), C10-C18: the distributions.

`DistOps.Holds supp m s`: `s` is the state of an object after some legal history (any sequence of incorporate, unincorporate, logp and
hyperparameter transition with any draws) of a fresh object, and `m` is the data it then holds; see Verif/Spec/Dist.lean.
-/
namespace Verif
noncomputable section

/-! ### C10: unincorporate undoes incorporate; logp does not change the state -/

theorem C10_beta_bernoulli : BetaBernoulli.ops.RoundTrip (fun _ => True) := BetaBernoulli.exact.roundTrip
theorem C10_dirichlet_categorical (k : Nat) : (DirichletCategorical.ops k).RoundTrip (fun x => 0 ≤ x ∧ x < k) :=
  (DirichletCategorical.exact k).roundTrip
theorem C10_normal : Normal.ops.RoundTrip (fun _ => True) := Normal.exact.roundTrip
theorem C10_zero_mean_normal : ZeroMeanNormal.ops.RoundTrip (fun _ => True) := ZeroMeanNormal.exact.roundTrip
theorem C10_stringcat (strings : List String) : (StringCat.ops strings).RoundTrip (· ∈ strings) :=
  (StringCat.exact strings).roundTrip
theorem C10_bigram (maxLength minChar maxChar : Nat) :
    (Bigram.ops maxLength minChar maxChar).RoundTrip (Bigram.Accepts maxLength minChar maxChar) :=
  (Bigram.exact _ _ _).roundTrip

/-- Skellam keeps an entry of weight zero for a removed value; nothing else remembers it: `N`, the parameters, every
weight, and the score are restored. -/
theorem C10_skellam (besselI : Nat → ℝ → ℝ) (z : Tape → ℝ × ℝ) (p : Tape → ℝ) (m : Multiset Int) (s : Skellam) (x : Int)
    (hs : (Skellam.ops besselI z p).Holds (fun _ => True) m s) :
    let s' := (s.incorporate x).unincorporate x
    { s' with seen := s.seen } = s ∧ (∀ y, (s'.seen.find? y).getD 0 = (s.seen.find? y).getD 0) ∧
      s'.logpScore besselI = s.logpScore besselI := by
  obtain ⟨h, hr⟩ := (Skellam.lawful besselI z p).holds hs
  have hr' : Skellam.Rep h m s := hr
  have h2 := Skellam.dec_rep x (Skellam.inc_rep x hr')
  refine ⟨?_, ?_, Skellam.scored besselI z p _ _ _ _ h2 hr⟩
  · simp only [Skellam.unincorporate, Skellam.incorporate]
    simp
  · intro y; rw [h2.2.2, hr'.2.2]

/-- The adapter (`DistributionAdapter`) inherits the property from the adapted distribution. -/
theorem C10_adapter_normal (parse : String → Res ℝ) :
    (Normal.ops.adapt parse).RoundTrip (fun x => ∃ v, parse x = .ok v ∧ True) := (Normal.exact.adapt parse).roundTrip

/-- A fractional weight is not undone by the opposite weight: the success count of BetaBernoulli is an `int`. -/
theorem C10_fractional_weight_lost :
    (((({} : BetaBernoulli).incorporate true 1).incorporate true (1 / 2)).incorporate true (-(1 / 2))).s ≠
      (({} : BetaBernoulli).incorporate true 1).s := by
  have e1 : truncInt ((0 : ℤ) + 1 * 1 : ℝ) = 1 := by
    have := truncInt_int 1; push_cast at this; simpa using this
  have e2 : truncInt ((1 : ℤ) + 1 / 2 * 1 : ℝ) = 1 := by
    unfold truncInt; rw [if_pos (by norm_num), Int.floor_eq_iff]; norm_num
  have e3 : truncInt ((1 : ℤ) + -(1 / 2) * 1 : ℝ) = 0 := by
    unfold truncInt; rw [if_pos (by norm_num), Int.floor_eq_iff]; norm_num
  simp only [BetaBernoulli.incorporate, if_true, e1, e2, e3]
  norm_num

/-- The hypotheses are met: a history with removals, evaluations and a hyperparameter transition. -/
example : ∃ s, Normal.ops.Holds (fun _ => True) {2} s := by
  obtain ⟨s, h, _⟩ := Normal.lawful.total [] [.inc 1, .inc 2, .trans [17], .eval 5, .dec 1] {2} (by
    simp only [remaining, if_true]
    rw [if_pos (by simp)]
    simp only [Option.some.injEq]
    rw [Multiset.cons_swap, Multiset.erase_cons_head]; rfl)
  exact ⟨s, [], _, by
    simp only [remaining, if_true]
    rw [if_pos (by simp)]
    simp only [Option.some.injEq]
    rw [Multiset.cons_swap, Multiset.erase_cons_head]; rfl, h⟩

example : ∃ s, (Bigram.ops 20 48 57).Holds (Bigram.Accepts 20 48 57) {['4', '2']} s := by
  have hr : remaining (Bigram.Accepts 20 48 57) [.inc ['4', '2'], .eval ['7'], .trans [3]] 0 = some {['4', '2']} := by
    have h1 : Bigram.Accepts 20 48 57 ['4', '2'] := ⟨by simp, by decide⟩
    have h2 : Bigram.Accepts 20 48 57 ['7'] := ⟨by simp, by decide⟩
    simp only [remaining, if_pos h1, if_pos h2]; rfl
  obtain ⟨s, h, _⟩ := (Bigram.lawful 20 48 57).total [] _ _ hr
  exact ⟨s, [], _, hr, h⟩

/-! ### C11: the state depends only on the multiset of data -/

theorem C11_beta_bernoulli : BetaBernoulli.ops.Exchangeable (fun _ => True) := BetaBernoulli.exact.exchangeable
theorem C11_dirichlet_categorical (k : Nat) : (DirichletCategorical.ops k).Exchangeable (fun x => 0 ≤ x ∧ x < k) :=
  (DirichletCategorical.exact k).exchangeable
theorem C11_normal : Normal.ops.Exchangeable (fun _ => True) := Normal.exact.exchangeable
theorem C11_zero_mean_normal : ZeroMeanNormal.ops.Exchangeable (fun _ => True) := ZeroMeanNormal.exact.exchangeable
theorem C11_stringcat (strings : List String) : (StringCat.ops strings).Exchangeable (· ∈ strings) :=
  (StringCat.exact strings).exchangeable
theorem C11_bigram (maxLength minChar maxChar : Nat) :
    (Bigram.ops maxLength minChar maxChar).Exchangeable (Bigram.Accepts maxLength minChar maxChar) :=
  (Bigram.exact _ _ _).exchangeable

/-- For Skellam: two histories that leave the same data behind end with the same `N`, the same weight of every value, and the same score. -/
theorem C11_skellam (besselI : Nat → ℝ → ℝ) (z : Tape → ℝ × ℝ) (p : Tape → ℝ) (m0 : Multiset Int) (s0 : Skellam)
    (h1 h2 : List (DataOp Int)) (m : Multiset Int) (hs : (Skellam.ops besselI z p).Holds (fun _ => True) m0 s0)
    (k1 : ∀ o ∈ h1, o.keepsHypers) (k2 : ∀ o ∈ h2, o.keepsHypers)
    (r1 : remaining (fun _ => True) h1 m0 = some m) (r2 : remaining (fun _ => True) h2 m0 = some m) :
    ∃ s1 s2 : Skellam, (Skellam.ops besselI z p).run s0 h1 = .ok s1 ∧ (Skellam.ops besselI z p).run s0 h2 = .ok s2 ∧
      s1.N = Multiset.card m ∧ s2.N = Multiset.card m ∧
      (∀ x, (s1.seen.find? x).getD 0 = m.count x ∧ (s2.seen.find? x).getD 0 = m.count x) ∧
      s1.logpScore besselI = s2.logpScore besselI := by
  obtain ⟨h, hr⟩ := (Skellam.lawful besselI z p).holds hs
  obtain ⟨sa, ha, a1, a2, a3⟩ := (Skellam.lawful besselI z p).run h1 hr r1
  obtain ⟨sb, hb, b1, b2, b3⟩ := (Skellam.lawful besselI z p).run h2 hr r2
  rw [a3 k1] at a2
  rw [b3 k2] at b2
  exact ⟨sa, sb, a1, b1, a2.2.1, b2.2.1, fun x => ⟨a2.2.2 x, b2.2.2 x⟩, Skellam.scored besselI z p _ _ _ _ a2 b2⟩

/-- No legal history of any distribution fails, and `N` counts the data held. -/
theorem C11_total :
    BetaBernoulli.ops.Total (fun _ => True) ∧ (∀ k : Nat, (DirichletCategorical.ops k).Total (fun x => 0 ≤ x ∧ x < k)) ∧
    Normal.ops.Total (fun _ => True) ∧ ZeroMeanNormal.ops.Total (fun _ => True) ∧
    (∀ strings, (StringCat.ops strings).Total (· ∈ strings)) ∧
    (∀ l lo hi, (Bigram.ops l lo hi).Total (Bigram.Accepts l lo hi)) ∧
    (∀ besselI z p, (Skellam.ops besselI z p).Total (fun _ => True)) :=
  ⟨BetaBernoulli.lawful.total, fun k => (DirichletCategorical.lawful k).total, Normal.lawful.total, ZeroMeanNormal.lawful.total,
    fun s => (StringCat.lawful s).total, fun l lo hi => (Bigram.lawful l lo hi).total, fun b z p => (Skellam.lawful b z p).total⟩

/-- Two different histories with the same remaining data. -/
example : remaining (V := Bool) (fun _ => True) [.inc true, .inc false] 0 =
    remaining (V := Bool) (fun _ => True) [.inc false, .inc false, .dec false, .eval true, .inc true] 0 := by
  simp only [remaining, if_true]
  rw [if_pos (by simp)]
  simp only [Multiset.erase_cons_head]
  rw [Multiset.cons_swap]

/-! ### C12: running statistics are batch statistics -/

/-- The running mean and variance of Normal are the mean and the population variance of the data held. -/
theorem C12_normal (m : Multiset ℝ) (s : Normal) (hs : Normal.ops.Holds (fun _ => True) m s) :
    s.N = Multiset.card m ∧ s.mean = m.sum / Multiset.card m ∧
    s.var = (m.map (fun x => (x - m.sum / Multiset.card m) ^ 2)).sum / Multiset.card m := by
  obtain ⟨h, hr⟩ := Normal.lawful.holds hs
  have hr' : s = Normal.rep h.1 m := hr
  subst hr'
  refine ⟨rfl, rfl, ?_⟩
  simp only [Normal.rep]
  rcases Multiset.empty_or_exists_mem m with rfl | ⟨y, hy⟩
  · simp
  · have hp : (0 : ℝ) < Multiset.card m := by exact_mod_cast Multiset.card_pos.2 (by rintro rfl; simp at hy)
    have e : ∀ c : ℝ, (m.map (fun x => (x - c) ^ 2)).sum =
        (m.map (fun x => x * x)).sum - 2 * c * m.sum + Multiset.card m * c ^ 2 := by
      intro c
      clear hs hr hy hp
      induction m using Multiset.induction with
      | empty => simp
      | cons a m ih => simp only [Multiset.map_cons, Multiset.sum_cons, ih, Multiset.card_cons]; push_cast; ring
    rw [e]
    field_simp
    ring

/-- The running second moment of ZeroMeanNormal is the mean square of the data held. -/
theorem C12_zero_mean_normal (m : Multiset ℝ) (s : ZeroMeanNormal) (hs : ZeroMeanNormal.ops.Holds (fun _ => True) m s) :
    s.N = Multiset.card m ∧ s.var = (m.map (fun x => x ^ 2)).sum / Multiset.card m := by
  obtain ⟨h, hr⟩ := ZeroMeanNormal.lawful.holds hs
  have hr' : s = ZeroMeanNormal.rep h.1 m := hr
  subst hr'
  refine ⟨rfl, ?_⟩
  simp only [ZeroMeanNormal.rep, pow_two]

/-! ### C13: logp is the score ratio -/

theorem C13_beta_bernoulli : BetaBernoulli.ops.ScoreRatio (fun _ => True) := BetaBernoulli.coherent.scoreRatio
theorem C13_dirichlet_categorical (k : Nat) : (DirichletCategorical.ops k).ScoreRatio (fun x => 0 ≤ x ∧ x < k) :=
  (DirichletCategorical.coherent k).scoreRatio
theorem C13_normal : Normal.ops.ScoreRatio (fun _ => True) := Normal.coherent.scoreRatio
theorem C13_zero_mean_normal : ZeroMeanNormal.ops.ScoreRatio (fun _ => True) := ZeroMeanNormal.coherent.scoreRatio
theorem C13_stringcat (strings : List String) : (StringCat.ops strings).ScoreRatio (· ∈ strings) :=
  (StringCat.coherent strings).scoreRatio
theorem C13_bigram (maxLength minChar maxChar : Nat) :
    (Bigram.ops maxLength minChar maxChar).ScoreRatio (Bigram.Accepts maxLength minChar maxChar) :=
  (Bigram.coherent _ _ _).scoreRatio
theorem C13_skellam (besselI : Nat → ℝ → ℝ) (z : Tape → ℝ × ℝ) (p : Tape → ℝ) :
    (Skellam.ops besselI z p).ScoreRatio (fun _ => True) := (Skellam.coherent besselI z p).scoreRatio
theorem C13_adapter_normal (parse : String → Res ℝ) :
    (Normal.ops.adapt parse).ScoreRatio (fun x => ∃ v, parse x = .ok v ∧ True) := (Normal.coherent.adapt parse).scoreRatio

/-- The posterior hyperparameters computed from the running statistics are the textbook ones:
`m' = (r m + Σx) / (r + n)` and `s' = s + r m² + Σx² - (r + n) m'²`. -/
theorem C13_normal_posterior (d : Multiset ℝ) (s : Normal) (hs : Normal.ops.Holds (fun _ => True) d s) :
    s.posteriorHypers =
      ((s.r * s.m + d.sum) / (s.r + Multiset.card d),
       s.s + s.r * s.m ^ 2 + (d.map (fun x => x ^ 2)).sum -
        (s.r + Multiset.card d) * ((s.r * s.m + d.sum) / (s.r + Multiset.card d)) ^ 2) := by
  obtain ⟨h, hr⟩ := Normal.lawful.holds hs
  have hr' : s = Normal.rep h.1 d := hr
  subst hr'
  have hrpos : 0 < h.1.1 := h.2.1
  simp only [Normal.posteriorHypers, Normal.rep, pow_two]
  rcases Multiset.empty_or_exists_mem d with rfl | ⟨y, hy⟩
  · simp
    field_simp
    ring
  · have hp : (0 : ℝ) < Multiset.card d := by exact_mod_cast Multiset.card_pos.2 (by rintro rfl; simp at hy)
    have hq : h.1.1 + (Multiset.card d : ℝ) ≠ 0 := by positivity
    rw [Prod.mk.injEq]
    constructor
    · field_simp; ring
    · field_simp; ring

/-! ### C14: discrete predictives are normalised -/

/-- BetaBernoulli: the two predictive probabilities sum to one, and both are positive. -/
theorem C14_beta_bernoulli (m : Multiset Bool) (s : BetaBernoulli) (hs : BetaBernoulli.ops.Holds (fun _ => True) m s) :
    Real.exp (s.logp true) + Real.exp (s.logp false) = 1 := by
  obtain ⟨⟨⟨a, b⟩, ha, hb⟩, hr⟩ := BetaBernoulli.lawful.holds hs
  have hr' : s = BetaBernoulli.rep (a, b) m := hr
  subst hr'
  simp only at ha hb
  have hc : (m.count true : ℝ) ≤ Multiset.card m := by exact_mod_cast Multiset.count_le_card _ _
  have h0 : (0 : ℝ) ≤ m.count true := by positivity
  have h1 : 0 < (m.count true : ℝ) + a := by linarith
  have h2 : 0 < (Multiset.card m : ℝ) - m.count true + b := by linarith
  have h3 : 0 < (Multiset.card m : ℝ) + a + b := by linarith
  simp only [BetaBernoulli.logp, BetaBernoulli.rep, if_true, Bool.false_eq_true, if_false, Int.cast_natCast]
  rw [Real.exp_sub, Real.exp_sub, Real.exp_log h1, Real.exp_log h2, Real.exp_log h3]
  field_simp
  ring

theorem sum_count_range {k : Nat} (m : Multiset Int) (h : ∀ x ∈ m, 0 ≤ x ∧ x < k) :
    ∑ i ∈ Finset.range k, (m.count (i : Int) : ℝ) = Multiset.card m := by
  induction m using Multiset.induction with
  | empty => simp
  | cons x m ih =>
    have hx := h x (Multiset.mem_cons_self _ _)
    obtain ⟨i, rfl⟩ := Int.eq_ofNat_of_zero_le hx.1
    have hi : i ∈ Finset.range k := Finset.mem_range.2 (by have := hx.2; omega)
    have ih := ih (fun y hy => h y (Multiset.mem_cons_of_mem hy))
    rw [Multiset.card_cons, Nat.cast_add, ← ih, ← Finset.add_sum_erase _ _ hi, ← Finset.add_sum_erase (a := i) _ (fun j : ℕ => (m.count (j : Int) : ℝ)) hi]
    have : ∑ j ∈ (Finset.range k).erase i, (((i : Int) ::ₘ m).count (j : Int) : ℝ) =
        ∑ j ∈ (Finset.range k).erase i, (m.count (j : Int) : ℝ) := by
      apply Finset.sum_congr rfl
      intro j hj
      rw [Multiset.count_cons_of_ne (by exact_mod_cast Finset.ne_of_mem_erase hj)]
    rw [this]
    simp
    ring

theorem sum_exp_row {a : ℝ} {k : Nat} {c : Nat → ℝ} {n : ℝ} (ha : 0 < a) (hk : 0 < k) (hc : ∀ i, 0 ≤ c i) (hn : 0 ≤ n)
    (hsum : ∑ i ∈ Finset.range k, c i = n) :
    ∑ i ∈ Finset.range k, Real.exp (Real.log (a + c i) - Real.log (n + a * k)) = 1 := by
  have hk' : (0 : ℝ) < k := by exact_mod_cast hk
  have hd : 0 < n + a * k := by positivity
  have : ∀ i, Real.exp (Real.log (a + c i) - Real.log (n + a * k)) = (a + c i) / (n + a * k) := by
    intro i
    have := hc i
    rw [Real.exp_sub, Real.exp_log (by linarith), Real.exp_log hd]
  simp only [this]
  rw [← Finset.sum_div, Finset.sum_add_distrib, hsum]
  simp only [Finset.sum_const, Finset.card_range, nsmul_eq_mul]
  field_simp
  ring

/-- DirichletCategorical: the predictive probabilities of the `k` categories sum to one. -/
theorem C14_dirichlet_categorical {k : Nat} (hk : 0 < k) (m : Multiset Int) (s : DirichletCategorical)
    (hs : (DirichletCategorical.ops k).Holds (fun x => 0 ≤ x ∧ x < k) m s) :
    ∃ p : Nat → ℝ, (∀ i < k, s.logp i = .ok (p i)) ∧ ∑ i ∈ Finset.range k, Real.exp (p i) = 1 := by
  obtain ⟨⟨a, ha⟩, rfl, hm⟩ := (DirichletCategorical.lawful k).holds hs
  refine ⟨_, fun i hi => DirichletCategorical.logp_rep ⟨by positivity, by exact_mod_cast hi⟩, ?_⟩
  exact sum_exp_row ha hk (fun i => by positivity) (by positivity) (sum_count_range m hm)

/-- StringCat: the predictive probabilities of its strings, if distinct, sum to one. -/
theorem C14_stringcat {strings : List String} (hne : strings ≠ []) (hnd : strings.Nodup) (m : Multiset String) (s : StringCat)
    (hs : (StringCat.ops strings).Holds (· ∈ strings) m s) :
    ∃ p : String → ℝ, (∀ x ∈ strings, s.logp x = .ok (p x)) ∧ (strings.map (fun x => Real.exp (p x))).sum = 1 := by
  obtain ⟨⟨a, ha⟩, rfl, hm⟩ := (StringCat.lawful strings).holds hs
  refine ⟨_, fun x hx => StringCat.logp_rep hx, ?_⟩
  have hsum := sum_exp_row (c := fun i => ((m.map (fun s => (strings.idxOf s : Int))).count (i : Int) : ℝ)) ha
    (List.length_pos_iff.2 hne) (fun i => by positivity) (n := Multiset.card m) (by positivity) (by
      rw [sum_count_range (k := strings.length), Multiset.card_map]
      intro x hx
      rw [Multiset.mem_map] at hx
      obtain ⟨y, hy, rfl⟩ := hx
      exact StringCat.supp_idx (hm y hy))
  rw [← hsum, Finset.sum_range]
  rw [← List.sum_ofFn]
  congr 1
  apply List.ext_getElem
  · simp
  · intro i h1 h2
    simp only [List.getElem_map, List.getElem_ofFn]
    rw [hnd.idxOf_getElem]

/-- With a repeated string the predictive probabilities of StringCat do not sum to one (the second copy can never be counted). -/
theorem C14_stringcat_duplicates :
    ∃ p : String → ℝ, (∀ x ∈ ["a", "a", "b"], (StringCat.mk' ["a", "a", "b"]).logp x = .ok (p x)) ∧
      Real.exp (p "a") + Real.exp (p "b") = 2 / 3 := by
  have e : StringCat.mk' ["a", "a", "b"] = StringCat.rep 1 ["a", "a", "b"] 0 := by
    simp [StringCat.rep, StringCat.mk', DirichletCategorical.mk', DirichletCategorical.rep, DirichletCategorical.of]
  refine ⟨_, fun x hx => by rw [e]; exact StringCat.logp_rep hx, ?_⟩
  simp only [Multiset.map_zero, Multiset.count_zero, Multiset.card_zero, List.length_cons, List.length_nil]
  norm_num
  rw [Real.exp_neg, Real.exp_log (by norm_num)]
  norm_num

theorem Bigram.mem_pairs : ∀ {l : List Nat} {p : Nat × Nat}, p ∈ Bigram.pairs l → p.1 ∈ l ∧ p.2 ∈ l := by
  intro l
  induction l with
  | nil => intro p h; simp [Bigram.pairs] at h
  | cons i l ih =>
    intro p h
    cases l with
    | nil => simp [Bigram.pairs] at h
    | cons j l =>
      simp only [Bigram.pairs, List.mem_cons] at h
      rcases h with rfl | h
      · simp
      · have := ih h; exact ⟨List.mem_cons_of_mem _ this.1, List.mem_cons_of_mem _ this.2⟩

theorem sum_pairs_row {k : Nat} (i : Nat) (T : Multiset (Nat × Nat)) (h : ∀ p ∈ T, p.2 < k) :
    ∑ j ∈ Finset.range k, (T.count (i, j) : ℝ) = ((T.map Prod.fst).count i : ℝ) := by
  induction T using Multiset.induction with
  | empty => simp
  | cons p T ih =>
    obtain ⟨i', j'⟩ := p
    have hj : j' ∈ Finset.range k := Finset.mem_range.2 (h _ (Multiset.mem_cons_self _ _))
    have ih := ih (fun q hq => h q (Multiset.mem_cons_of_mem hq))
    simp only [Multiset.count_cons, Multiset.map_cons]
    push_cast
    rw [Finset.sum_add_distrib, ih]
    congr 1
    by_cases hi : i = i'
    · subst hi
      rw [if_pos rfl, Finset.sum_eq_single j']
      · simp
      · intro b _ hb; rw [if_neg (by simp [hb])]
      · intro hb; exact absurd hj hb
    · rw [if_neg hi]
      apply Finset.sum_eq_zero
      intro j _
      rw [if_neg (by simp [hi])]

theorem mem_multiset_sum {α : Type} {S : Multiset (Multiset α)} {a : α} (h : a ∈ S.sum) : ∃ y ∈ S, a ∈ y := by
  induction S using Multiset.induction with
  | empty => simp at h
  | cons y S ih =>
    rw [Multiset.sum_cons, Multiset.mem_add] at h
    rcases h with h | h
    · exact ⟨y, by simp, h⟩
    · obtain ⟨z, hz, ha⟩ := ih h
      exact ⟨z, by simp [hz], ha⟩

/-- Bigram: in every row of transition probabilities, the probabilities of the next symbols sum to one. -/
theorem C14_bigram (maxLength lo hi : Nat) (m : Multiset (List Char)) (s : Bigram)
    (hs : (Bigram.ops maxLength lo hi).Holds (Bigram.Accepts maxLength lo hi) m s) :
    s.dists.length = s.numChars + 1 ∧ ∀ d ∈ s.dists, ∃ p : Nat → ℝ,
      (∀ i < s.numChars + 1, d.logp i = .ok (p i)) ∧ ∑ i ∈ Finset.range (s.numChars + 1), Real.exp (p i) = 1 := by
  obtain ⟨⟨a, ha⟩, rfl, hm⟩ := (Bigram.lawful maxLength lo hi).holds hs
  have hk : (Bigram.rep a maxLength lo hi m).numChars + 1 = hi - lo + 1 + 1 := rfl
  refine ⟨by simp [Bigram.rep, Bigram.rows, Bigram.numChars], ?_⟩
  intro d hd
  simp only [Bigram.rep, Bigram.rows, List.mem_map, List.mem_range] at hd
  obtain ⟨i, hi', rfl⟩ := hd
  rw [hk]
  refine ⟨_, fun j hj => DirichletCategorical.logp_of _ _ _ _ _ hj, ?_⟩
  apply sum_exp_row ha (by omega) (fun j => by positivity) (by positivity)
  apply sum_pairs_row
  intro p hp
  unfold Bigram.allTrans at hp
  obtain ⟨y, hy, hp⟩ := mem_multiset_sum hp
  rw [Multiset.mem_map] at hy
  obtain ⟨x, hx, rfl⟩ := hy
  rw [Multiset.mem_coe] at hp
  exact Bigram.idxs_lt (hm x hx).2 _ (Bigram.mem_pairs hp).2

/-! ### C15: sampling from a Bigram -/

/-- Every terminated sample of a Bigram is an accepted string.  If it is shorter than `max_length` (or there is no `max_length`) the
state is unchanged.  MISSING (false in the code, see `C15_truncated_sample_changes_state`): the case of a sample cut at `max_length`. -/
theorem C15_bigram_sample_partial (maxLength lo hi : Nat) (hlo : lo ≤ hi) (hhi : hi < 128) (m : Multiset (List Char)) (s : Bigram)
    (hs : (Bigram.ops maxLength lo hi).Holds (Bigram.Accepts maxLength lo hi) m s) (t : Tape) (r)
    (hr : s.sample t = some r) :
    ∃ str s', r = .ok (str, s') ∧ Bigram.Accepts maxLength lo hi str ∧
      ((maxLength = 0 ∨ str.length < maxLength) → s' = s) := by
  obtain ⟨⟨a, ha⟩, rfl, hm⟩ := (Bigram.lawful maxLength lo hi).holds hs
  obtain ⟨str, b', h1, h2, h3⟩ := Bigram.sample_spec (b := Bigram.rep a maxLength lo hi m) hlo hhi rfl hr
  refine ⟨str, b', h1, h2, ?_⟩
  intro hlen
  rcases h3 with ⟨h3, _⟩ | ⟨c, hc, hl, _⟩
  · exact h3
  · exfalso
    have hl' : str.length = maxLength := hl
    rcases hlen with h0 | h0
    · rw [h0] at hl'
      have : str = [] := List.length_eq_zero_iff.1 hl'
      subst this; simp at hc
    · omega

/-- A sample cut at `max_length` *does* change the state, for every state and every draw: the row of its last character ends with
one observation less than before. -/
theorem C15_truncated_sample_changes_state (maxLength lo hi : Nat) (hlo : lo ≤ hi) (hhi : hi < 128) (m : Multiset (List Char))
    (s : Bigram) (hs : (Bigram.ops maxLength lo hi).Holds (Bigram.Accepts maxLength lo hi) m s) (t : Tape)
    (str : List Char) (s' : Bigram)
    (hmax : 0 < maxLength) (hr : s.sample t = some (.ok (str, s'))) (hlen : str.length = maxLength) :
    ∃ (i : Nat) (d d' : DirichletCategorical), s.dists[i]? = some d ∧ s'.dists[i]? = some d' ∧ d'.N = d.N - 1 := by
  obtain ⟨⟨a, ha⟩, rfl, hm⟩ := (Bigram.lawful maxLength lo hi).holds hs
  obtain ⟨str2, b', h1, h2, h3⟩ := Bigram.sample_spec (b := Bigram.rep a maxLength lo hi m) hlo hhi rfl hr
  injection h1 with h1
  simp only [Prod.mk.injEq] at h1
  obtain ⟨rfl, rfl⟩ := h1
  have e1 : (Bigram.rep a maxLength lo hi m).maxLength = maxLength := rfl
  rcases h3 with ⟨_, h3⟩ | ⟨c, hc, hl, rfl⟩
  · have := h3 hmax; rw [e1] at this; omega
  · have hcm : c ∈ str := List.mem_of_getLast? hc
    have hcr := h2.2 c hcm
    have hlt : c.toNat - lo < hi - lo + 1 + 1 := by
      have h4 : c.toNat ≤ hi := hcr.2
      omega
    refine ⟨c.toNat - lo,
      DirichletCategorical.of a (hi - lo + 1 + 1)
        (fun j => ((Bigram.allTrans lo hi m).count (c.toNat - lo, j) : ℝ))
        ((((Bigram.allTrans lo hi m).map Prod.fst).count (c.toNat - lo) : ℝ)),
      DirichletCategorical.of a (hi - lo + 1 + 1)
        (Bigram.bump (fun i j => ((Bigram.allTrans lo hi m).count (i, j) : ℝ)) (c.toNat - lo) (hi - lo + 1) (-1) (c.toNat - lo))
        (Bigram.bump1 (fun i => (((Bigram.allTrans lo hi m).map Prod.fst).count i : ℝ)) (c.toNat - lo) (-1) (c.toNat - lo)), ?_, ?_, ?_⟩
    · simp [Bigram.rep, Bigram.rows, hlt]
    · simp only [Bigram.rows]
      rw [show (Bigram.rep a maxLength lo hi m).numChars + 1 = hi - lo + 1 + 1 from rfl,
        show (Bigram.rep a maxLength lo hi m).minChar = lo from rfl,
        show (Bigram.rep a maxLength lo hi m).numChars = hi - lo + 1 from rfl]
      simp [hlt]
    · simp only [DirichletCategorical.of, Bigram.bump1_apply, if_true]
      ring

theorem Bigram.rep0_dists : (Bigram.rep 1 1 48 57 0).dists = Bigram.rows 1 11 (fun i j => ((Bigram.allTrans 48 57 0).count (i, j) : ℝ))
      (fun i => (((Bigram.allTrans 48 57 0).map Prod.fst).count i : ℝ)) := rfl

/-- Both cases occur: over the digits with `max_length` 1, draw 10 ends the string at once, draw 4 gives the string "4", cut. -/
example : ((Bigram.mk' 1 48 57).sample [10]).isSome ∧
    ∃ s', (Bigram.mk' 1 48 57).sample [4] = some (.ok (['4'], s')) := by
  have e : Bigram.mk' 1 48 57 = Bigram.rep 1 1 48 57 0 := by
    simp [Bigram.rep, Bigram.mk', Bigram.rows, Bigram.allTrans, DirichletCategorical.mk', DirichletCategorical.of]
  have e1 : (Bigram.rep 1 1 48 57 0).numChars = 10 := rfl
  constructor
  · rw [e]
    simp only [Bigram.sample, e1]
    rw [Bigram.rep0_dists, Bigram.sampleNext_rows (by omega)]
    simp [Bigram.sampleLoop, Bigram.sampleHead, e1]
  · have hacc : Bigram.Accepts 1 48 57 ['4'] := ⟨by simp, by decide⟩
    rw [e]
    simp only [Bigram.sample, e1]
    rw [Bigram.rep0_dists, Bigram.sampleNext_rows (by omega)]
    have h2 : (Bigram.rep 1 1 48 57 0).indexToChar 4 = .ok '4' := Bigram.indexToChar_eq (by decide)
    have h3 : (Bigram.rep 1 1 48 57 0).sampleHead 4 [] = .ok (['4'], true) := by
      simp only [Bigram.sampleHead, e1, h2]; rfl
    simp only [Bigram.sampleLoop, h3, Option.map_some]
    obtain ⟨b', hb'⟩ : ∃ b', Bigram.unincorporate { Bigram.rep 1 1 48 57 0 with
        dists := Bigram.rows 1 11 (Bigram.addPairs (fun i j => ((Bigram.allTrans 48 57 0).count (i, j) : ℝ)) 1 [(10, 4 % 11)])
          (Bigram.addRow (fun i => (((Bigram.allTrans 48 57 0).map Prod.fst).count i : ℝ)) 1 [(10, 4 % 11)])
        N := (Bigram.rep 1 1 48 57 0).N + 1 } ['4'] = .ok b' := ⟨_, Bigram.incorporate_eq hacc rfl⟩
    refine ⟨b', congrArg some ?_⟩
    simp only [bind, Except.bind, hb']

/-! ### C16: nearest -/

/-- DirichletCategorical: `nearest` returns an accepted value, `x` itself if accepted, and the closest one. -/
theorem C16_dirichlet_categorical (d : DirichletCategorical) (hk : 0 < d.counts.length) (x : Int) :
    d.inRange (d.nearest x) = true ∧ (d.inRange x = true → d.nearest x = x) ∧
    ∀ y, d.inRange y = true → |d.nearest x - x| ≤ |y - x| := by
  have hr : ∀ z, d.inRange z = true ↔ 0 ≤ z ∧ z < d.counts.length := by intro z; simp [DirichletCategorical.inRange]
  simp only [hr]
  unfold DirichletCategorical.nearest
  split
  · refine ⟨⟨le_rfl, by omega⟩, fun h => by omega, ?_⟩
    intro y hy
    rw [abs_of_nonneg (by omega), abs_of_nonneg (by omega)]; omega
  · split
    · refine ⟨⟨by omega, by omega⟩, fun h => by omega, ?_⟩
      intro y hy
      rw [abs_of_nonpos (by omega), abs_of_nonpos (by omega)]; omega
    · refine ⟨⟨by omega, by omega⟩, fun h => rfl, ?_⟩
      intro y hy
      simp

/-- With no categories `nearest` returns a value that is never accepted. -/
theorem C16_no_categories (d : DirichletCategorical) (hk : d.counts = []) (x : Int) : d.inRange (d.nearest x) = false := by
  simp [DirichletCategorical.inRange, hk]

/-- StringNat: `nearest x` keeps exactly the digits of `x`; it is `x` itself if `x` is accepted; it is accepted if it has at most `max_length` digits.
MISSING (false in the code, see `C16_string_nat_too_long`): acceptance of longer results.  The theorem `C16_stringcat` is in Props/Align.lean. -/
theorem C16_string_nat_partial (maxLength : Nat) (x : List Char) :
    (∀ c ∈ StringNat.nearest x, 48 ≤ c.toNat ∧ c.toNat ≤ 57) ∧
    (Bigram.Accepts maxLength 48 57 x → StringNat.nearest x = x) ∧ (StringNat.nearest x).Sublist x ∧
    (∀ y : List Char, y.Sublist x → (∀ c ∈ y, 48 ≤ c.toNat ∧ c.toNat ≤ 57) → y.Sublist (StringNat.nearest x)) ∧
    ((StringNat.nearest x).length ≤ maxLength → Bigram.Accepts maxLength 48 57 (StringNat.nearest x)) := by
  have h1 : ∀ c ∈ StringNat.nearest x, 48 ≤ c.toNat ∧ c.toNat ≤ 57 := by
    intro c hc
    simpa using (List.mem_filter.1 hc).2
  refine ⟨h1, ?_, List.filter_sublist, ?_, fun h => ⟨fun _ => h, h1⟩⟩
  · intro h
    apply List.filter_eq_self.2
    intro c hc
    have := h.2 c hc
    simpa using this
  · intro y hy hd
    have : y = y.filter (fun c => decide (48 ≤ c.toNat) && decide (c.toNat ≤ 57)) :=
      (List.filter_eq_self.2 (fun c hc => by simpa using hd c hc)).symm
    rw [this]
    exact hy.filter _

/-- `nearest` of a StringNat can be a string that `incorporate` refuses by exiting. -/
theorem C16_string_nat_too_long :
    (StringNat.mk' 20).incorporate (StringNat.nearest (List.replicate 21 '7')) = .error .exit := by
  have : StringNat.nearest (List.replicate 21 '7') = List.replicate 21 '7' := by decide
  rw [this]
  simp only [Bigram.incorporate]
  rw [if_pos (by simp [StringNat.mk', Bigram.mk'])]

example : StringNat.nearest "No. 0417-b".toList = "0417".toList := by decide

/-! ### C17: Metropolis step -/

/-- `transition_theta` ends with exactly the proposed parameters (if accepted) or exactly the previous ones; the
data and the hyperparameters are untouched. -/
theorem C17_transition_theta (besselI : Nat → ℝ → ℝ) (d : Skellam) (z1 z2 p : ℝ) :
    ∃ d', d.transitionTheta besselI z1 z2 p = .ok d' ∧
      (d' = d ∨ d' = { d with mu1 := Real.exp z1, mu2 := Real.exp z2 }) ∧
      (Real.log p ≤ Skellam.logpScore besselI { d with mu1 := Real.exp z1, mu2 := Real.exp z2 } - d.logpScore besselI →
        d' = { d with mu1 := Real.exp z1, mu2 := Real.exp z2 }) ∧
      (Skellam.logpScore besselI { d with mu1 := Real.exp z1, mu2 := Real.exp z2 } - d.logpScore besselI < Real.log p →
        d' = d) := by
  unfold Skellam.transitionTheta
  simp only
  by_cases h : Real.log p ≤ (d.initTheta z1 z2).logpScore besselI - d.logpScore besselI
  · rw [if_pos h]
    refine ⟨_, rfl, Or.inr rfl, fun _ => rfl, fun h' => absurd h (not_le.2 h')⟩
  · rw [if_neg h]
    refine ⟨d, ?_, Or.inl rfl, fun h' => absurd h' h, fun _ => rfl⟩
    rfl

/-! ### C18: ZeroMeanNormal::sample -/

/-- The degrees of freedom of `sample` and `logp` agree; their scales agree exactly when the data held is all zeros.
MISSING (false in the code, see `C18_sample_scale_wrong`): the property for other data. -/
theorem C18_sample_scale_partial (m : Multiset ℝ) (s : ZeroMeanNormal) (hs : ZeroMeanNormal.ops.Holds (fun _ => True) m s) :
    s.sampleParams.1 = s.logpParams.1 ∧ (s.sampleParams.2 = s.logpParams.2 ↔ ∀ x ∈ m, x = 0) := by
  obtain ⟨h, hr⟩ := ZeroMeanNormal.lawful.holds hs
  have hr' : s = ZeroMeanNormal.rep h.1 m := hr
  have hv := ZeroMeanNormal.var_mul_N h.1 m
  rw [← hr'] at hv
  have ha : 0 < s.alpha + s.N / 2 := by
    rw [hr']
    have h1 : 0 < h.1.1 := h.2.1
    have h2 : (0 : ℝ) ≤ Multiset.card m := by positivity
    simp only [ZeroMeanNormal.rep]; linarith
  refine ⟨rfl, ?_⟩
  simp only [ZeroMeanNormal.sampleParams, ZeroMeanNormal.logpParams]
  rw [div_left_inj' ha.ne', mul_assoc, hv]
  have : (s.beta + (m.map (fun x => x * x)).sum = s.beta + 0.5 * (m.map (fun x => x * x)).sum) ↔
      (m.map (fun x => x * x)).sum = 0 := by constructor <;> intro h <;> linarith
  rw [this]
  clear hs hr hr' hv ha this
  induction m using Multiset.induction with
  | empty => simp
  | cons a m ih =>
    have h1 := ZeroMeanNormal.sumsq_nonneg m
    have h2 := mul_self_nonneg a
    simp only [Multiset.map_cons, Multiset.sum_cons, Multiset.mem_cons, forall_eq_or_imp]
    constructor
    · intro h
      have ha : a * a = 0 := by linarith
      exact ⟨by simpa using ha, ih.mp (by linarith)⟩
    · rintro ⟨rfl, h⟩; simp [ih.mpr h]

/-- After one observation of 1 with the default hyperparameters `sample` draws with variance parameter 4/3, `logp` uses 1. -/
theorem C18_sample_scale_wrong :
    (({} : ZeroMeanNormal).incorporate 1).sampleParams = (3, 4 / 3) ∧ (({} : ZeroMeanNormal).incorporate 1).logpParams = (3, 1) := by
  have e : ({} : ZeroMeanNormal) = ZeroMeanNormal.rep (1, 1) 0 := by simp [ZeroMeanNormal.rep]
  rw [e, ZeroMeanNormal.inc_rep]
  simp [ZeroMeanNormal.sampleParams, ZeroMeanNormal.logpParams, ZeroMeanNormal.rep]
  norm_num

/-! ### C09: hyperparameter transitions -/

/-- Every hyperparameter transition leaves the hyperparameters at positive grid values and does not touch the data statistics,
whatever the draws. -/
theorem C09_transition_hyperparameters (t : Tape) :
    (∀ d : BetaBernoulli, let d' := (d.transitionHyperparameters t).1
      0 < d'.alpha ∧ 0 < d'.beta ∧ d'.N = d.N ∧ d'.s = d.s) ∧
    (∀ d : DirichletCategorical, let d' := (d.transitionHyperparameters t).1
      0 < d'.alpha ∧ d'.N = d.N ∧ d'.counts = d.counts) ∧
    (∀ d : Normal, let d' := (d.transitionHyperparameters t).1
      0 < d'.r ∧ 0 < d'.v ∧ 0 < d'.s ∧ d'.N = d.N ∧ d'.mean = d.mean ∧ d'.var = d.var) ∧
    (∀ d : ZeroMeanNormal, let d' := (d.transitionHyperparameters t).1
      0 < d'.alpha ∧ 0 < d'.beta ∧ d'.N = d.N ∧ d'.var = d.var) ∧
    (∀ d : StringCat, let d' := (d.transitionHyperparameters t).1
      0 < d'.dc.alpha ∧ d'.N = d.N ∧ d'.strings = d.strings ∧ d'.dc.counts = d.dc.counts ∧ d'.dc.N = d.dc.N) ∧
    (∀ d : Bigram, let d' := (d.transitionHyperparameters t).1
      0 < d'.alpha ∧ d'.N = d.N ∧ d'.maxLength = d.maxLength ∧
      d'.dists.map (fun r => (r.N, r.counts)) = d.dists.map (fun r => (r.N, r.counts)) ∧
      ∀ r ∈ d'.dists, r.alpha = d'.alpha) ∧
    (∀ d : Skellam, let d' := (d.transitionHyperparameters t).1
      0 < d'.stddev1 ∧ 0 < d'.stddev2 ∧ d'.N = d.N ∧ d'.seen = d.seen ∧ d'.mu1 = d.mu1 ∧ d'.mu2 = d.mu2) := by
  refine ⟨?_, ?_, ?_, ?_, ?_, ?_, ?_⟩
  · intro d
    obtain ⟨h1, h2, _⟩ := BetaBernoulli.trans_mem d t
    exact ⟨BetaBernoulli.grid_pos h1, BetaBernoulli.grid_pos h2, rfl, rfl⟩
  · intro d d'
    obtain ⟨a, h1, h2⟩ := DirichletCategorical.trans_mem d t
    have h3 : d' = _ := h2
    rw [h3]
    exact ⟨ZeroMeanNormal.alphaGrid_pos h1, rfl, rfl⟩
  · intro d d'
    obtain ⟨a, h1, h2⟩ := Normal.trans_mem d t
    have h3 : d' = _ := h2
    rw [h3]
    obtain ⟨p1, p2, p3⟩ := Normal.grid_pos h1
    exact ⟨p1, p2, p3, rfl, rfl, rfl⟩
  · intro d d'
    obtain ⟨a, h1, h2⟩ := ZeroMeanNormal.trans_mem d t
    have h3 : d' = _ := h2
    rw [h3]
    obtain ⟨p1, p2⟩ := ZeroMeanNormal.grid_pos h1
    exact ⟨p1, p2, rfl, rfl⟩
  · intro d
    obtain ⟨a, h1, h2⟩ := DirichletCategorical.trans_mem d.dc t
    simp only [StringCat.transitionHyperparameters]
    rw [h2]
    exact ⟨ZeroMeanNormal.alphaGrid_pos h1, trivial, trivial, rfl, rfl⟩
  · intro d
    refine ⟨ZeroMeanNormal.alphaGrid_pos (pickGrid_mem DirichletCategorical.alphaGrid_ne), rfl, rfl, ?_, ?_⟩
    · simp [Bigram.transitionHyperparameters, Bigram.setAlpha, Function.comp_def]
    · intro r hr
      simp only [Bigram.transitionHyperparameters, Bigram.setAlpha, List.mem_map] at hr
      obtain ⟨r', _, rfl⟩ := hr
      rfl
  · intro d d'
    obtain ⟨a, h1, h2⟩ := Skellam.trans_mem d t
    have h3 : d' = _ := h2
    rw [h3]
    obtain ⟨p1, p2⟩ := Skellam.grid_pos h1
    exact ⟨p1, p2, rfl, rfl, rfl, rfl⟩

/-! ### C56: unsupported values are rejected -/

/-- **C56 (DirichletCategorical).** Incorporating, removing or scoring a value outside `0 .. k-1` fails, in every state. -/
theorem C56_dirichlet_categorical (k : Nat) (m : Multiset Int) (s : DirichletCategorical) (x : Int)
    (h : (DirichletCategorical.ops k).Holds (fun x => 0 ≤ x ∧ x < k) m s) (hx : ¬ (0 ≤ x ∧ x < k)) :
    (DirichletCategorical.ops k).inc s x = .error .assert ∧ (DirichletCategorical.ops k).dec s x = .error .assert ∧
    (DirichletCategorical.ops k).logp s x = .error .assert := by
  obtain ⟨a, hr, _⟩ := (DirichletCategorical.lawful k).holds h
  subst hr
  have : (DirichletCategorical.rep a.1 k m).inRange x = false := by
    by_contra hc
    simp [DirichletCategorical.inRange, DirichletCategorical.rep, DirichletCategorical.of] at hc
    exact hx hc
  simp [DirichletCategorical.ops, DirichletCategorical.incorporate, DirichletCategorical.unincorporate, DirichletCategorical.logp, this,
    assertR, bind, Except.bind]

/-- **C56 (StringCat).** Incorporating, removing or scoring a string that is not in the list ends the program. -/
theorem C56_stringcat (strings : List String) (m : Multiset String) (s : StringCat) (x : String)
    (h : (StringCat.ops strings).Holds (· ∈ strings) m s) (hx : x ∉ strings) :
    (StringCat.ops strings).inc s x = .error .exit ∧ (StringCat.ops strings).dec s x = .error .exit ∧
    (StringCat.ops strings).logp s x = .error .exit := by
  obtain ⟨a, hr, _⟩ := (StringCat.lawful strings).holds h
  subst hr
  have : (StringCat.rep a.1 strings m).stringToIndex x = .error .exit := by
    rw [StringCat.stringToIndex, if_neg]; exact hx
  simp [StringCat.ops, StringCat.incorporate, StringCat.unincorporate, StringCat.logp, this, bind, Except.bind]

/-- **C56 (Bigram).** Incorporating or removing a string that is too long or has a character outside the range fails;
scoring checks the characters only. -/
theorem C56_bigram (maxLength lo hi : Nat) (m : Multiset (List Char)) (s : Bigram) (x : List Char)
    (h : (Bigram.ops maxLength lo hi).Holds (Bigram.Accepts maxLength lo hi) m s) (hx : ¬ Bigram.Accepts maxLength lo hi x) :
    (∃ e, (Bigram.ops maxLength lo hi).inc s x = .error e) ∧ (∃ e, (Bigram.ops maxLength lo hi).dec s x = .error e) ∧
    ((¬ ∀ c ∈ x, lo ≤ c.toNat ∧ c.toNat ≤ hi) → ∃ e, (Bigram.ops maxLength lo hi).logp s x = .error e) := by
  obtain ⟨a, hr, _⟩ := (Bigram.lawful maxLength lo hi).holds h
  subst hr
  have hchars : ∀ x : List Char, (¬ ∀ c ∈ x, lo ≤ c.toNat ∧ c.toNat ≤ hi) → ∃ e, (Bigram.rep a.1 maxLength lo hi m).charsToIndices x = .error e := by
    intro x
    induction x with
    | nil => intro h; simp at h
    | cons c cs ih =>
      intro h
      by_cases hc : lo ≤ c.toNat ∧ c.toNat ≤ hi
      · obtain ⟨e, he⟩ := ih (fun hcs => h (by
          intro c' hc'
          rcases List.mem_cons.mp hc' with rfl | hc'
          · exact hc
          · exact hcs c' hc'))
        exact ⟨e, by simp [Bigram.charsToIndices, Bigram.charToIndex, Bigram.rep, hc, assertR, bind, Except.bind] at he ⊢; simp [he]⟩
      · refine ⟨.assert, ?_⟩
        have hci : (Bigram.rep a.1 maxLength lo hi m).charToIndex c = .error .assert := by
          have : (decide ((Bigram.rep a.1 maxLength lo hi m).minChar ≤ c.toNat) && decide (c.toNat ≤ (Bigram.rep a.1 maxLength lo hi m).maxChar)) = false := by
            rw [Bool.eq_false_iff]; intro h'; simp [Bigram.rep] at h'; exact hc ⟨of_decide_eq_true h'.1, of_decide_eq_true h'.2⟩
          rw [Bigram.charToIndex, this]; rfl
        rw [Bigram.charsToIndices, hci]; rfl
  have hind : ∀ x : List Char, (¬ ∀ c ∈ x, lo ≤ c.toNat ∧ c.toNat ≤ hi) → ∃ e, (Bigram.rep a.1 maxLength lo hi m).stringToIndices x = .error e := by
    intro x hx
    obtain ⟨e, he⟩ := hchars x hx
    exact ⟨e, by simp [Bigram.stringToIndices, he, bind, Except.bind]⟩
  have hinc : ∀ w, ∃ e, (Bigram.rep a.1 maxLength lo hi m).incorporate x w = .error e := by
    intro w
    rw [Bigram.incorporate]
    split
    · exact ⟨_, rfl⟩
    · rename_i hl
      obtain ⟨e, he⟩ := hind x (fun hc => hx ⟨fun h0 => by
        by_contra h1
        exact hl ⟨h0, by simpa [Bigram.rep] using h1⟩, hc⟩)
      exact ⟨e, by simp [he, bind, Except.bind]⟩
  refine ⟨hinc 1, hinc (-1), fun hc => ?_⟩
  obtain ⟨e, he⟩ := hind x hc
  exact ⟨e, by simp [Bigram.ops, Bigram.logp, he, bind, Except.bind]⟩

/-- a value outside the support exists and states that hold data exist: a two-category distribution with two values -/
example : ∃ s, (DirichletCategorical.ops 2).Holds (fun x => 0 ≤ x ∧ x < 2) {1, 0} s ∧
    (DirichletCategorical.ops 2).inc s 2 = .error .assert := by
  have hrem : remaining (fun x : Int => 0 ≤ x ∧ x < ((2 : Nat) : Int)) [.inc 0, .inc 1] 0 = some {1, 0} := by
    simp [remaining]
  obtain ⟨s, h1, _⟩ := (DirichletCategorical.lawful 2).total [] _ _ hrem
  exact ⟨s, ⟨_, _, hrem, h1⟩, (C56_dirichlet_categorical 2 _ s 2 ⟨_, _, hrem, h1⟩ (by decide)).1⟩

end
end Verif
