import Verif.Spec.Math
import Verif.Lemmas.Math
/-! Property theorems C07, C08, C09 (util_math). -/
namespace Verif
open Spec

/-! ### C07: product -/

theorem productLoop_eq (ls : List (List Int)) : ∀ result : List (List Int),
    productLoop result ls = result.flatMap (fun e => (cartesian ls).map (fun x => e ++ x)) := by
  induction ls with
  | nil => intro result; simp [productLoop, cartesian]
  | cons l ls ih =>
    intro result
    simp only [productLoop, ih, cartesian]
    rw [List.flatMap_assoc]
    congr 1
    funext e
    rw [List.flatMap_map]
    simp [List.map_flatMap, Function.comp_def]

/-- **C07.** `product` of a non-empty vector of vectors is the list of all choices of one element per vector,
in lexicographic order of positions, each exactly once per choice. -/
theorem C07_product_eq {lists : List (List Int)} (h : lists ≠ []) :
    product lists = .ok (cartesian lists) := by
  cases lists with
  | nil => exact absurd rfl h
  | cons l ls =>
    unfold product
    split
    · rename_i hany
      congr 1
      symm
      clear h
      revert hany
      generalize l :: ls = ll
      intro hany
      induction ll with
      | nil => simp at hany
      | cons a ll ih =>
        simp only [cartesian]
        simp only [List.any_cons, Bool.or_eq_true] at hany
        rcases hany with ha | hl
        · have : a = [] := by simpa using ha
          simp [this]
        · simp [ih hl]
    · simp only [productLoop_eq, cartesian]
      rw [List.flatMap_map]
      simp

/-- **C07.** A tuple is in the result exactly when it picks one element of every vector. -/
theorem C07_product_mem {lists : List (List Int)} (h : lists ≠ []) :
    ∃ r, product lists = .ok r ∧ ∀ x, x ∈ r ↔ Picks x lists := by
  refine ⟨_, C07_product_eq h, ?_⟩
  clear h
  induction lists with
  | nil => intro x; simp [cartesian, Picks]
  | cons l ls ih =>
    intro x
    simp only [cartesian, List.mem_flatMap, List.mem_map, ih]
    constructor
    · rintro ⟨a, ha, y, ⟨hl, hy⟩, rfl⟩
      refine ⟨by simp [hl], ?_⟩
      intro i hi hx
      cases i with
      | zero => simpa using ha
      | succ i => simpa using hy i (by simpa using hi) (by simpa using hx)
    · rintro ⟨hl, hx⟩
      cases x with
      | nil => simp at hl
      | cons a y =>
        refine ⟨a, hx 0 (by simp) (by simp), y, ⟨by simpa using hl, ?_⟩, rfl⟩
        intro i hi hy
        exact hx (i + 1) (by simpa using hi) (by simpa using hy)

/-- **C07.** The number of tuples is the product of the lengths. -/
theorem C07_product_length {lists : List (List Int)} (h : lists ≠ []) :
    ∃ r, product lists = .ok r ∧ r.length = (lists.map List.length).prod := by
  refine ⟨_, C07_product_eq h, ?_⟩
  clear h
  induction lists with
  | nil => simp [cartesian]
  | cons l ls ih => simp [cartesian, List.length_flatMap, ih]

/-- `product` of an empty vector reads `lists[0]` out of bounds. -/
theorem C07_product_empty_ub : product [] = .error .ub := rfl

example : product [[1, 2], [3], [4, 5]] = .ok [[1, 3, 4], [1, 3, 5], [2, 3, 4], [2, 3, 5]] := by decide

/-! ### C08: logsumexp -/

theorem maxIndex_spec : ∀ (l : List (WithBot ℝ)), l ≠ [] →
    ∃ m, l[maxIndex l]? = some m ∧ ∀ b ∈ l, b ≤ m := by
  intro l
  induction l with
  | nil => intro h; exact absurd rfl h
  | cons a l ih =>
    intro _
    unfold maxIndex
    split
    · rename_i h
      exact ⟨a, rfl, fun b hb => by
        rcases List.mem_cons.mp hb with rfl | hb
        · exact le_refl _
        · exact h b hb⟩
    · rename_i h
      push Not at h
      obtain ⟨c, hc, hac⟩ := h
      obtain ⟨m, hm, hle⟩ := ih (List.ne_nil_of_mem hc)
      refine ⟨m, by simpa using hm, fun b hb => ?_⟩
      rcases List.mem_cons.mp hb with rfl | hb
      · exact hac.le.trans (hle c hc)
      · exact hle b hb

theorem loop_past (m : WithBot ℝ) (k : Nat) : ∀ (l : List (WithBot ℝ)) (i : Nat), k < i →
    logsumexpLoop m k i l = (l.map (fun w => expDiff w m)).sum := by
  intro l
  induction l with
  | nil => intro i _; rfl
  | cons w l ih =>
    intro i hi
    simp only [logsumexpLoop, List.map_cons, List.sum_cons]
    rw [if_neg (by omega), ih (i + 1) (by omega)]

theorem loop_eq (m : ℝ) (k : Nat) : ∀ (l : List (WithBot ℝ)) (i : Nat), i ≤ k → l[k - i]? = some (m : WithBot ℝ) →
    1 + logsumexpLoop (m : WithBot ℝ) k i l = (l.map (fun w => expW w / Real.exp m)).sum := by
  have hterm : ∀ w : WithBot ℝ, expDiff w (m : WithBot ℝ) = expW w / Real.exp m := by
    intro w
    cases w with
    | bot => simp [expW, expDiff]
    | coe w => simp [expW, expDiff, Real.exp_sub]
  intro l
  induction l with
  | nil => intro i _ h; simp at h
  | cons w l ih =>
    intro i hi h
    simp only [logsumexpLoop, List.map_cons, List.sum_cons]
    by_cases hik : i = k
    · subst hik
      simp only [Nat.sub_self, List.getElem?_cons_zero, Option.some.injEq] at h
      subst h
      rw [if_pos rfl, loop_past _ _ _ _ (Nat.lt_succ_self i)]
      simp only [hterm]
      have : expW (m : WithBot ℝ) / Real.exp m = 1 := by
        simp [expW]
      rw [this]; ring
    · have hlt : i < k := lt_of_le_of_ne hi hik
      rw [if_neg hik, hterm]
      have h' : l[k - (i + 1)]? = some (m : WithBot ℝ) := by
        rw [show k - i = (k - (i + 1)) + 1 by omega] at h
        simpa using h
      rw [← ih (i + 1) hlt h']; ring

theorem loop_bot (k : Nat) : ∀ (l : List (WithBot ℝ)) (i : Nat), logsumexpLoop ⊥ k i l = 0 := by
  intro l
  induction l with
  | nil => intro i; rfl
  | cons w l ih =>
    intro i; simp only [logsumexpLoop, ih]
    split
    · simp
    · cases w <;> simp [expDiff]

theorem expW_nonneg (w : WithBot ℝ) : 0 ≤ expW w := by
  cases w with
  | bot => exact le_refl _
  | coe w => exact (Real.exp_pos w).le

theorem expW_mono {a b : WithBot ℝ} (h : a ≤ b) : expW a ≤ expW b := by
  cases a with
  | bot => exact expW_nonneg b
  | coe a =>
    cases b with
    | bot => simp at h
    | coe b => exact Real.exp_le_exp.mpr (WithBot.coe_le_coe.mp h)

theorem sum_expW_nonneg (l : List (WithBot ℝ)) : 0 ≤ (l.map expW).sum :=
  List.sum_nonneg (by intro x hx; simp only [List.mem_map] at hx; obtain ⟨w, _, rfl⟩ := hx; exact expW_nonneg w)

theorem expW_le_sum {l : List (WithBot ℝ)} {w : WithBot ℝ} (h : w ∈ l) : expW w ≤ (l.map expW).sum :=
  List.single_le_sum (by intro x hx; simp only [List.mem_map] at hx; obtain ⟨w, _, rfl⟩ := hx; exact expW_nonneg w)
    _ (List.mem_map.mpr ⟨w, h, rfl⟩)

/-- **C08.** On a non-empty vector of finite or `-inf` log weights `logsumexp` returns the logarithm of the sum of the
exponentials (`-inf` when all the weights are). -/
theorem C08_logsumexp {w : List (WithBot ℝ)} (h : w ≠ []) :
    ∃ r, logsumexp w = .ok r ∧ expW r = (w.map expW).sum ∧ (r = ⊥ ↔ ∀ x ∈ w, x = ⊥) := by
  obtain ⟨m, hm, hle⟩ := maxIndex_spec w h
  have hidx : idxR w (maxIndex w) = .ok m := by simp [idxR, hm]
  have hmem : m ∈ w := List.mem_of_getElem? hm
  cases m with
  | bot =>
    have hall : ∀ x ∈ w, x = ⊥ := fun x hx => le_bot_iff.mp (hle x hx)
    refine ⟨⊥, by simp [logsumexp, hidx, bind, Except.bind], ?_, by simp; exact hall⟩
    have : w.map expW = w.map (fun _ => (0 : ℝ)) := List.map_congr_left (fun x hx => by rw [hall x hx]; rfl)
    rw [this]; simp [expW]
  | coe m =>
    have hs := loop_eq m (maxIndex w) w 0 (Nat.zero_le _) (by simpa using hm)
    have hpos : 0 < (w.map expW).sum :=
      lt_of_lt_of_le (Real.exp_pos m) (expW_le_sum hmem)
    have hs' : 1 + logsumexpLoop (m : WithBot ℝ) (maxIndex w) 0 w = (w.map expW).sum / Real.exp m := by
      rw [hs]
      simp only [div_eq_mul_inv]
      rw [List.sum_map_mul_right]
    refine ⟨((Real.log ((w.map expW).sum / Real.exp m) + m : ℝ) : WithBot ℝ), ?_, ?_, ?_⟩
    · simp only [logsumexp, hidx, bind, Except.bind]
      rw [← hs']; rfl
    · simp only [expW]
      rw [Real.exp_add, Real.exp_log (div_pos hpos (Real.exp_pos m)), div_mul_cancel₀ _ (Real.exp_pos m).ne']
    · simp only [WithBot.coe_ne_bot, false_iff]
      intro hall
      exact WithBot.coe_ne_bot (hall _ hmem)

/-- **C08 (range).** The result lies between the largest weight `m` and `m + log n`: the computation only
exponentiates differences `x - m ≤ 0`. -/
theorem C08_logsumexp_range {w : List (WithBot ℝ)} (h : w ≠ []) {r : ℝ} (hr : logsumexp w = .ok (r : WithBot ℝ)) :
    ∃ m : ℝ, (m : WithBot ℝ) ∈ w ∧ (∀ x ∈ w, x ≤ (m : WithBot ℝ)) ∧ m ≤ r ∧ r ≤ m + Real.log w.length := by
  obtain ⟨m, hm, hle⟩ := maxIndex_spec w h
  have hmem : m ∈ w := List.mem_of_getElem? hm
  obtain ⟨r', h1, h2, h3⟩ := C08_logsumexp h
  rw [hr] at h1
  have h1' : r' = (r : WithBot ℝ) := (Except.ok.inj h1).symm
  subst h1'
  cases m with
  | bot =>
    exfalso
    exact WithBot.coe_ne_bot (h3.mpr (fun x hx => le_bot_iff.mp (hle x hx)))
  | coe m =>
    refine ⟨m, hmem, hle, ?_, ?_⟩
    · have := expW_le_sum hmem
      rw [← h2] at this
      exact Real.exp_le_exp.mp this
    · have hsum : (w.map expW).sum ≤ w.length * Real.exp m := by
        have := List.sum_le_card_nsmul (w.map expW) (Real.exp m) (by
          intro x hx
          simp only [List.mem_map] at hx
          obtain ⟨y, hy, rfl⟩ := hx
          exact expW_mono (hle y hy))
        simpa [nsmul_eq_mul] using this
      rw [← h2] at hsum
      have hn : (0 : ℝ) < w.length := by
        exact_mod_cast List.length_pos_of_ne_nil h
      have : Real.exp r ≤ Real.exp (m + Real.log w.length) := by
        rw [Real.exp_add, Real.exp_log hn, mul_comm]; exact hsum
      exact Real.exp_le_exp.mp this

/-- `logsumexp` of an empty vector reads out of bounds. -/
theorem C08_logsumexp_empty_ub : logsumexp [] = .error .ub := rfl

/-- **C08 (log_normalize).** If some weight is finite, the normalised weights are a probability vector and
differ from the originals by a common shift (so ratios are unchanged); `-inf` stays `-inf`. -/
theorem C08_log_normalize {w : List (WithBot ℝ)} {x : ℝ} (hx : (x : WithBot ℝ) ∈ w) :
    ∃ r, logNormalize w = .ok r ∧ (r.map expW).sum = 1 ∧
      ∃ Z : ℝ, r = w.map (fun y => y.map (fun y => y - Z)) := by
  obtain ⟨r, h1, h2, h3⟩ := C08_logsumexp (List.ne_nil_of_mem hx)
  cases r with
  | bot => exact absurd (h3.mp rfl _ hx) WithBot.coe_ne_bot
  | coe Z =>
    have hmap : w.map (fun y => subW y (Z : WithBot ℝ)) = w.map (fun y => y.map (fun y => y - Z)) := by
      apply List.map_congr_left
      intro y _
      cases y with
      | bot => rfl
      | coe y => rfl
    refine ⟨w.map (fun y => subW y (Z : WithBot ℝ)), ?_, ?_, Z, hmap⟩
    · simp [logNormalize, h1, bind, Except.bind]
    · rw [List.map_map]
      have : (expW ∘ fun y => subW y (Z : WithBot ℝ)) = fun y => expW y * (Real.exp Z)⁻¹ := by
        funext y
        cases y with
        | bot => simp [subW, expW]
        | coe y => simp only [Function.comp, subW, expW]; rw [Real.exp_sub, div_eq_mul_inv]
      rw [this, List.sum_map_mul_right, ← h2]
      simp only [expW]
      exact mul_inv_cancel₀ (Real.exp_pos Z).ne'

example : ∃ w : List (WithBot ℝ), ((-1 : ℝ) : WithBot ℝ) ∈ w ∧ ⊥ ∈ w ∧ w.length = 3 :=
  ⟨[⊥, ((-1 : ℝ) : WithBot ℝ), ((2 : ℝ) : WithBot ℝ)], by simp, by simp, rfl⟩

/-! ### C09: grids -/

/-- **C09 (linspace).** `num` evenly spaced points; with `endpoint` and `num ≥ 2` they start at `start` and end at `stop`. -/
theorem C09_linspace (a b : ℝ) {n : Nat} (hn : 2 ≤ n) :
    (linspace a b n true).length = n ∧ (linspace a b n true)[0]? = some a ∧
    (linspace a b n true)[n - 1]? = some b ∧
    ∀ i x y, (linspace a b n true)[i]? = some x → (linspace a b n true)[i + 1]? = some y →
      y - x = (b - a) / ((n : ℝ) - 1) := by
  have hn1 : ((n : ℝ) - 1) ≠ 0 := by
    have : (2 : ℝ) ≤ n := by exact_mod_cast hn
    linarith
  have hget : ∀ i, i < n → (linspace a b n true)[i]? = some (a + (b - a) / ((n : ℝ) - 1) * (i : ℝ)) := by
    intro i hi
    simp [linspace, List.getElem?_map, List.getElem?_range hi]
  refine ⟨length_linspace _ _ _ _, ?_, ?_, ?_⟩
  · rw [hget 0 (by omega)]; simp
  · rw [hget (n - 1) (by omega)]
    congr 1
    rw [Nat.cast_sub (by omega)]
    push_cast
    field_simp
    ring
  · intro i x y hx hy
    have hi : i + 1 < n := by
      by_contra h
      rw [List.getElem?_eq_none (by rw [length_linspace]; omega)] at hy; cases hy
    rw [hget i (by omega)] at hx
    rw [hget (i + 1) hi] at hy
    cases hx; cases hy
    push_cast; ring

/-- **C09 (linspace without the end point).** `num` points that start at `start`, with step `(stop - start) / num`, so that
`stop` would be the next one. -/
theorem C09_linspace_open (a b : ℝ) {n : Nat} (hn : 1 ≤ n) :
    (linspace a b n false).length = n ∧ (linspace a b n false)[0]? = some a ∧
    (∃ x, (linspace a b n false)[n - 1]? = some x ∧ x + (b - a) / n = b) ∧
    ∀ i x y, (linspace a b n false)[i]? = some x → (linspace a b n false)[i + 1]? = some y → y - x = (b - a) / n := by
  have hn1 : (n : ℝ) ≠ 0 := by
    have : (1 : ℝ) ≤ n := by exact_mod_cast hn
    linarith
  have hget : ∀ i, i < n → (linspace a b n false)[i]? = some (a + (b - a) / (n : ℝ) * (i : ℝ)) := by
    intro i hi
    simp [linspace, List.getElem?_map, List.getElem?_range hi]
  refine ⟨length_linspace _ _ _ _, ?_, ⟨_, hget (n - 1) (by omega), ?_⟩, ?_⟩
  · rw [hget 0 (by omega)]; simp
  · rw [Nat.cast_sub (by omega)]
    push_cast
    field_simp
    ring
  · intro i x y hx hy
    have hi : i + 1 < n := by
      by_contra h
      rw [List.getElem?_eq_none (by rw [length_linspace]; omega)] at hy; cases hy
    rw [hget i (by omega)] at hx
    rw [hget (i + 1) hi] at hy
    cases hx; cases hy
    push_cast; ring

/-- **C09 (log_linspace).** For positive bounds `a < b` and `num ≥ 2`: `num` positive, strictly increasing points from `a` to `b`,
with constant ratio. -/
theorem C09_log_linspace {a b : ℝ} (ha : 0 < a) (hab : a < b) {n : Nat} (hn : 2 ≤ n) :
    (logLinspace a b n true).length = n ∧ (∀ x ∈ logLinspace a b n true, 0 < x) ∧
    (logLinspace a b n true)[0]? = some a ∧ (logLinspace a b n true)[n - 1]? = some b ∧
    ∀ i x y, (logLinspace a b n true)[i]? = some x → (logLinspace a b n true)[i + 1]? = some y →
      x < y ∧ Real.log (y / x) = Real.log (b / a) / ((n : ℝ) - 1) := by
  have hb : 0 < b := ha.trans hab
  obtain ⟨_, h0, h1, h2⟩ := C09_linspace (Real.log a) (Real.log b) hn
  have hn1 : (0 : ℝ) < (n : ℝ) - 1 := by
    have : (2 : ℝ) ≤ n := by exact_mod_cast hn
    linarith
  refine ⟨length_logLinspace _ _ _ _, fun x hx => logLinspace_pos hx, ?_, ?_, ?_⟩
  · simp [logLinspace, List.getElem?_map, h0, Real.exp_log ha]
  · simp [logLinspace, List.getElem?_map, h1, Real.exp_log hb]
  · intro i x y hx hy
    simp only [logLinspace, List.getElem?_map, Option.map_eq_some_iff] at hx hy
    obtain ⟨x', hx', rfl⟩ := hx
    obtain ⟨y', hy', rfl⟩ := hy
    have hd := h2 i x' y' hx' hy'
    have hlog : 0 < Real.log b - Real.log a := by
      have := Real.log_lt_log ha hab; linarith
    constructor
    · apply Real.exp_lt_exp.mpr
      have := div_pos hlog hn1
      linarith
    · rw [← Real.exp_sub, Real.log_exp, hd, Real.log_div hb.ne' ha.ne']

example : (0 : ℝ) < 1 / 5 ∧ (1 / 5 : ℝ) < 6 ∧ 2 ≤ 20 := by norm_num

end Verif
