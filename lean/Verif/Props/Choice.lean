import Verif.Model.Choice
import Verif.Spec.Choice
import Verif.Props.Math
import Verif.Model.GenDBMove
/-!
C89: the choice functions draw with the probabilities that the log weights stand for.
-/
namespace Verif
open Spec
noncomputable section
variable {l : List (WithBot ℝ)}

theorem discrete_scale {ws : List ℝ} {a : ℝ} (ha : a ≠ 0) (h : ws.sum ≠ 0) : discrete (ws.map (fun w => w * a)) = .ok (ws.map (fun w => w / ws.sum)) := by
  have hne : ws ≠ [] := by rintro rfl; exact h rfl
  unfold discrete
  have hs : (ws.map (fun w => w * a)).sum = ws.sum * a := by rw [List.sum_map_mul_right, List.map_id']
  rw [if_neg (by simpa using hne), hs, if_neg (mul_ne_zero h ha), List.map_map]
  congr 1
  apply List.map_congr_left
  intro w _
  exact mul_div_mul_right w ws.sum ha

theorem sum_pos {x : ℝ} (hx : (x : WithBot ℝ) ∈ l) : 0 < (l.map expW).sum := lt_of_lt_of_le (Real.exp_pos x) (expW_le_sum hx)

theorem softmax_eq : softmax l = (l.map expW).map (fun w => w / (l.map expW).sum) := by rw [List.map_map]; rfl

/-- **C89**, `log_choice`: each index is returned with a probability proportional to the exponential of its log weight, if one of them is a number. -/
theorem C89_log_choice {x : ℝ} (hx : (x : WithBot ℝ) ∈ l) : logChoiceProbs l = .ok (softmax l) := by
  obtain ⟨r, h1, _, Z, rfl⟩ := C08_log_normalize hx
  unfold logChoiceProbs choiceProbs
  rw [h1]
  show discrete _ = _
  have : (l.map (fun y => WithBot.map (fun y => y - Z) y)).map expW = (l.map expW).map (fun w => w * (Real.exp Z)⁻¹) := by
    rw [List.map_map, List.map_map]
    apply List.map_congr_left
    intro y _
    cases y with
    | bot => simp [expW]
    | coe y =>
      show Real.exp (y - Z) = Real.exp y * (Real.exp Z)⁻¹
      rw [Real.exp_sub, div_eq_mul_inv]
  rw [this, discrete_scale (inv_ne_zero (Real.exp_pos Z).ne') (sum_pos hx).ne', softmax_eq]

/-- **C89**, overflow: the exponentials that `sample_from_logps` computes are between zero and one, and one of them is one. -/
theorem C89_safe {x : ℝ} (hx : (x : WithBot ℝ) ∈ l) : ∃ (ws : List ℝ) (m : ℝ), sampleWeights l = .ok ws ∧ (m : WithBot ℝ) ∈ l ∧ ws = l.map (fun y => expW y / Real.exp m) ∧
    (∀ w ∈ ws, 0 ≤ w ∧ w ≤ 1) ∧ 1 ∈ ws := by
  obtain ⟨m, hm, hle⟩ := maxIndex_spec l (List.ne_nil_of_mem hx)
  have hmem : m ∈ l := List.mem_of_getElem? hm
  cases m with
  | bot => exact absurd (le_bot_iff.mp (hle _ hx)) WithBot.coe_ne_bot
  | coe m =>
    have hterm : ∀ w : WithBot ℝ, expDiff w (m : WithBot ℝ) = expW w / Real.exp m := by
      intro w
      cases w with
      | bot => simp [expW, expDiff]
      | coe w => simp [expW, expDiff, Real.exp_sub]
    refine ⟨l.map (fun y => expW y / Real.exp m), m, ?_, hmem, rfl, ?_, ?_⟩
    · unfold sampleWeights idxR
      rw [hm]
      simp only [bind, Except.bind, hterm]
    · intro w hw
      obtain ⟨y, hy, rfl⟩ := List.mem_map.mp hw
      exact ⟨div_nonneg (expW_nonneg y) (Real.exp_pos m).le, (div_le_one (Real.exp_pos m)).mpr (expW_mono (hle y hy))⟩
    · exact List.mem_map.mpr ⟨(m : WithBot ℝ), hmem, div_self (Real.exp_pos m).ne'⟩

/-- **C89**, `sample_from_logps`: the same probabilities. -/
theorem C89_sample {x : ℝ} (hx : (x : WithBot ℝ) ∈ l) : sampleProbs l = .ok (softmax l) := by
  obtain ⟨ws, m, h1, _, rfl, _⟩ := C89_safe hx
  unfold sampleProbs
  rw [h1]
  show discrete _ = _
  have : l.map (fun y => expW y / Real.exp m) = (l.map expW).map (fun w => w * (Real.exp m)⁻¹) := by
    rw [List.map_map]
    apply List.map_congr_left
    intro y _
    exact div_eq_mul_inv _ _
  rw [this, discrete_scale (inv_ne_zero (Real.exp_pos m).ne') (sum_pos hx).ne', softmax_eq]

/-- **C89**: these are probabilities, one for each index, the ratio of two is the exponential of the difference of the log weights, and they are positive exactly where the log
weight is a number. -/
theorem C89_softmax {x : ℝ} (hx : (x : WithBot ℝ) ∈ l) : (softmax l).length = l.length ∧ (softmax l).sum = 1 ∧ (∀ p ∈ softmax l, 0 ≤ p) ∧
    (∀ (j k : Nat) (a b p q : ℝ), l[j]? = some (a : WithBot ℝ) → l[k]? = some (b : WithBot ℝ) → (softmax l)[j]? = some p → (softmax l)[k]? = some q → p = q * Real.exp (a - b)) ∧
    ∀ (k : Nat) (p : ℝ), (softmax l)[k]? = some p → (0 < p ↔ ∃ a : ℝ, l[k]? = some (a : WithBot ℝ)) := by
  have hs := sum_pos hx
  refine ⟨by simp [softmax], ?_, ?_, ?_, ?_⟩
  · rw [softmax_eq]
    simp only [div_eq_mul_inv]
    rw [List.sum_map_mul_right, List.map_id']
    exact mul_inv_cancel₀ hs.ne'
  · intro p hp
    obtain ⟨y, _, rfl⟩ := List.mem_map.mp hp
    exact div_nonneg (expW_nonneg y) hs.le
  · intro j k a b p q hj hk hp hq
    unfold softmax at hp hq
    rw [List.getElem?_map, hj] at hp
    rw [List.getElem?_map, hk] at hq
    cases hp
    cases hq
    show Real.exp a / _ = Real.exp b / _ * _
    rw [Real.exp_sub]
    field_simp
  · intro k p hp
    unfold softmax at hp
    rw [List.getElem?_map] at hp
    cases hk : l[k]? with
    | none => rw [hk] at hp; cases hp
    | some y =>
      rw [hk] at hp
      cases hp
      cases y with
      | bot => simp [expW]
      | coe a => exact ⟨fun _ => ⟨a, rfl⟩, fun _ => div_pos (Real.exp_pos a) hs⟩

/-- **C89**: adding the same number to all log weights changes nothing. -/
theorem C89_shift {x : ℝ} (hx : (x : WithBot ℝ) ∈ l) (z : ℝ) : sampleProbs (l.map (fun y => y + (z : WithBot ℝ))) = sampleProbs l ∧
    logChoiceProbs (l.map (fun y => y + (z : WithBot ℝ))) = logChoiceProbs l := by
  have hx' : ((x + z : ℝ) : WithBot ℝ) ∈ l.map (fun y => y + (z : WithBot ℝ)) := List.mem_map.mpr ⟨_, hx, rfl⟩
  have he : ∀ y : WithBot ℝ, expW (y + (z : WithBot ℝ)) = expW y * Real.exp z := by
    intro y
    cases y with
    | bot => simp [expW]
    | coe y => exact Real.exp_add y z
  have : softmax (l.map (fun y => y + (z : WithBot ℝ))) = softmax l := by
    have hs : ((l.map (fun y => y + (z : WithBot ℝ))).map expW).sum = (l.map expW).sum * Real.exp z := by
      rw [List.map_map, ← List.sum_map_mul_right]
      congr 1
      apply List.map_congr_left
      intro y _
      exact he y
    unfold softmax
    rw [hs, List.map_map]
    apply List.map_congr_left
    intro y _
    show expW (y + z) / _ = _
    rw [he, mul_div_mul_right _ _ (Real.exp_pos z).ne']
  rw [C89_sample hx', C89_sample hx, C89_log_choice hx', C89_log_choice hx, this]
  exact ⟨rfl, rfl⟩

/-- **C89**: without a log weight that is a number both functions are undefined. -/
theorem C89_none (h : ∀ y ∈ l, y = ⊥) : sampleProbs l = .error .ub ∧ logChoiceProbs l = .error .ub := by
  by_cases hl : l = []
  · subst hl
    exact ⟨rfl, rfl⟩
  have hz : ∀ g : WithBot ℝ → ℝ, g ⊥ = 0 → discrete (l.map g) = .error .ub := by
    intro g hg
    have : (l.map g).sum = 0 := by
      refine List.sum_eq_zero ?_
      intro w hw
      obtain ⟨y, hy, rfl⟩ := List.mem_map.mp hw
      rw [h y hy, hg]
    unfold discrete
    rw [if_neg (by simpa using hl), if_pos this]
  constructor
  · obtain ⟨m, hm, _⟩ := maxIndex_spec l hl
    unfold sampleProbs sampleWeights idxR
    rw [hm]
    exact hz _ rfl
  · obtain ⟨r, h1, _, h3⟩ := C08_logsumexp hl
    unfold logChoiceProbs logNormalize choiceProbs
    rw [h1]
    show discrete ((l.map _).map expW) = _
    rw [List.map_map]
    exact hz _ rfl

/-- An index is drawn only if its log weight is a number. -/
theorem sampleFromLogps_some {k : Nat} {t t' : Tape} (h : sampleFromLogps l t = .ok (k, t')) : ∃ q : ℝ, l[k]? = some (q : WithBot ℝ) := by
  unfold sampleFromLogps at h
  dsimp only at h
  split at h
  · cases h
  · rename_i hk
    simp only [Except.ok.injEq, Prod.mk.injEq] at h
    obtain ⟨h, _⟩ := h
    have hlt : (draw ((List.range l.length).filter (fun k => ((l[k]?).getD ⊥).isSome)).length t).1 < ((List.range l.length).filter (fun k => ((l[k]?).getD ⊥).isSome)).length :=
      draw_lt (List.length_pos_of_ne_nil hk) _
    have hm : k ∈ (List.range l.length).filter (fun k => ((l[k]?).getD ⊥).isSome) := by
      rw [← h, List.getD_eq_getElem?_getD, List.getElem?_eq_getElem hlt]
      exact List.getElem_mem _
    obtain ⟨h1, h2⟩ := List.mem_filter.mp hm
    have h1 := List.mem_range.mp h1
    rw [List.getElem?_eq_getElem h1] at h2 ⊢
    cases hx : l[k] with
    | bot => rw [hx] at h2; cases h2
    | coe q => exact ⟨q, rfl⟩

/-- **C89**: the indices that the model of `transition_reference` may draw (`sampleFromLogps`) are those that have a positive probability. -/
theorem C89_support {k : Nat} : (∃ t t', sampleFromLogps l t = .ok (k, t')) ↔ ∃ ps p, sampleProbs l = .ok ps ∧ ps[k]? = some p ∧ 0 < p := by
  constructor
  · rintro ⟨t, t', h⟩
    obtain ⟨q, hq⟩ := sampleFromLogps_some h
    have hx := List.mem_of_getElem? hq
    have hk : (softmax l)[k]? = some (expW (q : WithBot ℝ) / (l.map expW).sum) := by
      unfold softmax
      rw [List.getElem?_map, hq]
      rfl
    exact ⟨softmax l, _, C89_sample hx, hk, ((C89_softmax hx).2.2.2.2 k _ hk).mpr ⟨q, hq⟩⟩
  · rintro ⟨ps, p, h1, h2, h3⟩
    have hx : ∃ x : ℝ, (x : WithBot ℝ) ∈ l := by
      by_contra hc
      have := (C89_none (l := l) (fun y hy => by
        cases y with
        | bot => rfl
        | coe y => exact absurd ⟨y, hy⟩ hc)).1
      rw [h1] at this
      cases this
    obtain ⟨x, hx⟩ := hx
    rw [C89_sample hx] at h1
    cases h1
    obtain ⟨a, ha⟩ := ((C89_softmax hx).2.2.2.2 k p h2).mp h3
    have hlt : k < l.length := by
      by_contra hc
      rw [List.getElem?_eq_none (Nat.le_of_not_lt hc)] at ha
      cases ha
    have hmem : k ∈ (List.range l.length).filter (fun k => ((l[k]?).getD ⊥).isSome) := List.mem_filter.mpr ⟨List.mem_range.mpr hlt, by rw [ha]; rfl⟩
    obtain ⟨n, hn, hnk⟩ := List.getElem_of_mem hmem
    refine ⟨[n], [], ?_⟩
    unfold sampleFromLogps
    dsimp only
    rw [if_neg (List.ne_nil_of_mem hmem)]
    have hd : draw ((List.range l.length).filter (fun k => ((l[k]?).getD ⊥).isSome)).length [n] = (n, []) := by
      unfold draw
      simp only [Nat.mod_eq_of_lt hn]
    rw [hd, List.getD_eq_getElem?_getD, List.getElem?_eq_getElem hn, hnk]
    rfl

/-- log weights of which one is `-inf` -/
example : ∃ l : List (WithBot ℝ), ((-1 : ℝ) : WithBot ℝ) ∈ l ∧ ⊥ ∈ l ∧ sampleProbs l = .ok (softmax l) ∧ (softmax l).sum = 1 ∧ (softmax l).length = 3 :=
  ⟨[⊥, ((-1 : ℝ) : WithBot ℝ), ((2 : ℝ) : WithBot ℝ)], by simp, by simp, C89_sample (x := -1) (by simp), (C89_softmax (x := -1) (by simp)).2.1, rfl⟩

end
end Verif
