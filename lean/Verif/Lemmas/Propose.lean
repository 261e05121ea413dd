import Verif.Lemmas.EmissionMore
import Verif.Spec.Emission
/-! Lemmas about `propose_clean` and about the normalisation of the noise models. -/
namespace Verif
noncomputable section
open Spec

theorem Gaussian.meanLoop_eq : ∀ (l : List ℝ) (mean : ℝ) (n : Nat),
    Gaussian.meanLoop mean n l * ((n + l.length : Nat) : ℝ) = mean * n + l.sum
  | [], mean, n => by simp [Gaussian.meanLoop]
  | c :: cs, mean, n => by
    unfold Gaussian.meanLoop
    have := Gaussian.meanLoop_eq cs (mean + (c - mean) / ((n + 1 : Nat) : ℝ)) (n + 1)
    rw [List.length_cons, show n + (cs.length + 1) = n + 1 + cs.length by ring, this, List.sum_cons]
    have h : ((n + 1 : Nat) : ℝ) ≠ 0 := by positivity
    push_cast at h ⊢
    field_simp
    ring

theorem modeLoop_spec {V : Type} [DecidableEq V] : ∀ (l seen : List V) (mx : Nat) (mode : V),
    (∀ y, seen.count y ≤ mx) → (seen ≠ [] → seen.count mode = mx ∧ mode ∈ seen) → (seen = [] → mx = 0) → (seen ≠ [] ∨ l ≠ []) →
    IsMode (l.reverse ++ seen) (modeLoop seen mx mode l)
  | [], seen, mx, mode, h1, h2, h3, h4 => by
    have hs := h4.resolve_right (by simp)
    obtain ⟨h5, h6⟩ := h2 hs
    exact ⟨by simpa [modeLoop] using h6, fun y => by simpa [modeLoop, h5] using h1 y⟩
  | c :: cs, seen, mx, mode, h1, h2, h3, _ => by
    unfold modeLoop
    have e : (c :: cs).reverse ++ seen = cs.reverse ++ (c :: seen) := by simp
    rw [e]
    by_cases h : mx < (c :: seen).count c
    · simp only [h, if_true]
      apply modeLoop_spec cs
      · intro y
        by_cases hy : y = c
        · subst hy; exact le_refl _
        · rw [List.count_cons_of_ne (Ne.symm hy)]
          exact (h1 y).trans h.le
      · exact fun _ => ⟨rfl, by simp⟩
      · exact fun hh => by simp at hh
      · exact .inl (by simp)
    · simp only [h, if_false]
      have hs : seen ≠ [] := by
        rintro rfl
        rw [h3 rfl] at h
        simp at h
      obtain ⟨h5, h6⟩ := h2 hs
      have hc : c ≠ mode := by
        rintro rfl
        apply h
        rw [List.count_cons_self]; omega
      apply modeLoop_spec cs
      · intro y
        by_cases hy : y = c
        · subst hy; exact not_lt.mp h
        · rw [List.count_cons_of_ne (Ne.symm hy)]; exact h1 y
      · exact fun _ => ⟨by rw [List.count_cons_of_ne hc]; exact h5, by simp [h6]⟩
      · exact fun hh => by simp at hh
      · exact .inl (by simp)

theorem modeLoop_mode {V : Type} [DecidableEq V] {l : List V} (h : l ≠ []) (x : V) : IsMode l (modeLoop [] 0 x l) := by
  obtain ⟨h1, h2⟩ := modeLoop_spec l [] 0 x (by simp) (by simp) (by simp) (.inr h)
  simp only [List.append_nil, List.mem_reverse, List.count_reverse] at h1 h2
  exact ⟨h1, h2⟩

namespace SimpleString

theorem le_maxLen {l : List (List Char)} {s} (h : s ∈ l) : s.length ≤ maxLen l := by
  induction l with
  | nil => cases h
  | cons a l ih =>
    simp only [maxLen, List.foldr_cons]
    rcases List.mem_cons.mp h with rfl | h
    · exact le_max_left _ _
    · exact (ih h).trans (le_max_right _ _)

theorem voteLoop_spec {l : List (List Char)} (hl : l ≠ []) : ∀ (fuel i : Nat), maxLen l + 1 ≤ i + fuel →
    (∀ j, j < (voteLoop l fuel i).length → ∃ c, (voteLoop l fuel i)[j]? = some c ∧ c ≠ Char.ofNat 0 ∧
      IsMode (l.map (charAt (i + j))) c) ∧
    IsMode (l.map (charAt (i + (voteLoop l fuel i).length))) (Char.ofNat 0)
  | 0, i, h => by
    simp only [voteLoop, List.length_nil, Nat.not_lt_zero, false_imp_iff, implies_true, true_and, Nat.add_zero]
    have : l.map (charAt i) = l.map (fun _ => Char.ofNat 0) := by
      apply List.map_congr_left
      intro s hs
      have := le_maxLen hs
      simp [charAt, List.getD, List.getElem?_eq_none (show s.length ≤ i by omega)]
    rw [this]
    refine ⟨?_, ?_⟩
    · obtain ⟨a, l', rfl⟩ := List.exists_cons_of_ne_nil hl
      simp
    · intro y
      by_cases hy : y = Char.ofNat 0
      · rw [hy]
      · rw [List.count_eq_zero_of_not_mem]
        · omega
        · intro hmem
          obtain ⟨_, _, h⟩ := List.mem_map.mp hmem
          exact hy h.symm
  | fuel + 1, i, h => by
    have hm := modeLoop_mode (l := l.map (charAt i)) (by simpa using hl) (Char.ofNat 0)
    unfold voteLoop
    by_cases hc : modeLoop [] 0 (Char.ofNat 0) (l.map (charAt i)) = Char.ofNat 0
    · simp only [hc, if_true]
      rw [hc] at hm
      exact ⟨fun j hj => absurd hj (by simp), hm⟩
    · simp only [hc, if_false]
      obtain ⟨h1, h2⟩ := voteLoop_spec hl fuel (i + 1) (by omega)
      refine ⟨?_, ?_⟩
      · intro j hj
        cases j with
        | zero => exact ⟨_, rfl, hc, hm⟩
        | succ j =>
          obtain ⟨c, h3, h4, h5⟩ := h1 j (by simpa using hj)
          exact ⟨c, by simpa using h3, h4, by rw [show i + (j + 1) = i + 1 + j by ring]; exact h5⟩
      · rw [List.length_cons, show ∀ n, i + (n + 1) = i + 1 + n by intro n; ring]
        exact h2

end SimpleString

namespace CategoricalEmission

theorem total_ok {d : DirichletCategorical} : ∀ {l : List Int}, (∀ c ∈ l, ∃ v, d.logp c = .ok v) →
    ∃ v, total d l = .ok v
  | [], _ => ⟨0, rfl⟩
  | c :: cs, h => by
    obtain ⟨v, hv⟩ := h c (by simp)
    obtain ⟨w, hw⟩ := total_ok (l := cs) (fun x hx => h x (by simp [hx]))
    exact ⟨v + w, by simp [total, hv, hw, bind, Except.bind]⟩

/-- the loop returns the index of a row whose total is largest -/
theorem bestLoop_spec (l : List Int) (all : List DirichletCategorical) (T : Nat → ℝ)
    (hT : ∀ i d, all[i]? = some d → total d l = .ok (T i)) : ∀ (rest : List DirichletCategorical) (i best : Nat) (lp : Option ℝ),
    (∀ j, all[i + j]? = rest[j]?) → (lp = none → i = 0) →
    (∀ b, lp = some b → b = T best ∧ best < all.length ∧ ∀ j < i, T j ≤ b) → all ≠ [] →
    ∃ r, bestLoop l best lp i rest = .ok r ∧ r < all.length ∧ ∀ j < all.length, T j ≤ T r
  | [], i, best, lp, h1, h2, h3, h4 => by
    have hi : all.length ≤ i := by have := h1 0; simpa using this
    cases lp with
    | none => exact absurd (List.length_eq_zero_iff.mp (by have := h2 rfl; omega)) h4
    | some b =>
      obtain ⟨h5, h6, h7⟩ := h3 b rfl
      exact ⟨best, rfl, h6, fun j hj => h5 ▸ h7 j (by omega)⟩
  | d :: ds, i, best, lp, h1, h2, h3, h4 => by
    have hd : all[i]? = some d := by simpa using h1 0
    have hlt : i < all.length := by
      by_contra h
      rw [List.getElem?_eq_none (by omega)] at hd; cases hd
    have h1' : ∀ j, all[i + 1 + j]? = ds[j]? := by
      intro j
      have := h1 (j + 1)
      rw [show i + 1 + j = i + (j + 1) by ring, this]; simp
    unfold bestLoop
    simp only [hT i d hd, bind, Except.bind]
    have stepNew : (∀ j < i, T j ≤ T i) →
        ∃ r, bestLoop l i (some (T i)) (i + 1) ds = .ok r ∧ r < all.length ∧ ∀ j < all.length, T j ≤ T r := by
      intro h
      apply bestLoop_spec l all T hT ds (i + 1) i (some (T i)) h1' (by simp) _ h4
      rintro b hb
      cases hb
      refine ⟨rfl, hlt, fun j hj => ?_⟩
      rcases Nat.lt_succ_iff_lt_or_eq.mp hj with hj | rfl
      · exact h j hj
      · exact le_refl _
    cases lp with
    | none =>
      apply stepNew
      intro j hj
      have := h2 rfl
      omega
    | some b =>
      obtain ⟨h5, h6, h7⟩ := h3 b rfl
      dsimp only
      by_cases hb : b < T i
      · rw [if_pos hb]
        exact stepNew (fun j hj => (h7 j hj).trans hb.le)
      · rw [if_neg hb]
        apply bestLoop_spec l all T hT ds (i + 1) best (some b) h1' (by simp) _ h4
        rintro b' hb'
        cases hb'
        refine ⟨h5, h6, fun j hj => ?_⟩
        rcases Nat.lt_succ_iff_lt_or_eq.mp hj with hj | rfl
        · exact h7 j hj
        · exact not_lt.mp hb

end CategoricalEmission
end
end Verif
