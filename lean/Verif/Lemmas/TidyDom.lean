import Verif.Lemmas.DomainState
import Verif.Spec.ClusterFile
/-! Reachable domains know their names, are consistent, and have no negative cluster. -/
namespace Verif
noncomputable section

/-- the invariant of the domains of reachable IRMs -/
def TidyDom (d : String) (dom : Domain) : Prop :=
  dom.name = d ∧ dom.WF ∧ ∀ i tb, dom.crp.assignments.find? i = some tb → 0 ≤ tb

theorem CRP.tables_nonneg {c : CRP} (hc : c.WF) (h : ∀ i tb, c.assignments.find? i = some tb → 0 ≤ tb) {tb : Int} (ht : tb ∈ c.tables.keys) :
    0 ≤ tb := by
  obtain ⟨s, hs⟩ := FMap.mem_keys.mp ht
  obtain ⟨i, hi⟩ := hc.nonempty tb s hs
  exact h i tb ((hc.mem i tb).mpr ⟨s, hs, hi⟩)

theorem CRP.weights_nonneg {c : CRP} (hc : c.WF) (h : ∀ i tb, c.assignments.find? i = some tb → 0 ≤ tb) {tb : Int} (ht : tb ∈ c.tablesWeights.keys) :
    0 ≤ tb := by
  unfold CRP.tablesWeights at ht
  split at ht
  · rw [FMap.keys_set_mem] at ht
    rcases ht with rfl | ht
    · exact le_refl _
    · cases ht
  · rename_i hN
    rw [FMap.keys_set_mem] at ht
    rcases ht with rfl | ht
    · have := CRP.tables_nonneg hc h (FMap.maxKey?_spec (CRP.maxTable_spec hc hN)).1
      omega
    · obtain ⟨w, hw⟩ := FMap.mem_keys.mp ht
      rw [FMap.find?_mapVals] at hw
      cases hs : c.tables.find? tb with
      | none => rw [hs] at hw; cases hw
      | some s => exact CRP.tables_nonneg hc h (FMap.mem_keys.mpr ⟨s, hs⟩)

theorem CRP.gibbs_keys {c : CRP} {cur : Int} {w : FMap Int ℝ} (h : c.tablesWeightsGibbs cur = .ok w) {tb : Int} (ht : tb ∈ w.keys) :
    tb ∈ c.tablesWeights.keys := by
  obtain ⟨_, _, h⟩ := bind_ok.mp h
  obtain ⟨_, _, h⟩ := bind_ok.mp h
  obtain ⟨x, hx, h⟩ := bind_ok.mp h
  have hcur : cur ∈ c.tablesWeights.keys := FMap.mem_keys.mpr ⟨x, FMap.atKey_ok.mp hx⟩
  have h1 : ∀ y : ℝ, tb ∈ (c.tablesWeights.set cur y).keys → tb ∈ c.tablesWeights.keys := by
    intro y hy
    rw [FMap.keys_set_mem] at hy
    rcases hy with rfl | hy
    · exact hcur
    · exact hy
  have h2 : ∀ y z : ℝ, tb ∈ ((c.tablesWeights.set cur y).set cur z).keys → tb ∈ c.tablesWeights.keys := by
    intro y z hy
    rw [FMap.set_set] at hy
    exact h1 _ hy
  dsimp only at h
  split at h
  · split at h
    · cases h
      rw [FMap.keys_erase_mem] at ht
      exact h2 _ _ (by tauto)
    · cases h
      exact h2 _ _ ht
  · cases h
    exact h1 _ ht

theorem tidyDom_closed : DomClosed TidyDom (fun _ _ => True) where
  new d := ⟨rfl, ⟨CRP.WF.init _, fun i => Iff.rfl⟩, fun i tb h => by cases h⟩
  incorporate := by
    intro d dom dom' i table t t' _ ⟨hn, hw, h0⟩ hc
    cases hi : dom.items.contains i with
    | true => rw [Domain.incorporate_same hi hc]; exact ⟨hn, hw, h0⟩
    | false =>
      rw [Domain.incorporate_new hw hi] at hc
      cases hc
      refine ⟨hn, hw.incState hi _, ?_⟩
      intro j tb hj
      simp only [Domain.incState, CRP.incState, FMap.find?_set] at hj
      split at hj
      · cases hj
        unfold Domain.chosenTable
        split
        · assumption
        · exact CRP.weights_nonneg hw.crp h0 (CRP.sample_mem _ _)
      · exact h0 _ _ hj
  unincorporate := by
    intro d dom dom' i ⟨hn, hw, h0⟩ hc
    cases hi : dom.items.contains i with
    | false => rw [Domain.unincorporate_absent hi] at hc; cases hc
    | true =>
      obtain ⟨tb, s, _, _, h3, h4⟩ := Domain.unincorporate_eq hw hi
      rw [h3] at hc
      cases hc
      refine ⟨hn, h4, ?_⟩
      intro j tb' hj
      simp only [CRP.uninState, FMap.find?_erase] at hj
      split at hj
      · cases hj
      · exact h0 _ _ hj
  move := by
    intro d dom dom' i w tb ⟨hn, hw, h0⟩ hg ht hc
    obtain ⟨cur, h1, h2⟩ := bind_ok.mp hg
    have hcur := Domain.getClusterAssignment_ok h1
    have hne : cur ≠ tb := by
      intro he
      obtain ⟨_, _, h4⟩ := bind_ok.mp hc
      obtain ⟨x, h5, h6⟩ := bind_ok.mp h4
      obtain ⟨_, h7, _⟩ := bind_ok.mp h6
      have h8 := FMap.atKey_ok.mp h5
      rw [hcur] at h8
      cases h8
      exact absurd he (by simpa using assertR_ok.mp h7)
    obtain ⟨d', h3, h4, h5, _, _, h6⟩ := Domain.setGibbs_eq hw hcur hne
    rw [h3] at hc
    cases hc
    refine ⟨h5.trans hn, h4, ?_⟩
    intro j tb' hj
    rw [h6, FMap.find?_set] at hj
    split at hj
    · cases hj
      exact CRP.weights_nonneg hw.crp h0 (CRP.gibbs_keys h2 ht)
    · exact h0 _ _ hj
  alpha := by
    intro d dom t ⟨hn, hw, h0⟩
    unfold CRP.transitionAlpha
    split
    · exact ⟨hn, hw, h0⟩
    · exact ⟨hn, ⟨⟨hw.crp.mem, hw.crp.nonempty, hw.crp.count⟩, hw.items⟩, h0⟩

theorem CRP.WF.tidy {c : CRP} (h : c.WF) : UtilIO.TidyCRP c := by
  exact ⟨h.mem, h.nonempty⟩

theorem DomAll.tidy {σ : Doms} (h : DomAll TidyDom σ) : UtilIO.Tidy σ :=
  fun d dom hd => ⟨(h d dom hd).1, (h d dom hd).2.1.crp.tidy⟩

end
end Verif
