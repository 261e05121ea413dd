import Verif.Lemmas.CRPSums
/-! Helper lemmas: the Gibbs weights of a seated customer, and the score after seating a customer. -/
namespace Verif
open Spec

theorem CRP.tablesWeightsGibbs_spec {c : CRP} (hwf : c.WF) {i t : Int} (hi : c.seating i = some t) :
    ∃ w, c.tablesWeightsGibbs t = .ok w ∧
      ∃ new : Int, occupancy (without c.seating i) new = 0 ∧
        (occupancy (without c.seating i) t = 0 → new = t) ∧
        (∀ u, w.find? u =
          if u = new then some c.alpha
          else if occupancy (without c.seating i) u = 0 then none
          else some (occupancy (without c.seating i) u : ℝ)) ∧
        w.vals.sum = c.N - 1 + c.alpha := by
  obtain ⟨s, hs, his⟩ := CRP.mem_table hwf hi
  have hN := CRP.N_pos_of_find hwf hi
  have hN' : c.N ≠ 0 := hN.ne'
  have hnew := CRP.new_not_mem hwf hN'
  have htn : t ≠ c.maxTable + 1 := by
    intro h; rw [← h, hs] at hnew; cases hnew
  have hw : c.tablesWeights.find? t = some ((s.size : Nat) : ℝ) := by
    rw [CRP.find?_tablesWeights hwf hN', if_neg htn, hs]; rfl
  have hcont : c.tables.contains t = true := FMap.contains_iff.mpr ⟨_, hs⟩
  have hspos := CRP.size_pos hwf hs
  -- occupancies without i
  have hsn : ∀ u, u ≠ t → occupancy (without c.seating i) u = occupancy c.seating u := by
    intro u hu
    unfold occupancy
    congr 1
    ext j
    simp only [without, Set.mem_ofPred_eq]
    split
    · rename_i hj; subst hj; rw [hi]; simp; exact fun h => hu h.symm
    · rfl
  have hst : occupancy (without c.seating i) t = s.size - 1 := by
    have h1 : {j | without c.seating i j = some t} = {j | c.seating j = some t} \ {i} := by
      ext j; simp only [without, Set.mem_ofPred_eq, Set.mem_sdiff, Set.mem_singleton_iff]
      split <;> simp_all
    have h2 := CRP.size_eq_occupancy hwf hs
    unfold occupancy at h2 ⊢
    rw [h1, Set.ncard_sdiff_singleton_of_mem (s := {j | c.seating j = some t}) hi, h2]
  have hsum := CRP.sum_tablesWeights hwf hN'
  by_cases h1 : s.size = 1
  · -- lone customer
    have hw' : (((s.size : Nat) : ℝ) - 1) = 0 := by simp [h1]
    have hres : c.tablesWeightsGibbs t =
        .ok ((c.tablesWeights.set t c.alpha).erase (c.maxTable + 1)) := by
      have hmax : (c.tablesWeights.set t c.alpha).maxKey? = some (c.maxTable + 1) := by
        have hmem : c.maxTable + 1 ∈ (c.tablesWeights.set t c.alpha).keys := by
          rw [FMap.keys_set_mem, FMap.mem_keys]
          exact .inr ⟨c.alpha, by rw [CRP.find?_tablesWeights hwf hN', if_pos rfl]⟩
        cases hm : (c.tablesWeights.set t c.alpha).maxKey? with
        | none =>
          rw [FMap.maxKey?_none] at hm
          rw [hm] at hmem
          simp [FMap.keys, FMap.empty, EmptyCollection.emptyCollection] at hmem
        | some k =>
          obtain ⟨hk, hle⟩ := FMap.maxKey?_spec hm
          rw [FMap.keys_set_mem, FMap.mem_keys] at hk
          have hkle : k ≤ c.maxTable + 1 := by
            rcases hk with rfl | ⟨v, hv⟩
            · have := CRP.le_maxTable hwf hN' (FMap.mem_keys.mpr ⟨s, hs⟩); omega
            · rw [CRP.find?_tablesWeights hwf hN'] at hv
              split at hv
              · omega
              · cases hs' : c.tables.find? k with
                | none => rw [hs'] at hv; cases hv
                | some s' =>
                  have := CRP.le_maxTable hwf hN' (FMap.mem_keys.mpr ⟨s', hs'⟩); omega
          rcases hle _ hmem with h | h
          · rw [h]
          · have : c.maxTable + 1 < k := by simpa [Key.lt] using h
            omega
      simp only [CRP.tablesWeightsGibbs, hcont, hN, assertR, bind, Except.bind, decide_true, if_true,
        FMap.atKey_of_find hw, hw', FMap.set_set, hmax]
    refine ⟨_, hres, t, ?_, fun _ => rfl, ?_, ?_⟩
    · rw [hst, h1]
    · intro u
      rw [FMap.find?_erase, FMap.find?_set, CRP.find?_tablesWeights hwf hN']
      by_cases hu : u = t
      · subst hu; simp [htn]
      · simp only [hu, if_false, hsn u hu]
        by_cases hu2 : u = c.maxTable + 1
        · subst hu2; simp [CRP.occupancy_none hwf hnew]
        · simp only [hu2, if_false]
          cases hs' : c.tables.find? u with
          | none => simp [CRP.occupancy_none hwf hs']
          | some s' => simp [← CRP.size_eq_occupancy hwf hs', (CRP.size_pos hwf hs').ne']
    · -- total
      have p1 := FMap.perm_erase (m := c.tablesWeights) hw
      have p2 := FMap.perm_set c.tablesWeights t c.alpha
      have hf : (c.tablesWeights.set t c.alpha).find? (c.maxTable + 1) = some c.alpha := by
        rw [FMap.find?_set_ne _ htn.symm, CRP.find?_tablesWeights hwf hN', if_pos rfl]
      have p3 := FMap.perm_erase hf
      have e1 := (p1.map (·.2)).sum_eq
      have e2 := (p2.map (·.2)).sum_eq
      have e3 := (p3.map (·.2)).sum_eq
      simp only [List.map_cons, List.sum_cons] at e1 e2 e3
      simp only [FMap.vals] at hsum ⊢
      rw [h1] at e1; push_cast at e1
      linarith
  · have hw' : (((s.size : Nat) : ℝ) - 1) ≠ 0 := by
      intro h; apply h1
      have : ((s.size : Nat) : ℝ) = 1 := by linarith
      exact_mod_cast this
    have hres : c.tablesWeightsGibbs t = .ok (c.tablesWeights.set t (((s.size : Nat) : ℝ) - 1)) := by
      simp only [CRP.tablesWeightsGibbs, hcont, hN, assertR, bind, Except.bind, decide_true, if_true,
        FMap.atKey_of_find hw, hw', if_false]
    refine ⟨_, hres, c.maxTable + 1, ?_, ?_, ?_, ?_⟩
    · rw [hsn _ htn.symm, CRP.occupancy_none hwf hnew]
    · intro h; rw [hst] at h; omega
    · intro u
      rw [FMap.find?_set, CRP.find?_tablesWeights hwf hN']
      by_cases hu : u = t
      · subst hu
        simp only [if_true, htn, if_false, hst]
        rw [if_neg (by omega), Nat.cast_sub (by omega)]; simp
      · simp only [hu, if_false, hsn u hu]
        by_cases hu2 : u = c.maxTable + 1
        · simp [hu2]
        · simp only [hu2, if_false]
          cases hs' : c.tables.find? u with
          | none => simp [CRP.occupancy_none hwf hs']
          | some s' => simp [← CRP.size_eq_occupancy hwf hs', (CRP.size_pos hwf hs').ne']
    · have p1 := FMap.perm_erase (m := c.tablesWeights) hw
      have p2 := FMap.perm_set c.tablesWeights t (((s.size : Nat) : ℝ) - 1)
      have e1 := (p1.map (·.2)).sum_eq
      have e2 := (p2.map (·.2)).sum_eq
      simp only [List.map_cons, List.sum_cons] at e1 e2
      simp only [FMap.vals] at hsum ⊢
      linarith

theorem CRP.chain_rule_step {c c' : CRP} (hwf : c.WF) (ha : 0 < c.alpha) (hN : 0 < c.N) {i t : Int}
    (h : c.incorporate i t = .ok c') {p : ℝ} (hp : c.logp t = (p : WithBot ℝ)) :
    c'.logpScore = c.logpScore + p := by
  have hN' : c.N ≠ 0 := hN.ne'
  have hi : c.assignments.find? i = none := by
    cases hf : c.assignments.find? i with
    | none => rfl
    | some t' => rw [CRP.incorporate_of_mem hf] at h; cases h
  rw [CRP.incorporate_eq hi] at h; cases h
  have hNa : (0 : ℝ) < c.N + c.alpha := by
    have : (0 : ℝ) < c.N := by exact_mod_cast hN
    linarith
  have hlg : lgamma ((c.N + 1 : ℤ) + c.alpha) = Real.log (c.N + c.alpha) + lgamma (c.N + c.alpha) := by
    rw [← lgamma_add_one hNa]; congr 1; push_cast; ring
  have hnew := CRP.new_not_mem hwf hN'
  simp only [CRP.logp] at hp
  rw [CRP.find?_tablesWeights hwf hN'] at hp
  have p2 := FMap.perm_set c.tables t (FSet.insert ((c.tables.find? t).getD ∅) i)
  have e2 := ((p2.map (·.2)).map (fun s : FSet Int => lgamma ((s.size : Nat) : ℝ))).sum_eq
  have e2' := p2.length_eq
  simp only [List.map_cons, List.sum_cons, List.length_cons] at e2 e2'
  by_cases ht : t = c.maxTable + 1
  · subst ht
    simp only [if_true] at hp
    have hp' : p = Real.log c.alpha - Real.log (c.N + c.alpha) := (WithBot.coe_injective hp).symm
    rw [hnew, FMap.erase_of_not_mem hnew] at e2 e2'
    have hsz : (FSet.insert ((none : Option (FSet Int)).getD ∅) i).size = 1 := by
      simp only [Option.getD_none, FSet.insert, FMap.size_set]; rfl
    rw [hsz] at e2
    simp only [CRP.logpScore, CRP.incState, FMap.vals, hnew, hlg]
    rw [e2, hp', show ∀ m : FMap Int (FSet Int), m.size = m.entries.length from fun _ => rfl,
      show ∀ m : FMap Int (FSet Int), m.size = m.entries.length from fun _ => rfl, e2']
    simp only [Nat.cast_one, lgamma_one]
    push_cast; ring
  · simp only [ht, if_false] at hp
    cases hs : c.tables.find? t with
    | none => rw [hs] at hp; simp at hp
    | some s =>
      rw [hs] at hp
      simp only [Option.map_some] at hp
      have hp' : p = Real.log ((s.size : Nat) : ℝ) - Real.log (c.N + c.alpha) :=
        (WithBot.coe_injective hp).symm
      have p1 := FMap.perm_erase hs
      have e1 := ((p1.map (·.2)).map (fun s : FSet Int => lgamma ((s.size : Nat) : ℝ))).sum_eq
      have e1' := p1.length_eq
      simp only [List.map_cons, List.sum_cons, List.length_cons] at e1 e1'
      rw [hs] at e2 e2'
      have hni : s.find? i = none := by
        rw [FMap.find?_none_iff]; intro hmem
        have := (hwf.mem i t).mpr ⟨s, hs, hmem⟩
        rw [hi] at this; cases this
      have hsz : (FSet.insert ((some s).getD ∅) i).size = s.size + 1 := by
        simp only [Option.getD_some, FSet.insert, FMap.size_set, FMap.erase_of_not_mem hni]
      rw [hsz] at e2
      have hpos : (0 : ℝ) < (s.size : Nat) := by exact_mod_cast CRP.size_pos hwf hs
      push_cast at e2
      rw [lgamma_add_one hpos] at e2
      simp only [CRP.logpScore, CRP.incState, FMap.vals, hs, hlg]
      rw [e2, e1, hp', show ∀ m : FMap Int (FSet Int), m.size = m.entries.length from fun _ => rfl,
        show ∀ m : FMap Int (FSet Int), m.size = m.entries.length from fun _ => rfl, e2', ← e1']
      ring

/-- the score after seating a customer at any table -/
theorem CRP.score_incState {c : CRP} (hwf : c.WF) (ha : 0 < c.alpha) {i : Int} (hi : c.assignments.find? i = none) (t : Int) :
    (c.incState i t).logpScore = c.logpScore - Real.log (c.N + c.alpha) +
      Real.log (match c.tables.find? t with | none => c.alpha | some s => ((s.size : Nat) : ℝ)) := by
  have hN : (0 : ℝ) ≤ c.N := by rw [hwf.count]; exact_mod_cast Nat.zero_le _
  have hNa : (0 : ℝ) < c.N + c.alpha := by linarith
  have hlg : lgamma ((c.N + 1 : ℤ) + c.alpha) = Real.log (c.N + c.alpha) + lgamma (c.N + c.alpha) := by
    rw [← lgamma_add_one hNa]; congr 1; push_cast; ring
  have p2 := FMap.perm_set c.tables t (FSet.insert ((c.tables.find? t).getD ∅) i)
  have e2 := ((p2.map (·.2)).map (fun s : FSet Int => lgamma ((s.size : Nat) : ℝ))).sum_eq
  have e2' := p2.length_eq
  simp only [List.map_cons, List.sum_cons, List.length_cons] at e2 e2'
  cases hs : c.tables.find? t with
  | none =>
    rw [hs, FMap.erase_of_not_mem hs] at e2 e2'
    have hsz : (FSet.insert ((none : Option (FSet Int)).getD ∅) i).size = 1 := by
      simp only [Option.getD_none, FSet.insert, FMap.size_set]; rfl
    rw [hsz] at e2
    simp only [CRP.logpScore, CRP.incState, FMap.vals, hs, hlg]
    rw [e2, show ∀ m : FMap Int (FSet Int), m.size = m.entries.length from fun _ => rfl,
      show ∀ m : FMap Int (FSet Int), m.size = m.entries.length from fun _ => rfl, e2']
    simp only [Nat.cast_one, lgamma_one]
    push_cast; ring
  | some s =>
    have p1 := FMap.perm_erase hs
    have e1 := ((p1.map (·.2)).map (fun s : FSet Int => lgamma ((s.size : Nat) : ℝ))).sum_eq
    have e1' := p1.length_eq
    simp only [List.map_cons, List.sum_cons, List.length_cons] at e1 e1'
    rw [hs] at e2 e2'
    have hni : s.find? i = none := by
      rw [FMap.find?_none_iff]; intro hmem
      have := (hwf.mem i t).mpr ⟨s, hs, hmem⟩
      rw [hi] at this; cases this
    have hsz : (FSet.insert ((some s).getD ∅) i).size = s.size + 1 := by
      simp only [Option.getD_some, FSet.insert, FMap.size_set, FMap.erase_of_not_mem hni]
    rw [hsz] at e2
    have hpos : (0 : ℝ) < (s.size : Nat) := by exact_mod_cast CRP.size_pos hwf hs
    push_cast at e2
    rw [lgamma_add_one hpos] at e2
    simp only [CRP.logpScore, CRP.incState, FMap.vals, hs, hlg]
    rw [e2, e1, show ∀ m : FMap Int (FSet Int), m.size = m.entries.length from fun _ => rfl,
      show ∀ m : FMap Int (FSet Int), m.size = m.entries.length from fun _ => rfl, e2', ← e1']
    ring

/-- moving a customer changes the score by the difference of the log Gibbs weights -/
theorem CRP.moved_score {c c' : CRP} (hwf : c.WF) (hwf' : c'.WF) (ha : 0 < c.alpha) (ha' : c'.alpha = c.alpha) {i cur z : Int}
    (hi : c.assignments.find? i = some cur) (hz : c'.assignments = c.assignments.set i z) {w : FMap Int ℝ}
    (hw : c.tablesWeightsGibbs cur = .ok w) {x y : ℝ} (hx : w.find? z = some x) (hy : w.find? cur = some y) :
    c'.logpScore = c.logpScore + Real.log x - Real.log y := by
  obtain ⟨s, hs, _⟩ := CRP.mem_table hwf hi
  have h0 := hwf.uninState hi hs
  have hn : (c.uninState i cur s).assignments.find? i = none := by simp [CRP.uninState]
  have hseat : (c.uninState i cur s).seating = without c.seating i := by
    funext j
    simp [CRP.seating, CRP.uninState, without, FMap.find?_erase]
  obtain ⟨w', hw', new, h1, h2, h3, _⟩ := CRP.tablesWeightsGibbs_spec hwf hi
  rw [hw] at hw'; cases hw'
  have key : ∀ u x, w.find? u = some x →
      x = (match (c.uninState i cur s).tables.find? u with | none => c.alpha | some s => ((s.size : Nat) : ℝ)) := by
    intro u x hu
    rw [h3, ← hseat] at hu
    cases ht : (c.uninState i cur s).tables.find? u with
    | none =>
      have := CRP.occupancy_none h0 ht
      rw [this] at hu
      split at hu
      · exact (Option.some.inj hu).symm
      · simp at hu
    | some s' =>
      have hsz := CRP.size_eq_occupancy h0 ht
      have hpos := CRP.size_pos h0 ht
      have hne : u ≠ new := by
        rintro rfl
        rw [← hseat, ← hsz] at h1
        omega
      rw [if_neg hne, ← hsz, if_neg hpos.ne'] at hu
      exact (Option.some.inj hu).symm
  have e1 : c' = (c.uninState i cur s).incState i z := by
    refine hwf'.ext (h0.incState hn z) ha' (fun j => ?_)
    rw [hz]
    simp [CRP.incState, CRP.uninState, FMap.set_erase]
  have e2 : c = (c.uninState i cur s).incState i cur := by
    refine hwf.ext (h0.incState hn cur) rfl (fun j => ?_)
    simp only [CRP.incState, CRP.uninState, FMap.set_erase, FMap.set_of_find hi]
  have s1 := CRP.score_incState h0 ha hn z
  have s2 := CRP.score_incState h0 ha hn cur
  rw [← e1] at s1
  rw [← e2] at s2
  rw [show (c.uninState i cur s).alpha = c.alpha from rfl, ← key z x hx] at s1
  rw [show (c.uninState i cur s).alpha = c.alpha from rfl, ← key cur y hy] at s2
  rw [s1, s2]; ring

end Verif
