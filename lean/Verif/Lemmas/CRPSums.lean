import Verif.Lemmas.CRP
import Verif.Lemmas.Math
import Verif.Spec.CRP
/-! Sums over seating plans. -/
namespace Verif
namespace CRP
open Verif.Spec

theorem Reachable.wf {c : CRP} (h : c.Reachable) : c.WF := by
  induction h with
  | fresh a _ => exact WF.init a
  | @incorporate c c' i t _ hc ih =>
    cases hf : c.assignments.find? i with
    | some t' => rw [incorporate_of_mem hf] at hc; cases hc
    | none => rw [incorporate_eq hf] at hc; cases hc; exact ih.incState hf t
  | @unincorporate c c' i _ hc ih =>
    cases hf : c.assignments.find? i with
    | none => rw [unincorporate_of_not_mem hf] at hc; cases hc
    | some t =>
      obtain ⟨s, hs, _⟩ := mem_table ih hf
      rw [unincorporate_eq hf hs] at hc; cases hc; exact ih.uninState hf hs
  | transitionAlpha t _ ih =>
    unfold CRP.transitionAlpha
    split
    · exact ih
    · exact ⟨ih.mem, ih.nonempty, ih.count⟩

theorem transitionAlpha_pos {c : CRP} (h : 0 < c.alpha) (t : Tape) : 0 < (c.transitionAlpha t).1.alpha := by
  unfold CRP.transitionAlpha
  split
  · exact h
  · dsimp only
    apply logLinspace_pos
    rw [List.getD_eq_getElem?_getD, List.getElem?_eq_getElem]
    · exact List.getElem_mem _
    · exact draw_lt (by simp [length_logLinspace]) t

theorem Reachable.alpha_pos {c : CRP} (h : c.Reachable) : 0 < c.alpha := by
  induction h with
  | fresh a ha => exact ha
  | @incorporate c c' i t _ hc ih =>
    cases hf : c.assignments.find? i with
    | some t' => rw [incorporate_of_mem hf] at hc; cases hc
    | none => rw [incorporate_eq hf] at hc; cases hc; exact ih
  | @unincorporate c c' i hr hc ih =>
    cases hf : c.assignments.find? i with
    | none => rw [unincorporate_of_not_mem hf] at hc; cases hc
    | some t =>
      obtain ⟨s, hs, _⟩ := mem_table hr.wf hf
      rw [unincorporate_eq hf hs] at hc; cases hc; exact ih
  | transitionAlpha t _ ih => exact transitionAlpha_pos ih t

/-- The customers listed table by table are the customers of the assignment map. -/
theorem perm_customers {c : CRP} (hc : c.WF) :
    (c.tables.vals.flatMap FMap.keys).Perm c.assignments.keys := by
  rw [List.perm_ext_iff_of_nodup _ c.assignments.nodupKeys]
  · intro i
    simp only [List.mem_flatMap, FMap.vals, List.mem_map]
    rw [FMap.mem_keys]
    constructor
    · rintro ⟨s, ⟨⟨t, s⟩, hts, rfl⟩, hi⟩
      exact ⟨t, (hc.mem i t).mpr ⟨s, FMap.mem_entries.mp hts, hi⟩⟩
    · rintro ⟨t, ht⟩
      obtain ⟨s, hs, hi⟩ := mem_table hc ht
      exact ⟨s, ⟨(t, s), FMap.mem_entries.mpr hs, rfl⟩, hi⟩
  · rw [List.nodup_flatMap]
    refine ⟨fun s _ => s.nodupKeys, ?_⟩
    simp only [FMap.vals, List.pairwise_map]
    have hs := c.tables.sorted
    refine List.Pairwise.imp_of_mem ?_ hs
    rintro ⟨t, s⟩ ⟨t', s'⟩ h1 h2 hlt i hi hi'
    have a1 := (hc.mem i t).mpr ⟨s, FMap.mem_entries.mp h1, hi⟩
    have a2 := (hc.mem i t').mpr ⟨s', FMap.mem_entries.mp h2, hi'⟩
    rw [a1] at a2
    exact Key.ne_of_lt hlt (Option.some.inj a2)

/-- Sum over customers = sum over tables of sums over the customers of the table. -/
theorem sum_customers {c : CRP} (hc : c.WF) (h : Int → ℝ) :
    (c.assignments.keys.map h).sum = (c.tables.vals.map (fun s => (s.keys.map h).sum)).sum := by
  rw [← ((perm_customers hc).map h).sum_eq]
  induction c.tables.vals with
  | nil => rfl
  | cons s l ih => simp [List.flatMap_cons, ih]

theorem size_eq_keys {K V} [Key K] (m : FMap K V) : m.size = m.keys.length := by
  simp [FMap.size, FMap.keys]

theorem ncard_of_keys {K V} [Key K] {p : K → Prop} (m : FMap K V) (h : ∀ k, k ∈ m.keys ↔ p k) :
    {k | p k}.ncard = m.size := by
  have : {k | p k} = ((m.keys.toFinset : Finset K) : Set K) := by
    ext k; simp [h]
  rw [this, Set.ncard_coe_finset, List.toFinset_card_of_nodup m.nodupKeys, size_eq_keys]

theorem size_eq_occupancy {c : CRP} (hc : c.WF) {t : Int} {s : FSet Int} (hs : c.tables.find? t = some s) :
    s.size = occupancy c.seating t := by
  symm
  apply ncard_of_keys
  intro i
  rw [seating, hc.mem, hs]; simp

theorem occupancy_none {c : CRP} (hc : c.WF) {t : Int} (hs : c.tables.find? t = none) :
    occupancy c.seating t = 0 := by
  have : {i | c.seating i = some t} = ∅ := by
    ext i; simp only [seating, Set.mem_setOf_eq, Set.mem_empty_iff_false, iff_false]
    rw [hc.mem, hs]; simp
  simp [occupancy, this]

theorem seated_eq {c : CRP} (hc : c.WF) : (seated c.seating : Int) = c.N := by
  rw [hc.count]
  congr 1
  apply ncard_of_keys
  intro i
  rw [FMap.mem_keys, seating]
  cases c.assignments.find? i <;> simp

theorem size_pos {c : CRP} (hc : c.WF) {t : Int} {s : FSet Int} (hs : c.tables.find? t = some s) :
    0 < s.size := by
  obtain ⟨i, hi⟩ := hc.nonempty t s hs
  rw [size_eq_keys]; exact List.length_pos_of_mem hi

theorem sum_sizes {c : CRP} (hc : c.WF) :
    (c.tables.vals.map (fun s => ((s.size : Nat) : ℝ))).sum = (c.N : ℝ) := by
  have := sum_customers hc (fun _ => 1)
  simp only [List.map_const', List.sum_replicate, smul_eq_mul, nsmul_eq_mul, mul_one] at this
  rw [hc.count]
  simp only [size_eq_keys]
  push_cast
  rw [this]

/-- number of customers at the table of customer `i` -/
noncomputable def mates (c : CRP) (i : Int) : Nat :=
  {j | ∃ t, c.seating i = some t ∧ c.seating j = some t}.ncard

theorem mates_eq {c : CRP} (hc : c.WF) {t i : Int} {s : FSet Int} (hs : c.tables.find? t = some s)
    (hi : i ∈ s.keys) : c.mates i = s.size := by
  have h := (hc.mem i t).mpr ⟨s, hs, hi⟩
  rw [size_eq_occupancy hc hs, mates, occupancy]
  congr 1
  ext j
  simp only [seating, Set.mem_setOf_eq, h]
  constructor
  · rintro ⟨t', h1, h2⟩; cases h1; exact h2
  · intro h2; exact ⟨t, rfl, h2⟩

/-- A sum over tables of a function of the size, as a sum over customers. -/
theorem sum_tables {c : CRP} (hc : c.WF) (g : Nat → ℝ) :
    (c.tables.vals.map (fun s => g s.size)).sum =
      (c.assignments.keys.map (fun i => g (c.mates i) / (c.mates i))).sum := by
  rw [sum_customers hc]
  congr 1
  apply List.map_congr_left
  intro s hs
  simp only [FMap.vals, List.mem_map] at hs
  obtain ⟨⟨t, s⟩, hts, rfl⟩ := hs
  have hf := FMap.mem_entries.mp hts
  have hpos := size_pos hc hf
  have : (s.keys.map (fun i => g (c.mates i) / (c.mates i))) =
      s.keys.map (fun _ => g s.size / (s.size : ℝ)) := by
    apply List.map_congr_left
    intro i hi
    rw [mates_eq hc hf hi]
  rw [this, List.map_const', List.sum_replicate, ← size_eq_keys, nsmul_eq_mul]
  have : (s.size : ℝ) ≠ 0 := by exact_mod_cast hpos.ne'
  field_simp

theorem logpScore_eq {c : CRP} (hc : c.WF) :
    c.logpScore = (c.assignments.keys.map (fun i => (1 : ℝ) / (c.mates i))).sum * Real.log c.alpha
      + (c.assignments.keys.map (fun i => lgamma (c.mates i) / (c.mates i))).sum
      + lgamma c.alpha - lgamma (c.assignments.keys.length + c.alpha) := by
  have h1 := sum_tables hc (fun _ => 1)
  have h2 := sum_tables hc (fun n => lgamma n)
  simp only [List.map_const', List.sum_replicate, nsmul_eq_mul, mul_one] at h1
  rw [← h1, ← h2, logpScore, hc.count, size_eq_keys, size_eq_keys]
  simp [FMap.keys, FMap.vals]

/-- Sum of the table weights. -/
theorem sum_tablesWeights {c : CRP} (hc : c.WF) (hN : c.N ≠ 0) :
    c.tablesWeights.vals.sum = c.N + c.alpha := by
  simp only [tablesWeights, hN, if_false, FMap.vals]
  have hnew := new_not_mem hc hN
  have hp := FMap.perm_set (c.tables.mapVals (fun _ s => ((s.size : Nat) : ℝ))) (c.maxTable + 1) c.alpha
  rw [(hp.map (·.2)).sum_eq]
  rw [FMap.erase_of_not_mem]
  · simp only [List.map_cons, List.sum_cons, FMap.mapVals, List.map_map]
    have := sum_sizes hc
    simp only [FMap.vals, List.map_map] at this
    have e : ((fun x : Int × ℝ => x.2) ∘ fun e : Int × FSet Int => (e.1, ((FMap.size e.2 : Nat) : ℝ))) =
        ((fun s : FSet Int => ((s.size : Nat) : ℝ)) ∘ fun x => x.2) := rfl
    rw [e, this, add_comm]
  · rw [FMap.find?_mapVals, hnew]; rfl

theorem find?_tablesWeights {c : CRP} (hc : c.WF) (hN : c.N ≠ 0) (t : Int) :
    c.tablesWeights.find? t = if t = c.maxTable + 1 then some c.alpha
      else (c.tables.find? t).map (fun s => ((s.size : Nat) : ℝ)) := by
  simp only [tablesWeights, hN, if_false, FMap.find?_set, FMap.find?_mapVals]

end CRP
end Verif
