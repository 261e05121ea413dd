import Verif.Lemmas.CRPSums
/-! Helper lemmas about the Domain model. -/
namespace Verif

theorem CRP.sample_mem (c : CRP) (t : Tape) : (c.sample t).1 ∈ c.tablesWeights.keys := by
  have hne : 0 < c.tablesWeights.keys.length := by
    unfold CRP.tablesWeights
    split
    · simp [FMap.keys, FMap.set, FMap.lset, EmptyCollection.emptyCollection, FMap.empty]
    · apply List.length_pos_of_mem (a := c.maxTable + 1)
      rw [FMap.keys_set_mem]; exact .inl rfl
  unfold CRP.sample
  dsimp only
  rw [List.getD_eq_getElem?_getD, List.getElem?_eq_getElem (draw_lt hne t)]
  exact List.getElem_mem _

theorem CRP.incorporate_assignments {c c' : CRP} {i t : Int} (h : c.incorporate i t = .ok c') :
    c.assignments.find? i = none ∧ c' = c.incState i t := by
  cases hf : c.assignments.find? i with
  | some t' => rw [CRP.incorporate_of_mem hf] at h; cases h
  | none => rw [CRP.incorporate_eq hf] at h; cases h; exact ⟨rfl, rfl⟩

theorem CRP.unincorporate_assignments {c c' : CRP} (hc : c.WF) {i : Int} (h : c.unincorporate i = .ok c') :
    ∃ t s, c.assignments.find? i = some t ∧ c.tables.find? t = some s ∧ c' = c.uninState i t s := by
  cases hf : c.assignments.find? i with
  | none => rw [CRP.unincorporate_of_not_mem hf] at h; cases h
  | some t =>
    obtain ⟨s, hs, _⟩ := CRP.mem_table hc hf
    rw [CRP.unincorporate_eq hf hs] at h; cases h; exact ⟨t, s, rfl, hs, rfl⟩

namespace Domain

/-- the items of the domain are the customers of its CRP -/
structure WF (d : Domain) : Prop where
  crp : d.crp.WF
  items : ∀ i, i ∈ d.items.keys ↔ i ∈ d.crp.assignments.keys

theorem WF.mem {d : Domain} (h : d.WF) {i : Int} :
    d.items.contains i = true ↔ ∃ t, d.crp.assignments.find? i = some t := by
  rw [FMap.contains_iff_mem, h.items, FMap.mem_keys]

theorem WF.not_mem {d : Domain} (h : d.WF) {i : Int} :
    d.items.contains i = false ↔ d.crp.assignments.find? i = none := by
  rw [← Bool.not_eq_true, h.mem]
  cases d.crp.assignments.find? i <;> simp

/-- the domain after a new item is put into cluster `tb` -/
def incState (d : Domain) (i tb : Int) : Domain :=
  { d with items := FSet.insert d.items i, crp := d.crp.incState i tb }

theorem WF.incState {d : Domain} (h : d.WF) {i : Int} (hi : d.items.contains i = false) (tb : Int) :
    (d.incState i tb).WF where
  crp := h.crp.incState (h.not_mem.mp hi) tb
  items j := by
    simp only [Domain.incState, CRP.incState, FSet.mem_insert, FMap.keys_set_mem, h.items]

/-- the cluster chosen for a new item -/
noncomputable def chosenTable (d : Domain) (t : Tape) (table : Int) : Int × Tape :=
  if 0 ≤ table then (table, t) else d.crp.sample t

theorem incorporate_new {d : Domain} (h : d.WF) {i : Int} (hi : d.items.contains i = false)
    (t : Tape) (table : Int) :
    d.incorporate i t table = .ok (d.incState i (d.chosenTable t table).1, (d.chosenTable t table).2) := by
  simp only [incorporate, hi, chosenTable, Bool.false_eq_true, if_false]
  split <;> simp [CRP.incorporate_eq (h.not_mem.mp hi), bind, Except.bind, Domain.incState]

theorem incorporate_same {d d' : Domain} {i table : Int} (hi : d.items.contains i = true) {t t' : Tape} (hc : d.incorporate i t table = .ok (d', t')) :
    d' = d := by
  simp only [incorporate, hi, if_true, assertR, bind, Except.bind] at hc
  split at hc
  · cases hc
  · cases hc; rfl

theorem incorporate_present {d : Domain} {i : Int} (hi : d.items.contains i = true) (t : Tape) :
    d.incorporate i t = .ok (d, t) := by
  simp [incorporate, hi, bind, Except.bind]

theorem incorporate_present_table {d : Domain} {i : Int} (hi : d.items.contains i = true) (t : Tape)
    {table : Int} (h : table ≠ -1) : d.incorporate i t table = .error .assert := by
  simp [incorporate, hi, bind, Except.bind, h]

theorem unincorporate_eq {d : Domain} (h : d.WF) {i : Int} (hi : d.items.contains i = true) :
    ∃ tb s, d.crp.assignments.find? i = some tb ∧ d.crp.tables.find? tb = some s ∧
      d.unincorporate i = .ok { d with crp := d.crp.uninState i tb s, items := d.items.erase i } ∧
      WF { d with crp := d.crp.uninState i tb s, items := d.items.erase i } := by
  obtain ⟨tb, htb⟩ := h.mem.mp hi
  obtain ⟨s, hs, _⟩ := CRP.mem_table h.crp htb
  refine ⟨tb, s, htb, hs, ?_, ?_⟩
  · simp [unincorporate, hi, bind, Except.bind, CRP.unincorporate_eq htb hs]
  · constructor
    · exact h.crp.uninState htb hs
    · intro j; simp only [CRP.uninState, FMap.keys_erase_mem, h.items]

theorem unincorporate_absent {d : Domain} {i : Int} (hi : d.items.contains i = false) :
    d.unincorporate i = .error .assert := by
  simp [unincorporate, hi, bind, Except.bind]

theorem getClusterAssignment_eq {d : Domain} (h : d.WF) {i tb : Int}
    (hi : d.crp.assignments.find? i = some tb) : d.getClusterAssignment i = .ok tb := by
  have := h.mem.mpr ⟨tb, hi⟩
  simp [getClusterAssignment, this, bind, Except.bind, FMap.atKey_of_find hi]

theorem getClusterAssignment_absent {d : Domain} {i : Int} (hi : d.items.contains i = false) :
    d.getClusterAssignment i = .error .assert := by
  simp [getClusterAssignment, hi, bind, Except.bind]

theorem getClusterAssignment_ok {d : Domain} {i tb : Int}
    (hi : d.getClusterAssignment i = .ok tb) : d.crp.assignments.find? i = some tb := by
  cases h : d.items.contains i with
  | false => rw [getClusterAssignment_absent h] at hi; cases hi
  | true => simp [getClusterAssignment, h, bind, Except.bind] at hi; exact FMap.atKey_ok.mp hi

theorem setGibbs_eq {d : Domain} (h : d.WF) {i cur table : Int}
    (hi : d.crp.assignments.find? i = some cur) (hne : cur ≠ table) :
    ∃ d', d.setClusterAssignmentGibbs i table = .ok d' ∧ d'.WF ∧ d'.name = d.name ∧ d'.items = d.items ∧
      d'.crp.alpha = d.crp.alpha ∧
      d'.crp.assignments = d.crp.assignments.set i table := by
  have hm := h.mem.mpr ⟨cur, hi⟩
  obtain ⟨s, hs, _⟩ := CRP.mem_table h.crp hi
  have hf : (d.crp.uninState i cur s).assignments.find? i = none := by simp [CRP.uninState]
  have hw := (h.crp.uninState hi hs).incState hf table
  have ha : ((d.crp.uninState i cur s).incState i table).assignments = d.crp.assignments.set i table := by
    simp [CRP.incState, CRP.uninState, FMap.set_erase]
  refine ⟨{ d with crp := (d.crp.uninState i cur s).incState i table }, ?_, ⟨hw, ?_⟩, rfl, rfl, rfl, ha⟩
  · simp [setClusterAssignmentGibbs, hm, bind, Except.bind, FMap.atKey_of_find hi, hne,
      CRP.unincorporate_eq hi hs, CRP.incorporate_eq hf]
  · intro j
    dsimp only
    rw [ha, h.items, FMap.keys_set_mem]
    constructor
    · exact .inr
    · rintro (rfl | h')
      · exact FMap.mem_keys.mpr ⟨cur, hi⟩
      · exact h'

end Domain
end Verif
