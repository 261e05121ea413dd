import Verif.Model.CRP
/-! Helper lemmas about the CRP model. -/
namespace Verif
namespace CRP

/-- The seating plan is a partition of the seated customers. -/
structure WF (c : CRP) : Prop where
  mem : ∀ i t, c.assignments.find? i = some t ↔ ∃ s, c.tables.find? t = some s ∧ i ∈ s.keys
  nonempty : ∀ t s, c.tables.find? t = some s → ∃ i, i ∈ s.keys
  count : c.N = c.assignments.size

theorem WF.init (a : ℝ) : WF { alpha := a } where
  mem i t := by simp
  nonempty t s h := by simp at h
  count := rfl

/-- A partition is determined by its assignments. -/
theorem WF.ext {c d : CRP} (hc : c.WF) (hd : d.WF) (ha : c.alpha = d.alpha)
    (h : ∀ i, c.assignments.find? i = d.assignments.find? i) : c = d := by
  have hA : c.assignments = d.assignments := FMap.ext h
  have hN : c.N = d.N := by rw [hc.count, hd.count, hA]
  have sub : ∀ {c d : CRP}, c.WF → d.WF → c.assignments = d.assignments →
      ∀ t s, c.tables.find? t = some s → d.tables.find? t = some s := by
    intro c d hc hd hA t s hs
    obtain ⟨i, hi⟩ := hc.nonempty t s hs
    have h1 := (hc.mem i t).mpr ⟨s, hs, hi⟩
    rw [hA] at h1
    obtain ⟨s', hs', _⟩ := (hd.mem i t).mp h1
    have : s = s' := by
      apply FSet.ext
      intro j
      constructor
      · intro hj
        have := (hc.mem j t).mpr ⟨s, hs, hj⟩
        rw [hA] at this
        obtain ⟨s'', hs'', hj'⟩ := (hd.mem j t).mp this
        rw [hs'] at hs''; cases hs''; exact hj'
      · intro hj
        have := (hd.mem j t).mpr ⟨s', hs', hj⟩
        rw [← hA] at this
        obtain ⟨s'', hs'', hj'⟩ := (hc.mem j t).mp this
        rw [hs] at hs''; cases hs''; exact hj'
    rw [this]; exact hs'
  have hT : c.tables = d.tables := by
    apply FMap.ext
    intro t
    cases h1 : c.tables.find? t with
    | some s => exact (sub hc hd hA t s h1).symm
    | none =>
      cases h2 : d.tables.find? t with
      | none => rfl
      | some s => rw [sub hd hc hA.symm t s h2] at h1; cases h1
  cases c; cases d; simp_all

theorem incorporate_of_mem {c : CRP} {i t t' : Int} (h : c.assignments.find? i = some t') :
    c.incorporate i t = .error .assert := by
  have : c.assignments.contains i = true := FMap.contains_iff.mpr ⟨_, h⟩
  simp [incorporate, this, bind, Except.bind]

theorem unincorporate_of_not_mem {c : CRP} {i : Int} (h : c.assignments.find? i = none) :
    c.unincorporate i = .error .assert := by
  have : c.assignments.contains i = false := FMap.contains_false.mpr h
  simp [unincorporate, this, bind, Except.bind]

/-- the state after `incorporate` -/
def incState (c : CRP) (i t : Int) : CRP :=
  { c with
    tables := c.tables.set t (FSet.insert ((c.tables.find? t).getD ∅) i)
    assignments := c.assignments.set i t
    N := c.N + 1 }

theorem incorporate_eq {c : CRP} {i t : Int} (h : c.assignments.find? i = none) :
    c.incorporate i t = .ok (c.incState i t) := by
  have hc : c.assignments.contains i = false := FMap.contains_false.mpr h
  simp only [incorporate, hc, bind, Except.bind, incState, assertR, Bool.not_false, if_true]
  cases ht : c.tables.find? t with
  | none =>
    have : c.tables.contains t = false := FMap.contains_false.mpr ht
    simp [this, FMap.atKey, FMap.set_set]
  | some s =>
    have : c.tables.contains t = true := FMap.contains_iff.mpr ⟨_, ht⟩
    simp [this, FMap.atKey, ht]

theorem WF.incState {c : CRP} (hc : c.WF) {i : Int} (h : c.assignments.find? i = none) (t : Int) :
    (c.incState i t).WF where
  mem j u := by
    simp only [CRP.incState, FMap.find?_set]
    by_cases hu : u = t
    · subst hu
      simp only [if_true]
      simp only [Option.some.injEq, exists_eq_left', FSet.mem_insert]
      by_cases hj : j = i
      · simp [hj]
      · simp only [hj, if_false, false_or, hc.mem]
        cases c.tables.find? u with
        | none => simp [FMap.keys, FMap.empty, EmptyCollection.emptyCollection]
        | some s => simp
    · simp only [hu, if_false]
      by_cases hj : j = i
      · subst hj
        simp only [if_true, Option.some.injEq]
        rw [← hc.mem, h]
        constructor
        · intro h'; exact absurd h'.symm hu
        · intro h'; cases h'
      · simp only [hj, if_false, hc.mem]
  nonempty u s hs := by
    simp only [CRP.incState, FMap.find?_set] at hs
    split at hs
    · cases hs; exact ⟨i, FSet.mem_insert.mpr (.inl rfl)⟩
    · exact hc.nonempty u s hs
  count := by
    simp only [CRP.incState, FMap.size_set, FMap.erase_of_not_mem h, hc.count]
    push_cast; rfl

theorem mem_table {c : CRP} (hc : c.WF) {i t : Int} (h : c.assignments.find? i = some t) :
    ∃ s, c.tables.find? t = some s ∧ i ∈ s.keys := (hc.mem i t).mp h

/-- the state after `unincorporate` -/
def uninState (c : CRP) (i t : Int) (s : FSet Int) : CRP :=
  { c with
    tables := if (s.erase i).size = 0 then c.tables.erase t else c.tables.set t (s.erase i)
    assignments := c.assignments.erase i
    N := c.N - 1 }

theorem unincorporate_eq {c : CRP} {i t : Int} {s : FSet Int}
    (h : c.assignments.find? i = some t) (hs : c.tables.find? t = some s) :
    c.unincorporate i = .ok (c.uninState i t s) := by
  have hct : c.assignments.contains i = true := FMap.contains_iff.mpr ⟨_, h⟩
  simp only [unincorporate, hct, bind, Except.bind, uninState, assertR, if_true,
    FMap.atKey_of_find h, FMap.atKey_of_find hs]
  split <;> simp_all [FMap.erase_set]

theorem WF.uninState {c : CRP} (hc : c.WF) {i t : Int} {s : FSet Int}
    (h : c.assignments.find? i = some t) (hs : c.tables.find? t = some s) :
    (c.uninState i t s).WF where
  mem j u := by
    simp only [CRP.uninState, FMap.find?_erase]
    by_cases hu : u = t
    · subst hu
      have key : ∀ j, (j ≠ i ∧ c.assignments.find? j = some u) ↔ j ∈ (s.erase i).keys := by
        intro j
        rw [FMap.keys_erase_mem, hc.mem, hs]; simp
      by_cases hz : (s.erase i).size = 0
      · simp only [hz, if_true]
        have he := FMap.eq_empty_of_size hz
        have : ∀ j, j ∉ (s.erase i).keys := by
          intro j; rw [he]; simp [FMap.keys, FMap.empty, EmptyCollection.emptyCollection]
        simp only [FMap.find?_erase_self]
        have := (key j).not.mpr (this j)
        split
        · simp
        · rename_i hji; simp only [not_and] at this; simp [this hji]
      · simp only [hz, if_false, FMap.find?_set_self, Option.some.injEq, exists_eq_left', ← key]
        split
        · simp_all
        · simp_all
    · have hfind : (if (s.erase i).size = 0 then c.tables.erase t
          else c.tables.set t (s.erase i)).find? u = c.tables.find? u := by
        split
        · rw [FMap.find?_erase_ne _ hu]
        · rw [FMap.find?_set_ne _ hu]
      rw [hfind, ← hc.mem]
      split
      · rename_i hji; subst hji; rw [h]; simp; exact fun h => hu h.symm
      · rfl
  nonempty u s' hs' := by
    simp only [CRP.uninState] at hs'
    split at hs'
    · rw [FMap.find?_erase] at hs'
      split at hs'
      · cases hs'
      · exact hc.nonempty u s' hs'
    · rename_i hz
      rw [FMap.find?_set] at hs'
      split at hs'
      · cases hs'
        simp only [FMap.size] at hz
        obtain ⟨e, he⟩ := List.exists_mem_of_length_pos (Nat.pos_of_ne_zero hz)
        exact ⟨e.1, List.mem_map.mpr ⟨e, he, rfl⟩⟩
      · exact hc.nonempty u s' hs'
  count := by
    simp only [CRP.uninState, hc.count]
    have := FMap.size_erase h
    omega

theorem N_pos_of_find {c : CRP} (hc : c.WF) {i t : Int} (h : c.assignments.find? i = some t) :
    0 < c.N := by
  rw [hc.count]; have := FMap.size_erase h; omega

theorem tables_empty_iff {c : CRP} (hc : c.WF) : c.N = 0 ↔ c.tables = ∅ := by
  constructor
  · intro h
    have : c.assignments = ∅ := FMap.eq_empty_of_size (by rw [hc.count] at h; omega)
    apply FMap.ext
    intro t
    cases ht : c.tables.find? t with
    | none => rfl
    | some s =>
      obtain ⟨i, hi⟩ := hc.nonempty t s ht
      have := (hc.mem i t).mpr ⟨s, ht, hi⟩
      simp_all
  · intro h
    by_contra hN
    have : c.assignments ≠ ∅ := by
      intro h'; rw [hc.count, h'] at hN; exact hN rfl
    have hsz : c.assignments.size ≠ 0 := fun h' => this (FMap.eq_empty_of_size h')
    obtain ⟨e, he⟩ := List.exists_mem_of_length_pos (Nat.pos_of_ne_zero hsz)
    have := FMap.mem_entries.mp he
    obtain ⟨s, hs, _⟩ := (hc.mem _ _).mp this
    rw [h] at hs; simp at hs

theorem maxTable_spec {c : CRP} (hc : c.WF) (hN : c.N ≠ 0) :
    c.tables.maxKey? = some c.maxTable := by
  have hne : c.tables ≠ ∅ := fun h => hN ((tables_empty_iff hc).mpr h)
  simp only [maxTable, hN, if_false]
  cases h : c.tables.maxKey? with
  | none => exact absurd (FMap.maxKey?_none.mp h) hne
  | some k => rfl

theorem le_maxTable {c : CRP} (hc : c.WF) (hN : c.N ≠ 0) {t : Int} (ht : t ∈ c.tables.keys) :
    t ≤ c.maxTable := by
  have := (FMap.maxKey?_spec (maxTable_spec hc hN)).2 t ht
  rcases this with h | h
  · exact h.le
  · have : t < c.maxTable := by simpa [Key.lt] using h
    exact this.le

theorem new_not_mem {c : CRP} (hc : c.WF) (hN : c.N ≠ 0) : c.tables.find? (c.maxTable + 1) = none := by
  rw [FMap.find?_none_iff]
  intro h
  have := le_maxTable hc hN h
  omega

end CRP
end Verif
