import Verif.Lemmas.Store
/-! Helper lemmas about the reverse index of a relation. -/
namespace Verif
noncomputable section

/-- the index `m` has an entry for exactly the domains in `doms`, and lists `k` under item `i` of `d` exactly if `P d i k` -/
structure Idx (doms : List String) (P : String → Int → Items → Prop) (m : RevIndex) : Prop where
  dom : ∀ d, m.contains d = true ↔ d ∈ doms
  ne : ∀ d md i s, m.find? d = some md → md.find? i = some s → ∃ k, k ∈ s.keys
  mem : ∀ d md i k, m.find? d = some md → ((∃ s, md.find? i = some s ∧ k ∈ s.keys) ↔ P d i k)

namespace Idx
variable {doms : List String} {P Q : String → Int → Items → Prop} {m m' : RevIndex}

theorem find (h : Idx doms P m) {d : String} (hd : d ∈ doms) : ∃ md, m.find? d = some md :=
  FMap.contains_iff.mp ((h.dom d).mpr hd)

theorem congr (h : Idx doms P m) (hp : ∀ d ∈ doms, ∀ i k, P d i k ↔ Q d i k) : Idx doms Q m where
  dom := h.dom
  ne := h.ne
  mem d md i k hd := by
    rw [h.mem d md i k hd]
    exact hp d ((h.dom d).mp (FMap.contains_iff.mpr ⟨md, hd⟩)) i k

/-- the index is determined by what it lists -/
theorem ext (h : Idx doms P m) (h' : Idx doms P m') : m = m' := by
  apply FMap.ext
  intro d
  cases hd : m.find? d with
  | none =>
    have h1 : ¬ d ∈ doms := fun hm => by
      obtain ⟨_, hf⟩ := FMap.contains_iff.mp ((h.dom d).mpr hm); rw [hd] at hf; cases hf
    cases hd' : m'.find? d with
    | none => rfl
    | some md => exact absurd ((h'.dom d).mp (FMap.contains_iff.mpr ⟨md, hd'⟩)) h1
  | some md =>
    have h1 : d ∈ doms := (h.dom d).mp (FMap.contains_iff.mpr ⟨md, hd⟩)
    obtain ⟨md', hd'⟩ := h'.find h1
    rw [hd']
    congr 1
    have key : ∀ i k, (∃ s, md.find? i = some s ∧ k ∈ s.keys) ↔ (∃ s, md'.find? i = some s ∧ k ∈ s.keys) := by
      intro i k
      rw [h.mem d md i k hd, h'.mem d md' i k hd']
    apply FMap.ext
    intro i
    cases hs : md.find? i with
    | none =>
      cases hs' : md'.find? i with
      | none => rfl
      | some s' =>
        obtain ⟨k, hk⟩ := h'.ne d md' i s' hd' hs'
        obtain ⟨s, h2, _⟩ := (key i k).mpr ⟨s', hs', hk⟩
        rw [hs] at h2; cases h2
    | some s =>
      obtain ⟨k, hk⟩ := h.ne d md i s hd hs
      obtain ⟨s', h2, _⟩ := (key i k).mp ⟨s, hs, hk⟩
      rw [h2]
      congr 1
      apply FSet.ext
      intro k
      have := key i k
      rw [hs, h2] at this
      simpa using this

theorem empty (doms : List String) : Idx doms (fun _ _ _ => False) (doms.foldl (fun m d => m.set d ∅) (∅ : RevIndex)) := by
  suffices H : ∀ (ds : List String) (m : RevIndex) (ds0 : List String), Idx ds0 (fun _ _ _ => False) m →
      Idx (ds.reverse ++ ds0) (fun _ _ _ => False) (ds.foldl (fun m d => m.set d ∅) m) by
    have h0 : Idx [] (fun _ _ _ => False) (∅ : RevIndex) := by
      refine ⟨fun d => ?_, fun d md i s h => ?_, fun d md i k h => ?_⟩
      · simp [FMap.contains]
      · simp at h
      · simp at h
    have := H doms ∅ [] h0
    refine ⟨fun d => ?_, this.ne, this.mem⟩
    rw [this.dom]; simp
  intro ds
  induction ds with
  | nil => intro m ds0 h; exact h
  | cons d ds ih =>
    intro m ds0 h
    rw [List.foldl_cons, List.reverse_cons, List.append_assoc]
    apply ih
    refine ⟨fun d' => ?_, fun d' md i s h1 h2 => ?_, fun d' md i k h1 => ?_⟩
    · have := h.dom d'
      simp only [FMap.contains, FMap.find?_set] at this ⊢
      split
      · rename_i h'; simp [h']
      · rename_i h'; rw [this]; simp [h']
    · rw [FMap.find?_set] at h1
      split at h1
      · cases h1; simp at h2
      · exact h.ne d' md i s h1 h2
    · rw [FMap.find?_set] at h1
      split at h1
      · cases h1; simp
      · exact h.mem d' md i k h1

theorem indexAdd (h : Idx doms P m) {d : String} (hd : d ∈ doms) (i : Int) (items : Items) :
    ∃ m', CleanRel.indexAdd m d i items = .ok m' ∧
      Idx doms (fun d' i' k => P d' i' k ∨ (d' = d ∧ i' = i ∧ k = items)) m' := by
  obtain ⟨md, hmd⟩ := h.find hd
  have hok : CleanRel.indexAdd m d i items =
      .ok (m.set d (md.set i (FSet.insert ((md.find? i).getD ∅) items))) := by
    simp only [CleanRel.indexAdd, bind, Except.bind, FMap.atKey_of_find hmd]
    cases hi : md.find? i with
    | none =>
      have hc : md.contains i = false := FMap.contains_false.mpr hi
      simp [hc, FMap.atKey, FMap.set_set]
    | some s =>
      have hc : md.contains i = true := FMap.contains_iff.mpr ⟨_, hi⟩
      simp [hc, FMap.atKey, hi]
  refine ⟨_, hok, fun d' => ?_, fun d' md' i' s h1 h2 => ?_, fun d' md' i' k h1 => ?_⟩
  · rw [← h.dom d']
    simp only [FMap.contains, FMap.find?_set]
    split
    · rename_i h'; simp [h', hmd]
    · rfl
  · rw [FMap.find?_set] at h1
    split at h1
    · cases h1
      rw [FMap.find?_set] at h2
      split at h2
      · cases h2; exact ⟨items, FSet.mem_insert.mpr (.inl rfl)⟩
      · exact h.ne d md i' s hmd h2
    · exact h.ne d' md' i' s h1 h2
  · rw [FMap.find?_set] at h1
    split at h1
    · rename_i hdd; subst hdd
      cases h1
      rw [FMap.find?_set]
      have := h.mem d' md i' k hmd
      by_cases hii : i' = i
      · subst hii
        simp only [if_true, Option.some.injEq, exists_eq_left', FSet.mem_insert, true_and]
        rw [← this]
        cases md.find? i' with
        | none => simp [FMap.keys, FMap.empty, EmptyCollection.emptyCollection]
        | some s => simp; tauto
      · simp only [hii, if_false, false_and, and_false, or_false]
        exact this
    · rename_i hdd
      rw [h.mem d' md' i' k h1]
      simp [hdd]

theorem cleanLoop (items : Items) {ds : List String} {is : Items} (hl : is.length = ds.length) :
    ∀ {P : String → Int → Items → Prop} {m : RevIndex}, Idx doms P m → (∀ d ∈ ds, d ∈ doms) →
    ∃ m', CleanRel.cleanLoop items ds is m = .ok m' ∧
      Idx doms (fun d i k => P d i k ∧ ¬ (k = items ∧ (d, i) ∈ ds.zip is)) m' := by
  induction ds generalizing is with
  | nil =>
    intro P m h _
    exact ⟨m, rfl, h.congr (by simp)⟩
  | cons d ds ih =>
    intro P m h hds
    cases is with
    | nil => simp at hl
    | cons i is =>
      simp only [List.length_cons, Nat.add_right_cancel_iff] at hl
      obtain ⟨md, hmd⟩ := h.find (hds d (by simp))
      simp only [CleanRel.cleanLoop, bind, Except.bind, FMap.atKey_of_find hmd]
      cases hi : md.find? i with
      | none =>
        obtain ⟨m', h1, h2⟩ := ih hl h (fun d' h' => hds d' (by simp [h']))
        refine ⟨m', h1, h2.congr ?_⟩
        intro d' _ i' k
        have := h.mem d md i k hmd
        rw [hi] at this
        simp only [List.zip_cons_cons, List.mem_cons, Prod.mk.injEq]
        constructor
        · rintro ⟨h3, h4⟩
          refine ⟨h3, ?_⟩
          rintro ⟨hk, ⟨rfl, rfl⟩ | h5⟩
          · obtain ⟨s, hs, _⟩ := this.mpr h3; cases hs
          · exact h4 ⟨hk, h5⟩
        · rintro ⟨h3, h4⟩
          exact ⟨h3, fun ⟨hk, h5⟩ => h4 ⟨hk, .inr h5⟩⟩
      | some s =>
        simp only
        have step : Idx doms (fun d' i' k => P d' i' k ∧ ¬ (k = items ∧ d' = d ∧ i' = i))
            (m.set d (if (s.erase items).size = 0 then md.erase i else md.set i (s.erase items))) := by
          have hfind : ∀ i', (if (s.erase items).size = 0 then md.erase i else md.set i (s.erase items)).find? i' =
              if i' = i then (if (s.erase items).size = 0 then none else some (s.erase items)) else md.find? i' := by
            intro i'
            split
            · rw [FMap.find?_erase]
            · rw [FMap.find?_set]
          refine ⟨fun d' => ?_, fun d' md' i' s' h1 h2 => ?_, fun d' md' i' k h1 => ?_⟩
          · rw [← h.dom d']
            simp only [FMap.contains, FMap.find?_set]
            split
            · rename_i h'; simp [h', hmd]
            · rfl
          · rw [FMap.find?_set] at h1
            split at h1
            · cases h1
              rw [hfind] at h2
              split at h2
              · split at h2
                · cases h2
                · rename_i hz
                  cases h2
                  simp only [FMap.size] at hz
                  obtain ⟨e, he⟩ := List.exists_mem_of_length_pos (Nat.pos_of_ne_zero hz)
                  exact ⟨e.1, List.mem_map.mpr ⟨e, he, rfl⟩⟩
              · exact h.ne d md i' s' hmd h2
            · exact h.ne d' md' i' s' h1 h2
          · rw [FMap.find?_set] at h1
            split at h1
            · rename_i hdd; subst hdd
              cases h1
              rw [hfind, ← h.mem d' md i' k hmd]
              by_cases hii : i' = i
              · subst hii
                simp only [if_true, hi, Option.some.injEq, exists_eq_left', and_self, and_true]
                have hk : k ∈ (s.erase items).keys ↔ k ∈ s.keys ∧ ¬ k = items := by
                  rw [FMap.keys_erase_mem]; tauto
                by_cases hz : (s.erase items).size = 0
                · simp only [hz, if_true]
                  rw [← hk, FMap.eq_empty_of_size hz]
                  simp [FMap.keys, FMap.empty, EmptyCollection.emptyCollection]
                · simp only [hz, if_false, Option.some.injEq, exists_eq_left']
                  exact hk
              · simp [hii]
            · rename_i hdd
              rw [h.mem d' md' i' k h1]
              simp [hdd]
        obtain ⟨m', h1, h2⟩ := ih hl step (fun d' h' => hds d' (by simp [h']))
        refine ⟨m', h1, h2.congr ?_⟩
        intro d' _ i' k
        simp only [List.zip_cons_cons, List.mem_cons, Prod.mk.injEq]
        tauto

end Idx

theorem incLoop_spec (items : Items) {doms ds : List String} {is : Items} (hl : is.length = ds.length) :
    ∀ {P : String → Int → Items → Prop} {m : RevIndex} {σ : Doms} (t : Tape), StoreWF σ → Idx doms P m →
      (∀ d ∈ ds, d ∈ doms) → (∀ d ∈ ds, σ.contains d = true) →
    ∃ σ' m' t', CleanRel.incLoop items ds is σ m t = .ok (σ', m', t') ∧ StoreWF σ' ∧
      Grows (fun d i => (d, i) ∈ ds.zip is) σ σ' ∧
      Idx doms (fun d i k => P d i k ∨ ((d, i) ∈ ds.zip is ∧ k = items)) m' := by
  induction ds generalizing is with
  | nil =>
    intro P m σ t hσ h _ _
    exact ⟨σ, m, t, rfl, hσ, (Grows.refl σ).congr (by simp), h.congr (by simp)⟩
  | cons d ds ih =>
    intro P m σ t hσ h hds hdσ
    cases is with
    | nil => simp at hl
    | cons i is =>
      simp only [List.length_cons, Nat.add_right_cancel_iff] at hl
      obtain ⟨dom, hd⟩ := FMap.contains_iff.mp (hdσ d (by simp))
      obtain ⟨dom', t1, h1, h2, h3⟩ := grows_incorporate hσ hd i t
      obtain ⟨m1, h4, h5⟩ := h.indexAdd (hds d (by simp)) i items
      obtain ⟨σ', m', t', h6, h7, h8, h9⟩ := ih hl t1 h2 h5 (fun d' h' => hds d' (by simp [h']))
        (fun d' h' => by rw [h3.doms]; exact hdσ d' (by simp [h']))
      refine ⟨σ', m', t', ?_, h7, (h3.trans h8).congr ?_, h9.congr ?_⟩
      · simp only [CleanRel.incLoop, bind, Except.bind, Doms.get_eq hd, h1, h4]
        exact h6
      · intro d' i'; simp [List.zip_cons_cons]
      · intro d' _ i' k
        simp only [List.zip_cons_cons, List.mem_cons, Prod.mk.injEq]
        tauto

end
end Verif
