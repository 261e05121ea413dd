import Verif.Lemmas.Domain
import Verif.Props.CRP
/-! Property theorems C06 (Domain). -/
namespace Verif
open Spec

/-- States a program can reach through the methods of `Domain`, whatever the random draws (tapes). -/
inductive Domain.Reachable : Domain → Prop
  | fresh (name : String) : Domain.Reachable { name := name }
  | incorporate {d d' : Domain} {i table : Int} {t t' : Tape} : Domain.Reachable d →
      d.incorporate i t table = .ok (d', t') → Domain.Reachable d'
  | unincorporate {d d' : Domain} {i : Int} : Domain.Reachable d → d.unincorporate i = .ok d' →
      Domain.Reachable d'
  | setGibbs {d d' : Domain} {i table : Int} : Domain.Reachable d →
      d.setClusterAssignmentGibbs i table = .ok d' → Domain.Reachable d'
  | transitionAlpha {d : Domain} (t : Tape) : Domain.Reachable d →
      Domain.Reachable { d with crp := (d.crp.transitionAlpha t).1 }

theorem Domain.Reachable.wf {d : Domain} (h : d.Reachable) : d.WF := by
  induction h with
  | fresh name => exact ⟨CRP.WF.init 1, fun i => by simp [FMap.keys, FMap.empty, EmptyCollection.emptyCollection]⟩
  | @incorporate d d' i table t t' _ hc ih =>
    cases hi : d.items.contains i with
    | true =>
      simp only [Domain.incorporate, hi, if_true, assertR, bind, Except.bind] at hc
      split at hc
      · cases hc
      · cases hc; exact ih
    | false => rw [Domain.incorporate_new ih hi] at hc; cases hc; exact ih.incState hi _
  | @unincorporate d d' i _ hc ih =>
    cases hi : d.items.contains i with
    | false => rw [Domain.unincorporate_absent hi] at hc; cases hc
    | true =>
      obtain ⟨tb, s, _, _, h1, h2⟩ := Domain.unincorporate_eq ih hi
      rw [h1] at hc; cases hc; exact h2
  | @setGibbs d d' i table _ hc ih =>
    cases hi : d.crp.assignments.find? i with
    | none =>
      have : d.items.contains i = false := ih.not_mem.mpr hi
      simp [Domain.setClusterAssignmentGibbs, this, bind, Except.bind] at hc
    | some cur =>
      have hm := ih.mem.mpr ⟨cur, hi⟩
      by_cases hne : cur = table
      · simp [Domain.setClusterAssignmentGibbs, hm, bind, Except.bind, FMap.atKey_of_find hi, hne] at hc
      · obtain ⟨d1, h1, h2, _⟩ := Domain.setGibbs_eq ih hi hne
        rw [h1] at hc; cases hc; exact h2
  | @transitionAlpha d t _ ih =>
    have : ((d.crp.transitionAlpha t).1).WF ∧ (d.crp.transitionAlpha t).1.assignments = d.crp.assignments := by
      unfold CRP.transitionAlpha
      split
      · exact ⟨ih.crp, rfl⟩
      · exact ⟨⟨ih.crp.mem, ih.crp.nonempty, ih.crp.count⟩, rfl⟩
    exact ⟨this.1, fun i => by dsimp only; rw [this.2]; exact ih.items i⟩

/-- **C06.** In every reachable domain an item belongs to the domain exactly when it has a cluster. -/
theorem C06_items_are_customers {d : Domain} (h : d.Reachable) (i : Int) :
    d.items.contains i = true ↔ ∃ t, d.crp.seating i = some t := h.wf.mem

/-- **C06.** Incorporating an item never fails and never draws for a present item: a present item is left alone (nothing
changes, no draw is consumed), an absent item is put, for every sequence of draws, into one of the clusters the CRP
offers, and nothing else changes. -/
theorem C06_incorporate {d : Domain} (h : d.Reachable) (i : Int) (t : Tape) :
    (d.items.contains i = true → d.incorporate i t = .ok (d, t)) ∧
    (d.items.contains i = false → ∃ d' t' tb, d.incorporate i t = .ok (d', t') ∧
        tb ∈ d.crp.tablesWeights.keys ∧
        (∀ j, d'.crp.seating j = if j = i then some tb else d.crp.seating j) ∧
        (∀ j, d'.items.contains j = true ↔ (j = i ∨ d.items.contains j = true)) ∧
        d'.name = d.name ∧ d'.crp.alpha = d.crp.alpha) := by
  refine ⟨fun hi => Domain.incorporate_present hi t, fun hi => ?_⟩
  have hwf := h.wf
  refine ⟨_, _, (d.crp.sample t).1, Domain.incorporate_new hwf hi t (-1), CRP.sample_mem _ _, ?_, ?_, rfl, rfl⟩
  · intro j
    simp [CRP.seating, Domain.incState, CRP.incState, FMap.find?_set, Domain.chosenTable]
  · intro j
    rw [FMap.contains_iff_mem, FMap.contains_iff_mem]
    simp only [Domain.incState, FSet.mem_insert]

/-- **C06.** Removing an item succeeds exactly when it is present, and removes only that item. -/
theorem C06_unincorporate {d : Domain} (h : d.Reachable) (i : Int) :
    (d.items.contains i = false → d.unincorporate i = .error .assert) ∧
    (d.items.contains i = true → ∃ d', d.unincorporate i = .ok d' ∧
        (∀ j, d'.crp.seating j = if j = i then none else d.crp.seating j) ∧
        (∀ j, d'.items.contains j = true ↔ (j ≠ i ∧ d.items.contains j = true))) := by
  refine ⟨Domain.unincorporate_absent, fun hi => ?_⟩
  obtain ⟨tb, s, _, _, h1, _⟩ := Domain.unincorporate_eq h.wf hi
  refine ⟨_, h1, ?_, ?_⟩
  · intro j; simp [CRP.seating, CRP.uninState, FMap.find?_erase]
  · intro j
    rw [FMap.contains_iff_mem, FMap.contains_iff_mem]
    simp only [FMap.keys_erase_mem]

/-- **C06.** Re-assigning a present item to a different cluster succeeds and changes that item's cluster only. -/
theorem C06_set_cluster {d : Domain} (h : d.Reachable) {i cur table : Int}
    (hi : d.crp.seating i = some cur) :
    (cur = table → d.setClusterAssignmentGibbs i table = .error .assert) ∧
    (cur ≠ table → ∃ d', d.setClusterAssignmentGibbs i table = .ok d' ∧
        (∀ j, d'.crp.seating j = if j = i then some table else d.crp.seating j) ∧ d'.items = d.items) := by
  have hm := h.wf.mem.mpr ⟨cur, hi⟩
  constructor
  · intro hne
    have hi' : d.crp.assignments.find? i = some cur := hi
    simp [Domain.setClusterAssignmentGibbs, hm, bind, Except.bind, FMap.atKey_of_find hi', hne]
  · intro hne
    obtain ⟨d1, h1, _, _, h4, _, h6⟩ := Domain.setGibbs_eq h.wf hi hne
    exact ⟨d1, h1, fun j => by simp [CRP.seating, h6, FMap.find?_set], h4⟩

/-- a reachable domain with two items in one cluster and one item in another -/
example : ∃ d : Domain, d.Reachable ∧ d.crp.seating 1 = some 0 ∧ d.crp.seating 2 = some 0 ∧
    d.crp.seating 3 = some 5 ∧ d.items.contains 4 = false := by
  have h0 : (Domain.Reachable { name := "D" }) := .fresh "D"
  have h1 := Domain.Reachable.incorporate h0 (Domain.incorporate_new h0.wf (i := 1) rfl [] 0)
  have h2 := Domain.Reachable.incorporate h1 (Domain.incorporate_new h1.wf (i := 2) rfl [] 0)
  have h3 := Domain.Reachable.incorporate h2 (Domain.incorporate_new h2.wf (i := 3) rfl [] 5)
  exact ⟨_, h3, rfl, rfl, rfl, rfl⟩

end Verif
