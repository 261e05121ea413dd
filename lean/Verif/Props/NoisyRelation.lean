import Verif.Lemmas.NoisyRelation
import Verif.Lemmas.Emission
import Verif.Props.Relation
/-!
C23, C24, C58: noisy relations.  All theorems hold for every emission that stores a multiset of supported pairs (`Lawful`, shown
for the emissions of the repository in Lemmas/Emission*.lean), and for every sequence of random draws and iteration orders.
-/
namespace Verif
noncomputable section
open Spec
namespace NoisyRel
variable {V : Type} {E : DistOps (V × V)} {supp : V × V → Prop}

/-! ### C23 -/

/-- **C23.** In every reachable noisy relation each observation is filed under the prefix of its tuple, its base value is the
base relation's current value of that prefix, and the emission data is the pair of base value and noisy value. -/
theorem C23_linked (L : Lawful E supp) {σ : Doms} {b : BaseView V} {r : NoisyRel E} (h : Reach supp σ b r) : Linked b r :=
  (h.inv L).2.linked

/-- **C23.** The emission clusters hold exactly these pairs, and the emission's index is exact. -/
theorem C23_emission_exact (L : Lawful E supp) {σ : Doms} {b : BaseView V} {r : NoisyRel E} (h : Reach supp σ b r) :
    CleanRel.ClustersExact supp σ r.emission ∧ CleanRel.IndexExact r.emission :=
  ⟨CleanRel.C19_clusters_exact L (h.both L).1, CleanRel.C20_index_exact L (h.both L).1⟩

/-- **C23.** `incorporate` accepts every new tuple of the right length whose base value is known, stores the value, and changes no
other observation and no entity's cluster. -/
theorem C23_incorporate (L : Lawful E supp) {σ : Doms} {b : BaseView V} {r : NoisyRel E} (h : Reach supp σ b r) {items : Items}
    (hl : items.length = r.doms.length) (hn : r.data.find? items = none) {bv v : V}
    (hb : b.data.find? (items.take b.arity) = some bv) (hv : supp (bv, v)) (t : Tape) :
    ∃ σ' r' t', incorporate σ b r items v t = .ok (σ', r', t') ∧ Reach supp σ' b r' ∧ r'.doms = r.doms ∧
      (∀ k, r'.data.find? k = if k = items then some v else r.data.find? k) ∧
      (∀ k, r'.emission.data.find? k = if k = items then some (bv, v) else r.emission.data.find? k) ∧
      ∀ d i z, seatOf σ d i = some z → seatOf σ' d i = some z := by
  obtain ⟨hσ, hi⟩ := h.inv L
  obtain ⟨σ', r', t', em', h1, _, h3, _, h5, h6⟩ := incorporate_spec L hσ hi hl hn hb hv t
  have hem : ∀ k, em'.data.find? k = if k = items then some (bv, v) else r.emission.data.find? k := by
    have hne : r.emission.data.find? items = none := by
      have := hi.link.data items
      rw [hn] at this
      cases he : r.emission.data.find? items with
      | none => rfl
      | some p => rw [he] at this; cases this
    have hl' : items.length = r.emission.doms.length := by rw [hi.link.doms]; exact hl
    obtain ⟨s2, r2, t2, k1, _, _, k4, _⟩ := CleanRel.C19_incorporate L (h.both L).1 hl' hne hv t
    rw [h5] at k1
    cases k1
    exact k4
  refine ⟨σ', r', t', h1, h.incorporate (fun bv' hb' => ?_) h1, by rw [h6], fun k => by rw [h6]; exact FMap.find?_set .., ?_, h3.seat⟩
  · rw [hb] at hb'; cases hb'; exact hv
  · intro k; rw [h6]; exact hem k

/-- **C23.** `incorporate` fails on every other tuple: wrong length, already observed, or no base value. -/
theorem C23_incorporate_rejects (L : Lawful E supp) {σ : Doms} {b : BaseView V} {r : NoisyRel E} (h : Reach supp σ b r) {items : Items}
    (v : V) (t : Tape)
    (hbad : items.length ≠ r.doms.length ∨ r.data.contains items = true ∨ b.data.find? (items.take b.arity) = none) :
    ∃ e, incorporate σ b r items v t = .error e := by
  obtain ⟨_, hi⟩ := h.inv L
  cases hc : incorporate σ b r items v t with
  | error e => exact ⟨e, rfl⟩
  | ok x =>
    obtain ⟨σ', r', t'⟩ := x
    obtain ⟨h1, h2, bv, h3⟩ := incorporate_pre hi.link.doms hi.link.data hc
    rcases hbad with hb | hb | hb
    · exact absurd h1 hb
    · rw [FMap.contains_false.mpr h2] at hb; cases hb
    · rw [h3] at hb; cases hb

/-- **C23.** `unincorporate` accepts exactly the stored tuples and removes only that observation. -/
theorem C23_unincorporate (L : Lawful E supp) {σ : Doms} {b : BaseView V} {r : NoisyRel E} (h : Reach supp σ b r) (items : Items) :
    (r.data.contains items = false → unincorporate σ b r items = .error .assert) ∧
    (r.data.contains items = true → ∃ r', unincorporate σ b r items = .ok r' ∧ Reach supp σ b r' ∧ r'.doms = r.doms ∧
      ∀ k, r'.data.find? k = if k = items then none else r.data.find? k) := by
  refine ⟨fun hc => by simp [unincorporate, bind, Except.bind, assertR, hc], fun hc => ?_⟩
  obtain ⟨v, hv⟩ := FMap.contains_iff.mp hc
  obtain ⟨hσ, hi⟩ := h.inv L
  obtain ⟨r', em', h1, _, _, _, h5, h6⟩ := unincorporate_spec L hσ hi hv
  exact ⟨r', h1, h.unincorporate h1, h5, fun k => by rw [h6, FMap.find?_erase]⟩

/-- **C21 for noisy relations.** Incorporating a new observation and unincorporating it gives back the same relation. -/
theorem C23_unincorporate_undoes_incorporate (L : Lawful E supp) (hrt : E.RoundTrip supp) {σ : Doms} {b : BaseView V} {r : NoisyRel E}
    (h : Reach supp σ b r) {items : Items} (hl : items.length = r.doms.length) (hn : r.data.contains items = false) {bv v : V}
    (hb : b.data.find? (items.take b.arity) = some bv) (hv : supp (bv, v)) (t : Tape) :
    ∃ σ' r' t', incorporate σ b r items v t = .ok (σ', r', t') ∧ unincorporate σ' b r' items = .ok r := by
  obtain ⟨hσ, hi⟩ := h.inv L
  have hn' := FMap.contains_false.mp hn
  obtain ⟨σ', r', t', em', h1, h2, _, h4, h5, h6⟩ := incorporate_spec L hσ hi hl hn' hb hv t
  obtain ⟨r2, em2, g1, g2, g3, g4, g5, g6⟩ := unincorporate_spec L h2 h4 (items := items) (v := v) (by rw [h6]; simp)
  refine ⟨σ', r', t', h1, ?_⟩
  have hl' : items.length = r.emission.doms.length := by rw [hi.link.doms]; exact hl
  obtain ⟨s3, e3, t3, k1, k2⟩ := CleanRel.C21_unincorporate_undoes_incorporate L hrt (h.both L).1 hl'
    (by rw [hi.link.contains]; exact hn) hv t
  rw [h5] at k1
  cases k1
  have he : r'.emission = em' := by rw [h6]
  rw [he, k2] at g3
  cases g3
  have hdata : r2.data = r.data := by rw [g6, h6]; simp only [FMap.erase_set]; exact FMap.erase_of_not_mem hn'
  have hdoms : r2.doms = r.doms := by rw [g5, h6]
  have hmap : r2.baseToNoisy = r.baseToNoisy := by
    have := g2.link.map
    rw [hdata] at this
    exact this.ext hi.link.map
  rw [g1]
  congr 1
  cases r2; cases r
  simp_all

/-- **C23 needs its side condition.** If the base relation's value of an observed prefix is changed (as `update_value` on the base
relation does), the noisy relation's pairs are stale: they keep the old base value. -/
theorem C23_stale_base (L : Lawful E supp) {σ : Doms} {b : BaseView V} {r : NoisyRel E} (h : Reach supp σ b r) {items : Items}
    {bv bv' : V} (hin : r.data.contains items = true) (hb : b.data.find? (items.take b.arity) = some bv) (hne : bv' ≠ bv) :
    ¬ Linked { b with data := b.data.set (items.take b.arity) bv' } r := by
  intro hl
  obtain ⟨v, hv⟩ := FMap.contains_iff.mp hin
  have hg : r.getValue items = .ok v := by simp [getValue, hin, bind, Except.bind, FMap.atKey_of_find hv]
  obtain ⟨bv1, h1, _, h2⟩ := hl.1 items v hg
  obtain ⟨bv2, h3, _, h4⟩ := (C23_linked L h).1 items v hg
  dsimp only at h1
  rw [FMap.find?_set_self] at h1
  rw [hb] at h3
  rw [h2] at h4
  cases h1; cases h3; cases h4
  exact hne rfl

/-! ### C58 -/

/-- **C58, noisy relations.** `sample_and_incorporate` does exactly what `incorporate` of the value it returns does. -/
theorem C58_noisy_sample_stored {E : EmisOps V} {σ σ' : Doms} {b : BaseView V} {r r' : NoisyRel E.toDistOps} {items : Items} {x : V}
    {t t' : Tape} (h : sampleAndIncorporate σ b r items t = .ok (x, σ', r', t')) :
    (∃ t1, incorporate σ b r items x t = .ok (σ', r', t1)) ∧ r'.getValue items = .ok x := by
  obtain ⟨t1, h1⟩ := sampleAndIncorporate_eq h
  refine ⟨⟨t1, h1⟩, ?_⟩
  unfold incorporate at h1
  simp only [bind, Except.bind] at h1
  split at h1
  · cases h1
  · split at h1
    · cases h1
    · split at h1
      · cases h1
      · cases h1
        simp [getValue, FMap.contains, bind, Except.bind, FMap.atKey_of_find]

/-! ### C24 -/

/-- **C24 is false for noisy relations:** `update_value` stores the emission pair in the wrong order, (new noisy value, base value),
so that the relation is no longer linked whenever the new value differs from the base value. -/
theorem C24_noisy_update_swaps (L : Lawful E supp) {σ : Doms} {b : BaseView V} {r : NoisyRel E} (h : Reach supp σ b r) {items : Items}
    (hin : r.data.contains items = true) {bv v : V} (hb : b.data.find? (items.take b.arity) = some bv) (hv : supp (v, bv)) :
    ∃ r', updateValue σ b r items v = .ok r' ∧ r'.getValue items = .ok v ∧ r'.emission.getValue items = .ok (v, bv) ∧
      (v ≠ bv → ¬ Linked b r') := by
  obtain ⟨hσ, hi⟩ := h.inv L
  obtain ⟨v0, hv0⟩ := FMap.contains_iff.mp hin
  obtain ⟨bv1, hp, hb1⟩ := hi.link.find hv0
  obtain ⟨z, c, c1, c2, _, _, _, _, h5, _⟩ := CleanRel.updateValue_spec L hσ hi.em hp hv
  have ha : b.arity ≤ items.length := by rw [hi.length hin]; exact hi.link.arity
  obtain ⟨em2, hem2⟩ : ∃ em2 : CleanRel E, em2 = CleanRel.mk r.emission.doms (r.emission.clusters.set z c2)
      (r.emission.data.set items (v, bv)) r.emission.dataR := ⟨_, rfl⟩
  obtain ⟨r2, hr2⟩ : ∃ r2 : NoisyRel E, r2 = { r with emission := em2, data := r.data.set items v } := ⟨_, rfl⟩
  have hup : updateValue σ b r items v = .ok r2 := by
    simp only [updateValue, hin, bind, Except.bind, assertR, if_true, baseValue_eq ha hb, h5, hr2, hem2]
  have e1 : r2.getValue items = .ok v := by
    simp [hr2, getValue, FMap.contains, bind, Except.bind, FMap.atKey_of_find]
  have e2 : r2.emission.getValue items = .ok (v, bv) := by
    simp [hr2, hem2, CleanRel.getValue, FMap.contains, bind, Except.bind, FMap.atKey_of_find]
  refine ⟨_, hup, e1, e2, fun hne hl => ?_⟩
  obtain ⟨bv2, k1, _, k2⟩ := hl.1 items v e1
  rw [e2] at k2
  rw [hb] at k1
  cases k1
  injection k2 with k2
  injection k2 with k2 k3
  exact hne k2

/-- **C24 for noisy relations, when the new value is the base value and another observation shares the cluster:** only then do the
pairs agree.  `update_value` gives exactly the relation that unincorporating the observation and incorporating it with the new value
gives.  What is missing: a new value that differs from the base value, for which the property is false (`C24_noisy_update_swaps`),
and an observation that is alone in its cluster (as for clean relations, `CleanRel.C24_clean_alone_differs`). -/
theorem C24_noisy_update_partial (L : Lawful E supp) {σ : Doms} {b : BaseView V} {r : NoisyRel E} (h : Reach supp σ b r) {items : Items}
    (hin : r.data.contains items = true) {v : V} (hb : b.data.find? (items.take b.arity) = some v) (hv : supp (v, v))
    (hshare : ∃ k, k ≠ items ∧ r.data.contains k = true ∧ tupleSeat σ r.doms k = tupleSeat σ r.doms items) (t : Tape) :
    ∃ r' r1, updateValue σ b r items v = .ok r' ∧ unincorporate σ b r items = .ok r1 ∧
      incorporate σ b r1 items v t = .ok (σ, r', t) := by
  obtain ⟨hσ, hi⟩ := h.inv L
  obtain ⟨v0, hv0⟩ := FMap.contains_iff.mp hin
  have ha : b.arity ≤ items.length := by rw [hi.length hin]; exact hi.link.arity
  obtain ⟨em', em1, g1, g2, g3⟩ := CleanRel.C24_clean_update_partial L (h.both L).1 (items := items)
    (by rw [hi.link.contains]; exact hin) hv (by
      obtain ⟨k, k1, k2, k3⟩ := hshare
      exact ⟨k, k1, by rw [hi.link.contains]; exact k2, by rw [hi.link.doms]; exact k3⟩) t
  obtain ⟨r1, em2, k1, k2, k3, k4, k5, k6⟩ := unincorporate_spec L hσ hi hv0
  rw [g2] at k3
  cases k3
  refine ⟨{ r with emission := em', data := r.data.set items v }, r1, ?_, k1, ?_⟩
  · simp only [updateValue, hin, bind, Except.bind, assertR, if_true, baseValue_eq ha hb, g1]
  · obtain ⟨s2, r2, t2, em3, m1, m2, m3, m4, m5, m6⟩ := incorporate_spec L hσ k2 (items := items)
      (by rw [k5]; exact hi.length hin) (by rw [k6]; simp) hb hv t
    rw [k4, g3] at m5
    cases m5
    rw [m1]
    have hd : r2.data = r.data.set items v := by rw [m6]; simp only [k6]; rw [FMap.set_erase]
    have hm : r2.baseToNoisy = r.baseToNoisy := by
      have hmm := m4.link.map
      rw [hd] at hmm
      refine (hmm.congr ?_).ext hi.link.map
      intro bi k
      have : (r.data.set items v).contains k = r.data.contains k := by
        by_cases hk : k = items
        · subst hk; rw [hin]; simp [FMap.contains]
        · simp [FMap.contains, FMap.find?_set_ne _ hk]
      rw [this]
    have he : r2.emission = em' := by rw [m6]
    have hdo : r2.doms = r.doms := by rw [m6]; exact k5
    congr 3
    cases r2; cases r
    simp_all

/-! ### The hypotheses are met by non-trivial relations -/

/-- sometimes-bitflip noise -/
abbrev F := (Sometimes BitFlip).ops

/-- a base relation of one domain: 1 ↦ true, 2 ↦ false -/
def base : BaseView Bool := { arity := 1, data := ((∅ : FMap Items Bool).set [1] true).set [2] false }

abbrev Any : Bool × Bool → Prop := fun x => x.1 = x.2 ∨ x.1 ≠ x.2

theorem any (x : Bool × Bool) : Any x := em _

/-- A reachable noisy relation with the observations (1,1) ↦ false and (1,2) ↦ true, both with base value true and in the same
emission cluster. -/
theorem noisyWitness : ∃ r : NoisyRel F.toDistOps, Reach Any CleanRel.twoStore base r ∧ r.doms = ["D", "D"] ∧
    r.getValue [1, 1] = .ok false ∧ r.getValue [1, 2] = .ok true ∧ r.data.contains [1, 1] = true ∧ r.data.contains [1, 2] = true ∧
    r.data.contains [2, 5] = false := by
  have h0 : Reach (E := F.toDistOps) Any CleanRel.twoStore base
      { doms := ["D", "D"], emission := { doms := ["D", "D"], dataR := (∅ : RevIndex).set "D" ∅ } } :=
    .fresh (doms := ["D", "D"]) CleanRel.twoStore_ok (by intro d hd; simp at hd; subst hd; rfl) (by simp [base]) rfl
  have h1 := Reach.incorporate (items := [1, 1]) (v := false) (t := []) h0 (fun bv _ => any _) rfl
  have h2 := Reach.incorporate (items := [1, 2]) (v := true) (t := []) h1 (fun bv _ => any _) rfl
  exact ⟨_, h2, rfl, rfl, rfl, rfl, rfl, rfl⟩

/-- C23 and its failure after a change of the base value -/
example : ∃ r : NoisyRel F.toDistOps, Linked base r ∧ r.getValue [1, 1] = .ok false ∧
    ¬ Linked { base with data := base.data.set [1] false } r := by
  obtain ⟨r, h, _, h2, _, h4, _⟩ := noisyWitness
  exact ⟨r, C23_linked (Sometimes.lawful BitFlip.lawful) h, h2,
    C23_stale_base (Sometimes.lawful BitFlip.lawful) h (items := [1, 1]) (bv := true) h4 rfl (by decide)⟩

/-- C23: a third observation, whose base value is false, is accepted, and removing it restores the relation; one without base value
is rejected -/
example : ∃ r : NoisyRel F.toDistOps, (∃ σ' r' t', incorporate CleanRel.twoStore base r [2, 5] true [] = .ok (σ', r', t') ∧
      unincorporate σ' base r' [2, 5] = .ok r) ∧ ∃ e, incorporate CleanRel.twoStore base r [3, 1] true [] = .error e := by
  obtain ⟨r, h, h1, _, _, _, _, hd⟩ := noisyWitness
  exact ⟨r, C23_unincorporate_undoes_incorporate (Sometimes.lawful BitFlip.lawful) (Sometimes.exact BitFlip.exact).roundTrip h
    (by rw [h1]; rfl) hd (bv := false) rfl (any _) _,
    C23_incorporate_rejects (Sometimes.lawful BitFlip.lawful) h _ _ (.inr (.inr rfl))⟩

/-- C24: changing the value of (1,1) to false, which it has already, swaps its pair to (false, true), and breaks the link -/
example : ∃ r r' : NoisyRel F.toDistOps, Linked base r ∧ updateValue CleanRel.twoStore base r [1, 1] false = .ok r' ∧
    r.emission.getValue [1, 1] = .ok (true, false) ∧ r'.emission.getValue [1, 1] = .ok (false, true) ∧ ¬ Linked base r' := by
  obtain ⟨r, h, _, h2, _, h4, _⟩ := noisyWitness
  obtain ⟨r', k1, k2, k3, k4⟩ := C24_noisy_update_swaps (Sometimes.lawful BitFlip.lawful) h (items := [1, 1]) h4 (bv := true) (v := false)
    rfl (any _)
  have hl := C23_linked (Sometimes.lawful BitFlip.lawful) h
  obtain ⟨bv, m1, _, m2⟩ := hl.1 _ _ h2
  have : bv = true := by
    have h5 : base.data.find? (List.take base.arity [1, 1]) = some true := rfl
    rw [h5] at m1; cases m1; rfl
  subst this
  exact ⟨r, r', hl, k1, m2, k3, k4 (by decide)⟩

/-- C24: the observation (1,1) can be updated to the base value true, and shares its cluster with (1,2) -/
example : ∃ r r' r1 : NoisyRel F.toDistOps, updateValue CleanRel.twoStore base r [1, 1] true = .ok r' ∧
    unincorporate CleanRel.twoStore base r [1, 1] = .ok r1 ∧ incorporate CleanRel.twoStore base r1 [1, 1] true [] = .ok (CleanRel.twoStore, r', []) := by
  obtain ⟨r, h, h1, _, _, h4, h5, _⟩ := noisyWitness
  obtain ⟨r', r1, h6⟩ := C24_noisy_update_partial (Sometimes.lawful BitFlip.lawful) h (items := [1, 1]) h4 (v := true) rfl (any _)
    ⟨[1, 2], by decide, h5, by rw [h1]; rfl⟩ []
  exact ⟨r, r', r1, h6⟩

end NoisyRel
end
end Verif
