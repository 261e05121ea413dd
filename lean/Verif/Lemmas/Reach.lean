import Verif.Lemmas.GibbsScore
import Verif.Lemmas.DistMore
/-! Helper lemmas: reachable relations satisfy the invariant; empty clusters score zero. -/
namespace Verif
noncomputable section

theorem Domain.WF.transitionAlpha {dom : Domain} (h : dom.WF) (t : Tape) :
    Domain.WF { dom with crp := (dom.crp.transitionAlpha t).1 } ∧
      (dom.crp.transitionAlpha t).1.assignments = dom.crp.assignments := by
  have : ((dom.crp.transitionAlpha t).1).WF ∧ (dom.crp.transitionAlpha t).1.assignments = dom.crp.assignments := by
    unfold CRP.transitionAlpha
    split
    · exact ⟨h.crp, rfl⟩
    · exact ⟨⟨h.crp.mem, h.crp.nonempty, h.crp.count⟩, rfl⟩
  exact ⟨⟨this.1, fun i => by dsimp only; rw [this.2]; exact h.items i⟩, this.2⟩

namespace CleanRel
variable {V : Type} {D : DistOps V} {supp : V → Prop}

theorem contains_set_present {σ : Doms} {d : String} {dom dom' : Domain} (h : σ.find? d = some dom) (d' : String) :
    (σ.set d dom').contains d' = σ.contains d' := by
  simp only [FMap.contains, FMap.find?_set]
  split
  · rename_i hd; subst hd; simp [h]
  · rfl

theorem Reach.inv (L : Lawful D supp) {σ : Doms} {r : CleanRel D} (h : Reach supp σ r) : StoreWF σ ∧ Inv supp σ r := by
  induction h with
  | @fresh σ doms r hσ hd h =>
    refine ⟨fun d dom hdom => ?_, inv_fresh hd h⟩
    obtain ⟨h1, h2⟩ := hσ d dom hdom
    refine ⟨h1.wf, fun i => ?_⟩
    rw [← FMap.contains_iff_mem, h2 i, FMap.mem_keys]
    unfold CRP.seating
    cases dom.crp.assignments.find? i <;> simp
  | @incorporate σ σ' r r' items v t t' _ hv hc ih =>
    obtain ⟨h1, h2⟩ := incorporate_pre hc
    obtain ⟨σ1, r1, t1, h3, h4, _, h5, _⟩ := incorporate_spec L ih.1 ih.2 h1 h2 hv t
    rw [hc] at h3
    cases h3
    exact ⟨h4, h5⟩
  | @unincorporate σ r r' items _ hc ih =>
    obtain ⟨v, hv⟩ := unincorporate_pre hc
    obtain ⟨r1, h1, h2, _⟩ := unincorporate_spec L ih.1 ih.2 hv
    rw [hc] at h1
    cases h1
    exact ⟨ih.1, h2⟩
  | @move σ dom dom' r r' d i table t t' _ hd hm hc hn hs ih =>
    obtain ⟨hσ, hi⟩ := ih
    cases hcur : dom.crp.assignments.find? i with
    | none =>
      have : dom.items.contains i = false := (hσ d dom hd).not_mem.mpr hcur
      simp [Domain.setClusterAssignmentGibbs, this, bind, Except.bind] at hs
    | some cur =>
      have hne : table ≠ cur := by
        rintro rfl
        have hmm := (hσ d dom hd).mem.mpr ⟨_, hcur⟩
        simp [Domain.setClusterAssignmentGibbs, hmm, bind, Except.bind, FMap.atKey_of_find hcur] at hs
      obtain ⟨dom1, h1, h2, h3, h4, _⟩ := exists_moved hσ hd hcur hne
      rw [hs] at h1
      cases h1
      refine ⟨h2, ?_⟩
      obtain ⟨b, h5, h6, _⟩ := hi.observationsOf hm (item := i)
      cases b with
      | true =>
        obtain ⟨cl, t1, h7, h8⟩ := setGibbs_spec L hσ hi hm hd hcur hne h5 h3 h4 t
        rw [hc h5] at h7
        cases h7
        exact h8
      | false =>
        rw [hn h5]
        refine hi.store (fun d' hd' => by rw [h4]; exact hi.doms d' hd') ?_
        intro k v hk
        apply tupleSeat_congr
        intro d' j hj
        rw [h3, if_neg]
        rintro ⟨rfl, rfl⟩
        have := h6.mpr ⟨k, FMap.contains_iff.mpr ⟨v, hk⟩, hj⟩
        cases this
  | @update σ r r' items v _ hv hc ih =>
    obtain ⟨v0, hv0⟩ := updateValue_pre hc
    obtain ⟨z, c, c1, c2, _, _, _, _, h1, h2⟩ := updateValue_spec L ih.1 ih.2 hv0 hv
    rw [hc] at h1
    cases h1
    exact ⟨ih.1, h2⟩
  | hparams n t _ ih => exact ⟨ih.1, hparams_spec ih.2 n t⟩
  | @gibbsScores σ r r' d i tables lps t t' _ hc ih =>
    obtain ⟨_, cl, rfl, h4⟩ := gibbsScores_keeps L ih.1 ih.2 hc
    exact ⟨ih.1, h4⟩
  | logp _ hv hc ih =>
    obtain ⟨_, _, h⟩ := logp_inv L hv ih.2 hc
    exact ⟨ih.1, h⟩
  | @domainAdd σ dom dom' r d i table t t' _ hd hc ih =>
    have hw := ih.1 d dom hd
    have key : dom' = dom ∨ (dom.items.contains i = false ∧ ∃ tb, dom' = dom.incState i tb) := by
      cases hi : dom.items.contains i with
      | true =>
        simp only [Domain.incorporate, hi, if_true, assertR, bind, Except.bind] at hc
        split at hc
        · cases hc
        · cases hc; exact .inl rfl
      | false => rw [Domain.incorporate_new hw hi] at hc; cases hc; exact .inr ⟨rfl, _, rfl⟩
    rcases key with rfl | ⟨hi, tb, rfl⟩
    · rw [FMap.set_of_find hd]; exact ih
    · refine ⟨ih.1.set (hw.incState hi tb), ih.2.store (fun d' hd' => by rw [contains_set_present hd]; exact ih.2.doms d' hd') ?_⟩
      intro k v hk
      obtain ⟨_, z, hz⟩ := ih.2.seated k v hk
      rw [hz]
      refine tupleSeat_mono ?_ hz
      intro d' _ j z' hz'
      rw [seatOf_set]
      split
      · rename_i hdd; subst hdd
        rw [seatOf_eq hd] at hz'
        have : j ≠ i := by rintro rfl; rw [hw.not_mem.mp hi] at hz'; cases hz'
        show (dom.crp.assignments.set i tb).find? j = some z'
        rw [FMap.find?_set_ne _ this]; exact hz'
      · exact hz'
  | @domainRemove σ dom dom' r d i _ hd hu hc ih =>
    have hw := ih.1 d dom hd
    cases hi : dom.items.contains i with
    | false => rw [Domain.unincorporate_absent hi] at hc; cases hc
    | true =>
      obtain ⟨tb, s, _, _, h1, h2⟩ := Domain.unincorporate_eq hw hi
      rw [hc] at h1
      cases h1
      refine ⟨ih.1.set h2, ih.2.store (fun d' hd' => by rw [contains_set_present hd]; exact ih.2.doms d' hd') ?_⟩
      intro k v hk
      apply tupleSeat_congr
      intro d' j hj
      rw [seatOf_set]
      split
      · rename_i hdd; subst hdd
        have : j ≠ i := by rintro rfl; exact hu k (FMap.contains_iff.mpr ⟨v, hk⟩) hj
        rw [seatOf_eq hd]
        show (dom.crp.assignments.erase i).find? j = _
        rw [FMap.find?_erase, if_neg this]
      · rfl
  | @domainAlpha σ dom r d t _ hd ih =>
    obtain ⟨h1, h2⟩ := (ih.1 d dom hd).transitionAlpha t
    refine ⟨ih.1.set h1, ih.2.store (fun d' hd' => by rw [contains_set_present hd]; exact ih.2.doms d' hd') ?_⟩
    intro k v hk
    apply tupleSeat_congr
    intro d' j hj
    rw [seatOf_set]
    split
    · rename_i hdd; subst hdd; rw [h2, seatOf_eq hd]
    · rfl

/-- adding tuples of present items does not change the domains -/
theorem incLoop_present (items : Items) {ds : List String} {is : Items} :
    ∀ {σ σ' : Doms} {m m' : RevIndex} {t t' : Tape}, (∃ z, tupleSeat σ ds is = some z) → StoreWF σ →
    incLoop items ds is σ m t = .ok (σ', m', t') → σ' = σ ∧ t' = t := by
  induction ds generalizing is with
  | nil => intro σ σ' m m' t t' _ _ h; simp only [incLoop] at h; cases h; exact ⟨rfl, rfl⟩
  | cons d ds ih =>
    intro σ σ' m m' t t' hz hσ h
    cases is with
    | nil => simp [incLoop] at h
    | cons i is =>
      obtain ⟨z, hz⟩ := hz
      obtain ⟨a, b, h1, h2, _⟩ := tupleSeat_cons.mp hz
      obtain ⟨dom, h3, h4⟩ := seatOf_some h1
      have hp : dom.items.contains i = true := (hσ d dom h3).mem.mpr ⟨a, h4⟩
      simp only [incLoop, bind, Except.bind, Doms.get_eq h3, Domain.incorporate_present hp, FMap.set_of_find h3] at h
      split at h
      · cases h
      · exact ih ⟨b, h2⟩ hσ h

/-- incorporating a tuple of present items does not change the domains -/
theorem incorporate_present {σ σ' : Doms} (hσ : StoreWF σ) {r r' : CleanRel D} {items z : Items} {v : V} {t t' : Tape}
    (hz : tupleSeat σ r.doms items = some z) (h : incorporate σ r items v t = .ok (σ', r', t')) :
    σ' = σ ∧ (r.clusters.contains z = true → t' = t) := by
  obtain ⟨_, hn⟩ := incorporate_pre h
  have hc : r.data.contains items = false := FMap.contains_false.mpr hn
  simp only [incorporate, incorporateItems, bind, Except.bind, assertR, hc, Bool.not_false, if_true] at h
  cases hi : incLoop items r.doms items σ r.dataR t with
  | error e => simp [hi] at h
  | ok x =>
    obtain ⟨σ1, m1, t1⟩ := x
    obtain ⟨rfl, rfl⟩ := incLoop_present items ⟨z, hz⟩ hσ hi
    have hcl : clusterOf σ1 { r with dataR := m1 } items = .ok z := clusterOf_eq (D := D) hσ hz
    simp only [hi, hcl] at h
    cases hzc : r.clusters.contains z with
    | true =>
      simp only [hzc, if_true] at h
      cases h1 : r.clusters.atKey z with
      | error e => simp [h1] at h
      | ok c =>
        simp only [h1] at h
        cases h2 : D.inc c v with
        | error e => simp [h2] at h
        | ok c1 => simp only [h2] at h; cases h; exact ⟨rfl, fun _ => rfl⟩
    | false =>
      simp only [hzc, Bool.false_eq_true, if_false] at h
      cases h1 : (r.clusters.set z (D.fresh t1).1).atKey z with
      | error e => simp [h1] at h
      | ok c =>
        simp only [h1] at h
        cases h2 : D.inc c v with
        | error e => simp [h2] at h
        | ok c1 => simp only [h2] at h; cases h; exact ⟨rfl, fun hf => by cases hf⟩

end CleanRel

/-! ### empty clusters score zero -/

theorem BetaBernoulli.emptyScore (c : BetaBernoulli) (h : BetaBernoulli.ops.Holds (fun _ => True) 0 c) :
    BetaBernoulli.ops.score c = 0 := by
  obtain ⟨hh, hr⟩ := BetaBernoulli.lawful.holds h
  have : c = BetaBernoulli.rep hh.1 0 := hr
  subst this
  simp [BetaBernoulli.ops, BetaBernoulli.rep, BetaBernoulli.logpScore]

theorem Normal.emptyScore (c : Normal) (h : Normal.ops.Holds (fun _ => True) 0 c) : Normal.ops.score c = 0 := by
  obtain ⟨hh, hr⟩ := Normal.lawful.holds h
  have : c = Normal.rep hh.1 0 := hr
  subst this
  obtain ⟨⟨r, v, m, s⟩, hpos⟩ := hh
  have hr' : r ≠ 0 := by
    intro h0
    simp [h0] at hpos
  simp only [Normal.ops, Normal.rep, Normal.logpScore, Normal.posteriorHypers, Multiset.card_zero, Nat.cast_zero,
    Multiset.sum_zero, Multiset.map_zero, zero_div, sub_zero, mul_zero, zero_mul, add_zero, zero_add]
  have : r * m / r = m := by field_simp
  rw [this]
  simp

theorem ZeroMeanNormal.emptyScore (c : ZeroMeanNormal) (h : ZeroMeanNormal.ops.Holds (fun _ => True) 0 c) :
    ZeroMeanNormal.ops.score c = 0 := by
  obtain ⟨hh, hr⟩ := ZeroMeanNormal.lawful.holds h
  have : c = ZeroMeanNormal.rep hh.1 0 := hr
  subst this
  simp [ZeroMeanNormal.ops, ZeroMeanNormal.rep, ZeroMeanNormal.logpScore]

theorem DirichletCategorical.of_score_zero (a : ℝ) (k : Nat) : (DirichletCategorical.of a k (fun _ => 0) 0).logpScore = 0 := by
  simp [DirichletCategorical.of, DirichletCategorical.logpScore]

theorem DirichletCategorical.emptyScore (k : Nat) (c : DirichletCategorical)
    (h : (DirichletCategorical.ops k).Holds (DirichletCategorical.Supp k) 0 c) : (DirichletCategorical.ops k).score c = 0 := by
  obtain ⟨hh, hr⟩ := (DirichletCategorical.lawful k).holds h
  have : c = DirichletCategorical.rep hh.1 k 0 := hr.1
  subst this
  have := DirichletCategorical.of_score_zero hh.1 k
  simpa [DirichletCategorical.ops, DirichletCategorical.rep] using this

theorem StringCat.emptyScore (strings : List String) (c : StringCat) (h : (StringCat.ops strings).Holds (· ∈ strings) 0 c) :
    (StringCat.ops strings).score c = 0 := by
  obtain ⟨hh, hr⟩ := (StringCat.lawful strings).holds h
  have : c = StringCat.rep hh.1 strings 0 := hr.1
  subst this
  have := DirichletCategorical.of_score_zero hh.1 strings.length
  simpa [StringCat.ops, StringCat.rep, StringCat.logpScore, DirichletCategorical.rep] using this

theorem Bigram.emptyScore (maxLength lo hi : Nat) (c : Bigram)
    (h : (Bigram.ops maxLength lo hi).Holds (Bigram.Accepts maxLength lo hi) 0 c) : (Bigram.ops maxLength lo hi).score c = 0 := by
  obtain ⟨hh, hr⟩ := (Bigram.lawful maxLength lo hi).holds h
  have : c = Bigram.rep hh.1 maxLength lo hi 0 := hr.1
  subst this
  have := DirichletCategorical.of_score_zero hh.1 (hi - lo + 1 + 1)
  simp [Bigram.ops, Bigram.rep, Bigram.logpScore, Bigram.rows, Bigram.allTrans, this]

end
end Verif
