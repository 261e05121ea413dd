import Verif.Spec.Sampling
import Verif.Lemmas.HIRMReach
import Verif.Lemmas.Predictive
/-! Helper lemmas about sampling from an HIRM. -/
namespace Verif
open Spec
noncomputable section
variable {V : Type} {F : Family V} {L : FamilyLaws F}

namespace CleanRel
variable {D : DistOps V} {supp : V → Prop}

theorem incorporateItems_spec {σ : Doms} (hσ : StoreWF σ) {r : CleanRel D} (h : Inv supp σ r) {items : Items}
    (hl : items.length = r.doms.length) (hn : r.data.find? items = none) (t : Tape) :
    ∃ z σ' r' t' c m, incorporateItems σ r items t = .ok (z, σ', r', t') ∧ StoreWF σ' ∧ tupleSeat σ' r'.doms items = some z ∧
      r'.doms = r.doms ∧ r'.data = r.data ∧ r'.clusters.find? z = some c ∧ D.Holds supp m c := by
  obtain ⟨σ', m', t', h1, h2, h3, h4⟩ := incLoop_spec items hl t hσ h.idx (fun d hd => hd) h.doms
  have hseat : ∃ z, tupleSeat σ' r.doms items = some z := by
    rw [tupleSeat_isSome hl]
    intro d i hm
    exact (h3.mem d i).mpr (.inr ⟨h.doms d (List.of_mem_zip hm).1, hm⟩)
  obtain ⟨z, hz⟩ := hseat
  have hg := h.grows h3
  have hc0 : r.data.contains items = false := FMap.contains_false.mpr hn
  have hcl : ∀ m', clusterOf σ' { r with dataR := m' } items = .ok z := fun m' => clusterOf_eq (D := D) h2 hz
  cases hc : r.clusters.find? z with
  | some c =>
    refine ⟨z, σ', { r with dataR := m' }, t', c, _, ?_, h2, hz, rfl, rfl, hc, ((hg.cl z).2 c hc).2⟩
    have hct : r.clusters.contains z = true := FMap.contains_iff.mpr ⟨_, hc⟩
    simp only [incorporateItems, bind, Except.bind, assertR, hc0, Bool.not_false, if_true, h1, hcl, hct]
  | none =>
    refine ⟨z, σ', { r with dataR := m', clusters := r.clusters.set z (D.fresh t').1 }, (D.fresh t').2, (D.fresh t').1, 0, ?_, h2, hz, rfl, rfl,
      FMap.find?_set_self .., holds_fresh _⟩
    have hct : r.clusters.contains z = false := FMap.contains_false.mpr hc
    simp only [incorporateItems, bind, Except.bind, assertR, hc0, Bool.not_false, if_true, h1, hcl, hct, Bool.false_eq_true, if_false]

end CleanRel

namespace Rel

/-- `sample_and_incorporate` of a new tuple succeeds and does what `incorporate` of a supported value does -/
theorem Inv.sample_ok (S : Samples L) {ar : Ptr → Option Nat} {σ : Doms} (hσ : StoreWF σ) {r : Rel F} (h : r.Inv L ar σ) {b : Option (BaseView V)}
    (hb : ∀ p, r.base? = some p → ∀ b', b = some b' → ar p = some b'.arity) {items : Items}
    (hl : items.length = r.doms.length) (hn : r.data.find? items = none)
    (hbase : ∀ e p q, r = .noisy e p q → ∃ b' bv y, b = some b' ∧ b'.data.find? (items.take b'.arity) = some bv ∧ L.suppE e (bv, y))
    (hcl : ∀ c q, r = .clean c q → L.Sampleable c) (t : Tape) :
    ∃ x σ' r' t' t1, r.sampleAndIncorporate σ b items t = .ok (x, σ', r', t') ∧ r.Supports L b items x ∧
      r.incorporate σ b items x t = .ok (σ', r', t1) := by
  cases r with
  | clean c r =>
    obtain ⟨z, σ', r', t', s, m, h1, h2, h3, h4, h5, h6, h7⟩ := CleanRel.incorporateItems_spec hσ h hl hn t
    obtain ⟨x, t2, h8, h9⟩ := hcl c _ rfl m s t' h7
    obtain ⟨s', h10, _⟩ := (L.dist c).holds_inc h7 h9
    have hsa : CleanRel.sampleAtItems σ' r' items t' = .ok (x, r', t2) := by
      simp only [CleanRel.sampleAtItems, CleanRel.clustersContains_eq h2 h3, FMap.contains_iff.mpr ⟨_, h6⟩, bind, Except.bind, if_true,
        CleanRel.clusterOf_eq h2 h3, FMap.atKey_of_find h6, h8, FMap.set_of_find h6]
    refine ⟨x, σ', .clean c { r' with data := r'.data.set items x, clusters := r'.clusters.set z s' }, t2, t', ?_, h9, ?_⟩
    · simp only [Rel.sampleAndIncorporate, CleanRel.sampleAndIncorporate, bind, Except.bind, h1, hsa, FMap.atKey_of_find h6, h10]
    · simp only [Rel.incorporate, CleanRel.incorporate, bind, Except.bind, h1, FMap.atKey_of_find h6, h10]
  | noisy e p r =>
    obtain ⟨h, n, h0, h'⟩ := h
    obtain ⟨b', bv, y, rfl, hbv, hy⟩ := hbase e p r rfl
    have : n = b'.arity := by
      have := hb p rfl b' rfl
      rw [h0] at this
      exact Option.some.inj this
    subst this
    have hn' : r.emission.data.find? items = none := by
      have := h'.data items
      rw [show r.data.find? items = none from hn] at this
      cases hp : r.emission.data.find? items with
      | none => rfl
      | some p => rw [hp] at this; cases this
    obtain ⟨z, σ', em, t', s, m, h1, h2, h3, h4, h5, h6, h7⟩ := CleanRel.incorporateItems_spec hσ h (by rw [h'.doms]; exact hl) hn' t
    obtain ⟨x, t2, h8, h9⟩ := S.noisy e m s bv t' h7 ⟨y, hy⟩
    obtain ⟨s', h10, _⟩ := (L.emis e).holds_inc h7 h9
    have hl : items.length = r.doms.length := hl
    have ha : b'.arity ≤ items.length := by rw [hl]; exact h'.arity
    have hbve : NoisyRel.baseValue b' items = .ok bv := NoisyRel.baseValue_eq ha hbv
    have hbi : NoisyRel.baseItems b' items = .ok (items.take b'.arity) := by simp only [NoisyRel.baseItems, if_pos ha]
    have hsa : NoisyRel.sampleAtItems σ' b' { r with emission := em } items t' = .ok (x, t2) := by
      simp only [NoisyRel.sampleAtItems, hbve, CleanRel.clustersContains_eq h2 h3, FMap.contains_iff.mpr ⟨_, h6⟩, bind, Except.bind, if_true,
        CleanRel.clusterOf_eq h2 h3, FMap.atKey_of_find h6, h8]
    obtain ⟨q, hs⟩ : ∃ q, NoisyRel.sampleAndIncorporate σ b' r items t = .ok (x, σ', q, t2) := by
      simp only [NoisyRel.sampleAndIncorporate, bind, Except.bind, h1, hbve, hbi, hsa, FMap.atKey_of_find h6, h10]
      exact ⟨_, rfl⟩
    obtain ⟨t1, h11⟩ := NoisyRel.sampleAndIncorporate_eq hs
    refine ⟨x, σ', .noisy e p q, t2, t1, ?_, ?_, ?_⟩
    · simp only [Rel.sampleAndIncorporate, derefR, bind, Except.bind, hs]
    · intro b1 hb1 bv1 hbv1
      cases hb1
      rw [hbv] at hbv1; cases hbv1
      exact h9
    · simp only [Rel.incorporate, derefR, bind, Except.bind, h11]

end Rel

namespace HIRM

theorem value_some {H : HIRM F} {n : String} {k : Items} {v : V} :
    H.value n k = some v ↔ ∃ tb id r, H.relOf n = some (tb, id, r) ∧ r.data.find? k = some v := by
  constructor
  · intro h
    obtain ⟨d, h1, h2⟩ := Option.bind_eq_some_iff.mp h
    obtain ⟨⟨tb, id, r⟩, h3, rfl⟩ := Option.map_eq_some_iff.mp h1
    exact ⟨tb, id, r, h3, h2⟩
  · rintro ⟨tb, id, r, h1, h2⟩
    simp [value, dataOf, h1, h2]

theorem value_of {H : HIRM F} {n : String} {tb : Int} {id : Nat} {r : Rel F} (h : H.relOf n = some (tb, id, r)) (k : Items) :
    H.value n k = r.data.find? k := by simp [value, dataOf, h]

/-- the values of a relation are values that it can have -/
theorem Good.value {H : HIRM F} (h : Good L H) {n : String} {spec : RelSpec F} (hs : H.schema.find? n = some spec) {k : Items} {v : V}
    (hv : H.value n k = some v) : spec.Value L v := by
  obtain ⟨tb, id, r, h1, h2⟩ := value_some.mp hv
  obtain ⟨sp, h3, h4⟩ := h.matched h1
  rw [hs] at h3; cases h3
  obtain ⟨_, I, hI, hx⟩ := relOf_some.mp h1
  have hi := (h.inv tb I hI).rels n id r hx
  have hk := h4.kind
  cases r with
  | clean c q =>
    cases spec with
    | clean c' ds o =>
      cases hk
      exact (CleanRel.Inv.seated hi k v h2).1
    | noisy e ds b o => cases hk
  | noisy e p q =>
    cases spec with
    | clean c' ds o => cases hk
    | noisy e' ds b o =>
      cases hk
      obtain ⟨hi, m, _, hl⟩ := hi
      have h2 : q.data.find? k = some v := h2
      have := hl.data k
      rw [h2] at this
      cases hq : q.emission.data.find? k with
      | none => rw [hq] at this; cases this
      | some x =>
        obtain ⟨bv, w⟩ := x
        rw [hq] at this
        cases this
        exact ⟨bv, (hi.seated k _ hq).1⟩

theorem sampleOne_ok (S : Samples L) {H : HIRM F} (h : Reach L H) (hcm : Compatible L H.schema) {r : String} {spec : RelSpec F}
    (hs : H.schema.find? r = some spec) {items : Items} (hl : items.length = spec.doms.length) (hn : H.value r items = none)
    (hb : ∀ b, spec.base? = some b → ∃ sp bv, H.schema.find? b = some sp ∧ H.value b (items.take sp.doms.length) = some bv) (t : Tape) :
    ∃ v H' t', H.sampleOne r items t = .ok (v, H', t') ∧ Reach L H' ∧ H'.schema = H.schema ∧
      ∀ n k, H'.value n k = if n = r ∧ k = items then some v else H.value n k := by
  have hg := h.good
  obtain ⟨tb, id, rel, hr⟩ := hg.skel.relOf (FMap.contains_iff.mpr ⟨spec, hs⟩)
  obtain ⟨sp, h1, hm⟩ := hg.matched hr
  rw [hs] at h1; cases h1
  obtain ⟨hT, I, hI, hx⟩ := relOf_some.mp hr
  have hi := hg.inv tb I hI
  have hl' : items.length = rel.doms.length := by rw [hl, hm.doms]
  have hn' : rel.data.find? items = none := by rw [← value_of hr]; exact hn
  have hbases : ∀ p, rel.base? = some p → ∀ b', IRM.baseOf H.env rel = some b' → arS H.schema p = some b'.arity := by
    intro p hp b' hb'
    obtain ⟨b'', h7, h8⟩ := hg.bases hr p hp
    rw [hb'] at h7; cases h7; exact h8
  obtain ⟨x, σ', rel', t', t1, h2, h3, h4⟩ := (hi.rels r id rel hx).sample_ok S hi.store hbases hl' hn' (by
    rintro e p q rfl
    have hk := hm.kind
    cases spec with
    | clean c ds o => cases hk
    | noisy e' ds b o =>
      cases hk
      have hbase := hm.base
      have hpb : b = p.name := by cases hbase; rfl
      obtain ⟨btb, bid, br, g1, _, g2, g3, _⟩ := hg.base hr (p := p) rfl
      obtain ⟨spb, bv, g4, g5⟩ := hb b rfl
      obtain ⟨y, hy⟩ := hcm.accepts r e ds b o spb hs g4 bv (hg.value g4 g5)
      refine ⟨br.view, bv, y, g2, ?_, hy⟩
      subst hpb
      obtain ⟨spb', g6, g7⟩ := hg.matched g1
      rw [g4] at g6; cases g6
      rw [value_of g1, ← g7.doms] at g5
      exact g5) (by
    rintro c q rfl
    have hk := hm.kind
    cases spec with
    | clean c' ds o => cases hk; exact hcm.all r c ds o hs
    | noisy e' ds bn o => cases hk) t
  have hirm : H.relationToIrm r = .ok (tb, I) := relationToIrm_ok.mpr ⟨hT, hI⟩
  have hinc : H.incorporate r items x t = .ok ({ H with irms := H.irms.set tb { I with doms := σ', rels := I.rels.set r (id, rel') } }, t1) := by
    simp only [HIRM.incorporate, hirm, IRM.incorporate, bind, Except.bind, FMap.atKey_of_find hx, h4]
  refine ⟨x, _, t', ?_, .incorporate h (fun tb' id' r' hr' => by rw [hr] at hr'; cases hr'; exact h3) hinc, rfl, ?_⟩
  · simp only [sampleOne, hirm, bind, Except.bind, FMap.atKey_of_find hx, h2]
  · intro n k
    obtain ⟨_, _, _, hr', _, _, hbb⟩ := incorporate_pre hg hinc
    rw [hr] at hr'; cases hr'
    obtain ⟨K, u, r2, g1, _, _, _, g5, g6⟩ := hg.incorporate hr h3 hl' hn' hbb t
    rw [hinc] at g1; cases g1
    rw [HIRM.value, dataOf, g6]
    by_cases hnr : n = r
    · subst hnr
      simp only [if_true, Option.map_some, Option.bind_some, g5, FMap.find?_set, true_and]
      split
      · rfl
      · exact (value_of hr k).symm
    · simp only [hnr, if_false, false_and]
      rfl

/-! ### chains of base relations -/

/-- the relation, its base, the base of that, and so on -/
inductive Chain (schema : Schema F) : String → List String → Prop
  | clean {n : String} {spec : RelSpec F} (h : schema.find? n = some spec) (hb : spec.base? = none) : Chain schema n [n]
  | noisy {n b : String} {spec : RelSpec F} {l : List String} (h : schema.find? n = some spec) (hb : spec.base? = some b) (hl : Chain schema b l) :
      Chain schema n (n :: l)

theorem Chain.unique {schema : Schema F} {n : String} {l : List String} (h : Chain schema n l) : ∀ l', Chain schema n l' → l = l' := by
  induction h with
  | clean h hb =>
    intro l' h'
    cases h' with
    | clean => rfl
    | noisy h1 hb1 => rw [h] at h1; cases h1; rw [hb] at hb1; cases hb1
  | noisy h hb _ ih =>
    intro l' h'
    cases h' with
    | clean h1 hb1 => rw [h] at h1; cases h1; rw [hb] at hb1; cases hb1
    | noisy h1 hb1 hl1 =>
      rw [h] at h1; cases h1
      rw [hb] at hb1; cases hb1
      rw [ih _ hl1]

theorem Chain.suffix {schema : Schema F} {n : String} {l : List String} (h : Chain schema n l) : ∀ a ∈ l, ∃ l', Chain schema a l' ∧ l' <:+ l := by
  induction h with
  | clean h hb =>
    intro a ha
    simp only [List.mem_cons, List.not_mem_nil, or_false] at ha
    subst ha
    exact ⟨_, .clean h hb, List.suffix_rfl⟩
  | noisy h hb hl ih =>
    intro a ha
    rcases List.mem_cons.mp ha with rfl | ha
    · exact ⟨_, .noisy h hb hl, List.suffix_rfl⟩
    · obtain ⟨l', h1, h2⟩ := ih a ha
      exact ⟨l', h1, h2.trans (List.suffix_cons _ _)⟩

theorem Chain.not_mem {schema : Schema F} {n b : String} {spec : RelSpec F} {l : List String} (h : schema.find? n = some spec) (hb : spec.base? = some b)
    (hl : Chain schema b l) : n ∉ l := by
  intro hn
  obtain ⟨l', h1, h2⟩ := hl.suffix n hn
  have := h1.unique _ (.noisy h hb hl)
  subst this
  have := h2.length_le
  simp at this

theorem Chain.nodup {schema : Schema F} {n : String} {l : List String} (h : Chain schema n l) : l.Nodup ∧ ∀ a ∈ l, schema.contains a = true := by
  induction h with
  | clean h hb => exact ⟨by simp, by simpa using FMap.contains_iff.mpr ⟨_, h⟩⟩
  | noisy h hb hl ih =>
    refine ⟨List.nodup_cons.mpr ⟨not_mem h hb hl, ih.1⟩, fun a ha => ?_⟩
    rcases List.mem_cons.mp ha with rfl | ha
    · exact FMap.contains_iff.mpr ⟨_, h⟩
    · exact ih.2 a ha

theorem Chain.length_le {schema : Schema F} {n : String} {l : List String} (h : Chain schema n l) : l.length ≤ schema.size := by
  obtain ⟨h1, h2⟩ := h.nodup
  have : l.length ≤ schema.keys.length := (List.subperm_of_subset h1 (fun a ha => FMap.contains_iff_mem.mp (h2 a ha))).length_le
  simpa [FMap.keys, FMap.size] using this

theorem _root_.Verif.Grounded.chain {schema : Schema F} {n : String} (h : Grounded schema n) : ∃ l, Chain schema n l := by
  induction h with
  | clean h hb => exact ⟨_, .clean h hb⟩
  | noisy h hb _ ih => obtain ⟨l, hl⟩ := ih; exact ⟨_, .noisy h hb hl⟩

theorem Reach.grounded {H : HIRM F} (h : Reach L H) : ∀ n, H.schema.contains n = true → Grounded H.schema n := by
  induction h with
  | empty => intro n hn; cases hn
  | @add H H' name spec t t' hr ha hc ih =>
    obtain ⟨h1, h2, _⟩ := addRelation_inv hc
    have hmono : ∀ n, Grounded H.schema n → Grounded (H.schema.set name spec) n := by
      intro n hn
      induction hn with
      | @clean n sp h hb =>
        refine .clean (spec := sp) ?_ hb
        rw [FMap.find?_set_ne]
        · exact h
        · rintro rfl; rw [FMap.contains_iff.mpr ⟨_, h⟩] at h1; cases h1
      | @noisy n b sp h hb _ ih =>
        refine .noisy (spec := sp) ?_ hb ih
        rw [FMap.find?_set_ne]
        · exact h
        · rintro rfl; rw [FMap.contains_iff.mpr ⟨_, h⟩] at h1; cases h1
    rw [h2]
    intro n hn
    by_cases hnn : n = name
    · subst hnn
      cases hb : spec.base? with
      | none => exact .clean (FMap.find?_set_self ..) hb
      | some b => exact .noisy (FMap.find?_set_self ..) hb (hmono b (ih b (addRelation_base hr.good.skel hc hb)))
    · refine hmono n (ih n ?_)
      rw [FMap.contains, FMap.find?_set_ne _ hnn] at hn
      exact hn
  | @remove H H' name spec hr hs hb hn hc ih =>
    obtain ⟨K, h1, _, h2, _⟩ := hr.good.remove hs hb hn
    rw [hc] at h1; cases h1
    rw [h2]
    have hmono : ∀ n, Grounded H.schema n → n ≠ name → Grounded (H.schema.erase name) n := by
      intro n hg
      induction hg with
      | @clean n sp h hb => intro hne; exact .clean (spec := sp) (by rw [FMap.find?_erase_ne _ hne]; exact h) hb
      | @noisy n b sp h hb _ ih =>
        intro hne
        exact .noisy (spec := sp) (by rw [FMap.find?_erase_ne _ hne]; exact h) hb (ih (by rintro rfl; exact hn n sp h hb))
    intro n hk
    by_cases hnn : n = name
    · subst hnn; rw [FMap.contains, FMap.find?_erase_self] at hk; cases hk
    · refine hmono n (ih n ?_) hnn
      rw [FMap.contains, FMap.find?_erase_ne _ hnn] at hk
      exact hk
  | @incorporate H H' name items v t t' h hv hc ih =>
    obtain ⟨tb, id, r, hr, hl, hn, hb⟩ := incorporate_pre h.good hc
    obtain ⟨K, u, _, h1, _, h2, _⟩ := h.good.incorporate hr (hv tb id r hr) hl hn hb t
    rw [hc] at h1; cases h1; rw [h2.schema]; exact ih
  | unincorporate h hu hc ih =>
    obtain ⟨tb, id, r, hr, hk⟩ := unincorporate_pre hc
    obtain ⟨K, _, h1, _, h2, _⟩ := h.good.unincorporate hr hk hu
    rw [hc] at h1; cases h1; rw [h2.schema]; exact ih
  | @move H H' name t t' h hc ih =>
    obtain ⟨rc, h1, _⟩ := bind_ok.mp hc
    obtain ⟨K, u, ch, h2, h3, _⟩ := transitionRelation_ok h.good (relation_known h.good.skel h1) t
    rw [hc] at h2; cases h2; rw [h3.moved.schema]; exact ih
  | @set H H' name table t t' h hc ih =>
    obtain ⟨_, _, h0⟩ := bind_ok.mp hc
    obtain ⟨rc, h1, _⟩ := bind_ok.mp h0
    obtain ⟨K, u, h2, h3⟩ := setClusterAssignmentGibbs_ok h.good (relation_known h.good.skel h1) table t
    rw [hc] at h2; cases h2; rw [h3.moved.schema]; exact ih
  | item _ _ _ ih => exact ih
  | seat _ _ _ _ ih => exact ih
  | @step H H' tbs t t' h hc ih =>
    rw [(stepIrms_inv tbs H H' t t' h.good hc).2.1.schema]; exact ih
  | logp h hv hc ih => rw [(logp_good h.good hv hc).2.1.schema]; exact ih

/-! ### one sample -/

theorem sampleRelation_ok (S : Samples L) {schema : Schema F} (hcm : Compatible L schema) {r : String} {l : List String} (hch : Chain schema r l) :
    ∀ {H : HIRM F} (_ : Reach L H) (_ : H.schema = schema) {spec : RelSpec F} (_ : schema.find? r = some spec) {items : Items}
      (_ : items.length = spec.doms.length) (_ : H.value r items = none) (fuel : Nat) (_ : l.length ≤ fuel) (t : Tape),
    ∃ v H' t', sampleRelation fuel H r items t = .ok (v, H', t') ∧ Reach L H' ∧ H'.schema = schema ∧ H'.value r items = some v ∧
      (∀ n k v, H.value n k = some v → H'.value n k = some v) ∧
      ∀ n k v', H.value n k = none → H'.value n k = some v' → n ∈ l ∧ ((n = r ∧ k = items) ∨ Needed H H' n k) := by
  induction hch with
  | @clean r sp hs hb =>
    intro H h hsch spec hs' items hl hn fuel hf t
    rw [hs] at hs'; cases hs'
    cases fuel with
    | zero => simp at hf
    | succ fuel =>
      subst hsch
      obtain ⟨v, H', t', h1, h2, h3, h4⟩ := sampleOne_ok S h hcm hs hl hn (fun b hb' => by rw [hb] at hb'; cases hb') t
      refine ⟨v, H', t', ?_, h2, h3, by rw [h4]; simp, ?_, ?_⟩
      · cases sp with
        | clean c ds o => simp only [sampleRelation, bind, Except.bind, FMap.atKey_of_find hs, h1]
        | noisy e ds b o => cases hb
      · intro n k w hw
        rw [h4]
        split
        · rename_i hh; obtain ⟨rfl, rfl⟩ := hh; rw [hn] at hw; cases hw
        · exact hw
      · intro n k w hw hw'
        rw [h4] at hw'
        split at hw'
        · rename_i hh; exact ⟨by simp [hh.1], .inl hh⟩
        · rw [hw] at hw'; cases hw'
  | @noisy r b sp l hs hb hch ih =>
    intro H h hsch spec hs' items hl hn fuel hf t
    rw [hs] at hs'; cases hs'
    cases fuel with
    | zero => simp at hf
    | succ fuel =>
      have hg := h.good
      have hcb := hch.nodup.2 b (by cases hch <;> simp)
      obtain ⟨spb, hsb⟩ := FMap.contains_iff.mp hcb
      obtain ⟨tb, id, rel, hr⟩ := hg.skel.relOf (n := r) (by rw [hsch]; exact FMap.contains_iff.mpr ⟨sp, hs⟩)
      obtain ⟨sp', g1, hm⟩ := hg.matched hr
      rw [hsch, hs] at g1; cases g1
      have hbase := hm.base
      rw [hb] at hbase
      obtain ⟨p, hp, hpn⟩ := Option.map_eq_some_iff.mp hbase
      obtain ⟨btb, bid, br, g1, gne, g2, g3, _⟩ := hg.base hr hp
      rw [hpn] at g1 gne
      obtain ⟨spb', g4, gm⟩ := hg.matched g1
      rw [hsch, hsb] at g4; cases g4
      have har : br.doms.length ≤ items.length := by
        rw [hl, ← hm.doms]
        obtain ⟨_, I, hI, hx⟩ := relOf_some.mp hr
        have hi := (hg.inv tb I hI).rels r id rel hx
        cases rel with
        | clean c q => cases hp
        | noisy e p' q =>
          cases hp
          obtain ⟨_, m, h5, h6⟩ := hi
          rw [g3] at h5; cases h5
          exact h6.arity
      have hbi : NoisyRel.baseItems br.view items = .ok (items.take spb.doms.length) := by
        rw [← gm.doms]
        simp only [NoisyRel.baseItems]
        exact if_pos har
      have hget : H.getRelation r = .ok ({ table := some tb, name := r, id := id }, rel) := getRelation_ok.mpr ⟨tb, id, hr, rfl⟩
      have hsH : H.schema.find? r = some sp := by rw [hsch]; exact hs
      cases hv : H.value b (items.take spb.doms.length) with
      | some bv =>
        obtain ⟨v, H', t', h1, h2, h3, h4⟩ := sampleOne_ok S h (by rw [hsch]; exact hcm) hsH hl hn (fun b' hb' => by
          rw [hb] at hb'; cases hb'; exact ⟨spb, bv, by rw [hsch]; exact hsb, hv⟩) t
        refine ⟨v, H', t', ?_, h2, by rw [h3, hsch], by rw [h4]; simp, ?_, ?_⟩
        · have hc : br.view.data.contains (items.take spb.doms.length) = true := by
            rw [value_of g1] at hv
            exact FMap.contains_iff.mpr ⟨bv, hv⟩
          cases sp with
          | clean c ds o => cases hb
          | noisy e ds b' o =>
            cases hb
            simp only [sampleRelation, bind, Except.bind, FMap.atKey_of_find hsH, hget, g2, derefR, hbi, hc, if_true, h1]
        · intro n k w hw
          rw [h4]
          split
          · rename_i hh; obtain ⟨rfl, rfl⟩ := hh; rw [hn] at hw; cases hw
          · exact hw
        · intro n k w hw hw'
          rw [h4] at hw'
          split at hw'
          · rename_i hh; exact ⟨by simp [hh.1], .inl hh⟩
          · rw [hw] at hw'; cases hw'
      | none =>
        obtain ⟨v1, H1, t1, h1, h2, h3, h4, h5, h6⟩ := ih h hsch hsb (items := items.take spb.doms.length) (by
          rw [List.length_take, ← gm.doms]; exact min_eq_left har) hv fuel (by simpa using hf) t
        have hn1 : H1.value r items = none := by
          cases hr1 : H1.value r items with
          | none => rfl
          | some w => exact absurd (h6 r items w hn hr1).1 (Chain.not_mem hs hb hch)
        obtain ⟨v, H', t', a1, a2, a3, a4⟩ := sampleOne_ok S h2 (by rw [h3]; exact hcm) (by rw [h3]; exact hs) hl hn1 (fun b' hb' => by
          rw [hb] at hb'; cases hb'; exact ⟨spb, v1, by rw [h3]; exact hsb, h4⟩) t1
        have hmono : ∀ n k w, H1.value n k = some w → H'.value n k = some w := by
          intro n k w hw
          rw [a4]
          split
          · rename_i hh; obtain ⟨rfl, rfl⟩ := hh; rw [hn1] at hw; cases hw
          · exact hw
        have hnew : H'.value r items = some v := by rw [a4]; simp
        refine ⟨v, H', t', ?_, a2, by rw [a3, h3], hnew, fun n k w hw => hmono n k w (h5 n k w hw), ?_⟩
        · have hc : br.view.data.contains (items.take spb.doms.length) = false := by
            rw [value_of g1] at hv
            exact FMap.contains_false.mpr hv
          cases sp with
          | clean c ds o => cases hb
          | noisy e ds b' o =>
            cases hb
            simp only [sampleRelation, bind, Except.bind, FMap.atKey_of_find hsH, hget, g2, derefR, hbi, hc, Bool.false_eq_true, if_false, h1, a1]
        · intro n k w hw hw'
          rw [a4] at hw'
          split at hw'
          · rename_i hh; exact ⟨by simp [hh.1], .inl hh⟩
          · obtain ⟨b1, b2⟩ := h6 n k w hw hw'
            refine ⟨List.mem_cons_of_mem _ b1, .inr ?_⟩
            rcases b2 with ⟨rfl, rfl⟩ | ⟨m, spec, spn, k', w', c1, c2, c3, c4, c5, c6⟩
            · exact ⟨r, sp, spb, items, v, hsH, hb, by rw [hsch]; exact hsb, hn, hnew, rfl⟩
            · exact ⟨m, spec, spn, k', w', c1, c2, c3, c4, hmono _ _ _ c5, c6⟩

/-! ### the domain CRPs -/

/-- the customers of each CRP are `0, ..., n - 1` -/
def Seats (n : String → Nat) (m : FMap String CRP) : Prop :=
  ∀ d, ((m.find? d).getD {}).WF ∧ ∀ i, ((m.find? d).getD {}).assignments.contains i = true ↔ 0 ≤ i ∧ i < n d

theorem size_of_range {A : FMap Int Int} {n : Nat} (h : ∀ i, A.contains i = true ↔ 0 ≤ i ∧ i < n) : A.size = n := by
  have hp : A.keys.Perm ((List.range n).map (fun (j : Nat) => (j : Int))) := by
    rw [List.perm_ext_iff_of_nodup (FMap.nodupKeys A) (List.nodup_range.map (fun a b hab => by simpa using hab))]
    intro i
    rw [← FMap.contains_iff_mem, h, List.mem_map]
    constructor
    · rintro ⟨h1, h2⟩
      exact ⟨i.toNat, List.mem_range.mpr (by omega), by omega⟩
    · rintro ⟨j, hj, rfl⟩
      have := List.mem_range.mp hj
      omega
  have := hp.length_eq
  simpa [FMap.keys, FMap.size] using this

theorem Seats.inc {n : String → Nat} {m : FMap String CRP} (h : Seats n m) (d : String) (tb : Int) :
    ∃ c, ((m.find? d).getD {}).incorporate ((m.find? d).getD {}).assignments.size tb = .ok c ∧
      ((m.find? d).getD {}).assignments.size = n d ∧ Seats (Function.update n d (n d + 1)) (m.set d c) := by
  obtain ⟨h1, h2⟩ := h d
  have hsz := size_of_range h2
  have hn : ((m.find? d).getD {}).assignments.find? (n d : Int) = none := by
    rw [← FMap.contains_false]
    cases hc : ((m.find? d).getD {}).assignments.contains (n d : Int) with
    | false => rfl
    | true => have := (h2 _).mp hc; omega
  obtain ⟨g1, g2, _⟩ := crp_incorporate h1 (CRP.incorporate_eq (t := tb) hn)
  refine ⟨_, by rw [hsz]; exact CRP.incorporate_eq hn, hsz, fun d' => ?_⟩
  by_cases hd : d' = d
  · subst hd
    rw [FMap.find?_set_self, Option.getD_some, Function.update_self]
    refine ⟨g1, fun i => ?_⟩
    rw [g2, FMap.contains, FMap.find?_set]
    split
    · rename_i hh; subst hh; simp
    · rename_i hh
      rw [← FMap.contains, h2]
      omega
  · rw [FMap.find?_set_ne _ hd, Function.update_of_ne hd]
    exact h d'

theorem drawEntities_ok : ∀ (ds : List String) (n : String → Nat) (m : FMap String CRP) (t : Tape), Seats n m →
    ∃ es cs m' t' n', drawEntities ds m t = .ok (es, cs, m', t') ∧ es.length = ds.length ∧ Seats n' m' ∧ cs.Nodup ∧
      (∀ d, n d ≤ n' d) ∧ ∀ d i, (d, i) ∈ cs ↔ (n d : Int) ≤ i ∧ i < n' d := by
  intro ds
  induction ds with
  | nil => intro n m t h; exact ⟨[], [], m, t, n, rfl, rfl, h, by simp, fun d => le_refl _, fun d i => by simp⟩
  | cons d ds ih =>
    intro n m t h
    obtain ⟨c, h1, h2, h3⟩ := h.inc d (((m.find? d).getD {}).sample t).1
    obtain ⟨es, cs, m', t', n', g1, g2, g3, g4, g5, g6⟩ := ih _ _ (((m.find? d).getD {}).sample t).2 h3
    refine ⟨(((m.find? d).getD {}).sample t).1 :: es, (d, (n d : Int)) :: cs, m', t', n', ?_, by simp [g2], g3, ?_, ?_, ?_⟩
    · simp only [drawEntities, bind, Except.bind, h1, g1]
      rw [h2]
    · refine List.nodup_cons.mpr ⟨fun hm => ?_, g4⟩
      have := (g6 _ _).mp hm
      rw [Function.update_self] at this
      push_cast at this
      omega
    · intro d'
      have := g5 d'
      by_cases hd : d' = d
      · subst hd; rw [Function.update_self] at this; omega
      · rw [Function.update_of_ne hd] at this; exact this
    · intro d' i
      rw [List.mem_cons, g6, Prod.mk.injEq]
      have := g5 d'
      by_cases hd : d' = d
      · subst hd
        rw [Function.update_self] at this ⊢
        push_cast
        simp only [true_and]
        omega
      · rw [Function.update_of_ne hd]
        simp [hd]

theorem undraw_ok : ∀ (l : List (String × Int)) (n : String → Nat) (m : FMap String CRP), l.Nodup → (∀ d i, (d, i) ∈ l → (n d : Int) ≤ i) →
    (∀ d, ((m.find? d).getD {}).WF ∧ ∀ i, ((m.find? d).getD {}).assignments.contains i = true ↔ (0 ≤ i ∧ i < n d) ∨ (d, i) ∈ l) →
    ∃ m', undraw l m = .ok m' ∧ Seats n m' := by
  intro l
  induction l with
  | nil => intro n m _ _ h; exact ⟨m, rfl, fun d => ⟨(h d).1, fun i => by rw [(h d).2]; simp⟩⟩
  | cons x l ih =>
    obtain ⟨d, i⟩ := x
    intro n m hnd hge h
    obtain ⟨tb, htb⟩ := FMap.contains_iff.mp (((h d).2 i).mpr (.inr (by simp)))
    obtain ⟨c, hc⟩ := crp_uninc (h d).1 htb
    obtain ⟨g1, g2, _⟩ := crp_unincorporate (h d).1 hc
    obtain ⟨hni, hnd⟩ := List.nodup_cons.mp hnd
    obtain ⟨m', a1, a2⟩ := ih n (m.set d c) hnd (fun d' i' hm => hge d' i' (by simp [hm])) (by
      intro d'
      by_cases hd : d' = d
      · subst hd
        rw [FMap.find?_set_self, Option.getD_some]
        refine ⟨g1, fun j => ?_⟩
        rw [g2, FMap.contains, FMap.find?_erase]
        split
        · rename_i hj
          subst hj
          have := hge d' j (by simp)
          simp only [Option.isSome_none, Bool.false_eq_true, false_iff, not_or]
          exact ⟨by omega, hni⟩
        · rename_i hj
          rw [← FMap.contains, (h d').2, List.mem_cons, Prod.mk.injEq]
          simp [hj]
      · rw [FMap.find?_set_ne _ hd]
        refine ⟨(h d').1, fun j => ?_⟩
        rw [(h d').2, List.mem_cons, Prod.mk.injEq]
        simp [hd])
    exact ⟨m', by simp only [undraw, bind, Except.bind, hc, a1], a2⟩

theorem seatEntities_ok (d : String) : ∀ (is : List Int) (n : String → Nat) (m : FMap String CRP), Seats n m →
    ∃ m' n', seatEntities d is m = .ok m' ∧ Seats n' m' := by
  intro is
  induction is with
  | nil => intro n m h; exact ⟨m, n, rfl, h⟩
  | cons i is ih =>
    intro n m h
    obtain ⟨c, h1, h2, h3⟩ := h.inc d i
    obtain ⟨m', n', g1, g2⟩ := ih _ _ h3
    exact ⟨m', n', by simp only [seatEntities, bind, Except.bind, h1, g1], g2⟩

theorem seatDomains_ok : ∀ (l : List (String × Domain)) (n : String → Nat) (m : FMap String CRP), Seats n m →
    ∃ m' n', seatDomains l m = .ok m' ∧ Seats n' m' := by
  intro l
  induction l with
  | nil => intro n m h; exact ⟨m, n, rfl, h⟩
  | cons x l ih =>
    obtain ⟨d, dom⟩ := x
    intro n m h
    obtain ⟨m1, n1, h1, h2⟩ := seatEntities_ok d dom.crp.assignments.keys n m h
    obtain ⟨m', n', g1, g2⟩ := ih _ _ h2
    exact ⟨m', n', by simp only [seatDomains, bind, Except.bind, h1, g1], g2⟩

theorem seatIrms_ok : ∀ (l : List (IRM F)) (n : String → Nat) (m : FMap String CRP), Seats n m →
    ∃ m' n', seatIrms l m = .ok m' ∧ Seats n' m' := by
  intro l
  induction l with
  | nil => intro n m h; exact ⟨m, n, rfl, h⟩
  | cons I l ih =>
    intro n m h
    obtain ⟨m1, n1, h1, h2⟩ := seatDomains_ok I.doms.entries n m h
    obtain ⟨m', n', g1, g2⟩ := ih _ _ h2
    exact ⟨m', n', by simp only [seatIrms, bind, Except.bind, h1, g1], g2⟩

theorem seats_empty : Seats (fun _ => 0) ∅ := fun d => ⟨CRP.WF.init _, fun i => by
  rw [FMap.find?_empty, Option.getD_none]
  constructor
  · intro h; cases h
  · intro h; dsimp only at h; omega⟩

/-! ### the sampling loops -/

/-- the invariant of the sampling loops -/
structure Loop (L : FamilyLaws F) (H0 : HIRM F) (s : Sampling F) : Prop where
  reach : Reach L s.H
  seats : ∃ n, Seats n s.crps
  sampled : Sampled H0 s.H (fun r => (s.obs.find? r).getD [])

theorem Good.base_contains {H : HIRM F} (h : Good L H) (r : String) : H.baseToNoisy.contains r = false ↔ Leaf H.schema r := by
  rw [FMap.contains_false]
  constructor
  · intro hc n spec hs hb
    have := (h.noisy r n).mpr ⟨spec, hs, hb⟩
    rw [hc] at this
    cases this
  · intro hl
    cases hf : H.baseToNoisy.find? r with
    | none => rfl
    | some ns =>
      cases ns with
      | nil => exact absurd hf (h.listed r)
      | cons n ns =>
        obtain ⟨spec, hs, hb⟩ := (h.noisy r n).mp (by rw [hf]; simp)
        exact absurd hb (hl n spec hs)

theorem Sampled.refl (H : HIRM F) : Sampled H H (fun _ => []) where
  schema := rfl
  kept _ _ _ h := h
  distinct _ := by simp
  new r k v h := by simp at h
  leaf r k v _ h h' := by rw [h] at h'; cases h'
  base n k v _ h h' := by rw [h] at h'; cases h'

theorem Sampled.step {H0 H H' : HIRM F} {obs obs' : String → List (Items × V)} {r : String} {es : Items} {v : V} (h : Sampled H0 H obs)
    (hsch : H'.schema = H.schema) (hr : Leaf H0.schema r) (hn : H.value r es = none) (hv : H'.value r es = some v)
    (hk : ∀ n k v, H.value n k = some v → H'.value n k = some v)
    (hd : ∀ n k v', H.value n k = none → H'.value n k = some v' → (n = r ∧ k = es) ∨ Needed H H' n k)
    (ho : obs' r = obs r ++ [(es, v)]) (ho' : ∀ n, n ≠ r → obs' n = obs n) : Sampled H0 H' obs' := by
  have hnone : ∀ n k, H.value n k = none → H0.value n k = none := by
    intro n k h1
    cases h0 : H0.value n k with
    | none => rfl
    | some w => rw [h.kept n k w h0] at h1; cases h1
  have hneed : ∀ n k, Needed H H' n k → Needed H0 H' n k := by
    rintro n k ⟨m, spec, sp, k', w, h1, h2, h3, h4, h5, h6⟩
    rw [h.schema] at h1 h3
    exact ⟨m, spec, sp, k', w, h1, h2, h3, hnone _ _ h4, h5, h6⟩
  have hnl : ∀ n k, Needed H0 H' n k → ¬ Leaf H0.schema n := by
    rintro n k ⟨m, spec, sp, k', w, h1, h2, h3, h4, h5, h6⟩ hl
    exact hl m spec h1 h2
  refine ⟨hsch.trans h.schema, fun n k w hw => hk n k w (h.kept n k w hw), fun n => ?_, fun n k w hm => ?_, fun n k w hl h0 h1 => ?_,
    fun n k w hl h0 h1 => ?_⟩
  · by_cases hnr : n = r
    · subst hnr
      rw [ho, List.map_append, List.nodup_append]
      refine ⟨h.distinct n, by simp, ?_⟩
      intro a ha b hb hab
      simp only [List.map_cons, List.map_nil, List.mem_cons, List.not_mem_nil, or_false] at hb
      subst hb
      subst hab
      obtain ⟨⟨k, w⟩, hm, rfl⟩ := List.mem_map.mp ha
      rw [(h.new n k w hm).2] at hn
      cases hn
    · rw [ho' n hnr]; exact h.distinct n
  · by_cases hnr : n = r
    · subst hnr
      rw [ho] at hm
      rcases List.mem_append.mp hm with hm | hm
      · obtain ⟨h1, h2⟩ := h.new n k w hm
        exact ⟨h1, hk _ _ _ h2⟩
      · simp only [List.mem_cons, List.not_mem_nil, or_false] at hm
        cases hm
        exact ⟨hnone _ _ hn, hv⟩
    · rw [ho' n hnr] at hm
      obtain ⟨h1, h2⟩ := h.new n k w hm
      exact ⟨h1, hk _ _ _ h2⟩
  · cases hH : H.value n k with
    | some w' =>
      have := hk n k w' hH
      rw [h1] at this; cases this
      have := h.leaf n k w hl h0 hH
      by_cases hnr : n = r
      · subst hnr; rw [ho]; exact List.mem_append_left _ this
      · rw [ho' n hnr]; exact this
    | none =>
      rcases hd n k w hH h1 with ⟨rfl, rfl⟩ | hneed'
      · rw [hv] at h1; cases h1; rw [ho]; simp
      · exact absurd hl (hnl n k (hneed n k hneed'))
  · cases hH : H.value n k with
    | some w' =>
      obtain ⟨m, spec, sp, k', w'', a1, a2, a3, a4, a5, a6⟩ := h.base n k w' hl h0 hH
      exact ⟨m, spec, sp, k', w'', a1, a2, a3, a4, hk _ _ _ a5, a6⟩
    | none =>
      rcases hd n k w hH h1 with ⟨rfl, rfl⟩ | hneed'
      · exact absurd hr hl
      · exact hneed n k hneed'

theorem sampleLoop_ok (S : Samples L) {H0 : HIRM F} (hcm : Compatible L H0.schema) {r : String} {spec : RelSpec F}
    (hs : H0.schema.find? r = some spec) (hleaf : Leaf H0.schema r) (n : Nat) :
    ∀ (fuel num : Nat) (s : Sampling F) (t : Tape), Loop L H0 s → num ≤ n → ((s.obs.find? r).getD []).length = num →
    ∃ res, sampleLoop r spec.doms n fuel num s t = .ok res ∧ ∀ s' t', res = some (s', t') → Loop L H0 s' ∧
      ((s'.obs.find? r).getD []).length = n ∧ ∀ r', r' ≠ r → s'.obs.find? r' = s.obs.find? r' := by
  intro fuel
  induction fuel with
  | zero =>
    intro num s t h hle hlen
    by_cases hlt : num < n
    · exact ⟨none, by simp only [sampleLoop, if_pos hlt], fun s' t' he => by cases he⟩
    · refine ⟨some (s, t), by simp only [sampleLoop, if_neg hlt], fun s' t' he => ?_⟩
      cases he
      exact ⟨h, by omega, fun _ _ => rfl⟩
  | succ fuel ih =>
    intro num s t h hle hlen
    by_cases hlt : num < n
    · obtain ⟨m, hm⟩ := h.seats
      obtain ⟨es, cs, crps, t1, m', h1, h2, h3, h4, h5, h6⟩ := drawEntities_ok spec.doms m s.crps t hm
      have hsch := h.sampled.schema
      obtain ⟨tb, id, rel, hr⟩ := h.reach.good.skel.relOf (n := r) (by rw [hsch]; exact FMap.contains_iff.mpr ⟨_, hs⟩)
      have hget : s.H.getRelation r = .ok ({ table := some tb, name := r, id := id }, rel) := getRelation_ok.mpr ⟨tb, id, hr, rfl⟩
      cases hc : rel.data.contains es with
      | true =>
        obtain ⟨crps', g1, g2⟩ := undraw_ok cs m crps h4 (fun d i hd => ((h6 d i).mp hd).1) (fun d => ⟨(h3 d).1, fun i => by
          rw [(h3 d).2, h6]
          have := h5 d
          constructor
          · intro hh
            by_cases hi : i < m d
            · exact .inl ⟨hh.1, hi⟩
            · exact .inr ⟨by omega, hh.2⟩
          · rintro (hh | hh) <;> omega⟩)
        obtain ⟨res, a1, a2⟩ := ih num { s with crps := crps' } t1 ⟨h.reach, ⟨m, g2⟩, h.sampled⟩ hle hlen
        refine ⟨res, ?_, a2⟩
        simp only [sampleLoop, if_pos hlt, bind, Except.bind, h1, hget, hc, if_true, g1]
        exact a1
      | false =>
        have hn : s.H.value r es = none := by rw [value_of hr]; exact FMap.contains_false.mp hc
        obtain ⟨l, hl⟩ := (h.reach.grounded r (by rw [hsch]; exact FMap.contains_iff.mpr ⟨_, hs⟩)).chain
        obtain ⟨v, H', t2, b1, b2, b3, b4, b5, b6⟩ := sampleRelation_ok S (by rw [hsch]; exact hcm) hl h.reach rfl (by rw [hsch]; exact hs) h2 hn
          (s.H.schema.size + 1) (le_trans hl.length_le (Nat.le_succ _)) t1
        have hlp : Loop L H0 { H := H', crps := crps, obs := s.obs.set r ((s.obs.find? r).getD [] ++ [(es, v)]) } :=
          ⟨b2, ⟨m', h3⟩, h.sampled.step b3 hleaf hn b4 b5 (fun n k v' q1 q2 => (b6 n k v' q1 q2).2) (by simp [FMap.find?_set_self])
            (fun n hnr => by simp [FMap.find?_set_ne _ hnr])⟩
        obtain ⟨res, a1, a2⟩ := ih (num + 1) _ t2 hlp hlt (by
          dsimp only
          rw [FMap.find?_set_self, Option.getD_some, List.length_append, hlen]; rfl)
        refine ⟨res, ?_, fun s' t' he => ?_⟩
        · simp only [sampleLoop, if_pos hlt, bind, Except.bind, h1, hget, hc, Bool.false_eq_true, if_false, b1]
          exact a1
        · obtain ⟨a3, a4, a5⟩ := a2 s' t' he
          exact ⟨a3, a4, fun r' hr' => by rw [a5 r' hr']; exact FMap.find?_set_ne _ hr' _⟩
    · refine ⟨some (s, t), by simp only [sampleLoop, if_neg hlt], fun s' t' he => ?_⟩
      cases he
      exact ⟨h, by omega, fun _ _ => rfl⟩

theorem sampleLeaves_ok (S : Samples L) {H0 : HIRM F} (hcm : Compatible L H0.schema) (n fuel : Nat) :
    ∀ (l : List (String × RelSpec F)), (∀ e ∈ l, H0.schema.find? e.1 = some e.2) → (l.map Prod.fst).Nodup →
      ∀ (s : Sampling F) (t : Tape), Loop L H0 s → (∀ e ∈ l, s.obs.find? e.1 = none) →
    ∃ res, sampleLeaves n fuel l s t = .ok res ∧ ∀ s' t', res = some (s', t') → Loop L H0 s' ∧
      (∀ e ∈ l, ((s'.obs.find? e.1).getD []).length = if s.H.baseToNoisy.contains e.1 then 0 else n) ∧
      ∀ r, r ∉ l.map Prod.fst → s'.obs.find? r = s.obs.find? r := by
  intro l
  induction l with
  | nil => intro _ _ s t h _; exact ⟨some (s, t), rfl, fun s' t' he => by cases he; exact ⟨h, by simp, fun _ _ => rfl⟩⟩
  | cons e l ih =>
    obtain ⟨r, spec⟩ := e
    intro hl hnd s t h ho
    obtain ⟨hnr, hnd⟩ := List.nodup_cons.mp hnd
    have hsame : ∀ (s' : Sampling F), Loop L H0 s' → ∀ r, s'.H.baseToNoisy.contains r = s.H.baseToNoisy.contains r := by
      intro s' hs' r
      have h1 := hs'.reach.good.base_contains r
      have h2 := h.reach.good.base_contains r
      rw [hs'.sampled.schema] at h1
      rw [h.sampled.schema] at h2
      rw [Bool.eq_iff_iff, ← Bool.not_eq_false, ← Bool.not_eq_false, h1, h2]
    cases hb : s.H.baseToNoisy.contains r with
    | true =>
      obtain ⟨res, a1, a2⟩ := ih (fun e he => hl e (by simp [he])) hnd s t h (fun e he => ho e (by simp [he]))
      refine ⟨res, by simp only [sampleLeaves, hb, if_true, a1], fun s' t' he => ?_⟩
      obtain ⟨b1, b2, b3⟩ := a2 s' t' he
      refine ⟨b1, fun e he' => ?_, fun r' hr' => b3 r' (fun hm => hr' (by simp [hm]))⟩
      rcases List.mem_cons.mp he' with rfl | he'
      · rw [if_pos hb, b3 r hnr, ho (r, spec) (by simp)]; rfl
      · exact b2 e he'
    | false =>
      have hleaf : Leaf H0.schema r := by
        have := (h.reach.good.base_contains r).mp hb
        rw [h.sampled.schema] at this
        exact this
      obtain ⟨res, a1, a2⟩ := sampleLoop_ok S hcm (hl (r, spec) (by simp)) hleaf n fuel 0 s t h (Nat.zero_le _) (by
        rw [ho (r, spec) (by simp)]; rfl)
      cases res with
      | none =>
        refine ⟨none, ?_, fun s' t' he => by cases he⟩
        simp only [sampleLeaves, hb, Bool.false_eq_true, if_false, bind, Except.bind]
        rw [a1]
      | some x =>
        obtain ⟨s1, t1⟩ := x
        obtain ⟨b1, b2, b3⟩ := a2 s1 t1 rfl
        obtain ⟨res, c1, c2⟩ := ih (fun e he => hl e (by simp [he])) hnd s1 t1 b1 (fun e he => by
          rw [b3 e.1 (by rintro rfl; exact hnr (List.mem_map.mpr ⟨e, he, rfl⟩))]
          exact ho e (by simp [he]))
        refine ⟨res, ?_, fun s' t' he => ?_⟩
        · simp only [sampleLeaves, hb, Bool.false_eq_true, if_false, bind, Except.bind]
          rw [a1]
          exact c1
        · obtain ⟨d1, d2, d3⟩ := c2 s' t' he
          refine ⟨d1, fun e he' => ?_, fun r' hr' => ?_⟩
          · rcases List.mem_cons.mp he' with rfl | he'
            · rw [hb, d3 r hnr]; exact b2
            · rw [d2 e he', hsame s1 b1]
          · simp only [List.map_cons, List.mem_cons, not_or] at hr'
            rw [d3 r' hr'.2, b3 r' hr'.1]

end HIRM
end
end Verif
