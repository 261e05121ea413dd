import Verif.Lemmas.IncorporateAll
import Verif.Props.HIRMMoves
/-! The IRM and the HIRM keep the contract that `incorporate_observations` needs. -/
namespace Verif
open Spec UtilIO
noncomputable section
variable {V : Type} {F : Family V} {L : FamilyLaws F}

namespace CleanRel
variable {D : DistOps V}

theorem containsLoop_none {σ : Doms} (hσ : StoreWF σ) : ∀ {ds : List String} {is : Items}, is.length = ds.length → (∀ d ∈ ds, σ.contains d = true) →
    tupleSeat σ ds is = none → containsLoop σ ds is = .ok none
  | [], [], _, _, h => by simp [tupleSeat] at h
  | [], _ :: _, h, _, _ => by simp at h
  | _ :: _, [], h, _, _ => by simp at h
  | d :: ds, i :: is, hl, hd, h => by
    obtain ⟨dom, hdom⟩ := FMap.contains_iff.mp (hd d (by simp))
    rw [containsLoop, Doms.get_eq hdom]
    simp only [bind, Except.bind]
    cases hp : dom.items.contains i with
    | false => rfl
    | true =>
      obtain ⟨a, ha⟩ := (hσ d dom hdom).mem.mp hp
      have hs : seatOf σ d i = some a := by simp [seatOf, hdom]; exact ha
      have h2 : tupleSeat σ ds is = none := by
        rw [tupleSeat, hs] at h
        simpa using h
      simp only [if_true, Domain.getClusterAssignment_eq (hσ d dom hdom) ha, containsLoop_none hσ (by simpa using hl) (fun d' hd' => hd d' (by simp [hd'])) h2,
        Option.map_none]

theorem clustersContains_none {σ : Doms} (hσ : StoreWF σ) {r : CleanRel D} {items : Items} (hl : items.length = r.doms.length)
    (hd : ∀ d ∈ r.doms, σ.contains d = true) (h : tupleSeat σ r.doms items = none) : clustersContains σ r items = .ok false := by
  simp [clustersContains, bind, Except.bind, hl, containsLoop_none hσ hl hd h, assertR]

/-- whether there is a cluster for the tuple -/
theorem clustersContains_cases {supp : V → Prop} {σ : Doms} (hσ : StoreWF σ) {r : CleanRel D} (h : Inv supp σ r) {items : Items} (hl : items.length = r.doms.length) :
    (clustersContains σ r items = .ok false) ∨
    ∃ z s m, clustersContains σ r items = .ok true ∧ clusterOf σ r items = .ok z ∧ r.clusters.find? z = some s ∧ D.Holds supp m s := by
  cases hz : tupleSeat σ r.doms items with
  | none => exact .inl (clustersContains_none hσ hl h.doms hz)
  | some z =>
    rw [clustersContains_eq hσ hz]
    cases hc : r.clusters.find? z with
    | none => exact .inl (by rw [FMap.contains_false.mpr hc])
    | some s => exact .inr ⟨z, s, _, by rw [FMap.contains_iff.mpr ⟨_, hc⟩], clusterOf_eq hσ hz, hc, ((h.cl z).2 s hc).2⟩

theorem clustersContains_pre {σ : Doms} {r : CleanRel D} {items : Items} {b : Bool} (h : clustersContains σ r items = .ok b) :
    items.length = r.doms.length := by
  obtain ⟨_, h1, _⟩ := bind_ok.mp h
  simpa using assertR_ok.mp h1

end CleanRel

namespace Rel

/-- `sample_at_items` of a tuple of the right length returns a supported value and changes nothing -/
theorem Inv.sampleAt_ok (S : Samples L) {ar : Ptr → Option Nat} {σ : Doms} (hσ : StoreWF σ) {r : Rel F} (h : r.Inv L ar σ) {b : Option (BaseView V)}
    (hb : ∀ p, r.base? = some p → ∀ b', b = some b' → ar p = some b'.arity) {items : Items} (hl : items.length = r.doms.length)
    (hbase : ∀ e p q, r = .noisy e p q → ∃ b' bv y, b = some b' ∧ b'.data.find? (items.take b'.arity) = some bv ∧ L.suppE e (bv, y))
    (hcl : ∀ c q, r = .clean c q → L.Sampleable c) (t : Tape) :
    ∃ x t', r.sampleAtItems σ b items t = .ok (x, r, t') ∧ r.Supports L b items x := by
  cases r with
  | clean c r =>
    rcases CleanRel.clustersContains_cases hσ h hl with h1 | ⟨z, s, m, h1, h2, h3, h4⟩
    · obtain ⟨x, t', h5, h6⟩ := hcl c _ rfl 0 ((F.dist c).fresh t).1 ((F.dist c).fresh t).2 (holds_fresh _)
      refine ⟨x, t', ?_, h6⟩
      simp only [Rel.sampleAtItems, CleanRel.sampleAtItems, bind, Except.bind, h1, Bool.false_eq_true, if_false, h5]
    · obtain ⟨x, t', h5, h6⟩ := hcl c _ rfl m s t h4
      refine ⟨x, t', ?_, h6⟩
      simp only [Rel.sampleAtItems, CleanRel.sampleAtItems, bind, Except.bind, h1, if_true, h2, FMap.atKey_of_find h3, h5, FMap.set_of_find h3]
  | noisy e p r =>
    obtain ⟨h, n, h0, h'⟩ := h
    obtain ⟨b', bv, y, rfl, hbv, hy⟩ := hbase e p r rfl
    have : n = b'.arity := by
      have := hb p rfl b' rfl
      rw [h0] at this
      exact Option.some.inj this
    subst this
    have hl : items.length = r.doms.length := hl
    have ha : b'.arity ≤ items.length := by rw [hl]; exact h'.arity
    have hbve : NoisyRel.baseValue b' items = .ok bv := NoisyRel.baseValue_eq ha hbv
    have hsup : ∀ x, L.suppE e (bv, x) → (Rel.noisy e p r : Rel F).Supports L (some b') items x := by
      intro x hx b1 hb1 bv1 hbv1
      cases hb1
      rw [hbv] at hbv1; cases hbv1
      exact hx
    rcases CleanRel.clustersContains_cases hσ h (by rw [h'.doms]; exact hl) with h1 | ⟨z, s, m, h1, h2, h3, h4⟩
    · obtain ⟨x, t', h5, h6⟩ := S.noisy e 0 ((F.emis e).fresh t).1 bv ((F.emis e).fresh t).2 (holds_fresh _) ⟨y, hy⟩
      refine ⟨x, t', ?_, hsup x h6⟩
      simp only [Rel.sampleAtItems, NoisyRel.sampleAtItems, derefR, bind, Except.bind, hbve, h1, Bool.false_eq_true, if_false, h5]
    · obtain ⟨x, t', h5, h6⟩ := S.noisy e m s bv t h4 ⟨y, hy⟩
      refine ⟨x, t', ?_, hsup x h6⟩
      simp only [Rel.sampleAtItems, NoisyRel.sampleAtItems, derefR, bind, Except.bind, hbve, h1, if_true, h2, FMap.atKey_of_find h3, h5]

theorem sampleAt_pre {σ : Doms} {r : Rel F} {b : Option (BaseView V)} {items : Items} {t : Tape} {x : V × Rel F × Tape}
    (hd : ∀ e p q, r = .noisy e p q → q.emission.doms = q.doms) (h : r.sampleAtItems σ b items t = .ok x) :
    items.length = r.doms.length ∧ r.HasBase b items := by
  cases r with
  | clean c r =>
    obtain ⟨y, h1, _⟩ := bind_ok.mp h
    obtain ⟨d, h2, _⟩ := bind_ok.mp h1
    exact ⟨CleanRel.clustersContains_pre h2, fun p hp => by cases hp⟩
  | noisy e p r =>
    obtain ⟨b', h0, h⟩ := bind_ok.mp h
    obtain ⟨y, h1, _⟩ := bind_ok.mp h
    obtain ⟨bv, h2, h3⟩ := bind_ok.mp h1
    obtain ⟨d, h4, _⟩ := bind_ok.mp h3
    obtain ⟨bi, h5, h6⟩ := bind_ok.mp h2
    obtain ⟨_, rfl⟩ := NoisyRel.baseItems_ok h5
    refine ⟨?_, fun p hp => ?_⟩
    · rw [CleanRel.clustersContains_pre h4]
      exact congrArg List.length (hd e p r rfl)
    · cases b with
      | none => cases h0
      | some b'' =>
        cases h0
        exact ⟨b', bv, rfl, NoisyRel.BaseView.getValue_ok h6⟩

theorem Inv.emission_doms {ar : Ptr → Option Nat} {σ : Doms} {r : Rel F} (h : r.Inv L ar σ) : ∀ e p q, r = .noisy e p q → q.emission.doms = q.doms := by
  rintro e p q rfl
  obtain ⟨_, _, _, h'⟩ := h
  exact h'.doms

theorem Inv.base_arity {ar : Ptr → Option Nat} {σ : Doms} {r : Rel F} (h : r.Inv L ar σ) {p : Ptr} (hp : r.base? = some p) :
    ∃ n, ar p = some n ∧ n ≤ r.doms.length := by
  cases r with
  | clean c r => cases hp
  | noisy e p' r =>
    obtain ⟨_, n, h0, h'⟩ := h
    cases hp
    exact ⟨n, h0, h'.arity⟩

end Rel

/-- the statements of `Hosted` about a relation, in terms of the relation object -/
structure Shown (schema : Schema F) (val : String → Items → Option V) (spec : RelSpec F) (rel : Rel F) (b : Option (BaseView V)) : Prop where
  matched : spec.Matches rel
  base : ∀ bn, spec.base? = some bn → ∃ sp view, schema.find? bn = some sp ∧ b = some view ∧ view.arity = sp.doms.length ∧
    sp.doms.length ≤ spec.doms.length ∧ ∀ k, view.data.find? k = val bn k

namespace Shown
variable {schema : Schema F} {val : String → Items → Option V} {spec : RelSpec F} {rel : Rel F} {b : Option (BaseView V)}

theorem hasBase (h : Shown schema val spec rel b) {k : Items} : rel.HasBase b k ↔ Ready schema val spec k := by
  constructor
  · intro hb bn hbn
    have h1 := h.matched.base
    rw [hbn] at h1
    obtain ⟨p, hp, _⟩ := Option.map_eq_some_iff.mp h1
    obtain ⟨b', bv, h2, h3⟩ := hb p hp
    obtain ⟨sp, view, g1, g2, g3, _, g4⟩ := h.base bn hbn
    rw [h2] at g2; cases g2
    exact ⟨sp, bv, g1, by rw [← g4, ← g3]; exact h3⟩
  · intro hr p hp
    have h1 := h.matched.base
    rw [hp] at h1
    obtain ⟨sp, bv, h2, h3⟩ := hr p.name h1.symm
    obtain ⟨sp', view, g1, g2, g3, _, g4⟩ := h.base p.name h1.symm
    rw [h2] at g1; cases g1
    exact ⟨view, bv, g2, by rw [g4, g3]; exact h3⟩

theorem supports (h : Shown schema val spec rel b) {k : Items} {v : V} : rel.Supports L b k v ↔ InSupport L schema val k v spec := by
  have hk := h.matched.kind
  cases rel with
  | clean c q =>
    cases spec with
    | clean c' ds o => cases hk; exact Iff.rfl
    | noisy e ds b o => cases hk
  | noisy e p q =>
    cases spec with
    | clean c' ds o => cases hk
    | noisy e' ds bn o =>
      cases hk
      obtain ⟨sp', view, g1, g2, g3, _, g4⟩ := h.base bn rfl
      subst g2
      constructor
      · intro hs sp bv h1 h2
        rw [g1] at h1; cases h1
        exact hs view rfl bv (by rw [g4, g3]; exact h2)
      · intro hs b' hb' bv hbv
        cases hb'
        exact hs sp' bv g1 (by rw [← g4, ← g3]; exact hbv)

theorem sampleable (h : Shown schema val spec rel b) (hcm : Usable L schema) {r : String} (hs : schema.find? r = some spec)
    (hval : ∀ n sp k v, schema.find? n = some sp → val n k = some v → sp.Value L v) {k : Items} (hr : Ready schema val spec k) :
    ∀ e p q, rel = .noisy e p q → ∃ b' bv y, b = some b' ∧ b'.data.find? (k.take b'.arity) = some bv ∧ L.suppE e (bv, y) := by
  rintro e p q rfl
  have hk := h.matched.kind
  cases spec with
  | clean c' ds o => cases hk
  | noisy e' ds bn o =>
    cases hk
    obtain ⟨sp, bv, h1, h2⟩ := hr bn rfl
    obtain ⟨sp', view, g1, g2, g3, _, g4⟩ := h.base bn rfl
    rw [h1] at g1; cases g1
    obtain ⟨y, hy⟩ := hcm.accepts r e ds bn o sp hs h1 bv (hval bn sp _ bv h1 h2)
    exact ⟨view, bv, y, g2, by rw [g4, g3]; exact h2, hy⟩

theorem distribution (h : Shown schema val spec rel b) (hcm : Usable L schema) {r : String} (hs : schema.find? r = some spec)
    (hib : ∃ n spec', schema.find? n = some spec' ∧ spec'.base? = some r) : ∀ c q, rel = .clean c q → L.Sampleable c := by
  rintro c q rfl
  have hk := h.matched.kind
  obtain ⟨n, spec', h1, h2⟩ := hib
  cases spec with
  | clean c' ds o => cases hk; exact hcm.bases r c ds o n spec' hs h1 h2
  | noisy e' ds bn o => cases hk

end Shown

namespace HIRM

theorem Good.shown {H : HIRM F} (h : Good L H) {r : String} {spec : RelSpec F} (hs : H.schema.find? r = some spec) {tb : Int} {id : Nat} {rel : Rel F}
    (hr : H.relOf r = some (tb, id, rel)) : Shown H.schema H.value spec rel (IRM.baseOf H.env rel) := by
  obtain ⟨sp, h1, hm⟩ := h.matched hr
  rw [hs] at h1; cases h1
  refine ⟨hm, fun bn hbn => ?_⟩
  have h1 := hm.base
  rw [hbn] at h1
  obtain ⟨p, hp, rfl⟩ := Option.map_eq_some_iff.mp h1
  obtain ⟨btb, bid, br, g1, _, g2, g3, _⟩ := h.base hr hp
  obtain ⟨sp', g4, g5⟩ := h.matched g1
  obtain ⟨_, I, hI, hx⟩ := relOf_some.mp hr
  obtain ⟨n, g6, g7⟩ := ((h.inv tb I hI).rels r id rel hx).base_arity hp
  rw [g3] at g6; cases g6
  refine ⟨sp', br.view, g4, g2, by rw [← g5.doms]; rfl, by rw [← g5.doms, ← hm.doms]; exact g7, fun k => (value_of g1 k).symm⟩

theorem hosted (S : Samples L) : Hosted (HIRM.host F) HIRM.value L (fun H => Reach L H ∧ Usable L H.schema) where
  get {H r spec} hR hs := by
    have hg := hR.1.good
    have hs : H.schema.find? r = some spec := hs
    obtain ⟨tb, id, rel, hr⟩ := hg.skel.relOf (FMap.contains_iff.mpr ⟨spec, hs⟩)
    have hsh := hg.shown hs hr
    obtain ⟨hT, I, hI, hx⟩ := relOf_some.mp hr
    have hirm : H.relationToIrm r = .ok (tb, I) := relationToIrm_ok.mpr ⟨hT, hI⟩
    refine ⟨rel, ?_, ?_, fun k => (value_of hr k).symm, fun b hb => ?_⟩
    · simp only [HIRM.host, getRelation, bind, Except.bind, hirm, FMap.atKey_of_find hx]
    · rw [← hsh.matched.kind]; cases rel <;> rfl
    · obtain ⟨sp, view, g1, g2, g3, g4, _⟩ := hsh.base b hb
      exact ⟨sp, view, g1, g2, g3, g4⟩
  known {H r rel} hR h := by
    obtain ⟨⟨p, rel'⟩, h1, h2⟩ := bind_ok.mp h
    obtain ⟨⟨tb, I⟩, h3, h4⟩ := bind_ok.mp h1
    obtain ⟨⟨id, rel''⟩, h5, h6⟩ := bind_ok.mp h4
    obtain ⟨hT, hI⟩ := relationToIrm_ok.mp h3
    exact FMap.contains_iff.mp (hR.1.good.skel.known (relOf_some.mpr ⟨hT, I, hI, FMap.atKey_ok.mp h5⟩))
  links hR b n := hR.1.good.noisy b n
  listed hR b := hR.1.good.listed b
  grounded hR n hn := hR.1.grounded n hn
  vals hR hs hv := hR.1.good.value hs hv
  inc {H r spec k v} hR hs hl hn hb hv t := by
    have hg := hR.1.good
    have hs : H.schema.find? r = some spec := hs
    obtain ⟨tb, id, rel, hr⟩ := hg.skel.relOf (FMap.contains_iff.mpr ⟨spec, hs⟩)
    have hsh := hg.shown hs hr
    have hv' : rel.Supports L (IRM.baseOf H.env rel) k v := hsh.supports.mpr hv
    obtain ⟨H', t', rel', h1, h2, h3, h4, h5, h6⟩ := hg.incorporate hr hv' (by rw [hl, hsh.matched.doms]) (by rw [← value_of hr]; exact hn) (hsh.hasBase.mpr hb) t
    refine ⟨H', t', h1, ⟨.incorporate hR.1 (fun tb' id' r' hr' => by rw [hr] at hr'; cases hr'; exact hv') h1, ?_⟩, h3.schema, h3.baseToNoisy, ?_⟩
    · rw [h3.schema]; exact hR.2
    · intro n k'
      rw [HIRM.value, dataOf, h6]
      by_cases hnr : n = r
      · subst hnr
        simp only [if_true, Option.map_some, Option.bind_some, h5, FMap.find?_set, true_and]
        split
        · rfl
        · exact (value_of hr k').symm
      · simp only [hnr, if_false, false_and]
        rfl
  inc_pre {H r k v t x} hR hv h := by
    have hg := hR.1.good
    obtain ⟨H', t'⟩ := x
    obtain ⟨tb, id, rel, hr, h1, h2, h3⟩ := incorporate_pre hg h
    obtain ⟨spec, hs, hm⟩ := hg.matched hr
    exact ⟨spec, hs, by rw [h1, hm.doms], by rw [value_of hr]; exact h2, (hg.shown hs hr).hasBase.mp h3⟩
  sample {H r spec k} hR hs hib hl hb t := by
    have hg := hR.1.good
    have hs : H.schema.find? r = some spec := hs
    obtain ⟨tb, id, rel, hr⟩ := hg.skel.relOf (FMap.contains_iff.mpr ⟨spec, hs⟩)
    have hsh := hg.shown hs hr
    obtain ⟨hT, I, hI, hx⟩ := relOf_some.mp hr
    have hirm : H.relationToIrm r = .ok (tb, I) := relationToIrm_ok.mpr ⟨hT, hI⟩
    obtain ⟨x, t', h1, h2⟩ := ((hg.inv tb I hI).rels r id rel hx).sampleAt_ok S (hg.inv tb I hI).store (fun p hp b' hb' => by
      obtain ⟨b'', h7, h8⟩ := hg.bases hr p hp
      rw [hb'] at h7; cases h7; exact h8) (by rw [hl, hsh.matched.doms]) (hsh.sampleable hR.2 hs (fun n sp k v a b => hg.value a b) hb)
      (hsh.distribution hR.2 hs hib) t
    refine ⟨x, t', ?_, hsh.supports.mp h2⟩
    simp only [HIRM.host, HIRM.sampleAt, bind, Except.bind, hirm, FMap.atKey_of_find hx, h1]
    rw [FMap.set_of_find hx, FMap.set_of_find hI]
  sample_pre {H r k t x} hR h := by
    have hg := hR.1.good
    obtain ⟨⟨tb, I⟩, h1, h2⟩ := bind_ok.mp h
    obtain ⟨⟨id, rel⟩, h3, h4⟩ := bind_ok.mp h2
    obtain ⟨y, h5, _⟩ := bind_ok.mp h4
    obtain ⟨hT, hI⟩ := relationToIrm_ok.mp h1
    have hx := FMap.atKey_ok.mp h3
    have hr : H.relOf r = some (tb, id, rel) := relOf_some.mpr ⟨hT, I, hI, hx⟩
    obtain ⟨spec, hs, hm⟩ := hg.matched hr
    obtain ⟨g1, g2⟩ := Rel.sampleAt_pre ((hg.inv tb I hI).rels r id rel hx).emission_doms h5
    exact ⟨spec, hs, by rw [g1, hm.doms], (hg.shown hs hr).hasBase.mp g2⟩

end HIRM

namespace IRM

/-- the links of an IRM whose relations were all added and never removed -/
structure Tied (I : IRM F) : Prop where
  noisy : ∀ b n, n ∈ (I.baseToNoisy.find? b).getD [] ↔ ∃ spec, I.schema.find? n = some spec ∧ spec.base? = some b
  listed : ∀ b, I.baseToNoisy.find? b ≠ some []
  grounded : ∀ n, I.schema.contains n = true → Grounded I.schema n

theorem Tied.keys {I I' : IRM F} (h : Tied I) (hk : KeysL I I') : Tied I' where
  noisy := by rw [hk.links, hk.schema]; exact h.noisy
  listed := by rw [hk.links]; exact h.listed
  grounded := by rw [hk.schema]; exact h.grounded

theorem _root_.Verif.Grounded.set {schema : Schema F} {name : String} {spec : RelSpec F} (hn : schema.find? name = none) {n : String} (h : Grounded schema n) :
    Grounded (schema.set name spec) n := by
  induction h with
  | @clean n sp h hb =>
    exact .clean (by rw [FMap.find?_set_ne]; exact h; rintro rfl; rw [hn] at h; cases h) hb
  | @noisy n b sp h hb _ ih =>
    exact .noisy (by rw [FMap.find?_set_ne]; exact h; rintro rfl; rw [hn] at h; cases h) hb ih

theorem Tied.add {n : Nat} {I I' : IRM F} {name : String} {spec : RelSpec F} (h : Tied I) (hi : Inv L (arOf I.env) I) (hc : addRelation n I name spec = .ok I') : Tied I' := by
  obtain ⟨h1, _, h3⟩ := addRelation_pre hi hc
  have hnone : I.schema.find? name = none := by
    rcases hi.schema name with ⟨h, _⟩ | ⟨_, _, _, _, h, _⟩
    · exact h
    · rw [h1] at h; cases h
  have hdoms : ∀ (ds : List String) (I I' : IRM F), addDomains name ds I = .ok I' → I'.baseToNoisy = I.baseToNoisy := by
    intro ds
    induction ds with
    | nil => intro I I' hc; cases hc; rfl
    | cons d ds ih =>
      intro I I' hc
      unfold addDomains at hc
      dsimp only at hc
      split at hc
      · obtain ⟨y, h1, hc⟩ := bind_ok.mp hc
        cases h1
        obtain ⟨s, _, hc⟩ := bind_ok.mp hc
        exact (ih _ _ hc).trans rfl
      · obtain ⟨_, _, hc⟩ := bind_ok.mp hc
        obtain ⟨y, h1, hc⟩ := bind_ok.mp hc
        cases h1
        obtain ⟨s, _, hc⟩ := bind_ok.mp hc
        exact (ih _ _ hc).trans rfl
  cases spec with
  | clean c ds o =>
    obtain ⟨_, _, hc⟩ := bind_ok.mp hc
    obtain ⟨_, _, hc⟩ := bind_ok.mp hc
    obtain ⟨I1, h5, hc⟩ := bind_ok.mp hc
    obtain ⟨r, _, hc⟩ := bind_ok.mp hc
    cases hc
    obtain ⟨h6, _⟩ := addDomains_keys _ _ _ h5
    have h7 := hdoms _ _ _ h5
    refine ⟨fun b n => ?_, by rw [h7]; exact h.listed, fun n hn => ?_⟩
    · dsimp only
      rw [h7, h6, h.noisy b n, FMap.find?_set]
      by_cases hnn : n = name
      · subst hnn
        simp [hnone, RelSpec.base?]
      · simp [hnn]
    · dsimp only at hn ⊢
      rw [h6] at hn ⊢
      by_cases hnn : n = name
      · subst hnn
        exact .clean (FMap.find?_set_self ..) rfl
      · refine .set hnone (h.grounded n ?_)
        rw [FMap.contains_iff_mem, FMap.keys_set_mem] at hn
        rw [FMap.contains_iff_mem]
        exact hn.resolve_left hnn
  | noisy e ds base o =>
    obtain ⟨bid, br, hb⟩ := h3 base rfl
    obtain ⟨_, _, hc⟩ := bind_ok.mp hc
    obtain ⟨_, _, hc⟩ := bind_ok.mp hc
    obtain ⟨I1, h5, hc⟩ := bind_ok.mp hc
    obtain ⟨h6, h6'⟩ := addDomains_keys _ _ _ h5
    have h7 := hdoms _ _ _ h5
    have hcb : I1.rels.contains base = true := by rw [h6']; exact FMap.contains_iff.mpr ⟨_, hb⟩
    simp only [hcb, Bool.not_true, Bool.false_eq_true, if_false] at hc
    obtain ⟨_, _, hc⟩ := bind_ok.mp hc
    obtain ⟨r, _, hc⟩ := bind_ok.mp hc
    cases hc
    have hbs : I.schema.contains base = true := by
      rcases hi.schema base with ⟨_, h⟩ | ⟨spec, _, _, h, _⟩
      · rw [hb] at h; cases h
      · exact FMap.contains_iff.mpr ⟨_, h⟩
    refine ⟨fun b n => ?_, fun b => ?_, fun n hn => ?_⟩
    · dsimp only
      rw [h7, h6, FMap.find?_set, FMap.find?_set]
      by_cases hbb : b = base
      · subst hbb
        simp only [if_true, Option.getD_some, List.mem_append, List.mem_singleton, h.noisy b n]
        by_cases hnn : n = name
        · subst hnn
          simp [RelSpec.base?]
        · simp [hnn]
      · simp only [hbb, if_false, h.noisy b n]
        by_cases hnn : n = name
        · subst hnn
          simp [hnone, RelSpec.base?, Ne.symm hbb]
        · simp [hnn]
    · dsimp only
      rw [h7, FMap.find?_set]
      split
      · simp
      · exact h.listed b
    · dsimp only at hn ⊢
      rw [h6] at hn ⊢
      by_cases hnn : n = name
      · subst hnn
        exact .noisy (FMap.find?_set_self ..) rfl (.set hnone (h.grounded base hbs))
      · refine .set hnone (h.grounded n ?_)
        rw [FMap.contains_iff_mem, FMap.keys_set_mem] at hn
        rw [FMap.contains_iff_mem]
        exact hn.resolve_left hnn

theorem Reach.tied {st : Prop} {n : Nat} {I : IRM F} (h : Reach L False st n I) : Tied I := by
  induction h with
  | empty => exact ⟨fun b n => by simp, fun b => by simp, fun n hn => by cases hn⟩
  | add h ha hc ih => exact ih.add h.inv hc
  | remove hrm => exact hrm.elim
  | seat _ _ _ _ ih => exact ih.keys ⟨⟨rfl, fun _ => rfl⟩, rfl⟩
  | incorporate _ _ hc ih => exact ih.keys (incorporate_keys hc)
  | unincorporate _ hc ih => exact ih.keys (unincorporate_keys hc)
  | item _ hc ih => exact ih.keys (transitionItem_keys hc)
  | hparams _ hc ih => exact ih.keys (hparamsSweep_keys _ _ _ _ hc)
  | alpha _ hc ih => exact ih.keys (alphaSweep_keys _ _ _ _ hc)
  | logp _ _ hc ih => exact ih.keys (logp_keys hc)

theorem value_of {I : IRM F} {n : String} {id : Nat} {r : Rel F} (h : I.rels.find? n = some (id, r)) (k : Items) : I.value n k = r.data.find? k := by
  simp [IRM.value, h]

theorem Inv.obj {ar : Ptr → Option Nat} {I : IRM F} (h : Inv L ar I) {r : String} {spec : RelSpec F} (hs : I.schema.find? r = some spec) :
    ∃ id rel, I.rels.find? r = some (id, rel) ∧ spec.Matches rel := by
  rcases h.schema r with ⟨h1, _⟩ | ⟨spec', id, rel, h1, h2, h3⟩
  · rw [hs] at h1; cases h1
  · rw [hs] at h1; cases h1
    exact ⟨id, rel, h2, h3⟩

theorem Inv.spec {ar : Ptr → Option Nat} {I : IRM F} (h : Inv L ar I) {r : String} {id : Nat} {rel : Rel F} (hr : I.rels.find? r = some (id, rel)) :
    ∃ spec, I.schema.find? r = some spec ∧ spec.Matches rel := by
  rcases h.schema r with ⟨_, h1⟩ | ⟨spec', id, rel, h1, h2, h3⟩
  · rw [hr] at h1; cases h1
  · rw [hr] at h2; cases h2
    exact ⟨spec', h1, h3⟩

theorem Inv.shown {I : IRM F} (h : Inv L (arOf I.env) I) {r : String} {spec : RelSpec F} (hs : I.schema.find? r = some spec) {id : Nat} {rel : Rel F}
    (hr : I.rels.find? r = some (id, rel)) : Shown I.schema I.value spec rel (baseOf I.env rel) := by
  obtain ⟨id', rel', h1, hm⟩ := h.obj hs
  rw [hr] at h1; cases h1
  refine ⟨hm, fun bn hbn => ?_⟩
  have h1 := hm.base
  rw [hbn] at h1
  obtain ⟨p, hp, rfl⟩ := Option.map_eq_some_iff.mp h1
  obtain ⟨n, g6, g7⟩ := (h.rels r id rel hr).base_arity hp
  obtain ⟨view, g8, rfl⟩ := Option.map_eq_some_iff.mp g6
  have hbo : baseOf I.env rel = some view := by rw [baseOf, hp]; exact g8
  have hview : ∃ bid br, I.rels.find? p.name = some (bid, br) ∧ view = br.view := by
    unfold IRM.env at g8
    split at g8
    · rename_i bid br _ hbr
      split at g8
      · cases g8; exact ⟨bid, br, hbr, rfl⟩
      · cases g8
    · cases g8
  obtain ⟨bid, br, hbr, rfl⟩ := hview
  obtain ⟨sp, g4, g5⟩ := h.spec hbr
  exact ⟨sp, br.view, g4, hbo, by rw [← g5.doms]; rfl, by rw [← g5.doms, ← hm.doms]; exact g7, fun k => (value_of hbr k).symm⟩

theorem Inv.value {ar : Ptr → Option Nat} {I : IRM F} (h : Inv L ar I) {n : String} {spec : RelSpec F} (hs : I.schema.find? n = some spec) {k : Items} {v : V}
    (hv : I.value n k = some v) : spec.Value L v := by
  obtain ⟨id, r, hr, h4⟩ := h.obj hs
  have h2 : r.data.find? k = some v := by rw [← value_of hr]; exact hv
  have hi := h.rels n id r hr
  have hk := h4.kind
  cases r with
  | clean c q =>
    cases spec with
    | clean c' ds o =>
      cases hk
      exact (CleanRel.Inv.seated hi k v h2).1
    | noisy e ds b o => cases hk
  | noisy e p q =>
    cases spec with
    | clean c' ds o => cases hk
    | noisy e' ds b o =>
      cases hk
      obtain ⟨hi, m, _, hl⟩ := hi
      have h2 : q.data.find? k = some v := h2
      have := hl.data k
      rw [h2] at this
      cases hq : q.emission.data.find? k with
      | none => rw [hq] at this; cases this
      | some x =>
        obtain ⟨bv, w⟩ := x
        rw [hq] at this
        cases this
        exact ⟨bv, (hi.seated k _ hq).1⟩

theorem hosted {st : Prop} (S : Samples L) (n : Nat) : Hosted (IRM.host F) IRM.value L (fun I => Reach L False st n I ∧ Usable L I.schema) where
  get {I r spec} hR hs := by
    have hi := hR.1.inv
    have hs : I.schema.find? r = some spec := hs
    obtain ⟨id, rel, hr, hm⟩ := hi.obj hs
    have hsh := hi.shown hs hr
    refine ⟨rel, ?_, ?_, fun k => (value_of hr k).symm, fun b hb => ?_⟩
    · simp only [IRM.host, bind, Except.bind, FMap.atKey_of_find hr]
    · rw [← hsh.matched.kind]; cases rel <;> rfl
    · obtain ⟨sp, view, g1, g2, g3, g4, _⟩ := hsh.base b hb
      exact ⟨sp, view, g1, g2, g3, g4⟩
  known {I r rel} hR h := by
    obtain ⟨⟨id, rel'⟩, h1, h2⟩ := bind_ok.mp h
    obtain ⟨spec, h3, _⟩ := hR.1.inv.spec (FMap.atKey_ok.mp h1)
    exact ⟨spec, h3⟩
  links hR b n := hR.1.tied.noisy b n
  listed hR b := hR.1.tied.listed b
  grounded hR n hn := hR.1.tied.grounded n hn
  vals hR hs hv := hR.1.inv.value hs hv
  inc {I r spec k v} hR hs hl hn hb hv t := by
    have hi := hR.1.inv
    have hs : I.schema.find? r = some spec := hs
    obtain ⟨id, rel, hr, hm⟩ := hi.obj hs
    have hsh := hi.shown hs hr
    have hv' : rel.Supports L (baseOf I.env rel) k v := hsh.supports.mpr hv
    obtain ⟨σ', rel', t', h1, h2, h3, h4, _⟩ := incorporate_ok hi hr hv' (by rw [hl, hm.doms]) (by rw [← value_of hr]; exact hn) (hsh.hasBase.mpr hb) t
    refine ⟨_, t', h1, ⟨.incorporate hR.1 (fun id' r' hr' => by rw [hr] at hr'; cases hr'; exact hv') h1, hR.2⟩, rfl, rfl, ?_⟩
    intro n k'
    simp only [IRM.value, FMap.find?_set]
    by_cases hnr : n = r
    · subst hnr
      simp only [if_true, Option.bind_some, h4, FMap.find?_set, true_and]
      split
      · rfl
      · rw [hr]; rfl
    · simp only [hnr, if_false, false_and]
  inc_pre {I r k v t x} hR hv h := by
    have hi := hR.1.inv
    obtain ⟨id, rel, hr, h1, h2, h3⟩ := incorporate_pre hi h
    obtain ⟨spec, hs, hm⟩ := hi.spec hr
    exact ⟨spec, hs, by rw [h1, hm.doms], by rw [value_of hr]; exact h2, (hi.shown hs hr).hasBase.mp h3⟩
  sample {I r spec k} hR hs hib hl hb t := by
    have hi := hR.1.inv
    have hs : I.schema.find? r = some spec := hs
    obtain ⟨id, rel, hr, hm⟩ := hi.obj hs
    have hsh := hi.shown hs hr
    obtain ⟨x, t', h1, h2⟩ := (hi.rels r id rel hr).sampleAt_ok S hi.store baseOf_ar (by rw [hl, hm.doms])
      (hsh.sampleable hR.2 hs (fun n sp k v a b => hi.value a b) hb)
      (hsh.distribution hR.2 hs hib) t
    refine ⟨x, t', ?_, hsh.supports.mp h2⟩
    simp only [IRM.host, IRM.sampleAt, bind, Except.bind, FMap.atKey_of_find hr, h1]
    rw [FMap.set_of_find hr]
  sample_pre {I r k t x} hR h := by
    have hi := hR.1.inv
    obtain ⟨⟨id, rel⟩, h3, h4⟩ := bind_ok.mp h
    obtain ⟨y, h5, _⟩ := bind_ok.mp h4
    have hr := FMap.atKey_ok.mp h3
    obtain ⟨spec, hs, hm⟩ := hi.spec hr
    obtain ⟨g1, g2⟩ := Rel.sampleAt_pre (hi.rels r id rel hr).emission_doms h5
    exact ⟨spec, hs, by rw [g1, hm.doms], (hi.shown hs hr).hasBase.mp g2⟩

end IRM
end
end Verif
