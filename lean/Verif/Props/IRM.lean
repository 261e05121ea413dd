import Verif.Lemmas.IRMGibbs
import Verif.Lemmas.IRMLogp
import Verif.Lemmas.IRMMk
import Verif.Props.CRP
import Verif.Props.Dist
import Verif.Props.LatentValue
/-!
C26, C27, C31 (for `IRM`), C50 and C60: the infinite relational model (irm.cc).

All theorems hold for every family of distributions and emissions that store multisets of supported values (`FamilyLaws`), for
every reachable IRM (`IRM.Reach`) and every sequence of random draws.
-/
namespace Verif
open Spec
noncomputable section
variable {V : Type} {F : Family V} {L : FamilyLaws F}
namespace IRM

/-! ### C26: which entities there are -/

/-- **C26**: after any history without `remove_relation` the entities of a domain are exactly those used there by some
observation. -/
theorem C26_items {n : Nat} {I : IRM F} (h : Reach L False False n I) :
    ∀ d dom, I.doms.find? d = some dom → ∀ i, dom.items.contains i = true ↔
      ∃ name id rel items, I.rels.find? name = some (id, rel) ∧ rel.data.contains items = true ∧ Uses rel.doms d i items :=
  h.itemsExact

/-- C26: a domain exists exactly while some relation uses it. -/
theorem C26_domains {rm st : Prop} {n : Nat} {I : IRM F} (h : Reach L rm st n I) (d : String) :
    I.doms.contains d = true ↔ ∃ name id rel, I.rels.find? name = some (id, rel) ∧ d ∈ rel.doms := by
  have hi := h.inv
  constructor
  · intro hd
    rw [← hi.names, FMap.contains_iff] at hd
    obtain ⟨s, hs⟩ := hd
    obtain ⟨r, hr⟩ := hi.used d s hs
    obtain ⟨id, rel, h1, h2⟩ := (hi.index d s hs r).mp hr
    exact ⟨r, id, rel, h1, h2⟩
  · rintro ⟨name, id, rel, h1, h2⟩
    exact (hi.rels name id rel h1).doms d h2

/-- C26: even if relations have been removed, every observed entity is in its domain, in a cluster. -/
theorem C26_observed {rm st : Prop} {n : Nat} {I : IRM F} (h : Reach L rm st n I) {d : String} {i : Int} (ho : I.Observed d i) :
    ∃ dom z, I.doms.find? d = some dom ∧ dom.items.contains i = true ∧ seatOf I.doms d i = some z := by
  obtain ⟨h1, z, h2⟩ := h.inv.observed_seat ho
  obtain ⟨dom, h3⟩ := FMap.contains_iff.mp h1
  exact ⟨dom, z, h3, (h.inv.items_iff h3).mpr ⟨z, h2⟩, h2⟩

/-- C26: `incorporate` of a new tuple of the right length succeeds, provided the base relation of a noisy relation has a value
there.  It stores the observation, adds the entities of the tuple, and changes no other relation, observation or cluster
assignment. -/
theorem C26_incorporate {rm st : Prop} {n : Nat} {I : IRM F} (h : Reach L rm st n I) {name : String} {id : Nat} {r : Rel F}
    (hr : I.rels.find? name = some (id, r)) {items : Items} {v : V} (hv : r.Supports L (baseOf I.env r) items v)
    (hl : items.length = r.doms.length) (hn : r.data.find? items = none)
    (hb : ∀ p, r.base? = some p → ∃ b bv, I.env p = some b ∧ b.data.find? (items.take b.arity) = some bv) (t : Tape) :
    ∃ I' r' t', incorporate I.env I name items v t = .ok (I', t') ∧ Reach L rm st n I' ∧ I'.schema = I.schema ∧
      I'.rels = I.rels.set name (id, r') ∧ r'.data = r.data.set items v ∧ r.SameShape r' ∧
      (∀ d i z, seatOf I.doms d i = some z → seatOf I'.doms d i = some z) ∧
      ∀ d i, (∃ z, seatOf I'.doms d i = some z) ↔ (∃ z, seatOf I.doms d i = some z) ∨ Uses r.doms d i items := by
  have hbase : r.HasBase (baseOf I.env r) items := by
    intro p hp
    obtain ⟨b, bv, h1, h2⟩ := hb p hp
    exact ⟨b, bv, by simp [baseOf, hp, h1], h2⟩
  obtain ⟨σ', r', t', h1, h2, h3, h4, h5, _⟩ := incorporate_ok h.inv hr hv hl hn hbase t
  refine ⟨_, r', t', h1, h.incorporate (fun id' q hq => by rw [hr] at hq; cases hq; exact hv) h1, rfl, rfl, h4, h3, h5.seat, ?_⟩
  intro d i
  rw [show ({ I with doms := σ', rels := I.rels.set name (id, r') } : IRM F).doms = σ' from rfl, h5.mem]
  constructor
  · rintro (h6 | ⟨_, h6⟩)
    · exact .inl h6
    · exact .inr h6
  · rintro (h6 | h6)
    · exact .inl h6
    · exact .inr ⟨(h.inv.rels name id r hr).doms d (List.of_mem_zip h6).1, h6⟩

/-- C26: a tuple that is present already, has the wrong length, or whose base value is missing is rejected. -/
theorem C26_incorporate_rejects {rm st : Prop} {n : Nat} {I I' : IRM F} (h : Reach L rm st n I) {name : String} {items : Items} {v : V} {t t' : Tape}
    (hc : incorporate I.env I name items v t = .ok (I', t')) :
    ∃ id r, I.rels.find? name = some (id, r) ∧ items.length = r.doms.length ∧ r.data.find? items = none ∧
      ∀ p, r.base? = some p → ∃ b bv, I.env p = some b ∧ b.data.find? (items.take b.arity) = some bv := by
  obtain ⟨id, r, h1, h2, h3, h4⟩ := incorporate_pre h.inv hc
  refine ⟨id, r, h1, h2, h3, fun p hp => ?_⟩
  obtain ⟨b, bv, h5, h6⟩ := h4 p hp
  exact ⟨b, bv, by simpa [baseOf, hp] using h5, h6⟩

/-- C26: `unincorporate` succeeds exactly for the tuples that are present.  It removes the observation and the entities of the
tuple that no relation observes any more, and changes no other relation, observation or cluster assignment. -/
theorem C26_unincorporate {rm st : Prop} {n : Nat} {I : IRM F} (h : Reach L rm st n I) (name : String) (items : Items) :
    ((∃ I', unincorporate I.env I name items = .ok I') ↔ ∃ id r, I.rels.find? name = some (id, r) ∧ r.data.contains items = true) ∧
    ∀ id r I', I.rels.find? name = some (id, r) → unincorporate I.env I name items = .ok I' →
      Reach L rm st n I' ∧ I'.schema = I.schema ∧ (∃ r', I'.rels = I.rels.set name (id, r') ∧ r'.data = r.data.erase items ∧ r.SameShape r') ∧
      ∀ d i, (Uses r.doms d i items ∧ ¬ I'.Observed d i → seatOf I'.doms d i = none) ∧
        (¬ (Uses r.doms d i items ∧ ¬ I'.Observed d i) → seatOf I'.doms d i = seatOf I.doms d i) := by
  refine ⟨⟨fun ⟨I', hc⟩ => unincorporate_pre hc, ?_⟩, ?_⟩
  · rintro ⟨id, r, h1, h2⟩
    obtain ⟨_, _, h3, _⟩ := unincorporate_ok h.inv h1 h2
    exact ⟨_, h3⟩
  · intro id r I' hr hc
    obtain ⟨id', r2, h1, h2⟩ := unincorporate_pre hc
    rw [hr] at h1; cases h1
    obtain ⟨σ', r', h3, _, h4, h5, _, h6⟩ := unincorporate_ok h.inv hr h2
    have hR := h.unincorporate hc
    rw [hc] at h3
    cases h3
    exact ⟨hR, rfl, ⟨r', rfl, h5, h4⟩, fun d i => ⟨h6.gone d i, h6.seat d i⟩⟩

/-- C26: incorporating an observation and removing it again restores every observation and every cluster assignment of an
entity (histories without `remove_relation`). -/
theorem C26_round_trip {n : Nat} {I I1 I2 : IRM F} (h : Reach L False False n I) {name : String} {items : Items} {v : V} {t t' : Tape}
    (hv : ∀ id r, I.rels.find? name = some (id, r) → r.Supports L (baseOf I.env r) items v)
    (h1 : incorporate I.env I name items v t = .ok (I1, t')) (h2 : unincorporate I1.env I1 name items = .ok I2) :
    I2.schema = I.schema ∧ (∀ d i, seatOf I2.doms d i = seatOf I.doms d i) ∧
    ∀ m, (I.rels.find? m = none ∧ I2.rels.find? m = none) ∨
      ∃ id r r2, I.rels.find? m = some (id, r) ∧ I2.rels.find? m = some (id, r2) ∧ r.SameShape r2 ∧ r2.data = r.data := by
  obtain ⟨id, r, hr, hl, hn, hb⟩ := C26_incorporate_rejects h h1
  obtain ⟨I1', r1, t1, a1, a2, a3, a4, a5, a6, a7, a8⟩ := C26_incorporate h hr (hv id r hr) hl hn hb t
  rw [h1] at a1; cases a1
  have hr1 : I1.rels.find? name = some (id, r1) := by rw [a4]; simp
  obtain ⟨b1, b2, ⟨r2, b3, b4, b5⟩, b6⟩ := (C26_unincorporate a2 name items).2 id r1 I2 hr1 h2
  have hdata : r2.data = r.data := by rw [b4, a5, FMap.erase_set, FMap.erase_of_not_mem hn]
  have hshape : r.SameShape r2 := ⟨b5.kind.trans a6.kind, b5.base.trans a6.base, b5.doms.trans a6.doms⟩
  have hrels : ∀ m, (I.rels.find? m = none ∧ I2.rels.find? m = none) ∨
      ∃ id r r2, I.rels.find? m = some (id, r) ∧ I2.rels.find? m = some (id, r2) ∧ r.SameShape r2 ∧ r2.data = r.data := by
    intro m
    rw [b3, a4, FMap.set_set, FMap.find?_set]
    split
    · rename_i he; subst he; exact .inr ⟨id, r, r2, hr, rfl, hshape, hdata⟩
    · cases hm : I.rels.find? m with
      | none => exact .inl ⟨rfl, rfl⟩
      | some x => exact .inr ⟨x.1, x.2, x.2, rfl, rfl, ⟨rfl, rfl, rfl⟩, rfl⟩
  refine ⟨b2.trans a3, ?_, hrels⟩
  have hobs : ∀ d i, I2.Observed d i ↔ I.Observed d i := by
    intro d i
    constructor
    · rintro ⟨m, id', q, k, c1, c2, c3⟩
      rcases hrels m with ⟨_, e⟩ | ⟨id2, q0, q2, e1, e2, e3, e4⟩
      · rw [c1] at e; cases e
      · rw [c1] at e2; cases e2
        exact ⟨m, id', q0, k, e1, by rw [← e4]; exact c2, by rw [← e3.doms]; exact c3⟩
    · rintro ⟨m, id', q, k, c1, c2, c3⟩
      rcases hrels m with ⟨e, _⟩ | ⟨id2, q0, q2, e1, e2, e3, e4⟩
      · rw [c1] at e; cases e
      · rw [c1] at e1; cases e1
        exact ⟨m, id', q2, k, e2, by rw [e4]; exact c2, by rw [e3.doms]; exact c3⟩
  intro d i
  obtain ⟨b7, b8⟩ := b6 d i
  by_cases hc : Uses r1.doms d i items ∧ ¬ I2.Observed d i
  · rw [b7 hc]
    cases hs : seatOf I.doms d i with
    | none => rfl
    | some z =>
      exfalso
      obtain ⟨dom, h5, _⟩ := seatOf_some hs
      exact hc.2 ((hobs d i).mpr ((C26_items h d dom h5 i).mp ((h.inv.items_iff h5).mpr ⟨z, hs⟩)))
  · rw [b8 hc]
    cases hs : seatOf I.doms d i with
    | some z => exact a7 d i z hs
    | none =>
      cases hs1 : seatOf I1.doms d i with
      | none => rfl
      | some z =>
        exfalso
        rcases (a8 d i).mp ⟨z, hs1⟩ with ⟨z', hz'⟩ | hu
        · rw [hs] at hz'; cases hz'
        · rw [a6.doms] at hc
          have hno : I2.Observed d i := by
            by_contra hno
            exact hc ⟨hu, hno⟩
          obtain ⟨dom, z', _, _, h6⟩ := C26_observed h ((hobs d i).mp hno)
          rw [hs] at h6; cases h6

/-! ### C27: entity moves -/

/-- **C27**: for an entity `i` of domain `d`, whatever is drawn, the move succeeds, changes no observation and no set of
entities, gives the entity one of the candidate clusters and leaves every other entity where it is; afterwards the clusters
and the index of every relation are exactly what its observations and the cluster assignments determine, and every
entity is in exactly one cluster.  The scores of the relations must be determined by their data (`Scores`): the emissions that cannot undo an
observation can make the move fail (`C70_sometimes_categorical_false`). -/
theorem C27_move {rm st : Prop} {n : Nat} {I : IRM F} (h : Reach L rm st n I) (hS : L.Scores I.schema) {d : String} {dom : Domain} (hd : I.doms.find? d = some dom)
    {i cur : Int} (hi : seatOf I.doms d i = some cur) (t : Tape) :
    ∃ I' t' z w, transitionItem I d i t = .ok (I', t') ∧ Reach L rm st n I' ∧ SameData I I' ∧ I'.Exact L ∧
      dom.crp.tablesWeightsGibbs cur = .ok w ∧ z ∈ w.keys ∧
      ∀ d' i', seatOf I'.doms d' i' = if d' = d ∧ i' = i then some z else seatOf I.doms d' i' := by
  rw [seatOf_eq hd] at hi
  obtain ⟨I', t', z, w, h1, h2, h3, h4, h5, h6⟩ := transitionItem_ok h.inv (h.inv.scored hS) hd hi t
  exact ⟨I', t', z, w, h1, h.item h1, h5, h4.exact, h2, h3, h6⟩

/-- **C27**: so does every move that returns, whether or not the scores of the relations are determined by their data. -/
theorem C27_move_returned {rm st : Prop} {n : Nat} {I I' : IRM F} (h : Reach L rm st n I) {d : String} {i : Int} {t t' : Tape}
    (hc : transitionItem I d i t = .ok (I', t')) :
    Reach L rm st n I' ∧ SameData I I' ∧ I'.Exact L ∧ ∃ dom cur z w, I.doms.find? d = some dom ∧ seatOf I.doms d i = some cur ∧
      dom.crp.tablesWeightsGibbs cur = .ok w ∧ z ∈ w.keys ∧
      ∀ d' i', seatOf I'.doms d' i' = if d' = d ∧ i' = i then some z else seatOf I.doms d' i' := by
  obtain ⟨h1, h2, dom, cur, z, w, h3, h4, h5, h6, h7⟩ := transitionItem_inv h.inv hc
  exact ⟨h.item hc, h2, h1.exact, dom, cur, z, w, h3, (seatOf_eq h3 i).trans h4, h5, h6, h7⟩

/-- C27: an entity that is not in the domain cannot be moved. -/
theorem C27_move_rejects {I I' : IRM F} {d : String} {i : Int} {t t' : Tape} (hc : transitionItem I d i t = .ok (I', t')) :
    ∃ cur, seatOf I.doms d i = some cur := by
  obtain ⟨dom, cur, h1, h2⟩ := transitionItem_pre hc
  exact ⟨cur, by rw [seatOf_eq h1]; exact h2⟩

theorem reach_items {rm st : Prop} {n : Nat} {d : String} : ∀ (l : List Int) (I I' : IRM F) (t t' : Tape), Reach L rm st n I →
    transitionItems d l I t = .ok (I', t') → Reach L rm st n I' := by
  intro l
  induction l with
  | nil => intro I I' t t' h hc; cases hc; exact h
  | cons i l ih =>
    intro I I' t t' h hc
    obtain ⟨⟨I1, t1⟩, h1, h2⟩ := bind_ok.mp hc
    exact ih I1 I' t1 t' (h.item h1) h2

theorem reach_domains {rm st : Prop} {n : Nat} : ∀ (l : List String) (I I' : IRM F) (t t' : Tape), Reach L rm st n I →
    transitionDomains l I t = .ok (I', t') → Reach L rm st n I' := by
  intro l
  induction l with
  | nil => intro I I' t t' h hc; cases hc; exact h
  | cons d l ih =>
    intro I I' t t' h hc
    obtain ⟨dom, _, h1⟩ := bind_ok.mp hc
    obtain ⟨⟨I1, t1⟩, h2, h3⟩ := bind_ok.mp h1
    exact ih I1 I' t1 t' (reach_items _ I I1 _ t1 h h2) h3

/-- C27: a sweep over all entities of all domains, in any order, always succeeds and changes no observation and no set of
entities. -/
theorem C27_sweep {rm st : Prop} {n : Nat} {I : IRM F} (h : Reach L rm st n I) (hS : L.Scores I.schema) (t : Tape) :
    ∃ I' t', transitionAll I t = .ok (I', t') ∧ Reach L rm st n I' ∧ SameData I I' ∧ I'.Exact L := by
  obtain ⟨I', t', h1, h2, h3⟩ := transitionAll_ok h.inv (h.inv.scored hS) t
  exact ⟨I', t', h1, reach_domains _ I I' _ t' h h1, h3, h2.exact⟩

/-- C27: so does a whole inference step without latent transitions (`single_step_irm_inference`). -/
theorem C27_step {rm st : Prop} {n : Nat} {I : IRM F} (h : Reach L rm st n I) (hS : L.Scores I.schema) (k : Nat) (t : Tape) :
    ∃ I' t', singleStep I k false t = .ok (I', t') ∧ Reach L rm st n I' ∧ SameData I I' ∧ I'.Exact L := by
  obtain ⟨I', t', h1, h2, h3⟩ := singleStep_ok h.inv (h.inv.scored hS) k t
  refine ⟨I', t', h1, ?_, h3, h2.exact⟩
  obtain ⟨⟨I1, t1⟩, h4, h5⟩ := bind_ok.mp h1
  cases h4
  obtain ⟨⟨I2, t2⟩, h6, h7⟩ := bind_ok.mp h5
  obtain ⟨⟨I3, t3⟩, h8, h9⟩ := bind_ok.mp h7
  exact ((reach_domains _ I I2 _ t2 h h6).hparams h8).alpha h9

/-! ### C60: the weights of an entity move -/

/-- **C60**: the log weights with which a move of an entity draws its new cluster are, up to a common constant, the scores
(`logp_score`) the IRM has after the respective move.  What is missing: relations that observe the entity and use a domain
twice, for which the relation scores are wrong (C22), and distributions whose new clusters start from random
parameters (`Rel.Scorable`). -/
theorem C60_move_weights_partial {rm st : Prop} {n : Nat} {I : IRM F} (h : Reach L rm st n I) {d : String} {i cur : Int}
    (hi : seatOf I.doms d i = some cur)
    (hs : ∀ m id r, I.rels.find? m = some (id, r) → (∃ k, r.data.contains k = true ∧ Uses r.doms d i k) → r.Scorable L) (t : Tape) :
    ∃ tables lw order I1 t1, itemScores I d i t = .ok (tables, tables.map lw, order, I1, t1) ∧ cur ∈ tables ∧
      (∃ z ∈ tables, ∃ t2, transitionItem I d i t = moveItem d i z order I1 t2) ∧
      ∀ z ∈ tables, ∀ t2, ∃ I' t', moveItem d i z order I1 t2 = .ok (I', t') ∧ SameData I I' ∧
        (∀ d' i', seatOf I'.doms d' i' = if d' = d ∧ i' = i then some z else seatOf I.doms d' i') ∧
        I'.logpScore - I.logpScore = lw z - lw cur := by
  obtain ⟨dom, hd, _⟩ := seatOf_some hi
  rw [seatOf_eq hd] at hi
  obtain ⟨w, lw, h1, h2, h3⟩ := itemScores_exact h.inv hd hi hs
  obtain ⟨order, I1, t1, h4, h5⟩ := h3 t
  have hne : 0 < w.keys.length := List.length_pos_of_mem h2
  refine ⟨w.keys, lw, order, I1, t1, h4, h2, ?_, fun z hz t2 => ?_⟩
  · have hlt := draw_lt hne t1
    refine ⟨w.keys[(draw w.keys.length t1).1], List.getElem_mem _, (draw w.keys.length t1).2, ?_⟩
    simp only [transitionItem, bind, Except.bind, h4, assertR, List.length_map, decide_true, if_true, idxR,
      List.getElem?_eq_getElem hlt]
  · obtain ⟨I', t', a1, _, a3, a4, a5⟩ := h5 z hz t2
    exact ⟨I', t', a1, a3, a4, a5⟩

/-! ### C31: construction -/

theorem size_eq_of_contains {K : Type} [Key K] {A B : Type} {m : FMap K A} {m' : FMap K B} (h : ∀ k, m.contains k = m'.contains k) :
    m.size = m'.size := by
  have : m.keys.Perm m'.keys := (List.perm_ext_iff_of_nodup m.nodupKeys m'.nodupKeys).mpr (fun k => by
    rw [← FMap.contains_iff_mem, ← FMap.contains_iff_mem, h])
  have := this.length_eq
  simpa [FMap.keys, FMap.size] using this

/-- C31 (partial), for `IRM`: the constructor accepts a schema exactly if every relation has a domain and the base of every
noisy relation is in the schema *and its name comes first in the order of names*.  The property says that naming does not
matter; that is false (`C31_irm_order_matters`). -/
theorem C31_irm_constructor_partial (schema : Schema F) :
    (∃ I, mk' schema = .ok I) ↔ ∀ name spec, schema.find? name = some spec →
      spec.doms ≠ [] ∧ ∀ b, spec.base? = some b → schema.contains b = true ∧ Key.lt b name = true := by
  have hnd : (schema.entries.map (·.1)).Nodup := schema.nodupKeys
  have hiff := addAll_iff schema.entries 0 {} skel_empty hnd (fun _ _ => rfl)
  have hmk : (∃ I, mk' schema = .ok I) ↔ ∃ I, addAll schema.entries 0 {} = .ok I := by
    constructor
    · rintro ⟨I, hc⟩
      obtain ⟨I1, h1, _⟩ := bind_ok.mp hc
      exact ⟨I1, h1⟩
    · rintro ⟨I, hc⟩
      obtain ⟨hs, _⟩ := addAll_result schema.entries 0 {} I skel_empty hnd hc
      exact ⟨I, bind_ok.mpr ⟨I, hc, by simp [assertR, size_eq_of_contains hs.keys, bind, Except.bind]⟩⟩
  rw [hmk, hiff]
  have hsorted := schema.keys_sorted
  unfold FMap.keys at hsorted
  constructor
  · intro hall name spec hf
    obtain ⟨pre, post, hl⟩ := List.append_of_mem (FMap.mem_entries.mpr hf)
    obtain ⟨h1, h2⟩ := hall pre name spec post hl
    refine ⟨h1, fun b hb => ?_⟩
    rcases h2 b hb with h3 | h3
    · simp [FMap.contains] at h3
    · rw [hl, List.map_append, List.map_cons] at hsorted
      refine ⟨?_, (List.pairwise_append.mp hsorted).2.2 b h3 name (by simp)⟩
      rw [FMap.contains_iff_mem, FMap.keys, hl, List.map_append]
      exact List.mem_append_left _ h3
  · intro hall pre name spec post hl
    obtain ⟨h1, h2⟩ := hall name spec (FMap.mem_entries.mp (by rw [hl]; simp))
    refine ⟨h1, fun b hb => .inr ?_⟩
    obtain ⟨h3, h4⟩ := h2 b hb
    rw [FMap.contains_iff_mem, FMap.keys, hl, List.map_append, List.map_cons] at h3
    rcases List.mem_append.mp h3 with h3 | h3
    · exact h3
    · rw [hl, List.map_append, List.map_cons] at hsorted
      rcases List.mem_cons.mp h3 with h3 | h3
      · dsimp only at h3
        rw [h3, Key.irrefl] at h4; cases h4
      · have := (List.pairwise_cons.mp (List.pairwise_append.mp hsorted).2.1).1 b h3
        dsimp only at this
        rw [Key.asymm h4] at this
        cases this

/-- C31: the result has exactly the relations of the schema, each as described there and without observations. -/
theorem C31_irm_result {schema : Schema F} {I : IRM F} (h : mk' schema = .ok I) :
    I.schema = schema ∧ (∀ name, I.rels.contains name = schema.contains name) ∧
    ∀ name spec, schema.find? name = some spec → ∃ id r, I.rels.find? name = some (id, r) ∧ r.kind = spec.kind ∧ r.doms = spec.doms ∧
      r.base?.map Ptr.name = spec.base? ∧ r.data = ∅ := by
  obtain ⟨I1, h1, h2⟩ := bind_ok.mp h
  obtain ⟨_, _, h4⟩ := bind_ok.mp h2
  cases h4
  obtain ⟨hs, h5, h6⟩ := addAll_result schema.entries 0 {} I skel_empty schema.nodupKeys h1
  have e : I.schema = schema := by
    apply FMap.ext
    intro k
    cases hk : schema.find? k with
    | some spec => exact (h6 k spec (FMap.mem_entries.mpr hk)).1
    | none => rw [(h5 k (FMap.find?_none_iff.mp hk)).1]; rfl
  refine ⟨e, fun name => by rw [← hs.keys, e], fun name spec hf => ?_⟩
  obtain ⟨_, id, r, a1, a2, a3⟩ := h6 name spec (FMap.mem_entries.mpr hf)
  exact ⟨id, r, a1, a2.kind, a2.doms, a2.base, a3⟩

/-! ### C50: the predictive distribution -/

/-- **C50, for observations of clean relations**: let `keys` be distinct tuples of clean relations whose distributions have the
finitely many values `vals`.  Then `logp` gives every combination of values a log probability, without changing the
IRM, and the probabilities sum to one.  What is missing: tuples with a new entity of a domain that has lost all its
entities and has `alpha ≠ 1`, for which this is false (`C50_one_domain`), and noisy relations, for which `logp` ends the
program (`C50_noisy_exits`). -/
theorem C50_normalised_partial {rm st : Prop} {n : Nat} {I : IRM F} (h : Reach L rm st n I) {vals : String → List V} {keys : List (String × Items)}
    (hne : keys ≠ []) (hnd : keys.Nodup)
    (hk : ∀ name items, (name, items) ∈ keys → ∃ id c r, I.rels.find? name = some (id, .clean c r) ∧ items.length = r.doms.length ∧
      (∀ t t', ((F.dist c).fresh t).1 = ((F.dist c).fresh t').1) ∧ (F.dist c).toDistOps.Normalised (L.suppC c) (vals name))
    (hnew : ∀ name items id r, (name, items) ∈ keys → I.rels.find? name = some (id, r) → ∀ d i, Uses r.doms d i items →
      ∀ dom, I.doms.find? d = some dom → dom.items.contains i = true ∨ dom.crp.N ≠ 0 ∨ dom.crp.alpha = 1) :
    ∃ lp : List V → ℝ, (∀ vs ∈ cartesian (keys.map (fun k => vals k.1)), ∀ t, ∃ t',
        logp I (zipObs keys vs) t = .ok ((lp vs : WithBot ℝ), I, t')) ∧
      ((cartesian (keys.map (fun k => vals k.1))).map (fun vs => Real.exp (lp vs))).sum = 1 := by
  obtain ⟨ss, lp, _, h1, h2, h3⟩ := logp_total h.inv (vals := vals) hne hnd (fun name items hm => by
    obtain ⟨id, c, r, a1, a2, a3, a4⟩ := hk name items hm
    exact ⟨id, _, a1, a2, scored_clean (h.inv.rels name id _ a1) a3 a4⟩)
  refine ⟨lp, h2, h3.trans ?_⟩
  apply List.prod_eq_one
  intro x hx
  obtain ⟨s, hs, rfl⟩ := List.mem_map.mp hx
  obtain ⟨⟨b1, b2⟩, name, items, id, r, b3, b4, b5⟩ := h1 s hs
  obtain ⟨dom, hdom⟩ := FMap.contains_iff.mp b1
  obtain ⟨c, c1, _, c2⟩ := tableChoices_spec h.inv.store hdom (h.inv.alpha _ dom hdom) s.item
  rw [b2] at c1; cases c1
  rw [c2]
  rcases hnew name items id r b3 b4 s.dom s.item b5 dom hdom with e | e | e
  · rw [if_pos (.inl e)]
  · rw [if_pos (.inr e)]
  · rw [e]; split <;> simp

/-- **C50**, exactly for which entities the probabilities of a relation over one domain sum to one. -/
theorem C50_one_domain {rm st : Prop} {n : Nat} {I : IRM F} (h : Reach L rm st n I) {vals : List V} {name d : String} {id : Nat} {c : F.C}
    {r : CleanRel (F.dist c).toDistOps} (hr : I.rels.find? name = some (id, .clean c r)) (hd : r.doms = [d])
    (hf : ∀ t t', ((F.dist c).fresh t).1 = ((F.dist c).fresh t').1) (hn : (F.dist c).toDistOps.Normalised (L.suppC c) vals)
    {dom : Domain} (hdom : I.doms.find? d = some dom) (i : Int) :
    ∃ lp : V → ℝ, (∀ v ∈ vals, ∀ t, ∃ t', logp I [(name, [i], v)] t = .ok ((lp v : WithBot ℝ), I, t')) ∧
      ((vals.map (fun v => Real.exp (lp v))).sum = 1 ↔ dom.items.contains i = true ∨ dom.crp.N ≠ 0 ∨ dom.crp.alpha = 1) := by
  obtain ⟨ss, lp, h0, h1, h2, h3⟩ := logp_total h.inv (vals := fun _ => vals) (keys := [(name, [i])]) (by simp) (by simp)
    (fun name' items hm => by
      rw [List.mem_singleton, Prod.mk.injEq] at hm
      obtain ⟨rfl, rfl⟩ := hm
      exact ⟨id, _, hr, by simp [Rel.doms, hd], scored_clean (h.inv.rels _ id _ hr) hf hn⟩)
  have hcart : cartesian [vals] = vals.map (fun v => [v]) := by
    simp [cartesian, List.map_eq_flatMap]
  have ha := h.inv.alpha d dom hdom
  obtain ⟨ch, c1, _, c2⟩ := tableChoices_spec h.inv.store hdom ha i
  have hss : ∀ s ∈ ss, massOf s.choices = massOf ch := by
    intro s hs
    obtain ⟨⟨b1, b2⟩, name', items, id', r', b3, b4, b5⟩ := h1 s hs
    rw [List.mem_singleton, Prod.mk.injEq] at b3
    obtain ⟨rfl, rfl⟩ := b3
    rw [hr] at b4; cases b4
    simp only [Rel.doms, hd, List.zip_cons_cons, List.zip_nil_right, List.mem_singleton, Prod.mk.injEq] at b5
    rw [b5.1, b5.2, c1] at b2
    cases b2; rfl
  have hprod : (ss.map (fun s => massOf s.choices)).prod = massOf ch ^ ss.length := by
    rw [List.map_congr_left hss, List.map_const', List.prod_replicate]
  refine ⟨fun v => lp [v], fun v hv t => h2 [v] (by simp only [List.map_cons, List.map_nil, hcart]; exact List.mem_map.mpr ⟨v, hv, rfl⟩) t, ?_⟩
  simp only [List.map_cons, List.map_nil, hcart, List.map_map, Function.comp_def] at h3
  rw [h3, hprod, c2]
  have hlen : ss.length ≠ 0 := by simpa using h0
  constructor
  · intro e
    by_contra hno
    simp only [not_or] at hno
    rw [if_neg (by simp only [not_or]; exact ⟨hno.1, hno.2.1⟩)] at e
    have := (pow_eq_one_iff_of_nonneg (by positivity) hlen).mp e
    exact hno.2.2 (by field_simp at this; exact this.symm)
  · rintro (e | e | e)
    · rw [if_pos (.inl e), one_pow]
    · rw [if_pos (.inr e), one_pow]
    · rw [e]; split <;> simp

/-- C50: `logp` never changes a relation, an observation, a set of entities or a cluster assignment. -/
theorem C50_unchanged {rm st : Prop} {n : Nat} {I I' : IRM F} (h : Reach L rm st n I) {obs : List (String × Items × V)} {lp : WithBot ℝ} {t t' : Tape}
    (hv : ∀ name items v, (name, items, v) ∈ obs → ∀ id r, I.rels.find? name = some (id, r) → r.Supports L (baseOf I.env r) items v)
    (hc : logp I obs t = .ok (lp, I', t')) : SameData I I' ∧ I'.doms = I.doms ∧ I'.Exact L := by
  obtain ⟨h1, h2, h3⟩ := logp_inv h.inv hv hc
  exact ⟨h2, h3, h1.exact⟩

/-- C50: if evaluating the distributions does not change them (C10), `logp` changes nothing at all. -/
theorem C50_unchanged_exactly {rm st : Prop} {n : Nat} {I I' : IRM F} (h : Reach L rm st n I) (hrt : ∀ c, (F.dist c).toDistOps.LogpPure (L.suppC c))
    {obs : List (String × Items × V)} {lp : WithBot ℝ} {t t' : Tape}
    (hv : ∀ name items v, (name, items, v) ∈ obs → ∀ id r, I.rels.find? name = some (id, r) → r.Supports L (baseOf I.env r) items v)
    (hc : logp I obs t = .ok (lp, I', t')) : I' = I :=
  logp_same hrt h.inv hv hc

/-- C50: `logp` of no observations is undefined behaviour. -/
theorem C50_no_observations (I : IRM F) (t : Tape) : logp I [] t = .error .ub := rfl

/-- the distributions with finitely many values -/
theorem C50_finite_supports :
    BetaBernoulli.ops.Normalised (fun _ => True) [true, false] ∧
    (∀ k : Nat, 0 < k → (DirichletCategorical.ops k).Normalised (fun x => 0 ≤ x ∧ x < k) ((List.range k).map (fun (j : Nat) => (j : Int)))) ∧
    ∀ strings : List String, strings ≠ [] → strings.Nodup → (StringCat.ops strings).Normalised (· ∈ strings) strings := by
  refine ⟨?_, ?_, ?_⟩
  · intro m s hs
    refine ⟨fun v => s.logp v, fun v _ => rfl, ?_⟩
    simpa using C14_beta_bernoulli m s hs
  · intro k hk m s hs
    obtain ⟨p, h1, h2⟩ := C14_dirichlet_categorical hk m s hs
    refine ⟨fun x => p x.toNat, fun v hv => ?_, ?_⟩
    · obtain ⟨j, hj, rfl⟩ := List.mem_map.mp hv
      show (s.logp j).bind _ = _
      rw [h1 j (List.mem_range.mp hj)]
      rfl
    · rw [List.map_map, ← h2, Finset.sum_range]
      rw [← List.sum_ofFn, List.ofFn_eq_map, ← List.map_coe_finRange_eq_range, List.map_map]
      simp [Function.comp_def]
  · intro strings hne hnd m s hs
    obtain ⟨p, h1, h2⟩ := C14_stringcat hne hnd m s hs
    refine ⟨p, fun v hv => ?_, h2⟩
    show (s.logp v).bind _ = _
    rw [h1 v hv]
    rfl

/-! ### concrete cases -/

open Latent (bools boolLaws)

/-- the result of a run that succeeds -/
def run {α : Type} [Inhabited α] : Res α → α
  | .ok x => x
  | .error _ => default

instance : Inhabited (IRM bools) := ⟨{}⟩
instance : Inhabited Domain := ⟨{ name := "" }⟩

/-- a clean relation `R` over `D` -/
def ex1 : IRM bools := run (addRelation 0 {} "R" (.clean () ["D"] false))
/-- and a noisy relation `S` over `D` and `E` with base `R` -/
def ex2 : IRM bools := run (addRelation 1 ex1 "S" (.noisy () ["D", "E"] "R" true))
def ex3 : IRM bools := (run (incorporate ex2.env ex2 "R" [1] true [])).1
def ex4 : IRM bools := (run (incorporate ex3.env ex3 "S" [1, 7] false [])).1
def ex5 : IRM bools := (run (incorporate ex4.env ex4 "R" [2] false [])).1
def ex6 : IRM bools := run (removeRelation ex5 "S")

theorem ex1_ok : addRelation 0 {} "R" (.clean () ["D"] false) = .ok ex1 := rfl
theorem ex2_ok : addRelation 1 ex1 "S" (.noisy () ["D", "E"] "R" true) = .ok ex2 := rfl
theorem ex3_ok : incorporate ex2.env ex2 "R" [1] true [] = .ok (ex3, []) := rfl
theorem ex4_ok : incorporate ex3.env ex3 "S" [1, 7] false [] = .ok (ex4, []) := rfl
theorem ex5_ok : incorporate ex4.env ex4 "R" [2] false [] = .ok (ex5, []) := rfl
theorem ex6_ok : removeRelation ex5 "S" = .ok ex6 := rfl

theorem supports_bools {b : Option (BaseView Bool)} {r : Rel bools} {items : Items} {v : Bool} : r.Supports boolLaws b items v := by
  cases r with
  | clean c r => exact trivial
  | noisy e p r => intro b' _ bv _; exact NoisyRel.any _

theorem ex1_reach (rm : Prop) : Reach boolLaws rm False 1 ex1 := Reach.add .empty (by simp) ex1_ok
theorem ex2_reach (rm : Prop) : Reach boolLaws rm False 2 ex2 := by
  refine Reach.add (ex1_reach rm) ?_ ex2_ok
  intro e doms base o he id b hb
  cases he
  cases hb
  decide
theorem ex3_reach (rm : Prop) : Reach boolLaws rm False 2 ex3 := (ex2_reach rm).incorporate (fun _ _ _ => supports_bools) ex3_ok
theorem ex4_reach (rm : Prop) : Reach boolLaws rm False 2 ex4 := (ex3_reach rm).incorporate (fun _ _ _ => supports_bools) ex4_ok
theorem ex5_reach (rm : Prop) : Reach boolLaws rm False 2 ex5 := (ex4_reach rm).incorporate (fun _ _ _ => supports_bools) ex5_ok

/-- C26_items, C26_domains: the entities 1 and 2 are in `D` and 7 in `E` -/
example : (∃ dom, ex5.doms.find? "D" = some dom ∧ dom.items.keys = [1, 2]) ∧ ∃ dom, ex5.doms.find? "E" = some dom ∧ dom.items.keys = [7] :=
  ⟨⟨_, rfl, rfl⟩, ⟨_, rfl, rfl⟩⟩

/-- C26_observed, C26_incorporate, C26_incorporate_rejects: entity 1 is observed; `S` accepts the new tuple (2, 7), whose base value is
there, but not (3, 7) -/
example : ex5.Observed "D" 1 ∧
    (∃ I' t', incorporate ex5.env ex5 "S" [2, 7] true [] = .ok (I', t') ∧ Reach boolLaws False False 2 I') ∧
    ¬ ∃ I' t', incorporate ex5.env ex5 "S" [3, 7] true [] = .ok (I', t') := by
  refine ⟨⟨"R", 0, _, [1], rfl, rfl, by simp [Uses, Rel.doms]⟩, ?_, ?_⟩
  · obtain ⟨I', r', t', h1, h2, _⟩ := C26_incorporate (ex5_reach False) (name := "S") rfl (items := [2, 7]) (v := true) supports_bools rfl rfl
      (fun p hp => by cases hp; exact ⟨_, false, rfl, rfl⟩) []
    exact ⟨I', t', h1, h2⟩
  · rintro ⟨I', t', hc⟩
    obtain ⟨id, r, h1, _, _, h4⟩ := C26_incorporate_rejects (ex5_reach False) hc
    cases h1
    obtain ⟨b, bv, h5, h6⟩ := h4 _ rfl
    cases h5
    cases h6

/-- C26_unincorporate: taking (1, 7) out of `S` removes entity 7 but not entity 1 -/
example : ∃ I', unincorporate ex5.env ex5 "S" [1, 7] = .ok I' ∧ seatOf I'.doms "E" 7 = none ∧ seatOf I'.doms "D" 1 = some 0 :=
  ⟨_, rfl, rfl, rfl⟩

/-- C26_round_trip -/
example : ∃ I1 I2 t', incorporate ex5.env ex5 "S" [2, 8] true [] = .ok (I1, t') ∧ unincorporate I1.env I1 "S" [2, 8] = .ok I2 ∧
    seatOf I1.doms "E" 8 ≠ none ∧ seatOf I2.doms "E" 8 = none := by
  refine ⟨_, _, _, rfl, rfl, ?_, rfl⟩
  show (some 0 : Option Int) ≠ none
  simp

/-- two clean relations over the same domain -/
def two1 : IRM bools := run (addRelation 0 {} "R" (.clean () ["D"] true))
def two2 : IRM bools := run (addRelation 1 two1 "T" (.clean () ["D"] true))
def two3 : IRM bools := (run (incorporate two2.env two2 "T" [5] true [])).1
def two4 : IRM bools := run (removeRelation two3 "T")

/-- **C26 is false after `remove_relation`**: the entities of a removed relation stay in the domains it shared. -/
theorem C26_lingering_entities : ∃ (I : IRM bools) (dom : Domain), Reach boolLaws True False 2 I ∧ I.doms.find? "D" = some dom ∧
    dom.items.contains 5 = true ∧ ¬ I.Observed "D" 5 := by
  have r1 : Reach boolLaws True False 1 two1 := Reach.add (name := "R") (spec := .clean () ["D"] true) .empty (by simp) rfl
  have r2 : Reach boolLaws True False 2 two2 := Reach.add (name := "T") (spec := .clean () ["D"] true) r1 (by simp) rfl
  have r3 : Reach boolLaws True False 2 two3 := r2.incorporate (name := "T") (items := [5]) (v := true) (t := []) (t' := []) (fun _ _ _ => supports_bools) rfl
  have r4 : Reach boolLaws True False 2 two4 := r3.remove (name := "T") trivial (by
    intro n id r p hr hp
    have hm : (n, (id, r)) ∈ two3.rels.entries := FMap.mem_entries.mpr hr
    simp only [show two3.rels.entries = [("R", _), ("T", _)] from rfl, List.mem_cons, List.not_mem_nil, or_false] at hm
    rcases hm with hm | hm <;> (cases hm; cases hp)) rfl
  refine ⟨two4, _, r4, rfl, rfl, ?_⟩
  rintro ⟨n, id, r, k, h1, h2, _⟩
  have hm : (n, (id, r)) ∈ two4.rels.entries := FMap.mem_entries.mpr h1
  simp only [show two4.rels.entries = [("R", _)] from rfl, List.mem_cons, List.not_mem_nil, or_false] at hm
  cases hm
  cases h2

theorem boolScores (s : Schema bools) : boolLaws.Scores s := fun _ spec _ => by
  cases spec.kind with
  | inl c => exact BetaBernoulli.scored
  | inr e => exact Sometimes.scored BitFlip.scored

/-- C27_move, C27_sweep, C27_step: entity 1 can be moved -/
example : ∃ I' t', transitionItem ex5 "D" 1 [1] = .ok (I', t') ∧ SameData ex5 I' ∧ ∃ z, seatOf I'.doms "D" 1 = some z := by
  obtain ⟨I', t', z, w, h1, _, h3, _, _, _, h7⟩ := C27_move (ex5_reach False) (boolScores _) (d := "D") rfl (i := 1) (cur := 0) rfl [1]
  exact ⟨I', t', h1, h3, z, by rw [h7]; simp⟩

theorem scorable_bools_clean {r : CleanRel BetaBernoulli.ops} (h : r.doms.Nodup) : Rel.Scorable boolLaws (.clean () r) :=
  ⟨BetaBernoulli.scored, h, fun _ _ => rfl, BetaBernoulli.emptyScore⟩

/-- C60_move_weights_partial: entity 2 of `D` is observed by `R` only -/
example : ∃ tables lw order I1 t1, itemScores ex5 "D" 2 [] = .ok (tables, List.map lw tables, order, I1, t1) ∧ 0 ∈ tables := by
  obtain ⟨tables, lw, order, I1, t1, h1, h2, _⟩ := C60_move_weights_partial (ex5_reach False) (d := "D") (i := 2) (cur := 0) rfl (by
    intro m id r hr ho
    have hm : (m, (id, r)) ∈ ex5.rels.entries := FMap.mem_entries.mpr hr
    simp only [show ex5.rels.entries = [("R", _), ("S", _)] from rfl, List.mem_cons, List.not_mem_nil, or_false] at hm
    rcases hm with hm | hm
    · cases hm
      exact scorable_bools_clean (by simp)
    · exfalso
      cases hm
      obtain ⟨k, h1, h2⟩ := ho
      have hk : k ∈ [[1, 7]] := FMap.contains_iff_mem.mp h1
      rw [List.mem_singleton] at hk
      subst hk
      simp [Uses, Rel.doms] at h2) []
  exact ⟨tables, lw, order, I1, t1, h1, h2⟩

/-- **C31 is false for `IRM`**: a noisy relation with a clean base is accepted or rejected depending on the names. -/
theorem C31_irm_order_matters :
    (∃ I, mk' (F := bools) (((∅ : Schema bools).set "A" (.clean () ["D"] false)).set "B" (.noisy () ["D"] "A" true)) = .ok I) ∧
    mk' (F := bools) (((∅ : Schema bools).set "B" (.clean () ["D"] false)).set "A" (.noisy () ["D"] "B" true)) = .error .outOfRange :=
  ⟨⟨_, rfl⟩, rfl⟩

/-- C50: `logp` of an observation of a noisy relation ends the program. -/
theorem C50_noisy_exits : logp ex5 [("S", [2, 7], true)] [] = .error .exit := rfl

/-- C50_normalised_partial: the joint predictive of `R` at a known and at a new entity -/
example : ∃ lp : List Bool → ℝ,
    Real.exp (lp [true, true]) + (Real.exp (lp [true, false]) + (Real.exp (lp [false, true]) + Real.exp (lp [false, false]))) = 1 := by
  have hk : ∀ (name : String) (items : Items), (name, items) ∈ [("R", [1]), ("R", [9])] → ∃ c r, ex5.rels.find? name = some (0, .clean c r) ∧ r.doms = ["D"] ∧
      items.length = r.doms.length := by
    intro name items hm
    simp only [List.mem_cons, Prod.mk.injEq, List.not_mem_nil, or_false] at hm
    rcases hm with ⟨rfl, rfl⟩ | ⟨rfl, rfl⟩ <;> exact ⟨(), _, rfl, rfl, rfl⟩
  obtain ⟨lp, _, h⟩ := C50_normalised_partial (ex5_reach False) (vals := fun _ => [true, false]) (keys := [("R", [1]), ("R", [9])]) (by simp) (by simp)
    (fun name items hm => by
      obtain ⟨c, r, h1, h2, h3⟩ := hk name items hm
      exact ⟨0, c, r, h1, h3, fun _ _ => rfl, C50_finite_supports.1⟩)
    (fun name items id r hm hr d i hu dom hd => by
      obtain ⟨c, q, h1, h2, h3⟩ := hk name items hm
      rw [hr] at h1; cases h1
      have : d = "D" := by
        have := (List.of_mem_zip hu).1
        simpa [Rel.doms, h2] using this
      subst this
      cases hd
      right; left
      show (2 : Int) ≠ 0
      decide)
  refine ⟨lp, ?_⟩
  simpa [cartesian] using h

/-- an IRM whose domain has been emptied after its concentration was changed -/
def em3 : IRM bools := (run (incorporate ex1.env ex1 "R" [1] true [])).1
def em4 : IRM bools := (run (alphaSweep ["D"] em3 [19])).1
def em5 : IRM bools := run (unincorporate em4.env em4 "R" [1])

/-- **C50 is false for a new entity of an emptied domain**: the predictive probabilities of the two values do not sum to one. -/
theorem C50_emptied_domain : ∃ (I : IRM bools) (lp : Bool → ℝ), Reach boolLaws False False 1 I ∧
    (∀ v t, ∃ t', logp I [("R", [1], v)] t = .ok ((lp v : WithBot ℝ), I, t')) ∧ Real.exp (lp true) + Real.exp (lp false) ≠ 1 := by
  have r3 : Reach boolLaws False False 1 em3 := (ex1_reach False).incorporate (name := "R") (items := [1]) (v := true) (t := []) (t' := [])
    (fun _ _ _ => supports_bools) rfl
  have r4 : Reach boolLaws False False 1 em4 := r3.alpha (ds := ["D"]) (t := [19]) (t' := []) rfl
  have r5 : Reach boolLaws False False 1 em5 := r4.unincorporate (name := "R") (items := [1]) rfl
  obtain ⟨lp, h1, h2⟩ := C50_one_domain r5 (vals := [true, false]) (name := "R") (d := "D") (id := 0) (c := ()) rfl rfl (fun _ _ => rfl)
    C50_finite_supports.1 rfl 1
  refine ⟨em5, lp, r5, fun v t => h1 v (by cases v <;> simp) t, ?_⟩
  intro he
  rcases h2.mp (by simpa using he) with h | h | h
  · cases h
  · exact h rfl
  · have h4 : (2 : ℝ) = 1 := (transitionAlpha_two (c := (run (em3.doms.get "D")).crp) rfl).symm.trans h
    norm_num at h4

end IRM
end
end Verif
