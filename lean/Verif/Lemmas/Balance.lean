import Verif.Lemmas.IRMGibbs
import Verif.Spec.Balance
/-! Helper lemmas: the score of an IRM does not depend on the names of the clusters, and an entity move keeps the parameters of the clusters. -/
namespace Verif
open Spec
noncomputable section

theorem tupleSeat_same {σ σ' : Doms}
    (h : ∀ d i j, (∃ z, seatOf σ d i = some z ∧ seatOf σ d j = some z) → ∃ z, seatOf σ' d i = some z ∧ seatOf σ' d j = some z) :
    ∀ (ds : List String) (k k' z : Items), tupleSeat σ ds k = some z → tupleSeat σ ds k' = some z →
      ∃ z', tupleSeat σ' ds k = some z' ∧ tupleSeat σ' ds k' = some z' := by
  intro ds
  induction ds with
  | nil =>
    intro k k' z h1 h2
    cases k <;> cases k' <;> simp_all [tupleSeat]
  | cons d ds ih =>
    intro k k' z h1 h2
    cases k with
    | nil => simp [tupleSeat] at h1
    | cons i k =>
      cases k' with
      | nil => simp [tupleSeat] at h2
      | cons j k' =>
        obtain ⟨a, b, a1, a2, rfl⟩ := tupleSeat_cons.mp h1
        obtain ⟨a', b', b1, b2, e⟩ := tupleSeat_cons.mp h2
        cases e
        obtain ⟨y, y1, y2⟩ := h d i j ⟨a, a1, b1⟩
        obtain ⟨y', z1, z2⟩ := ih k k' b a2 b2
        exact ⟨y :: y', tupleSeat_cons.mpr ⟨y, y', y1, z1, rfl⟩, tupleSeat_cons.mpr ⟨y, y', y2, z2, rfl⟩⟩

namespace CleanRel
variable {V : Type} {D : DistOps V} {supp : V → Prop}

/-- all clusters have the hyperparameters `h0`, and so do new ones -/
structure Plain (L : Lawful D supp) (h0 : L.H) (σ : Doms) (r : CleanRel D) : Prop where
  fresh : ∀ t, L.Rep h0 0 (D.fresh t).1
  tr : TInv L (fun _ => h0) σ r

/-- the score, cluster by cluster -/
theorem Plain.score {L : Lawful D supp} {h0 : L.H} (S : L.Scored) {σ : Doms} {r : CleanRel D} (h : Plain L h0 σ r) :
    r.logpScore = ∑ z ∈ r.clusters.keys.toFinset, sc L h0 (contents (tupleSeat σ r.doms) r.data z) := by
  rw [List.sum_toFinset _ r.clusters.nodupKeys]
  unfold logpScore FMap.vals FMap.keys
  rw [List.map_map, List.map_map]
  congr 1
  apply List.map_congr_left
  intro e he
  exact sc_eq S (h.tr.tr e.1 e.2 (FMap.mem_entries.mp he))

theorem Plain.mem {L : Lawful D supp} {h0 : L.H} {σ : Doms} {r : CleanRel D} (h : Plain L h0 σ r) (z : Items) :
    z ∈ r.clusters.keys.toFinset ↔ ∃ k v, r.data.find? k = some v ∧ tupleSeat σ r.doms k = some z := by
  rw [List.mem_toFinset, ← FMap.contains_iff_mem]
  exact h.tr.inv.cl.exact.1 z

/-- the score does not depend on the names of the clusters -/
theorem Plain.relabel {L : Lawful D supp} {h0 : L.H} (S : L.Scored) {σ σ' : Doms} {r r' : CleanRel D} (h : Plain L h0 σ r) (h' : Plain L h0 σ' r')
    (hd : r'.doms = r.doms) (hda : r'.data = r.data)
    (hp : ∀ d i j, (∃ z, seatOf σ d i = some z ∧ seatOf σ d j = some z) ↔ ∃ z, seatOf σ' d i = some z ∧ seatOf σ' d j = some z) :
    r'.logpScore = r.logpScore := by
  classical
  have key : ∀ z ∈ r.clusters.keys.toFinset, ∃ z', z' ∈ r'.clusters.keys.toFinset ∧
      ∀ k v, r.data.find? k = some v → (tupleSeat σ r.doms k = some z ↔ tupleSeat σ' r.doms k = some z') := by
    intro z hz
    obtain ⟨k, v, hk, hkz⟩ := (h.mem z).mp hz
    obtain ⟨z', hz', _⟩ := tupleSeat_same (fun d i j => (hp d i j).mp) r.doms k k z hkz hkz
    refine ⟨z', (h'.mem z').mpr ⟨k, v, by rw [hda]; exact hk, by rw [hd]; exact hz'⟩, fun k1 v1 hk1 => ⟨fun h1 => ?_, fun h1 => ?_⟩⟩
    · obtain ⟨z2, a1, a2⟩ := tupleSeat_same (fun d i j => (hp d i j).mp) r.doms k k1 z hkz h1
      rw [hz'] at a1; cases a1; exact a2
    · obtain ⟨z2, a1, a2⟩ := tupleSeat_same (fun d i j => (hp d i j).mpr) r.doms k k1 z' hz' h1
      rw [hkz] at a1; cases a1; exact a2
  choose! g hg1 hg2 using key
  rw [h.score S, h'.score S]
  symm
  refine Finset.sum_bij (fun z _ => g z) hg1 ?_ ?_ ?_
  · intro z1 h1 z2 h2 he
    obtain ⟨k, v, hk, hkz⟩ := (h.mem z1).mp h1
    have := (hg2 z1 h1 k v hk).mp hkz
    rw [he] at this
    have := (hg2 z2 h2 k v hk).mpr this
    rw [hkz] at this; injection this
  · intro z' hz'
    obtain ⟨k, v, hk, hkz⟩ := (h'.mem z').mp hz'
    rw [hda] at hk
    rw [hd] at hkz
    obtain ⟨z, hz⟩ := (h.tr.inv.seated k v hk).2
    have hm : z ∈ r.clusters.keys.toFinset := (h.mem z).mpr ⟨k, v, hk, hz⟩
    refine ⟨z, hm, ?_⟩
    have := (hg2 z hm k v hk).mp hz
    rw [hkz] at this; injection this with this; exact this.symm
  · intro z hz
    rw [hd, hda]
    congr 1
    unfold contents
    congr 1
    apply Multiset.filter_congr
    intro e he
    exact hg2 z hz e.1 e.2 (FMap.mem_entries.mp he)

theorem Plain.scores {L : Lawful D supp} {h0 : L.H} (S : L.Scored) {σ : Doms} (hσ : StoreWF σ) {r r' : CleanRel D} (h : Plain L h0 σ r) {d : String} (hd : d ∈ r.doms)
    {dom : Domain} (hdom : σ.find? d = some dom) {item cur : Int} (hcur : dom.crp.assignments.find? item = some cur)
    (hob : r.hasObservation d item = .ok true) {tables : List Int} {t t' : Tape} {lps : List ℝ}
    (hc : logpGibbsExact σ r d item tables t = .ok (lps, r', t')) : Plain L h0 σ r' := by
  have : ∀ table, ∃ σ' : Doms, table ≠ cur → ∀ d' i, seatOf σ' d' i = if d' = d ∧ i = item then some table else seatOf σ d' i := by
    intro table
    by_cases ht : table = cur
    · exact ⟨σ, fun h => absurd ht h⟩
    · obtain ⟨dom', _, _, h2, _⟩ := exists_moved hσ hdom hcur ht
      exact ⟨_, fun _ => h2⟩
  choose σf hσf using this
  obtain ⟨lps', cl, t1, m, gs, h1, h2, _⟩ := logpGibbsExact_spec S hσ h.tr hd hdom hcur hσf hob tables t
  rw [hc] at h1; cases h1
  exact ⟨h.fresh, h2⟩

theorem Plain.moved {L : Lawful D supp} {h0 : L.H} {σ : Doms} (hσ : StoreWF σ) {r r' : CleanRel D} (h : Plain L h0 σ r) {d : String} (hd : d ∈ r.doms)
    {dom : Domain} (hdom : σ.find? d = some dom) {item cur table : Int} (hcur : dom.crp.assignments.find? item = some cur) (hne : table ≠ cur)
    (hob : r.hasObservation d item = .ok true)
    {σ' : Doms} (hs : ∀ d' i, seatOf σ' d' i = if d' = d ∧ i = item then some table else seatOf σ d' i)
    (hdoms : ∀ d, σ'.contains d = σ.contains d) {t t' : Tape} (hc : setClusterAssignmentGibbs σ r d item table t = .ok (r', t')) :
    Plain L h0 σ' r' := by
  obtain ⟨cl, t1, h1, h2⟩ := setGibbs_tracked L hσ h.tr hd hdom hcur hne hob hs hdoms (fun _ _ _ _ _ _ _ => h.fresh) t
  rw [hc] at h1; cases h1
  exact ⟨h.fresh, h2⟩

end CleanRel

namespace Rel
variable {V : Type} {F : Family V} {L : FamilyLaws F} {ar : Ptr → Option Nat}

/-- hyperparameters for every distribution and emission -/
structure _root_.Verif.Starts (L : FamilyLaws F) where
  c : ∀ c, (L.dist c).H
  e : ∀ e, (L.emis e).H

variable {H : Starts L}

/-- all clusters have the hyperparameters `H` -/
def Plain (H : Starts L) (σ : Doms) : Rel F → Prop
  | .clean c r => r.Plain (L.dist c) (H.c c) σ
  | .noisy e _ r => r.emission.Plain (L.emis e) (H.e e) σ

theorem SameData.scorable {r r' : Rel F} (h : r.SameData r') (hs : r.Scorable L) : r'.Scorable L := by
  have hk := h.kind
  have hd := h.doms
  cases r <;> cases r' <;> simp only [Rel.kind, reduceCtorEq, Sum.inl.injEq, Sum.inr.injEq] at hk
  all_goals
    subst hk
    simp only [Rel.doms] at hd
    obtain ⟨h1, h2, h3, h4⟩ := hs
    exact ⟨h1, by rw [hd]; exact h2, h3, h4⟩

theorem SameData.observes {r r' : Rel F} (h : r.SameData r') (d : String) (i : Int) : r'.Observes d i ↔ r.Observes d i := by
  unfold Observes; rw [h.data, h.doms]

theorem Plain.relabel {σ σ' : Doms} {r r' : Rel F} (hi : r.Inv L ar σ) (hi' : r'.Inv L ar σ') (hs : r.Scorable L) (h : r.Plain H σ) (h' : r'.Plain H σ') (hd : r.SameData r')
    (hp : ∀ d i j, (∃ z, seatOf σ d i = some z ∧ seatOf σ d j = some z) ↔ ∃ z, seatOf σ' d i = some z ∧ seatOf σ' d j = some z) :
    r'.logpScore = r.logpScore := by
  have hk := hd.kind
  cases r with
  | clean c r =>
    cases r' with
    | noisy e p r' => simp [Rel.kind] at hk
    | clean c' r' =>
      simp only [Rel.kind, Sum.inl.injEq] at hk
      subst hk
      exact CleanRel.Plain.relabel hs.1 h h' hd.doms hd.data hp
  | noisy e p r =>
    cases r' with
    | clean c r' => simp [Rel.kind] at hk
    | noisy e' p' r' =>
      simp only [Rel.kind, Sum.inr.injEq] at hk
      subst hk
      obtain ⟨_, n, _, g⟩ := hi
      obtain ⟨_, n', _, g'⟩ := hi'
      exact CleanRel.Plain.relabel hs.1 h h' (by rw [g'.doms, g.doms]; exact hd.doms) hd.pairs hp

theorem Plain.scores {σ : Doms} (hσ : StoreWF σ) {r r' : Rel F} (hi : r.Inv L ar σ) (hs : r.Scorable L) (h : r.Plain H σ) {d : String} (hd : d ∈ r.doms)
    {dom : Domain} (hdom : σ.find? d = some dom) {item cur : Int} (hcur : dom.crp.assignments.find? item = some cur)
    (hob : r.hasObservation d item = .ok true) {tables : List Int} {t t' : Tape} {lps : List ℝ}
    (hc : r.logpGibbsExact σ d item tables t = .ok (lps, r', t')) : r'.Plain H σ := by
  cases r with
  | clean c r =>
    obtain ⟨⟨lps1, r1, t1⟩, h1, h2⟩ := bind_ok.mp hc
    cases h2
    exact CleanRel.Plain.scores hs.1 hσ h hd hdom hcur hob h1
  | noisy e p r =>
    obtain ⟨_, n, _, g⟩ := hi
    obtain ⟨⟨lps1, r1, t1⟩, h1, h2⟩ := bind_ok.mp hc
    cases h2
    obtain ⟨⟨lps2, r2, t2⟩, h3, h4⟩ := bind_ok.mp h1
    cases h4
    exact CleanRel.Plain.scores hs.1 hσ h (d := d) (by rw [g.doms]; exact hd) hdom hcur hob h3

theorem Plain.moved {σ : Doms} (hσ : StoreWF σ) {r r' : Rel F} (hi : r.Inv L ar σ) (h : r.Plain H σ) {d : String} (hd : d ∈ r.doms)
    {dom : Domain} (hdom : σ.find? d = some dom) {item cur table : Int} (hcur : dom.crp.assignments.find? item = some cur) (hne : table ≠ cur)
    (hob : r.hasObservation d item = .ok true)
    {σ' : Doms} (hs : ∀ d' i, seatOf σ' d' i = if d' = d ∧ i = item then some table else seatOf σ d' i)
    (hdoms : ∀ d, σ'.contains d = σ.contains d) {t t' : Tape} (hc : r.setClusterAssignmentGibbs σ d item table t = .ok (r', t')) :
    r'.Plain H σ' := by
  cases r with
  | clean c r =>
    obtain ⟨⟨r1, t1⟩, h1, h2⟩ := bind_ok.mp hc
    cases h2
    exact CleanRel.Plain.moved hσ h hd hdom hcur hne hob hs hdoms h1
  | noisy e p r =>
    obtain ⟨_, n, _, g⟩ := hi
    obtain ⟨⟨r1, t1⟩, h1, h2⟩ := bind_ok.mp hc
    cases h2
    obtain ⟨⟨r2, t2⟩, h3, h4⟩ := bind_ok.mp h1
    cases h4
    exact CleanRel.Plain.moved hσ h (d := d) (by rw [g.doms]; exact hd) hdom hcur hne hob hs hdoms h3

end Rel

namespace IRM
variable {V : Type} {F : Family V} {L : FamilyLaws F} {ar : Ptr → Option Nat} {H : Starts L}

/-- the relations that observe the entity have the hyperparameters of new clusters, and the others are the objects of `I0` -/
def Even (H : Starts L) (d : String) (item : Int) (I0 : IRM F) (σ : Doms) (rels : FMap String (Nat × Rel F)) : Prop :=
  ∀ n id r, rels.find? n = some (id, r) → (r.Observes d item → r.Plain H σ ∧ r.Scorable L) ∧
    (¬ r.Observes d item → I0.rels.find? n = some (id, r))

theorem scoreItem_even {I0 : IRM F} {d : String} {item cur : Int} {dom : Domain} {tables : List Int} : ∀ (l : List String) (I : IRM F) (logps : List ℝ) (t : Tape),
    Inv L ar I → I.doms.find? d = some dom → dom.crp.assignments.find? item = some cur → Even H d item I0 I.doms I.rels →
    (∀ n ∈ l, ∃ id rel, I.rels.find? n = some (id, rel) ∧ d ∈ rel.doms) →
    ∀ {lps I' t'}, scoreItem d item tables l I logps t = .ok (lps, I', t') → Even H d item I0 I'.doms I'.rels := by
  intro l
  induction l with
  | nil => intro I logps t h _ _ he _ lps I' t' hc; cases hc; exact he
  | cons n l ih =>
    intro I logps t h hdom hcur he hl lps I' t' hc
    rw [scoreItem] at hc
    obtain ⟨⟨id, rel⟩, h1, hc⟩ := bind_ok.mp hc
    obtain ⟨b, h2, hc⟩ := bind_ok.mp hc
    rw [FMap.atKey_ok] at h1
    obtain ⟨id', rel', e1, e2⟩ := hl n (by simp)
    rw [h1] at e1; cases e1
    cases b with
    | false => exact ih I logps t h hdom hcur he (fun m hm => hl m (by simp [hm])) hc
    | true =>
      obtain ⟨⟨x, rel', t1⟩, h3, hc⟩ := bind_ok.mp hc
      obtain ⟨_, _, hc⟩ := bind_ok.mp hc
      obtain ⟨_, h4, hc⟩ := bind_ok.mp hc
      have hri := h.rels n id rel h1
      obtain ⟨h5, h6, h7⟩ := hri.gibbsScores_keeps h.store h3
      obtain ⟨b, f1, f2⟩ := hri.hasObservation e2 item
      rw [h2] at f1; cases f1
      have hob : rel.Observes d item := f2.mp rfl
      obtain ⟨g1, g2⟩ := (he n id rel h1).1 hob
      refine ih { I with rels := I.rels.set n (id, rel') } (List.zipWith (· + ·) logps x) t1 (h.setRel h1 h7.shape h6) hdom hcur ?_ ?_ hc
      · intro m id' r hr
        dsimp only at hr
        rw [FMap.find?_set] at hr
        split at hr
        · cases hr
          refine ⟨fun _ => ⟨g1.scores h.store hri g2 e2 hdom hcur h2 h3, h7.scorable g2⟩, fun hno => ?_⟩
          exact absurd ((h7.observes d item).mpr hob) hno
        · exact he m id' r hr
      · intro m hm
        dsimp only
        rw [FMap.find?_set]
        split
        · rename_i hmn; exact ⟨id, rel', rfl, by rw [h7.doms]; exact e2⟩
        · exact hl m (by simp [hm])

theorem moveRels_even {I0 : IRM F} {d : String} {item cur table : Int} {dom : Domain} {σ' : Doms} : ∀ (l : List String) (I : IRM F) (t : Tape),
    l.Nodup → StoreWF I.doms → I.doms.find? d = some dom → dom.crp.assignments.find? item = some cur → table ≠ cur →
    (∀ d' i, seatOf σ' d' i = if d' = d ∧ i = item then some table else seatOf I.doms d' i) →
    (∀ d, σ'.contains d = I.doms.contains d) →
    (∀ n ∈ l, ∃ id rel, I.rels.find? n = some (id, rel) ∧ d ∈ rel.doms ∧ rel.Inv L ar I.doms ∧
      (rel.Observes d item → rel.Plain H I.doms ∧ rel.Scorable L) ∧ (¬ rel.Observes d item → I0.rels.find? n = some (id, rel))) →
    ∀ {I' t'}, moveRels d item table l I t = .ok (I', t') →
      (∀ n, n ∉ l → I'.rels.find? n = I.rels.find? n) ∧
      ∀ n ∈ l, ∃ id rel, I'.rels.find? n = some (id, rel) ∧
        (rel.Observes d item → rel.Plain H σ' ∧ rel.Scorable L) ∧ (¬ rel.Observes d item → I0.rels.find? n = some (id, rel)) := by
  intro l
  induction l with
  | nil => intro I t _ _ _ _ _ _ _ _ I' t' hc; cases hc; exact ⟨fun _ _ => rfl, by simp⟩
  | cons n l ih =>
    intro I t hnd hσ hdom hcur hne hs hdoms hl I' t' hc
    obtain ⟨hnl, hnd⟩ := List.nodup_cons.mp hnd
    obtain ⟨id, rel, e1, e2, e3, e4, e5⟩ := hl n (by simp)
    rw [moveRels] at hc
    obtain ⟨⟨id', rel'⟩, h1, hc⟩ := bind_ok.mp hc
    obtain ⟨b, h2, hc⟩ := bind_ok.mp hc
    rw [FMap.atKey_ok, e1] at h1
    cases h1
    obtain ⟨b', f1, f2⟩ := e3.hasObservation e2 item
    rw [h2] at f1; cases f1
    cases b with
    | false =>
      obtain ⟨h3, h4⟩ := ih I t hnd hσ hdom hcur hne hs hdoms (fun m hm => hl m (by simp [hm])) hc
      refine ⟨fun m hm => h3 m (fun h => hm (by simp [h])), fun m hm => ?_⟩
      rcases List.mem_cons.mp hm with rfl | hm
      · have hno : ¬ rel.Observes d item := fun h => by have := f2.mpr h; cases this
        exact ⟨id, rel, by rw [h3 m hnl]; exact e1, fun h => absurd h hno, e5⟩
      · exact h4 m hm
    | true =>
      have hob : rel.Observes d item := f2.mp rfl
      obtain ⟨g1, g2⟩ := e4 hob
      simp only [if_true] at hc
      obtain ⟨⟨rel', t1⟩, h3, hc⟩ := bind_ok.mp hc
      obtain ⟨rel2, t2, k1, k2, k3⟩ := e3.setGibbs hσ e2 hdom hcur hne h2 hs hdoms t
      rw [h3] at k1; cases k1
      obtain ⟨h4, h5⟩ := ih { I with rels := I.rels.set n (id, rel') } t1 hnd hσ hdom hcur hne hs hdoms (by
        intro m hm
        have hmn : m ≠ n := fun h => hnl (h ▸ hm)
        dsimp only
        rw [FMap.find?_set_ne _ hmn]
        exact hl m (by simp [hm])) hc
      refine ⟨fun m hm => ?_, fun m hm => ?_⟩
      · simp only [List.mem_cons, not_or] at hm
        rw [h4 m hm.2]
        exact FMap.find?_set_ne _ hm.1 _
      · rcases List.mem_cons.mp hm with rfl | hm
        · refine ⟨id, rel', by rw [h4 m hnl]; exact FMap.find?_set_self .., fun _ => ⟨g1.moved hσ e3 e2 hdom hcur hne h2 hs hdoms h3, k3.scorable g2⟩, fun hno => ?_⟩
          exact absurd ((k3.observes d item).mpr hob) hno
        · exact h5 m hm

/-- a whole move -/
theorem move_even {I0 I I1 I' : IRM F} (h : Inv L ar I) {d : String} {item z cur : Int} {dom : Domain} (hdom : I.doms.find? d = some dom)
    (hcur : dom.crp.assignments.find? item = some cur) (he : Even H d item I0 I.doms I.rels) {t t1 t2 t' : Tape} {tables : List Int} {logps : List ℝ}
    {order : List String} (hc : itemScores I d item t = .ok (tables, logps, order, I1, t1)) (hm : moveItem d item z order I1 t2 = .ok (I', t')) :
    Even H d item I0 I'.doms I'.rels := by
  simp only [itemScores] at hc
  obtain ⟨dom', a1, hc⟩ := bind_ok.mp hc
  obtain ⟨w, a2, hc⟩ := bind_ok.mp hc
  obtain ⟨s, a3, hc⟩ := bind_ok.mp hc
  obtain ⟨⟨lps, I2, t3⟩, a4, hc⟩ := bind_ok.mp hc
  cases hc
  rw [FMap.atKey_ok] at a3
  have hperm := shuffle_perm s.keys t
  have hl : ∀ n ∈ (shuffle s.keys t).1, ∃ id rel, I.rels.find? n = some (id, rel) ∧ d ∈ rel.doms := fun n hn =>
    (h.index d s a3 n).mp (hperm.mem_iff.mp hn)
  have he1 := scoreItem_even _ I _ _ h hdom hcur he hl a4
  obtain ⟨_, rels1, rfl, g3, g4⟩ := scoreItem_keeps _ I _ _ h (by simp [FMap.vals, FMap.keys]) a4
  have hw := h.store d dom hdom
  obtain ⟨I2, t4, e1, e2, e3, e4, e5, e6⟩ := moveItem_ok g3 hdom hcur a3 hperm z t2
  rw [hm] at e1; cases e1
  by_cases hzc : z = cur
  · rw [e5 hzc]; exact he1
  · obtain ⟨rels2, dom2, f1, f2, rfl⟩ := e6 hzc
    obtain ⟨dom3, k1, k2, k3, k4, k5, k6⟩ := CleanRel.exists_moved h.store hdom hcur hzc
    rw [f2] at k1; cases k1
    obtain ⟨m1, m2⟩ := moveRels_even (H := H) (ar := ar) (I0 := I0) (shuffle s.keys t).1 { I with rels := rels1 } t2
      (hperm.nodup_iff.mpr (FMap.nodupKeys s)) h.store hdom hcur hzc k3 k4 (by
        intro n hn
        obtain ⟨id, rel, b1, b2⟩ := (g3.index d s a3 n).mp (hperm.mem_iff.mp hn)
        exact ⟨id, rel, b1, b2, g3.rels n id rel b1, (he1 n id rel b1).1, (he1 n id rel b1).2⟩) f1
    intro n id r hr
    by_cases hn : n ∈ (shuffle s.keys t).1
    · obtain ⟨id', r', c1, c2⟩ := m2 n hn
      dsimp only at hr c1
      rw [hr] at c1; cases c1
      exact c2
    · have hr1 : rels1.find? n = some (id, r) := by rw [← m1 n hn]; exact hr
      have hno : ¬ r.Observes d item := by
        rintro ⟨k, _, hu⟩
        exact hn (hperm.mem_iff.mpr ((g3.index d s a3 n).mpr ⟨id, r, hr1, (List.of_mem_zip hu).1⟩))
      exact ⟨fun h => absurd h hno, (he1 n id r hr1).2⟩

/-- a move keeps the concentrations -/
theorem move_alphas {I I1 I' : IRM F} (h : Inv L ar I) {d : String} {item z cur : Int} {dom : Domain} (hdom : I.doms.find? d = some dom)
    (hcur : dom.crp.assignments.find? item = some cur) {t t1 t2 t' : Tape} {tables : List Int} {logps : List ℝ}
    {order : List String} (hc : itemScores I d item t = .ok (tables, logps, order, I1, t1)) (hm : moveItem d item z order I1 t2 = .ok (I', t')) :
    SameAlphas I I' := by
  simp only [itemScores] at hc
  obtain ⟨dom', a1, hc⟩ := bind_ok.mp hc
  obtain ⟨w, a2, hc⟩ := bind_ok.mp hc
  obtain ⟨s, a3, hc⟩ := bind_ok.mp hc
  obtain ⟨⟨lps, I2, t3⟩, a4, hc⟩ := bind_ok.mp hc
  cases hc
  rw [FMap.atKey_ok] at a3
  have hperm := shuffle_perm s.keys t
  obtain ⟨_, rels1, rfl, g3, g4⟩ := scoreItem_keeps _ I _ _ h (by simp [FMap.vals, FMap.keys]) a4
  obtain ⟨I2, t4, e1, e2, e3, e4, e5, e6⟩ := moveItem_ok g3 hdom hcur a3 hperm z t2
  rw [hm] at e1; cases e1
  by_cases hzc : z = cur
  · rw [e5 hzc]
    intro d' dom1 dom2 h1 h2
    dsimp only at h2
    rw [h1] at h2; cases h2; rfl
  · obtain ⟨rels2, dom2, f1, f2, rfl⟩ := e6 hzc
    obtain ⟨dom3, b1, b2, _, _, b4, b5⟩ := Domain.setGibbs_eq (h.store d dom hdom) hcur (Ne.symm hzc)
    rw [f2] at b1; cases b1
    intro d' dom3 dom4 h1 h2
    dsimp only at h2
    rw [FMap.find?_set] at h2
    split at h2
    · rename_i he; subst he
      rw [hdom] at h1; cases h1; cases h2; exact b4
    · rw [h1] at h2; cases h2; rfl

theorem crp_score_same {c d : CRP} (hc : c.WF) (hd : d.WF) (ha : c.alpha = d.alpha)
    (h : ∀ i j, (∃ t, c.seating i = some t ∧ c.seating j = some t) ↔ (∃ t, d.seating i = some t ∧ d.seating j = some t)) :
    c.logpScore = d.logpScore := by
  have hm : ∀ i, c.mates i = d.mates i := by
    intro i; unfold CRP.mates; congr 1; ext j; exact h i j
  have hk : c.assignments.keys.Perm d.assignments.keys := by
    rw [List.perm_ext_iff_of_nodup c.assignments.nodupKeys d.assignments.nodupKeys]
    intro i
    have := h i i
    simpa [CRP.seating, FMap.mem_keys] using this
  rw [CRP.logpScore_eq hc, CRP.logpScore_eq hd, ha]
  simp only [hm]
  rw [hk.length_eq, (hk.map (fun i => (1 : ℝ) / (d.mates i))).sum_eq,
    (hk.map (fun i => lgamma (d.mates i) / (d.mates i))).sum_eq]

theorem sum_vals_congr {A B : Type} {m : FMap String A} {m' : FMap String B} {f : A → ℝ} {g : B → ℝ}
    (h : ∀ n, (m.find? n = none ∧ m'.find? n = none) ∨ ∃ a b, m.find? n = some a ∧ m'.find? n = some b ∧ f a = g b) :
    (m.vals.map f).sum = (m'.vals.map g).sum := by
  have hk : m.keys.Perm m'.keys := by
    rw [List.perm_ext_iff_of_nodup m.nodupKeys m'.nodupKeys]
    intro n
    rw [FMap.mem_keys, FMap.mem_keys]
    rcases h n with ⟨h1, h2⟩ | ⟨a, b, h1, h2, _⟩ <;> simp [h1, h2]
  have e1 : m.vals.map f = m.keys.map (fun n => ((m.find? n).map f).getD 0) := by
    simp only [FMap.vals, FMap.keys, List.map_map]
    apply List.map_congr_left
    rintro ⟨k, v⟩ hkv
    simp [FMap.mem_entries.mp hkv]
  have e2 : m'.vals.map g = m'.keys.map (fun n => ((m.find? n).map f).getD 0) := by
    simp only [FMap.vals, FMap.keys, List.map_map]
    apply List.map_congr_left
    rintro ⟨k, v⟩ hkv
    have := FMap.mem_entries.mp hkv
    rcases h k with ⟨_, h2⟩ | ⟨a, b, h1, h2, h3⟩
    · rw [this] at h2; cases h2
    · rw [this] at h2; cases h2
      simp [h1, h3]
  rw [e1, e2, (hk.map _).sum_eq]

theorem score_same {I I' : IRM F} (h : Inv L ar I) (h' : Inv L ar I') (hd : SameData I I') (ha : SameAlphas I I') (hp : SamePartition I I')
    (hr : ∀ n id r r', I.rels.find? n = some (id, r) → I'.rels.find? n = some (id, r') → r.SameData r' → r'.logpScore = r.logpScore) :
    I'.logpScore = I.logpScore := by
  have h1 : (I.doms.vals.map (fun d => d.crp.logpScore)).sum = (I'.doms.vals.map (fun d => d.crp.logpScore)).sum := by
    apply sum_vals_congr
    intro n
    rcases hd.doms n with h1 | ⟨dom, dom', h1, h2, _⟩
    · exact .inl h1
    · refine .inr ⟨dom, dom', h1, h2, crp_score_same (h.store n dom h1).crp (h'.store n dom' h2).crp (ha n dom dom' h1 h2).symm (fun i j => ?_)⟩
      have := hp n i j
      simp only [seatOf_eq h1, seatOf_eq h2] at this
      exact this
  have h2 : (I.rels.vals.map (fun r => r.2.logpScore)).sum = (I'.rels.vals.map (fun r => r.2.logpScore)).sum := by
    apply sum_vals_congr
    intro n
    rcases hd.rels n with h1 | ⟨id, r, r', h1, h2, h3⟩
    · exact .inl h1
    · exact .inr ⟨(id, r), (id, r'), h1, h2, (hr n id r r' h1 h2 h3).symm⟩
  simp only [logpScore, h1, h2]

theorem SameData.symm {I I' : IRM F} (h : SameData I I') : SameData I' I where
  schema := h.schema.symm
  baseToNoisy := h.baseToNoisy.symm
  domToRels := h.domToRels.symm
  rels n := by
    rcases h.rels n with ⟨h1, h2⟩ | ⟨id, r, r', h1, h2, h3⟩
    · exact .inl ⟨h2, h1⟩
    · exact .inr ⟨id, r', r, h2, h1, ⟨h3.kind.symm, h3.base.symm, h3.doms.symm, h3.data.symm, h3.pairs.symm, h3.links.symm⟩⟩
  doms d := by
    rcases h.doms d with ⟨h1, h2⟩ | ⟨dom, dom', h1, h2, h3, h4⟩
    · exact .inl ⟨h2, h1⟩
    · exact .inr ⟨dom', dom, h2, h1, h3.symm, h4.symm⟩

theorem SameAlphas.trans {I I1 I2 : IRM F} (hd : SameData I I1) (h : SameAlphas I I1) (h' : SameAlphas I1 I2) : SameAlphas I I2 := by
  intro d dom dom2 h1 h2
  rcases hd.doms d with ⟨e1, _⟩ | ⟨_, dom1, e1, e2, _⟩
  · rw [h1] at e1; cases e1
  · rw [h' d dom1 dom2 e2 h2, h d dom dom1 h1 e2]

theorem SameAlphas.symm {I I' : IRM F} (h : SameAlphas I I') : SameAlphas I' I := fun d dom dom' h1 h2 => (h d dom' dom h2 h1).symm

/-- two states that seat all entities but one alike, and that one at the same table or alone, partition the entities alike -/
theorem samePartition_of {I I' : IRM F} {d : String} {item a b : Int} (h : ∀ d' i, ¬ (d' = d ∧ i = item) → seatOf I'.doms d' i = seatOf I.doms d' i)
    (ha : seatOf I.doms d item = some a) (hb : seatOf I'.doms d item = some b)
    (hab : a = b ∨ ∀ j, j ≠ item → seatOf I.doms d j ≠ some a ∧ seatOf I.doms d j ≠ some b) : SamePartition I I' := by
  intro d' i j
  by_cases hi : d' = d ∧ i = item
  · obtain ⟨rfl, rfl⟩ := hi
    by_cases hj : j = i
    · subst hj; simp [ha, hb]
    · rw [h d' j (fun hh => hj hh.2)]
      simp only [ha, hb, Option.some.injEq]
      rcases hab with rfl | hab
      · rfl
      · constructor
        · rintro ⟨z, rfl, h2⟩; exact absurd h2 (hab j hj).1
        · rintro ⟨z, rfl, h2⟩; exact absurd h2 (hab j hj).2
  · rw [h d' i hi]
    by_cases hj : d' = d ∧ j = item
    · obtain ⟨rfl, rfl⟩ := hj
      have hij : i ≠ j := fun hh => hi ⟨rfl, hh⟩
      simp only [ha, hb, Option.some.injEq]
      rcases hab with rfl | hab
      · rfl
      · constructor
        · rintro ⟨z, h2, rfl⟩; exact absurd h2 (hab i hij).1
        · rintro ⟨z, h2, rfl⟩; exact absurd h2 (hab i hij).2
    · rw [h d' j hj]

theorem occupancy_zero {c : CRP} {i u : Int} (h : occupancy (without c.seating i) u = 0) : ∀ j, j ≠ i → c.seating j ≠ some u := by
  intro j hj he
  unfold occupancy at h
  have hfin : {j | without c.seating i j = some u}.Finite := by
    refine Set.Finite.subset (c.assignments.keys.toFinset.finite_toSet) ?_
    intro j hj
    simp only [Set.mem_setOf_eq, without] at hj
    split at hj
    · cases hj
    · simp only [List.coe_toFinset, Set.mem_setOf_eq]
      exact FMap.mem_keys.mpr ⟨u, hj⟩
  rw [Set.ncard_eq_zero hfin] at h
  have : j ∈ {j | without c.seating i j = some u} := by simp [without, hj, he]
  rw [h] at this
  exact this

theorem even_score {I0 I I' : IRM F} {d : String} {item : Int} (h : Inv L ar I) (h' : Inv L ar I') (he : Even H d item I0 I.doms I.rels)
    (he' : Even H d item I0 I'.doms I'.rels) (hd : SameData I I') (ha : SameAlphas I I') (hp : SamePartition I I') :
    I'.logpScore = I.logpScore := by
  refine score_same h h' hd ha hp (fun n id r r' h1 h2 h3 => ?_)
  by_cases ho : r.Observes d item
  · obtain ⟨a1, a2⟩ := (he n id r h1).1 ho
    obtain ⟨b1, _⟩ := (he' n id r' h2).1 ((h3.observes d item).mpr ho)
    exact a1.relabel (h.rels n id r h1) (h'.rels n id r' h2) a2 b1 h3 hp
  · have a1 := (he n id r h1).2 ho
    have b1 := (he' n id r' h2).2 (fun hh => ho ((h3.observes d item).mp hh))
    rw [a1] at b1; cases b1; rfl

/-- detailed balance -/
theorem balance {I I' : IRM F} (h : Inv L ar I) {d : String} {dom : Domain} (hdom : I.doms.find? d = some dom)
    {item cur : Int} (hcur : dom.crp.assignments.find? item = some cur) (he : Even H d item I I.doms I.rels) {p : ℝ} (hm : MovesTo I d item p I') :
    ∃ q I'', MovesTo I' d item q I'' ∧ SameData I I'' ∧ SameAlphas I I'' ∧ SamePartition I I'' ∧ I''.logpScore = I.logpScore ∧
      Real.exp I.logpScore * p = Real.exp I'.logpScore * q := by
  classical
  have hex : ∀ n id r, I.rels.find? n = some (id, r) → (∃ k, r.data.contains k = true ∧ Uses r.doms d item k) → r.Scorable L :=
    fun n id r hr ho => ((he n id r hr).1 ho).2
  obtain ⟨w, lw, hw1, hwc, HH⟩ := itemScores_exact h hdom hcur hex
  obtain ⟨t, tables, logps, order, I1, t1, z, x, t2, t2', k, c1, c2, c3, c4, c5⟩ := hm
  obtain ⟨order', I1', t1', d1, d2⟩ := HH t
  rw [c1] at d1; cases d1
  have hz : z ∈ w.keys := List.mem_of_getElem? c2
  have hx : x = lw z := by
    rw [List.getElem?_map, c2] at c3; simpa using c3.symm
  obtain ⟨J, tJ, f1, f2, f3, f4, f5⟩ := d2 z hz t2
  rw [c5] at f1; cases f1
  have he' := move_even h hdom hcur he c1 c5
  have ha' := move_alphas h hdom hcur c1 c5
  -- the entity in `I'`
  have hseat : seatOf I'.doms d item = some z := by rw [f4 d item]; simp
  obtain ⟨dom', hdom', _⟩ := seatOf_some hseat
  have hcur' : dom'.crp.assignments.find? item = some z := by rw [seatOf_eq hdom'] at hseat; exact hseat
  obtain ⟨w', lw', hw1', hwc', H'⟩ := itemScores_exact f2 hdom' hcur' (fun n id r hr ho => ((he' n id r hr).1 ho).2)
  -- the candidates
  obtain ⟨v, v1, new, n1, _, n3, _⟩ := CRP.tablesWeightsGibbs_spec (h.store d dom hdom).crp hcur
  rw [hw1] at v1; cases v1
  obtain ⟨v, v1, new', n1', _, n3', _⟩ := CRP.tablesWeightsGibbs_spec (f2.store d dom' hdom').crp hcur'
  rw [hw1'] at v1; cases v1
  have hwo : without dom'.crp.seating item = without dom.crp.seating item := by
    funext j
    simp only [without]
    split
    · rfl
    · rename_i hj
      have := f4 d j
      rw [seatOf_eq hdom', seatOf_eq hdom, if_neg (fun hh => hj hh.2)] at this
      exact this
  have hk : ∀ u, u ∈ w.keys ↔ u = new ∨ occupancy (without dom.crp.seating item) u ≠ 0 := by
    intro u
    rw [FMap.mem_keys, n3]
    by_cases hu : u = new
    · simp [hu]
    · by_cases ho : occupancy (without dom.crp.seating item) u = 0 <;> simp [hu, ho]
  have hk' : ∀ u, u ∈ w'.keys ↔ u = new' ∨ occupancy (without dom.crp.seating item) u ≠ 0 := by
    intro u
    rw [FMap.mem_keys, n3', hwo]
    by_cases hu : u = new'
    · simp [hu]
    · by_cases ho : occupancy (without dom.crp.seating item) u = 0 <;> simp [hu, ho]
  rw [hwo] at n1'
  let β : Int → Int := fun u => if u = new then new' else u
  have hβ : ∀ u ∈ w.keys, β u ∈ w'.keys := by
    intro u hu
    simp only [β]
    split
    · exact (hk' _).mpr (.inl rfl)
    · rename_i hne
      exact (hk' _).mpr (.inr (((hk u).mp hu).resolve_left hne))
  have hβo : ∀ u ∈ w.keys, u = β u ∨ ∀ j, j ≠ item → seatOf I.doms d j ≠ some u ∧ seatOf I.doms d j ≠ some (β u) := by
    intro u hu
    by_cases hun : u = new
    · right
      intro j hj
      rw [seatOf_eq hdom]
      have e1 : β u = new' := by simp [β, hun]
      rw [e1, hun]
      exact ⟨occupancy_zero n1 j hj, occupancy_zero n1' j hj⟩
    · left; simp [β, hun]
  have hperm : w'.keys.Perm (w.keys.map β) := by
    rw [List.perm_ext_iff_of_nodup w'.nodupKeys]
    · intro u
      rw [hk', List.mem_map]
      constructor
      · rintro (rfl | ho)
        · exact ⟨new, (hk new).mpr (.inl rfl), by simp [β]⟩
        · refine ⟨u, (hk u).mpr (.inr ho), ?_⟩
          have : u ≠ new := by rintro rfl; exact ho n1
          simp [β, this]
      · rintro ⟨u0, hu0, rfl⟩
        exact (hk' _).mp (hβ u0 hu0)
    · refine List.Nodup.map_on ?_ w.nodupKeys
      intro a ha b hb hab
      have key : ∀ a b, a ∈ w.keys → b ∈ w.keys → a = new → b ≠ new → β a = β b → False := by
        intro a b _ hb ha hbn hab
        simp only [β, ha, hbn, if_true, if_false] at hab
        rcases (hk b).mp hb with hh | hh
        · exact hbn hh
        · rw [← hab] at hh; exact hh n1'
      by_cases h1 : a = new <;> by_cases h2 : b = new
      · rw [h1, h2]
      · exact (key a b ha hb h1 h2 hab).elim
      · exact (key b a hb ha h2 h1 hab.symm).elim
      · simpa [β, h1, h2] using hab
  -- corresponding candidates lead to states with the same score
  obtain ⟨ord, Is, ts, s1, s2⟩ := H' []
  have hlw : ∀ u ∈ w.keys, lw' (β u) = lw u + (lw' z - lw z) := by
    intro u hu
    obtain ⟨A, tA, a1, a2, a3, a4, a5⟩ := d2 u hu []
    obtain ⟨B, tB, b1, b2, b3, b4, b5⟩ := s2 (β u) (hβ u hu) []
    have hp : SamePartition A B := by
      refine samePartition_of (d := d) (item := item) (a := u) (b := β u) (fun d' i hn => ?_) ?_ ?_ ?_
      · rw [b4, a4, if_neg hn, if_neg hn, f4, if_neg hn]
      · rw [a4]; simp
      · rw [b4]; simp
      · rcases hβo u hu with hh | hh
        · exact .inl hh
        · right
          intro j hj
          rw [a4, if_neg (fun hh => hj hh.2)]
          exact hh j hj
    have := even_score a2 b2 (move_even h hdom hcur he c1 a1) (move_even f2 hdom' hcur' he' s1 b1) (a3.symm.trans (f3.trans b3))
      (SameAlphas.trans a3.symm (move_alphas h hdom hcur c1 a1).symm (SameAlphas.trans f3 ha' (move_alphas f2 hdom' hcur' s1 b1))) hp
    linarith
  -- moving back
  obtain ⟨B, tB, b1, b2, b3, b4, b5⟩ := s2 (β cur) (hβ cur hwc) []
  obtain ⟨kb, hkb⟩ := List.getElem?_of_mem (hβ cur hwc)
  refine ⟨_, B, ⟨[], _, _, ord, Is, ts, β cur, lw' (β cur), [], tB, kb, s1, hkb, by rw [List.getElem?_map, hkb]; rfl, rfl, b1⟩, f3.trans b3,
    SameAlphas.trans f3 ha' (move_alphas f2 hdom' hcur' s1 b1), ?_, ?_, ?_⟩
  · refine samePartition_of (d := d) (item := item) (a := cur) (b := β cur) (fun d' i hn => ?_) ?_ ?_ (hβo cur hwc)
    · rw [b4, if_neg hn, f4, if_neg hn]
    · rw [seatOf_eq hdom]; exact hcur
    · rw [b4]; simp
  · have := hlw cur hwc
    linarith
  · have hsum : ((w'.keys.map lw').map Real.exp).sum = Real.exp (lw' z - lw z) * ((w.keys.map lw).map Real.exp).sum := by
      rw [List.map_map, List.map_map, (hperm.map _).sum_eq, List.map_map, ← List.sum_map_mul_left]
      congr 1
      apply List.map_congr_left
      intro u hu
      simp only [Function.comp_apply, hlw u hu, Real.exp_add]
      ring
    rw [c4, hx, hsum, hlw cur hwc, Real.exp_add]
    have hpos : 0 < ((w.keys.map lw).map Real.exp).sum := by
      apply List.sum_pos
      · intro y hy
        obtain ⟨u, _, rfl⟩ := List.mem_map.mp hy
        exact Real.exp_pos _
      · intro hnil
        rw [List.map_map, List.map_eq_nil_iff] at hnil
        rw [hnil] at hz; simp at hz
    have e1 : Real.exp I'.logpScore = Real.exp I.logpScore * Real.exp (lw z) / Real.exp (lw cur) := by
      rw [← Real.exp_add, ← Real.exp_sub]; congr 1; linarith
    rw [e1]
    field_simp

end IRM
end
end Verif
