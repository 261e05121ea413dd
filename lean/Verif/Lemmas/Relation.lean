import Verif.Lemmas.Index
import Verif.Lemmas.Clusters
/-! Helper lemmas: the invariant of a clean relation and what each operation does to it. -/
namespace Verif
noncomputable section

namespace ClInv
variable {V : Type} {D : DistOps V} {supp : V → Prop} {place : Items → Option Items} {data : FMap Items V} {cl : FMap Items D.S}

/-- replacing the value of one observation -/
theorem update (h : ClInv D supp place data cl) {k z : Items} {v v' : V} {c c' : D.S} (hk : data.find? k = some v)
    (hp : place k = some z) (_hc : cl.find? z = some c) (hh : D.Holds supp (v' ::ₘ contents place (data.erase k) z) c') :
    ClInv D supp place (data.set k v') (cl.set z c') := by
  intro z'
  have hd : data.set k v' = (data.erase k).set k v' := (FMap.set_erase ..).symm
  rw [hd, contents_set_new (FMap.find?_erase_self data k)]
  by_cases hz : z' = z
  · subst hz
    rw [if_pos hp, FMap.find?_set_self]
    exact ⟨nofun, fun c1 h1 => by cases h1; exact ⟨by simp, hh⟩⟩
  · have hne : ¬ place k = some z' := by rw [hp]; intro h'; cases h'; exact hz rfl
    rw [if_neg hne, FMap.find?_set_ne _ hz]
    have := h z'
    rw [contents_erase hk, if_neg hne] at this
    exact this

end ClInv

namespace CleanRel
variable {V : Type} {D : DistOps V} {supp : V → Prop}

/-- the invariant of a clean relation -/
structure Inv (supp : V → Prop) (σ : Doms) (r : CleanRel D) : Prop where
  ne : r.doms ≠ []
  doms : ∀ d ∈ r.doms, σ.contains d = true
  seated : ∀ k v, r.data.find? k = some v → supp v ∧ ∃ z, tupleSeat σ r.doms k = some z
  idx : Idx r.doms (fun d i k => r.data.contains k = true ∧ Uses r.doms d i k) r.dataR
  cl : ClInv D supp (tupleSeat σ r.doms) r.data r.clusters

theorem Inv.length {σ : Doms} {r : CleanRel D} (h : Inv supp σ r) {k : Items} {v : V} (hk : r.data.find? k = some v) :
    k.length = r.doms.length := by
  obtain ⟨_, z, hz⟩ := h.seated k v hk
  exact (tupleSeat_length hz).1

/-- the invariant only depends on where the store seats the stored tuples -/
theorem Inv.store {σ σ' : Doms} {r : CleanRel D} (h : Inv supp σ r) (hd : ∀ d ∈ r.doms, σ'.contains d = true)
    (hs : ∀ k v, r.data.find? k = some v → tupleSeat σ' r.doms k = tupleSeat σ r.doms k) : Inv supp σ' r where
  ne := h.ne
  doms := hd
  seated k v hk := by rw [hs k v hk]; exact h.seated k v hk
  idx := h.idx
  cl := h.cl.congr (fun k v hk => (hs k v hk).symm)

theorem Inv.grows {σ σ' : Doms} {r : CleanRel D} {new : String → Int → Prop} (h : Inv supp σ r) (g : Grows new σ σ') :
    Inv supp σ' r := by
  refine h.store (fun d hd => by rw [g.doms]; exact h.doms d hd) (fun k v hk => ?_)
  obtain ⟨_, z, hz⟩ := h.seated k v hk
  rw [hz]
  exact tupleSeat_mono (fun d _ i z => g.seat d i z) hz

theorem mk'_ok {doms : List String} {r : CleanRel D} (h : mk' D doms = .ok r) :
    doms ≠ [] ∧ r = { doms := doms, dataR := doms.foldl (fun m d => m.set d ∅) ∅ } := by
  cases doms with
  | nil => simp [mk', bind, Except.bind, assertR] at h
  | cons d ds =>
    simp only [mk', bind, Except.bind, assertR, List.isEmpty_cons, Bool.not_false, if_true] at h
    injection h with h
    exact ⟨by simp, h.symm⟩

theorem inv_fresh {σ : Doms} {doms : List String} {r : CleanRel D} (hd : ∀ d ∈ doms, σ.contains d = true)
    (h : mk' D doms = .ok r) : Inv supp σ r := by
  obtain ⟨h1, rfl⟩ := mk'_ok h
  refine ⟨h1, hd, fun k v hk => by simp at hk, (Idx.empty doms).congr ?_, ClInv.empty⟩
  intro d _ i k
  simp [FMap.contains]

/-- what `incorporate` does -/
theorem incorporate_spec (L : Lawful D supp) {σ : Doms} (hσ : StoreWF σ) {r : CleanRel D} (h : Inv supp σ r) {items : Items}
    (hl : items.length = r.doms.length) (hn : r.data.find? items = none) {v : V} (hv : supp v) (t : Tape) :
    ∃ σ' r' t', incorporate σ r items v t = .ok (σ', r', t') ∧ StoreWF σ' ∧
      Grows (fun d i => Uses r.doms d i items) σ σ' ∧ Inv supp σ' r' ∧ r'.doms = r.doms ∧ r'.data = r.data.set items v ∧
      ∃ z c0 c1, tupleSeat σ' r.doms items = some z ∧
        (r.clusters.find? z = some c0 ∨ (r.clusters.find? z = none ∧ ∃ t0, c0 = (D.fresh t0).1)) ∧
        D.inc c0 v = .ok c1 ∧ r'.clusters = r.clusters.set z c1 := by
  obtain ⟨σ', m', t', h1, h2, h3, h4⟩ := incLoop_spec items hl t hσ h.idx (fun d hd => hd) h.doms
  have hseat : ∃ z, tupleSeat σ' r.doms items = some z := by
    rw [tupleSeat_isSome hl]
    intro d i hm
    exact (h3.mem d i).mpr (.inr ⟨h.doms d (List.of_mem_zip hm).1, hm⟩)
  obtain ⟨z, hz⟩ := hseat
  have hg := h.grows h3
  obtain ⟨cl', t'', h5, h6, c0, c1, h7, h8, h9⟩ := hg.cl.putIn L hn hz hv t'
  have hfin : ∀ t0, incorporate σ r items v t = .ok (σ', { r with data := r.data.set items v, dataR := m', clusters := cl' }, t0) →
      ∃ σ' r' t', incorporate σ r items v t = .ok (σ', r', t') ∧ StoreWF σ' ∧
      Grows (fun d i => Uses r.doms d i items) σ σ' ∧ Inv supp σ' r' ∧ r'.doms = r.doms ∧ r'.data = r.data.set items v ∧
      ∃ z c0 c1, tupleSeat σ' r.doms items = some z ∧
        (r.clusters.find? z = some c0 ∨ (r.clusters.find? z = none ∧ ∃ t0, c0 = (D.fresh t0).1)) ∧
        D.inc c0 v = .ok c1 ∧ r'.clusters = r.clusters.set z c1 := by
    intro t0 ht
    refine ⟨σ', _, t0, ht, h2, h3, ⟨h.ne, hg.doms, ?_, ?_, h6⟩, rfl, rfl, z, c0, c1, hz, ?_, h8, h9⟩
    · intro k v' hk
      dsimp only at hk ⊢
      rw [FMap.find?_set] at hk
      split at hk
      · rename_i hkk; subst hkk; cases hk; exact ⟨hv, z, hz⟩
      · exact hg.seated k v' hk
    · refine h4.congr ?_
      intro d _ i k
      dsimp only
      simp only [FMap.contains, FMap.find?_set, Uses]
      by_cases hk : k = items
      · subst hk; simp [hn]
      · simp [hk]
    · rcases h7 with h7 | ⟨h7, h7'⟩
      · exact .inl h7
      · exact .inr ⟨h7, t', h7'⟩
  have hc0 : r.data.contains items = false := FMap.contains_false.mpr hn
  have hcl : ∀ m', clusterOf σ' { r with dataR := m' } items = .ok z := fun m' => clusterOf_eq (D := D) h2 hz
  rcases h7 with h7 | ⟨h7, rfl⟩
  · apply hfin t'
    have hct : r.clusters.contains z = true := FMap.contains_iff.mpr ⟨_, h7⟩
    simp only [incorporate, incorporateItems, bind, Except.bind, assertR, hc0, Bool.not_false, if_true, h1, hcl, hct,
      FMap.atKey_of_find h7, h8, h9]
  · apply hfin (D.fresh t').2
    have hct : r.clusters.contains z = false := FMap.contains_false.mpr h7
    simp only [incorporate, incorporateItems, bind, Except.bind, assertR, hc0, Bool.not_false, if_true, h1, hcl, hct,
      Bool.false_eq_true, if_false, FMap.atKey_of_find (FMap.find?_set_self ..), h8, h9, FMap.set_set]

/-- `incorporate` only succeeds for a new tuple of the right length -/
theorem incorporate_pre {σ σ' : Doms} {r r' : CleanRel D} {items : Items} {v : V} {t t' : Tape}
    (h : incorporate σ r items v t = .ok (σ', r', t')) : items.length = r.doms.length ∧ r.data.find? items = none := by
  simp only [incorporate, incorporateItems, bind, Except.bind, assertR] at h
  cases hc : r.data.contains items with
  | true => simp [hc] at h
  | false =>
    refine ⟨?_, FMap.contains_false.mp hc⟩
    simp only [hc, Bool.not_false, if_true] at h
    cases hi : incLoop items r.doms items σ r.dataR t with
    | error e => simp [hi] at h
    | ok x =>
      simp only [hi] at h
      by_contra hne
      simp [clusterOf, hne] at h

/-- what `unincorporate` does -/
theorem unincorporate_spec (L : Lawful D supp) {σ : Doms} (hσ : StoreWF σ) {r : CleanRel D} (h : Inv supp σ r) {items : Items}
    {v : V} (hk : r.data.find? items = some v) :
    ∃ r', unincorporate σ r items = .ok r' ∧ Inv supp σ r' ∧ r'.doms = r.doms ∧ r'.data = r.data.erase items ∧
      ∃ z, tupleSeat σ r.doms items = some z ∧ takeOut r.clusters z v = .ok r'.clusters := by
  obtain ⟨_, z, hz⟩ := h.seated items v hk
  obtain ⟨cl', h1, h2⟩ := h.cl.takeOut L hk hz
  obtain ⟨m', h3, h4⟩ := h.idx.cleanLoop items (h.length hk) (fun d hd => hd)
  refine ⟨{ r with clusters := cl', dataR := m', data := r.data.erase items }, ?_, ⟨h.ne, h.doms, ?_, ?_, h2⟩, rfl, rfl, z, hz, h1⟩
  · have hc : r.data.contains items = true := FMap.contains_iff.mpr ⟨_, hk⟩
    have hcl := clusterOf_eq hσ hz
    simp only [unincorporate, bind, Except.bind, assertR, hc, if_true, FMap.atKey_of_find hk, hcl, h1, cleanupData, h3]
  · intro k v' hk'
    dsimp only at hk' ⊢
    rw [FMap.find?_erase] at hk'
    split at hk'
    · cases hk'
    · exact h.seated k v' hk'
  · refine h4.congr ?_
    intro d _ i k
    dsimp only
    simp only [FMap.contains, FMap.find?_erase, Uses]
    by_cases hkk : k = items
    · subst hkk; simp
    · simp [hkk]

theorem unincorporate_pre {σ : Doms} {r r' : CleanRel D} {items : Items} (h : unincorporate σ r items = .ok r') :
    ∃ v, r.data.find? items = some v := by
  cases hc : r.data.contains items with
  | true => exact FMap.contains_iff.mp hc
  | false => simp [unincorporate, bind, Except.bind, assertR, hc] at h

/-- what `update_value` does -/
theorem updateValue_spec (L : Lawful D supp) {σ : Doms} (hσ : StoreWF σ) {r : CleanRel D} (h : Inv supp σ r) {items : Items}
    {v v' : V} (hk : r.data.find? items = some v) (hv : supp v') :
    ∃ z c c1 c2, tupleSeat σ r.doms items = some z ∧ r.clusters.find? z = some c ∧ D.dec c v = .ok c1 ∧ D.inc c1 v' = .ok c2 ∧
      updateValue σ r items v' = .ok { r with data := r.data.set items v', clusters := r.clusters.set z c2 } ∧
      Inv supp σ { r with data := r.data.set items v', clusters := r.clusters.set z c2 } := by
  obtain ⟨_, z, hz⟩ := h.seated items v hk
  obtain ⟨c, hc, hh⟩ := h.cl.find hk hz
  rw [contents_erase hk, if_pos hz] at hh
  obtain ⟨c1, h1, h2⟩ := L.holds_dec hh
  obtain ⟨c2, h3, h4⟩ := L.holds_inc h2 hv
  refine ⟨z, c, c1, c2, hz, hc, h1, h3, ?_, ⟨h.ne, h.doms, ?_, ?_, h.cl.update hk hz hc h4⟩⟩
  · have hcl : ∀ cl', clusterOf σ { r with clusters := cl' } items = .ok z := fun m' => clusterOf_eq (D := D) hσ hz
    have hcl0 : clusterOf σ r items = .ok z := clusterOf_eq hσ hz
    have hct : r.clusters.contains z = true := FMap.contains_iff.mpr ⟨_, hc⟩
    have hct' : (r.clusters.set z c1).contains z = true := FMap.contains_iff.mpr ⟨_, FMap.find?_set_self ..⟩
    have hdt : r.data.contains items = true := FMap.contains_iff.mpr ⟨_, hk⟩
    simp only [updateValue, unincorporateFromCluster, incorporateToCluster, getValue, bind, Except.bind, assertR, hcl0, hcl, hct, hct',
      if_true, hdt, FMap.atKey_of_find hk, FMap.atKey_of_find hc, h1, FMap.atKey_of_find (FMap.find?_set_self ..), h3, FMap.set_set]
  · intro k v1 hk'
    dsimp only at hk' ⊢
    rw [FMap.find?_set] at hk'
    split at hk'
    · rename_i hkk; subst hkk; cases hk'; exact ⟨hv, z, hz⟩
    · exact h.seated k v1 hk'
  · refine h.idx.congr ?_
    intro d _ i k
    dsimp only
    simp only [FMap.contains, FMap.find?_set]
    by_cases hkk : k = items
    · subst hkk; simp [hk]
    · simp [hkk]

theorem updateValue_pre {σ : Doms} {r r' : CleanRel D} {items : Items} {v : V} (h : updateValue σ r items v = .ok r') :
    ∃ v, r.data.find? items = some v := by
  cases hc : r.data.contains items with
  | true => exact FMap.contains_iff.mp hc
  | false =>
    exfalso
    simp only [updateValue, unincorporateFromCluster, getValue, bind, Except.bind, assertR, hc] at h
    cases h1 : clusterOf σ r items with
    | error e => simp [h1] at h
    | ok z =>
      simp only [h1] at h
      cases h2 : r.clusters.contains z <;> simp [h2] at h

/-- `Inv` only constrains what the clusters hold -/
theorem Inv.setClusters {σ : Doms} {r : CleanRel D} (h : Inv supp σ r) {cl : FMap Items D.S}
    (hc : ClInv D supp (tupleSeat σ r.doms) r.data cl) : Inv supp σ { r with clusters := cl } :=
  ⟨h.ne, h.doms, h.seated, h.idx, hc⟩

/-! ### moving an item -/

theorem gibbsLoop_spec {σ σ' : Doms} (hσ : StoreWF σ) {d : String} {item table : Int}
    (hs : ∀ d' i, seatOf σ' d' i = if d' = d ∧ i = item then some table else seatOf σ d' i) {ds : List String} {is z : Items}
    (hz : tupleSeat σ' ds is = some z) :
    ∃ n, gibbsLoop σ d item table ds is = .ok (z, n) ∧ (0 < n ↔ (d, item) ∈ ds.zip is) := by
  induction ds generalizing is z with
  | nil => cases is <;> simp_all [tupleSeat, gibbsLoop]
  | cons d' ds ih =>
    cases is with
    | nil => simp [tupleSeat] at hz
    | cons i is =>
      obtain ⟨a, b, h1, h2, rfl⟩ := tupleSeat_cons.mp hz
      obtain ⟨n, h3, h4⟩ := ih h2
      rw [hs] at h1
      by_cases hd : d' = d ∧ i = item
      · rw [if_pos hd] at h1
        injection h1 with h1
        subst h1
        obtain ⟨rfl, rfl⟩ := hd
        refine ⟨n + 1, ?_, by simp⟩
        simp only [gibbsLoop, and_self, if_true, bind, Except.bind, h3]
      · rw [if_neg hd] at h1
        obtain ⟨dom, h5, h6⟩ := seatOf_some h1
        refine ⟨n, ?_, ?_⟩
        · simp only [gibbsLoop, hd, if_false, bind, Except.bind, Doms.get_eq h5,
            Domain.getClusterAssignment_eq (hσ d' dom h5) h6, h3]
        · rw [h4, List.zip_cons_cons, List.mem_cons, Prod.mk.injEq]
          constructor
          · exact .inr
          · rintro (⟨h7, h8⟩ | h7)
            · exact absurd ⟨h7.symm, h8.symm⟩ hd
            · exact h7

theorem clusterOfGibbs_eq {σ σ' : Doms} (hσ : StoreWF σ) {r : CleanRel D} {d : String} {item table : Int}
    (hs : ∀ d' i, seatOf σ' d' i = if d' = d ∧ i = item then some table else seatOf σ d' i) {items z : Items}
    (hu : Uses r.doms d item items) (hz : tupleSeat σ' r.doms items = some z) :
    clusterOfGibbs σ r items d item table = .ok z := by
  obtain ⟨n, h1, h2⟩ := gibbsLoop_spec hσ hs hz
  have : 0 < n := h2.mpr hu
  simp [clusterOfGibbs, bind, Except.bind, assertR, (tupleSeat_length hz).1, h1, this]

/-- moving one item keeps every tuple of seated items seated -/
theorem tupleSeat_moved {σ σ' : Doms} {d : String} {item table : Int}
    (hs : ∀ d' i, seatOf σ' d' i = if d' = d ∧ i = item then some table else seatOf σ d' i) {ds : List String} {is z : Items}
    (hz : tupleSeat σ ds is = some z) : ∃ z', tupleSeat σ' ds is = some z' := by
  have hl := (tupleSeat_length hz).1
  rw [tupleSeat_isSome hl]
  intro d' i hm
  rw [hs]
  split
  · exact ⟨_, rfl⟩
  · exact (tupleSeat_isSome hl).mp ⟨z, hz⟩ d' i hm

theorem setGibbsLoop_spec (L : Lawful D supp) {σ σ' : Doms} (hσ : StoreWF σ) {d : String} {item table : Int}
    (hs : ∀ d' i, seatOf σ' d' i = if d' = d ∧ i = item then some table else seatOf σ d' i) :
    ∀ (l : List Items) (r : CleanRel D) (t : Tape), l.Nodup →
      (∀ k ∈ l, Uses r.doms d item k ∧ ∃ v, r.data.find? k = some v) →
      (∀ k v, r.data.find? k = some v → supp v ∧ ∃ z, tupleSeat σ r.doms k = some z) →
      ClInv D supp (fun k => if k ∈ l then tupleSeat σ r.doms k else tupleSeat σ' r.doms k) r.data r.clusters →
      ∃ cl t', setGibbsLoop σ d item table l r t = .ok ({ r with clusters := cl }, t') ∧
        ClInv D supp (tupleSeat σ' r.doms) r.data cl := by
  intro l
  induction l with
  | nil =>
    intro r t _ _ _ hc
    refine ⟨r.clusters, t, rfl, ?_⟩
    exact hc.congr (by simp)
  | cons k l ih =>
    intro r t hnd hl hseat hc
    rw [List.nodup_cons] at hnd
    obtain ⟨hu, v, hv⟩ := hl k (by simp)
    obtain ⟨hsv, z, hz⟩ := hseat k v hv
    obtain ⟨z', hz'⟩ := tupleSeat_moved hs hz
    obtain ⟨cl1, h1, h2⟩ := hc.takeOut L (k := k) (z := z) hv (by simp [hz])
    have h3 : ClInv D supp (fun k => if k ∈ l then tupleSeat σ r.doms k else tupleSeat σ' r.doms k) (r.data.erase k) cl1 := by
      refine h2.congr ?_
      intro k' v' hk'
      have : k' ≠ k := by rintro rfl; simp at hk'
      simp [this]
    obtain ⟨cl2, t2, h4, h5, _⟩ := h3.putIn L (k := k) (z := z') (FMap.find?_erase_self ..) (by simp [hnd.1, hz']) hsv t
    rw [FMap.set_erase, FMap.set_of_find hv] at h5
    obtain ⟨cl3, t3, h6, h7⟩ := ih { r with clusters := cl2 } t2 hnd.2 (fun k' hk' => hl k' (by simp [hk'])) hseat h5
    refine ⟨cl3, t3, ?_, h7⟩
    simp only [setGibbsLoop, bind, Except.bind, FMap.atKey_of_find hv, clusterOf_eq hσ hz, h1, clusterOfGibbs_eq hσ hs hu hz', h4]
    exact h6

theorem Inv.observationsOf {σ : Doms} {r : CleanRel D} (h : Inv supp σ r) {d : String} (hd : d ∈ r.doms) {item : Int} :
    (∃ b, r.hasObservation d item = .ok b ∧ (b = true ↔ ∃ k, r.data.contains k = true ∧ Uses r.doms d item k) ∧
      (b = true → ∃ s, r.observationsOf d item = .ok s ∧ ∀ k, k ∈ s.keys ↔ (r.data.contains k = true ∧ Uses r.doms d item k)) ∧
      (b = false → r.observationsOf d item = .error .outOfRange)) := by
  obtain ⟨md, hmd⟩ := h.idx.find hd
  have hm := fun k => h.idx.mem d md item k hmd
  refine ⟨md.contains item, ?_, ?_, ?_, ?_⟩
  · simp [hasObservation, bind, Except.bind, FMap.atKey_of_find hmd]
  · rw [FMap.contains_iff]
    constructor
    · rintro ⟨s, hs⟩
      obtain ⟨k, hk⟩ := h.idx.ne d md item s hmd hs
      exact ⟨k, (hm k).mp ⟨s, hs, hk⟩⟩
    · rintro ⟨k, hk⟩
      obtain ⟨s, hs, _⟩ := (hm k).mpr hk
      exact ⟨s, hs⟩
  · intro hb
    obtain ⟨s, hs⟩ := FMap.contains_iff.mp hb
    refine ⟨s, by simp [CleanRel.observationsOf, bind, Except.bind, FMap.atKey_of_find hmd, FMap.atKey_of_find hs], fun k => ?_⟩
    rw [← hm k, hs]; simp
  · intro hb
    have := FMap.contains_false.mp hb
    simp [CleanRel.observationsOf, bind, Except.bind, FMap.atKey, hmd, this]

/-- what `set_cluster_assignment_gibbs` of a relation followed by that of the domain does -/
theorem setGibbs_spec (L : Lawful D supp) {σ : Doms} (hσ : StoreWF σ) {r : CleanRel D} (h : Inv supp σ r) {d : String}
    (hd : d ∈ r.doms) {dom : Domain} (hdom : σ.find? d = some dom) {item table cur : Int}
    (hcur : dom.crp.assignments.find? item = some cur) (hne : table ≠ cur) (hob : r.hasObservation d item = .ok true)
    {σ' : Doms} (hs : ∀ d' i, seatOf σ' d' i = if d' = d ∧ i = item then some table else seatOf σ d' i)
    (hdoms : ∀ d, σ'.contains d = σ.contains d) (t : Tape) :
    ∃ cl t', setClusterAssignmentGibbs σ r d item table t = .ok ({ r with clusters := cl }, t') ∧
      Inv supp σ' { r with clusters := cl } := by
  obtain ⟨b, h1, h2, h3, _⟩ := h.observationsOf hd (item := item)
  rw [hob] at h1
  injection h1 with h1
  subst h1
  obtain ⟨s, h4, h5⟩ := h3 rfl
  have hperm : ((shuffle s.keys t).1).Perm s.keys := shuffle_perm ..
  have hmem : ∀ k, k ∈ (shuffle s.keys t).1 ↔ (r.data.contains k = true ∧ Uses r.doms d item k) := fun k => by
    rw [hperm.mem_iff, h5]
  obtain ⟨cl, t', h6, h7⟩ := setGibbsLoop_spec L hσ hs (shuffle s.keys t).1 r (shuffle s.keys t).2
    (hperm.nodup_iff.mpr s.nodupKeys) (fun k hk => ⟨((hmem k).mp hk).2, FMap.contains_iff.mp ((hmem k).mp hk).1⟩) h.seated
    (h.cl.congr (by
      intro k v hk
      split
      · rfl
      · rename_i hnm
        rw [hmem] at hnm
        symm
        apply tupleSeat_congr
        intro d' i hm
        rw [hs, if_neg]
        rintro ⟨rfl, rfl⟩
        exact hnm ⟨FMap.contains_iff.mpr ⟨v, hk⟩, hm⟩))
  refine ⟨cl, t', ?_, ⟨h.ne, fun d' hd' => by rw [hdoms]; exact h.doms d' hd', ?_, h.idx, h7⟩⟩
  · simp only [setClusterAssignmentGibbs, bind, Except.bind, Doms.get_eq hdom, Domain.getClusterAssignment_eq (hσ d dom hdom) hcur,
      assertR, hne, ne_eq, not_false_eq_true, decide_true, if_true, h4]
    exact h6
  · intro k v hk
    obtain ⟨hsv, z, hz⟩ := h.seated k v hk
    exact ⟨hsv, tupleSeat_moved hs hz⟩

/-! ### hyperparameters -/

theorem holds_thetaSteps {m : Multiset V} (n : Nat) : ∀ {c : D.S} (_ : D.Holds supp m c) (t : Tape), D.Holds supp m (thetaSteps D n c t).1 := by
  induction n with
  | zero => intro c h t; exact h
  | succ n ih => intro c h t; exact ih (holds_theta h t) _

theorem hparamsLoop_spec (n : Nat) {place : Items → Option Items} {data : FMap Items V} :
    ∀ (l : List (Items × D.S)) (cl : FMap Items D.S) (t : Tape), (l.map Prod.fst).Nodup →
      (∀ e ∈ l, cl.find? e.1 = some e.2) → ClInv D supp place data cl →
      ClInv D supp place data (hparamsLoop D n l cl t).1 := by
  intro l
  induction l with
  | nil => intro cl t _ _ h; exact h
  | cons e l ih =>
    obtain ⟨z, c⟩ := e
    intro cl t hnd hl h
    rw [List.map_cons, List.nodup_cons] at hnd
    have hc : cl.find? z = some c := hl (z, c) (by simp)
    apply ih _ _ hnd.2
    · intro e he
      have hez : e.1 ≠ z := by
        intro he'; exact hnd.1 (List.mem_map.mpr ⟨e, he, he'⟩)
      rw [FMap.find?_set_ne _ hez]
      exact hl e (by simp [he])
    · exact h.set_same hc (holds_trans (holds_thetaSteps n ((h z).2 c hc).2 _) _)

theorem hparams_spec {σ : Doms} {r : CleanRel D} (h : Inv supp σ r) (n : Nat) (t : Tape) :
    Inv supp σ (r.transitionClusterHparams n t).1 := by
  have hperm : ((shuffle r.clusters.entries t).1).Perm r.clusters.entries := shuffle_perm ..
  refine h.setClusters (hparamsLoop_spec n _ _ _ ?_ ?_ h.cl)
  · exact (hperm.map Prod.fst).nodup_iff.mpr r.clusters.nodupKeys
  · intro e he
    exact FMap.mem_entries.mp (hperm.mem_iff.mp he)

end CleanRel
end
end Verif
