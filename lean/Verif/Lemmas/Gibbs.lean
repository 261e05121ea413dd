import Verif.Lemmas.Relation
/-! Helper lemmas about the Gibbs scores of a clean relation. -/
namespace Verif
noncomputable section
open Classical in
/-- the score of a state with hyperparameters `h` that holds `m` -/
def sc {V : Type} {D : DistOps V} {supp : V → Prop} (L : Lawful D supp) (h : L.H) (m : Multiset V) : ℝ :=
  if e : ∃ s, L.Rep h m s then D.score e.choose else 0

theorem sc_eq {V : Type} {D : DistOps V} {supp : V → Prop} {L : Lawful D supp} (S : L.Scored) {h : L.H} {m : Multiset V} {s : D.S}
    (hr : L.Rep h m s) : D.score s = sc L h m := by
  have e : ∃ s, L.Rep h m s := ⟨s, hr⟩
  rw [sc, dif_pos e]
  exact S _ _ _ _ hr e.choose_spec

/-- the values stored for the listed tuples -/
def valsOf {V : Type} (data : FMap Items V) (l : List Items) : Multiset V := (l.filterMap data.find? : List V)

theorem valsOf_nil {V : Type} (data : FMap Items V) : valsOf data [] = 0 := rfl

theorem valsOf_cons {V : Type} {data : FMap Items V} {k : Items} {v : V} (h : data.find? k = some v) (l : List Items) :
    valsOf data (k :: l) = v ::ₘ valsOf data l := by
  unfold valsOf
  rw [List.filterMap_cons_some h, Multiset.cons_coe]

/-- the values of all tuples that satisfy `q` are the values of the tuples in a list of them -/
theorem valsOf_eq {V : Type} {data : FMap Items V} {l : List Items} (hl : l.Nodup) {q : Items → Prop} [DecidablePred q]
    (hm : ∀ k, k ∈ l ↔ (∃ v, data.find? k = some v) ∧ q k) :
    valsOf data l = Multiset.map Prod.snd (Multiset.filter (fun e => q e.1) (data.entries : Multiset (Items × V))) := by
  have hp : l.Perm ((data.entries.filter (fun e => decide (q e.1))).map Prod.fst) := by
    rw [List.perm_ext_iff_of_nodup hl]
    · intro k
      rw [hm, List.mem_map]
      constructor
      · rintro ⟨⟨v, hv⟩, hq⟩
        exact ⟨(k, v), List.mem_filter.mpr ⟨FMap.mem_entries.mpr hv, by simpa using hq⟩, rfl⟩
      · rintro ⟨⟨k', v⟩, he, rfl⟩
        rw [List.mem_filter] at he
        exact ⟨⟨v, FMap.mem_entries.mp he.1⟩, by simpa using he.2⟩
    · exact (data.nodupKeys).sublist ((List.filter_sublist).map Prod.fst)
  unfold valsOf
  rw [Multiset.coe_eq_coe.mpr (hp.filterMap data.find?), Multiset.filter_coe, Multiset.map_coe, Multiset.coe_eq_coe,
    List.filterMap_map]
  have : ∀ es : List (Items × V), (∀ e ∈ es, e ∈ data.entries) → es.filterMap (data.find? ∘ Prod.fst) = es.map Prod.snd := by
    intro es
    induction es with
    | nil => intro _; rfl
    | cons e es ih =>
      intro he
      rw [List.filterMap_cons_some (f := data.find? ∘ Prod.fst) (b := e.2) (FMap.mem_entries.mp (he e (by simp))), List.map_cons, ih (fun e' h' => he e' (by simp [h']))]
  rw [this _ (fun e he => (List.mem_filter.mp he).1)]

namespace CleanRel
variable {V : Type} {D : DistOps V} {supp : V → Prop}

theorem decItems_spec (L : Lawful D supp) (r : CleanRel D) {h : L.H} {m : Multiset V} : ∀ {l : List Items} {c : D.S},
    (∀ k ∈ l, ∃ v, r.data.find? k = some v) → D.Holds supp (valsOf r.data l + m) c → L.Rep h (valsOf r.data l + m) c →
    ∃ c', decItems r l c = .ok c' ∧ D.Holds supp m c' ∧ L.Rep h m c' := by
  intro l
  induction l with
  | nil =>
    intro c _ h1 h2
    rw [valsOf_nil, zero_add] at h1 h2
    exact ⟨c, rfl, h1, h2⟩
  | cons k l ih =>
    intro c hl h1 h2
    obtain ⟨v, hv⟩ := hl k (by simp)
    rw [valsOf_cons hv, Multiset.cons_add] at h1 h2
    obtain ⟨c1, h3, h4⟩ := L.holds_dec h1
    obtain ⟨c2, h5, h6⟩ := L.dec h2
    rw [h3] at h5
    injection h5 with h5
    subst h5
    obtain ⟨c', h7, h8⟩ := ih (fun k' hk' => hl k' (by simp [hk'])) h4 h6
    exact ⟨c', by simp only [decItems, bind, Except.bind, FMap.atKey_of_find hv, h3, h7], h8⟩

theorem incItems_spec (L : Lawful D supp) (r : CleanRel D) {h : L.H} : ∀ {l : List Items} {m : Multiset V} {c : D.S},
    (∀ k ∈ l, ∃ v, r.data.find? k = some v ∧ supp v) → D.Holds supp m c → L.Rep h m c →
    ∃ c', incItems r l c = .ok c' ∧ D.Holds supp (valsOf r.data l + m) c' ∧ L.Rep h (valsOf r.data l + m) c' := by
  intro l
  induction l with
  | nil =>
    intro m c _ h1 h2
    rw [valsOf_nil, zero_add]
    exact ⟨c, rfl, h1, h2⟩
  | cons k l ih =>
    intro m c hl h1 h2
    obtain ⟨v, hv, hs⟩ := hl k (by simp)
    obtain ⟨c1, h3, h4⟩ := L.holds_inc h1 hs
    obtain ⟨c2, h5, h6⟩ := L.inc h2 hs
    rw [h3] at h5
    injection h5 with h5
    subst h5
    obtain ⟨c', h7, h8⟩ := ih (fun k' hk' => hl k' (by simp [hk'])) h4 h6
    rw [valsOf_cons hv, Multiset.cons_add, ← Multiset.add_cons]
    exact ⟨c', by simp only [incItems, bind, Except.bind, FMap.atKey_of_find hv, h3, h7], h8⟩

theorem scoresAgree_self (a : ℝ) : scoresAgree a a = true := by
  simp [scoresAgree]

/-- the cluster at `z` has hyperparameters `hy z` -/
def Tracked (L : Lawful D supp) (hy : Items → L.H) (place : Items → Option Items) (data : FMap Items V) (cl : FMap Items D.S) : Prop :=
  ∀ z c, cl.find? z = some c → L.Rep (hy z) (contents place data z) c

theorem exists_tracked (L : Lawful D supp) {place : Items → Option Items} {data : FMap Items V} {cl : FMap Items D.S}
    (h : ClInv D supp place data cl) (h0 : L.H) :
    ∃ hy : Items → L.H, Tracked L hy place data cl ∧ ∀ z, contents place data z = 0 → hy z = h0 := by
  have : ∀ z, ∃ h1 : L.H, (∀ c, cl.find? z = some c → L.Rep h1 (contents place data z) c) ∧ (contents place data z = 0 → h1 = h0) := by
    intro z
    cases hc : cl.find? z with
    | none => exact ⟨h0, nofun, fun _ => rfl⟩
    | some c =>
      obtain ⟨h2, h3⟩ := (h z).2 c hc
      obtain ⟨h1, hr⟩ := L.holds h3
      exact ⟨h1, fun c' hc' => by cases hc'; exact hr, fun h4 => absurd h4 h2⟩
  choose hy hhy using this
  exact ⟨hy, fun z c hc => (hhy z).1 c hc, fun z hz => (hhy z).2 hz⟩

theorem Tracked.set_same {L : Lawful D supp} {hy : Items → L.H} {place : Items → Option Items} {data : FMap Items V}
    {cl : FMap Items D.S} (h : Tracked L hy place data cl) {z : Items} {c : D.S} (hc : L.Rep (hy z) (contents place data z) c) :
    Tracked L hy place data (cl.set z c) := by
  intro z' c' h'
  rw [FMap.find?_set] at h'
  split at h'
  · rename_i hz; subst hz; cases h'; exact hc
  · exact h z' c' h'

/-- a relation in the invariant with given hyperparameters -/
structure TInv (L : Lawful D supp) (hy : Items → L.H) (σ : Doms) (r : CleanRel D) : Prop where
  inv : Inv supp σ r
  tr : Tracked L hy (tupleSeat σ r.doms) r.data r.clusters

theorem TInv.set {L : Lawful D supp} {hy : Items → L.H} {σ : Doms} {r : CleanRel D} (h : TInv L hy σ r) {z : Items} {c c' : D.S}
    (hc : r.clusters.find? z = some c) (h1 : D.Holds supp (contents (tupleSeat σ r.doms) r.data z) c')
    (h2 : L.Rep (hy z) (contents (tupleSeat σ r.doms) r.data z) c') : TInv L hy σ { r with clusters := r.clusters.set z c' } :=
  ⟨h.inv.setClusters (h.inv.cl.set_same hc h1), h.tr.set_same h2⟩

/-- `logp_gibbs_exact_current` -/
theorem exactCurrent_spec {L : Lawful D supp} (S : L.Scored) {hy : Items → L.H} {σ : Doms} (hσ : StoreWF σ) {r : CleanRel D} (h : TInv L hy σ r)
    {l : List Items} (hne : l ≠ []) {z : Items} (hl : ∀ k ∈ l, (∃ v, r.data.find? k = some v) ∧ tupleSeat σ r.doms k = some z)
    {m : Multiset V} (hm : contents (tupleSeat σ r.doms) r.data z = valsOf r.data l + m) :
    ∃ cl, exactCurrent σ r l = .ok (sc L (hy z) (contents (tupleSeat σ r.doms) r.data z) - sc L (hy z) m, { r with clusters := cl }) ∧
      TInv L hy σ { r with clusters := cl } := by
  cases l with
  | nil => exact absurd rfl hne
  | cons k l =>
    obtain ⟨⟨v, hv⟩, hz⟩ := hl k (by simp)
    obtain ⟨c, hc, hh⟩ := h.inv.cl.find hv hz
    have hr := h.tr z c hc
    have hd : ∀ k' ∈ k :: l, ∃ v, r.data.find? k' = some v := fun k' hk' => (hl k' hk').1
    have hd' : ∀ k' ∈ k :: l, ∃ v, r.data.find? k' = some v ∧ supp v := fun k' hk' => by
      obtain ⟨v, hv⟩ := hd k' hk'
      exact ⟨v, hv, (h.inv.seated k' v hv).1⟩
    obtain ⟨c1, h1, h2, h3⟩ := decItems_spec L r hd (hm ▸ hh) (hm ▸ hr)
    obtain ⟨c2, h4, h5, h6⟩ := incItems_spec L r hd' h2 h3
    rw [← hm] at h5 h6
    refine ⟨r.clusters.set z c2, ?_, h.set hc h5 h6⟩
    simp only [exactCurrent, bind, Except.bind, assertR, List.isEmpty_cons, Bool.not_false, if_true, idxR, List.getElem?_cons_zero,
      clusterOf_eq hσ hz, FMap.atKey_of_find hc, h1, h4, sc_eq S h6, sc_eq S hr, sc_eq S h3, scoresAgree_self]

/-- `logp_gibbs_exact_variant` -/
theorem exactVariant_spec {L : Lawful D supp} (S : L.Scored) {hy : Items → L.H} {σ : Doms} {r : CleanRel D} (h : TInv L hy σ r)
    {l : List Items} (hne : l ≠ []) (hl : ∀ k ∈ l, ∃ v, r.data.find? k = some v) {d : String} {item table : Int} {z : Items}
    (hz : ∀ k, l.head? = some k → clusterOfGibbs σ r k d item table = .ok z) (t : Tape) :
    ∃ x cl t', exactVariant σ r d item table l t = .ok (x, { r with clusters := cl }, t') ∧ TInv L hy σ { r with clusters := cl } ∧
      ((contents (tupleSeat σ r.doms) r.data z = 0 → ∀ t, L.Rep (hy z) 0 (D.fresh t).1) →
        x = sc L (hy z) (valsOf r.data l + contents (tupleSeat σ r.doms) r.data z) -
          sc L (hy z) (contents (tupleSeat σ r.doms) r.data z)) := by
  cases l with
  | nil => exact absurd rfl hne
  | cons k l =>
    have hd' : ∀ k' ∈ k :: l, ∃ v, r.data.find? k' = some v ∧ supp v := fun k' hk' => by
      obtain ⟨v, hv⟩ := hl k' hk'
      exact ⟨v, hv, (h.inv.seated k' v hv).1⟩
    have hzk := hz k rfl
    have key : ∀ (h1 : L.H) (c : D.S), D.Holds supp (contents (tupleSeat σ r.doms) r.data z) c →
        L.Rep h1 (contents (tupleSeat σ r.doms) r.data z) c → (r.clusters.find? z).getD (D.fresh t).1 = c →
        ∃ c2, exactVariant σ r d item table (k :: l) t =
            .ok (sc L h1 (valsOf r.data (k :: l) + contents (tupleSeat σ r.doms) r.data z) -
              sc L h1 (contents (tupleSeat σ r.doms) r.data z),
              if r.clusters.contains z then { r with clusters := r.clusters.set z c2 } else r, (D.fresh t).2) ∧
          D.Holds supp (contents (tupleSeat σ r.doms) r.data z) c2 ∧ L.Rep h1 (contents (tupleSeat σ r.doms) r.data z) c2 := by
      intro h1 c hh hr hc
      obtain ⟨c1, h2, h3, h4⟩ := incItems_spec L r hd' hh hr
      obtain ⟨c2, h5, h6, h7⟩ := decItems_spec L r hl h3 h4
      refine ⟨c2, ?_, h6, h7⟩
      simp only [exactVariant, bind, Except.bind, assertR, List.isEmpty_cons, Bool.not_false, if_true, idxR, List.getElem?_cons_zero,
        hzk, hc, h2, h5, sc_eq S h7, sc_eq S hr, sc_eq S h4, scoresAgree_self]
    cases hc : r.clusters.find? z with
    | none =>
      have h0 := (h.inv.cl z).1 hc
      obtain ⟨h1, hr⟩ := L.fresh t
      have hct : r.clusters.contains z = false := FMap.contains_false.mpr hc
      by_cases hf : ∀ t, L.Rep (hy z) 0 (D.fresh t).1
      · obtain ⟨c2, h2, h3, h4⟩ := key (hy z) (D.fresh t).1 (by rw [h0]; exact holds_fresh t) (by rw [h0]; exact hf t) (by rw [hc]; rfl)
        exact ⟨_, r.clusters, _, by rw [h2, hct]; rfl, h, fun _ => rfl⟩
      · obtain ⟨c2, h2, h3, h4⟩ := key h1 (D.fresh t).1 (by rw [h0]; exact holds_fresh t) (by rw [h0]; exact hr) (by rw [hc]; rfl)
        exact ⟨_, r.clusters, _, by rw [h2, hct]; rfl, h, fun hf' => absurd (hf' h0) hf⟩
    | some c =>
      have hct : r.clusters.contains z = true := FMap.contains_iff.mpr ⟨_, hc⟩
      obtain ⟨c2, h2, h3, h4⟩ := key (hy z) c ((h.inv.cl z).2 c hc).2 (h.tr z c hc) (by rw [hc]; rfl)
      exact ⟨_, r.clusters.set z c2, _, by rw [h2, hct, if_pos rfl], h.set hc h3 h4, fun _ => rfl⟩

/-- `logp_gibbs_exact_current` keeps the invariant -/
theorem exactCurrent_keeps (L : Lawful D supp) {σ : Doms} (hσ : StoreWF σ) {r r' : CleanRel D} (h : Inv supp σ r)
    {l : List Items} (hne : l ≠ []) {z : Items} (hl : ∀ k ∈ l, (∃ v, r.data.find? k = some v) ∧ tupleSeat σ r.doms k = some z)
    {m : Multiset V} (hm : contents (tupleSeat σ r.doms) r.data z = valsOf r.data l + m) {x : ℝ} (hc : exactCurrent σ r l = .ok (x, r')) :
    ∃ cl, r' = { r with clusters := cl } ∧ Inv supp σ { r with clusters := cl } := by
  cases l with
  | nil => exact absurd rfl hne
  | cons k l =>
    obtain ⟨⟨v, hv⟩, hz⟩ := hl k (by simp)
    obtain ⟨c, hcl, hh⟩ := h.cl.find hv hz
    obtain ⟨hy, hr⟩ := L.holds hh
    have hd : ∀ k' ∈ k :: l, ∃ v, r.data.find? k' = some v := fun k' hk' => (hl k' hk').1
    have hd' : ∀ k' ∈ k :: l, ∃ v, r.data.find? k' = some v ∧ supp v := fun k' hk' => by
      obtain ⟨v, hv⟩ := hd k' hk'
      exact ⟨v, hv, (h.seated k' v hv).1⟩
    obtain ⟨c1, h1, h2, h3⟩ := decItems_spec L r hd (hm ▸ hh) (hm ▸ hr)
    obtain ⟨c2, h4, h5, _⟩ := incItems_spec L r hd' h2 h3
    rw [← hm] at h5
    refine ⟨r.clusters.set z c2, ?_, h.setClusters (h.cl.set_same hcl h5)⟩
    simp only [exactCurrent, bind, Except.bind, assertR, List.isEmpty_cons, Bool.not_false, if_true, idxR, List.getElem?_cons_zero,
      clusterOf_eq hσ hz, FMap.atKey_of_find hcl, h1, h4] at hc
    split at hc
    · cases hc
    · injection hc with hc
      injection hc with _ hc
      exact hc.symm

/-- `logp_gibbs_exact_variant` keeps the invariant -/
theorem exactVariant_keeps (L : Lawful D supp) {σ : Doms} {r r' : CleanRel D} (h : Inv supp σ r)
    {l : List Items} (hne : l ≠ []) (hl : ∀ k ∈ l, ∃ v, r.data.find? k = some v) {d : String} {item table : Int} {z : Items}
    (hz : ∀ k, l.head? = some k → clusterOfGibbs σ r k d item table = .ok z) {t t' : Tape} {x : ℝ}
    (hc : exactVariant σ r d item table l t = .ok (x, r', t')) :
    ∃ cl, r' = { r with clusters := cl } ∧ Inv supp σ { r with clusters := cl } := by
  cases l with
  | nil => exact absurd rfl hne
  | cons k l =>
    have hd' : ∀ k' ∈ k :: l, ∃ v, r.data.find? k' = some v ∧ supp v := fun k' hk' => by
      obtain ⟨v, hv⟩ := hl k' hk'
      exact ⟨v, hv, (h.seated k' v hv).1⟩
    have hzk := hz k rfl
    have key : ∀ c : D.S, D.Holds supp (contents (tupleSeat σ r.doms) r.data z) c → (r.clusters.find? z).getD (D.fresh t).1 = c →
        ∃ c2, r' = (if r.clusters.contains z then { r with clusters := r.clusters.set z c2 } else r) ∧
          D.Holds supp (contents (tupleSeat σ r.doms) r.data z) c2 := by
      intro c hh hcc
      obtain ⟨hy, hr⟩ := L.holds hh
      obtain ⟨c1, h2, h3, h4⟩ := incItems_spec L r hd' hh hr
      obtain ⟨c2, h5, h6, _⟩ := decItems_spec L r hl h3 h4
      refine ⟨c2, ?_, h6⟩
      simp only [exactVariant, bind, Except.bind, assertR, List.isEmpty_cons, Bool.not_false, if_true, idxR, List.getElem?_cons_zero,
        hzk, hcc, h2, h5] at hc
      split at hc
      · cases hc
      · injection hc with hc
        injection hc with _ hc
        injection hc with hc _
        exact hc.symm
    cases hf : r.clusters.find? z with
    | none =>
      have h0 := (h.cl z).1 hf
      have hct : r.clusters.contains z = false := FMap.contains_false.mpr hf
      obtain ⟨c2, h2, _⟩ := key (D.fresh t).1 (by rw [h0]; exact holds_fresh t) (by rw [hf]; rfl)
      exact ⟨r.clusters, by rw [h2, hct]; rfl, h⟩
    | some c =>
      have hct : r.clusters.contains z = true := FMap.contains_iff.mpr ⟨_, hf⟩
      obtain ⟨c2, h2, h3⟩ := key c ((h.cl z).2 c hf).2 (by rw [hf]; rfl)
      exact ⟨r.clusters.set z c2, by rw [h2, hct, if_pos rfl], h.setClusters (h.cl.set_same hf h3)⟩

/-! ### the groups -/

/-- a group of observations that share a cluster -/
structure Group (σ : Doms) (r : CleanRel D) (d : String) (item : Int) (z : Items) (g : List Items) : Prop where
  ne : g ≠ []
  nodup : g.Nodup
  mem : ∀ k, k ∈ g ↔ (∃ v, r.data.find? k = some v) ∧ Uses r.doms d item k ∧ tupleSeat σ r.doms k = some z

theorem groupLoop_spec {σ : Doms} (hσ : StoreWF σ) (r : CleanRel D) : ∀ (l : List Items) (m : FMap Items (List Items)),
    (∀ k ∈ l, ∃ z, tupleSeat σ r.doms k = some z) →
    ∃ m', groupLoop σ r l m = .ok m' ∧ ∀ z, m'.find? z =
      if (l.filter (fun k => decide (tupleSeat σ r.doms k = some z))) = [] then m.find? z
      else some ((m.find? z).getD [] ++ l.filter (fun k => decide (tupleSeat σ r.doms k = some z))) := by
  intro l
  induction l with
  | nil => intro m _; exact ⟨m, rfl, fun z => by simp⟩
  | cons k l ih =>
    intro m hl
    obtain ⟨z, hz⟩ := hl k (by simp)
    obtain ⟨m', h1, h2⟩ := ih (m.set z ((m.find? z).getD [] ++ [k])) (fun k' hk' => hl k' (by simp [hk']))
    refine ⟨m', ?_, ?_⟩
    · simp only [groupLoop, bind, Except.bind, clusterOf_eq hσ hz, h1]
    · intro z'
      rw [h2 z', List.filter_cons]
      by_cases hzz : z' = z
      · subst hzz
        rw [FMap.find?_set_self]
        simp only [hz, decide_true, if_true, reduceCtorEq, if_false, Option.getD_some, List.append_assoc, List.singleton_append]
        split
        · rename_i h3; rw [h3]
        · rfl
      · have : ¬ (tupleSeat σ r.doms k = some z') := by rw [hz]; intro h; cases h; exact hzz rfl
        simp only [this, decide_false, FMap.find?_set_ne _ hzz]
        rfl

theorem groups_spec {σ : Doms} (hσ : StoreWF σ) {r : CleanRel D} (h : Inv supp σ r) {d : String} (hd : d ∈ r.doms) {item : Int}
    (hob : r.hasObservation d item = .ok true) (t : Tape) :
    ∃ m t', clusterToItemsList σ r d item t = .ok (m, t') ∧
      (∀ z g, m.find? z = some g → Group σ r d item z g) ∧
      ∀ k v, r.data.find? k = some v → Uses r.doms d item k → ∃ z g, tupleSeat σ r.doms k = some z ∧ m.find? z = some g := by
  obtain ⟨b, h1, h2, h3, _⟩ := h.observationsOf hd (item := item)
  rw [hob] at h1
  injection h1 with h1
  subst h1
  obtain ⟨s, h4, h5⟩ := h3 rfl
  have hperm : ((shuffle s.keys t).1).Perm s.keys := shuffle_perm ..
  have hmem : ∀ k, k ∈ (shuffle s.keys t).1 ↔ (r.data.contains k = true ∧ Uses r.doms d item k) := fun k => by
    rw [hperm.mem_iff, h5]
  obtain ⟨m, h6, h7⟩ := groupLoop_spec hσ r (shuffle s.keys t).1 ∅ (fun k hk => by
    obtain ⟨v, hv⟩ := FMap.contains_iff.mp ((hmem k).mp hk).1
    exact (h.seated k v hv).2)
  refine ⟨m, (shuffle s.keys t).2, ?_, ?_, ?_⟩
  · simp only [clusterToItemsList, bind, Except.bind, h4, h6]
  · intro z g hg
    rw [h7] at hg
    split at hg
    · simp at hg
    · rename_i hne
      simp only [FMap.find?_empty, Option.getD_none, List.nil_append, Option.some.injEq] at hg
      subst hg
      refine ⟨hne, (hperm.nodup_iff.mpr s.nodupKeys).filter _, fun k => ?_⟩
      rw [List.mem_filter, hmem, FMap.contains_iff]
      simp only [decide_eq_true_eq, and_assoc]
  · intro k v hk hu
    obtain ⟨_, z, hz⟩ := h.seated k v hk
    refine ⟨z, [] ++ (shuffle s.keys t).1.filter (fun k => decide (tupleSeat σ r.doms k = some z)), hz, ?_⟩
    rw [h7 z, if_neg]
    · rfl
    intro hnil
    have : k ∈ (shuffle s.keys t).1.filter (fun k => decide (tupleSeat σ r.doms k = some z)) :=
      List.mem_filter.mpr ⟨(hmem k).mpr ⟨FMap.contains_iff.mpr ⟨v, hk⟩, hu⟩, by simpa using hz⟩
    rw [hnil] at this
    simp at this

open Classical in
/-- the values at `z` of the observations that do not use the item -/
def others (place : Items → Option Items) (data : FMap Items V) (u : Items → Prop) (z : Items) : Multiset V :=
  contents (fun k => if u k then none else place k) data z

open Classical in
/-- the values at `z` of the observations that use the item -/
def movers (place : Items → Option Items) (data : FMap Items V) (u : Items → Prop) (z : Items) : Multiset V :=
  contents (fun k => if u k then place k else none) data z

theorem contents_split (place : Items → Option Items) (data : FMap Items V) (u : Items → Prop) (z : Items) :
    contents place data z = movers place data u z + others place data u z := by
  classical
  unfold movers others contents
  rw [← Multiset.map_add]
  congr 1
  rw [← Multiset.filter_add_not (fun e : Items × V => u e.1) (Multiset.filter (fun e => place e.1 = some z) _),
    Multiset.filter_filter, Multiset.filter_filter]
  congr 1 <;> apply Multiset.filter_congr <;> intro e _ <;> by_cases hu : u e.1 <;> simp [hu]

theorem Group.vals {σ : Doms} {r : CleanRel D} {d : String} {item : Int} {z : Items} {g : List Items} (hg : Group σ r d item z g) :
    valsOf r.data g = movers (tupleSeat σ r.doms) r.data (Uses r.doms d item) z := by
  classical
  rw [valsOf_eq hg.nodup hg.mem]
  unfold movers contents
  congr 1
  apply Multiset.filter_congr
  intro e _
  by_cases hu : Uses r.doms d item e.1 <;> simp [hu]

/-! ### the scores -/

/-- the score of one group -/
def Val (L : Lawful D supp) (hy : Items → L.H) (σ σ' : Doms) (r : CleanRel D) (d : String) (item cur table : Int)
    (g : List Items) (y : ℝ) : Prop :=
  if table = cur then ∀ z, Group σ r d item z g → y = sc L (hy z) (contents (tupleSeat σ r.doms) r.data z) -
      sc L (hy z) (others (tupleSeat σ r.doms) r.data (Uses r.doms d item) z)
  else ∀ z k z', Group σ r d item z g → g.head? = some k → tupleSeat σ' r.doms k = some z' →
    (contents (tupleSeat σ r.doms) r.data z' = 0 → ∀ t, L.Rep (hy z') 0 (D.fresh t).1) →
    y = sc L (hy z') (movers (tupleSeat σ r.doms) r.data (Uses r.doms d item) z + contents (tupleSeat σ r.doms) r.data z') -
      sc L (hy z') (contents (tupleSeat σ r.doms) r.data z')

theorem Group.setClusters {σ : Doms} {r : CleanRel D} {d : String} {item : Int} {z : Items} {g : List Items}
    (hg : Group σ r d item z g) (cl : FMap Items D.S) : Group σ { r with clusters := cl } d item z g := ⟨hg.ne, hg.nodup, hg.mem⟩

theorem Val.setClusters {L : Lawful D supp} {hy : Items → L.H} {σ σ' : Doms} {r : CleanRel D} {d : String} {item cur table : Int}
    {g : List Items} {y : ℝ} {cl : FMap Items D.S} (h : Val L hy σ σ' { r with clusters := cl } d item cur table g y) :
    Val L hy σ σ' r d item cur table g y := by
  unfold Val at h ⊢
  split at h
  · rename_i ht; rw [if_pos ht]
    intro z hg; exact h z (hg.setClusters cl)
  · rename_i ht; rw [if_neg ht]
    intro z k z' hg; exact h z k z' (hg.setClusters cl)

theorem exactTable_spec {L : Lawful D supp} (S : L.Scored) {hy : Items → L.H} {σ σ' : Doms} (hσ : StoreWF σ) {d : String} {item cur table : Int}
    (hs : table ≠ cur → ∀ d' i, seatOf σ' d' i = if d' = d ∧ i = item then some table else seatOf σ d' i) :
    ∀ (gs : List (List Items)) (r : CleanRel D) (t : Tape), TInv L hy σ r → (∀ g ∈ gs, ∃ z, Group σ r d item z g) →
      ∃ x cl t', exactTable σ d item cur table gs r t = .ok (x, { r with clusters := cl }, t') ∧
        TInv L hy σ { r with clusters := cl } ∧
        ∃ xs : List ℝ, x = xs.sum ∧ List.Forall₂ (Val L hy σ σ' r d item cur table) gs xs := by
  intro gs
  induction gs with
  | nil => intro r t h _; exact ⟨0, r.clusters, t, rfl, h, [], rfl, .nil⟩
  | cons g gs ih =>
    intro r t h hgs
    obtain ⟨z, hg⟩ := hgs g (by simp)
    have hsplit : contents (tupleSeat σ r.doms) r.data z =
        valsOf r.data g + others (tupleSeat σ r.doms) r.data (Uses r.doms d item) z := by
      rw [hg.vals]; exact contents_split ..
    have hin : ∀ k ∈ g, ∃ v, r.data.find? k = some v := fun k hk => ((hg.mem k).mp hk).1
    obtain ⟨x, cl, t1, h1, h2, h3⟩ : ∃ x cl t1, (if table = cur then do
          let (lp, r) ← exactCurrent σ r g
          .ok (lp, r, t)
        else exactVariant σ r d item table g t) = .ok (x, { r with clusters := cl }, t1) ∧
        TInv L hy σ { r with clusters := cl } ∧ Val L hy σ σ' r d item cur table g x := by
      have huniq : ∀ z1, Group σ r d item z1 g → z1 = z := by
        intro z1 hg1
        obtain ⟨k, hk⟩ := List.exists_mem_of_ne_nil g hg.ne
        have h1 := ((hg1.mem k).mp hk).2.2
        have h2 := ((hg.mem k).mp hk).2.2
        rw [h1] at h2; injection h2
      by_cases ht : table = cur
      · obtain ⟨cl, h1, h2⟩ := exactCurrent_spec S hσ h hg.ne (fun k hk => ⟨hin k hk, ((hg.mem k).mp hk).2.2⟩) hsplit
        refine ⟨_, cl, t, by rw [if_pos ht]; simp only [bind, Except.bind, h1]; rfl, h2, ?_⟩
        rw [Val, if_pos ht]
        intro z1 hg1; rw [huniq z1 hg1]
      · obtain ⟨k, hk⟩ : ∃ k, g.head? = some k := by
          cases g with
          | nil => exact absurd rfl hg.ne
          | cons k g => exact ⟨k, rfl⟩
        have hkg : k ∈ g := List.mem_of_mem_head? hk
        obtain ⟨hkd, hku, hkz⟩ := (hg.mem k).mp hkg
        obtain ⟨z', hz'⟩ := tupleSeat_moved (hs ht) hkz
        obtain ⟨x, cl, t', h1, h2, h3⟩ := exactVariant_spec S h hg.ne hin (d := d) (item := item) (table := table) (z := z')
          (fun k' hk' => by rw [hk] at hk'; cases hk'; exact clusterOfGibbs_eq hσ (hs ht) hku hz') t
        refine ⟨x, cl, t', by simp only [ht, if_false, h1], h2, ?_⟩
        rw [Val, if_neg ht]
        intro z1 k1 z1' hg1 hk1 hz1' hf
        rw [hk] at hk1; cases hk1
        rw [hz'] at hz1'; cases hz1'
        rw [huniq z1 hg1, h3 hf, hg.vals]
    obtain ⟨x2, cl2, t2, h4, h5, xs, h6, h7⟩ := ih { r with clusters := cl } t1 h2
      (fun g' hg' => by obtain ⟨z', h'⟩ := hgs g' (by simp [hg']); exact ⟨z', h'.setClusters cl⟩)
    refine ⟨x + x2, cl2, t2, ?_, h5, x :: xs, by rw [List.sum_cons, h6], .cons h3 (h7.imp fun _ _ => Val.setClusters)⟩
    rw [exactTable]
    by_cases ht : table = cur
    · rw [if_pos ht] at h1 ⊢
      simp only [bind, Except.bind] at h1 ⊢
      cases he : exactCurrent σ r g with
      | error e => simp [he] at h1
      | ok q =>
        simp only [he] at h1 ⊢
        injection h1 with h1
        injection h1 with h1 h1'
        injection h1' with h1' h1''
        simp only [h1, h1', h1'', h4]
    · rw [if_neg ht] at h1 ⊢
      simp only [bind, Except.bind, h1, h4]

theorem exactTables_spec {L : Lawful D supp} (S : L.Scored) {hy : Items → L.H} {σ : Doms} {σf : Int → Doms} (hσ : StoreWF σ) {d : String} {item cur : Int}
    (hs : ∀ table, table ≠ cur → ∀ d' i, seatOf (σf table) d' i = if d' = d ∧ i = item then some table else seatOf σ d' i)
    (gs : List (List Items)) :
    ∀ (tables : List Int) (r : CleanRel D) (t : Tape), TInv L hy σ r → (∀ g ∈ gs, ∃ z, Group σ r d item z g) →
      ∃ lps cl t', exactTables σ d item cur gs tables r t = .ok (lps, { r with clusters := cl }, t') ∧
        TInv L hy σ { r with clusters := cl } ∧
        List.Forall₂ (fun table x => ∃ xs : List ℝ, x = xs.sum ∧ List.Forall₂ (Val L hy σ (σf table) r d item cur table) gs xs) tables lps := by
  intro tables
  induction tables with
  | nil => intro r t h _; exact ⟨[], r.clusters, t, rfl, h, .nil⟩
  | cons table tables ih =>
    intro r t h hgs
    obtain ⟨x, cl, t1, h1, h2, h3⟩ := exactTable_spec S hσ (hs table) gs r t h hgs
    obtain ⟨lps, cl2, t2, h4, h5, h6⟩ := ih { r with clusters := cl } t1 h2
      (fun g' hg' => by obtain ⟨z', h'⟩ := hgs g' hg'; exact ⟨z', h'.setClusters cl⟩)
    refine ⟨x :: lps, cl2, t2, ?_, h5, .cons h3 (h6.imp ?_)⟩
    · simp only [exactTables, bind, Except.bind, h1, h4]
    · rintro table' x' ⟨xs, h7, h8⟩
      exact ⟨xs, h7, h8.imp fun _ _ => Val.setClusters⟩

/-- the scores of one table keep the invariant -/
theorem exactTable_keeps (L : Lawful D supp) {σ σ' : Doms} (hσ : StoreWF σ) {d : String} {item cur table : Int}
    (hs : table ≠ cur → ∀ d' i, seatOf σ' d' i = if d' = d ∧ i = item then some table else seatOf σ d' i) :
    ∀ (gs : List (List Items)) (r : CleanRel D) (t : Tape), Inv supp σ r → (∀ g ∈ gs, ∃ z, Group σ r d item z g) →
      ∀ {x r' t'}, exactTable σ d item cur table gs r t = .ok (x, r', t') →
        ∃ cl, r' = { r with clusters := cl } ∧ Inv supp σ { r with clusters := cl } := by
  intro gs
  induction gs with
  | nil =>
    intro r t h _ x r' t' hc
    injection hc with hc
    injection hc with _ hc
    injection hc with hc _
    exact ⟨r.clusters, hc.symm, h⟩
  | cons g gs ih =>
    intro r t h hgs x r' t' hc
    obtain ⟨z, hg⟩ := hgs g (by simp)
    have hin : ∀ k ∈ g, ∃ v, r.data.find? k = some v := fun k hk => ((hg.mem k).mp hk).1
    have hrest : ∀ {cl : FMap Items D.S} {t1 : Tape} {x2 : ℝ} {r'' : CleanRel D} {t'' : Tape}, Inv supp σ { r with clusters := cl } →
        exactTable σ d item cur table gs { r with clusters := cl } t1 = .ok (x2, r'', t'') →
        ∃ cl, r'' = { r with clusters := cl } ∧ Inv supp σ { r with clusters := cl } := by
      intro cl t1 x2 r'' t'' h2 h3
      obtain ⟨cl2, h4, h5⟩ := ih { r with clusters := cl } t1 h2
        (fun g' hg' => by obtain ⟨z', h'⟩ := hgs g' (by simp [hg']); exact ⟨z', h'.setClusters cl⟩) h3
      exact ⟨cl2, h4, h5⟩
    rw [exactTable] at hc
    by_cases ht : table = cur
    · rw [if_pos ht] at hc
      obtain ⟨⟨x0, r0⟩, h0, hc⟩ := bind_ok.mp hc
      obtain ⟨⟨x1, r1, t1⟩, h1, hc⟩ := bind_ok.mp hc
      cases h1
      obtain ⟨⟨x2, r2, t2⟩, h2, hc⟩ := bind_ok.mp hc
      cases hc
      have hsplit : contents (tupleSeat σ r.doms) r.data z =
          valsOf r.data g + others (tupleSeat σ r.doms) r.data (Uses r.doms d item) z := by
        rw [hg.vals]; exact contents_split ..
      obtain ⟨cl, rfl, h4⟩ := exactCurrent_keeps L hσ h hg.ne (fun k hk => ⟨hin k hk, ((hg.mem k).mp hk).2.2⟩) hsplit h0
      exact hrest h4 h2
    · rw [if_neg ht] at hc
      obtain ⟨⟨x1, r1, t1⟩, h1, hc⟩ := bind_ok.mp hc
      obtain ⟨⟨x2, r2, t2⟩, h2, hc⟩ := bind_ok.mp hc
      cases hc
      obtain ⟨k, hk⟩ : ∃ k, g.head? = some k := by
        cases g with
        | nil => exact absurd rfl hg.ne
        | cons k g => exact ⟨k, rfl⟩
      obtain ⟨hkd, hku, hkz⟩ := (hg.mem k).mp (List.mem_of_mem_head? hk)
      obtain ⟨z', hz'⟩ := tupleSeat_moved (hs ht) hkz
      obtain ⟨cl, rfl, h4⟩ := exactVariant_keeps L h hg.ne hin (z := z')
        (fun k' hk' => by rw [hk] at hk'; cases hk'; exact clusterOfGibbs_eq hσ (hs ht) hku hz') h1
      exact hrest h4 h2

theorem exactTables_keeps (L : Lawful D supp) {σ : Doms} {σf : Int → Doms} (hσ : StoreWF σ) {d : String} {item cur : Int}
    (hs : ∀ table, table ≠ cur → ∀ d' i, seatOf (σf table) d' i = if d' = d ∧ i = item then some table else seatOf σ d' i)
    (gs : List (List Items)) :
    ∀ (tables : List Int) (r : CleanRel D) (t : Tape), Inv supp σ r → (∀ g ∈ gs, ∃ z, Group σ r d item z g) →
      ∀ {lps r' t'}, exactTables σ d item cur gs tables r t = .ok (lps, r', t') →
        lps.length = tables.length ∧ ∃ cl, r' = { r with clusters := cl } ∧ Inv supp σ { r with clusters := cl } := by
  intro tables
  induction tables with
  | nil =>
    intro r t h _ lps r' t' hc
    injection hc with hc
    injection hc with h1 hc
    injection hc with hc _
    exact ⟨by rw [← h1]; rfl, r.clusters, hc.symm, h⟩
  | cons table tables ih =>
    intro r t h hgs lps r' t' hc
    rw [exactTables] at hc
    obtain ⟨⟨x1, r1, t1⟩, h1, hc⟩ := bind_ok.mp hc
    obtain ⟨⟨x2, r2, t2⟩, h2, hc⟩ := bind_ok.mp hc
    cases hc
    obtain ⟨cl, rfl, h4⟩ := exactTable_keeps L hσ (hs table) gs r t h hgs h1
    obtain ⟨h5, cl2, h6, h7⟩ := ih { r with clusters := cl } t1 h4
      (fun g' hg' => by obtain ⟨z', h'⟩ := hgs g' hg'; exact ⟨z', h'.setClusters cl⟩) h2
    exact ⟨by simpa using h5, cl2, h6, h7⟩

/-- the store after moving one item -/
theorem exists_moved {σ : Doms} (hσ : StoreWF σ) {d : String} {dom : Domain} (hdom : σ.find? d = some dom) {item table cur : Int}
    (hcur : dom.crp.assignments.find? item = some cur) (hne : table ≠ cur) :
    ∃ dom', dom.setClusterAssignmentGibbs item table = .ok dom' ∧ StoreWF (σ.set d dom') ∧
      (∀ d' i, seatOf (σ.set d dom') d' i = if d' = d ∧ i = item then some table else seatOf σ d' i) ∧
      (∀ d', (σ.set d dom').contains d' = σ.contains d') ∧ dom'.crp.alpha = dom.crp.alpha ∧ dom'.name = dom.name := by
  obtain ⟨dom', h1, h2, h3, _, h4, h5⟩ := Domain.setGibbs_eq (hσ d dom hdom) hcur (Ne.symm hne)
  refine ⟨dom', h1, hσ.set h2, ?_, ?_, h4, h3⟩
  · intro d' i
    rw [seatOf_set]
    by_cases hd : d' = d
    · subst hd
      rw [if_pos rfl, h5, FMap.find?_set, seatOf_eq hdom]
      by_cases hi : i = item <;> simp [hi]
    · simp [hd]
  · intro d'
    simp only [FMap.contains, FMap.find?_set]
    split
    · rename_i hd; subst hd; simp [hdom]
    · rfl

theorem logpGibbsExact_spec {L : Lawful D supp} (S : L.Scored) {hy : Items → L.H} {σ : Doms} {σf : Int → Doms} (hσ : StoreWF σ) {r : CleanRel D}
    (h : TInv L hy σ r) {d : String} (hd : d ∈ r.doms) {dom : Domain} (hdom : σ.find? d = some dom) {item cur : Int}
    (hcur : dom.crp.assignments.find? item = some cur)
    (hs : ∀ table, table ≠ cur → ∀ d' i, seatOf (σf table) d' i = if d' = d ∧ i = item then some table else seatOf σ d' i)
    (hob : r.hasObservation d item = .ok true) (tables : List Int) (t : Tape) :
    ∃ lps cl t', ∃ m : FMap Items (List Items), ∃ gs : List (List Items), logpGibbsExact σ r d item tables t = .ok (lps, { r with clusters := cl }, t') ∧
      TInv L hy σ { r with clusters := cl } ∧ gs.Perm m.vals ∧ (∀ z g, m.find? z = some g → Group σ r d item z g) ∧
      (∀ k v, r.data.find? k = some v → Uses r.doms d item k → ∃ z g, tupleSeat σ r.doms k = some z ∧ m.find? z = some g) ∧
      List.Forall₂ (fun table x => ∃ xs : List ℝ, x = xs.sum ∧ List.Forall₂ (Val L hy σ (σf table) r d item cur table) gs xs) tables lps := by
  obtain ⟨m, t1, h1, h2, h3⟩ := groups_spec hσ h.inv hd hob t
  have hperm : ((shuffle m.vals t1).1).Perm m.vals := shuffle_perm ..
  obtain ⟨lps, cl, t2, h4, h5, h6⟩ := exactTables_spec S hσ hs (shuffle m.vals t1).1 tables r (shuffle m.vals t1).2 h (by
    intro g hg
    rw [hperm.mem_iff] at hg
    obtain ⟨⟨z, g'⟩, he, rfl⟩ := List.mem_map.mp hg
    exact ⟨z, h2 z g' (FMap.mem_entries.mp he)⟩)
  refine ⟨lps, cl, t2, m, (shuffle m.vals t1).1, ?_, h5, hperm, h2, h3, h6⟩
  simp only [logpGibbsExact, bind, Except.bind, h1, Doms.get_eq hdom, Domain.getClusterAssignment_eq (hσ d dom hdom) hcur, h4]

/-- an observed item is seated -/
theorem Inv.seated_item {σ : Doms} {r : CleanRel D} (h : Inv supp σ r) {d : String} (hd : d ∈ r.doms) {item : Int}
    (hob : r.hasObservation d item = .ok true) :
    ∃ dom cur, σ.find? d = some dom ∧ dom.crp.assignments.find? item = some cur := by
  obtain ⟨b, h1, h2, _⟩ := h.observationsOf hd (item := item)
  rw [hob] at h1
  injection h1 with h1
  subst h1
  obtain ⟨k, h3, h4⟩ := h2.mp rfl
  obtain ⟨v, hv⟩ := FMap.contains_iff.mp h3
  obtain ⟨_, z, hz⟩ := h.seated k v hv
  obtain ⟨a, ha⟩ := (tupleSeat_isSome (tupleSeat_length hz).1).mp ⟨z, hz⟩ d item h4
  obtain ⟨dom, h5, h6⟩ := seatOf_some ha
  exact ⟨dom, a, h5, h6⟩

/-- `logp_gibbs_exact` succeeds -/
theorem gibbsScores_inv {L : Lawful D supp} (S : L.Scored) {σ : Doms} (hσ : StoreWF σ) {r : CleanRel D} (h : Inv supp σ r) {d : String}
    (hd : d ∈ r.doms) {item : Int} (hob : r.hasObservation d item = .ok true) (tables : List Int) (t : Tape) :
    ∃ lps cl t', logpGibbsExact σ r d item tables t = .ok (lps, { r with clusters := cl }, t') ∧ lps.length = tables.length ∧
      Inv supp σ { r with clusters := cl } := by
  obtain ⟨dom, cur, hdom, hcur⟩ := h.seated_item hd hob
  obtain ⟨h0, _⟩ := L.fresh t
  obtain ⟨hy, h1, _⟩ := exists_tracked L h.cl h0
  have : ∀ table, ∃ σ' : Doms, table ≠ cur → ∀ d' i, seatOf σ' d' i = if d' = d ∧ i = item then some table else seatOf σ d' i := by
    intro table
    by_cases ht : table = cur
    · exact ⟨σ, fun h => absurd ht h⟩
    · obtain ⟨dom', _, _, h2, _⟩ := exists_moved hσ hdom hcur ht
      exact ⟨_, fun _ => h2⟩
  choose σf hs using this
  obtain ⟨lps, cl, t', _, _, h2, h3, _, _, _, h4⟩ := logpGibbsExact_spec S hσ ⟨h, h1⟩ hd hdom hcur hs hob tables t
  exact ⟨lps, cl, t', h2, h4.length_eq.symm, h3.inv⟩

theorem gibbsScores_pre {σ : Doms} {r r' : CleanRel D} (h : Inv supp σ r) {d : String} {item : Int} {tables : List Int} {lps : List ℝ}
    {t t' : Tape} (hc : logpGibbsExact σ r d item tables t = .ok (lps, r', t')) :
    d ∈ r.doms ∧ r.hasObservation d item = .ok true := by
  have hd : d ∈ r.doms := by
    rw [← h.idx.dom]
    by_contra hn
    have : r.dataR.find? d = none := FMap.contains_false.mp (by simpa using hn)
    simp [logpGibbsExact, clusterToItemsList, CleanRel.observationsOf, bind, Except.bind, FMap.atKey, this] at hc
  refine ⟨hd, ?_⟩
  obtain ⟨b, h1, _, _, h2⟩ := h.observationsOf hd (item := item)
  cases b with
  | true => exact h1
  | false => simp [logpGibbsExact, clusterToItemsList, bind, Except.bind, h2 rfl] at hc

/-- `logp_gibbs_exact` keeps the invariant -/
theorem gibbsScores_keeps (L : Lawful D supp) {σ : Doms} (hσ : StoreWF σ) {r r' : CleanRel D} (h : Inv supp σ r) {d : String} {item : Int}
    {tables : List Int} {lps : List ℝ} {t t' : Tape} (hc : logpGibbsExact σ r d item tables t = .ok (lps, r', t')) :
    lps.length = tables.length ∧ ∃ cl, r' = { r with clusters := cl } ∧ Inv supp σ { r with clusters := cl } := by
  obtain ⟨hd, hob⟩ := gibbsScores_pre h hc
  obtain ⟨dom, cur, hdom, hcur⟩ := h.seated_item hd hob
  have : ∀ table, ∃ σ' : Doms, table ≠ cur → ∀ d' i, seatOf σ' d' i = if d' = d ∧ i = item then some table else seatOf σ d' i := by
    intro table
    by_cases ht : table = cur
    · exact ⟨σ, fun h => absurd ht h⟩
    · obtain ⟨dom', _, _, h2, _⟩ := exists_moved hσ hdom hcur ht
      exact ⟨_, fun _ => h2⟩
  choose σf hs using this
  obtain ⟨m, t1, h1, h2, h3⟩ := groups_spec hσ h hd hob t
  have hperm : ((shuffle m.vals t1).1).Perm m.vals := shuffle_perm ..
  simp only [logpGibbsExact, bind, Except.bind, h1, Doms.get_eq hdom, Domain.getClusterAssignment_eq (hσ d dom hdom) hcur] at hc
  exact exactTables_keeps L hσ hs (shuffle m.vals t1).1 tables r (shuffle m.vals t1).2 h (by
    intro g hg
    rw [hperm.mem_iff] at hg
    obtain ⟨⟨z, g'⟩, he, rfl⟩ := List.mem_map.mp hg
    exact ⟨z, h2 z g' (FMap.mem_entries.mp he)⟩) hc

/-! ### predictive -/

theorem logpLoop_inv (L : Lawful D supp) {σ : Doms} {v : V} (hv : supp v) (choices : List (List (Int × ℝ))) :
    ∀ (l : List (List Int)) (r : CleanRel D) (t : Tape), Inv supp σ r →
    ∀ {lps r' t'}, logpLoop choices v l r t = .ok (lps, r', t') → ∃ cl, r' = { r with clusters := cl } ∧ Inv supp σ r' := by
  intro l
  induction l with
  | nil =>
    intro r t h lps r' t' hc
    simp only [logpLoop] at hc
    injection hc with hc
    injection hc with _ hc
    injection hc with hc _
    exact ⟨r.clusters, hc.symm, hc ▸ h⟩
  | cons ix l ih =>
    intro r t h lps r' t' hc
    simp only [logpLoop, bind, Except.bind] at hc
    cases hp : pickTables choices ix with
    | error e => simp [hp] at hc
    | ok zw =>
      obtain ⟨z, w⟩ := zw
      simp only [hp] at hc
      cases hf : r.clusters.find? z with
      | none =>
        have hct : r.clusters.contains z = false := FMap.contains_false.mpr hf
        obtain ⟨x, c', h1, h2⟩ := L.holds_logp (supp := supp) (holds_fresh (D := D) t) hv
        simp only [hf, Option.getD_none, h1, hct, Bool.false_eq_true, if_false] at hc
        cases hl : logpLoop choices v l r (D.fresh t).2 with
        | error e => simp [hl] at hc
        | ok q =>
          obtain ⟨a, b, c⟩ := q
          simp only [hl] at hc
          injection hc with hc
          injection hc with _ hc
          injection hc with hc _
          subst hc
          exact ih r _ h hl
      | some c =>
        have hct : r.clusters.contains z = true := FMap.contains_iff.mpr ⟨_, hf⟩
        obtain ⟨x, c', h1, h2⟩ := L.holds_logp ((h.cl z).2 c hf).2 hv
        simp only [hf, Option.getD_some, h1, hct, if_true] at hc
        cases hl : logpLoop choices v l { r with clusters := r.clusters.set z c' } (D.fresh t).2 with
        | error e => simp [hl] at hc
        | ok q =>
          obtain ⟨a, b, c⟩ := q
          simp only [hl] at hc
          injection hc with hc
          injection hc with _ hc
          injection hc with hc _
          subst hc
          obtain ⟨cl, h3, h4⟩ := ih _ _ (h.setClusters (h.cl.set_same hf h2)) hl
          exact ⟨cl, h3, h4⟩

theorem logp_inv (L : Lawful D supp) {σ : Doms} {v : V} (hv : supp v) {r r' : CleanRel D} (h : Inv supp σ r) {items : Items}
    {t t' : Tape} {lp : WithBot ℝ} (hc : logp σ r items v t = .ok (lp, r', t')) :
    ∃ cl, r' = { r with clusters := cl } ∧ Inv supp σ r' := by
  simp only [logp, bind, Except.bind] at hc
  split at hc
  · cases hc
  split at hc
  · cases hc
  split at hc
  · cases hc
  split at hc
  · cases hc
  rename_i hl
  split at hc
  · cases hc
  injection hc with hc
  injection hc with _ hc
  injection hc with hc _
  subst hc
  exact logpLoop_inv L hv _ _ r t h hl

end CleanRel
end
end Verif
