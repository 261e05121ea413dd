import Verif.Lemmas.Gibbs
/-! Helper lemmas: the Gibbs scores are differences of scores. -/
namespace Verif
noncomputable section
namespace CleanRel
variable {V : Type} {D : DistOps V} {supp : V → Prop}

/-! ### tracking hyperparameters through a move -/

theorem Tracked.congr {L : Lawful D supp} {hy : Items → L.H} {place place' : Items → Option Items} {data : FMap Items V}
    {cl : FMap Items D.S} (h : Tracked L hy place data cl) (hp : ∀ k v, data.find? k = some v → place k = place' k) :
    Tracked L hy place' data cl := by
  intro z c hc
  rw [← contents_congr hp z]
  exact h z c hc

theorem Tracked.takeOut {L : Lawful D supp} {hy : Items → L.H} {place : Items → Option Items} {data : FMap Items V}
    {cl cl' : FMap Items D.S} (h : Tracked L hy place data cl) {k z : Items} {v : V} (hk : data.find? k = some v)
    (hp : place k = some z) (ht : CleanRel.takeOut cl z v = .ok cl') : Tracked L hy place (data.erase k) cl' := by
  simp only [CleanRel.takeOut, bind, Except.bind] at ht
  cases hc : cl.find? z with
  | none => simp [FMap.atKey, hc] at ht
  | some c =>
    have hr := h z c hc
    rw [contents_erase hk, if_pos hp] at hr
    obtain ⟨c', h1, h2⟩ := L.dec hr
    simp only [FMap.atKey_of_find hc, h1] at ht
    injection ht with ht
    have hother : ∀ z' c1, z' ≠ z → cl.find? z' = some c1 → L.Rep (hy z') (contents place (data.erase k) z') c1 := by
      intro z' c1 hz hc1
      have := h z' c1 hc1
      rwa [contents_erase hk, if_neg (by rw [hp]; intro h; cases h; exact hz rfl)] at this
    intro z' c1 hc1
    rw [← ht] at hc1
    by_cases hz : z' = z
    · subst hz
      split at hc1
      · simp at hc1
      · rw [FMap.find?_set_self] at hc1; cases hc1; exact h2
    · split at hc1
      · rw [FMap.find?_erase, if_neg hz] at hc1; exact hother z' c1 hz hc1
      · rw [FMap.find?_set_ne _ hz] at hc1; exact hother z' c1 hz hc1

theorem Tracked.putIn {L : Lawful D supp} {hy : Items → L.H} {place : Items → Option Items} {data : FMap Items V}
    {cl : FMap Items D.S} (h : Tracked L hy place data cl) {k z : Items} {v : V} (hk : data.find? k = none)
    (hp : place k = some z) (hv : supp v) {t : Tape} (hf : cl.find? z = none → L.Rep (hy z) (contents place data z) (D.fresh t).1)
    {c0 c1 : D.S} (h0 : cl.find? z = some c0 ∨ (cl.find? z = none ∧ c0 = (D.fresh t).1)) (h1 : D.inc c0 v = .ok c1) :
    Tracked L hy place (data.set k v) (cl.set z c1) := by
  intro z' c hc
  rw [contents_set_new hk]
  by_cases hz : z' = z
  · subst hz
    rw [FMap.find?_set_self] at hc
    cases hc
    rw [if_pos hp]
    have hr : L.Rep (hy z') (contents place data z') c0 := by
      rcases h0 with h0 | ⟨h0, rfl⟩
      · exact h z' c0 h0
      · exact hf h0
    obtain ⟨c', h2, h3⟩ := L.inc hr hv
    rw [h1] at h2
    injection h2 with h2
    subst h2
    exact h3
  · rw [FMap.find?_set_ne _ hz] at hc
    rw [if_neg (by rw [hp]; intro h; cases h; exact hz rfl)]
    exact h z' c hc

theorem setGibbsLoop_tracked (L : Lawful D supp) {hy : Items → L.H} {σ σ' : Doms} (hσ : StoreWF σ) {d : String} {item table : Int}
    (hs : ∀ d' i, seatOf σ' d' i = if d' = d ∧ i = item then some table else seatOf σ d' i) :
    ∀ (l : List Items) (r : CleanRel D) (t : Tape), l.Nodup →
      (∀ k ∈ l, Uses r.doms d item k ∧ ∃ v, r.data.find? k = some v) →
      (∀ k v, r.data.find? k = some v → supp v ∧ ∃ z, tupleSeat σ r.doms k = some z) →
      (∀ k ∈ l, ∀ z, tupleSeat σ' r.doms k = some z → others (tupleSeat σ r.doms) r.data (Uses r.doms d item) z = 0 →
        ∀ t, L.Rep (hy z) 0 (D.fresh t).1) →
      ClInv D supp (fun k => if k ∈ l then tupleSeat σ r.doms k else tupleSeat σ' r.doms k) r.data r.clusters →
      Tracked L hy (fun k => if k ∈ l then tupleSeat σ r.doms k else tupleSeat σ' r.doms k) r.data r.clusters →
      ∃ cl t', setGibbsLoop σ d item table l r t = .ok ({ r with clusters := cl }, t') ∧
        ClInv D supp (tupleSeat σ' r.doms) r.data cl ∧ Tracked L hy (tupleSeat σ' r.doms) r.data cl := by
  classical
  intro l
  induction l with
  | nil =>
    intro r t _ _ _ _ hc htr
    exact ⟨r.clusters, t, rfl, hc.congr (by simp), htr.congr (by simp)⟩
  | cons k l ih =>
    intro r t hnd hl hseat hfr hc htr
    rw [List.nodup_cons] at hnd
    obtain ⟨hu, v, hv⟩ := hl k (by simp)
    obtain ⟨hsv, z, hz⟩ := hseat k v hv
    obtain ⟨z', hz'⟩ := tupleSeat_moved hs hz
    obtain ⟨cl1, h1, h2⟩ := hc.takeOut L (k := k) (z := z) hv (by simp [hz])
    have h2' := htr.takeOut (k := k) (z := z) hv (by simp [hz]) h1
    have hcong : ∀ k' v', (r.data.erase k).find? k' = some v' →
        (if k' ∈ k :: l then tupleSeat σ r.doms k' else tupleSeat σ' r.doms k') =
        (if k' ∈ l then tupleSeat σ r.doms k' else tupleSeat σ' r.doms k') := by
      intro k' v' hk'
      have : k' ≠ k := by rintro rfl; simp at hk'
      simp [this]
    have h3 := h2.congr hcong
    have h3' := h2'.congr hcong
    have hpl : (fun k => if k ∈ l then tupleSeat σ r.doms k else tupleSeat σ' r.doms k) k = some z' := by simp [hnd.1, hz']
    obtain ⟨cl2, t2, h4, h5, c0, c1, h8, h9, h10⟩ := h3.putIn L (k := k) (z := z') (FMap.find?_erase_self ..) hpl hsv t
    have h5' : Tracked L hy (fun k => if k ∈ l then tupleSeat σ r.doms k else tupleSeat σ' r.doms k)
        ((r.data.erase k).set k v) cl2 := by
      rw [h10]
      refine h3'.putIn (FMap.find?_erase_self ..) hpl hsv (t := t) ?_ h8 h9
      intro hnone
      have h0 := (h3 z').1 hnone
      rw [h0]
      refine hfr k (by simp) z' hz' ?_ t
      by_contra hne
      obtain ⟨k1, v1, h11, h12⟩ := contents_ne_zero.mp hne
      by_cases hu1 : Uses r.doms d item k1
      · simp [hu1] at h12
      · rw [if_neg hu1] at h12
        have hk1 : k1 ≠ k := by rintro rfl; exact hu1 hu
        have hk1l : k1 ∉ l := fun hm => hu1 (hl k1 (by simp [hm])).1
        refine absurd h0 (contents_ne_zero.mpr ⟨k1, v1, ?_, ?_⟩)
        · rw [FMap.find?_erase, if_neg hk1]; exact h11
        · rw [if_neg hk1l, ← h12]
          apply tupleSeat_congr
          intro d' i hm
          rw [hs, if_neg]
          rintro ⟨rfl, rfl⟩
          exact hu1 hm
    rw [FMap.set_erase, FMap.set_of_find hv] at h5 h5'
    obtain ⟨cl3, t3, h6, h7⟩ := ih { r with clusters := cl2 } t2 hnd.2 (fun k' hk' => hl k' (by simp [hk'])) hseat
      (fun k' hk' => hfr k' (by simp [hk'])) h5 h5'
    refine ⟨cl3, t3, ?_, h7⟩
    simp only [setGibbsLoop, bind, Except.bind, FMap.atKey_of_find hv, clusterOf_eq hσ hz, h1, clusterOfGibbs_eq hσ hs hu hz', h4]
    exact h6

theorem setGibbs_tracked (L : Lawful D supp) {hy : Items → L.H} {σ : Doms} (hσ : StoreWF σ) {r : CleanRel D} (h : TInv L hy σ r) {d : String}
    (hd : d ∈ r.doms) {dom : Domain} (hdom : σ.find? d = some dom) {item table cur : Int}
    (hcur : dom.crp.assignments.find? item = some cur) (hne : table ≠ cur) (hob : r.hasObservation d item = .ok true)
    {σ' : Doms} (hs : ∀ d' i, seatOf σ' d' i = if d' = d ∧ i = item then some table else seatOf σ d' i)
    (hdoms : ∀ d, σ'.contains d = σ.contains d)
    (hfr : ∀ k v, r.data.find? k = some v → Uses r.doms d item k → ∀ z, tupleSeat σ' r.doms k = some z →
      others (tupleSeat σ r.doms) r.data (Uses r.doms d item) z = 0 → ∀ t, L.Rep (hy z) 0 (D.fresh t).1) (t : Tape) :
    ∃ cl t', setClusterAssignmentGibbs σ r d item table t = .ok ({ r with clusters := cl }, t') ∧
      TInv L hy σ' { r with clusters := cl } := by
  obtain ⟨b, h1, h2, h3, _⟩ := h.inv.observationsOf hd (item := item)
  rw [hob] at h1
  injection h1 with h1
  subst h1
  obtain ⟨s, h4, h5⟩ := h3 rfl
  have hperm : ((shuffle s.keys t).1).Perm s.keys := shuffle_perm ..
  have hmem : ∀ k, k ∈ (shuffle s.keys t).1 ↔ (r.data.contains k = true ∧ Uses r.doms d item k) := fun k => by
    rw [hperm.mem_iff, h5]
  have hcong : ∀ k v, r.data.find? k = some v → tupleSeat σ r.doms k =
      (if k ∈ (shuffle s.keys t).1 then tupleSeat σ r.doms k else tupleSeat σ' r.doms k) := by
    intro k v hk
    split
    · rfl
    · rename_i hnm
      rw [hmem] at hnm
      symm
      apply tupleSeat_congr
      intro d' i hm
      rw [hs, if_neg]
      rintro ⟨rfl, rfl⟩
      exact hnm ⟨FMap.contains_iff.mpr ⟨v, hk⟩, hm⟩
  obtain ⟨cl, t', h6, h7, h8⟩ := setGibbsLoop_tracked L hσ hs (shuffle s.keys t).1 r (shuffle s.keys t).2
    (hperm.nodup_iff.mpr s.nodupKeys) (fun k hk => ⟨((hmem k).mp hk).2, FMap.contains_iff.mp ((hmem k).mp hk).1⟩) h.inv.seated
    (fun k hk z hz h0 => by
      obtain ⟨h9, h10⟩ := (hmem k).mp hk
      obtain ⟨v, hv⟩ := FMap.contains_iff.mp h9
      exact hfr k v hv h10 z hz h0)
    (h.inv.cl.congr hcong) (h.tr.congr hcong)
  refine ⟨cl, t', ?_, ⟨⟨h.inv.ne, fun d' hd' => by rw [hdoms]; exact h.inv.doms d' hd', ?_, h.inv.idx, h7⟩, h8⟩⟩
  · simp only [setClusterAssignmentGibbs, bind, Except.bind, Doms.get_eq hdom, Domain.getClusterAssignment_eq (hσ d dom hdom) hcur,
      assertR, hne, ne_eq, not_false_eq_true, decide_true, if_true, h4]
    exact h6
  · intro k v hk
    obtain ⟨hsv, z, hz⟩ := h.inv.seated k v hk
    exact ⟨hsv, tupleSeat_moved hs hz⟩

/-! ### the score as a sum over clusters -/

theorem logpScore_eq {L : Lawful D supp} (S : L.Scored) {hy : Items → L.H} {σ : Doms} {r : CleanRel D} (h : TInv L hy σ r)
    (hz : ∀ z, sc L (hy z) 0 = 0) {Z : Finset Items} (hZ : ∀ z, r.clusters.contains z = true → z ∈ Z) :
    r.logpScore = ∑ z ∈ Z, sc L (hy z) (contents (tupleSeat σ r.doms) r.data z) := by
  have h1 : r.logpScore = (r.clusters.keys.map (fun z => sc L (hy z) (contents (tupleSeat σ r.doms) r.data z))).sum := by
    unfold logpScore FMap.vals FMap.keys
    rw [List.map_map, List.map_map]
    congr 1
    apply List.map_congr_left
    intro e he
    exact sc_eq S (h.tr e.1 e.2 (FMap.mem_entries.mp he))
  rw [h1, ← List.sum_toFinset _ r.clusters.nodupKeys]
  apply Finset.sum_subset
  · intro z hz'
    exact hZ z (FMap.contains_iff_mem.mpr (List.mem_toFinset.mp hz'))
  · intro z _ hnz
    have : r.clusters.find? z = none := by
      rw [FMap.find?_none_iff]; intro hm; exact hnz (List.mem_toFinset.mpr hm)
    rw [(h.inv.cl z).1 this, hz]

/-! ### relations without repeated domains -/

/-- the cluster tuple with the cluster in domain `d` replaced -/
def retable (doms : List String) (d : String) (table : Int) (z : Items) : Items :=
  List.zipWith (fun d' a => if d' = d then table else a) doms z

theorem uses_unique {doms : List String} (hn : doms.Nodup) {d : String} {i j : Int} {k : Items} (h1 : Uses doms d i k)
    (h2 : (d, j) ∈ doms.zip k) : j = i := by
  unfold Uses at h1
  induction doms generalizing k with
  | nil => simp at h1
  | cons d' ds ih =>
    cases k with
    | nil => simp at h1
    | cons a k =>
      rw [List.nodup_cons] at hn
      rw [List.zip_cons_cons, List.mem_cons, Prod.mk.injEq] at h1 h2
      rcases h1 with ⟨rfl, rfl⟩ | h1
      · rcases h2 with ⟨_, rfl⟩ | h2
        · rfl
        · exact absurd (List.of_mem_zip h2).1 hn.1
      · rcases h2 with ⟨rfl, rfl⟩ | h2
        · exact absurd (List.of_mem_zip h1).1 hn.1
        · exact ih hn.2 h1 h2

theorem tupleSeat_retable {σ σ' : Doms} {d : String} {item table : Int}
    (hs : ∀ d' i, seatOf σ' d' i = if d' = d ∧ i = item then some table else seatOf σ d' i) {ds : List String} {is z : Items}
    (hu : ∀ j, (d, j) ∈ ds.zip is → j = item) (hz : tupleSeat σ ds is = some z) :
    tupleSeat σ' ds is = some (retable ds d table z) := by
  induction ds generalizing is z with
  | nil => cases is <;> simp_all [tupleSeat, retable]
  | cons d' ds ih =>
    cases is with
    | nil => simp [tupleSeat] at hz
    | cons i is =>
      obtain ⟨a, b, h1, h2, rfl⟩ := tupleSeat_cons.mp hz
      have h3 := ih (fun j hj => hu j (by rw [List.zip_cons_cons]; exact List.mem_cons_of_mem _ hj)) h2
      rw [tupleSeat_cons]
      refine ⟨if d' = d then table else a, retable ds d table b, ?_, h3, rfl⟩
      rw [hs]
      by_cases hd : d' = d
      · have hi : i = item := hu i (by rw [List.zip_cons_cons, hd]; simp)
        simp [hd, hi]
      · simp [hd, h1]

theorem retable_inverse {σ : Doms} {d : String} {item table cur : Int} (hc : seatOf σ d item = some cur) {ds : List String} {is z : Items}
    (hu : ∀ j, (d, j) ∈ ds.zip is → j = item) (hz : tupleSeat σ ds is = some z) :
    retable ds d cur (retable ds d table z) = z := by
  induction ds generalizing is z with
  | nil => cases is <;> simp_all [tupleSeat, retable]
  | cons d' ds ih =>
    cases is with
    | nil => simp [tupleSeat] at hz
    | cons i is =>
      obtain ⟨a, b, h1, h2, rfl⟩ := tupleSeat_cons.mp hz
      have h3 := ih (fun j hj => hu j (by rw [List.zip_cons_cons]; exact List.mem_cons_of_mem _ hj)) h2
      simp only [retable, List.zipWith_cons_cons] at h3 ⊢
      rw [h3]
      by_cases hd : d' = d
      · have hi : i = item := hu i (by rw [List.zip_cons_cons, hd]; simp)
        subst hd; subst hi
        rw [hc] at h1; cases h1; simp
      · simp [hd]

/-- a tuple that uses `item` has `item`'s cluster in the position of `d` -/
theorem uses_tupleSeat {σ : Doms} {d : String} {item cur : Int} (hc : seatOf σ d item = some cur) {ds : List String} {is z : Items}
    (hu : Uses ds d item is) (hz : tupleSeat σ ds is = some z) : Uses ds d cur z := by
  unfold Uses at *
  induction ds generalizing is z with
  | nil => simp at hu
  | cons d' ds ih =>
    cases is with
    | nil => simp at hu
    | cons i is =>
      obtain ⟨a, b, h1, h2, rfl⟩ := tupleSeat_cons.mp hz
      rw [List.zip_cons_cons, List.mem_cons, Prod.mk.injEq] at hu ⊢
      rcases hu with ⟨rfl, rfl⟩ | hu
      · rw [hc] at h1; cases h1; exact .inl ⟨rfl, rfl⟩
      · exact .inr (ih hu h2)

/-- the sum over the groups is the sum over the clusters the item's observations are in -/
theorem sum_groups {gs : List (List Items)} {m : FMap Items (List Items)} (hp : gs.Perm m.vals) {P : List Items → ℝ → Prop}
    {xs : List ℝ} (h : List.Forall₂ P gs xs) {F : Items → ℝ} (hF : ∀ z g y, m.find? z = some g → P g y → y = F z)
    (hinj : ∀ z z' g, m.find? z = some g → m.find? z' = some g → z = z') : xs.sum = ∑ z ∈ m.keys.toFinset, F z := by
  classical
  let G : List Items → ℝ := fun g => if e : ∃ z, m.find? z = some g then F e.choose else 0
  have hG : ∀ z g, m.find? z = some g → G g = F z := by
    intro z g hz
    have e : ∃ z, m.find? z = some g := ⟨z, hz⟩
    simp only [G, dif_pos e]
    rw [hinj _ _ g e.choose_spec hz]
  have h1 : xs = gs.map G := by
    have : ∀ g ∈ gs, ∃ z, m.find? z = some g := by
      intro g hg
      rw [hp.mem_iff] at hg
      obtain ⟨e, he, rfl⟩ := List.mem_map.mp hg
      exact ⟨e.1, FMap.mem_entries.mp he⟩
    clear hp
    induction h with
    | nil => rfl
    | cons hy _ ih =>
      rename_i g y gs ys _
      obtain ⟨z, hz⟩ := this g (by simp)
      rw [List.map_cons, hG z g hz, ← hF z g y hz hy, ← ih (fun g' hg' => this g' (by simp [hg']))]
  rw [h1, (hp.map G).sum_eq, List.sum_toFinset _ m.nodupKeys]
  unfold FMap.vals FMap.keys
  rw [List.map_map, List.map_map]
  congr 1
  apply List.map_congr_left
  intro e he
  exact hG e.1 e.2 (FMap.mem_entries.mp he)

theorem rep_emptied (L : Lawful D supp) {h : L.H} (m : Multiset V) : ∀ {c : D.S}, D.Holds supp m c → L.Rep h m c →
    ∃ c', D.Holds supp 0 c' ∧ L.Rep h 0 c' := by
  induction m using Multiset.induction with
  | empty => intro c h1 h2; exact ⟨c, h1, h2⟩
  | cons x m ih =>
    intro c h1 h2
    obtain ⟨c1, h3, h4⟩ := L.holds_dec h1
    obtain ⟨c2, h5, h6⟩ := L.dec h2
    rw [h3] at h5
    injection h5 with h5
    subst h5
    exact ih h4 h6

theorem others_congr {place place' : Items → Option Items} {data : FMap Items V} {u : Items → Prop}
    (h : ∀ k v, data.find? k = some v → ¬ u k → place k = place' k) (z : Items) : others place data u z = others place' data u z := by
  classical
  unfold others
  apply contents_congr
  intro k v hk
  by_cases hu : u k
  · simp [hu]
  · simp [hu, h k v hk hu]

theorem movers_eq_zero {place : Items → Option Items} {data : FMap Items V} {u : Items → Prop} {z : Items}
    (h : ∀ k v, data.find? k = some v → u k → place k ≠ some z) : movers place data u z = 0 := by
  classical
  by_contra hne
  obtain ⟨k, v, h1, h2⟩ := contents_ne_zero.mp hne
  by_cases hu : u k
  · rw [if_pos hu] at h2; exact h k v h1 hu h2
  · rw [if_neg hu] at h2; cases h2

theorem movers_transport {place place' : Items → Option Items} {data : FMap Items V} {u : Items → Prop} {z z' : Items}
    (h : ∀ k v, data.find? k = some v → u k → (place' k = some z' ↔ place k = some z)) :
    movers place' data u z' = movers place data u z := by
  classical
  unfold movers contents
  congr 1
  apply Multiset.filter_congr
  intro e he
  by_cases hu : u e.1
  · simp only [hu, if_true]; exact h e.1 e.2 (FMap.mem_entries.mp he) hu
  · simp [hu]

/-- The Gibbs scores are the scores after the move, up to a constant; scoring does not change the score of the relation, and the
moves have the same effect on the score before and after scoring. -/
theorem gibbs_score_both {L : Lawful D supp} (S : L.Scored) (hfresh : ∀ t t', (D.fresh t).1 = (D.fresh t').1)
    (hzero : ∀ c, D.Holds supp 0 c → D.score c = 0) {σ : Doms} (hσ : StoreWF σ) {r : CleanRel D} (h : Inv supp σ r)
    (hnd : r.doms.Nodup) {d : String} (hd : d ∈ r.doms) {dom : Domain} (hdom : σ.find? d = some dom) {item cur : Int}
    (hcur : dom.crp.assignments.find? item = some cur) (hob : r.hasObservation d item = .ok true) :
    ∃ base : ℝ, ∀ tables t, ∃ lps r' t', logpGibbsExact σ r d item tables t = .ok (lps, r', t') ∧
      r'.logpScore = r.logpScore ∧
      List.Forall₂ (fun table x => (table = cur → x = r.logpScore - base) ∧
        (table ≠ cur → ∀ r1, r1 = r ∨ r1 = r' →
          ∀ t1, ∃ r2 t2, setClusterAssignmentGibbs σ r1 d item table t1 = .ok (r2, t2) ∧ x = r2.logpScore - base))
        tables lps := by
  classical
  obtain ⟨h0, hf0⟩ := L.fresh []
  have hf : ∀ t, L.Rep h0 0 (D.fresh t).1 := fun t => by rw [hfresh t []]; exact hf0
  obtain ⟨hy, htr, hyf⟩ := exists_tracked L h.cl h0
  have hT : TInv L hy σ r := ⟨h, htr⟩
  have hz0 : ∀ z, sc L (hy z) 0 = 0 := by
    intro z
    cases hc : r.clusters.find? z with
    | none =>
      have := (h.cl z).1 hc
      rw [hyf z this, ← sc_eq S (hf [])]
      exact hzero _ (holds_fresh [])
    | some c =>
      obtain ⟨c', h1, h2⟩ := rep_emptied L _ ((h.cl z).2 c hc).2 (htr z c hc)
      rw [← sc_eq S h2]
      exact hzero _ h1
  have hseat : seatOf σ d item = some cur := by rw [seatOf_eq hdom]; exact hcur
  have : ∀ table, ∃ σ' : Doms, table ≠ cur → (∀ d' i, seatOf σ' d' i = if d' = d ∧ i = item then some table else seatOf σ d' i) ∧
      ∀ d', σ'.contains d' = σ.contains d' := by
    intro table
    by_cases ht : table = cur
    · exact ⟨σ, fun h => absurd ht h⟩
    · obtain ⟨dom', _, _, h2, h3, _⟩ := exists_moved hσ hdom hcur ht
      exact ⟨_, fun _ => ⟨h2, h3⟩⟩
  choose σf hσf using this
  let P := tupleSeat σ r.doms
  let u := Uses r.doms d item
  let K := r.clusters.keys.toFinset
  let base := ∑ z ∈ K, sc L (hy z) (others P r.data u z)
  have hbase : ∀ Z : Finset Items, K ⊆ Z → ∑ z ∈ Z, sc L (hy z) (others P r.data u z) = base := by
    intro Z hZ
    symm
    apply Finset.sum_subset hZ
    intro z _ hnz
    have hn : r.clusters.find? z = none := by
      rw [FMap.find?_none_iff]; intro hm; exact hnz (List.mem_toFinset.mpr hm)
    have hc := (h.cl z).1 hn
    rw [contents_split _ _ u, add_eq_zero] at hc
    rw [hc.2, hz0]
  refine ⟨base, fun tables t => ?_⟩
  obtain ⟨lps, cl, t', m, gs, h1, hT', hperm, hg, hall, hlps⟩ := logpGibbsExact_spec S hσ hT hd hdom hcur (fun t ht => (hσf t ht).1) hob tables t
  have hminj : ∀ z z' g, m.find? z = some g → m.find? z' = some g → z = z' := by
    intro z z' g hz hz'
    have g1 := hg z g hz
    have g2 := hg z' g hz'
    obtain ⟨k, hk⟩ := List.exists_mem_of_ne_nil g g1.ne
    have a := ((g1.mem k).mp hk).2.2
    have b := ((g2.mem k).mp hk).2.2
    rw [a] at b; injection b
  have hmkeys : ∀ z, z ∈ m.keys.toFinset ↔ ∃ k v, r.data.find? k = some v ∧ u k ∧ P k = some z := by
    intro z
    rw [List.mem_toFinset, FMap.mem_keys]
    constructor
    · rintro ⟨g, hz⟩
      have g1 := hg z g hz
      obtain ⟨k, hk⟩ := List.exists_mem_of_ne_nil g g1.ne
      obtain ⟨⟨v, hv⟩, a, b⟩ := (g1.mem k).mp hk
      exact ⟨k, v, hv, a, b⟩
    · rintro ⟨k, v, hv, a, b⟩
      obtain ⟨z', g, c, e⟩ := hall k v hv a
      have : tupleSeat σ r.doms k = some z := b
      rw [this] at c; cases c
      exact ⟨g, e⟩
  have hsub : m.keys.toFinset ⊆ K := by
    intro z hz
    obtain ⟨k, v, hv, _, hp⟩ := (hmkeys z).mp hz
    obtain ⟨c, hc, _⟩ := h.cl.find hv hp
    exact List.mem_toFinset.mpr (FMap.mem_keys.mpr ⟨c, hc⟩)
  have hKmem : ∀ z, r.clusters.contains z = true → z ∈ K := fun z hz => List.mem_toFinset.mpr (FMap.contains_iff_mem.mp hz)
  have hsame : logpScore { r with clusters := cl } = r.logpScore := by
    let Z := K ∪ cl.keys.toFinset
    rw [logpScore_eq S hT' hz0 (Z := Z) (fun z hz => by
        simp only [Z, Finset.mem_union, List.mem_toFinset]; exact .inr (FMap.contains_iff_mem.mp hz)),
      logpScore_eq S hT hz0 (Z := Z) (fun z hz => by simp only [Z, Finset.mem_union]; exact .inl (hKmem z hz))]
  refine ⟨lps, _, t', h1, hsame, hlps.imp ?_⟩
  rintro table x ⟨xs, rfl, hxs⟩
  constructor
  · rintro rfl
    have hsum := sum_groups hperm hxs
      (F := fun z => sc L (hy z) (contents P r.data z) - sc L (hy z) (others P r.data u z))
      (fun z g y hz hv => by rw [Val, if_pos rfl] at hv; exact hv z (hg z g hz)) hminj
    rw [hsum, logpScore_eq S hT hz0 hKmem, ← Finset.sum_sub_distrib]
    apply Finset.sum_subset hsub
    intro z _ hnz
    have hm0 : movers P r.data u z = 0 := movers_eq_zero (fun k v hk hu hp => hnz ((hmkeys z).mpr ⟨k, v, hk, hu, hp⟩))
    have hcz : contents P r.data z = others P r.data u z := by rw [contents_split P r.data u z, hm0, zero_add]
    rw [hcz, sub_self]
  · intro hne r1 hr1 t1
    obtain ⟨cl1, rfl, hT1⟩ : ∃ cl1, r1 = { r with clusters := cl1 } ∧ TInv L hy σ { r with clusters := cl1 } := by
      rcases hr1 with rfl | rfl
      · exact ⟨r1.clusters, rfl, hT⟩
      · exact ⟨cl, rfl, hT'⟩
    obtain ⟨hs, hdoms⟩ := hσf table hne
    let P' := tupleSeat (σf table) r.doms
    let τ := retable r.doms d table
    have huniq : ∀ k, u k → ∀ j, (d, j) ∈ r.doms.zip k → j = item := fun k hu j hj => uses_unique hnd hu hj
    have hP' : ∀ k z, u k → P k = some z → P' k = some (τ z) := fun k z hu hz => tupleSeat_retable hs (huniq k hu) hz
    have hseat' : seatOf (σf table) d item = some table := by rw [hs]; simp
    have hmoved0 : ∀ k v z, r.data.find? k = some v → u k → P' k = some z → movers P r.data u z = 0 := by
      intro k v z hk hu hz
      apply movers_eq_zero
      intro k1 v1 hk1 hu1 hz1
      have a := uses_tupleSeat hseat' hu hz
      have b := uses_tupleSeat hseat hu1 hz1
      exact hne (uses_unique hnd b a)
    have hfr : ∀ k v, r.data.find? k = some v → u k → ∀ z, P' k = some z → others P r.data u z = 0 →
        ∀ t, L.Rep (hy z) 0 (D.fresh t).1 := by
      intro k v hk hu z hz ho t
      rw [hyf z (by rw [contents_split _ _ u, hmoved0 k v z hk hu hz, ho, add_zero])]
      exact hf t
    obtain ⟨cl2, t2, h2, hT2⟩ := setGibbs_tracked L hσ hT1 hd hdom hcur hne hob hs hdoms hfr t1
    refine ⟨_, t2, h2, ?_⟩
    have hothers : ∀ z, others P' r.data u z = others P r.data u z := by
      intro z
      apply others_congr
      intro k v _ hu
      apply tupleSeat_congr
      intro d' i hm
      rw [hs, if_neg]
      rintro ⟨rfl, rfl⟩
      exact hu hm
    let Z := K ∪ cl2.keys.toFinset ∪ m.keys.toFinset.image τ
    have hsc2 := logpScore_eq S hT2 hz0 (Z := Z) (fun z hz => by
      simp only [Z, Finset.mem_union, List.mem_toFinset]
      exact .inl (.inr (FMap.contains_iff_mem.mp hz)))
    rw [hsc2, ← hbase Z (fun z hz => by simp only [Z, Finset.mem_union]; exact .inl (.inl hz)), ← Finset.sum_sub_distrib]
    have hτinj : ∀ z ∈ m.keys.toFinset, ∀ z' ∈ m.keys.toFinset, τ z = τ z' → z = z' := by
      intro z hz z' hz' he
      obtain ⟨k, v, hk, hu, hp⟩ := (hmkeys z).mp hz
      obtain ⟨k', v', hk', hu', hp'⟩ := (hmkeys z').mp hz'
      have a : retable r.doms d cur (τ z) = z := retable_inverse hseat (huniq k hu) hp
      have b : retable r.doms d cur (τ z') = z' := retable_inverse hseat (huniq k' hu') hp'
      rw [← a, ← b, he]
    have hsum := sum_groups hperm hxs
      (F := fun z => sc L (hy (τ z)) (movers P r.data u z + contents P r.data (τ z)) - sc L (hy (τ z)) (contents P r.data (τ z)))
      (fun z g y hz hv => by
        rw [Val, if_neg hne] at hv
        have g1 := hg z g hz
        obtain ⟨k, hk⟩ : ∃ k, g.head? = some k := by
          cases g with
          | nil => exact absurd rfl g1.ne
          | cons k g => exact ⟨k, rfl⟩
        obtain ⟨⟨v, hkv⟩, hku, hkz⟩ := (g1.mem k).mp (List.mem_of_mem_head? hk)
        refine hv z k (τ z) g1 hk (hP' k z hku hkz) ?_
        intro hc t
        rw [contents_split _ _ u, add_eq_zero] at hc
        exact hfr k v hkv hku (τ z) (hP' k z hku hkz) hc.2 t) hminj
    rw [hsum]
    have himg : ∑ z ∈ m.keys.toFinset, (sc L (hy (τ z)) (movers P r.data u z + contents P r.data (τ z)) - sc L (hy (τ z)) (contents P r.data (τ z))) =
        ∑ w ∈ m.keys.toFinset.image τ, (sc L (hy w) (contents P' r.data w) - sc L (hy w) (others P r.data u w)) := by
      rw [Finset.sum_image (fun z hz z' hz' => hτinj z hz z' hz')]
      apply Finset.sum_congr rfl
      intro z hz
      obtain ⟨k, v, hk, hu, hp⟩ := (hmkeys z).mp hz
      have hc1 : contents P r.data (τ z) = others P r.data u (τ z) := by
        rw [contents_split P r.data u (τ z), hmoved0 k v (τ z) hk hu (hP' k z hu hp), zero_add]
      have hc2 : movers P' r.data u (τ z) = movers P r.data u z := by
        apply movers_transport
        intro k1 v1 hk1 hu1
        obtain ⟨_, z1, hz1⟩ := h.seated k1 v1 hk1
        have e1 : P k1 = some z1 := hz1
        rw [hP' k1 z1 hu1 hz1, e1]
        constructor
        · intro e
          injection e with e
          rw [hτinj z1 ((hmkeys z1).mpr ⟨k1, v1, hk1, hu1, hz1⟩) z hz e]
        · intro e; injection e with e; rw [e]
      rw [contents_split P' r.data u (τ z), hothers, hc2, hc1]
    rw [himg]
    apply Finset.sum_subset
    · intro z hz; simp only [Z, Finset.mem_union]; exact .inr hz
    · intro w _ hnw
      have hm0 : movers P' r.data u w = 0 := by
        apply movers_eq_zero
        intro k v hk hu hp
        obtain ⟨_, z, hz⟩ := h.seated k v hk
        rw [hP' k z hu hz] at hp
        injection hp with hp
        exact hnw (Finset.mem_image.mpr ⟨z, (hmkeys z).mpr ⟨k, v, hk, hu, hz⟩, hp⟩)
      have hcw : contents P' r.data w = others P r.data u w := by rw [contents_split P' r.data u w, hm0, zero_add, hothers]
      rw [hcw, sub_self]

/-- The Gibbs scores are the scores after the move, up to a constant. -/
theorem gibbs_score_eq {L : Lawful D supp} (S : L.Scored) (hfresh : ∀ t t', (D.fresh t).1 = (D.fresh t').1)
    (hzero : ∀ c, D.Holds supp 0 c → D.score c = 0) {σ : Doms} (hσ : StoreWF σ) {r : CleanRel D} (h : Inv supp σ r)
    (hnd : r.doms.Nodup) {d : String} (hd : d ∈ r.doms) {dom : Domain} (hdom : σ.find? d = some dom) {item cur : Int}
    (hcur : dom.crp.assignments.find? item = some cur) (hob : r.hasObservation d item = .ok true) :
    ∃ base : ℝ, ∀ tables t, ∃ lps r' t', logpGibbsExact σ r d item tables t = .ok (lps, r', t') ∧
      List.Forall₂ (fun table x => (table = cur → x = r.logpScore - base) ∧
        (table ≠ cur → ∀ t1, ∃ r2 t2, setClusterAssignmentGibbs σ r d item table t1 = .ok (r2, t2) ∧ x = r2.logpScore - base))
        tables lps := by
  obtain ⟨base, hb⟩ := gibbs_score_both S hfresh hzero hσ h hnd hd hdom hcur hob
  refine ⟨base, fun tables t => ?_⟩
  obtain ⟨lps, r', t', h1, _, h2⟩ := hb tables t
  exact ⟨lps, r', t', h1, h2.imp (fun table x hx => ⟨hx.1, fun hne => hx.2 hne r (.inl rfl)⟩)⟩

/-- the Gibbs scores as a function of the table -/
theorem gibbs_score_fun {L : Lawful D supp} (S : L.Scored) (hfresh : ∀ t t', (D.fresh t).1 = (D.fresh t').1)
    (hzero : ∀ c, D.Holds supp 0 c → D.score c = 0) {σ : Doms} (hσ : StoreWF σ) {r : CleanRel D} (h : Inv supp σ r)
    (hnd : r.doms.Nodup) {d : String} (hd : d ∈ r.doms) {dom : Domain} (hdom : σ.find? d = some dom) {item cur : Int}
    (hcur : dom.crp.assignments.find? item = some cur) (hob : r.hasObservation d item = .ok true) :
    ∃ g : Int → ℝ, ∀ tables t, ∃ r' t', logpGibbsExact σ r d item tables t = .ok (tables.map g, r', t') ∧
      r'.logpScore = r.logpScore ∧
      ∀ table ∈ tables, table ≠ cur → ∀ t1, ∃ r2 t2, setClusterAssignmentGibbs σ r' d item table t1 = .ok (r2, t2) ∧
        r2.logpScore = r.logpScore + g table - g cur := by
  obtain ⟨base, hb⟩ := gibbs_score_both S hfresh hzero hσ h hnd hd hdom hcur hob
  -- the score of one table does not depend on the tape or on the other tables
  have hone : ∀ table, ∃ x : ℝ, ∀ tables t lps r' t', logpGibbsExact σ r d item tables t = .ok (lps, r', t') →
      ∀ y, (table, y) ∈ tables.zip lps → y = x := by
    intro table
    by_cases ht : table = cur
    · refine ⟨r.logpScore - base, fun tables t lps r' t' hc y hy => ?_⟩
      obtain ⟨lps1, r1, t1, h1, _, h2⟩ := hb tables t
      rw [h1] at hc; cases hc
      exact ((List.forall₂_iff_zip.mp h2).2 hy).1 ht
    · obtain ⟨lps0, r0, t0, h0, _, h0'⟩ := hb [table] []
      obtain ⟨x, hx⟩ : ∃ x, (table, x) ∈ [table].zip lps0 := by
        have := h0'.length_eq
        match lps0, this with
        | [x], _ => exact ⟨x, by simp⟩
      obtain ⟨r2, t2, h3, h4⟩ := ((List.forall₂_iff_zip.mp h0').2 hx).2 ht r (.inl rfl) []
      refine ⟨x, fun tables t lps r' t' hc y hy => ?_⟩
      obtain ⟨lps1, r1, t1, h1, _, h2⟩ := hb tables t
      rw [h1] at hc; cases hc
      obtain ⟨r3, t3, h5, h6⟩ := ((List.forall₂_iff_zip.mp h2).2 hy).2 ht r (.inl rfl) []
      rw [h3] at h5; cases h5
      rw [h4, h6]
  choose g hg using hone
  have hmap : ∀ tables t lps r' t', logpGibbsExact σ r d item tables t = .ok (lps, r', t') → lps.length = tables.length →
      lps = tables.map g := by
    intro tables t lps r' t' hc hl
    apply List.ext_getElem (by simp [hl])
    intro i h1 h2
    rw [List.getElem_map]
    have hi : i < tables.length := by simpa using h2
    apply hg tables[i] tables t lps r' t' hc
    rw [List.mem_iff_getElem]
    exact ⟨i, by simp; omega, by simp⟩
  have hcur' : g cur = r.logpScore - base := by
    obtain ⟨lps, r', t', h1, _, h2⟩ := hb [cur] []
    have := hmap _ _ _ _ _ h1 h2.length_eq.symm
    subst this
    simp only [List.map_cons, List.map_nil, List.forall₂_cons] at h2
    exact h2.1.1 trivial
  refine ⟨g, fun tables t => ?_⟩
  obtain ⟨lps, r', t', h1, h2, h3⟩ := hb tables t
  have := hmap _ _ _ _ _ h1 h3.length_eq.symm
  subst this
  refine ⟨r', t', h1, h2, fun table hm ht t1 => ?_⟩
  have hz : (table, g table) ∈ tables.zip (tables.map g) := by
    obtain ⟨i, hi, rfl⟩ := List.mem_iff_getElem.mp hm
    rw [List.mem_iff_getElem]
    exact ⟨i, by simp; omega, by simp⟩
  obtain ⟨r2, t2, h5, h6⟩ := ((List.forall₂_iff_zip.mp h3).2 hz).2 ht r' (.inr rfl) t1
  exact ⟨r2, t2, h5, by rw [h6, hcur']; ring⟩

end CleanRel
end
end Verif
