import Verif.Lemmas.Predictive
import Verif.Lemmas.Gibbs
/-! Lemmas about the approximate Gibbs scores of a relation. -/
namespace Verif
noncomputable section
open Spec
namespace CleanRel
variable {V : Type} {D : DistOps V} {supp : V → Prop}

/-- removing a value that is held and adding it again restores the state -/
theorem dec_inc (L : Lawful D supp) (X : D.Exchangeable supp) {m : Multiset V} {c : D.S} {x : V} (h : D.Holds supp (x ::ₘ m) c) :
    ∃ c', D.dec c x = .ok c' ∧ D.Holds supp m c' ∧ D.inc c' x = .ok c := by
  classical
  obtain ⟨c', h1, h2⟩ := L.holds_dec h
  obtain ⟨hy, hr⟩ := L.holds h
  have hx : supp x := L.supported hr (by simp)
  obtain ⟨c2, h3, _⟩ := L.holds_inc h2 hx
  obtain ⟨s, g1, g2, _⟩ := X (x ::ₘ m) c [.dec x, .inc x] [] (x ::ₘ m) h (by intro o ho; simp at ho; rcases ho with rfl | rfl <;> rfl) (by simp)
    (by simp [remaining, hx]) (by simp [remaining])
  have e2 : c = s := by simpa [DistOps.run] using g2
  subst e2
  refine ⟨c', h1, h2, ?_⟩
  simp only [DistOps.run, h1, Except.bind, h3] at g1
  rw [h3]; exact g1

/-- what is known of a stored tuple -/
theorem stored (L : Lawful D supp) (X : D.Exchangeable supp) (R : D.LogpPure supp) (C : D.ScoreRatio supp) {σ : Doms} {r : CleanRel D} (h : Inv supp σ r)
    {k : Items} {v : V} (hk : r.data.find? k = some v) :
    ∃ z c c', tupleSeat σ r.doms k = some z ∧ r.clusters.find? z = some c ∧ D.dec c v = .ok c' ∧ D.inc c' v = .ok c ∧
      D.logp c' v = .ok (D.score c - D.score c', c') ∧ D.Holds supp (contents (tupleSeat σ (r.doms)) (r.data.erase k) z) c' := by
  obtain ⟨hs, z, hz⟩ := h.seated k v hk
  obtain ⟨c, hc, hh⟩ := h.cl.find hk hz
  have hsplit : contents (tupleSeat σ r.doms) r.data z = v ::ₘ contents (tupleSeat σ r.doms) (r.data.erase k) z := by
    rw [contents_erase hk, if_pos hz]
  rw [hsplit] at hh
  obtain ⟨c', h1, h2, h3⟩ := dec_inc L X hh
  obtain ⟨s1, s2, g1, g2⟩ := C _ _ v h2 hs
  obtain ⟨lp, g3⟩ := R _ _ v h2 hs
  rw [h3] at g1; cases g1
  rw [g3] at g2; cases g2
  exact ⟨z, c, c', hz, hc, h1, h3, g3, h2⟩

theorem set_clusters_same {r : CleanRel D} {z : Items} {c : D.S} (hc : r.clusters.find? z = some c) : { r with clusters := r.clusters.set z c } = r := by
  rw [FMap.set_of_find hc]

/-- the share of a tuple in the approximate score of the current table -/
def CurTerm (σ : Doms) (r : CleanRel D) (k : Items) (y : ℝ) : Prop :=
  ∃ v z c c', r.data.find? k = some v ∧ tupleSeat σ r.doms k = some z ∧ r.clusters.find? z = some c ∧ D.dec c v = .ok c' ∧ D.inc c' v = .ok c ∧
    D.logp c' v = .ok (y, c') ∧ y = D.score c - D.score c'

theorem approxCurrent_eq {σ : Doms} (hσ : StoreWF σ) {r : CleanRel D} {f : Items → ℝ} : ∀ {l : List Items}, (∀ k ∈ l, CurTerm σ r k (f k)) →
    approxCurrent σ l r = .ok ((l.map f).sum, r) := by
  intro l
  induction l with
  | nil => intro _; rfl
  | cons k l ih =>
    intro hl
    obtain ⟨v, z, c, c', h1, h2, h3, h4, h5, h6, _⟩ := hl k (by simp)
    simp only [approxCurrent, bind, Except.bind, FMap.atKey_of_find h1, clusterOf_eq hσ h2, FMap.atKey_of_find h3, h4, h6, h5, set_clusters_same h3,
      ih (fun k' hk' => hl k' (by simp [hk'])), List.map_cons, List.sum_cons]

/-- the share of a tuple in the approximate score of another table -/
def VarTerm (σ' : Doms) (r : CleanRel D) (k : Items) (y : ℝ) : Prop :=
  ∃ v z, r.data.find? k = some v ∧ tupleSeat σ' r.doms k = some z ∧ ∀ t, ∃ t', clusterOrPriorLogp r z v t = .ok (y, r, t') 

theorem approxVariant_eq {σ σ' : Doms} (hσ : StoreWF σ) {r : CleanRel D} {d : String} {item table : Int} {f : Items → ℝ}
    (hs : ∀ d' i, seatOf σ' d' i = if d' = d ∧ i = item then some table else seatOf σ d' i) : ∀ {l : List Items} (t : Tape),
    (∀ k ∈ l, Uses r.doms d item k ∧ VarTerm σ' r k (f k)) → ∃ t', approxVariant σ d item table l r t = .ok ((l.map f).sum, r, t') := by
  intro l
  induction l with
  | nil => intro t _; exact ⟨t, rfl⟩
  | cons k l ih =>
    intro t hl
    obtain ⟨hu, v, z, h1, h2, h3⟩ := hl k (by simp)
    obtain ⟨t1, h3⟩ := h3 t
    obtain ⟨t2, h4⟩ := ih t1 (fun k' hk' => hl k' (by simp [hk']))
    exact ⟨t2, by simp only [approxVariant, bind, Except.bind, FMap.atKey_of_find h1, clusterOfGibbs_eq hσ hs hu h2, h3, h4, List.map_cons, List.sum_cons]⟩

/-- the tuples of an entity -/
theorem Inv.tuples {σ : Doms} {r : CleanRel D} (h : Inv supp σ r) {d : String} (hd : d ∈ r.doms) {item : Int} (hob : r.hasObservation d item = .ok true) :
    ∃ s, r.observationsOf d item = .ok s ∧ ∀ k, k ∈ s.keys ↔ (∃ v, r.data.find? k = some v) ∧ Uses r.doms d item k := by
  obtain ⟨b, h1, h2, h3, _⟩ := h.observationsOf hd (item := item)
  rw [hob] at h1
  cases h1
  obtain ⟨s, h4, h5⟩ := h3 rfl
  exact ⟨s, h4, fun k => by rw [h5, FMap.contains_iff]⟩

theorem unincorporate_score (L : Lawful D supp) (hzero : ∀ c, D.Holds supp 0 c → D.score c = 0) {σ : Doms} (hσ : StoreWF σ) {r : CleanRel D} (h : Inv supp σ r)
    {k : Items} {y : ℝ} (ht : CurTerm σ r k y) : ∃ r', unincorporate σ r k = .ok r' ∧ r.logpScore = r'.logpScore + y := by
  obtain ⟨v, z, c, c', h1, h2, h3, h4, _, _, h5⟩ := ht
  obtain ⟨r', g1, _, _, _, z', g2, g3⟩ := unincorporate_spec L hσ h h1
  rw [h2] at g2; cases g2
  refine ⟨r', g1, ?_⟩
  simp only [takeOut, bind, Except.bind, FMap.atKey_of_find h3, h4] at g3
  have hh := ((h.cl z).2 c h3).2
  rw [contents_erase h1, if_pos h2] at hh
  obtain ⟨c2, k1, k2⟩ := L.holds_dec hh
  rw [h4] at k1; cases k1
  have e := Except.ok.inj g3
  unfold logpScore
  rw [← e, h5]
  have h0 := score_set D r.clusters z c
  rw [FMap.set_of_find h3] at h0
  by_cases hn : D.N c' = 0
  · rw [if_pos hn]
    obtain ⟨hy, hr⟩ := L.holds k2
    have hc := L.count hr
    rw [hn] at hc
    have : contents (tupleSeat σ r.doms) (r.data.erase k) z = 0 := Multiset.card_eq_zero.mp (by exact_mod_cast hc.symm)
    rw [this] at k2
    rw [h0, hzero c' k2]; ring
  · rw [if_neg hn, h0, score_set]; ring

/-- one tuple, current table -/
theorem exactCurrent_one {σ : Doms} (hσ : StoreWF σ) {r : CleanRel D} {k : Items} {y : ℝ} (ht : CurTerm σ r k y) :
    exactCurrent σ r [k] = .ok (y, r) := by
  obtain ⟨v, z, c, c', h1, h2, h3, h4, h5, _, rfl⟩ := ht
  simp only [exactCurrent, bind, Except.bind, assertR, List.isEmpty_cons, Bool.not_false, if_true, idxR, List.getElem?_cons_zero,
      clusterOf_eq hσ h2, FMap.atKey_of_find h3, decItems, incItems, FMap.atKey_of_find h1, h4, h5, scoresAgree_self, set_clusters_same h3]

/-- one tuple, another table -/
theorem exactVariant_one (R : D.RoundTrip supp) (C : D.ScoreRatio supp) {σ σ' : Doms} (hσ : StoreWF σ) {r : CleanRel D} (h : Inv supp σ r)
    {d : String} {item table : Int} (hs : ∀ d' i, seatOf σ' d' i = if d' = d ∧ i = item then some table else seatOf σ d' i)
    {k : Items} (hu : Uses r.doms d item k) {y : ℝ} (ht : VarTerm σ' r k y) (t : Tape) :
    ∃ t', exactVariant σ r d item table [k] t = .ok (y, r, t') := by
  obtain ⟨v, z, h1, h2, h3⟩ := ht
  obtain ⟨t1, h3⟩ := h3 t
  have hsv := (h.seated k v h1).1
  have hh : D.Holds supp (contents (tupleSeat σ r.doms) r.data z) ((r.clusters.find? z).getD (D.fresh t).1) := by
    cases hc : r.clusters.find? z with
    | none => rw [(h.cl z).1 hc]; exact holds_fresh t
    | some c => exact ((h.cl z).2 c hc).2
  obtain ⟨⟨s1, g1, g2⟩, lp, g3⟩ := R _ _ v hh hsv
  obtain ⟨s1', s2, g4, g5⟩ := C _ _ v hh hsv
  rw [g1] at g4; cases g4
  rw [g3] at g5; cases g5
  have hy : y = D.score s1 - D.score ((r.clusters.find? z).getD (D.fresh t).1) := by
    cases hc : r.clusters.find? z with
    | none =>
      rw [hc] at g3
      simp only [clusterOrPriorLogp, hc, priorLogp, bind, Except.bind] at h3
      simp only [Option.getD_none] at g3
      rw [g3] at h3
      injection h3 with h3
      injection h3 with h3 _
      exact h3.symm
    | some c =>
      rw [hc] at g3
      simp only [clusterOrPriorLogp, hc, bind, Except.bind] at h3
      simp only [Option.getD_some] at g3
      rw [g3] at h3
      injection h3 with h3
      injection h3 with h3 _
      exact h3.symm
  refine ⟨(D.fresh t).2, ?_⟩
  simp only [exactVariant, bind, Except.bind, assertR, List.isEmpty_cons, Bool.not_false, if_true, idxR, List.getElem?_cons_zero,
    clusterOfGibbs_eq hσ hs hu h2, incItems, decItems, FMap.atKey_of_find h1, g1, g2, scoresAgree_self, ← hy]
  cases hc : r.clusters.find? z with
  | none => rw [if_neg (by rw [FMap.contains_false.mpr hc]; simp)]
  | some c =>
    rw [if_pos (FMap.contains_iff.mpr ⟨c, hc⟩)]
    simp only [Option.getD_some, set_clusters_same hc]

/-- the share of a tuple -/
def Term (σ σ' : Doms) (r : CleanRel D) (cur table : Int) (k : Items) (y : ℝ) : Prop :=
  if table = cur then CurTerm σ r k y else VarTerm σ' r k y

theorem exactTable_ones (R : D.RoundTrip supp) (C : D.ScoreRatio supp) {σ σ' : Doms} (hσ : StoreWF σ) {r : CleanRel D} (h : Inv supp σ r)
    {d : String} {item cur table : Int} (hs : table ≠ cur → ∀ d' i, seatOf σ' d' i = if d' = d ∧ i = item then some table else seatOf σ d' i) {f : Items → ℝ} :
    ∀ {gs : List (List Items)} (t : Tape), (∀ g ∈ gs, ∃ k, g = [k] ∧ Uses r.doms d item k ∧ Term σ σ' r cur table k (f k)) →
    ∃ t', exactTable σ d item cur table gs r t = .ok ((gs.flatten.map f).sum, r, t') := by
  intro gs
  induction gs with
  | nil => intro t _; exact ⟨t, rfl⟩
  | cons g gs ih =>
    intro t hg
    obtain ⟨k, rfl, hu, ht⟩ := hg _ List.mem_cons_self
    unfold Term at ht
    by_cases he : table = cur
    · rw [if_pos he] at ht
      obtain ⟨t', h1⟩ := ih t (fun g' hg' => hg g' (List.mem_cons_of_mem _ hg'))
      refine ⟨t', ?_⟩
      simp only [exactTable, if_pos he, bind, Except.bind, exactCurrent_one hσ ht, h1]
      simp
    · rw [if_neg he] at ht
      obtain ⟨t1, h0⟩ := exactVariant_one R C hσ h (hs he) hu ht t
      obtain ⟨t', h1⟩ := ih t1 (fun g' hg' => hg g' (List.mem_cons_of_mem _ hg'))
      refine ⟨t', ?_⟩
      simp only [exactTable, if_neg he, bind, Except.bind, h0, h1]
      simp

theorem sum_perm {l l' : List Items} (h : l.Perm l') (f : Items → ℝ) : (l.map f).sum = (l'.map f).sum := (h.map f).sum_eq

/-- groups of one tuple each: the flattened list of groups has the tuples of the entity, once -/
theorem flatten_groups {σ : Doms} {r : CleanRel D} {d : String} {item : Int} {m : FMap Items (List Items)} {gs : List (List Items)} (hp : gs.Perm m.vals)
    (hm : ∀ z g, m.find? z = some g → Group σ r d item z g)
    (hall : ∀ k v, r.data.find? k = some v → Uses r.doms d item k → ∃ z g, tupleSeat σ r.doms k = some z ∧ m.find? z = some g) :
    gs.flatten.Nodup ∧ ∀ k, k ∈ gs.flatten ↔ (∃ v, r.data.find? k = some v) ∧ Uses r.doms d item k := by
  have hp' : gs.flatten.Perm m.vals.flatten := hp.flatten
  rw [hp'.nodup_iff]
  refine ⟨?_, fun k => ?_⟩
  · rw [List.nodup_flatten]
    constructor
    · intro g hg
      obtain ⟨⟨z, g'⟩, he, rfl⟩ := List.mem_map.mp hg
      exact (hm z g' (FMap.mem_entries.mp he)).nodup
    · have hn : (m.entries.map Prod.fst).Nodup := m.nodupKeys
      unfold FMap.vals
      rw [List.pairwise_map]
      refine (List.pairwise_map.mp hn).imp_of_mem ?_
      rintro ⟨z, g⟩ ⟨z', g'⟩ ha hb hne k hk hk'
      have h1 := (((hm z g (FMap.mem_entries.mp ha)).mem k).mp hk).2.2
      have h2 := (((hm z' g' (FMap.mem_entries.mp hb)).mem k).mp hk').2.2
      rw [h1] at h2
      exact hne (Option.some.inj h2)
  · rw [hp'.mem_iff, List.mem_flatten]
    constructor
    · rintro ⟨g, hg, hk⟩
      obtain ⟨⟨z, g'⟩, he, rfl⟩ := List.mem_map.mp hg
      have := ((hm z g' (FMap.mem_entries.mp he)).mem k).mp hk
      exact ⟨this.1, this.2.1⟩
    · rintro ⟨⟨v, hv⟩, hu⟩
      obtain ⟨z, g, h1, h2⟩ := hall k v hv hu
      exact ⟨g, List.mem_map.mpr ⟨(z, g), FMap.mem_entries.mpr h2, rfl⟩, ((hm z g h2).mem k).mpr ⟨⟨v, hv⟩, hu, h1⟩⟩

end CleanRel
end
end Verif
