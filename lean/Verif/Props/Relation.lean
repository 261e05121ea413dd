import Verif.Lemmas.Reach
import Verif.Props.Dist
import Verif.Props.Domain
/-!
C19-C22, C24: clean relations.  All theorems hold for every distribution that stores a multiset of supported values
(`Lawful`, shown for each distribution of the repository in Lemmas/Dist*.lean), for every arity, and for every sequence of
random draws and iteration orders (tapes).
-/
namespace Verif
open Spec
noncomputable section
namespace CleanRel
variable {V : Type} {D : DistOps V} {supp : V → Prop}

/-! ### C19 -/

/-- **C19.** In every reachable relation there is a cluster exactly at the cluster tuples of the stored observations, and
the distribution in each cluster holds exactly the values stored for the tuples assigned to it. -/
theorem C19_clusters_exact (L : Lawful D supp) {σ : Doms} {r : CleanRel D} (h : Reach supp σ r) : ClustersExact supp σ r :=
  (h.inv L).2.cl.exact

/-- **C19.** In particular no cluster is empty, and the number of values in a cluster is the number of tuples assigned to it. -/
theorem C19_cluster_size (L : Lawful D supp) {σ : Doms} {r : CleanRel D} (h : Reach supp σ r) {z : Items} {c : D.S}
    (hc : r.clusters.find? z = some c) :
    D.N c = Multiset.card (contents (tupleSeat σ r.doms) r.data z) ∧ D.N c ≠ 0 := by
  have h1 := C19_clusters_exact L h
  have h2 := L.holds_N (h1.2 z c hc)
  refine ⟨h2, ?_⟩
  rw [h2]
  obtain ⟨k, v, hk, hp⟩ := (h1.1 z).mp (FMap.contains_iff.mpr ⟨c, hc⟩)
  have := contents_ne_zero.mpr ⟨k, v, hk, hp⟩
  simpa using this

/-- **C19.** `incorporate` accepts exactly the new tuples of the right length: for those it stores the value, changes no
other observation, and moves no entity that is already in its domain. -/
theorem C19_incorporate (L : Lawful D supp) {σ : Doms} {r : CleanRel D} (h : Reach supp σ r) {items : Items}
    (hl : items.length = r.doms.length) (hn : r.data.find? items = none) {v : V} (hv : supp v) (t : Tape) :
    ∃ σ' r' t', incorporate σ r items v t = .ok (σ', r', t') ∧ Reach supp σ' r' ∧ r'.doms = r.doms ∧
      (∀ k, r'.data.find? k = if k = items then some v else r.data.find? k) ∧
      (∀ d i z, seatOf σ d i = some z → seatOf σ' d i = some z) ∧
      (∀ d i, (∃ z, seatOf σ' d i = some z) ↔ (∃ z, seatOf σ d i = some z) ∨ Uses r.doms d i items) := by
  obtain ⟨hσ, hi⟩ := h.inv L
  obtain ⟨σ', r', t', h1, _, h3, _, h5, h6, _⟩ := incorporate_spec L hσ hi hl hn hv t
  refine ⟨σ', r', t', h1, h.incorporate hv h1, h5, fun k => by rw [h6, FMap.find?_set], h3.seat, fun d i => ?_⟩
  rw [h3.mem]
  constructor
  · rintro (h | h)
    · exact .inl h
    · exact .inr h.2
  · rintro (h | h)
    · exact .inl h
    · exact .inr ⟨hi.doms d (List.of_mem_zip h).1, h⟩

/-- **C19.** `incorporate` fails on every other tuple. -/
theorem C19_incorporate_rejects {σ : Doms} {r : CleanRel D} {items : Items} (v : V) (t : Tape)
    (hbad : items.length ≠ r.doms.length ∨ r.data.contains items = true) : ∃ e, incorporate σ r items v t = .error e := by
  cases hc : incorporate σ r items v t with
  | error e => exact ⟨e, rfl⟩
  | ok x =>
    obtain ⟨h1, h2⟩ := incorporate_pre (σ' := x.1) (r' := x.2.1) (t' := x.2.2) hc
    rcases hbad with hb | hb
    · exact absurd h1 hb
    · rw [FMap.contains_false.mpr h2] at hb; cases hb

/-- **C19.** `unincorporate` accepts exactly the stored tuples and removes only that observation. -/
theorem C19_unincorporate (L : Lawful D supp) {σ : Doms} {r : CleanRel D} (h : Reach supp σ r) (items : Items) :
    (r.data.contains items = false → unincorporate σ r items = .error .assert) ∧
    (r.data.contains items = true → ∃ r', unincorporate σ r items = .ok r' ∧ Reach supp σ r' ∧ r'.doms = r.doms ∧
      ∀ k, r'.data.find? k = if k = items then none else r.data.find? k) := by
  refine ⟨fun hc => by simp [unincorporate, bind, Except.bind, assertR, hc], fun hc => ?_⟩
  obtain ⟨v, hv⟩ := FMap.contains_iff.mp hc
  obtain ⟨hσ, hi⟩ := h.inv L
  obtain ⟨r', h1, _, h3, h4, _⟩ := unincorporate_spec L hσ hi hv
  exact ⟨r', h1, h.unincorporate h1, h3, fun k => by rw [h4, FMap.find?_erase]⟩

/-- **C19.** Re-assigning an observed entity to another cluster never fails and changes no observation. -/
theorem C19_move (L : Lawful D supp) {σ : Doms} {r : CleanRel D} (h : Reach supp σ r) {d : String} {dom : Domain}
    (hd : σ.find? d = some dom) (hm : d ∈ r.doms) {i cur table : Int} (hcur : dom.crp.seating i = some cur) (hne : table ≠ cur)
    (hob : r.hasObservation d i = .ok true) (t : Tape) :
    ∃ r' t' dom', setClusterAssignmentGibbs σ r d i table t = .ok (r', t') ∧
      dom.setClusterAssignmentGibbs i table = .ok dom' ∧ Reach supp (σ.set d dom') r' ∧ r'.data = r.data ∧ r'.doms = r.doms ∧
      ∀ d' j, seatOf (σ.set d dom') d' j = if d' = d ∧ j = i then some table else seatOf σ d' j := by
  obtain ⟨hσ, hi⟩ := h.inv L
  obtain ⟨dom', h1, _, h3, h4, _⟩ := exists_moved hσ hd hcur hne
  obtain ⟨cl, t', h7, _⟩ := setGibbs_spec L hσ hi hm hd hcur hne hob h3 h4 t
  exact ⟨_, t', dom', h7, h1, h.move hd hm (fun _ => h7) (fun hf => by rw [hob] at hf; cases hf) h1, rfl, rfl, h3⟩

/-- **C19.** If the data and the hyperparameters of a cluster determine its score, scoring the tables of an entity never fails and leaves
every observation as it is. -/
theorem C19_gibbs_scores {L : Lawful D supp} (S : L.Scored) {σ : Doms} {r : CleanRel D} (h : Reach supp σ r) {d : String} (hm : d ∈ r.doms)
    {i : Int} (hob : r.hasObservation d i = .ok true) (tables : List Int) (t : Tape) :
    ∃ lps r' t', logpGibbsExact σ r d i tables t = .ok (lps, r', t') ∧ lps.length = tables.length ∧
      Reach supp σ r' ∧ r'.data = r.data ∧ r'.doms = r.doms := by
  obtain ⟨hσ, hi⟩ := h.inv L
  obtain ⟨lps, cl, t', h1, h2, _⟩ := gibbsScores_inv S hσ hi hm hob tables t
  exact ⟨lps, _, t', h1, h2, h.gibbsScores h1, rfl, rfl⟩

/-! ### C20 -/

/-- **C20.** In every reachable relation the per-entity index lists exactly the stored observations that use the entity, and
`has_observation` says whether there is one. -/
theorem C20_index_exact (L : Lawful D supp) {σ : Doms} {r : CleanRel D} (h : Reach supp σ r) : IndexExact r := by
  intro d hd i
  obtain ⟨b, h1, h2, h3, _⟩ := (h.inv L).2.observationsOf hd (item := i)
  exact ⟨b, h1, h2, h3⟩

/-! ### C21 -/

/-- **C21.** Incorporating a new observation and unincorporating it gives back the same relation: the same observations, the
same index and the same clusters (a cluster created for the observation is deleted again). -/
theorem C21_unincorporate_undoes_incorporate (L : Lawful D supp) (hrt : D.RoundTrip supp) {σ : Doms} {r : CleanRel D}
    (h : Reach supp σ r) {items : Items} (hl : items.length = r.doms.length) (hn : r.data.contains items = false) {v : V}
    (hv : supp v) (t : Tape) :
    ∃ σ' r' t', incorporate σ r items v t = .ok (σ', r', t') ∧ unincorporate σ' r' items = .ok r := by
  obtain ⟨hσ, hi⟩ := h.inv L
  have hn' := FMap.contains_false.mp hn
  obtain ⟨σ1, r1, t1, h1, h2, h3, h4, h5, h6, z, c0, c1, h7, h8, h9, h10⟩ := incorporate_spec L hσ hi hl hn' hv t
  obtain ⟨r2, g1, g2, g3, g4, z', g5, g6⟩ := unincorporate_spec L h2 h4 (items := items) (v := v) (by rw [h6]; simp)
  refine ⟨σ1, r1, t1, h1, ?_⟩
  rw [g1]
  congr 1
  rw [h5, h7] at g5
  cases g5
  have hdoms : r2.doms = r.doms := g3.trans h5
  have hdata : r2.data = r.data := by rw [g4, h6, FMap.erase_set, FMap.erase_of_not_mem hn']
  have hidx : r2.dataR = r.dataR := by
    have := g2.idx
    rw [hdoms, hdata] at this
    exact this.ext hi.idx
  have hcl : r2.clusters = r.clusters := by
    have hc0 : D.Holds supp (contents (tupleSeat σ r.doms) r.data z) c0 := by
      rcases h8 with h8 | ⟨h8, t0, rfl⟩
      · exact ((hi.cl z).2 c0 h8).2
      · rw [(hi.cl z).1 h8]; exact holds_fresh t0
    obtain ⟨⟨s1, k1, k2⟩, _⟩ := hrt _ _ v hc0 hv
    rw [h9] at k1
    cases k1
    simp only [takeOut, h10, bind, Except.bind, FMap.atKey_of_find (FMap.find?_set_self ..), k2, FMap.set_set, FMap.erase_set] at g6
    injection g6 with g6
    rw [← g6]
    rcases h8 with h8 | ⟨h8, t0, rfl⟩
    · rw [if_neg (C19_cluster_size L h h8).2, FMap.set_of_find h8]
    · have : D.N (D.fresh t0).1 = 0 := by rw [L.holds_N (holds_fresh t0)]; simp
      rw [if_pos this, FMap.erase_of_not_mem h8]
  cases r2; cases r
  simp_all

/-- **C21.** For a distribution that does not return to exactly the same state (Skellam keeps entries of weight 0), the
observations and the index are restored exactly, and the clusters hold the same values as before. -/
theorem C21_unincorporate_restores_contents (L : Lawful D supp) {σ : Doms} {r : CleanRel D}
    (h : Reach supp σ r) {items : Items} (hl : items.length = r.doms.length) (hn : r.data.contains items = false) {v : V}
    (hv : supp v) (t : Tape) :
    ∃ σ' r' t' r'', incorporate σ r items v t = .ok (σ', r', t') ∧ unincorporate σ' r' items = .ok r'' ∧
      r''.doms = r.doms ∧ r''.data = r.data ∧ r''.dataR = r.dataR ∧
      (∀ z, r''.clusters.contains z = r.clusters.contains z) ∧
      ∀ z c c', r.clusters.find? z = some c → r''.clusters.find? z = some c' →
        ∃ m, D.Holds supp m c ∧ D.Holds supp m c' ∧ m = contents (tupleSeat σ r.doms) r.data z := by
  obtain ⟨hσ, hi⟩ := h.inv L
  have hn' := FMap.contains_false.mp hn
  obtain ⟨σ1, r1, t1, h1, h2, h3, h4, h5, h6, z, c0, c1, h7, h8, h9, h10⟩ := incorporate_spec L hσ hi hl hn' hv t
  obtain ⟨r2, g1, g2, g3, g4, z', g5, g6⟩ := unincorporate_spec L h2 h4 (items := items) (v := v) (by rw [h6]; simp)
  have hdoms : r2.doms = r.doms := g3.trans h5
  have hdata : r2.data = r.data := by rw [g4, h6, FMap.erase_set, FMap.erase_of_not_mem hn']
  have hidx : r2.dataR = r.dataR := by
    have := g2.idx
    rw [hdoms, hdata] at this
    exact this.ext hi.idx
  have hplace : ∀ k v, r.data.find? k = some v → tupleSeat σ1 r.doms k = tupleSeat σ r.doms k := by
    intro k v hk
    obtain ⟨_, z, hz⟩ := hi.seated k v hk
    rw [hz]
    exact tupleSeat_mono (fun d _ i z => h3.seat d i z) hz
  have e1 := g2.cl.exact
  rw [hdoms, hdata] at e1
  have e0 := hi.cl.exact
  refine ⟨σ1, r1, t1, r2, h1, g1, hdoms, hdata, hidx, fun z => ?_, fun z c c' hc hc' => ⟨_, e0.2 z c hc, ?_, rfl⟩⟩
  · rw [Bool.eq_iff_iff, e1.1 z, e0.1 z]
    constructor
    · rintro ⟨k, v, hk, hp⟩; exact ⟨k, v, hk, by rw [← hplace k v hk]; exact hp⟩
    · rintro ⟨k, v, hk, hp⟩; exact ⟨k, v, hk, by rw [hplace k v hk]; exact hp⟩
  · have := e1.2 z c' hc'
    rwa [contents_congr hplace] at this

/-! ### C22 -/

/-- **C22, for relations whose domains are distinct.**  What is missing: relations that use a domain at two positions, for
which the property is false (`C22_repeated_domain_wrong`), and distributions whose new clusters start from random parameters
(Skellam).  For every list of candidate tables, the reported log probabilities of two candidates differ by exactly the
difference of the relation's `logp_score` after moving the entity to those tables (not moving it, for its current table). -/
theorem C22_gibbs_scores_partial {L : Lawful D supp} (S : L.Scored) (hfresh : ∀ t t', (D.fresh t).1 = (D.fresh t').1)
    (hzero : ∀ c, D.Holds supp 0 c → D.score c = 0) {σ : Doms} {r : CleanRel D} (h : Reach supp σ r) (hnd : r.doms.Nodup)
    {d : String} (hd : d ∈ r.doms) {dom : Domain} (hdom : σ.find? d = some dom) {i cur : Int}
    (hcur : dom.crp.seating i = some cur) (hob : r.hasObservation d i = .ok true) (tables : List Int) (t : Tape) :
    ∃ lps r' t', logpGibbsExact σ r d i tables t = .ok (lps, r', t') ∧ lps.length = tables.length ∧
      ∃ after : Int → ℝ, after cur = r.logpScore ∧
        (∀ table, table ∈ tables → table ≠ cur → ∀ t1, ∃ r2 t2, setClusterAssignmentGibbs σ r d i table t1 = .ok (r2, t2) ∧
          after table = r2.logpScore) ∧
        ∀ (a : Nat) (ta : Int) (la : ℝ) (b : Nat) (tb : Int) (lb : ℝ), tables[a]? = some ta → lps[a]? = some la → tables[b]? = some tb → lps[b]? = some lb →
          la - lb = after ta - after tb := by
  obtain ⟨hσ, hi⟩ := h.inv L
  obtain ⟨base, hbase⟩ := gibbs_score_eq S hfresh hzero hσ hi hnd hd hdom hcur hob
  obtain ⟨lps, r', t', h1, h2⟩ := hbase tables t
  classical
  refine ⟨lps, r', t', h1, h2.length_eq.symm, fun table => if table = cur then r.logpScore else
    match setClusterAssignmentGibbs σ r d i table [] with | .ok x => x.1.logpScore | .error _ => 0, by simp, ?_, ?_⟩
  · intro table hm hne t1
    obtain ⟨lps1, _, _, k1, k2⟩ := hbase [table] []
    cases k2 with
    | cons k3 _ =>
      obtain ⟨r2, t2, k4, k5⟩ := k3.2 hne t1
      obtain ⟨r3, t3, k6, k7⟩ := k3.2 hne []
      refine ⟨r2, t2, k4, ?_⟩
      simp only [if_neg hne, k6]
      linarith
  · have key : ∀ (a : Nat) (ta : Int) (la : ℝ), tables[a]? = some ta → lps[a]? = some la → la = (if ta = cur then r.logpScore else
        match setClusterAssignmentGibbs σ r d i ta [] with | .ok x => x.1.logpScore | .error _ => 0) - base := by
      intro a ta la e1 e2
      have hk := List.forall₂_iff_get.mp h2
      obtain ⟨ha, rfl⟩ := List.getElem?_eq_some_iff.mp e1
      obtain ⟨hb, rfl⟩ := List.getElem?_eq_some_iff.mp e2
      have := hk.2 a ha hb
      simp only [List.get_eq_getElem] at this
      by_cases hc : tables[a] = cur
      · rw [if_pos hc]; exact this.1 hc
      · rw [if_neg hc]
        obtain ⟨r2, t2, k4, k5⟩ := this.2 hc []
        simp only [k4]
        exact k5
    intro a ta la b tb lb e1 e2 e3 e4
    rw [key a ta la e1 e2, key b tb lb e3 e4]
    ring

/-- the two side conditions hold for every distribution of the repository except Skellam -/
theorem C22_side_conditions :
    ((∀ t t', (BetaBernoulli.ops.fresh t).1 = (BetaBernoulli.ops.fresh t').1) ∧
      ∀ c, BetaBernoulli.ops.Holds (fun _ => True) 0 c → BetaBernoulli.ops.score c = 0) ∧
    ((∀ t t', (Normal.ops.fresh t).1 = (Normal.ops.fresh t').1) ∧
      ∀ c, Normal.ops.Holds (fun _ => True) 0 c → Normal.ops.score c = 0) ∧
    (∀ k, (∀ t t', ((DirichletCategorical.ops k).fresh t).1 = ((DirichletCategorical.ops k).fresh t').1) ∧
      ∀ c, (DirichletCategorical.ops k).Holds (fun x => 0 ≤ x ∧ x < k) 0 c → (DirichletCategorical.ops k).score c = 0) ∧
    (∀ ss, (∀ t t', ((StringCat.ops ss).fresh t).1 = ((StringCat.ops ss).fresh t').1) ∧
      ∀ c, (StringCat.ops ss).Holds (· ∈ ss) 0 c → (StringCat.ops ss).score c = 0) ∧
    (∀ n lo hi, (∀ t t', ((Bigram.ops n lo hi).fresh t).1 = ((Bigram.ops n lo hi).fresh t').1) ∧
      ∀ c, (Bigram.ops n lo hi).Holds (Bigram.Accepts n lo hi) 0 c → (Bigram.ops n lo hi).score c = 0) :=
  ⟨⟨fun _ _ => rfl, BetaBernoulli.emptyScore⟩, ⟨fun _ _ => rfl, Normal.emptyScore⟩,
    fun k => ⟨fun _ _ => rfl, DirichletCategorical.emptyScore k⟩, fun ss => ⟨fun _ _ => rfl, StringCat.emptyScore ss⟩,
    fun n lo hi => ⟨fun _ _ => rfl, Bigram.emptyScore n lo hi⟩⟩

/-- a domain with the entities 1 and 2 in cluster 0 -/
def twoItems : Domain := (({ name := "D" } : Domain).incState 1 0).incState 2 0

def twoStore : Doms := (∅ : Doms).set "D" twoItems

theorem twoStore_ok : ∀ d dom, twoStore.find? d = some dom → dom.crp.Reachable ∧
    ∀ i, dom.items.contains i = true ↔ dom.crp.seating i ≠ none := by
  intro d dom h
  rw [twoStore, FMap.find?_set] at h
  split at h
  · cases h
    constructor
    · have h1 := CRP.Reachable.incorporate (.fresh 1 one_pos) (CRP.incorporate_eq (c := { alpha := 1 }) (i := 1) (t := 0) rfl)
      exact CRP.Reachable.incorporate h1 (CRP.incorporate_eq (i := 2) (t := 0) rfl)
    · intro i
      have h0 : (Domain.Reachable { name := "D" }) := .fresh "D"
      have h1 := Domain.Reachable.incorporate h0 (Domain.incorporate_new h0.wf (i := 1) rfl [] 0)
      have h2 := Domain.Reachable.incorporate h1 (Domain.incorporate_new h1.wf (i := 2) rfl [] 0)
      have := C06_items_are_customers h2 i
      exact this.trans (Option.ne_none_iff_exists'.symm)
  · cases h

abbrev B := BetaBernoulli.ops

def ex0 : CleanRel B := { doms := ["D", "D"], dataR := (∅ : RevIndex).set "D" ∅ }
def ex1 : CleanRel B :=
  { doms := ["D", "D"], dataR := (∅ : RevIndex).set "D" ((∅ : FMap Int (FSet Items)).set 1 (FSet.insert ∅ [1, 1])),
    data := (∅ : FMap Items Bool).set [1, 1] true,
    clusters := (∅ : FMap Items BetaBernoulli).set [0, 0] (BetaBernoulli.incorporate {} true) }

theorem ex0_ok : mk' B ["D", "D"] = .ok ex0 := rfl
theorem ex1_ok : incorporate twoStore ex0 [1, 1] true [] = .ok (twoStore, ex1, []) := rfl


def ex2 : CleanRel B :=
  { doms := ["D", "D"], dataR := (∅ : RevIndex).set "D" (((∅ : FMap Int (FSet Items)).set 1 (FSet.insert (FSet.insert ∅ [1, 1]) [1, 2])).set 2
      (FSet.insert ∅ [1, 2])),
    data := ((∅ : FMap Items Bool).set [1, 1] true).set [1, 2] true,
    clusters := (∅ : FMap Items BetaBernoulli).set [0, 0] (BetaBernoulli.incorporate (BetaBernoulli.incorporate {} true) true) }

theorem ex2_ok : incorporate twoStore ex1 [1, 2] true [] = .ok (twoStore, ex2, []) := rfl

/-- a reachable relation over the domains D, D with the observations (1,1) ↦ true and (1,2) ↦ true, both in cluster (0,0) -/
theorem ex2_reach : Reach (fun _ => True) twoStore ex2 :=
  .incorporate (.incorporate (.fresh twoStore_ok (by intro d hd; simp at hd; subst hd; rfl) ex0_ok) trivial ex1_ok) trivial ex2_ok

def h11 : BetaBernoulli.PosH := ⟨(1, 1), one_pos, one_pos⟩

theorem rep_two : (BetaBernoulli.incorporate (BetaBernoulli.incorporate {} true) true) = BetaBernoulli.rep (1, 1) {true, true} := by
  have h0 : ({} : BetaBernoulli) = BetaBernoulli.rep (1, 1) 0 := by simp [BetaBernoulli.rep]
  rw [h0, BetaBernoulli.inc_rep, BetaBernoulli.inc_rep]
  rfl

theorem ex2_data {k : Items} {v : Bool} (h : ex2.data.find? k = some v) : tupleSeat twoStore ex2.doms k = some [0, 0] ∧ Uses ex2.doms "D" 1 k := by
  simp only [ex2, FMap.find?_set] at h
  split at h
  · rename_i hk; subst hk; exact ⟨rfl, by simp [Uses, ex2]⟩
  · split at h
    · rename_i hk; subst hk; exact ⟨rfl, by simp [Uses, ex2]⟩
    · simp at h

theorem ex2_contents : contents (tupleSeat twoStore ex2.doms) ex2.data [0, 0] = {true, true} := rfl

theorem ex2_tracked : TInv BetaBernoulli.lawful (fun _ => h11) twoStore ex2 := by
  refine ⟨(ex2_reach.inv BetaBernoulli.lawful).2, ?_⟩
  intro z c hc
  have hc : ((∅ : FMap Items BetaBernoulli).set [0, 0] (BetaBernoulli.incorporate (BetaBernoulli.incorporate {} true) true)).find? z = some c := hc
  rw [FMap.find?_set] at hc
  split at hc
  · rename_i hz
    subst hz
    cases hc
    show _ = BetaBernoulli.rep (1, 1) (contents (tupleSeat twoStore ex2.doms) ex2.data [0, 0])
    rw [ex2_contents]
    exact rep_two
  · simp at hc

/-- the store after moving entity 1 to `table` -/
def moved (table : Int) : Doms := twoStore.set "D" (match twoItems.setClusterAssignmentGibbs 1 table with | .ok d => d | .error _ => twoItems)

theorem twoStore_wf : StoreWF twoStore := (ex2_reach.inv BetaBernoulli.lawful).1

theorem moved_seat (table : Int) (hne : table ≠ 0) :
    (∀ d' i, seatOf (moved table) d' i = if d' = "D" ∧ i = 1 then some table else seatOf twoStore d' i) ∧
    ∀ d', (moved table).contains d' = twoStore.contains d' := by
  obtain ⟨dom', h1, _, h3, h4, _⟩ := exists_moved twoStore_wf (d := "D") (dom := twoItems) rfl (item := 1) (cur := 0) rfl hne
  have : moved table = twoStore.set "D" dom' := by rw [moved, h1]
  rw [this]
  exact ⟨h3, h4⟩

theorem sc11 (m : Multiset Bool) : sc BetaBernoulli.lawful h11 m = (BetaBernoulli.rep (1, 1) m).logpScore :=
  (sc_eq BetaBernoulli.scored (h := h11) (m := m) (s := BetaBernoulli.rep (1, 1) m) rfl).symm

theorem sc11_zero : sc BetaBernoulli.lawful h11 0 = 0 := by
  rw [sc11]; simp [BetaBernoulli.rep, BetaBernoulli.logpScore]

theorem sc11_one : sc BetaBernoulli.lawful h11 {true} = -Real.log 2 := by
  rw [sc11]
  have e2 : Real.Gamma 2 = 1 := by
    rw [show (2 : ℝ) = (((1 : ℕ) : ℝ) + 1) by norm_num, Real.Gamma_nat_eq_factorial]; norm_num [Nat.factorial]
  have e3 : Real.Gamma 3 = 2 := by
    rw [show (3 : ℝ) = (((2 : ℕ) : ℝ) + 1) by norm_num, Real.Gamma_nat_eq_factorial]; norm_num [Nat.factorial]
  have e : (2 : ℝ) + 1 = 3 := by norm_num
  norm_num [BetaBernoulli.rep, BetaBernoulli.logpScore, lbeta, lgamma, e2, e3]

theorem sc11_two : sc BetaBernoulli.lawful h11 {true, true} = -Real.log 3 := by
  rw [sc11]
  have e2 : Real.Gamma 2 = 1 := by
    rw [show (2 : ℝ) = (((1 : ℕ) : ℝ) + 1) by norm_num, Real.Gamma_nat_eq_factorial]; norm_num [Nat.factorial]
  have e3 : Real.Gamma 3 = 2 := by
    rw [show (3 : ℝ) = (((2 : ℕ) : ℝ) + 1) by norm_num, Real.Gamma_nat_eq_factorial]; norm_num [Nat.factorial]
  have e4 : Real.Gamma 4 = 6 := by
    rw [show (4 : ℝ) = (((3 : ℕ) : ℝ) + 1) by norm_num, Real.Gamma_nat_eq_factorial]; norm_num [Nat.factorial]
  have e6 : Real.log 6 = Real.log 2 + Real.log 3 := by rw [← Real.log_mul (by norm_num) (by norm_num)]; norm_num
  norm_num [BetaBernoulli.rep, BetaBernoulli.logpScore, lbeta, lgamma, e2, e3, e4, e6]

/-- **C22 is false for relations that use a domain at two positions.**  In the reachable relation `ex2` both observations of
entity 1 are in cluster (0,0); moving it to table 1 sends them to the clusters (1,1) and (1,0), but the code scores both as
if they went to the same cluster.  Whatever the iteration order, the reported difference between table 1 and table 0 is 0,
whereas the score really changes by log 3 - 2 log 2. -/
theorem C22_repeated_domain_wrong :
    Reach (fun _ => True) twoStore ex2 ∧ twoItems.crp.seating 1 = some 0 ∧ ∀ t, ∃ a b r' t',
      logpGibbsExact twoStore ex2 "D" 1 [0, 1] t = .ok ([a, b], r', t') ∧ b - a = 0 ∧
      ∃ r2 t2, setClusterAssignmentGibbs twoStore ex2 "D" 1 1 t = .ok (r2, t2) ∧
        r2.logpScore - ex2.logpScore = Real.log 3 - 2 * Real.log 2 ∧ r2.logpScore - ex2.logpScore ≠ b - a := by
  refine ⟨ex2_reach, rfl, fun t => ?_⟩
  obtain ⟨lps, cl, t', m, gs, h1, _, h3, h4, h5, h6⟩ := logpGibbsExact_spec BetaBernoulli.scored (σf := moved) twoStore_wf ex2_tracked
    (d := "D") (by simp [ex2]) (dom := twoItems) rfl (item := 1) (cur := 0) rfl (fun tb h => (moved_seat tb h).1) rfl [0, 1] t
  have hz : ∀ z g, m.find? z = some g → z = [0, 0] := by
    intro z g hg
    have hG := h4 z g hg
    obtain ⟨k, l, rfl⟩ := List.exists_cons_of_ne_nil hG.ne
    obtain ⟨⟨v, hv⟩, _, hs⟩ := (hG.mem k).mp (by simp)
    rw [(ex2_data hv).1] at hs
    cases hs; rfl
  obtain ⟨z, g, _, hg⟩ := h5 [1, 1] true rfl (by simp [Uses, ex2])
  have := hz z g hg
  subst this
  have hm : m = (∅ : FMap Items (List Items)).set [0, 0] g := by
    apply FMap.ext
    intro z
    rw [FMap.find?_set]
    split
    · rename_i hzz; subst hzz; exact hg
    · rename_i hne
      cases hf : m.find? z with
      | none => rfl
      | some g' => exact absurd (hz z g' hf) hne
  have hgs : gs = [g] := by
    rw [hm] at h3
    exact List.perm_singleton.mp h3
  subst hgs
  have hG := h4 _ g hg
  have hoth : others (tupleSeat twoStore ex2.doms) ex2.data (Uses ex2.doms "D" 1) [0, 0] = 0 := by
    by_contra hne
    obtain ⟨k, v, hk, hp⟩ := contents_ne_zero.mp hne
    rw [if_pos (ex2_data hk).2] at hp
    cases hp
  have hmov : movers (tupleSeat twoStore ex2.doms) ex2.data (Uses ex2.doms "D" 1) [0, 0] = {true, true} := by
    have := contents_split (tupleSeat twoStore ex2.doms) ex2.data (Uses ex2.doms "D" 1) [0, 0]
    rw [hoth, ex2_contents, add_zero] at this
    exact this.symm
  obtain ⟨k, l, hkl⟩ := List.exists_cons_of_ne_nil hG.ne
  obtain ⟨⟨v, hv⟩, hu, hs⟩ := (hG.mem k).mp (by rw [hkl]; simp)
  have hk : k = [1, 2] ∨ k = [1, 1] := by
    simp only [ex2, FMap.find?_set] at hv
    split at hv
    · left; assumption
    · split at hv
      · right; assumption
      · simp at hv
  have hcempty : ∀ z, z ≠ [0, 0] → contents (tupleSeat twoStore ex2.doms) ex2.data z = 0 := by
    intro z hz
    by_contra hne
    obtain ⟨k, v, hk, hp⟩ := contents_ne_zero.mp hne
    rw [(ex2_data hk).1] at hp
    cases hp; exact hz rfl
  have s1 := moved_seat 1 (by norm_num)
  have hp1 : tupleSeat (moved 1) ex2.doms [1, 2] = some [1, 0] := rfl
  have hp2 : tupleSeat (moved 1) ex2.doms [1, 1] = some [1, 1] := rfl
  have hfr : ∀ t, BetaBernoulli.lawful.Rep h11 0 (B.fresh t).1 := by
    intro t
    show _ = BetaBernoulli.rep (1, 1) 0
    simp [BetaBernoulli.rep]
    rfl
  cases h6 with
  | @cons _ a _ _ h7 h6 =>
  cases h6 with
  | @cons _ b _ _ h8 h6 =>
  cases h6
  obtain ⟨xs, rfl, h7⟩ := h7
  obtain ⟨ys, rfl, h8⟩ := h8
  cases h7 with
  | @cons _ x _ _ h9 h7 =>
  cases h7
  cases h8 with
  | @cons _ y _ _ h10 h8 =>
  cases h8
  simp only [Val, if_true] at h9
  have hx := h9 [0, 0] hG
  simp only [Val, one_ne_zero, if_false] at h10
  have hy : y = -Real.log 3 := by
    rcases hk with rfl | rfl
    · have := h10 [0, 0] _ _ hG (by rw [hkl]; rfl) hp1 (fun _ => hfr)
      rw [this, hmov, hcempty _ (by decide), add_zero, sc11_two, sc11_zero, sub_zero]
    · have := h10 [0, 0] _ _ hG (by rw [hkl]; rfl) hp2 (fun _ => hfr)
      rw [this, hmov, hcempty _ (by decide), add_zero, sc11_two, sc11_zero, sub_zero]
  have hx : x = -Real.log 3 := by rw [hx, hoth, ex2_contents, sc11_two, sc11_zero, sub_zero]
  obtain ⟨cl2, t2, g1, g2⟩ := setGibbs_tracked BetaBernoulli.lawful twoStore_wf ex2_tracked (d := "D") (by simp [ex2]) (dom := twoItems) rfl
    (item := 1) (table := 1) (cur := 0) rfl (by norm_num) rfl s1.1 s1.2 (fun _ _ _ _ _ _ _ => hfr) t
  have hscore : (({ ex2 with clusters := cl2 } : CleanRel B)).logpScore = -2 * Real.log 2 := by
    have hcl := g2.inv.cl.exact.1
    rw [logpScore_eq BetaBernoulli.scored g2 (fun _ => sc11_zero) (Z := {[1, 0], [1, 1]})]
    · rw [Finset.sum_pair (by decide)]
      have e1 : contents (tupleSeat (moved 1) ex2.doms) ex2.data [1, 0] = {true} := rfl
      have e2 : contents (tupleSeat (moved 1) ex2.doms) ex2.data [1, 1] = {true} := rfl
      show sc BetaBernoulli.lawful h11 (contents (tupleSeat (moved 1) ex2.doms) ex2.data [1, 0]) +
        sc BetaBernoulli.lawful h11 (contents (tupleSeat (moved 1) ex2.doms) ex2.data [1, 1]) = _
      rw [e1, e2, sc11_one]; ring
    · intro z hz
      obtain ⟨k, v, hk, hp⟩ := (hcl z).mp hz
      simp only [ex2, FMap.find?_set] at hk
      split at hk
      · rename_i hkk; subst hkk
        have := hp.symm.trans hp1
        cases this; simp
      · split at hk
        · rename_i hkk; subst hkk
          have := hp.symm.trans hp2
          cases this; simp
        · simp at hk
  have hscore0 : ex2.logpScore = -Real.log 3 := by
    rw [logpScore_eq BetaBernoulli.scored ex2_tracked (fun _ => sc11_zero) (Z := {[0, 0]})]
    · rw [Finset.sum_singleton, ex2_contents, sc11_two]
    · intro z hz
      obtain ⟨k, v, hk, hp⟩ := (ex2_tracked.inv.cl.exact.1 z).mp hz
      rw [(ex2_data hk).1] at hp
      cases hp; simp
  refine ⟨_, _, _, _, h1, by simp [hx, hy], _, t2, g1, by rw [hscore, hscore0]; ring, ?_⟩
  rw [hscore, hscore0]
  simp only [List.sum_cons, List.sum_nil, add_zero, hx, hy]
  intro he
  have h34 : Real.log 3 = Real.log 4 := by
    have : Real.log 4 = 2 * Real.log 2 := by
      rw [show (4 : ℝ) = 2 ^ 2 by norm_num, Real.log_pow]; push_cast; ring
    linarith
  have := Real.log_injOn_pos (by norm_num : (3 : ℝ) ∈ Set.Ioi 0) (by norm_num : (4 : ℝ) ∈ Set.Ioi 0) h34
  norm_num at this

/-! ### C24 -/

/-- **C24 for clean relations, when another observation shares the cluster.**  `update_value` gives exactly the relation
that unincorporating the observation and incorporating it with the new value gives, and neither changes the domains.
What is missing: the observation is alone in its cluster (`C24_clean_update_alone_partial`), for which the property is false
(`C24_clean_alone_differs`). -/
theorem C24_clean_update_partial (L : Lawful D supp) {σ : Doms} {r : CleanRel D} (h : Reach supp σ r) {items : Items}
    (hin : r.data.contains items = true) {v : V} (hv : supp v)
    (hshare : ∃ k, k ≠ items ∧ r.data.contains k = true ∧ tupleSeat σ r.doms k = tupleSeat σ r.doms items) (t : Tape) :
    ∃ r' r1, updateValue σ r items v = .ok r' ∧ unincorporate σ r items = .ok r1 ∧
      incorporate σ r1 items v t = .ok (σ, r', t) := by
  obtain ⟨hσ, hi⟩ := h.inv L
  obtain ⟨v0, hv0⟩ := FMap.contains_iff.mp hin
  obtain ⟨z, c, c1, c2, a1, a2, a3, a4, a5, a6⟩ := updateValue_spec L hσ hi hv0 hv
  obtain ⟨r1, b1, b2, b3, b4, z', b5, b6⟩ := unincorporate_spec L hσ hi hv0
  rw [a1] at b5
  cases b5
  obtain ⟨k, hk1, hk2, hk3⟩ := hshare
  obtain ⟨vk, hk2⟩ := FMap.contains_iff.mp hk2
  have hc1 : D.Holds supp (contents (tupleSeat σ r.doms) (r.data.erase items) z) c1 := by
    have h1 := ((hi.cl z).2 c a2).2
    rw [contents_erase hv0, if_pos a1] at h1
    obtain ⟨c', h2, h3⟩ := L.holds_dec h1
    rw [a3] at h2
    cases h2
    exact h3
  have hne : D.N c1 ≠ 0 := by
    rw [L.holds_N hc1]
    have := contents_ne_zero (place := tupleSeat σ r.doms) (data := r.data.erase items) (z := z) |>.mpr
      ⟨k, vk, by rw [FMap.find?_erase, if_neg hk1]; exact hk2, by rw [hk3, a1]⟩
    simpa using this
  have hcl1 : r1.clusters = r.clusters.set z c1 := by
    simp only [takeOut, bind, Except.bind, FMap.atKey_of_find a2, a3, if_neg hne] at b6
    injection b6 with b6
    exact b6.symm
  have hl : items.length = r1.doms.length := by rw [b3]; exact hi.length hv0
  obtain ⟨σ2, r2, t2, d1, _, _, d4, d5, d6, z2, c3, c4, d7, d8, d9, d10⟩ :=
    incorporate_spec L hσ b2 hl (by rw [b4]; simp) hv t
  have hz1 : tupleSeat σ r1.doms items = some z := by rw [b3]; exact a1
  obtain ⟨rfl, ht⟩ := incorporate_present hσ hz1 d1
  have hf1 : r1.clusters.find? z = some c1 := by rw [hcl1]; simp
  have := ht (FMap.contains_iff.mpr ⟨_, hf1⟩)
  subst this
  refine ⟨_, r1, a5, b1, ?_⟩
  rw [d1]
  congr 3
  rw [hz1] at d7
  cases d7
  rcases d8 with d8 | d8
  · rw [hf1] at d8
    cases d8
    rw [a4] at d9
    cases d9
    have e1 : r2.doms = r.doms := d5.trans b3
    have e2 : r2.data = r.data.set items v := by rw [d6, b4, FMap.set_erase]
    have e3 : r2.clusters = r.clusters.set z c2 := by rw [d10, hcl1, FMap.set_set]
    have e4 : r2.dataR = r.dataR := by
      have := d4.idx
      rw [e1, e2] at this
      exact this.ext a6.idx
    cases r2
    simp_all
  · rw [hf1] at d8
    cases d8.1

/-- **C24 for clean relations, when the observation is alone in its cluster.**  The two ways give the same observations,
index and domains, the same clusters elsewhere, and a cluster that holds just the new value; only the parameters of that one
cluster differ: `update_value` keeps those of the existing cluster, the other way starts from a fresh one. -/
theorem C24_clean_update_alone_partial (L : Lawful D supp) {σ : Doms} {r : CleanRel D} (h : Reach supp σ r) {items : Items}
    {v0 : V} (hin : r.data.find? items = some v0) {v : V} (hv : supp v)
    (halone : ∀ k, r.data.contains k = true → tupleSeat σ r.doms k = tupleSeat σ r.doms items → k = items) (t : Tape) :
    ∃ r' r1 r2 t2 z, updateValue σ r items v = .ok r' ∧ unincorporate σ r items = .ok r1 ∧
      incorporate σ r1 items v t = .ok (σ, r2, t2) ∧ r'.doms = r2.doms ∧ r'.data = r2.data ∧ r'.dataR = r2.dataR ∧
      tupleSeat σ r.doms items = some z ∧ (∀ z', z' ≠ z → r'.clusters.find? z' = r2.clusters.find? z') ∧
      ∃ c cu cu' t0 cf, r.clusters.find? z = some c ∧ D.dec c v0 = .ok cu ∧ D.inc cu v = .ok cu' ∧
        r'.clusters.find? z = some cu' ∧ D.inc (D.fresh t0).1 v = .ok cf ∧ r2.clusters.find? z = some cf ∧
        D.Holds supp {v} cu' ∧ D.Holds supp {v} cf := by
  obtain ⟨hσ, hi⟩ := h.inv L
  obtain ⟨z, c, c1, c2, a1, a2, a3, a4, a5, a6⟩ := updateValue_spec L hσ hi hin hv
  obtain ⟨r1, b1, b2, b3, b4, z', b5, b6⟩ := unincorporate_spec L hσ hi hin
  rw [a1] at b5
  cases b5
  have hemp : contents (tupleSeat σ r.doms) (r.data.erase items) z = 0 := by
    by_contra hne
    obtain ⟨k, w, hk, hp⟩ := contents_ne_zero.mp hne
    rw [FMap.find?_erase] at hk
    split at hk
    · cases hk
    · rename_i hkk; exact hkk (halone k (FMap.contains_iff.mpr ⟨w, hk⟩) (by rw [hp, a1]))
  have hc1 : D.Holds supp 0 c1 := by
    have h1 := ((hi.cl z).2 c a2).2
    rw [contents_erase hin, if_pos a1, hemp] at h1
    obtain ⟨c', h2, h3⟩ := L.holds_dec h1
    rw [a3] at h2
    cases h2
    exact h3
  have hz0 : D.N c1 = 0 := by rw [L.holds_N hc1]; simp
  have hcl1 : r1.clusters = r.clusters.erase z := by
    simp only [takeOut, bind, Except.bind, FMap.atKey_of_find a2, a3, if_pos hz0] at b6
    injection b6 with b6
    exact b6.symm
  have hl : items.length = r1.doms.length := by rw [b3]; exact hi.length hin
  obtain ⟨σ2, r2, t2, d1, _, _, d4, d5, d6, z2, c3, c4, d7, d8, d9, d10⟩ :=
    incorporate_spec L hσ b2 hl (by rw [b4]; simp) hv t
  have hz1 : tupleSeat σ r1.doms items = some z := by rw [b3]; exact a1
  obtain ⟨rfl, _⟩ := incorporate_present hσ hz1 d1
  rw [hz1] at d7
  cases d7
  have e1 : r2.doms = r.doms := d5.trans b3
  have e2 : r2.data = r.data.set items v := by rw [d6, b4, FMap.set_erase]
  have e4 : r2.dataR = r.dataR := by
    have := d4.idx
    rw [e1, e2] at this
    exact this.ext a6.idx
  have hf1 : r1.clusters.find? z = none := by rw [hcl1]; simp
  rcases d8 with d8 | ⟨_, t0, rfl⟩
  · rw [hf1] at d8; cases d8
  · obtain ⟨c5, g1, g2⟩ := L.holds_inc hc1 hv
    rw [a4] at g1
    cases g1
    obtain ⟨c6, g3, g4⟩ := L.holds_inc (holds_fresh (supp := supp) (D := D) t0) hv
    rw [d9] at g3
    cases g3
    refine ⟨_, r1, r2, t2, z, a5, b1, d1, e1.symm, e2.symm, e4.symm, a1, ?_, c, c1, c2, t0, c4, a2, a3, a4, by simp, d9,
      by rw [d10]; simp, g2, g4⟩
    intro z' hne
    dsimp only
    rw [d10, hcl1, FMap.find?_set_ne _ hne, FMap.find?_set_ne _ hne, FMap.find?_erase_ne _ hne]

/-- **C24 is false when the observation is alone in a cluster whose hyperparameters have been re-estimated:** after
incorporating (1,1) ↦ true and one hyperparameter transition, `update_value` keeps the re-estimated hyperparameters whereas
removing and inserting goes back to the initial ones, so that the clusters are different. -/
theorem C24_clean_alone_differs :
    ∃ (r r' r1 r2 : CleanRel B) (t2 : Tape), Reach (fun _ => True) twoStore r ∧ updateValue twoStore r [1, 1] false = .ok r' ∧
      unincorporate twoStore r [1, 1] = .ok r1 ∧ incorporate twoStore r1 [1, 1] false [] = .ok (twoStore, r2, t2) ∧
      r'.clusters ≠ r2.clusters := by
  have hr1 : Reach (fun _ => True) twoStore ex1 :=
    .incorporate (.fresh twoStore_ok (by intro d hd; simp at hd; subst hd; rfl) ex0_ok) trivial ex1_ok
  have hr := Reach.hparams 0 [] hr1
  obtain ⟨c0, hc0⟩ : ∃ c0, c0 = (BetaBernoulli.transitionHyperparameters (BetaBernoulli.incorporate {} true) []).1 := ⟨_, rfl⟩
  have hcl : (ex1.transitionClusterHparams 0 []).1 = { ex1 with clusters := (∅ : FMap Items BetaBernoulli).set [0, 0] c0 } := by
    subst hc0; rfl
  rw [hcl] at hr
  obtain ⟨r', r1, r2, t2, z, h1, h2, h3, h4, h5, h6, h7, h8, c, cu, cu', t0, cf, g1, g2, g3, g4, g5, g6, _⟩ :=
    C24_clean_update_alone_partial BetaBernoulli.lawful hr (items := [1, 1]) (v0 := true) rfl (v := false) trivial (by
      intro k hk _
      obtain ⟨v, hv⟩ := FMap.contains_iff.mp hk
      simp only [ex1, FMap.find?_set] at hv
      split at hv
      · assumption
      · simp at hv) []
  refine ⟨_, r', r1, r2, t2, hr, h1, h2, h3, fun he => ?_⟩
  have hz : z = [0, 0] := by
    have : tupleSeat twoStore ex1.doms [1, 1] = some [0, 0] := rfl
    have h7 : tupleSeat twoStore ex1.doms [1, 1] = some z := h7
    rw [this] at h7; cases h7; rfl
  subst hz
  rw [he, g6] at g4
  cases g4
  have g1' : ((∅ : FMap Items BetaBernoulli).set [0, 0] c0).find? [0, 0] = some c := g1
  rw [FMap.find?_set_self] at g1'
  cases g1'
  injection g2 with g2
  injection g3 with g3
  injection g5 with g5
  have ha : c0.alpha = 1 := by
    have h1 : cu'.alpha = c0.alpha := by rw [← g3, ← g2]; rfl
    have h2 : cu'.alpha = 1 := by rw [← g5]; rfl
    rw [← h1, h2]
  rw [hc0] at ha
  have hg : ∃ x l, BetaBernoulli.grid = x :: l ∧ x = 1e-4 := by
    refine ⟨_, _, rfl, ?_⟩
    simp only [Nat.cast_zero, mul_zero, add_zero]
    exact Real.exp_log (by norm_num)
  obtain ⟨x, l, hg, hx⟩ := hg
  simp only [BetaBernoulli.transitionHyperparameters, pickGrid, draw, hg] at ha
  simp [hx] at ha
  norm_num at ha

/-! ### The hypotheses are met by non-trivial relations -/

/-- C19, C20: `ex2` is reachable; its one cluster holds the values true, true, and two observations use entity 1 -/
example : Reach (fun _ => True) twoStore ex2 ∧ ClustersExact (fun _ => True) twoStore ex2 ∧ IndexExact ex2 ∧
    contents (tupleSeat twoStore ex2.doms) ex2.data [0, 0] = {true, true} ∧ ex2.clusters.contains [0, 0] = true :=
  ⟨ex2_reach, C19_clusters_exact BetaBernoulli.lawful ex2_reach, C20_index_exact BetaBernoulli.lawful ex2_reach, rfl, rfl⟩

/-- C21: a new observation on the reachable relation `ex2`, with an entity that is not yet in the domain -/
example : ∃ σ' r' t', incorporate twoStore ex2 [2, 7] false [1, 5] = .ok (σ', r', t') ∧ unincorporate σ' r' [2, 7] = .ok ex2 :=
  C21_unincorporate_undoes_incorporate BetaBernoulli.lawful C10_beta_bernoulli ex2_reach rfl rfl trivial _

/-- C24: the observation (1,1) of `ex2` shares its cluster with (1,2) -/
example : ∃ r' r1, updateValue twoStore ex2 [1, 1] false = .ok r' ∧ unincorporate twoStore ex2 [1, 1] = .ok r1 ∧
    incorporate twoStore r1 [1, 1] false [] = .ok (twoStore, r', []) :=
  C24_clean_update_partial BetaBernoulli.lawful ex2_reach (items := [1, 1]) rfl trivial ⟨[1, 2], by decide, rfl, rfl⟩ []

/-- C22: a relation over two different domains with an observed entity that can move -/
example : ∃ (σ : Doms) (r : CleanRel B) (dom : Domain), Reach (fun _ => True) σ r ∧ r.doms = ["D", "E"] ∧ r.doms.Nodup ∧
    σ.find? "D" = some dom ∧ dom.crp.seating 1 = some 0 ∧ r.hasObservation "D" 1 = .ok true := by
  have hok : ∀ d dom, (twoStore.set "E" { name := "E" }).find? d = some dom → dom.crp.Reachable ∧
      ∀ i, dom.items.contains i = true ↔ dom.crp.seating i ≠ none := by
    intro d dom h
    rw [FMap.find?_set] at h
    split at h
    · cases h
      exact ⟨.fresh 1 one_pos, fun i => by simp [CRP.seating, FMap.contains]⟩
    · exact twoStore_ok d dom h
  have h0 : Reach (fun _ => True) (twoStore.set "E" { name := "E" })
      ({ doms := ["D", "E"], dataR := ((∅ : RevIndex).set "D" ∅).set "E" ∅ } : CleanRel B) :=
    .fresh (doms := ["D", "E"]) hok (by intro d hd; simp at hd; rcases hd with rfl | rfl <;> rfl) rfl
  obtain ⟨σ', r', t', h1, h2, h3, h4, h5, h6⟩ := C19_incorporate BetaBernoulli.lawful h0 (items := [1, 8]) rfl rfl (v := true) trivial []
  cases h1
  exact ⟨_, _, twoItems, h2, rfl, by decide, rfl, rfl, rfl⟩

end CleanRel
end
end Verif
