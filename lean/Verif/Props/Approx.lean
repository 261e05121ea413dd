import Verif.Lemmas.Approx
import Verif.Props.Predictive
import Verif.Props.NoisyRelation
/-!
C77: the approximate Gibbs scores of a relation.
-/
namespace Verif
noncomputable section
open Spec
namespace CleanRel
variable {V : Type} {D : DistOps V} {supp : V → Prop}

/-- the store in which the entity is at the table -/
theorem store_at {σ : Doms} (hσ : StoreWF σ) {d : String} {dom : Domain} (hdom : σ.find? d = some dom) {i cur : Int}
    (hcur : dom.crp.seating i = some cur) (table : Int) : ∃ σ' : Doms, table ≠ cur → ∃ dom', dom.setClusterAssignmentGibbs i table = .ok dom' ∧ σ' = σ.set d dom' ∧
      ∀ d' i', seatOf σ' d' i' = if d' = d ∧ i' = i then some table else seatOf σ d' i' := by
  by_cases ht : table = cur
  · exact ⟨σ, fun h => absurd ht h⟩
  · obtain ⟨dom', h1, _, h2, _⟩ := exists_moved hσ hdom hcur ht
    exact ⟨_, fun _ => ⟨dom', h1, rfl, h2⟩⟩

theorem exists_terms (L : Lawful D supp) (X : D.Exchangeable supp) (R : D.RoundTrip supp) (C : D.ScoreRatio supp)
    (hfresh : ∀ t t', (D.fresh t).1 = (D.fresh t').1) {σ σ' : Doms} {r : CleanRel D} (h : Inv supp σ r) {d : String} {i cur table : Int}
    (hs : table ≠ cur → ∀ d' i', seatOf σ' d' i' = if d' = d ∧ i' = i then some table else seatOf σ d' i') :
    ∃ f : Items → ℝ, ∀ k v, r.data.find? k = some v → Term σ σ' r cur table k (f k) := by
  have : ∀ k, ∃ y, ∀ v, r.data.find? k = some v → Term σ σ' r cur table k y := by
    intro k
    cases hk : r.data.find? k with
    | none => exact ⟨0, nofun⟩
    | some v =>
      by_cases ht : table = cur
      · obtain ⟨z, c, c', h1, h2, h3, h4, h5, _⟩ := stored L X R.logpPure C h hk
        refine ⟨D.score c - D.score c', fun v' hv' => ?_⟩
        rw [Term, if_pos ht]
        exact ⟨v, z, c, c', hk, h1, h2, h3, h4, h5, rfl⟩
      · obtain ⟨hsv, z, hz⟩ := h.seated k v hk
        obtain ⟨z', hz'⟩ := tupleSeat_moved (hs ht) hz
        have hh : ∀ t, D.Holds supp (contents (tupleSeat σ r.doms) r.data z') ((r.clusters.find? z').getD (D.fresh t).1) := by
          intro t
          cases hc : r.clusters.find? z' with
          | none => rw [(h.cl z').1 hc]; exact holds_fresh t
          | some c => exact ((h.cl z').2 c hc).2
        obtain ⟨_, y, g⟩ := R _ _ v (hh []) hsv
        refine ⟨y, fun v' hv' => ?_⟩
        rw [Term, if_neg ht]
        refine ⟨v, z', hk, hz', fun t => ?_⟩
        cases hc : r.clusters.find? z' with
        | none =>
          rw [hc, Option.getD_none, hfresh [] t] at g
          exact ⟨(D.fresh t).2, by simp only [clusterOrPriorLogp, hc, priorLogp, bind, Except.bind, g]⟩
        | some c =>
          rw [hc, Option.getD_some] at g
          exact ⟨t, by simp only [clusterOrPriorLogp, hc, bind, Except.bind, g, set_clusters_same hc]⟩
  choose f hf using this
  exact ⟨f, hf⟩

theorem approx_eq {σ σ' : Doms} (hσ : StoreWF σ) {r : CleanRel D} (h : Inv supp σ r) {d : String} (hd : d ∈ r.doms) {dom : Domain} (hdom : σ.find? d = some dom)
    {i cur table : Int} (hcur : dom.crp.seating i = some cur) (hob : r.hasObservation d i = .ok true)
    (hs : table ≠ cur → ∀ d' i', seatOf σ' d' i' = if d' = d ∧ i' = i then some table else seatOf σ d' i') {f : Items → ℝ}
    (hf : ∀ k v, r.data.find? k = some v → Term σ σ' r cur table k (f k)) :
    ∃ l : List Items, l.Nodup ∧ (∀ k, k ∈ l ↔ (∃ v, r.data.find? k = some v) ∧ Uses r.doms d i k) ∧
      ∀ t, ∃ t', logpGibbsApprox σ r d i table t = .ok ((l.map f).sum, r, t') := by
  obtain ⟨s, h1, h2⟩ := h.tuples hd hob
  refine ⟨s.keys, s.nodupKeys, h2, fun t => ?_⟩
  have hp : ((shuffle s.keys t).1).Perm s.keys := shuffle_perm ..
  by_cases ht : table = cur
  · refine ⟨(shuffle s.keys t).2, ?_⟩
    have := approxCurrent_eq hσ (r := r) (f := f) (l := (shuffle s.keys t).1) (fun k hk => by
      rw [hp.mem_iff, h2] at hk
      obtain ⟨⟨v, hv⟩, _⟩ := hk
      have := hf k v hv
      rwa [Term, if_pos ht] at this)
    simp only [logpGibbsApprox, bind, Except.bind, Doms.get_eq hdom, Domain.getClusterAssignment_eq (hσ d dom hdom) hcur, h1, if_pos ht.symm, this, sum_perm hp]
  · obtain ⟨t', this⟩ := approxVariant_eq hσ (r := r) (f := f) (hs ht) (l := (shuffle s.keys t).1) (shuffle s.keys t).2 (fun k hk => by
      rw [hp.mem_iff, h2] at hk
      obtain ⟨⟨v, hv⟩, hu⟩ := hk
      have := hf k v hv
      rw [Term, if_neg ht] at this
      exact ⟨hu, this⟩)
    refine ⟨t', ?_⟩
    simp only [logpGibbsApprox, bind, Except.bind, Doms.get_eq hdom, Domain.getClusterAssignment_eq (hσ d dom hdom) hcur, h1, if_neg (Ne.symm ht), this, sum_perm hp]

/-- what an approximate score is made of: one share for each observed tuple of the entity -/
structure Shares (σ : Doms) (r : CleanRel D) (d : String) (i cur table : Int) (dom : Domain) (l : List Items) (f : Items → ℝ) : Prop where
  once : l.Nodup
  mem : ∀ k, k ∈ l ↔ (∃ v, r.data.find? k = some v) ∧ Uses r.doms d i k
  /-- at the current table: what the relation's score loses without the observation -/
  current : table = cur → ∀ k ∈ l, ∃ r', unincorporate σ r k = .ok r' ∧ r.logpScore = r'.logpScore + f k
  /-- at another table: the log probability of the value at the cluster that the tuple has if the entity is at that table -/
  variant : table ≠ cur → ∃ dom', dom.setClusterAssignmentGibbs i table = .ok dom' ∧ ∀ k ∈ l, ∃ v z, r.data.find? k = some v ∧
    tupleSeat (σ.set d dom') r.doms k = some z ∧ ∀ t, ∃ t', clusterOrPriorLogp r z v t = .ok (f k, r, t')

theorem approx_shares (L : Lawful D supp) (X : D.Exchangeable supp) (R : D.RoundTrip supp) (C : D.ScoreRatio supp)
    (hfresh : ∀ t t', (D.fresh t).1 = (D.fresh t').1) (hzero : ∀ c, D.Holds supp 0 c → D.score c = 0) {σ : Doms} (hσ : StoreWF σ) {r : CleanRel D} (hi : Inv supp σ r)
    {d : String} (hd : d ∈ r.doms) {dom : Domain} (hdom : σ.find? d = some dom) {i cur : Int} (hcur : dom.crp.seating i = some cur)
    (hob : r.hasObservation d i = .ok true) (table : Int) :
    ∃ l f, Shares σ r d i cur table dom l f ∧ ∀ t, ∃ t', logpGibbsApprox σ r d i table t = .ok ((l.map f).sum, r, t') := by
  obtain ⟨σ', h1⟩ := store_at hσ hdom hcur table
  have hs : table ≠ cur → ∀ d' i', seatOf σ' d' i' = if d' = d ∧ i' = i then some table else seatOf σ d' i' := fun ht => (h1 ht).choose_spec.2.2
  obtain ⟨f, hf⟩ := exists_terms L X R C hfresh hi hs
  obtain ⟨l, h2, h3, h4⟩ := approx_eq hσ hi hd hdom hcur hob hs hf
  refine ⟨l, f, ⟨h2, h3, fun ht k hk => ?_, fun ht => ?_⟩, h4⟩
  · obtain ⟨⟨v, hv⟩, _⟩ := (h3 k).mp hk
    have := hf k v hv
    rw [Term, if_pos ht] at this
    exact unincorporate_score L hzero hσ hi this
  · obtain ⟨dom', g1, g2, _⟩ := h1 ht
    refine ⟨dom', g1, fun k hk => ?_⟩
    obtain ⟨⟨v, hv⟩, _⟩ := (h3 k).mp hk
    have := hf k v hv
    rw [Term, if_neg ht, g2] at this
    exact this

/-- **C77**: `logp_gibbs_approx` of an observed entity and any table returns, leaves the relation exactly as it was, and is a sum with one
term for each observed tuple of the entity, whatever the order in which they are visited.  For the entity's current table the term is what
the relation's `logp_score` loses when the observation is taken out; for another table it is the log probability of the value at the
cluster that the tuple has when the entity is at that table.  The side conditions hold for all distributions but Skellam
(C10, C11, C13, `C22_side_conditions`). -/
theorem C77_approx_score (L : Lawful D supp) (X : D.Exchangeable supp) (R : D.RoundTrip supp) (C : D.ScoreRatio supp)
    (hfresh : ∀ t t', (D.fresh t).1 = (D.fresh t').1) (hzero : ∀ c, D.Holds supp 0 c → D.score c = 0) {σ : Doms} {r : CleanRel D} (h : Reach supp σ r)
    {d : String} (hd : d ∈ r.doms) {dom : Domain} (hdom : σ.find? d = some dom) {i cur : Int} (hcur : dom.crp.seating i = some cur)
    (hob : r.hasObservation d i = .ok true) (table : Int) :
    ∃ l f, Shares σ r d i cur table dom l f ∧ ∀ t, ∃ t', logpGibbsApprox σ r d i table t = .ok ((l.map f).sum, r, t') :=
  approx_shares L X R C hfresh hzero (h.inv L).1 (h.inv L).2 hd hdom hcur hob table

/-- **C77, the approximation is exact when it can be**: if different observed tuples of the entity lie in different clusters (for example when
it has only one, as in every relation with one domain), the approximate score of every table is the exact one that `logp_gibbs_exact` reports. -/
theorem C77_approx_exact (L : Lawful D supp) (X : D.Exchangeable supp) (R : D.RoundTrip supp) (C : D.ScoreRatio supp)
    (hfresh : ∀ t t', (D.fresh t).1 = (D.fresh t').1) {σ : Doms} {r : CleanRel D} (h : Reach supp σ r)
    {d : String} (hd : d ∈ r.doms) {dom : Domain} (hdom : σ.find? d = some dom) {i cur : Int} (hcur : dom.crp.seating i = some cur)
    (hob : r.hasObservation d i = .ok true)
    (hdiff : ∀ k k', r.data.contains k = true → r.data.contains k' = true → Uses r.doms d i k → Uses r.doms d i k' →
      tupleSeat σ r.doms k = tupleSeat σ r.doms k' → k = k') (tables : List Int) (t : Tape) :
    ∃ lps t', logpGibbsExact σ r d i tables t = .ok (lps, r, t') ∧
      List.Forall₂ (fun table lp => ∀ t, ∃ t', logpGibbsApprox σ r d i table t = .ok (lp, r, t')) tables lps := by
  obtain ⟨hσ, hi⟩ := h.inv L
  choose σf h1 using fun table => store_at hσ hdom hcur table
  have hs : ∀ table, table ≠ cur → ∀ d' i', seatOf (σf table) d' i' = if d' = d ∧ i' = i then some table else seatOf σ d' i' :=
    fun table ht => (h1 table ht).choose_spec.2.2
  choose f hf using fun table => exists_terms L X R C hfresh hi (hs table)
  obtain ⟨m, t1, g1, g2, g3⟩ := groups_spec hσ hi hd hob t
  have hperm : ((shuffle m.vals t1).1).Perm m.vals := shuffle_perm ..
  obtain ⟨hn, hmem⟩ := flatten_groups hperm g2 g3
  have hone : ∀ g ∈ (shuffle m.vals t1).1, ∃ k, g = [k] ∧ Uses r.doms d i k ∧ ∃ v, r.data.find? k = some v := by
    intro g hg
    rw [hperm.mem_iff] at hg
    obtain ⟨⟨z, g'⟩, he, rfl⟩ := List.mem_map.mp hg
    have hG := g2 z g' (FMap.mem_entries.mp he)
    obtain ⟨k, l, e⟩ := List.exists_cons_of_ne_nil hG.ne
    dsimp only
    subst e
    obtain ⟨hv, hu, hz⟩ := (hG.mem k).mp (by simp)
    cases l with
    | nil => exact ⟨k, rfl, hu, hv⟩
    | cons k' l =>
      obtain ⟨hv', hu', hz'⟩ := (hG.mem k').mp (by simp)
      have := hdiff k k' (FMap.contains_iff.mpr hv) (FMap.contains_iff.mpr hv') hu hu' (hz.trans hz'.symm)
      have hnd := hG.nodup
      rw [this] at hnd
      simp at hnd
  have htabs : ∀ (tables : List Int) (t : Tape), ∃ lps t', exactTables σ d i cur (shuffle m.vals t1).1 tables r t = .ok (lps, r, t') ∧
      List.Forall₂ (fun table lp => ∀ t, ∃ t', logpGibbsApprox σ r d i table t = .ok (lp, r, t')) tables lps := by
    intro tables
    induction tables with
    | nil => intro t; exact ⟨[], t, rfl, .nil⟩
    | cons table tables ih =>
      intro t
      obtain ⟨t2, k1⟩ := exactTable_ones R C hσ hi (hs table) (f := f table) (gs := (shuffle m.vals t1).1) t (fun g hg => by
        obtain ⟨k, e, hu, v, hv⟩ := hone g hg
        exact ⟨k, e, hu, hf table k v hv⟩)
      obtain ⟨lps, t3, k2, k3⟩ := ih t2
      obtain ⟨l, k4, k5, k6⟩ := approx_eq hσ hi hd hdom hcur hob (hs table) (hf table)
      refine ⟨(((shuffle m.vals t1).1.flatten.map (f table)).sum) :: lps, t3, by simp only [exactTables, bind, Except.bind, k1, k2], .cons (fun t => ?_) k3⟩
      obtain ⟨t4, k7⟩ := k6 t
      refine ⟨t4, ?_⟩
      rw [k7, sum_perm ((List.perm_ext_iff_of_nodup k4 hn).mpr fun k => by rw [k5, hmem])]
  obtain ⟨lps, t2, h2, h3⟩ := htabs tables (shuffle m.vals t1).2
  refine ⟨lps, t2, ?_, h3⟩
  simp only [logpGibbsExact, bind, Except.bind, g1, Doms.get_eq hdom, Domain.getClusterAssignment_eq (hσ d dom hdom) hcur, h2]

/-- **C77, it is an approximation**: in the reachable relation `ex2` the entity 1 has two observations in the same cluster, and the approximate
score of its table is not the exact one. -/
theorem C77_approx_differs : Reach (fun _ => True) twoStore ex2 ∧ twoItems.crp.seating 1 = some 0 ∧ ∀ t, ∃ a b t1 t2 r',
    logpGibbsApprox twoStore ex2 "D" 1 0 t = .ok (a, ex2, t1) ∧ logpGibbsExact twoStore ex2 "D" 1 [0] t = .ok ([b], r', t2) ∧ a ≠ b := by
  refine ⟨ex2_reach, rfl, fun t => ?_⟩
  have hi := (ex2_reach.inv BetaBernoulli.lawful).2
  have hterm : ∀ k v, ex2.data.find? k = some v → Term twoStore twoStore ex2 0 0 k (Real.log 2 - Real.log 3) := by
    intro k v hk
    have hv : v = true := by
      simp only [ex2, FMap.find?_set] at hk
      split at hk
      · exact (Option.some.inj hk).symm
      · split at hk
        · exact (Option.some.inj hk).symm
        · simp at hk
    subst hv
    obtain ⟨z, c, c', h1, h2, h3, h4, h5, _⟩ := stored BetaBernoulli.lawful C11_beta_bernoulli C10_beta_bernoulli.logpPure
      BetaBernoulli.coherent.scoreRatio hi hk
    rw [(ex2_data hk).1] at h1; cases h1
    have hc : c = BetaBernoulli.rep (1, 1) {true, true} := by
      rw [← rep_two]
      exact (Option.some.inj h2).symm
    have hc' : c' = BetaBernoulli.rep (1, 1) {true} := by
      subst hc
      have h6 := BetaBernoulli.lawful.dec (h := h11) (m := {true}) (s := BetaBernoulli.rep (1, 1) {true, true}) (x := true) rfl
      obtain ⟨s, k1, k2⟩ := h6
      rw [k1] at h3; cases h3
      exact k2
    have e1 := sc11 {true, true}
    have e2 := sc11 {true}
    rw [sc11_two] at e1
    rw [sc11_one] at e2
    rw [Term, if_pos rfl]
    refine ⟨true, [0, 0], c, c', hk, (ex2_data hk).1, h2, h3, h4, ?_, ?_⟩
    · rw [h5]
      congr 2
      subst hc hc'
      show (BetaBernoulli.rep (1, 1) {true, true}).logpScore - (BetaBernoulli.rep (1, 1) {true}).logpScore = _
      rw [← e1, ← e2]; ring
    · subst hc hc'
      show _ = (BetaBernoulli.rep (1, 1) {true, true}).logpScore - (BetaBernoulli.rep (1, 1) {true}).logpScore
      rw [← e1, ← e2]; ring
  obtain ⟨l, h1, h2, h3⟩ := approx_eq twoStore_wf hi (d := "D") (by simp [ex2]) (dom := twoItems) rfl (i := 1) (cur := 0) (table := 0) rfl rfl
    (fun h => absurd rfl h) hterm
  obtain ⟨t1, h4⟩ := h3 t
  have hl : l.length = 2 := by
    have hp : l.Perm [[1, 1], [1, 2]] := by
      rw [List.perm_ext_iff_of_nodup h1 (by decide)]
      intro k
      rw [h2]
      constructor
      · rintro ⟨⟨v, hv⟩, _⟩
        simp only [ex2, FMap.find?_set] at hv
        split at hv
        · rename_i e; rw [e]; simp
        · split at hv
          · rename_i e; rw [e]; simp
          · simp at hv
      · intro hk
        simp at hk
        rcases hk with rfl | rfl
        · exact ⟨⟨true, rfl⟩, by simp [Uses, ex2]⟩
        · exact ⟨⟨true, rfl⟩, by simp [Uses, ex2]⟩
    rw [hp.length_eq]; rfl
  have hsum : (l.map (fun _ => Real.log 2 - Real.log 3)).sum = 2 * (Real.log 2 - Real.log 3) := by
    rw [List.map_const', List.sum_replicate, hl]; simp
  rw [hsum] at h4
  obtain ⟨lps, cl, t2, m, gs, g1, _, g3, g4, g5, g6⟩ := logpGibbsExact_spec BetaBernoulli.scored (σf := moved) twoStore_wf ex2_tracked
    (d := "D") (by simp [ex2]) (dom := twoItems) rfl (item := 1) (cur := 0) rfl (fun tb h => (moved_seat tb h).1) rfl [0] t
  have hz : ∀ z g, m.find? z = some g → z = [0, 0] := by
    intro z g hg
    have hG := g4 z g hg
    obtain ⟨k, l, rfl⟩ := List.exists_cons_of_ne_nil hG.ne
    obtain ⟨⟨v, hv⟩, _, hs⟩ := (hG.mem k).mp (by simp)
    rw [(ex2_data hv).1] at hs
    cases hs; rfl
  obtain ⟨z, g, _, hg⟩ := g5 [1, 1] true rfl (by simp [Uses, ex2])
  have := hz z g hg
  subst this
  have hm : m = (∅ : FMap Items (List Items)).set [0, 0] g := by
    apply FMap.ext
    intro z
    rw [FMap.find?_set]
    split
    · rename_i hzz; subst hzz; exact hg
    · rename_i hne
      cases hf : m.find? z with
      | none => rfl
      | some g' => exact absurd (hz z g' hf) hne
  have hgs : gs = [g] := by
    rw [hm] at g3
    exact List.perm_singleton.mp g3
  subst hgs
  have hoth : others (tupleSeat twoStore ex2.doms) ex2.data (Uses ex2.doms "D" 1) [0, 0] = 0 := by
    by_contra hne
    obtain ⟨k, v, hk, hp⟩ := contents_ne_zero.mp hne
    rw [if_pos (ex2_data hk).2] at hp
    cases hp
  cases g6 with
  | @cons _ b _ _ k1 k2 =>
    cases k2
    obtain ⟨xs, rfl, k3⟩ := k1
    cases k3 with
    | @cons _ y _ _ k4 k5 =>
      cases k5
      unfold Val at k4
      rw [if_pos rfl] at k4
      have := k4 [0, 0] (g4 _ g hg)
      rw [hoth, ex2_contents, sc11_two, sc11_zero] at this
      refine ⟨_, _, t1, t2, _, h4, g1, ?_⟩
      rw [List.sum_singleton, this]
      intro e
      have h23 : 2 * Real.log 2 = Real.log 3 := by linarith
      have h4' : Real.log 4 = Real.log 3 := by
        rw [← h23, show (4 : ℝ) = 2 ^ 2 by norm_num, Real.log_pow]; norm_num
      have := Real.log_injOn_pos (by norm_num) (by norm_num) h4'
      norm_num at this

/-- the entity 2 has one observation in `ex2`, so its scores are exact -/
example : ∃ lps t', logpGibbsExact twoStore ex2 "D" 2 [0, 1, 5] [] = .ok (lps, ex2, t') ∧
    List.Forall₂ (fun table lp => ∀ t, ∃ t', logpGibbsApprox twoStore ex2 "D" 2 table t = .ok (lp, ex2, t')) [0, 1, 5] lps :=
  C77_approx_exact BetaBernoulli.lawful C11_beta_bernoulli C10_beta_bernoulli BetaBernoulli.coherent.scoreRatio (fun _ _ => rfl) ex2_reach
    (d := "D") (by simp [ex2]) (dom := twoItems) rfl (i := 2) (cur := 0) rfl rfl (by
      have : ∀ k, ex2.data.contains k = true → Uses ex2.doms "D" 2 k → k = [1, 2] := by
        intro k hk hu
        obtain ⟨v, hv⟩ := FMap.contains_iff.mp hk
        simp only [ex2, FMap.find?_set] at hv
        split at hv
        · assumption
        · split at hv
          · rename_i e; rw [e] at hu; simp [Uses, ex2] at hu
          · simp at hv
      intro k k' h1 h2 h3 h4 _
      rw [this k h1 h3, this k' h2 h4]) _ _

/-- the entity 1 has two observations in `ex2` -/
example : ∃ l f, Shares twoStore ex2 "D" 1 0 7 twoItems l f ∧ ∀ t, ∃ t', logpGibbsApprox twoStore ex2 "D" 1 7 t = .ok ((l.map f).sum, ex2, t') :=
  C77_approx_score BetaBernoulli.lawful C11_beta_bernoulli C10_beta_bernoulli BetaBernoulli.coherent.scoreRatio (fun _ _ => rfl) BetaBernoulli.emptyScore ex2_reach
    (d := "D") (by simp [ex2]) (dom := twoItems) rfl (i := 1) (cur := 0) rfl rfl 7

end CleanRel

namespace NoisyRel
variable {V : Type} {E : DistOps (V × V)} {supp : V × V → Prop}

/-- **C77, noisy relations**: the approximate score of a noisy relation is the one of its emissions, and the relation stays as it was. -/
theorem C77_noisy_approx (L : Lawful E supp) (X : E.Exchangeable supp) (R : E.RoundTrip supp) (C : E.ScoreRatio supp)
    (hfresh : ∀ t t', (E.fresh t).1 = (E.fresh t').1) (hzero : ∀ c, E.Holds supp 0 c → E.score c = 0) {σ : Doms} {b : BaseView V} {r : NoisyRel E} (h : Reach supp σ b r)
    {d : String} (hd : d ∈ r.doms) {dom : Domain} (hdom : σ.find? d = some dom) {i cur : Int} (hcur : dom.crp.seating i = some cur)
    (hob : r.hasObservation d i = .ok true) (table : Int) :
    ∃ l f, CleanRel.Shares σ r.emission d i cur table dom l f ∧ (∀ k, k ∈ l ↔ (∃ v, r.data.find? k = some v) ∧ Uses r.doms d i k) ∧
      ∀ t, ∃ t', logpGibbsApprox σ r d i table t = .ok ((l.map f).sum, r, t') := by
  obtain ⟨hσ, hi⟩ := h.inv L
  have hde : d ∈ r.emission.doms := by rw [hi.link.doms]; exact hd
  obtain ⟨l, f, h1, h2⟩ := CleanRel.approx_shares L X R C hfresh hzero hσ hi.em hde hdom hcur hob table
  refine ⟨l, f, h1, fun k => ?_, fun t => ?_⟩
  · rw [h1.mem, hi.link.doms, ← FMap.contains_iff, ← FMap.contains_iff, hi.link.contains]
  · obtain ⟨t', h3⟩ := h2 t
    exact ⟨t', by simp only [logpGibbsApprox, bind, Except.bind, h3]⟩

end NoisyRel
end
end Verif
