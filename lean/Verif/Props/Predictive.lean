import Verif.Lemmas.Predictive
import Verif.Props.Relation
/-!
C57 (the predictive score of an observation is the gain in the relation's score) and C58 for clean relations (sampling an
observation stores the value it returns).
-/
namespace Verif
noncomputable section
open Spec
namespace CleanRel
variable {V : Type} {D : DistOps V} {supp : V → Prop}

/-- **C57.** For a new tuple of entities that are all in their domains, the three ways of asking for the log probability of a
value (`logp`, `cluster_or_prior_logp_from_items`, and `cluster_or_prior_logp` at the tuple's cluster) give the same number, and
it is the amount by which incorporating the observation raises the relation's `logp_score`.  Both side conditions hold for all
distributions except Skellam (`C22_side_conditions`). -/
theorem C57_predictive_is_score_gain (L : Lawful D supp) (C : D.ScoreRatio supp) (hfresh : ∀ t t', (D.fresh t).1 = (D.fresh t').1)
    (hzero : ∀ c, D.Holds supp 0 c → D.score c = 0) {σ : Doms} {r : CleanRel D} (h : Reach supp σ r) {items z : Items}
    (hz : tupleSeat σ r.doms items = some z) (hn : r.data.contains items = false) {v : V} (hv : supp v) (t : Tape) :
    ∃ lp : ℝ, (∃ r1 t1, clusterOrPriorLogpFromItems σ r items v t = .ok (lp, r1, t1)) ∧
      (∃ r1 t1, clusterOrPriorLogp r z v t = .ok (lp, r1, t1)) ∧
      (∃ r1 t1, logp σ r items v t = .ok ((lp : WithBot ℝ), r1, t1)) ∧
      ∃ r' t', incorporate σ r items v t = .ok (σ, r', t') ∧ r'.logpScore = r.logpScore + lp := by
  obtain ⟨hσ, hi⟩ := h.inv L
  obtain ⟨σ', r', t', h1, _, _, _, h5, h6, z', c0, c1, h7, h8, h9, h10⟩ :=
    incorporate_spec L hσ hi (tupleSeat_length hz).1 (FMap.contains_false.mp hn) hv t
  obtain ⟨rfl, _⟩ := incorporate_present hσ hz h1
  rw [hz] at h7
  cases h7
  have hc0 : D.Holds supp (contents (tupleSeat σ' r.doms) r.data z) c0 := by
    rcases h8 with h8 | ⟨h8, t0, rfl⟩
    · exact ((hi.cl z).2 c0 h8).2
    · rw [(hi.cl z).1 h8]; exact holds_fresh t0
  obtain ⟨s1, s2, k1, k2⟩ := C _ _ v hc0 hv
  rw [h9] at k1
  cases k1
  have hget : c0 = (r.clusters.find? z).getD (D.fresh t).1 := by
    rcases h8 with h8 | ⟨h8, t0, rfl⟩
    · rw [h8]; rfl
    · rw [h8]; exact hfresh t0 t
  have hcp : ∃ r1 t1, clusterOrPriorLogp r z v t = .ok (D.score c1 - D.score c0, r1, t1) := by
    unfold clusterOrPriorLogp
    rcases h8 with h8 | ⟨h8, t0, rfl⟩
    · exact ⟨{ r with clusters := r.clusters.set z s2 }, t, by simp only [h8, k2, bind, Except.bind]⟩
    · refine ⟨r, (D.fresh t).2, ?_⟩
      simp only [h8, priorLogp, bind, Except.bind, hfresh t t0, k2]
  refine ⟨D.score c1 - D.score c0, ?_, hcp, logp_known hσ hi.ne hz v t hget k2, r', t', h1, ?_⟩
  · rw [fromItems_eq hσ hz]; exact hcp
  · unfold logpScore
    rw [h10]
    rcases h8 with h8 | ⟨h8, t0, rfl⟩
    · exact score_replace D h8 c1
    · rw [score_add D h8 c1, hzero _ (holds_fresh t0), sub_zero]

/-- The tuple (2, 1) is new in the reachable relation `ex2`, and its entities are known. -/
example : ∃ lp : ℝ, (∃ r1 t1, clusterOrPriorLogpFromItems twoStore ex2 [2, 1] false [] = .ok (lp, r1, t1)) ∧
    ∃ r' t', incorporate twoStore ex2 [2, 1] false [] = .ok (twoStore, r', t') ∧ r'.logpScore = ex2.logpScore + lp := by
  obtain ⟨lp, h1, _, _, h2⟩ := C57_predictive_is_score_gain BetaBernoulli.lawful BetaBernoulli.coherent.scoreRatio
    (fun _ _ => rfl) BetaBernoulli.emptyScore ex2_reach (items := [2, 1]) (z := [0, 0]) rfl rfl (v := false) trivial []
  exact ⟨lp, h1, h2⟩

variable {C : CleanOps V}

theorem atKey_find {K W : Type _} [Key K] {m : FMap K W} {k : K} {w : W} (h : m.atKey k = .ok w) : m.find? k = some w :=
  FMap.atKey_ok.mp h

/-- **C58, clean relations.**  If sampling leaves a distribution's state as it is (true for all distributions but Bigram when it
reaches its maximal length, see C15), `sample_and_incorporate` does exactly what `incorporate` of the value it returns does. -/
theorem C58_clean_sample_stored (hs : ∀ c t x c' t', C.sample c t = .ok (x, c', t') → c' = c) {σ σ' : Doms}
    {r r' : CleanRel C.toDistOps} {items : Items} {x : V} {t t' : Tape}
    (h : sampleAndIncorporate σ r items t = .ok (x, σ', r', t')) :
    (∃ t1, incorporate σ r items x t = .ok (σ', r', t1)) ∧ r'.getValue items = .ok x := by
  unfold sampleAndIncorporate at h
  simp only [bind, Except.bind] at h
  cases h1 : incorporateItems σ r items t with
  | error e => rw [h1] at h; cases h
  | ok y =>
    obtain ⟨z, σ1, r1, t1⟩ := y
    rw [h1] at h
    dsimp only at h
    cases h2 : sampleAtItems σ1 r1 items t1 with
    | error e => rw [h2] at h; cases h
    | ok y =>
      obtain ⟨x1, r2, t2⟩ := y
      rw [h2] at h
      dsimp only at h
      have hr2 : r2 = r1 := by
        unfold sampleAtItems at h2
        simp only [bind, Except.bind] at h2
        cases h3 : clustersContains σ1 r1 items with
        | error e => rw [h3] at h2; cases h2
        | ok b =>
          rw [h3] at h2
          dsimp only at h2
          cases b with
          | true =>
            simp only [if_true] at h2
            cases h4 : clusterOf σ1 r1 items with
            | error e => rw [h4] at h2; cases h2
            | ok z' =>
              rw [h4] at h2
              dsimp only at h2
              cases h5 : r1.clusters.atKey z' with
              | error e => rw [h5] at h2; cases h2
              | ok c =>
                rw [h5] at h2
                dsimp only at h2
                cases h6 : C.sample c t1 with
                | error e => rw [h6] at h2; cases h2
                | ok w =>
                  obtain ⟨x2, c', t3⟩ := w
                  rw [h6] at h2
                  dsimp only at h2
                  obtain rfl := hs _ _ _ _ _ h6
                  rw [FMap.set_of_find (atKey_find h5)] at h2
                  cases h2; rfl
          | false =>
            simp only [Bool.false_eq_true, if_false] at h2
            cases h6 : C.sample (C.fresh t1).1 (C.fresh t1).2 with
            | error e => rw [h6] at h2; cases h2
            | ok w => rw [h6] at h2; cases h2; rfl
      subst hr2
      cases h7 : r2.clusters.atKey z with
      | error e => rw [h7] at h; cases h
      | ok c =>
        rw [h7] at h
        dsimp only at h
        cases h8 : C.inc c x1 with
        | error e => rw [h8] at h; cases h
        | ok c1 =>
          rw [h8] at h
          cases h
          refine ⟨⟨t1, ?_⟩, ?_⟩
          · simp only [incorporate, bind, Except.bind, h1, h7, h8]
          · simp [getValue, FMap.contains, bind, Except.bind, FMap.atKey_of_find]

/-- beta_bernoulli.cc:29-35 with an arbitrary coin, and beta_bernoulli.hh's `nearest`. -/
def coinOps : CleanOps Bool where
  toDistOps := BetaBernoulli.ops
  sample := fun s t => .ok ((draw 2 t).1 == 1, s, (draw 2 t).2)
  nearest := fun _ x => .ok x

/-- A sample is drawn and stored for the new tuple (2, 1) of the reachable relation `ex2`. -/
example : ∃ σ' r' t', sampleAndIncorporate (C := coinOps) twoStore ex2 [2, 1] [1] = .ok (true, σ', r', t') ∧
    r'.getValue [2, 1] = .ok true := by
  refine ⟨twoStore, _, [], rfl, rfl⟩

end CleanRel
end
end Verif
