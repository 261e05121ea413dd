import Verif.Lemmas.Mixture
import Verif.Lemmas.HIRMReach
import Verif.Props.HIRMMoves
/-!
C50 (the joint predictive of an IRM as a mixture) and C51 (score and predictive of an HIRM).

The theorems hold for every family of distributions and emissions that obeys its laws, every reachable state and every sequence of
random draws.
-/
namespace Verif
open Spec
noncomputable section
variable {V : Type} {F : Family V} {L : FamilyLaws F}

namespace IRM

/-- **C50**: for distinct tuples of clean relations, `logp` changes nothing and returns the log of a mixture: the probability of
the values given the clusters of all entities involved, averaged over all ways to put the new entities into clusters, each
independently with its probability under the CRP of its domain.  `U` lists the entities, in any order. -/
theorem C50_mixture {rm st : Prop} {n : Nat} {I : IRM F} (h : Reach L rm st n I) (hrt : ∀ c, (F.dist c).toDistOps.LogpPure (L.suppC c))
    {obs : List (String × Items × V)} (hne : obs ≠ []) (hnd : (obs.map (fun o => (o.1, o.2.1))).Nodup)
    (hp : ∀ o ∈ obs, I.Predictable L.suppC o) {U : List Ent} (hU : U.Nodup) (hUm : ∀ u, u ∈ U ↔ ∃ o ∈ obs, u ∈ I.entities o.1 o.2.1)
    (a : Ent → Int) :
    ∃ lp : ℝ, (∀ t, ∃ t', logp I obs t = .ok ((lp : WithBot ℝ), I, t')) ∧
      Real.exp lp = mixture (candidates I.doms) (I.jointGiven obs) U a :=
  logp_mixture h.inv hrt hne hnd hp hU hUm a

theorem logp_perm {ar : Ptr → Option Nat} {I : IRM F} (h : Inv L ar I) (hrt : ∀ c, (F.dist c).toDistOps.LogpPure (L.suppC c))
    {obs obs' : List (String × Items × V)} (hne : obs ≠ []) (hnd : (obs.map (fun o => (o.1, o.2.1))).Nodup)
    (hp : ∀ o ∈ obs, I.Predictable L.suppC o) (hperm : obs.Perm obs') :
    ∃ lp : ℝ, (∀ t, ∃ t', logp I obs t = .ok ((lp : WithBot ℝ), I, t')) ∧ ∀ t, ∃ t', logp I obs' t = .ok ((lp : WithBot ℝ), I, t') := by
  have hne' : obs' ≠ [] := by rintro rfl; exact hne (List.perm_nil.mp hperm)
  have hnd' := (hperm.map (fun o => (o.1, o.2.1))).nodup_iff.mp hnd
  have hp' : ∀ o ∈ obs', I.Predictable L.suppC o := fun o ho => hp o (hperm.mem_iff.mpr ho)
  obtain ⟨U, hU⟩ : ∃ U : List Ent, U = (obs.flatMap (fun o => I.entities o.1 o.2.1)).dedup := ⟨_, rfl⟩
  have hUnd : U.Nodup := by rw [hU]; exact List.nodup_dedup _
  have hUm : ∀ u, u ∈ U ↔ ∃ o ∈ obs, u ∈ I.entities o.1 o.2.1 := by intro u; rw [hU]; simp
  obtain ⟨lp, h1, h2⟩ := logp_mixture h hrt hne hnd hp hUnd hUm (fun _ => 0)
  obtain ⟨lp', h3, h4⟩ := logp_mixture h hrt hne' hnd' hp' hUnd (fun u => (hUm u).trans (by simp only [hperm.mem_iff])) (fun _ => 0)
  have hj : I.jointGiven obs = I.jointGiven obs' := by
    funext a
    exact (hperm.map _).prod_eq
  rw [← hj, ← h2] at h4
  rw [Real.exp_injective h4] at h3
  exact ⟨lp, h1, h3⟩

/-- **C50**: the order of the observations does not matter to `logp`. -/
theorem C50_order {rm st : Prop} {n : Nat} {I : IRM F} (h : Reach L rm st n I) (hrt : ∀ c, (F.dist c).toDistOps.LogpPure (L.suppC c))
    {obs obs' : List (String × Items × V)} (hne : obs ≠ []) (hnd : (obs.map (fun o => (o.1, o.2.1))).Nodup)
    (hp : ∀ o ∈ obs, I.Predictable L.suppC o) (hperm : obs.Perm obs') :
    ∃ lp : ℝ, (∀ t, ∃ t', logp I obs t = .ok ((lp : WithBot ℝ), I, t')) ∧ ∀ t, ∃ t', logp I obs' t = .ok ((lp : WithBot ℝ), I, t') :=
  logp_perm h.inv hrt hne hnd hp hperm

/-! #### concrete cases -/
open Latent (bools boolLaws)

theorem predictable_R {i : Int} {v : Bool} : ex5.Predictable boolLaws.suppC ("R", [i], v) := ⟨0, (), _, rfl, rfl, trivial, fun _ _ => rfl⟩

theorem ex5_keys {u : Ent} : u ∈ [(("D", 1) : Ent), ("D", 9)] ↔ ∃ o ∈ [(("R", [1], true) : String × Items × Bool), ("R", [9], false)], u ∈ ex5.entities o.1 o.2.1 := by
  simp [show ex5.entities "R" [1] = [("D", 1)] from rfl, show ex5.entities "R" [9] = [("D", 9)] from rfl]

/-- the joint predictive of `R` at entity 1, which is in cluster 0, and the new entity 9, which may join cluster 0 (weight 2/3) or a
new cluster 1 (weight 1/3), written out -/
example : ∃ lp : ℝ, (∀ t, ∃ t', logp ex5 [("R", [1], true), ("R", [9], false)] t = .ok ((lp : WithBot ℝ), ex5, t')) ∧
    Real.exp lp = 2 / 3 * (Real.exp (ex5.valueLogp "R" [0] true) * Real.exp (ex5.valueLogp "R" [0] false)) +
      1 / 3 * (Real.exp (ex5.valueLogp "R" [0] true) * Real.exp (ex5.valueLogp "R" [1] false)) := by
  obtain ⟨lp, h1, h2⟩ := C50_mixture (ex5_reach False) (fun _ => C10_beta_bernoulli.logpPure) (obs := [("R", [1], true), ("R", [9], false)]) (by simp)
    (by simp) (by
      intro o ho
      simp only [List.mem_cons, List.not_mem_nil, or_false] at ho
      rcases ho with rfl | rfl <;> exact predictable_R) (U := [("D", 1), ("D", 9)]) (by decide) (fun u => ex5_keys) (fun _ => 0)
  refine ⟨lp, h1, ?_⟩
  have c1 : candidates ex5.doms ("D", 1) = [(0, 1)] := rfl
  have c2 : candidates ex5.doms ("D", 9) = [(0, ((2 : Nat) : ℝ) / (1 + ((2 : Nat) : ℝ))), (1, 1 / (1 + ((2 : Nat) : ℝ)))] := rfl
  rw [h2]
  simp only [mixture, c1, c2, List.map_cons, List.map_nil, List.sum_cons, List.sum_nil, jointGiven, List.prod_cons, List.prod_nil,
    show ex5.entities "R" [1] = [("D", 1)] from rfl, show ex5.entities "R" [9] = [("D", 9)] from rfl]
  simp [Function.update]
  norm_num

example : ∃ lp : ℝ, (∀ t, ∃ t', logp ex5 [("R", [1], true), ("R", [9], false)] t = .ok ((lp : WithBot ℝ), ex5, t')) ∧
    ∀ t, ∃ t', logp ex5 [("R", [9], false), ("R", [1], true)] t = .ok ((lp : WithBot ℝ), ex5, t') :=
  C50_order (ex5_reach False) (fun _ => C10_beta_bernoulli.logpPure) (by simp) (by simp) (by
      intro o ho
      simp only [List.mem_cons, List.not_mem_nil, or_false] at ho
      rcases ho with rfl | rfl <;> exact predictable_R) (List.Perm.swap _ _ _)

end IRM

namespace HIRM

/-- the observations of the relations at table `tb` -/
def obsAt (H : HIRM F) (obs : List (String × Items × V)) (tb : Int) : List (String × Items × V) :=
  obs.filter (fun o => decide (H.tableOf o.1 = some tb))

/-- `logp` is defined for the observation by the code (see `IRM.Predictable`) -/
def Predictable (suppC : (c : F.C) → V → Prop) (H : HIRM F) (o : String × Items × V) : Prop :=
  ∃ tb I, H.tableOf o.1 = some tb ∧ H.irms.find? tb = some I ∧ I.Predictable suppC o

theorem groupObs_spec {H : HIRM F} : ∀ (obs : List (String × Items × V)) (m : FMap Int (List (String × Items × V))),
    (∀ o ∈ obs, ∃ tb, H.tableOf o.1 = some tb) → ∃ m', H.groupObs obs m = .ok m' ∧
      ∀ tb, m'.find? tb = if H.obsAt obs tb = [] then m.find? tb else some ((m.find? tb).getD [] ++ H.obsAt obs tb) := by
  intro obs
  induction obs with
  | nil => intro m _; exact ⟨m, rfl, fun tb => by simp [obsAt]⟩
  | cons o obs ih =>
    obtain ⟨r, items, v⟩ := o
    intro m ho
    obtain ⟨u, hu⟩ := ho (r, items, v) (by simp)
    dsimp only at hu
    obtain ⟨m', h1, h2⟩ := ih (m.set u ((m.find? u).getD [] ++ [(r, items, v)])) (fun o ho' => ho o (by simp [ho']))
    refine ⟨m', ?_, fun tb => ?_⟩
    · simp only [groupObs, bind, Except.bind, relationToTable_ok.mpr hu]; exact h1
    · rw [h2, FMap.find?_set]
      by_cases htb : tb = u
      · subst htb
        simp only [if_true, Option.getD_some]
        have : H.obsAt ((r, items, v) :: obs) tb = (r, items, v) :: H.obsAt obs tb := by simp [obsAt, hu]
        rw [this]
        split
        · rename_i he; rw [he]; simp
        · simp
      · have : H.obsAt ((r, items, v) :: obs) tb = H.obsAt obs tb := by
          simp only [obsAt, List.filter_cons, hu, Option.some.injEq, Ne.symm htb, decide_false, Bool.false_eq_true, if_false]
        simp only [htb, if_false, this]

theorem logpGroups_spec {H : HIRM F} {f : Int → ℝ} : ∀ (l : List (Int × List (String × Items × V))),
    (∀ e ∈ l, ∃ I, H.irms.find? e.1 = some I ∧ ∀ t, ∃ t', IRM.logp I e.2 t = .ok ((f e.1 : WithBot ℝ), I, t')) →
    ∀ t, ∃ t', logpGroups l H t = .ok ((((l.map (fun e => f e.1)).sum : ℝ) : WithBot ℝ), H, t') := by
  intro l
  induction l with
  | nil => intro _ t; exact ⟨t, rfl⟩
  | cons e l ih =>
    obtain ⟨tb, o⟩ := e
    intro hl t
    obtain ⟨I, hI, h1⟩ := hl (tb, o) (by simp)
    dsimp only at hI h1
    obtain ⟨t1, h1⟩ := h1 t
    obtain ⟨t2, h2⟩ := ih (fun e he => hl e (by simp [he])) t1
    have hset : ({ H with irms := H.irms.set tb I } : HIRM F) = H := by rw [FMap.set_of_find hI]
    refine ⟨t2, ?_⟩
    simp only [logpGroups, bind, Except.bind, FMap.atKey_of_find hI, h1, hset, h2, List.map_cons, List.sum_cons]
    rfl

/-- **C51**: `HIRM::logp` of distinct tuples of clean relations is the sum, over the IRMs, of the IRM's `logp` of those observations that
belong to its relations (an IRM without observations contributes nothing).  Nothing changes. -/
theorem C51_logp {H : HIRM F} (h : Reach L H) (hrt : ∀ c, (F.dist c).toDistOps.LogpPure (L.suppC c)) {obs : List (String × Items × V)}
    (hnd : (obs.map (fun o => (o.1, o.2.1))).Nodup) (hp : ∀ o ∈ obs, H.Predictable L.suppC o) :
    ∃ f : Int → ℝ, (∀ tb I, H.irms.find? tb = some I → (H.obsAt obs tb = [] ∧ f tb = 0) ∨ (H.obsAt obs tb ≠ [] ∧
        ∀ t, ∃ t', IRM.logp I (H.obsAt obs tb) t = .ok ((f tb : WithBot ℝ), I, t'))) ∧
      ∀ t, ∃ t', H.logp obs t = .ok ((((H.irms.keys.map f).sum : ℝ) : WithBot ℝ), H, t') := by
  have hg := h.good
  have key : ∀ tb, ∃ x : ℝ, (H.obsAt obs tb = [] → x = 0) ∧ ∀ I, H.irms.find? tb = some I → H.obsAt obs tb ≠ [] →
      ∀ t, ∃ t', IRM.logp I (H.obsAt obs tb) t = .ok ((x : WithBot ℝ), I, t') := by
    intro tb
    by_cases he : H.obsAt obs tb = []
    · exact ⟨0, fun _ => rfl, fun I _ hne => absurd he hne⟩
    · cases hI : H.irms.find? tb with
      | none => exact ⟨0, fun hh => absurd hh he, fun I hh => by cases hh⟩
      | some I =>
        obtain ⟨lp, h1, _⟩ := IRM.logp_perm (hg.inv tb I hI) hrt he (((List.filter_sublist).map _).nodup hnd) (by
          intro o ho
          obtain ⟨ho1, ho2⟩ := List.mem_filter.mp ho
          obtain ⟨tb', I', a1, a2, a3⟩ := hp o ho1
          have : H.tableOf o.1 = some tb := by simpa using ho2
          rw [a1] at this; cases this
          rw [hI] at a2; cases a2
          exact a3) (List.Perm.refl _)
        exact ⟨lp, fun hh => absurd hh he, fun I' hh _ => by cases hh; exact h1⟩
  choose f hf1 hf2 using key
  refine ⟨f, fun tb I hI => ?_, fun t => ?_⟩
  · by_cases he : H.obsAt obs tb = []
    · exact .inl ⟨he, hf1 tb he⟩
    · exact .inr ⟨he, hf2 tb I hI he⟩
  · obtain ⟨m, h1, h2⟩ := groupObs_spec (H := H) obs ∅ (fun o ho => by
      obtain ⟨tb, _, a1, _⟩ := hp o ho; exact ⟨tb, a1⟩)
    have hm : ∀ tb o, m.find? tb = some o → o = H.obsAt obs tb ∧ H.obsAt obs tb ≠ [] := by
      intro tb o ho
      rw [h2] at ho
      split at ho
      · cases ho
      · rename_i hne
        cases ho
        exact ⟨by simp, hne⟩
    have hmi : ∀ tb, H.obsAt obs tb ≠ [] → ∃ I, H.irms.find? tb = some I := by
      intro tb hne
      obtain ⟨o, ho⟩ := List.exists_mem_of_ne_nil _ hne
      obtain ⟨ho1, ho2⟩ := List.mem_filter.mp ho
      obtain ⟨tb', I', a1, a2, _⟩ := hp o ho1
      have : H.tableOf o.1 = some tb := by simpa using ho2
      rw [a1] at this; cases this
      exact ⟨I', a2⟩
    obtain ⟨t', h3⟩ := logpGroups_spec (H := H) (f := f) (shuffle m.entries t).1 (by
      rintro ⟨tb, o⟩ he
      have he := FMap.mem_entries.mp ((shuffle_perm m.entries t).mem_iff.mp he)
      obtain ⟨rfl, hne⟩ := hm tb o he
      obtain ⟨I, hI⟩ := hmi tb hne
      exact ⟨I, hI, hf2 tb I hI hne⟩) (shuffle m.entries t).2
    refine ⟨t', ?_⟩
    have hsum : ((shuffle m.entries t).1.map (fun e => f e.1)).sum = (H.irms.keys.map f).sum := by
      have e1 : ((shuffle m.entries t).1.map (fun e => f e.1)).sum = (m.keys.map f).sum := by
        rw [((shuffle_perm m.entries t).map _).sum_eq, FMap.keys, List.map_map]; rfl
      have e2 : m.keys.Perm (H.irms.keys.filter (fun tb => decide (H.obsAt obs tb ≠ []))) := by
        rw [List.perm_ext_iff_of_nodup (FMap.nodupKeys m) ((FMap.nodupKeys H.irms).filter _)]
        intro tb
        rw [List.mem_filter, ← FMap.contains_iff_mem, ← FMap.contains_iff_mem, FMap.contains_iff, FMap.contains_iff, h2]
        constructor
        · rintro ⟨o, ho⟩
          split at ho
          · cases ho
          · rename_i hne; exact ⟨hmi tb hne, by simpa using hne⟩
        · rintro ⟨_, hne⟩
          have hne : H.obsAt obs tb ≠ [] := by simpa using hne
          rw [if_neg hne]
          exact ⟨_, rfl⟩
      rw [e1, (e2.map f).sum_eq]
      have : ∀ l : List Int, ((l.filter (fun tb => decide (H.obsAt obs tb ≠ []))).map f).sum = (l.map f).sum := by
        intro l
        induction l with
        | nil => rfl
        | cons tb l ih =>
          rw [List.filter_cons]
          split
          · rw [List.map_cons, List.map_cons, List.sum_cons, List.sum_cons, ih]
          · rename_i hne
            have : H.obsAt obs tb = [] := by simpa using hne
            rw [List.map_cons, List.sum_cons, ih, hf1 tb this, zero_add]
      exact this _
    simp only [logp, bind, Except.bind, h1]
    rw [← hsum]
    exact h3

/-- **C51**: the order of the observations does not matter to `HIRM::logp`. -/
theorem C51_order {H : HIRM F} (h : Reach L H) (hrt : ∀ c, (F.dist c).toDistOps.LogpPure (L.suppC c)) {obs obs' : List (String × Items × V)}
    (hnd : (obs.map (fun o => (o.1, o.2.1))).Nodup) (hp : ∀ o ∈ obs, H.Predictable L.suppC o) (hperm : obs.Perm obs') :
    ∃ lp : ℝ, (∀ t, ∃ t', H.logp obs t = .ok ((lp : WithBot ℝ), H, t')) ∧ ∀ t, ∃ t', H.logp obs' t = .ok ((lp : WithBot ℝ), H, t') := by
  have hg := h.good
  obtain ⟨f, h1, h2⟩ := C51_logp h hrt hnd hp
  obtain ⟨f', h3, h4⟩ := C51_logp h hrt ((hperm.map (fun o => (o.1, o.2.1))).nodup_iff.mp hnd) (fun o ho => hp o (hperm.mem_iff.mpr ho))
  refine ⟨_, h2, ?_⟩
  have : H.irms.keys.map f = H.irms.keys.map f' := by
    apply List.map_congr_left
    intro tb htb
    obtain ⟨I, hI⟩ := FMap.contains_iff.mp (FMap.contains_iff_mem.mpr htb)
    have hpf : (H.obsAt obs tb).Perm (H.obsAt obs' tb) := hperm.filter _
    rcases h1 tb I hI with ⟨a1, a2⟩ | ⟨a1, a2⟩
    · rw [a1] at hpf
      rcases h3 tb I hI with ⟨_, b2⟩ | ⟨b1, _⟩
      · rw [a2, b2]
      · exact absurd (List.nil_perm.mp hpf) b1
    · rcases h3 tb I hI with ⟨b1, _⟩ | ⟨b1, b2⟩
      · rw [b1] at hpf
        exact absurd (List.perm_nil.mp hpf) a1
      · obtain ⟨lp, c1, c2⟩ := IRM.logp_perm (hg.inv tb I hI) hrt a1 (((List.filter_sublist).map _).nodup hnd) (by
          intro o ho
          obtain ⟨ho1, ho2⟩ := List.mem_filter.mp ho
          obtain ⟨tb', I', e1, e2, e3⟩ := hp o ho1
          have : H.tableOf o.1 = some tb := by simpa using ho2
          rw [e1] at this; cases this
          rw [hI] at e2; cases e2
          exact e3) hpf
        obtain ⟨_, x1⟩ := a2 []
        obtain ⟨_, x2⟩ := b2 []
        obtain ⟨_, y1⟩ := c1 []
        obtain ⟨_, y2⟩ := c2 []
        rw [x1] at y1
        rw [x2] at y2
        injection y1 with y1
        injection y2 with y2
        rw [Prod.mk.injEq] at y1 y2
        rw [WithBot.coe_inj.mp y1.1, WithBot.coe_inj.mp y2.1]
  rw [this]
  exact h4

/-- the score of a relation of the HIRM -/
def relScore (H : HIRM F) (n : String) : ℝ := ((H.relOf n).map (fun x => x.2.2.logpScore)).getD 0

/-- **C51**: after any history of calls, `HIRM::logp_score` is the score of the relation CRP, plus the scores of the CRPs of all
domains of all IRMs, plus the score of each relation of the schema, counted once. -/
theorem C51_score {H : HIRM F} (h : History H) :
    H.logpScore = H.crp.logpScore + (H.irms.vals.map (fun I => (I.doms.vals.map (fun d => d.crp.logpScore)).sum)).sum +
      (H.schema.keys.map H.relScore).sum := by
  have hs := h.skel
  have e1 : H.logpScore = H.crp.logpScore + ((H.irms.vals.map (fun I => (I.doms.vals.map (fun d => d.crp.logpScore)).sum)).sum +
      (H.irms.vals.map (fun I => (I.rels.vals.map (fun r => r.2.logpScore)).sum)).sum) := by
    rw [← List.sum_map_add]
    rfl
  have e2 : (H.irms.vals.map (fun I => (I.rels.vals.map (fun r => r.2.logpScore)).sum)).sum =
      ((H.irms.entries.flatMap (fun e => e.2.rels.keys)).map H.relScore).sum := by
    rw [IRM.sum_flatMap, FMap.vals, List.map_map]
    congr 1
    apply List.map_congr_left
    rintro ⟨tb, I⟩ he
    have hI := FMap.mem_entries.mp he
    simp only [Function.comp, FMap.vals, FMap.keys, List.map_map]
    congr 1
    apply List.map_congr_left
    rintro ⟨n, x⟩ hx
    simp only [Function.comp, relScore]
    rw [hs.obj hI (FMap.mem_entries.mp hx)]
    rfl
  have e3 : (H.irms.entries.flatMap (fun e => e.2.rels.keys)).Perm H.schema.keys := by
    rw [List.perm_ext_iff_of_nodup ?_ (FMap.nodupKeys _)]
    · intro n
      rw [List.mem_flatMap, ← FMap.contains_iff_mem]
      constructor
      · rintro ⟨⟨tb, I⟩, he, hn⟩
        exact tableOf_known hs ((hs.place tb I (FMap.mem_entries.mp he) n).mp (FMap.contains_iff_mem.mpr hn))
      · intro hn
        obtain ⟨tb, id, r, hr⟩ := hs.relOf hn
        obtain ⟨_, I, hI, hx⟩ := relOf_some.mp hr
        exact ⟨(tb, I), FMap.mem_entries.mpr hI, FMap.contains_iff_mem.mp (FMap.contains_iff.mpr ⟨_, hx⟩)⟩
    · rw [List.nodup_flatMap]
      refine ⟨fun e _ => FMap.nodupKeys _, ?_⟩
      have hnd : (H.irms.entries.map Prod.fst).Nodup := FMap.nodupKeys H.irms
      have hpw : H.irms.entries.Pairwise (fun a b => a.1 ≠ b.1) := List.pairwise_map.mp hnd
      refine hpw.imp_of_mem ?_
      rintro ⟨tb, I⟩ ⟨tb', I'⟩ ha hb hne n h1 h2
      have g1 := (hs.place tb I (FMap.mem_entries.mp ha) n).mp (FMap.contains_iff_mem.mpr h1)
      have g2 := (hs.place tb' I' (FMap.mem_entries.mp hb) n).mp (FMap.contains_iff_mem.mpr h2)
      rw [g1] at g2
      exact hne (Option.some.inj g2)
  rw [e1, e2, (e3.map _).sum_eq]
  ring

/-! #### concrete cases -/
open Latent (bools boolLaws)

theorem mv4_predictable : ∀ o ∈ [(("B", [3], true) : String × Items × Bool), ("C", [9], false), ("B", [4], false)], mv4.Predictable boolLaws.suppC o := by
  intro o ho
  simp only [List.mem_cons, List.not_mem_nil, or_false] at ho
  rcases ho with rfl | rfl | rfl
  · exact ⟨0, _, rfl, rfl, _, (), _, rfl, rfl, trivial, fun _ _ => rfl⟩
  · exact ⟨1, _, rfl, rfl, _, (), _, rfl, rfl, trivial, fun _ _ => rfl⟩
  · exact ⟨0, _, rfl, rfl, _, (), _, rfl, rfl, trivial, fun _ _ => rfl⟩

/-- two observations belong to the IRM of table 0, one to that of table 1 -/
example : mv4.obsAt [("B", [3], true), ("C", [9], false), ("B", [4], false)] 0 = [("B", [3], true), ("B", [4], false)] ∧
    mv4.obsAt [("B", [3], true), ("C", [9], false), ("B", [4], false)] 1 = [("C", [9], false)] ∧ mv4.irms.keys = [0, 1] := ⟨rfl, rfl, rfl⟩
example : ∃ lp0 lp1 : ℝ, ∀ t, ∃ t', mv4.logp [("B", [3], true), ("C", [9], false), ("B", [4], false)] t = .ok (((lp0 + (lp1 + 0) : ℝ) : WithBot ℝ), mv4, t') := by
  obtain ⟨f, _, h⟩ := C51_logp mv4_reach (fun _ => C10_beta_bernoulli.logpPure) (obs := [("B", [3], true), ("C", [9], false), ("B", [4], false)]) (by simp) mv4_predictable
  exact ⟨f 0, f 1, h⟩
example : ∃ lp : ℝ, (∀ t, ∃ t', mv4.logp [("B", [3], true), ("C", [9], false), ("B", [4], false)] t = .ok ((lp : WithBot ℝ), mv4, t')) ∧
    ∀ t, ∃ t', mv4.logp [("B", [3], true), ("B", [4], false), ("C", [9], false)] t = .ok ((lp : WithBot ℝ), mv4, t') :=
  C51_order mv4_reach (fun _ => C10_beta_bernoulli.logpPure) (by simp) mv4_predictable ((List.Perm.swap _ _ _).cons _)
example : mv4.logpScore = mv4.crp.logpScore + (mv4.irms.vals.map (fun I => (I.doms.vals.map (fun d => d.crp.logpScore)).sum)).sum +
    (mv4.relScore "A" + (mv4.relScore "B" + (mv4.relScore "C" + 0))) := 
  C51_score (.incorporate (.incorporate (.incorporate (mk'_history mv1_eq) mv2_eq) mv3_eq) mv4_eq)

end HIRM
end
end Verif
