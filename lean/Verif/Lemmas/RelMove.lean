import Verif.Spec.RelMove
import Verif.Lemmas.HIRMMoved
/-! Helper lemmas: the weights of a relation move (`scoreTables`), and what a move does to the scores of the relations. -/
namespace Verif
open Spec
noncomputable section
variable {V : Type} {F : Family V}
namespace HIRM
open IRM

/-! ### the concentration of the relation CRP -/

theorem updateBase_crp {H H' : HIRM F} {r : String} (hc : H.updateBase r = .ok H') : H'.crp = H.crp := (updateBase_keys hc).crp

theorem settle_alpha {H H' : HIRM F} (hw : H.crp.WF) {r : String} {rc cur choice : Int} {order : List Int} {aux : Option (Int × IRM F)}
    (hc : H.settle r rc cur choice order aux = .ok H') : H'.crp.alpha = H.crp.alpha := by
  obtain ⟨m, _, hc⟩ := bind_ok.mp hc
  obtain ⟨c1, h8, hc⟩ := bind_ok.mp hc
  obtain ⟨c2, h9, hc⟩ := bind_ok.mp hc
  obtain ⟨_, _, hc⟩ := bind_ok.mp hc
  obtain ⟨hw1, _, e1⟩ := crp_unincorporate hw h8
  obtain ⟨_, _, e2⟩ := crp_incorporate hw1 h9
  rw [updateBase_crp hc]
  exact e2.trans e1

theorem transitionRelation_alpha {H H' : HIRM F} (h : Skel H) {r : String} {t t' : Tape} (hc : H.transitionRelation r t = .ok (H', t')) :
    H'.crp.alpha = H.crp.alpha := by
  obtain ⟨rc, h1, hc⟩ := bind_ok.mp hc
  obtain ⟨cur, h2, hc⟩ := bind_ok.mp hc
  obtain ⟨⟨p, rel⟩, h0, hc⟩ := bind_ok.mp hc
  obtain ⟨spec, h3, hc⟩ := bind_ok.mp hc
  obtain ⟨w, _, hc⟩ := bind_ok.mp hc
  obtain ⟨⟨lps, H1, aux, t1⟩, h4, hc⟩ := bind_ok.mp hc
  obtain ⟨ch, h5, hc⟩ := bind_ok.mp hc
  obtain ⟨H2, h6, hc⟩ := bind_ok.mp hc
  cases hc
  have hnd : ((shuffle w.entries t).1.map Prod.fst).Nodup :=
    ((shuffle_perm w.entries t).map _).nodup_iff.mpr (FMap.nodupKeys w)
  obtain ⟨hl, hS, _⟩ := scoreTables_inv _ _ _ _ _ _ _ _ hnd (fun _ _ h => by cases h) h4
  rw [settle_alpha (by rw [hS.crp]; exact h.crp) h6, hS.crp]

theorem setClusterAssignmentGibbs_alpha {H H' : HIRM F} (h : Skel H) {r : String} {table : Int} {t t' : Tape}
    (hc : H.setClusterAssignmentGibbs r table t = .ok (H', t')) : H'.crp.alpha = H.crp.alpha := by
  obtain ⟨_, _, hc⟩ := bind_ok.mp hc
  obtain ⟨rc, h1, hc⟩ := bind_ok.mp hc
  obtain ⟨cur, h2, hc⟩ := bind_ok.mp hc
  obtain ⟨⟨p, rel⟩, h0, hc⟩ := bind_ok.mp hc
  obtain ⟨spec, h3, hc⟩ := bind_ok.mp hc
  obtain ⟨I0, h4, hc⟩ := bind_ok.mp hc
  obtain ⟨I1, h5, hc⟩ := bind_ok.mp hc
  obtain ⟨I2, h6, hc⟩ := bind_ok.mp hc
  obtain ⟨⟨I3, t3⟩, h7, hc⟩ := bind_ok.mp hc
  obtain ⟨c1, h8, hc⟩ := bind_ok.mp hc
  obtain ⟨c2, h9, hc⟩ := bind_ok.mp hc
  obtain ⟨H2, h10, hc⟩ := bind_ok.mp hc
  obtain ⟨_, _, hc⟩ := bind_ok.mp hc
  cases hc
  obtain ⟨hw1, _, e1⟩ := crp_unincorporate h.crp h8
  obtain ⟨_, _, e2⟩ := crp_incorporate hw1 h9
  rw [updateBase_crp h10]
  exact e2.trans e1

/-- nothing changes the concentration of the relation CRP -/
theorem History.alpha {H : HIRM F} (h : History H) : H.crp.alpha = 1 := by
  induction h with
  | empty => rfl
  | add h0 hc ih =>
    obtain ⟨h1, hs, h2, rc, tb, I, c', J, _, _, h3, h4, hcr, _⟩ := addRelation_inv hc
    rw [hcr, (crp_incorporate h0.skel.crp h4).2.2, ih]
  | remove h0 hc ih =>
    obtain ⟨rc, tb, s, c', I, I', hrc, htb, hs, hu, hI, hI', hsz, rfl⟩ := removeRelation_inv hc
    exact (crp_unincorporate h0.skel.crp hu).2.2.trans ih
  | incorporate _ hc ih => rw [(incorporate_keys hc).crp, ih]
  | unincorporate _ hc ih => rw [(unincorporate_keys hc).crp, ih]
  | move h0 hc ih => rw [transitionRelation_alpha h0.skel hc, ih]
  | set h0 hc ih => rw [setClusterAssignmentGibbs_alpha h0.skel hc, ih]
  | latent _ hc ih => rw [(transitionLatentRelation_keys hc).crp, ih]
  | item _ hI hc ih => exact ih
  | step _ hc ih => rw [(stepIrms_keys _ _ _ _ hc).crp, ih]
  | logp _ hc ih => rw [(logp_keys hc).crp, ih]
  | sampleOne _ hc ih => rw [(sampleRelation_keys _ _ _ _ _ _ hc).crp, ih]
  | seat _ _ _ _ ih => exact ih
  | sample _ hc ih => rw [(sampleAndIncorporate_keys hc).crp, ih]
  | cleanup _ hc ih => rw [(cleanupLoop_keys _ _ _ hc).crp, ih]

/-! ### adding a relation leaves the objects of the others alone -/

theorem addRelationToIrm_others {H : HIRM F} {I I' : IRM F} {r : String} {spec : RelSpec F} (hc : H.addRelationToIrm I r spec = .ok I')
    {n : String} (hn : n ≠ r) : I'.rels.find? n = I.rels.find? n := by
  cases spec with
  | clean c ds o =>
    obtain ⟨_, _, h2⟩ := bind_ok.mp (hc : addClean H.next I r c ds o = .ok I')
    obtain ⟨_, h3, h4⟩ := bind_ok.mp h2
    obtain ⟨I1, h5, h6⟩ := bind_ok.mp h4
    obtain ⟨q, _, h7⟩ := bind_ok.mp h6
    cases h7
    dsimp only
    rw [FMap.find?_set_ne _ hn, (addDomains_keys _ _ _ h5).2]
  | noisy e ds b o =>
    obtain ⟨⟨p, rel⟩, _, hc⟩ := bind_ok.mp hc
    obtain ⟨_, _, h2⟩ := bind_ok.mp hc
    obtain ⟨_, h3, h4⟩ := bind_ok.mp h2
    obtain ⟨I1, h5, h6⟩ := bind_ok.mp h4
    obtain ⟨q, _, h7⟩ := bind_ok.mp h6
    cases h7
    dsimp only
    rw [FMap.find?_set_ne _ hn, (addDomains_keys _ _ _ h5).2]

theorem fill_others {env : Env V} {r n : String} (hn : n ≠ r) : ∀ (l : List (Items × V)) (I : IRM F) (t : Tape) (x : IRM F × Tape),
    fill env r l I t = .ok x → x.1.rels.find? n = I.rels.find? n := by
  intro l
  induction l with
  | nil => intro I t x hc; cases hc; rfl
  | cons e l ih =>
    obtain ⟨items, v⟩ := e
    intro I t x hc
    obtain ⟨⟨I2, t2⟩, h1, h2⟩ := bind_ok.mp hc
    rw [ih _ _ _ h2]
    obtain ⟨⟨id, rel⟩, _, h3⟩ := bind_ok.mp h1
    obtain ⟨⟨σ, rel', t1⟩, _, h4⟩ := bind_ok.mp h3
    cases h4
    exact FMap.find?_set_ne _ hn _

theorem putRelation_others {H : HIRM F} {I I' : IRM F} {r n : String} (hn : n ≠ r) {spec : RelSpec F} {data : FMap Items V} {t t' : Tape}
    (hc : H.putRelation I r spec data t = .ok (I', t')) : I'.rels.find? n = I.rels.find? n := by
  obtain ⟨I1, h1, h2⟩ := bind_ok.mp hc
  exact (fill_others hn _ _ _ _ h2).trans (addRelationToIrm_others h1 hn)

/-- the IRM of a table after scoring: in the map, or the auxiliary one -/
def Holds (K : HIRM F) (aux : Option (Int × IRM F)) (tb : Int) (I : IRM F) : Prop :=
  K.irms.find? tb = some I ∨ K.irms.find? tb = none ∧ aux = some (tb, I)

/-- the scoring loop: the weight of a table is the given weight and the score of the relation in the IRM of the table, and the other relations
are as before -/
theorem scoreTables_weights {r : String} {cur : Int} {spec : RelSpec F} {data : FMap Items V} :
    ∀ (l : List (Int × ℝ)) (H : HIRM F) (aux : Option (Int × IRM F)) (t : Tape) (lps : List (Int × ℝ)) (K : HIRM F)
      (aux' : Option (Int × IRM F)) (t' : Tape), (l.map Prod.fst).Nodup → (∀ tb I, aux = some (tb, I) → H.irms.find? tb = none) →
      scoreTables r cur spec data l H aux t = .ok (lps, K, aux', t') →
      (∀ tb lp, (tb, lp) ∈ lps → ∃ w I x, (tb, w) ∈ l ∧ Holds K aux' tb I ∧ I.rels.find? r = some x ∧ lp = Real.log w + x.2.logpScore) ∧
      (∀ tb I, H.irms.find? tb = some I → ∃ I', K.irms.find? tb = some I' ∧ ∀ n, n ≠ r → I'.rels.find? n = I.rels.find? n) := by
  intro l
  induction l with
  | nil =>
    intro H aux t lps K aux' t' _ _ hc
    cases hc
    exact ⟨fun _ _ h => (by cases h), fun tb I hI => ⟨I, hI, fun _ _ => rfl⟩⟩
  | cons e l ih =>
    obtain ⟨tb, w⟩ := e
    intro H aux t lps K aux' t' hnd haux hc
    rw [List.map_cons, List.nodup_cons] at hnd
    obtain ⟨hni, hnd⟩ := hnd
    dsimp only at hni
    unfold scoreTables at hc
    dsimp only at hc
    -- the rest of the loop, from a state that has the relation in the IRM `J` of the table
    have rest : ∀ (H1 : HIRM F) (aux1 : Option (Int × IRM F)) (t1 : Tape) (J : IRM F) (x : Nat × Rel F) (lps1 : List (Int × ℝ)),
        J.rels.find? r = some x → Holds H1 aux1 tb J → (∀ tb I, aux1 = some (tb, I) → H1.irms.find? tb = none) →
        (∀ tb I, H.irms.find? tb = some I → ∃ I', H1.irms.find? tb = some I' ∧ ∀ n, n ≠ r → I'.rels.find? n = I.rels.find? n) →
        scoreTables r cur spec data l H1 aux1 t1 = .ok (lps1, K, aux', t') → lps = (tb, Real.log w + x.2.logpScore) :: lps1 →
        (∀ tb' lp, (tb', lp) ∈ lps → ∃ w' I x, (tb', w') ∈ (tb, w) :: l ∧ Holds K aux' tb' I ∧ I.rels.find? r = some x ∧
          lp = Real.log w' + x.2.logpScore) ∧
        (∀ tb I, H.irms.find? tb = some I → ∃ I', K.irms.find? tb = some I' ∧ ∀ n, n ≠ r → I'.rels.find? n = I.rels.find? n) := by
      intro H1 aux1 t1 J x lps1 hx hJ ha1 hH hs he
      obtain ⟨a1, a2⟩ := ih _ _ _ _ _ _ _ hnd ha1 hs
      obtain ⟨_, hS, hau⟩ := scoreTables_inv _ _ _ _ _ _ _ _ hnd ha1 hs
      refine ⟨fun tb' lp hm => ?_, fun u I hI => ?_⟩
      · rw [he] at hm
        rcases List.mem_cons.mp hm with hm | hm
        · cases hm
          refine ⟨w, J, x, by simp, ?_, hx, rfl⟩
          rcases hJ with h1 | ⟨h1, h2⟩
          · exact .inl (hS.kept tb J h1 (.inl hni))
          · exact .inr ⟨hS.none_irm tb h1, hau _ h2⟩
        · obtain ⟨w', I, y, b1, b2, b3, b4⟩ := a1 tb' lp hm
          exact ⟨w', I, y, List.mem_cons_of_mem _ b1, b2, b3, b4⟩
      · obtain ⟨I1, b1, b2⟩ := hH u I hI
        obtain ⟨I2, c1, c2⟩ := a2 u I1 b1
        exact ⟨I2, c1, fun n hn => (c2 n hn).trans (b2 n hn)⟩
    cases hI : H.irms.find? tb with
    | some I =>
      rw [hI] at hc
      have hcon : H.irms.contains tb = true := FMap.contains_iff.mpr ⟨I, hI⟩
      obtain ⟨J, h1, h2⟩ := bind_ok.mp hc
      cases h1
      by_cases hcur : tb = cur
      · rw [if_neg (by simpa using hcur)] at h2
        obtain ⟨x, h3, h4⟩ := bind_ok.mp h2
        cases h3
        obtain ⟨x, hx, h5⟩ := bind_ok.mp h4
        simp only [hcon, if_true] at h5
        obtain ⟨⟨lps1, H1, aux1, t1⟩, h6, h7⟩ := bind_ok.mp h5
        cases h7
        rw [FMap.set_of_find hI] at h6
        exact rest H aux _ I x lps1 (FMap.atKey_ok.mp hx) (.inl hI) haux (fun u I hI => ⟨I, hI, fun _ _ => rfl⟩) h6 rfl
      · rw [if_pos (by simpa using hcur)] at h2
        obtain ⟨⟨I1, t1⟩, h3, h4⟩ := bind_ok.mp h2
        obtain ⟨x, h5, h6⟩ := bind_ok.mp h4
        cases h5
        obtain ⟨x, hx, h7⟩ := bind_ok.mp h6
        simp only [hcon, if_true] at h7
        obtain ⟨⟨lps1, H1, aux1, t1⟩, h8, h9⟩ := bind_ok.mp h7
        cases h9
        refine rest _ aux _ I1 x lps1 (FMap.atKey_ok.mp hx) (.inl (by dsimp only; rw [FMap.find?_set_self])) ?_ ?_ h8 rfl
        · intro u J hu
          have := haux u J hu
          dsimp only
          rw [FMap.find?_set_ne _ (by rintro rfl; rw [hI] at this; cases this)]
          exact this
        · intro u J hu
          dsimp only
          rw [FMap.find?_set]
          split
          · rename_i e
            subst e
            rw [hI] at hu; cases hu
            exact ⟨I1, rfl, fun n hn => putRelation_others hn h3⟩
          · exact ⟨J, hu, fun _ _ => rfl⟩
    | none =>
      rw [hI] at hc
      have hcon : H.irms.contains tb = false := FMap.contains_false.mpr hI
      obtain ⟨_, hassert, hc⟩ := bind_ok.mp hc
      have hnone : aux = none := by simpa using assertR_ok.mp hassert
      subst hnone
      obtain ⟨J, h1, h2⟩ := bind_ok.mp hc
      cases h1
      by_cases hcur : tb = cur
      · rw [if_neg (by simpa using hcur)] at h2
        obtain ⟨x, h3, h4⟩ := bind_ok.mp h2
        cases h3
        obtain ⟨_, h5, _⟩ := bind_ok.mp h4
        have := FMap.atKey_ok.mp h5
        cases this
      · rw [if_pos (by simpa using hcur)] at h2
        obtain ⟨⟨I1, t1⟩, h3, h4⟩ := bind_ok.mp h2
        obtain ⟨x, h5, h6⟩ := bind_ok.mp h4
        cases h5
        obtain ⟨x, hx, h7⟩ := bind_ok.mp h6
        simp only [hcon, Bool.false_eq_true, if_false] at h7
        obtain ⟨⟨lps1, H1, aux1, t1⟩, h8, h9⟩ := bind_ok.mp h7
        cases h9
        refine rest { H with next := H.next + 1 } _ _ I1 x lps1 (FMap.atKey_ok.mp hx) (.inr ⟨hI, rfl⟩) ?_ ?_ h8 rfl
        · intro u J hu
          cases hu
          exact hI
        · intro u J hu
          exact ⟨J, hu, fun _ _ => rfl⟩

/-! ### the scores after a move -/

theorem updateLoop_score {r : String} : ∀ (l : List String) (H H' : HIRM F), updateLoop r l H = .ok H' → ∀ m, H'.scoreOf m = H.scoreOf m := by
  intro l
  induction l with
  | nil => intro H H' hc m; cases hc; rfl
  | cons n l ih =>
    intro H H' hc m
    obtain ⟨⟨tb, I⟩, h1, h2⟩ := bind_ok.mp hc
    obtain ⟨⟨id, rel⟩, h3, h4⟩ := bind_ok.mp h2
    cases rel with
    | clean c q => cases h4
    | noisy e p0 q =>
      obtain ⟨⟨p, _⟩, _, h5⟩ := bind_ok.mp h4
      rw [ih _ _ h5]
      obtain ⟨hT, hI⟩ := relationToIrm_ok.mp h1
      have hn : H.relOf n = some (tb, id, .noisy e p0 q) := relOf_some.mpr ⟨hT, I, hI, FMap.atKey_ok.mp h3⟩
      unfold scoreOf
      rw [relOf_setRel hn hI I.doms]
      split
      · rename_i e'; subst e'; rw [hn]; rfl
      · rfl

theorem updateBase_score {H H' : HIRM F} {r : String} (hc : H.updateBase r = .ok H') (m : String) : H'.scoreOf m = H.scoreOf m := by
  unfold updateBase at hc
  split at hc
  · cases hc; rfl
  · exact updateLoop_score _ _ _ hc m

theorem scoreOf_of {H : HIRM F} {n : String} {tb : Int} {I : IRM F} {x : Nat × Rel F} (hT : H.tableOf n = some tb) (hI : H.irms.find? tb = some I)
    (hx : I.rels.find? n = some x) : H.scoreOf n = x.2.logpScore := by
  unfold scoreOf
  rw [show H.relOf n = some (tb, x.1, x.2) from relOf_some.mpr ⟨hT, I, hI, hx⟩]
  rfl

theorem sum_keys_change {K : Type} [DecidableEq K] {l : List K} (hnd : l.Nodup) {r : K} (hr : r ∈ l) {f g : K → ℝ}
    (h : ∀ n ∈ l, n ≠ r → g n = f n) : (l.map g).sum = (l.map f).sum - f r + g r := by
  have hp : l.Perm (r :: l.erase r) := List.perm_cons_erase hr
  rw [(hp.map g).sum_eq, (hp.map f).sum_eq]
  have : (l.erase r).map g = (l.erase r).map f := by
    refine List.map_congr_left fun n hn => ?_
    exact h n (List.mem_of_mem_erase hn) (by rintro rfl; exact hnd.not_mem_erase hn)
  simp only [List.map_cons, List.sum_cons, this]
  ring

/-- what the second half of a relation move does -/
theorem settle_scores {H K H' : HIRM F} (h : Skel H) {r : String} {t t1 : Tape} {lps : List (Int × ℝ)} {rc cur : Int} {aux : Option (Int × IRM F)}
    (hs : H.relationScores r t = .ok (lps, rc, cur, K, aux, t1)) {tb : Int} {lp : ℝ} (hm : (tb, lp) ∈ lps) {order : List Int}
    (ho : order.Perm K.crp.tables.keys) (hc : K.settle r rc cur tb order aux = .ok H') :
    ∃ w x, H.crp.tablesWeightsGibbs cur = .ok w ∧ w.find? tb = some x ∧ H.relToCode.find? r = some rc ∧ H.crp.assignments.find? rc = some cur ∧
      Skel H' ∧ H'.schema = H.schema ∧ H.schema.contains r = true ∧ (∀ n, H'.tableOf n = if n = r then some tb else H.tableOf n) ∧
      H'.crp.WF ∧ H'.crp.assignments = H.crp.assignments.set rc tb ∧ H'.crp.alpha = H.crp.alpha ∧
      lp = Real.log x + H'.scoreOf r ∧ ∀ n, H.schema.contains n = true → n ≠ r → H'.scoreOf n = H.scoreOf n := by
  obtain ⟨rc', h1, hs⟩ := bind_ok.mp hs
  obtain ⟨cur', h2, hs⟩ := bind_ok.mp hs
  obtain ⟨⟨p, rel⟩, h0, hs⟩ := bind_ok.mp hs
  obtain ⟨spec, h3, hs⟩ := bind_ok.mp hs
  obtain ⟨w, hw, hs⟩ := bind_ok.mp hs
  obtain ⟨⟨lps', H1, aux', t1'⟩, h4, hs⟩ := bind_ok.mp hs
  cases hs
  have hrc := FMap.atKey_ok.mp h1
  have hcr := FMap.atKey_ok.mp h2
  have hcur : H.tableOf r = some cur := by unfold tableOf; rw [hrc]; exact hcr
  have hdata : H.dataOf r = some rel.data := by
    obtain ⟨tb, id, h1, _⟩ := getRelation_ok.mp h0
    unfold dataOf; rw [h1]; rfl
  have hnd : ((shuffle w.entries t).1.map Prod.fst).Nodup :=
    ((shuffle_perm w.entries t).map _).nodup_iff.mpr (FMap.nodupKeys w)
  obtain ⟨hl, hS, _⟩ := scoreTables_inv _ _ _ _ _ _ _ _ hnd (fun _ _ h => by cases h) h4
  obtain ⟨hW, hO⟩ := scoreTables_weights _ _ _ _ _ _ _ _ hnd (fun _ _ h => by cases h) h4
  have hch : tb ∈ (shuffle w.entries t).1.map Prod.fst := by
    rw [← hl]
    exact List.mem_map.mpr ⟨_, hm, rfl⟩
  obtain ⟨m, h7, hc⟩ := bind_ok.mp hc
  obtain ⟨c1, h8, hc⟩ := bind_ok.mp hc
  obtain ⟨c2, h9, hc⟩ := bind_ok.mp hc
  obtain ⟨_, _, hc⟩ := bind_ok.mp hc
  replace hc : updateBase { K with irms := withAux aux tb m, crp := c2 } r = .ok H' := hc
  have h10 : order.Perm H.crp.tables.keys := by rw [hS.crp] at ho; exact ho
  obtain ⟨k1, k2, k3, k4⟩ := settle_moved h hcur (FMap.atKey_ok.mp h3) hdata hS hch h10 h7 rfl
  rw [hS.crp] at h8
  have hmv := h.moved (H' := { K with irms := withAux aux tb m, crp := c2 }) hrc hS.schema hS.relToCode hS.codeToRel h8 h9 k1 k2 k3
    (fun tb I hI n hn => (k4 tb I hI n hn).1)
  replace hc : updateBase { K with irms := withAux aux tb m, crp := c2 } r = .ok H' := hc
  have hk := updateBase_keys hc
  obtain ⟨hw1, e1, f1⟩ := crp_unincorporate h.crp h8
  obtain ⟨hw2, e2, f2⟩ := crp_incorporate hw1 h9
  have hond : order.Nodup := h10.nodup_iff.mpr (FMap.nodupKeys _)
  obtain ⟨ha, hb⟩ := dropOthers_inv _ _ _ hond h7
  have homem : ∀ u, u ∈ order ↔ ∃ I, H.irms.find? u = some I := by
    intro u
    rw [h10.mem_iff, ← FMap.contains_iff_mem, ← h.tables, FMap.contains_iff]
  obtain ⟨wt, I, x, a1, a2, a3, a4⟩ := hW tb lp hm
  have hwt : w.find? tb = some wt := FMap.mem_entries.mp ((shuffle_perm w.entries t).mem_iff.mp a1)
  -- the chosen IRM
  have hchosen : (withAux aux tb m).find? tb = some I := by
    rcases a2 with b1 | ⟨b1, b2⟩
    · have hH : ∃ J, H.irms.find? tb = some J := by
        cases hJ : H.irms.find? tb with
        | some J => exact ⟨J, rfl⟩
        | none => rw [hS.none_irm tb hJ] at b1; cases b1
      obtain ⟨J, J1, g1, g2, c3⟩ := hb tb ((homem tb).mpr hH)
      rw [if_pos rfl] at g2
      subst g2
      rw [b1] at g1; cases g1
      have hz : I.rels.size ≠ 0 := by
        intro hz
        have := size_zero_iff.mp hz r
        rw [FMap.contains_iff.mpr ⟨_, a3⟩] at this; cases this
      rw [if_neg hz] at c3
      cases hau : aux with
      | none => exact c3
      | some y =>
        have := hS.aux_none y.1 y.2 hau
        unfold withAux
        dsimp only
        rw [if_neg]
        · exact c3
        · rintro rfl
          obtain ⟨J, hJ⟩ := hH
          rw [hJ] at this; cases this
    · rw [b2]
      unfold withAux
      dsimp only
      rw [if_pos rfl, FMap.find?_set_self]
  refine ⟨w, wt, hw, hwt, hrc, hcr, hk.skel hmv.1, hk.schema.trans hS.schema, FMap.contains_iff.mpr ⟨_, FMap.atKey_ok.mp h3⟩,
    fun n => (hk.tableOf n).trans (hmv.2 n), ?_, ?_, ?_, ?_, ?_⟩
  · rw [hk.crp]; exact hw2
  · rw [hk.crp]
    dsimp only
    rw [e2, e1]
    refine FMap.ext fun k => ?_
    rw [FMap.find?_set, FMap.find?_set, FMap.find?_erase]
    split <;> simp_all
  · rw [hk.crp]; exact f2.trans f1
  · rw [a4, updateBase_score hc]
    congr 1
    exact (scoreOf_of (by rw [hmv.2, if_pos rfl]) hchosen a3).symm
  · intro n hn hne
    rw [updateBase_score hc]
    obtain ⟨u, hu⟩ := h.table_some hn
    obtain ⟨I0, hI0, hx0⟩ := h.irm hu
    obtain ⟨y, hy⟩ := FMap.contains_iff.mp hx0
    rw [scoreOf_of hu hI0 hy]
    obtain ⟨I1, c1, g2⟩ := hO u I0 hI0
    have hy1 : I1.rels.find? n = some y := (g2 n hne).trans hy
    have hu' : HIRM.tableOf { K with irms := withAux aux tb m, crp := c2 } n = some u := by rw [hmv.2, if_neg hne]; exact hu
    by_cases hut : u = tb
    · subst hut
      rcases a2 with b1 | ⟨b1, b2⟩
      · rw [c1] at b1; cases b1
        exact scoreOf_of hu' hchosen hy1
      · rw [c1] at b1; cases b1
    · obtain ⟨J, J1, d1, d2, d3⟩ := hb u ((homem u).mpr ⟨I0, hI0⟩)
      rw [if_neg hut] at d2
      rw [c1] at d1; cases d1
      obtain ⟨_, _, d4⟩ := IRM.removeRelation_keys d2.2
      have hyJ : J1.rels.find? n = some y := by rw [d4, FMap.find?_erase_ne _ hne]; exact hy1
      have hz : J1.rels.size ≠ 0 := by
        intro hz
        have := size_zero_iff.mp hz n
        rw [FMap.contains_iff.mpr ⟨_, hyJ⟩] at this; cases this
      rw [if_neg hz] at d3
      refine scoreOf_of hu' ?_ hyJ
      dsimp only
      unfold withAux
      split
      · split
        · rw [FMap.find?_set_ne _ hut]; exact d3
        · exact d3
      · exact d3

/-! ### the score of an HIRM is the sum of its parts -/

theorem sum_map_flatMap {A B : Type} (f : B → ℝ) (g : A → List B) : ∀ l : List A, ((l.flatMap g).map f).sum = (l.map (fun a => ((g a).map f).sum)).sum := by
  intro l
  induction l with
  | nil => rfl
  | cons a l ih => simp only [List.flatMap_cons, List.map_append, List.sum_append, List.map_cons, List.sum_cons, ih]

theorem Skel.names_perm {H : HIRM F} (h : Skel H) : (H.irms.entries.flatMap (fun e => e.2.rels.keys)).Perm H.schema.keys := by
  refine (List.perm_ext_iff_of_nodup ?_ (FMap.nodupKeys _)).mpr fun n => ?_
  · rw [List.nodup_flatMap]
    refine ⟨fun e _ => FMap.nodupKeys _, ?_⟩
    have hp : H.irms.entries.Pairwise (fun a b => a.1 ≠ b.1) := by
      have := FMap.nodupKeys H.irms
      rw [FMap.keys, List.Nodup, List.pairwise_map] at this
      exact this
    refine List.Pairwise.imp_of_mem (fun {a b} ha hb hab => ?_) hp
    intro n hna hnb
    have h1 := (h.place a.1 a.2 (FMap.mem_entries.mp ha) n).mp (FMap.contains_iff_mem.mpr hna)
    have h2 := (h.place b.1 b.2 (FMap.mem_entries.mp hb) n).mp (FMap.contains_iff_mem.mpr hnb)
    rw [h1] at h2
    exact hab (Option.some.inj h2)
  · rw [List.mem_flatMap, ← FMap.contains_iff_mem]
    constructor
    · rintro ⟨e, he, hn⟩
      have h1 := (h.place e.1 e.2 (FMap.mem_entries.mp he) n).mp (FMap.contains_iff_mem.mpr hn)
      obtain ⟨c, hc, _⟩ := Option.bind_eq_some_iff.mp h1
      rw [h.schema]
      exact FMap.contains_iff.mpr ⟨c, hc⟩
    · intro hn
      obtain ⟨tb, hT⟩ := h.table_some hn
      obtain ⟨I, hI, hx⟩ := h.irm hT
      exact ⟨(tb, I), FMap.mem_entries.mpr hI, FMap.contains_iff_mem.mp hx⟩

theorem Skel.score_parts {H : HIRM F} (h : Skel H) : H.logpScore = H.crp.logpScore + H.entityScore + H.dataScore := by
  have h1 : H.dataScore = (H.irms.vals.map (fun I => (I.rels.vals.map (fun r => r.2.logpScore)).sum)).sum := by
    unfold dataScore
    rw [← (h.names_perm.map H.scoreOf).sum_eq, sum_map_flatMap, FMap.vals, List.map_map]
    congr 1
    refine List.map_congr_left fun e he => ?_
    have hI := FMap.mem_entries.mp he
    simp only [Function.comp_apply, FMap.keys, FMap.vals, List.map_map]
    congr 1
    refine List.map_congr_left fun x hx => ?_
    have hx' := FMap.mem_entries.mp hx
    exact scoreOf_of ((h.place _ _ hI _).mp (FMap.contains_iff.mpr ⟨_, hx'⟩)) hI hx'
  rw [h1]
  unfold HIRM.logpScore entityScore IRM.logpScore
  rw [List.sum_map_add]
  ring

end HIRM
end
end Verif
