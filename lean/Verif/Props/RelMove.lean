import Verif.Lemmas.RelMove
import Verif.Props.HIRMMoves
/-!
C80: the weights of a relation move (`HIRM::transition_cluster_assignment_relation`).

The theorems hold for every family of distributions and emissions, whatever they compute, for every history of calls that returned
(`HIRM.History`) and every sequence of random draws.  `crp.logpScore`, `dataScore` and `entityScore` are the parts of `logp_score` that belong to
the partition of the relations, to the observations, and to the partitions of the entities.
-/
namespace Verif
open Spec
open Latent (bools boolLaws)
noncomputable section
variable {V : Type} {F : Family V}
namespace HIRM

/-- **C80**: `logp_score` is the sum of the three parts; every relation of the schema is counted exactly once. -/
theorem C80_score_parts {H : HIRM F} (h : History H) : H.logpScore = H.crp.logpScore + H.entityScore + H.dataScore := h.skel.score_parts

/-- **C80**: the candidates of a move are distinct: all tables that have relations, and one new table unless the relation is alone at its table. -/
theorem C80_candidates {H K : HIRM F} (h : History H) {r : String} {t t1 : Tape} {lps : List (Int × ℝ)} {rc cur : Int} {aux : Option (Int × IRM F)}
    (hs : H.relationScores r t = .ok (lps, rc, cur, K, aux, t1)) :
    (lps.map Prod.fst).Nodup ∧ H.tableOf r = some cur ∧
      ∃ new, (∀ n, n ≠ r → H.tableOf n ≠ some new) ∧ ((∀ n, n ≠ r → H.tableOf n ≠ some cur) → new = cur) ∧
        ∀ tb, tb ∈ lps.map Prod.fst ↔ tb = new ∨ ∃ n, H.tableOf n = some tb := by
  have hsk := h.skel
  obtain ⟨rc', h1, hs⟩ := bind_ok.mp hs
  obtain ⟨cur', h2, hs⟩ := bind_ok.mp hs
  obtain ⟨⟨p, rel⟩, h0, hs⟩ := bind_ok.mp hs
  obtain ⟨spec, h3, hs⟩ := bind_ok.mp hs
  obtain ⟨w, hw, hs⟩ := bind_ok.mp hs
  obtain ⟨⟨lps', H1, aux', t1'⟩, h4, hs⟩ := bind_ok.mp hs
  cases hs
  have hrc := FMap.atKey_ok.mp h1
  have hcr := FMap.atKey_ok.mp h2
  have hcur : H.tableOf r = some cur := by unfold tableOf; rw [hrc]; exact hcr
  have hnd : ((shuffle w.entries t).1.map Prod.fst).Nodup :=
    ((shuffle_perm w.entries t).map _).nodup_iff.mpr (FMap.nodupKeys w)
  obtain ⟨hl, hS, _⟩ := scoreTables_inv _ _ _ _ _ _ _ _ hnd (fun _ _ h => by cases h) h4
  obtain ⟨w', hw', new, n1, n2, n3, _⟩ := CRP.tablesWeightsGibbs_spec hsk.crp (i := rc) hcr
  rw [hw] at hw'; cases hw'
  -- an occupied table, without the relation
  have hocc : ∀ u, occupancy (without H.crp.seating rc) u ≠ 0 ↔ ∃ n, n ≠ r ∧ H.tableOf n = some u := by
    intro u
    have hfin : {j | without H.crp.seating rc j = some u}.Finite := by
      refine Set.Finite.subset (List.finite_toSet H.crp.assignments.keys) fun j hj => ?_
      simp only [without, Set.mem_ofPred_eq] at hj
      split at hj
      · cases hj
      · exact FMap.mem_keys.mpr ⟨u, hj⟩
    unfold occupancy
    rw [Ne, Set.ncard_eq_zero hfin, ← Ne, ← Set.nonempty_iff_ne_empty]
    constructor
    · rintro ⟨j, hj⟩
      simp only [without, Set.mem_ofPred_eq] at hj
      split at hj
      · cases hj
      · rename_i hne
        obtain ⟨n, hn, hT⟩ := hsk.name hj
        exact ⟨n, by rintro rfl; rw [hrc] at hn; exact hne (Option.some.inj hn).symm, hT⟩
    · rintro ⟨n, hne, hT⟩
      obtain ⟨c, hc1, hc2⟩ := Option.bind_eq_some_iff.mp hT
      refine ⟨c, ?_⟩
      simp only [without, Set.mem_ofPred_eq]
      rw [if_neg]
      · exact hc2
      · rintro rfl
        exact hne (hsk.code_inj hc1 hrc)
  refine ⟨by rw [hl]; exact hnd, hcur, new, fun n hn hT => (hocc new).mpr ⟨n, hn, hT⟩ n1, fun hh => n2 ?_ , fun tb => ?_⟩
  · by_contra h0
    obtain ⟨n, hn, hT⟩ := (hocc cur).mp h0
    exact hh n hn hT
  · rw [hl, ((shuffle_perm w.entries t).map Prod.fst).mem_iff]
    change tb ∈ w.keys ↔ _
    rw [FMap.mem_keys]
    by_cases hn : tb = new
    · subst hn
      exact ⟨fun _ => .inl rfl, fun _ => ⟨_, by rw [n3, if_pos rfl]⟩⟩
    · constructor
      · rintro ⟨x, hx⟩
        rw [n3, if_neg hn] at hx
        split at hx
        · cases hx
        · rename_i ho
          obtain ⟨n, _, hT⟩ := (hocc tb).mp ho
          exact .inr ⟨n, hT⟩
      · rintro (h | ⟨n, hT⟩)
        · exact absurd h hn
        · rw [n3, if_neg hn]
          have ho : occupancy (without H.crp.seating rc) tb ≠ 0 := by
            by_cases hnr : n = r
            · subst hnr
              rw [hcur] at hT
              cases hT
              exact fun h0 => hn (n2 h0).symm
            · exact (hocc tb).mpr ⟨n, hnr, hT⟩
          rw [if_neg ho]
          exact ⟨_, rfl⟩

/-- **C80**: the log weights with which a move of a relation draws its new table are, up to a common constant, the scores which the HIRM has after
the respective move, without the partitions of the entities. -/
theorem C80_move_weights {H K H' : HIRM F} (h : History H) {r : String} {t t1 : Tape} {lps : List (Int × ℝ)} {rc cur : Int} {aux : Option (Int × IRM F)}
    (hs : H.relationScores r t = .ok (lps, rc, cur, K, aux, t1)) {tb : Int} {lp lpcur : ℝ} (hm : (tb, lp) ∈ lps) (hcur : (cur, lpcur) ∈ lps)
    {order : List Int} (ho : order.Perm K.crp.tables.keys) (hc : K.settle r rc cur tb order aux = .ok H') :
    (∀ n, H'.tableOf n = if n = r then some tb else H.tableOf n) ∧
    (H'.crp.logpScore + H'.dataScore) - (H.crp.logpScore + H.dataScore) = lp - lpcur := by
  obtain ⟨w, x, hw, hx, hrc, hcr, hsk', hsch, hr, htab, hwf', hasg, hal, hlp, hoth⟩ := settle_scores h.skel hs hm ho hc
  -- the weight of the present table
  have hy : ∃ y, w.find? cur = some y ∧ lpcur = Real.log y + H.scoreOf r := by
    obtain ⟨rc', g1, gs⟩ := bind_ok.mp hs
    obtain ⟨cur', g2, gs⟩ := bind_ok.mp gs
    obtain ⟨⟨p, rel⟩, g0, gs⟩ := bind_ok.mp gs
    obtain ⟨spec, g3, gs⟩ := bind_ok.mp gs
    obtain ⟨w', gw, gs⟩ := bind_ok.mp gs
    obtain ⟨⟨lps', H1, aux', t1'⟩, g4, gs⟩ := bind_ok.mp gs
    cases gs
    rw [hw] at gw; cases gw
    have hnd : ((shuffle w.entries t).1.map Prod.fst).Nodup :=
      ((shuffle_perm w.entries t).map _).nodup_iff.mpr (FMap.nodupKeys w)
    obtain ⟨hl, hS, _⟩ := scoreTables_inv _ _ _ _ _ _ _ _ hnd (fun _ _ h => by cases h) g4
    obtain ⟨hW, _⟩ := scoreTables_weights _ _ _ _ _ _ _ _ hnd (fun _ _ h => by cases h) g4
    obtain ⟨y, I, z, a1, a2, a3, a4⟩ := hW cur lpcur hcur
    have hT : H.tableOf r = some cur := by unfold tableOf; rw [hrc]; exact hcr
    obtain ⟨I0, hI0, _⟩ := h.skel.irm hT
    have hk := hS.kept cur I0 hI0 (.inr rfl)
    refine ⟨y, FMap.mem_entries.mp ((shuffle_perm w.entries t).mem_iff.mp a1), ?_⟩
    rcases a2 with b | ⟨b, _⟩
    · rw [hk] at b; cases b
      rw [a4, scoreOf_of hT hI0 a3]
    · rw [hk] at b; cases b
  obtain ⟨y, hy, hlpc⟩ := hy
  have hcrp := CRP.moved_score h.skel.crp hwf' (by rw [h.alpha]; norm_num) hal hcr hasg hw hx hy
  have hdat : H'.dataScore = H.dataScore - H.scoreOf r + H'.scoreOf r := by
    unfold dataScore
    rw [hsch]
    exact sum_keys_change (FMap.nodupKeys _) (FMap.contains_iff_mem.mp hr) (fun n hn hne => hoth n (FMap.contains_iff_mem.mpr hn) hne)
  refine ⟨htab, ?_⟩
  rw [hcrp, hdat, hlp, hlpc]
  ring

/-- **C80**, for the whole call: `transition_cluster_assignment_relation` computes the log weights of the candidates, draws one of them, and moves the
relation there; the score without the partitions of the entities then changes by the difference of the log weights of the drawn and the old table. -/
theorem C80_move {H H' : HIRM F} (h : History H) {r : String} {t t' : Tape} (hc : H.transitionRelation r t = .ok (H', t')) :
    ∃ lps rc cur K aux t1 tb lp lpcur, H.relationScores r t = .ok (lps, rc, cur, K, aux, t1) ∧ lps[(draw lps.length t1).1]? = some (tb, lp) ∧
      (cur, lpcur) ∈ lps ∧ H.tableOf r = some cur ∧ H'.tableOf r = some tb ∧
      (H'.crp.logpScore + H'.dataScore) - (H.crp.logpScore + H.dataScore) = lp - lpcur := by
  have hc0 := hc
  obtain ⟨rc, h1, hc⟩ := bind_ok.mp hc
  obtain ⟨cur, h2, hc⟩ := bind_ok.mp hc
  obtain ⟨⟨p, rel⟩, h0, hc⟩ := bind_ok.mp hc
  obtain ⟨spec, h3, hc⟩ := bind_ok.mp hc
  obtain ⟨w, hw, hc⟩ := bind_ok.mp hc
  obtain ⟨⟨lps, K, aux, t1⟩, h4, hc⟩ := bind_ok.mp hc
  obtain ⟨ch, h5, hc⟩ := bind_ok.mp hc
  obtain ⟨H2, h6, hc⟩ := bind_ok.mp hc
  cases hc
  have hs : H.relationScores r t = .ok (lps, rc, cur, K, aux, t1) :=
    bind_ok.mpr ⟨rc, h1, bind_ok.mpr ⟨cur, h2, bind_ok.mpr ⟨(p, rel), h0, bind_ok.mpr ⟨spec, h3, bind_ok.mpr ⟨w, hw, bind_ok.mpr
      ⟨(lps, K, aux, t1), h4, rfl⟩⟩⟩⟩⟩⟩
  obtain ⟨_, hT, new, _, _, hmem⟩ := C80_candidates h hs
  obtain ⟨⟨u, lpcur⟩, hcm, hu⟩ := List.mem_map.mp ((hmem cur).mpr (.inr ⟨r, hT⟩))
  dsimp only at hu
  subst hu
  have hidx : lps[(draw lps.length t1).1]? = some ch := by
    unfold idxR at h5
    split at h5
    · cases h5; assumption
    · cases h5
  obtain ⟨a1, a2⟩ := C80_move_weights h hs (tb := ch.1) (lp := ch.2) (List.mem_of_getElem? hidx) hcm (shuffle_perm _ _) h6
  exact ⟨lps, rc, u, K, aux, t1, ch.1, ch.2, lpcur, hs, hidx, hcm, hT, by rw [a1, if_pos rfl], a2⟩

/-- C80: if a move changes no score of a partition of entities, `logp_score` changes by the difference of the log weights -/
theorem C80_score {H H' : HIRM F} (h : History H) {r : String} {t t' : Tape} (hc : H.transitionRelation r t = .ok (H', t'))
    (he : H'.entityScore = H.entityScore) :
    ∃ lps rc cur K aux t1 tb lp lpcur, H.relationScores r t = .ok (lps, rc, cur, K, aux, t1) ∧ lps[(draw lps.length t1).1]? = some (tb, lp) ∧
      (cur, lpcur) ∈ lps ∧ H.tableOf r = some cur ∧ H'.tableOf r = some tb ∧ H'.logpScore - H.logpScore = lp - lpcur := by
  obtain ⟨lps, rc, cur, K, aux, t1, tb, lp, lpcur, a1, a2, a3, a4, a5, a6⟩ := C80_move h hc
  refine ⟨lps, rc, cur, K, aux, t1, tb, lp, lpcur, a1, a2, a3, a4, a5, ?_⟩
  rw [C80_score_parts h, C80_score_parts (.move h hc), he]
  linarith

/-! ### examples -/

theorem mv4_history : History mv4 := .incorporate (.incorporate (.incorporate (mk'_history mv1_eq) mv2_eq) mv3_eq) mv4_eq

/-- C80_score_parts, C80_move: the hypotheses hold for the models of `Props/HIRMMoves`, with three relations at two tables -/
example : mv4.logpScore = mv4.crp.logpScore + mv4.entityScore + mv4.dataScore := C80_score_parts mv4_history
example (r : String) (hr : mv4.schema.contains r = true) (t : Tape) :
    ∃ H' t' lps rc cur K aux t1 tb lp lpcur, mv4.transitionRelation r t = .ok (H', t') ∧ mv4.relationScores r t = .ok (lps, rc, cur, K, aux, t1) ∧
      lps[(draw lps.length t1).1]? = some (tb, lp) ∧ (cur, lpcur) ∈ lps ∧ H'.tableOf r = some tb ∧
      (H'.crp.logpScore + H'.dataScore) - (mv4.crp.logpScore + mv4.dataScore) = lp - lpcur := by
  obtain ⟨H', t', table, h1, _⟩ := C61_move mv4_reach hr t
  obtain ⟨lps, rc, cur, K, aux, t1, tb, lp, lpcur, a1, a2, a3, _, a5, a6⟩ := C80_move mv4_history h1
  exact ⟨H', t', lps, rc, cur, K, aux, t1, tb, lp, lpcur, h1, a1, a2, a3, a5, a6⟩

/-- C80_candidates: `A` has the candidates 0, 1 (the occupied tables) and one more; it shares table 0 with `B` -/
example {lps : List (Int × ℝ)} {rc cur : Int} {K : HIRM bools} {aux : Option (Int × IRM bools)} {t1 : Tape}
    (hs : mv4.relationScores "A" [] = .ok (lps, rc, cur, K, aux, t1)) : cur = 0 ∧ ∃ new, new ≠ 0 ∧ new ≠ 1 ∧ ∀ tb ∈ [0, 1, new], tb ∈ lps.map Prod.fst := by
  obtain ⟨_, hT, new, h1, _, h3⟩ := C80_candidates mv4_history hs
  have h0 : mv4.tableOf "A" = some 0 := rfl
  rw [h0] at hT
  refine ⟨(Option.some.inj hT).symm, new, fun e => h1 "B" (by decide) (by rw [e]; rfl), fun e => h1 "C" (by decide) (by rw [e]; rfl), ?_⟩
  intro tb htb
  rw [h3]
  simp only [List.mem_cons, List.not_mem_nil, or_false] at htb
  rcases htb with rfl | rfl | rfl
  · exact .inr ⟨"A", rfl⟩
  · exact .inr ⟨"C", rfl⟩
  · exact .inl rfl
/-- C80_score: after the move of `C30_false` the other IRM has all entities of `A`, and moving `A` once more changes no partition of entities -/
theorem mv5_weights : mv5.crp.tablesWeightsGibbs 0 =
    .ok (((((∅ : FMap Int ℝ).set 0 ((2 : Nat) : ℝ)).set 1 ((1 : Nat) : ℝ)).set 2 1).set 0 (((2 : Nat) : ℝ) - 1)) := by
  have h : mv5.crp.tablesWeights.atKey 0 = .ok ((2 : Nat) : ℝ) := rfl
  have h2 : (((2 : Nat) : ℝ) - 1) ≠ 0 := by norm_num
  refine bind_ok.mpr ⟨(), rfl, bind_ok.mpr ⟨(), rfl, bind_ok.mpr ⟨_, h, ?_⟩⟩⟩
  rw [if_neg h2]
  rfl
def mvAgain : HIRM bools := got (do
  let (lps, H, aux, t) ← scoreTables "A" 0 (.noisy () ["D", "E"] "B" true) ((∅ : FMap Items Bool).set [3, 5] false) [(0,((2 : Nat) : ℝ) - 1),(1,((1 : Nat) : ℝ)),(2,1)] mv5 none []
  let (k, t) := draw lps.length t
  let choice ← idxR lps k
  let (order, t) := shuffle H.crp.tables.keys t
  let H ← H.settle "A" 3 0 choice.1 order aux
  .ok (H, t))
theorem mvAgain_eq : mv5.transitionRelation "A" [] = .ok (mvAgain, []) := by
  refine bind_ok.mpr ⟨_, rfl, bind_ok.mpr ⟨0, rfl, bind_ok.mpr ⟨_, rfl, bind_ok.mpr ⟨_, rfl, bind_ok.mpr ⟨_, mv5_weights, rfl⟩⟩⟩⟩⟩
/-- the partitions of the entities -/
def entityCrps (H : HIRM F) : List (List CRP) := H.irms.vals.map (fun I => I.doms.vals.map (fun d => d.crp))
theorem entityScore_eq (H : HIRM F) : H.entityScore = (H.entityCrps.map (fun l => (l.map (fun c => c.logpScore)).sum)).sum := by
  simp only [entityScore, entityCrps, List.map_map, Function.comp_def]
theorem mv5_crps : mv5.entityCrps = [[(({} : CRP).incState 3 0), (({} : CRP).incState 5 0)], [((({} : CRP).incState 9 0).incState 5 0)]] := rfl
theorem mvAgain_crps : mvAgain.entityCrps = [[(({} : CRP).incState 3 0), (({} : CRP).incState 5 0)], [((({} : CRP).incState 9 0).incState 5 0)]] := rfl
example : ∃ lps rc cur K aux t1 tb lp lpcur, mv5.relationScores "A" [] = .ok (lps, rc, cur, K, aux, t1) ∧ lps[(draw lps.length t1).1]? = some (tb, lp) ∧
    (cur, lpcur) ∈ lps ∧ mv5.tableOf "A" = some cur ∧ mvAgain.tableOf "A" = some tb ∧ mvAgain.logpScore - mv5.logpScore = lp - lpcur :=
  C80_score (.move mv4_history mv5_eq) mvAgain_eq (by rw [entityScore_eq, entityScore_eq, mvAgain_crps, mv5_crps])

/-- The same is false for the whole `logp_score`, even if the relation draws the table it has: all relations of `mv4` stay as they are, and yet the
score changes, because an IRM that was not drawn has gained an entity (see C30). -/
theorem C80_stay_false : ∃ (H H' : HIRM bools) (r : String), Reach boolLaws H ∧ History H ∧ H.transitionRelation r [] = .ok (H', []) ∧
    (∀ n, H'.relOf n = H.relOf n) ∧ H'.logpScore < H.logpScore := by
  refine ⟨mv4, mv5, "A", mv4_reach, mv4_history, mv5_eq, (C30_same_table_partial mv4_reach mv5_eq (table := 0) rfl rfl).1, ?_⟩
  rw [C80_score_parts mv4_history, C80_score_parts (.move mv4_history mv5_eq)]
  have h1 : mv5.dataScore = mv4.dataScore := by
    unfold dataScore
    have e : mv5.schema.keys = mv4.schema.keys := rfl
    rw [e]
    refine congrArg (fun f => (mv4.schema.keys.map f).sum) (funext fun n => ?_)
    unfold scoreOf
    rw [(C30_same_table_partial mv4_reach mv5_eq (table := 0) rfl rfl).1 n]
  have h2 : mv5.crp = mv4.crp := rfl
  have h3 : mv4.entityCrps = [[(({} : CRP).incState 3 0), (({} : CRP).incState 5 0)], [(({} : CRP).incState 9 0)]] := rfl
  have h5 := CRP.score_incState (c := ({} : CRP).incState 9 0) ((CRP.WF.init 1).incState rfl 0) (by change (0 : ℝ) < 1; norm_num) (i := 5) rfl 0
  have h6 : (({} : CRP).incState 9 0).N = 1 := rfl
  have h7 : (({} : CRP).incState 9 0).alpha = 1 := rfl
  have h8 : (({} : CRP).incState 9 0).tables.find? 0 = some (FSet.insert ∅ 9) := rfl
  have h9 : (FSet.insert (∅ : FSet Int) 9).size = 1 := rfl
  rw [h6, h7, h8] at h5
  dsimp only at h5
  rw [h9] at h5
  have h10 : 0 < Real.log ((1 : Int) + 1 : ℝ) := Real.log_pos (by norm_num)
  have h11 : Real.log ((1 : Nat) : ℝ) = 0 := by simp
  rw [h1, h2, entityScore_eq, entityScore_eq, h3, mv5_crps]
  simp only [List.map_cons, List.map_nil, List.sum_cons, List.sum_nil]
  rw [h5, h11]
  linarith

/-- `A` has weights -/
example : ∃ lps rc cur K aux t1, mv4.relationScores "A" [] = .ok (lps, rc, cur, K, aux, t1) := by
  obtain ⟨lps, rc, cur, K, aux, t1, _, _, _, h, _⟩ := C80_move mv4_history mv5_eq
  exact ⟨lps, rc, cur, K, aux, t1, h⟩

end HIRM
end
end Verif
