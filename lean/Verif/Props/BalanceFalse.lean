import Verif.Lemmas.BalanceOne
import Verif.Props.Balance
/-! C79 is false once the parameters of clusters have been resampled: a cluster that vanishes loses its parameters, and a new one starts with the
default ones, which the probabilities of the moves do not take into account. -/
namespace Verif
noncomputable section
namespace IRM
open Latent (bools boolLaws)

/-- entity 2 of `D` is seated at table 1 and observed by `R` -/
def res1 : IRM bools := { ex1 with doms := ex1.doms.set "D" (run ((run (ex1.doms.atKey "D")).incorporate 2 [] 1)).1 }
def res2 : IRM bools := (run (incorporate res1.env res1 "R" [2] true [])).1
/-- the parameters of its cluster are resampled -/
def res3 : IRM bools := (run (hparamsSweep 0 ["R"] res2 [0, 1])).1
/-- entity 1 is seated at table 0 and observed -/
def res4 : IRM bools := { res3 with doms := res3.doms.set "D" (run ((run (res3.doms.atKey "D")).incorporate 1 [] 0)).1 }
def res5 : IRM bools := (run (incorporate res4.env res4 "R" [1] true [])).1

/-- the same without resampling -/
def unr4 : IRM bools := { res2 with doms := res2.doms.set "D" (run ((run (res2.doms.atKey "D")).incorporate 1 [] 0)).1 }
def unr5 : IRM bools := (run (incorporate unr4.env unr4 "R" [1] true [])).1

theorem res2_reach : Reach boolLaws False True 1 res2 :=
  (Reach.seat trivial (Reach.empty.add (spec := .clean () ["D"] false) (by simp) rfl : Reach boolLaws False True 1 ex1) (d := "D") (i := 2) (table := 1)
    (t := []) (t' := []) rfl rfl : Reach boolLaws False True 1 res1).incorporate
    (name := "R") (items := [2]) (v := true) (t := []) (t' := []) (fun _ _ _ => supports_bools) rfl

theorem res5_reach : Reach boolLaws False True 1 res5 :=
  (Reach.seat trivial (res2_reach.hparams (rs := ["R"]) (k := 0) (t := [0, 1]) (t' := []) rfl : Reach boolLaws False True 1 res3) (d := "D") (i := 1) (table := 0)
    (t := []) (t' := []) rfl rfl : Reach boolLaws False True 1 res4).incorporate
    (name := "R") (items := [1]) (v := true) (t := []) (t' := []) (fun _ _ _ => supports_bools) rfl

theorem unr5_reach : Reach boolLaws False True 1 unr5 :=
  (Reach.seat trivial res2_reach (d := "D") (i := 1) (table := 0) (t := []) (t' := []) rfl rfl : Reach boolLaws False True 1 unr4).incorporate
    (name := "R") (items := [1]) (v := true) (t := []) (t' := []) (fun _ _ _ => supports_bools) rfl

/-- the cluster of entity 2 after the resampling -/
def moved : BetaBernoulli := ((({} : BetaBernoulli).incorporate true).transitionHyperparameters [1]).1

def relOf5 (I : IRM bools) : CleanRel BetaBernoulli.ops :=
  match I.rels.find? "R" with
  | some (_, .clean _ r) => r
  | _ => { doms := [] }

theorem res5_rels : res5.rels.entries = [("R", (0, .clean () (relOf5 res5)))] := rfl
theorem unr5_rels : unr5.rels.entries = [("R", (0, .clean () (relOf5 unr5)))] := rfl
theorem res5_clusters : (relOf5 res5).clusters.entries = [([0], ({} : BetaBernoulli).incorporate true), ([1], moved)] := rfl
theorem unr5_clusters : (relOf5 unr5).clusters.entries = [([0], ({} : BetaBernoulli).incorporate true), ([1], ({} : BetaBernoulli).incorporate true)] := rfl
theorem res5_data : (relOf5 res5).data.entries = [([1], true), ([2], true)] := rfl
theorem unr5_data : (relOf5 unr5).data = (relOf5 res5).data := rfl
theorem unr5_doms : unr5.doms = res5.doms := rfl

theorem res5_same : SameData unr5 res5 where
  schema := rfl
  baseToNoisy := rfl
  domToRels := rfl
  rels n := by
    rw [find_single unr5_rels, find_single res5_rels]
    split
    · exact .inr ⟨_, _, _, rfl, rfl, ⟨rfl, rfl, rfl, rfl, rfl, rfl⟩⟩
    · exact .inl ⟨rfl, rfl⟩
  doms d := by
    rw [unr5_doms]
    cases h : res5.doms.find? d with
    | none => exact .inl ⟨rfl, rfl⟩
    | some dom => exact .inr ⟨dom, dom, rfl, rfl, rfl, rfl⟩

theorem score_true {a b : ℝ} (ha : 0 < a) (hb : 0 < b) :
    (({ alpha := a, beta := b } : BetaBernoulli).incorporate true).logpScore = Real.log a - Real.log (a + b) := by
  obtain ⟨s', h⟩ := BetaBernoulli.coherent ⟨(a, b), ha, hb⟩ 0 (BetaBernoulli.rep (a, b) 0) true _ rfl trivial rfl
  have h0 : BetaBernoulli.ops.score (BetaBernoulli.rep (a, b) 0) = 0 := by
    show BetaBernoulli.logpScore _ = 0
    simp [BetaBernoulli.logpScore, BetaBernoulli.rep]
  rw [h0, sub_zero] at h
  have h1 : BetaBernoulli.logp (BetaBernoulli.rep (a, b) 0) true = BetaBernoulli.logpScore ((BetaBernoulli.rep (a, b) 0).incorporate true) := by
    injection h with h; exact congrArg Prod.fst h
  have h2 : (BetaBernoulli.rep (a, b) 0) = ({ alpha := a, beta := b } : BetaBernoulli) := by simp [BetaBernoulli.rep]
  rw [h2] at h1
  rw [← h1]
  simp [BetaBernoulli.logp]

/-- the resampled parameters are the first two points of the grid -/
theorem moved_score : ∃ x y : ℝ, x < y ∧ moved.logpScore = Real.log (Real.exp x) - Real.log (Real.exp x + Real.exp y) := by
  have h : moved = ({ alpha := BetaBernoulli.grid.getD 0 1, beta := BetaBernoulli.grid.getD 1 1 } : BetaBernoulli).incorporate true := rfl
  have g0 : BetaBernoulli.grid.getD 0 1 = Real.exp (Real.log 1e-4 + (Real.log 1e4 - Real.log 1e-4) / ((10 : ℕ) - 1) * (0 : ℕ)) := rfl
  have g1 : BetaBernoulli.grid.getD 1 1 = Real.exp (Real.log 1e-4 + (Real.log 1e4 - Real.log 1e-4) / ((10 : ℕ) - 1) * (1 : ℕ)) := rfl
  rw [h, g0, g1]
  refine ⟨_, _, ?_, score_true (Real.exp_pos _) (Real.exp_pos _)⟩
  have : Real.log 1e-4 < Real.log 1e4 := Real.log_lt_log (by norm_num) (by norm_num)
  have h3 : 0 < (Real.log 1e4 - Real.log 1e-4) / ((10 : ℕ) - 1) := div_pos (by linarith) (by norm_num)
  push_cast at h3 ⊢
  linarith

theorem res5_score : res5.logpScore ≠ unr5.logpScore := by
  have h1 : res5.logpScore = (res5.doms.vals.map (fun d => d.crp.logpScore)).sum +
      (((({} : BetaBernoulli).incorporate true).logpScore + (moved.logpScore + 0)) + 0) := rfl
  have h2 : unr5.logpScore = (res5.doms.vals.map (fun d => d.crp.logpScore)).sum +
      (((({} : BetaBernoulli).incorporate true).logpScore + ((({} : BetaBernoulli).incorporate true).logpScore + 0)) + 0) := rfl
  rw [h1, h2]
  have h3 := score_true (a := 1) (b := 1) one_pos one_pos
  obtain ⟨x, y, hxy, h4⟩ := moved_score
  intro he
  have h5 : moved.logpScore = Real.log 1 - Real.log (1 + 1) := by
    rw [← h3]
    have : (({} : BetaBernoulli).incorporate true).logpScore = (({ alpha := 1, beta := 1 } : BetaBernoulli).incorporate true).logpScore := rfl
    linarith
  rw [h4, ← Real.log_div (Real.exp_pos _).ne' (by positivity), ← Real.log_div one_ne_zero (by norm_num)] at h5
  have h6 := Real.log_injOn_pos (Set.mem_Ioi.mpr (by positivity)) (Set.mem_Ioi.mpr (by norm_num)) h5
  rw [div_eq_div_iff (by positivity) (by norm_num)] at h6
  have := Real.exp_lt_exp.mpr hxy
  linarith

theorem res5_seats (d : String) (i : Int) : seatOf res5.doms d i = if d = "D" ∧ i = 1 then some 0 else if d = "D" ∧ i = 2 then some 1 else none := by
  unfold seatOf
  rw [find_single (m := res5.doms) (k := "D") rfl]
  by_cases h1 : d = "D"
  · rw [if_pos h1]
    subst h1
    simp only [true_and]
    show FMap.find? _ i = _
    have he : ((((∅ : FMap Int Int).set 2 1).set 1 0)).find? i = if i = 1 then some 0 else if i = 2 then some 1 else none := by
      rw [FMap.find?_set, FMap.find?_set]; rfl
    exact he
  · simp [h1]

theorem res5_scorable (I : IRM bools) (h : SameData unr5 I) : ∀ m id r, I.rels.find? m = some (id, r) → r.Scorable boolLaws := by
  intro m id r hr
  rcases h.rels m with ⟨_, h2⟩ | ⟨id', r1, r2, h1, h2, h3⟩
  · rw [hr] at h2; cases h2
  · rw [hr] at h2; cases h2
    refine h3.scorable ?_
    rw [find_single unr5_rels] at h1
    split at h1
    · cases h1; exact scorable_bools_clean (List.nodup_singleton _)
    · cases h1

theorem born_true {D : DistOps Bool} {supp : Bool → Prop} {s : D.S} {t : Tape} (hx : supp true) (h : D.inc (D.fresh t).1 true = .ok s) :
    D.Born supp (true ::ₘ 0) s :=
  ⟨t, [.inc true], by simp [DataOp.keepsHypers], by simp [remaining, hx], by simp [DistOps.run, h, Except.bind]⟩

theorem contents5 {σ : Doms} {z : Items} {b : Bool} (h1 : tupleSeat σ ["D"] [1] = some z ↔ b = true) (h2 : tupleSeat σ ["D"] [2] = some z ↔ b = false) :
    contents (tupleSeat σ ["D"]) (relOf5 res5).data z = true ::ₘ 0 := by
  classical
  unfold contents
  rw [res5_data]
  cases b with
  | true =>
    have a1 := h1.mpr rfl
    have a2 : ¬ tupleSeat σ ["D"] [2] = some z := fun h => by cases h2.mp h
    rw [← Multiset.cons_coe, ← Multiset.cons_coe]
    simp [Multiset.filter_cons, Multiset.filter_singleton, a1, a2]
  | false =>
    have a1 : ¬ tupleSeat σ ["D"] [1] = some z := fun h => by cases h1.mp h
    have a2 := h2.mpr rfl
    rw [← Multiset.cons_coe, ← Multiset.cons_coe]
    simp [Multiset.filter_cons, Multiset.filter_singleton, a1, a2]

theorem tuple_one (σ : Doms) (i : Int) : tupleSeat σ ["D"] [i] = (seatOf σ "D" i).map fun z => [z] := by
  simp only [tupleSeat]
  cases seatOf σ "D" i <;> rfl

theorem unr5_unmoved : ∀ m id r, unr5.rels.find? m = some (id, r) → r.Scorable boolLaws ∧ r.Unmoved boolLaws unr5.doms := by
  intro m id r hr
  refine ⟨res5_scorable _ (.refl _) m id r hr, ?_⟩
  rw [find_single unr5_rels] at hr
  split at hr
  · cases hr
    intro z c hc
    have hz := FMap.mem_entries.mpr hc
    rw [unr5_doms]
    have hz : (z, c) ∈ [(([0] : Items), ({} : BetaBernoulli).incorporate true), ([1], ({} : BetaBernoulli).incorporate true)] := hz
    have s1 : tupleSeat res5.doms ["D"] [1] = some [0] := rfl
    have s2 : tupleSeat res5.doms ["D"] [2] = some [1] := rfl
    have hb : (bools.dist ()).toDistOps.Born (boolLaws.suppC ()) (true ::ₘ 0) (({} : BetaBernoulli).incorporate true) := born_true (t := []) trivial rfl
    have hcon : ∀ z, z = [0] ∨ z = [1] → contents (tupleSeat res5.doms ["D"]) (relOf5 res5).data z = true ::ₘ 0 := by
      rintro z (rfl | rfl)
      · exact contents5 (b := true) (by rw [s1]; simp) (by rw [s2]; simp)
      · exact contents5 (b := false) (by rw [s1]; simp) (by rw [s2]; simp)
    have hzz : (z = [0] ∨ z = [1]) ∧ c = ({} : BetaBernoulli).incorporate true := by
      rcases List.mem_cons.mp hz with h | h
      · cases h; exact ⟨.inl rfl, rfl⟩
      · have h := List.mem_singleton.mp h
        cases h; exact ⟨.inr rfl, rfl⟩
    obtain ⟨hz1, rfl⟩ := hzz
    have := hcon z hz1
    show (bools.dist ()).toDistOps.Born (boolLaws.suppC ()) (contents (tupleSeat res5.doms ["D"]) (relOf5 res5).data z) _
    rw [this]; exact hb
  · cases hr

/-- **C79 is false after parameters have been resampled**: entity 2, alone in a cluster with resampled parameters, joins entity 1.  No move back to the
partition from which it came has the probability that detailed balance needs. -/
theorem C79_resampled_false : ∃ (I I' : IRM bools) (p : ℝ), Reach boolLaws False True 1 I ∧
    (∀ m id r, I.rels.find? m = some (id, r) → r.Scorable boolLaws) ∧ MovesTo I "D" 2 p I' ∧
    (∃ q I'', MovesTo I' "D" 2 q I'' ∧ SamePartition I I'') ∧
    ∀ q I'', MovesTo I' "D" 2 q I'' → SamePartition I I'' → Real.exp I.logpScore * p ≠ Real.exp I'.logpScore * q := by
  have hinv := res5_reach.inv
  have hsc := res5_scorable res5 res5_same
  obtain ⟨dom, hdom, _⟩ := seatOf_some (show seatOf res5.doms "D" 2 = some 1 from rfl)
  have hcur : dom.crp.assignments.find? 2 = some 1 := by rw [← seatOf_eq hdom]; rfl
  obtain ⟨keys, lw, k1, k2, k3, k4, k5, k6⟩ := kernel hinv hdom hcur (fun n id r h _ => hsc n id r h)
  obtain ⟨I', hm, hd', hse⟩ := k6 0 (k4.1 1 0 (by decide) rfl)
  obtain ⟨_, _, _, _, _, hinv', _⟩ := k5 _ _ hm
  have hsc' := res5_scorable I' (res5_same.trans hd')
  -- the hyperparameters of the clusters
  have hrep : (boolLaws.dist ()).Rep ⟨(1, 1), by norm_num, by norm_num⟩ (true ::ₘ 0) (({} : BetaBernoulli).incorporate true) := by
    show _ = BetaBernoulli.rep (1, 1) (true ::ₘ 0)
    rw [← BetaBernoulli.inc_rep]
    congr 1
    simp [BetaBernoulli.rep]
  obtain ⟨h1, hh1⟩ := (boolLaws.dist ()).trans hrep [1]
  let hy : Items → (boolLaws.born.dist ()).H := fun z => if z = [1] then (false, h1) else boolLaws.starts.c ()
  have hborn : (boolLaws.born.dist ()).Rep (boolLaws.starts.c ()) (true ::ₘ 0) (({} : BetaBernoulli).incorporate true) :=
    DistOps.Born.rep (fun _ _ => rfl) (born_true (D := BetaBernoulli.ops) (t := []) trivial rfl)
  have s1 : tupleSeat res5.doms ["D"] [1] = some [0] := rfl
  have s2 : tupleSeat res5.doms ["D"] [2] = some [1] := rfl
  have hrel : res5.rels.find? "R" = some (0, .clean () (relOf5 res5)) := rfl
  have htr : CleanRel.TInv (boolLaws.born.dist ()) hy res5.doms (relOf5 res5) := by
    refine ⟨hinv.rels "R" _ _ hrel, ?_⟩
    intro z c hc
    have hz := FMap.mem_entries.mpr hc
    rw [res5_clusters] at hz
    rcases List.mem_cons.mp hz with h | h
    · cases h
      have := contents5 (σ := res5.doms) (z := [0]) (b := true) (by rw [s1]; simp) (by rw [s2]; simp)
      show (boolLaws.born.dist ()).Rep (boolLaws.starts.c ()) (contents (tupleSeat res5.doms ["D"]) (relOf5 res5).data [0]) _
      rw [this]; exact hborn
    · have h := List.mem_singleton.mp h
      cases h
      have := contents5 (σ := res5.doms) (z := [1]) (b := false) (by rw [s1]; simp) (by rw [s2]; simp)
      show (boolLaws.born.dist ()).Rep (false, h1) (contents (tupleSeat res5.doms ["D"]) (relOf5 res5).data [1]) _
      rw [this]
      exact ⟨hh1, fun e => by cases e⟩
  have hseat' : seatOf I'.doms "D" 2 = some 0 := by rw [hse]; simp
  have hseat1 : seatOf I'.doms "D" 1 = some 0 := by rw [hse]; rfl
  obtain ⟨cl, hrels', htr'⟩ := track_move (L := boolLaws.born) hinv.born hdom hcur (n := "R") (s := run (res5.domToRels.atKey "D")) rfl rfl hrel
    (List.mem_singleton.mpr rfl) rfl (Lawful.Scored.born BetaBernoulli.scored) htr hm hseat' (by decide) (by
      intro k v hk hu zz hzz ho
      exfalso
      have hk2 : k = [2] := by
        have hk := FMap.mem_entries.mpr hk
        rw [res5_data] at hk
        simp only [List.mem_cons, Prod.mk.injEq, List.not_mem_nil, or_false] at hk
        rcases hk with ⟨rfl, _⟩ | ⟨rfl, _⟩
        · have : (("D", 2) : String × Int) ∈ [("D", 1)] := hu
          simp at this
        · rfl
      subst hk2
      have hzz : tupleSeat I'.doms ["D"] [2] = some zz := hzz
      rw [tuple_one, hseat'] at hzz
      cases hzz
      have : true ∈ CleanRel.others (tupleSeat res5.doms (relOf5 res5).doms) (relOf5 res5).data (Uses (relOf5 res5).doms "D" 2) [0] := by
        unfold CleanRel.others contents
        rw [res5_data]
        refine Multiset.mem_map.mpr ⟨([1], true), Multiset.mem_filter.mpr ⟨by simp, ?_⟩, rfl⟩
        dsimp only
        rw [if_neg]
        · rfl
        · intro hu
          have : (("D", 2) : String × Int) ∈ [("D", 1)] := hu
          simp at this
      rw [ho] at this
      exact Multiset.notMem_zero _ this)
  have hu' : ∀ m id r, I'.rels.find? m = some (id, r) → r.Unmoved boolLaws I'.doms := by
    intro m id r hr
    rw [hrels', FMap.find?_set] at hr
    split at hr
    · cases hr
      intro z c hc
      have hz : z = [0] := by
        obtain ⟨k, v, hk, hkz⟩ := (htr'.inv.cl.exact.1 z).mp (FMap.contains_iff.mpr ⟨c, hc⟩)
        have hk := FMap.mem_entries.mpr hk
        have hk : (k, v) ∈ (relOf5 res5).data.entries := hk
        rw [res5_data] at hk
        simp only [List.mem_cons, Prod.mk.injEq, List.not_mem_nil, or_false] at hk
        have hkz : tupleSeat I'.doms ["D"] k = some z := hkz
        rcases hk with ⟨rfl, _⟩ | ⟨rfl, _⟩
        · rw [tuple_one, hseat1] at hkz; cases hkz; rfl
        · rw [tuple_one, hseat'] at hkz; cases hkz; rfl
      subst hz
      exact (htr'.tr [0] c hc).2 rfl
    · rename_i hne
      rw [find_single res5_rels, if_neg hne] at hr
      cases hr
  obtain ⟨dom', hdom', _⟩ := seatOf_some hseat'
  have hcur' : dom'.crp.assignments.find? 2 = some 0 := by rw [← seatOf_eq hdom']; exact hseat'
  obtain ⟨keys', lw', _, _, _, ⟨_, new, hn1, hn2⟩, j5, j6⟩ := kernel hinv' hdom' hcur' (fun n id r h _ => hsc' n id r h)
  have others1 : ∀ j, j ≠ 2 → ∀ u, seatOf res5.doms "D" j = some u → u = 0 := by
    intro j hj u hu
    rw [res5_seats] at hu
    split at hu
    · cases hu; rfl
    · rw [if_neg (fun hh => hj hh.2)] at hu; cases hu
  have others2 : ∀ j, j ≠ 2 → ∀ u, seatOf I'.doms "D" j = some u → u = 0 := by
    intro j hj u hu
    rw [hse, if_neg (fun hh => hj hh.2)] at hu
    exact others1 j hj u hu
  have hp := flow_two hinv hdom hcur (fun n id r h _ => hsc n id r h) hm hseat' (by decide) others1 (.inl rfl)
  refine ⟨res5, I', _, res5_reach, hsc, hm, ?_, ?_⟩
  · obtain ⟨I'', m1, _, m3⟩ := j6 new hn1
    refine ⟨_, I'', m1, samePartition_of (d := "D") (item := 2) (a := 1) (b := new) (fun d' i hn => ?_) rfl (by rw [m3]; simp) (.inr fun j hj => ⟨?_, ?_⟩)⟩
    · rw [m3, if_neg hn, hse, if_neg hn]
    · intro hh
      have := others1 j hj 1 hh
      revert this; decide
    · intro hh
      refine hn2 j hj ?_
      rw [hse, if_neg (fun hx => hj hx.2)]; exact hh
  · intro q I'' m1 m2 heq
    obtain ⟨z, hz, _, d2, r2, i2, _⟩ := j5 q I'' m1
    have hz0 : z ≠ 0 := by
      rintro rfl
      obtain ⟨u, u1, u2⟩ := (m2 "D" 1 2).mpr ⟨0, by rw [r2, if_neg (by decide)]; exact hseat1, by rw [r2]; simp⟩
      have e1 : seatOf res5.doms "D" 1 = some 0 := rfl
      have e2 : seatOf res5.doms "D" 2 = some 1 := rfl
      rw [e1] at u1; rw [e2] at u2
      cases u1; cases u2
    have hq := flow_two hinv' hdom' hcur' (fun n id r h _ => hsc' n id r h) m1 (z := z) (by rw [r2]; simp) hz0 others2 (.inr rfl)
    obtain ⟨_, a2, u2⟩ := move_unmoved hinv' hdom' hcur' (fun n id r h => ⟨fun _ => hsc' n id r h, hu' n id r h⟩) m1
    obtain ⟨t, tables, logps, order, I1, t1, z1, x, t2, t2', k, c1, c2, c3, c4, c5⟩ := id hm
    have a1 := move_alphas hinv hdom hcur c1 c5
    have hi0 := unr5_reach.inv
    rw [show arOf unr5.env = arOf res5.env from res5_same.shape.env.symm] at hi0
    have hsame : I''.logpScore = unr5.logpScore := by
      refine label_score hi0 i2 ((res5_same.trans hd').trans d2) ?_ ?_ unr5_unmoved u2
      · have a0 : SameAlphas unr5 res5 := by
          intro d dom dom' h1 h2
          rw [unr5_doms, h2] at h1; cases h1; rfl
        exact (a0.trans res5_same a1).trans (res5_same.trans hd') a2
      · intro d i j
        rw [unr5_doms]
        exact m2 d i j
    rw [hp, hq, hsame] at heq
    have p1 := Real.exp_pos res5.logpScore
    have p2 := Real.exp_pos I'.logpScore
    have p3 := Real.exp_pos unr5.logpScore
    refine res5_score (Real.exp_injective ?_)
    rw [mul_div_assoc', mul_div_assoc', div_eq_div_iff (by positivity) (by positivity)] at heq
    have h2 : Real.exp I'.logpScore ^ 2 * (Real.exp res5.logpScore - Real.exp unr5.logpScore) = 0 := by ring_nf at heq ⊢; linarith
    rcases mul_eq_zero.mp h2 with h | h
    · exact absurd h (by positivity)
    · linarith

end IRM
end
end Verif
