import Verif.Lemmas.Reach
import Verif.Lemmas.Math
/-! Lemmas about the predictive scores of a relation. -/
namespace Verif
noncomputable section
open Spec
namespace CleanRel
variable {V : Type} {D : DistOps V} {supp : V → Prop}

theorem score_set (D : DistOps V) (cl : FMap Items D.S) (z : Items) (c1 : D.S) :
    ((cl.set z c1).vals.map D.score).sum = D.score c1 + ((cl.erase z).vals.map D.score).sum := by
  have := (((FMap.perm_set cl z c1).map Prod.snd).map D.score).sum_eq
  simpa [FMap.vals] using this

theorem score_replace (D : DistOps V) {cl : FMap Items D.S} {z : Items} {c0 : D.S} (h : cl.find? z = some c0) (c1 : D.S) :
    ((cl.set z c1).vals.map D.score).sum = (cl.vals.map D.score).sum + (D.score c1 - D.score c0) := by
  have h1 := score_set D cl z c1
  have h2 := score_set D cl z c0
  rw [FMap.set_of_find h] at h2
  rw [h1, h2]; ring

theorem score_add (D : DistOps V) {cl : FMap Items D.S} {z : Items} (h : cl.find? z = none) (c1 : D.S) :
    ((cl.set z c1).vals.map D.score).sum = (cl.vals.map D.score).sum + D.score c1 := by
  rw [score_set, FMap.erase_of_not_mem h]; ring

theorem containsLoop_eq {σ : Doms} (hσ : StoreWF σ) : ∀ {ds : List String} {is z : Items}, tupleSeat σ ds is = some z →
    containsLoop σ ds is = .ok (some z)
  | [], [], z, h => by simp only [tupleSeat] at h; cases h; rfl
  | [], _ :: _, z, h => by simp [tupleSeat] at h
  | _ :: _, [], z, h => by simp [tupleSeat] at h
  | d :: ds, i :: is, z, h => by
    obtain ⟨a, b, h1, h2, rfl⟩ := tupleSeat_cons.mp h
    obtain ⟨dom, hd, ha⟩ := seatOf_some h1
    have hp : dom.items.contains i = true := (hσ d dom hd).mem.mpr ⟨a, ha⟩
    simp only [containsLoop, bind, Except.bind, Doms.get_eq hd, hp, if_true,
      Domain.getClusterAssignment_eq (hσ d dom hd) ha, containsLoop_eq hσ h2, Option.map_some]

theorem clustersContains_eq {σ : Doms} (hσ : StoreWF σ) {r : CleanRel D} {items z : Items} (h : tupleSeat σ r.doms items = some z) :
    clustersContains σ r items = .ok (r.clusters.contains z) := by
  simp [clustersContains, bind, Except.bind, (tupleSeat_length h).1, containsLoop_eq hσ h]

theorem fromItems_eq {σ : Doms} (hσ : StoreWF σ) {r : CleanRel D} {items z : Items} (h : tupleSeat σ r.doms items = some z)
    (v : V) (t : Tape) : clusterOrPriorLogpFromItems σ r items v t = clusterOrPriorLogp r z v t := by
  unfold clusterOrPriorLogpFromItems clusterOrPriorLogp
  simp only [clustersContains_eq hσ h, bind, Except.bind]
  cases hc : r.clusters.find? z with
  | none => rw [FMap.contains_false.mpr hc]; rfl
  | some c =>
    rw [FMap.contains_iff.mpr ⟨c, hc⟩]
    simp only [if_true, clusterOf_eq hσ h, FMap.atKey_of_find hc]

theorem choicesLoop_eq {σ : Doms} (hσ : StoreWF σ) : ∀ {ds : List String} {is z : Items}, tupleSeat σ ds is = some z →
    choicesLoop σ ds is = .ok (z.map (fun i => [(i, (0 : ℝ))]))
  | [], [], z, h => by simp only [tupleSeat] at h; cases h; rfl
  | [], _ :: _, z, h => by simp [tupleSeat] at h
  | _ :: _, [], z, h => by simp [tupleSeat] at h
  | d :: ds, i :: is, z, h => by
    obtain ⟨a, b, h1, h2, rfl⟩ := tupleSeat_cons.mp h
    obtain ⟨dom, hd, ha⟩ := seatOf_some h1
    have hp : dom.items.contains i = true := (hσ d dom hd).mem.mpr ⟨a, ha⟩
    simp only [choicesLoop, tableChoices, bind, Except.bind, Doms.get_eq hd, hp, if_true,
      Domain.getClusterAssignment_eq (hσ d dom hd) ha, choicesLoop_eq hσ h2, List.map_cons]

theorem productLoop_single : ∀ (n : Nat) (acc : List Int),
    productLoop [acc] (List.replicate n [(0 : Int)]) = [acc ++ List.replicate n 0]
  | 0, acc => by simp [productLoop]
  | n + 1, acc => by
    simp only [List.replicate_succ, productLoop]
    have : ([acc].flatMap fun e => [(0 : Int)].map fun f => e ++ [f]) = [acc ++ [0]] := rfl
    rw [this, productLoop_single n]
    simp

theorem product_single {n : Nat} (hn : n ≠ 0) : product (List.replicate n [(0 : Int)]) = .ok [List.replicate n 0] := by
  obtain ⟨m, rfl⟩ := Nat.exists_eq_succ_of_ne_zero hn
  unfold product
  have : (List.replicate (m + 1) [(0 : Int)]).any (·.isEmpty) = false := by simp
  rw [this]
  simp only [Bool.false_eq_true, if_false, List.replicate_succ]
  have : [(0 : Int)].map (fun e => [e]) = [[0]] := rfl
  rw [this, productLoop_single]
  rfl

theorem pickTables_single : ∀ z : Items, pickTables (z.map (fun i => [(i, (0 : ℝ))])) (List.replicate z.length 0) = .ok (z, 0)
  | [] => rfl
  | a :: z => by
    simp only [List.map_cons, List.length_cons, List.replicate_succ, pickTables, pickTables_single z, bind, Except.bind, atR]
    simp

theorem logsumexp_single (x : ℝ) : logsumexp [(x : WithBot ℝ)] = .ok x := by
  simp [logsumexp, maxIndex, idxR, logsumexpLoop, bind, Except.bind]

/-- for a tuple of entities that are all known, `logp` is the score of the one cluster that the tuple belongs to -/
theorem logp_known {σ : Doms} (hσ : StoreWF σ) {r : CleanRel D} (hd : r.doms ≠ []) {items z : Items}
    (h : tupleSeat σ r.doms items = some z) (v : V) (t : Tape) {lp : ℝ} {c c' : D.S}
    (hc : c = (r.clusters.find? z).getD (D.fresh t).1) (hlp : D.logp c v = .ok (lp, c')) :
    ∃ r' t', logp σ r items v t = .ok ((lp : WithBot ℝ), r', t') := by
  obtain ⟨hl1, hl2⟩ := tupleSeat_length h
  have hz : z ≠ [] := by
    intro hz
    rw [hz] at hl2
    exact hd (List.length_eq_zero_iff.mp hl2.symm)
  have h1 : (z.map (fun i => [(i, (0 : ℝ))])).map (fun c => (List.range c.length).map (fun (k : Nat) => (k : Int))) =
      List.replicate z.length [0] := by
    rw [List.map_map]
    apply List.ext_getElem
    · simp
    · intro i h1 h2; simp [List.range_succ]
  have h2 := product_single (n := z.length) (by simpa using hz)
  refine ⟨if r.clusters.contains z then { r with clusters := r.clusters.set z c' } else r, (D.fresh t).2, ?_⟩
  simp only [logp, bind, Except.bind, hl1, decide_true, choicesLoop_eq hσ h, h1, h2, logpLoop, pickTables_single, ← hc, hlp, assertR,
    if_true, add_zero, logsumexp_single]

end CleanRel
end
end Verif
