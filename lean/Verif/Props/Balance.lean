import Verif.Lemmas.Born
import Verif.Props.IRM
/-! C79: entity moves keep the posterior.  The score of an IRM does not depend on the names of its clusters, and the moves of an entity satisfy detailed
balance for the exponential of the score, as long as the parameters of the clusters have not been resampled. -/
namespace Verif
noncomputable section
namespace IRM
variable {V : Type} {F : Family V} {L : FamilyLaws F}

/-- **C79** the names of the clusters do not matter: two states with the same observations, concentrations and partitions have the same score. -/
theorem C79_labels_partial {rm st rm' st' : Prop} {n n' : Nat} {I I' : IRM F} (h : Reach L rm st n I) (h' : Reach L rm' st' n' I')
    (hd : SameData I I') (ha : SameAlphas I I') (hp : SamePartition I I')
    (hr : ∀ m id r, I.rels.find? m = some (id, r) → r.Scorable L ∧ r.Unmoved L I.doms)
    (hr' : ∀ m id r, I'.rels.find? m = some (id, r) → r.Unmoved L I'.doms) : I'.logpScore = I.logpScore := by
  have i1 := h.inv
  have i2 := h'.inv
  rw [hd.shape.env] at i2
  exact label_score i1 i2 hd ha hp hr hr'

/-- **C79** detailed balance: if a move of an entity leads from `I` to `I'` with probability `p`, then a move of the same entity leads from `I'` back to the
partition of `I`, with a probability `q` for which the two flows are equal. -/
theorem C79_balance_partial {rm st : Prop} {n : Nat} {I I' : IRM F} (h : Reach L rm st n I) {d : String} {i cur : Int} (hi : seatOf I.doms d i = some cur)
    (hr : ∀ m id r, I.rels.find? m = some (id, r) → r.Observes d i → r.Scorable L ∧ r.Unmoved L I.doms) {p : ℝ} (hm : MovesTo I d i p I') :
    ∃ q I'', MovesTo I' d i q I'' ∧ SameData I I'' ∧ SameAlphas I I'' ∧ SamePartition I I'' ∧ I''.logpScore = I.logpScore ∧
      Real.exp I.logpScore * p = Real.exp I'.logpScore * q := by
  obtain ⟨dom, hdom, _⟩ := seatOf_some hi
  rw [seatOf_eq hdom] at hi
  refine balance (H := L.starts) h.inv.born hdom hi (fun m id r h1 => ⟨fun ho => ?_, fun _ => h1⟩) hm
  obtain ⟨a1, a2⟩ := hr m id r h1 ho
  exact ⟨a2.plain (h.inv.rels m id r h1) a1, a1.born⟩

/-- **C79** the moves of an entity form a probability distribution over partitions: finitely many, with positive probabilities that sum to 1, no two of
them to the same partition; and the move to a partition has one probability. -/
theorem C79_distribution_partial {rm st : Prop} {n : Nat} {I : IRM F} (h : Reach L rm st n I) {d : String} {i cur : Int} (hi : seatOf I.doms d i = some cur)
    (hs : ∀ m id r, I.rels.find? m = some (id, r) → r.Observes d i → r.Scorable L) :
    (∃ l : List (ℝ × IRM F), (∀ x ∈ l, 0 < x.1 ∧ MovesTo I d i x.1 x.2) ∧ (l.map Prod.fst).sum = 1 ∧ l.Pairwise (fun x y => ¬ SamePartition x.2 y.2) ∧
      ∀ p I', MovesTo I d i p I' → ∃ x ∈ l, x.1 = p ∧ SamePartition x.2 I') ∧
    (∀ p I' q I'', MovesTo I d i p I' → MovesTo I d i q I'' → SamePartition I' I'' → p = q) ∧
    ∀ t I' t', transitionItem I d i t = .ok (I', t') → ∃ p, 0 < p ∧ MovesTo I d i p I' := by
  obtain ⟨dom, hdom, _⟩ := seatOf_some hi
  rw [seatOf_eq hdom] at hi
  obtain ⟨keys, lw, k1, k2, k3, _, k4, k5⟩ := kernel h.inv hdom hi hs
  have hpos : 0 < (keys.map fun z => Real.exp (lw z)).sum :=
    List.sum_pos _ (by intro x hx; obtain ⟨z, _, rfl⟩ := List.mem_map.mp hx; exact Real.exp_pos _) (by
      intro hh; rw [List.map_eq_nil_iff] at hh; subst hh; cases k2)
  have k6 : ∀ z, ∃ J : IRM F, z ∈ keys → MovesTo I d i (Real.exp (lw z) / (keys.map fun z => Real.exp (lw z)).sum) J ∧ Reseats d i z I J := by
    intro z
    by_cases hz : z ∈ keys
    · obtain ⟨J, a, _, b⟩ := k5 z hz
      exact ⟨J, fun _ => ⟨a, b⟩⟩
    · exact ⟨I, fun hh => absurd hh hz⟩
  choose J jj using k6
  have j1 := fun z hz => (jj z hz).1
  have j3 := fun z hz => (jj z hz).2
  refine ⟨⟨keys.map fun z => (Real.exp (lw z) / (keys.map fun z => Real.exp (lw z)).sum, J z), ?_, ?_, ?_, ?_⟩, ?_, ?_⟩
  · intro x hx
    obtain ⟨z, hz, rfl⟩ := List.mem_map.mp hx
    exact ⟨div_pos (Real.exp_pos _) hpos, j1 z hz⟩
  · rw [List.map_map]
    have : (Prod.fst ∘ fun z => (Real.exp (lw z) / (keys.map fun z => Real.exp (lw z)).sum, J z)) =
        fun z => Real.exp (lw z) / (keys.map fun z => Real.exp (lw z)).sum := rfl
    rw [this]
    simp only [div_eq_mul_inv]
    rw [List.sum_map_mul_right]
    exact mul_inv_cancel₀ hpos.ne'
  · rw [List.pairwise_map]
    refine List.Pairwise.imp_of_mem ?_ k1
    intro a b ha hb hab hp
    exact hab (reseat_unique k3 ha hb (j3 a ha) (j3 b hb) hp)
  · intro p I' hm
    obtain ⟨z, hz, hp, hd, hse, _⟩ := k4 p I' hm
    refine ⟨_, List.mem_map.mpr ⟨z, hz, rfl⟩, hp.symm, ?_⟩
    intro d' a b
    rw [j3 z hz d' a, j3 z hz d' b, hse d' a, hse d' b]
  · intro p I' q I'' h1 h2 hp
    obtain ⟨z, hz, e1, _, s1, _⟩ := k4 p I' h1
    obtain ⟨y, hy, e2, _, s2, _⟩ := k4 q I'' h2
    rw [e1, e2, reseat_unique k3 hz hy s1 s2 hp]
  · intro t I' t' hc
    simp only [transitionItem] at hc
    obtain ⟨⟨tables, logps, order, I1, t1⟩, c1, hc⟩ := bind_ok.mp hc
    obtain ⟨_, c2, hc⟩ := bind_ok.mp hc
    obtain ⟨z, c3, hc⟩ := bind_ok.mp hc
    have hlen := of_decide_eq_true (assertR_ok.mp c2)
    have c3 : tables[(draw tables.length t1).1]? = some z := by
      unfold idxR at c3
      split at c3
      · rename_i hh; cases c3; exact hh
      · cases c3
    have hlt : (draw tables.length t1).1 < logps.length := by
      rw [← hlen]; exact (List.getElem?_eq_some_iff.mp c3).1
    have hm : MovesTo I d i (Real.exp (logps[(draw tables.length t1).1]) / (logps.map Real.exp).sum) I' :=
      ⟨t, tables, logps, order, I1, t1, z, _, _, t', _, c1, c3, List.getElem?_eq_getElem hlt, rfl, hc⟩
    obtain ⟨z', hz', e, _⟩ := k4 _ _ hm
    exact ⟨_, by rw [e]; exact div_pos (Real.exp_pos _) hpos, hm⟩

/-- **C79** entity moves resample no parameters, so the hypotheses of the other statements still hold after the move. -/
theorem C79_unmoved_partial {rm st : Prop} {n : Nat} {I I' : IRM F} (h : Reach L rm st n I) {d : String} {i cur : Int} (hi : seatOf I.doms d i = some cur)
    (hr : ∀ m id r, I.rels.find? m = some (id, r) → (r.Observes d i → r.Scorable L) ∧ r.Unmoved L I.doms) {p : ℝ} (hm : MovesTo I d i p I') :
    SameData I I' ∧ SameAlphas I I' ∧ ∀ m id r, I'.rels.find? m = some (id, r) → r.Unmoved L I'.doms := by
  obtain ⟨dom, hdom, _⟩ := seatOf_some hi
  rw [seatOf_eq hdom] at hi
  exact move_unmoved h.inv hdom hi hr hm

open Latent (bools boolLaws)

/-- the clusters of `R` have not been resampled -/
theorem ex5_unmoved : ∀ m id r, ex5.rels.find? m = some (id, r) → r.Observes "D" 2 → r.Scorable boolLaws ∧ r.Unmoved boolLaws ex5.doms := by
  intro m id r hr ho
  have hm : (m, (id, r)) ∈ ex5.rels.entries := FMap.mem_entries.mpr hr
  simp only [show ex5.rels.entries = [("R", _), ("S", _)] from rfl, List.mem_cons, List.not_mem_nil, or_false] at hm
  rcases hm with hm | hm
  · cases hm
    refine ⟨scorable_bools_clean (List.nodup_singleton _), ?_⟩
    intro z c hc
    have hz : (z, c) ∈ [(([0] : Items), (({} : BetaBernoulli).incorporate true).incorporate false)] := FMap.mem_entries.mpr hc
    have hz' := List.mem_singleton.mp hz
    cases hz'
    refine ⟨[], [.inc true, .inc false], by simp [DataOp.keepsHypers], ?_, rfl⟩
    have hr : remaining (boolLaws.suppC ()) [.inc true, .inc false] 0 = some (false ::ₘ true ::ₘ 0) := by
      simp [remaining, show ∀ v, boolLaws.suppC () v from fun _ => trivial]
    rw [hr]
    congr 1
    unfold contents
    rw [Multiset.filter_eq_self.mpr]
    · exact Multiset.coe_eq_coe.mpr (List.Perm.swap true false [])
    · intro e he
      have he : e ∈ [(([1] : Items), true), ([2], false)] := he
      simp only [List.mem_cons, List.not_mem_nil, or_false] at he
      rcases he with rfl | rfl <;> rfl
  · exfalso
    cases hm
    obtain ⟨k, h1, h2⟩ := ho
    have hk : k ∈ [[1, 7]] := FMap.contains_iff_mem.mp h1
    rw [List.mem_singleton] at hk
    subst hk
    simp [Uses, Rel.doms] at h2

/-- C79_balance_partial, C79_distribution_partial: entity 2 of `D` shares a cluster with entity 1; a move leaves it there or lets it sit alone -/
example : (∃ p I', 0 < p ∧ MovesTo ex5 "D" 2 p I') ∧ ∀ p I', MovesTo ex5 "D" 2 p I' → ∃ q I'', MovesTo I' "D" 2 q I'' ∧ SamePartition ex5 I'' ∧
    Real.exp ex5.logpScore * p = Real.exp I'.logpScore * q := by
  refine ⟨?_, fun p I' hm => ?_⟩
  · obtain ⟨⟨l, h1, h2, _⟩, _⟩ := C79_distribution_partial (ex5_reach False) (d := "D") (i := 2) (cur := 0) rfl (fun m id r h ho => (ex5_unmoved m id r h ho).1)
    cases l with
    | nil => simp at h2
    | cons x l => exact ⟨x.1, x.2, h1 x (by simp)⟩
  · obtain ⟨q, I'', a1, _, _, a2, _, a3⟩ := C79_balance_partial (ex5_reach False) (d := "D") (i := 2) (cur := 0) rfl ex5_unmoved hm
    exact ⟨q, I'', a1, a2, a3⟩

/-- entity 1 of `D` with an observation of `R`, in cluster 0 -/
def lab1 : IRM bools := (run (incorporate ex1.env ex1 "R" [1] true [])).1
/-- the same with the entity in cluster 5 -/
def lab2 : IRM bools := { ex1 with doms := ex1.doms.set "D" (run ((run (ex1.doms.atKey "D")).incorporate 1 [] 5)).1 }
def lab3 : IRM bools := (run (incorporate lab2.env lab2 "R" [1] true [])).1

theorem lab1_reach : Reach boolLaws False True 1 lab1 :=
  ((Reach.empty.add (spec := .clean () ["D"] false) (by simp) rfl : Reach boolLaws False True 1 ex1)).incorporate
    (name := "R") (items := [1]) (v := true) (t := []) (t' := []) (fun _ _ _ => supports_bools) rfl

theorem lab3_reach : Reach boolLaws False True 1 lab3 :=
  (Reach.seat trivial (Reach.empty.add (spec := .clean () ["D"] false) (by simp) rfl : Reach boolLaws False True 1 ex1) (d := "D") (i := 1) (table := 5)
    (t := []) (t' := []) rfl rfl : Reach boolLaws False True 1 lab2).incorporate
    (name := "R") (items := [1]) (v := true) (t := []) (t' := []) (fun _ _ _ => supports_bools) rfl

theorem lab_unmoved {z0 : Int} {I : IRM bools} {r0 : CleanRel BetaBernoulli.ops} (he : I.rels.entries = [("R", (0, .clean () r0))]) (hd : r0.doms = ["D"])
    (hc : r0.clusters.entries = [([z0], ({} : BetaBernoulli).incorporate true)]) (hda : r0.data.entries = [([1], true)])
    (hs : tupleSeat I.doms ["D"] [1] = some [z0]) :
    ∀ m id r, I.rels.find? m = some (id, r) → r.Scorable boolLaws ∧ r.Unmoved boolLaws I.doms := by
  intro m id r hr
  have hm : (m, (id, r)) ∈ I.rels.entries := FMap.mem_entries.mpr hr
  rw [he, List.mem_singleton] at hm
  cases hm
  refine ⟨scorable_bools_clean (by rw [hd]; simp), ?_⟩
  intro z c hz
  have hz := FMap.mem_entries.mpr hz
  have hz' := List.mem_singleton.mp (hc ▸ hz)
  cases hz'
  refine ⟨[], [.inc true], by simp [DataOp.keepsHypers], ?_, rfl⟩
  have hr : remaining (boolLaws.suppC ()) [.inc true] 0 = some (true ::ₘ 0) := by
    simp [remaining, show ∀ v, boolLaws.suppC () v from fun _ => trivial]
  rw [hr]
  congr 1
  unfold contents
  rw [Multiset.filter_eq_self.mpr]
  · rw [hda]; rfl
  · intro e he
    have he : e ∈ r0.data.entries := he
    rw [hda, List.mem_singleton] at he
    subst he
    rw [hd]; exact hs

theorem find_single {K A : Type} [DecidableEq K] [Key K] {m : FMap K A} {k : K} {a : A} (he : m.entries = [(k, a)]) (n : K) : m.find? n = if n = k then some a else none := by
  cases hf : m.find? n with
  | none =>
    split
    · rename_i hh
      have : (k, a) ∈ m.entries := by rw [he]; simp
      rw [hh, FMap.mem_entries.mp this] at hf; cases hf
    · rfl
  | some b =>
    have := FMap.mem_entries.mpr hf
    rw [he, List.mem_singleton] at this
    cases this; simp

theorem seat_single {σ : Doms} {dom : Domain} {z : Int} (he : σ.entries = [("D", dom)]) (ha : dom.crp.assignments.entries = [(1, z)]) (d : String) (i : Int) :
    seatOf σ d i = if d = "D" ∧ i = 1 then some z else none := by
  unfold seatOf
  rw [find_single he]
  by_cases h1 : d = "D"
  · rw [if_pos h1]
    show dom.crp.assignments.find? i = _
    rw [find_single ha]
    simp [h1]
  · simp [h1]

/-- C79_labels_partial: the name of the only cluster does not matter -/
example : lab3.logpScore = lab1.logpScore := by
  refine C79_labels_partial lab1_reach lab3_reach ⟨rfl, rfl, rfl, ?_, ?_⟩ ?_ ?_ (lab_unmoved (z0 := 0) rfl rfl rfl rfl rfl)
    (fun m id r h => (lab_unmoved (z0 := 5) rfl rfl rfl rfl rfl m id r h).2)
  · intro n
    rw [find_single (m := lab1.rels) (k := "R") rfl, find_single (m := lab3.rels) (k := "R") rfl]
    split
    · exact .inr ⟨_, _, _, rfl, rfl, ⟨rfl, rfl, rfl, rfl, rfl, rfl⟩⟩
    · exact .inl ⟨rfl, rfl⟩
  · intro n
    rw [find_single (m := lab1.doms) (k := "D") rfl, find_single (m := lab3.doms) (k := "D") rfl]
    split
    · exact .inr ⟨_, _, rfl, rfl, rfl, rfl⟩
    · exact .inl ⟨rfl, rfl⟩
  · intro d dom dom' h1 h2
    rw [find_single (m := lab1.doms) (k := "D") rfl] at h1
    rw [find_single (m := lab3.doms) (k := "D") rfl] at h2
    split at h1
    · cases h1
      rw [if_pos (by assumption)] at h2
      cases h2; rfl
    · cases h1
  · have s1 := seat_single (σ := lab1.doms) (z := 0) rfl rfl
    have s3 := seat_single (σ := lab3.doms) (z := 5) rfl rfl
    intro d i j
    rw [s1, s1, s3, s3]
    by_cases h1 : d = "D" ∧ i = 1 <;> by_cases h2 : d = "D" ∧ j = 1 <;> simp [h1, h2]

/-- C79_unmoved_partial: the entity can be moved, and the moves resample no parameters -/
example : (∃ p I', MovesTo lab1 "D" 1 p I') ∧ ∀ p I', MovesTo lab1 "D" 1 p I' → ∀ m id r, I'.rels.find? m = some (id, r) → r.Unmoved boolLaws I'.doms := by
  have hu := lab_unmoved (z0 := 0) (I := lab1) rfl rfl rfl rfl rfl
  refine ⟨?_, fun p I' hm => (C79_unmoved_partial lab1_reach (d := "D") (i := 1) (cur := 0) rfl (fun m id r h => ⟨fun _ => (hu m id r h).1, (hu m id r h).2⟩) hm).2.2⟩
  obtain ⟨⟨l, h1, h2, _⟩, _⟩ := C79_distribution_partial lab1_reach (d := "D") (i := 1) (cur := 0) rfl (fun m id r h _ => (hu m id r h).1)
  cases l with
  | nil => simp at h2
  | cons x l => exact ⟨x.1, x.2, (h1 x (by simp)).2⟩

end IRM
end
end Verif
