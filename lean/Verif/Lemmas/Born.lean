import Verif.Lemmas.Balance
/-! Helper lemmas: distribution objects whose parameters have never been resampled. -/
namespace Verif
open Spec
noncomputable section
variable {V : Type} {D : DistOps V} {supp : V → Prop}

/-- a new object on which values have been incorporated, unincorporated and evaluated, and that holds `m` -/
def DistOps.Born (D : DistOps V) (supp : V → Prop) (m : Multiset V) (s : D.S) : Prop :=
  ∃ t ops, (∀ o ∈ ops, o.keepsHypers) ∧ remaining supp ops 0 = some m ∧ D.run (D.fresh t).1 ops = .ok s

theorem DistOps.Born.step {m m' : Multiset V} {s s' : D.S} (o : DataOp V) (ho : o.keepsHypers) (h : D.Born supp m s)
    (hr : remaining supp [o] m = some m') (hs : D.run s [o] = .ok s') : D.Born supp m' s' := by
  obtain ⟨t, ops, h0, h1, h2⟩ := h
  refine ⟨t, ops ++ [o], ?_, ?_, ?_⟩
  · intro o' hm
    rcases List.mem_append.mp hm with hm | hm
    · exact h0 _ hm
    · rw [List.mem_singleton.mp hm]; exact ho
  · rw [remaining_append, h1]; exact hr
  · rw [DistOps.run_append, h2]; exact hs

/-- the same laws, where the hyperparameters also say whether they have ever been resampled -/
def Lawful.born (L : Lawful D supp) : Lawful D supp where
  H := Bool × L.H
  Rep h m s := L.Rep h.2 m s ∧ (h.1 = true → D.Born supp m s)
  fresh t := (L.fresh t).elim fun h hh => ⟨(false, h), hh, fun e => by cases e⟩
  supported h hx := L.supported h.1 hx
  inc := by
    intro h m s x hr hx
    obtain ⟨s', h1, h2⟩ := L.inc hr.1 hx
    exact ⟨s', h1, h2, fun e => (hr.2 e).step (.inc x) rfl (by simp [remaining, hx]) (by simp [DistOps.run, h1, Except.bind])⟩
  dec := by
    classical
    intro h m s x hr
    obtain ⟨s', h1, h2⟩ := L.dec hr.1
    exact ⟨s', h1, h2, fun e => (hr.2 e).step (.dec x) rfl (by simp [remaining]) (by simp [DistOps.run, h1, Except.bind])⟩
  count h := L.count h.1
  logp := by
    intro h m s x hr hx
    obtain ⟨v, s', h1, h2⟩ := L.logp hr.1 hx
    exact ⟨v, s', h1, h2, fun e => (hr.2 e).step (.eval x) rfl (by simp [remaining, hx]) (by simp [DistOps.run, h1, Except.bind])⟩
  trans h t := (L.trans h.1 t).elim fun h' hh => ⟨(false, h'), hh, fun e => by cases e⟩
  theta h t := (L.theta h.1 t).elim fun h' hh => ⟨(false, h'), hh, fun e => by cases e⟩

theorem Lawful.Scored.born {L : Lawful D supp} (h : L.Scored) : L.born.Scored := fun h' m s s' a b => h h'.2 m s s' a.1 b.1

/-- the hyperparameters of a new object -/
def Lawful.start (L : Lawful D supp) : L.born.H := (true, (L.fresh []).choose)

theorem Lawful.start_fresh (L : Lawful D supp) (h : ∀ t t', (D.fresh t).1 = (D.fresh t').1) (t : Tape) : L.born.Rep L.start 0 (D.fresh t).1 :=
  ⟨by rw [h t []]; exact (L.fresh []).choose_spec, fun _ => ⟨t, [], by simp, rfl, rfl⟩⟩

theorem DistOps.Born.rep {L : Lawful D supp} (hf : ∀ t t', (D.fresh t).1 = (D.fresh t').1) {m : Multiset V} {s : D.S} (h : D.Born supp m s) :
    L.born.Rep L.start m s := by
  refine ⟨?_, fun _ => h⟩
  obtain ⟨t, ops, h1, h2, h3⟩ := h
  obtain ⟨s', h', a1, a2, a3⟩ := L.run ops (L.start_fresh hf t).1 h2
  rw [h3] at a1; cases a1
  rw [a3 h1] at a2; exact a2

theorem CleanRel.Unmoved.plain (L : Lawful D supp) {σ : Doms} {r : CleanRel D} (hi : r.Inv supp σ) (hf : ∀ t t', (D.fresh t).1 = (D.fresh t').1)
    (h : r.Unmoved supp σ) : r.Plain L.born L.start σ :=
  ⟨L.start_fresh hf, hi, fun z c hc => DistOps.Born.rep hf (h z c hc)⟩

theorem CleanRel.Plain.unmoved {L : Lawful D supp} {σ : Doms} {r : CleanRel D} (h : r.Plain L.born L.start σ) : r.Unmoved supp σ :=
  fun z c hc => (h.tr.tr z c hc).2 rfl

variable {F : Family V}

def FamilyLaws.born (L : FamilyLaws F) : FamilyLaws F := ⟨L.suppC, L.suppE, fun c => (L.dist c).born, fun e => (L.emis e).born⟩

def FamilyLaws.starts (L : FamilyLaws F) : Starts L.born := ⟨fun c => (L.dist c).start, fun e => (L.emis e).start⟩

variable {L : FamilyLaws F} {ar : Ptr → Option Nat}

theorem Rel.Scorable.born {r : Rel F} (h : r.Scorable L) : r.Scorable L.born := by
  cases r with
  | clean c r => exact ⟨h.1.born, h.2⟩
  | noisy e p r => exact ⟨h.1.born, h.2⟩

theorem Rel.Inv.born {σ : Doms} {r : Rel F} (h : r.Inv L ar σ) : r.Inv L.born ar σ := by
  cases r <;> exact h

theorem IRM.Inv.born {I : IRM F} (h : IRM.Inv L ar I) : IRM.Inv L.born ar I :=
  ⟨h.store, h.alpha, h.names, h.index, h.used, h.schema, fun n id r hr => (h.rels n id r hr).born⟩

theorem Rel.Unmoved.plain {σ : Doms} {r : Rel F} (hi : r.Inv L ar σ) (hs : r.Scorable L) (h : r.Unmoved L σ) : r.Plain L.starts σ := by
  cases r with
  | clean c r => exact CleanRel.Unmoved.plain (L.dist c) hi hs.2.2.1 h
  | noisy e p r => exact CleanRel.Unmoved.plain (L.emis e) hi.1 hs.2.2.1 h

theorem Rel.Plain.unmoved {σ : Doms} {r : Rel F} (h : r.Plain L.starts σ) : r.Unmoved L σ := by
  cases r with
  | clean c r => exact CleanRel.Plain.unmoved h
  | noisy e p r => exact CleanRel.Plain.unmoved h

/-- a relation without observations of the entity is not affected by a move -/
theorem CleanRel.Unmoved.unused {σ σ' : Doms} {r : CleanRel D} (h : r.Unmoved supp σ) {d : String} {i : Int}
    (hs : ∀ d' j, ¬ (d' = d ∧ j = i) → seatOf σ' d' j = seatOf σ d' j) (hn : ¬ ∃ k, r.data.contains k = true ∧ Uses r.doms d i k) : r.Unmoved supp σ' := by
  intro z c hc
  obtain ⟨t, ops, h1, h2, h3⟩ := h z c hc
  refine ⟨t, ops, h1, ?_, h3⟩
  rw [h2]
  congr 1
  unfold contents
  congr 1
  apply Multiset.filter_congr
  intro e he
  rw [tupleSeat_congr (σ := σ) (σ' := σ')]
  intro d' j hu
  apply hs
  rintro ⟨rfl, rfl⟩
  exact hn ⟨e.1, FMap.contains_iff.mpr ⟨e.2, FMap.mem_entries.mp he⟩, hu⟩

namespace IRM

theorem seatOf_reseat {I : IRM F} {d : String} {item cur : Int} {dom : Domain} (hdom : I.doms.find? d = some dom) (hcur : dom.crp.assignments.find? item = some cur) :
    seatOf I.doms d item = some cur := by rw [seatOf_eq hdom]; exact hcur

/-- what the moves of an entity lead to, and how probable they are -/
theorem kernel {I : IRM F} (h : Inv L ar I) {d : String} {dom : Domain} (hdom : I.doms.find? d = some dom)
    {item cur : Int} (hcur : dom.crp.assignments.find? item = some cur)
    (hex : ∀ n id r, I.rels.find? n = some (id, r) → r.Observes d item → r.Scorable L) :
    ∃ (keys : List Int) (lw : Int → ℝ), keys.Nodup ∧ cur ∈ keys ∧
      (∀ u ∈ keys, ∀ v ∈ keys, u ≠ v → ∃ j, j ≠ item ∧ (seatOf I.doms d j = some u ∨ seatOf I.doms d j = some v)) ∧
      ((∀ j u, j ≠ item → seatOf I.doms d j = some u → u ∈ keys) ∧ ∃ new ∈ keys, ∀ j, j ≠ item → seatOf I.doms d j ≠ some new) ∧
      (∀ p I', MovesTo I d item p I' → ∃ z ∈ keys, p = Real.exp (lw z) / (keys.map fun z => Real.exp (lw z)).sum ∧ SameData I I' ∧ Reseats d item z I I' ∧
        Inv L ar I' ∧ I'.logpScore - I.logpScore = lw z - lw cur) ∧
      ∀ z ∈ keys, ∃ I', MovesTo I d item (Real.exp (lw z) / (keys.map fun z => Real.exp (lw z)).sum) I' ∧ SameData I I' ∧ Reseats d item z I I' := by
  classical
  obtain ⟨w, lw, hw1, hwc, HH⟩ := itemScores_exact h hdom hcur hex
  obtain ⟨v, v1, new, n1, _, n3, _⟩ := CRP.tablesWeightsGibbs_spec (h.store d dom hdom).crp hcur
  rw [hw1] at v1; cases v1
  have hk : ∀ u ∈ w.keys, u ≠ new → ∃ j, j ≠ item ∧ seatOf I.doms d j = some u := by
    intro u hu hne
    rw [FMap.mem_keys, n3, if_neg hne] at hu
    have ho : occupancy (without dom.crp.seating item) u ≠ 0 := by
      rintro ho; rw [if_pos ho] at hu; simp at hu
    have hx := Set.nonempty_of_ncard_ne_zero ho
    obtain ⟨j, hj⟩ := hx
    have hj : without dom.crp.seating item j = some u := hj
    simp only [without] at hj
    split at hj
    · cases hj
    · rename_i hne
      exact ⟨j, hne, by rw [seatOf_eq hdom]; exact hj⟩
  have hsum : ((w.keys.map lw).map Real.exp).sum = (w.keys.map fun z => Real.exp (lw z)).sum := by rw [List.map_map]; rfl
  refine ⟨w.keys, lw, w.nodupKeys, hwc, ?_, ?_, ?_, ?_⟩
  · intro u hu v hv huv
    by_cases h1 : u = new
    · obtain ⟨j, j1, j2⟩ := hk v hv (fun hh => huv (h1.trans hh.symm))
      exact ⟨j, j1, .inr j2⟩
    · obtain ⟨j, j1, j2⟩ := hk u hu h1
      exact ⟨j, j1, .inl j2⟩
  · refine ⟨?_, new, by rw [FMap.mem_keys, n3]; exact ⟨_, if_pos rfl⟩, fun j hj => by rw [seatOf_eq hdom]; exact occupancy_zero n1 j hj⟩
    intro j u hj hu
    rw [FMap.mem_keys, n3]
    by_cases h1 : u = new
    · exact ⟨_, if_pos h1⟩
    · rw [if_neg h1]
      by_cases ho : occupancy (without dom.crp.seating item) u = 0
      · rw [seatOf_eq hdom] at hu
        exact absurd hu (occupancy_zero ho j hj)
      · exact ⟨_, if_neg ho⟩
  · rintro p I' ⟨t, tables, logps, order, I1, t1, z, x, t2, t2', k, c1, c2, c3, c4, c5⟩
    obtain ⟨order', I1', t1', d1, d2⟩ := HH t
    rw [c1] at d1; cases d1
    have hz : z ∈ w.keys := List.mem_of_getElem? c2
    have hx : x = lw z := by
      rw [List.getElem?_map, c2] at c3; simpa using c3.symm
    obtain ⟨J, tJ, f1, f2, f3, f4, f5⟩ := d2 z hz t2
    rw [c5] at f1; cases f1
    exact ⟨z, hz, by rw [c4, hx, hsum], f3, f4, f2, f5⟩
  · intro z hz
    obtain ⟨order, I1, t1, d1, d2⟩ := HH []
    obtain ⟨J, tJ, f1, f2, f3, f4, f5⟩ := d2 z hz []
    obtain ⟨k, hk, hkz⟩ := List.getElem_of_mem hz
    refine ⟨J, ⟨[], _, _, order, I1, t1, z, lw z, [], tJ, k, d1, ?_, ?_, by rw [hsum], f1⟩, f3, f4⟩
    · rw [List.getElem?_eq_getElem hk, hkz]
    · rw [List.getElem?_map, List.getElem?_eq_getElem hk, hkz]; rfl

/-- different candidates lead to different partitions -/
theorem reseat_unique {I I1 I2 : IRM F} {d : String} {item u v : Int} {keys : List Int}
    (hk : ∀ u ∈ keys, ∀ v ∈ keys, u ≠ v → ∃ j, j ≠ item ∧ (seatOf I.doms d j = some u ∨ seatOf I.doms d j = some v))
    (hu : u ∈ keys) (hv : v ∈ keys) (h1 : Reseats d item u I I1) (h2 : Reseats d item v I I2) (hp : SamePartition I1 I2) : u = v := by
  by_contra hne
  obtain ⟨j, j1, j2⟩ := hk u hu v hv hne
  have a1 : seatOf I1.doms d item = some u := by rw [h1]; simp
  have a2 : seatOf I2.doms d item = some v := by rw [h2]; simp
  have b1 : seatOf I1.doms d j = seatOf I.doms d j := by rw [h1, if_neg (fun hh => j1 hh.2)]
  have b2 : seatOf I2.doms d j = seatOf I.doms d j := by rw [h2, if_neg (fun hh => j1 hh.2)]
  rcases j2 with j2 | j2
  · obtain ⟨z, c1, c2⟩ := (hp d item j).mp ⟨u, a1, by rw [b1, j2]⟩
    rw [a2] at c1; rw [b2, j2] at c2
    cases c1; cases c2; exact hne rfl
  · obtain ⟨z, c1, c2⟩ := (hp d item j).mpr ⟨v, a2, by rw [b2, j2]⟩
    rw [a1] at c1; rw [b1, j2] at c2
    cases c1; cases c2; exact hne rfl

/-- entity moves resample no parameters -/
theorem move_unmoved {I I' : IRM F} (h : Inv L ar I) {d : String} {dom : Domain} (hdom : I.doms.find? d = some dom)
    {i cur : Int} (hi : dom.crp.assignments.find? i = some cur)
    (hr : ∀ m id r, I.rels.find? m = some (id, r) → (r.Observes d i → r.Scorable L) ∧ r.Unmoved L I.doms) {p : ℝ} (hm : MovesTo I d i p I') :
    SameData I I' ∧ SameAlphas I I' ∧ ∀ m id r, I'.rels.find? m = some (id, r) → r.Unmoved L I'.doms := by
  obtain ⟨keys, lw, k1, k2, k3, _, k4, k5⟩ := kernel h hdom hi (fun m id r h1 ho => (hr m id r h1).1 ho)
  obtain ⟨z', hz', _, hd, hse, _⟩ := k4 p I' hm
  obtain ⟨t, tables, logps, order, I1, t1, z, x, t2, t2', k, c1, c2, c3, c4, c5⟩ := hm
  have he := move_even (H := L.starts) (I0 := I) h.born hdom hi (fun m id r h1 => ⟨fun ho => by
    obtain ⟨a1, a2⟩ := hr m id r h1
    exact ⟨a2.plain (h.rels m id r h1) (a1 ho), (a1 ho).born⟩, fun _ => h1⟩) c1 c5
  refine ⟨hd, move_alphas h hdom hi c1 c5, fun m id r h1 => ?_⟩
  by_cases ho : r.Observes d i
  · exact ((he m id r h1).1 ho).1.unmoved
  · have hu := (hr m id r ((he m id r h1).2 ho)).2
    have hse' : ∀ d' j, ¬ (d' = d ∧ j = i) → seatOf I'.doms d' j = seatOf I.doms d' j := fun d' j hn => by rw [hse, if_neg hn]
    cases r with
    | clean c r => exact CleanRel.Unmoved.unused hu hse' ho
    | noisy e q r =>
      obtain ⟨hi1, nn, _, hl⟩ := h.rels m id _ ((he m id _ h1).2 ho)
      refine CleanRel.Unmoved.unused hu hse' ?_
      rintro ⟨k, a1, a2⟩
      refine ho ⟨k, ?_, ?_⟩
      · rw [hl.contains] at a1; exact a1
      · rw [hl.doms] at a2; exact a2

/-- the score does not depend on the names of the clusters -/
theorem label_score {I I' : IRM F} (i1 : Inv L ar I) (i2 : Inv L ar I') (hd : SameData I I') (ha : SameAlphas I I') (hp : SamePartition I I')
    (hr : ∀ m id r, I.rels.find? m = some (id, r) → r.Scorable L ∧ r.Unmoved L I.doms)
    (hr' : ∀ m id r, I'.rels.find? m = some (id, r) → r.Unmoved L I'.doms) : I'.logpScore = I.logpScore := by
  refine score_same i1 i2 hd ha hp (fun m id r r' h1 h2 h3 => ?_)
  obtain ⟨a1, a2⟩ := hr m id r h1
  exact Rel.Plain.relabel (i1.rels m id r h1).born (i2.rels m id r' h2).born a1.born (a2.plain (i1.rels m id r h1) a1)
    ((hr' m id r' h2).plain (i2.rels m id r' h2) (h3.scorable a1)) h3 hp

/-- a move between two candidates -/
theorem flow_two {I I' : IRM F} (h : Inv L ar I) {d : String} {dom : Domain} (hdom : I.doms.find? d = some dom)
    {i cur z a : Int} (hi : dom.crp.assignments.find? i = some cur)
    (hex : ∀ n id r, I.rels.find? n = some (id, r) → r.Observes d i → r.Scorable L) {p : ℝ} (hm : MovesTo I d i p I')
    (hz : seatOf I'.doms d i = some z) (hzc : z ≠ cur) (honly : ∀ j, j ≠ i → ∀ u, seatOf I.doms d j = some u → u = a) (ha : a = z ∨ a = cur) :
    p = Real.exp I'.logpScore / (Real.exp I'.logpScore + Real.exp I.logpScore) := by
  obtain ⟨keys, lw, k1, k2, k3, _, k4, _⟩ := kernel h hdom hi hex
  obtain ⟨z', hz', hp, hd, hse, _, hsc⟩ := k4 p I' hm
  have hzz : z' = z := by
    have := hse d i
    rw [hz] at this; simpa using this.symm
  subst hzz
  have hperm : keys.Perm [z', cur] := by
    rw [List.perm_ext_iff_of_nodup k1 (by simp [hzc])]
    intro u
    simp only [List.mem_cons, List.not_mem_nil, or_false]
    constructor
    · intro hu
      by_contra hne
      push Not at hne
      rcases ha with rfl | rfl
      · obtain ⟨j, j1, j2⟩ := k3 u hu cur k2 hne.2
        rcases j2 with j2 | j2
        · exact hne.1 (honly j j1 u j2)
        · exact hzc (honly j j1 cur j2).symm
      · obtain ⟨j, j1, j2⟩ := k3 u hu z' hz' hne.1
        rcases j2 with j2 | j2
        · exact hne.2 (honly j j1 u j2)
        · exact hzc (honly j j1 z' j2)
    · rintro (rfl | rfl)
      · exact hz'
      · exact k2
  rw [hp, (hperm.map _).sum_eq]
  simp only [List.map_cons, List.map_nil, List.sum_cons, List.sum_nil, add_zero]
  have e1 : Real.exp (lw z') = Real.exp I'.logpScore * Real.exp (lw cur - I.logpScore) := by rw [← Real.exp_add]; congr 1; linarith
  have e2 : Real.exp (lw cur) = Real.exp I.logpScore * Real.exp (lw cur - I.logpScore) := by rw [← Real.exp_add]; congr 1; linarith
  rw [e1, e2, ← add_mul, mul_div_mul_right _ _ (Real.exp_pos _).ne']

end IRM

end
end Verif
