import Verif.Lemmas.IRMOps
/-! Helper lemmas: the log weights of an entity move are the scores of the IRM after the move, up to a constant. -/
namespace Verif
open Spec
noncomputable section
variable {V : Type} {F : Family V} {L : FamilyLaws F} {ar : Ptr → Option Nat}

theorem Rel.Inv.gibbs_fun {σ : Doms} (hσ : StoreWF σ) {r : Rel F} (h : r.Inv L ar σ) (hs : r.Scorable L) {d : String} (hd : d ∈ r.doms)
    {dom : Domain} (hdom : σ.find? d = some dom) {item cur : Int} (hcur : dom.crp.assignments.find? item = some cur)
    (hob : r.hasObservation d item = .ok true) :
    ∃ g : Int → ℝ, ∀ tables t, ∃ r' t', r.logpGibbsExact σ d item tables t = .ok (tables.map g, r', t') ∧
      r'.logpScore = r.logpScore ∧
      ∀ table ∈ tables, table ≠ cur → ∀ t1, ∃ r2 t2, r'.setClusterAssignmentGibbs σ d item table t1 = .ok (r2, t2) ∧
        r2.logpScore = r.logpScore + g table - g cur := by
  cases r with
  | clean c r =>
    obtain ⟨hS, hnd, hf, hz⟩ := hs
    obtain ⟨g, hg⟩ := CleanRel.gibbs_score_fun (L := L.dist c) hS hf hz hσ h hnd hd hdom hcur hob
    refine ⟨g, fun tables t => ?_⟩
    obtain ⟨r', t', h1, h2, h3⟩ := hg tables t
    refine ⟨.clean c r', t', by simp [Rel.logpGibbsExact, h1, bind, Except.bind], h2, fun table hm hne t1 => ?_⟩
    obtain ⟨r2, t2, h4, h5⟩ := h3 table hm hne t1
    exact ⟨.clean c r2, t2, by simp [Rel.setClusterAssignmentGibbs, h4, bind, Except.bind], h5⟩
  | noisy e p r =>
    obtain ⟨h, n, h0, h'⟩ := h
    obtain ⟨hS, hnd, hf, hz⟩ := hs
    obtain ⟨g, hg⟩ := CleanRel.gibbs_score_fun (L := L.emis e) hS hf hz hσ h (by rw [h'.doms]; exact hnd) (d := d) (by rw [h'.doms]; exact hd)
      hdom hcur hob
    refine ⟨g, fun tables t => ?_⟩
    obtain ⟨r', t', h1, h2, h3⟩ := hg tables t
    refine ⟨.noisy e p { r with emission := r' }, t', by simp [Rel.logpGibbsExact, NoisyRel.logpGibbsExact, h1, bind, Except.bind],
      h2, fun table hm hne t1 => ?_⟩
    obtain ⟨r2, t2, h4, h5⟩ := h3 table hm hne t1
    exact ⟨.noisy e p { r with emission := r2 }, t2,
      by simp [Rel.setClusterAssignmentGibbs, NoisyRel.setClusterAssignmentGibbs, h4, bind, Except.bind], h5⟩

namespace IRM

/-- the score of the relations -/
def relScore (m : FMap String (Nat × Rel F)) : ℝ := (m.vals.map (fun r => r.2.logpScore)).sum

theorem relScore_set {m : FMap String (Nat × Rel F)} {n : String} {id : Nat} {r : Rel F} (h : m.find? n = some (id, r)) (r' : Rel F) :
    relScore (m.set n (id, r')) = relScore m - r.logpScore + r'.logpScore := by
  have p1 := FMap.perm_erase h
  have p2 := FMap.perm_set m n (id, r')
  have e1 := ((p1.map (·.2)).map (fun r => r.2.logpScore)).sum_eq
  have e2 := ((p2.map (·.2)).map (fun r => r.2.logpScore)).sum_eq
  simp only [List.map_cons, List.sum_cons] at e1 e2
  simp only [relScore, FMap.vals]
  linarith

/-- the score of the domains -/
def domScore (m : Doms) : ℝ := (m.vals.map (fun d => d.crp.logpScore)).sum

theorem domScore_set {m : Doms} {n : String} {d : Domain} (h : m.find? n = some d) (d' : Domain) :
    domScore (m.set n d') = domScore m - d.crp.logpScore + d'.crp.logpScore := by
  have p1 := FMap.perm_erase h
  have p2 := FMap.perm_set m n d'
  have e1 := ((p1.map (·.2)).map (fun r => r.crp.logpScore)).sum_eq
  have e2 := ((p2.map (·.2)).map (fun r => r.crp.logpScore)).sum_eq
  simp only [List.map_cons, List.sum_cons] at e1 e2
  simp only [domScore, FMap.vals]
  linarith

/-- the Gibbs scores of relation `r` are `g`, and moving the item afterwards changes its score accordingly -/
def Scores (σ : Doms) (d : String) (item cur : Int) (tables : List Int) (g : Int → ℝ) (r : Rel F) : Prop :=
  ∃ b, r.hasObservation d item = .ok b ∧ (b = false → ∀ z, g z = 0) ∧
    (b = true → ∀ t, ∃ r' t', r.logpGibbsExact σ d item tables t = .ok (tables.map g, r', t') ∧ r'.logpScore = r.logpScore ∧
      r'.hasObservation d item = .ok true ∧
      ∀ table ∈ tables, table ≠ cur → ∀ t1, ∃ r2 t2, r'.setClusterAssignmentGibbs σ d item table t1 = .ok (r2, t2) ∧
        r2.logpScore = r.logpScore + g table - g cur)

/-- moving the item changes the score of relation `r` according to `g` -/
def Moves (σ : Doms) (d : String) (item cur : Int) (tables : List Int) (g : Int → ℝ) (r : Rel F) : Prop :=
  ∃ b, r.hasObservation d item = .ok b ∧ (b = false → ∀ z, g z = 0) ∧
    (b = true → ∀ table ∈ tables, table ≠ cur → ∀ t1, ∃ r2 t2, r.setClusterAssignmentGibbs σ d item table t1 = .ok (r2, t2) ∧
        r2.logpScore = r.logpScore + g table - g cur)

theorem scoreItem_exact {d : String} {item cur : Int} {tables : List Int} {G : String → Int → ℝ} :
    ∀ (l : List String) (I : IRM F) (f : Int → ℝ) (t : Tape), l.Nodup →
    (∀ n ∈ l, ∃ id rel, I.rels.find? n = some (id, rel) ∧ Scores I.doms d item cur tables (G n) rel) →
    ∃ rels' t', scoreItem d item tables l I (tables.map f) t =
        .ok (tables.map (fun z => f z + (l.map (fun n => G n z)).sum), { I with rels := rels' }, t') ∧
      relScore rels' = relScore I.rels ∧ (∀ n, n ∉ l → rels'.find? n = I.rels.find? n) ∧
      ∀ n ∈ l, ∃ id rel, rels'.find? n = some (id, rel) ∧ Moves I.doms d item cur tables (G n) rel := by
  intro l
  induction l with
  | nil =>
    intro I f t _ _
    exact ⟨I.rels, t, by simp [scoreItem], rfl, fun _ _ => rfl, by simp⟩
  | cons n l ih =>
    intro I f t hnd hn
    obtain ⟨hnl, hnd⟩ := List.nodup_cons.mp hnd
    obtain ⟨id, rel, h1, b, h2, h3, h4⟩ := hn n (by simp)
    cases b with
    | false =>
      obtain ⟨rels', t', h5, h6, h7, h8⟩ := ih I f t hnd (fun m hm => hn m (by simp [hm]))
      refine ⟨rels', t', ?_, h6, fun m hm => h7 m (fun h => hm (by simp [h])), ?_⟩
      · simp only [scoreItem, bind, Except.bind, FMap.atKey_of_find h1, h2, Bool.false_eq_true, if_false, h5]
        simp only [List.map_cons, List.sum_cons, h3 rfl, zero_add]
      · intro m hm
        rcases List.mem_cons.mp hm with rfl | hm
        · exact ⟨id, rel, (h7 m hnl).trans h1, false, h2, h3, by simp⟩
        · exact h8 m hm
    | true =>
      obtain ⟨rel', t1, h5, h6, h7, h8⟩ := h4 rfl t
      obtain ⟨rels', t', h9, h10, h11, h12⟩ := ih { I with rels := I.rels.set n (id, rel') } (fun z => f z + G n z) t1 hnd (by
        intro m hm
        have hmn : m ≠ n := fun h => hnl (h ▸ hm)
        dsimp only
        rw [FMap.find?_set_ne _ hmn]
        exact hn m (by simp [hm]))
      refine ⟨rels', t', ?_, ?_, ?_, ?_⟩
      · have hz : List.zipWith (· + ·) (tables.map f) (tables.map (G n)) = tables.map (fun z => f z + G n z) := by
          rw [List.zipWith_map]; simp [List.zipWith_self]
        simp only [scoreItem, bind, Except.bind, FMap.atKey_of_find h1, h2, if_true, h5, List.length_map, assertR, decide_true, hz, h9]
        simp only [List.map_cons, List.sum_cons, add_assoc]
      · rw [h10]
        dsimp only
        rw [relScore_set h1, h6]; ring
      · intro m hm
        simp only [List.mem_cons, not_or] at hm
        rw [h11 m hm.2]
        exact FMap.find?_set_ne _ hm.1 _
      · intro m hm
        rcases List.mem_cons.mp hm with rfl | hm
        · refine ⟨id, rel', by rw [h11 m hnl]; exact FMap.find?_set_self .., true, h7, by simp, fun _ table ht hne t2 => ?_⟩
          rw [h6]
          exact h8 table ht hne t2
        · exact h12 m hm

theorem moveRels_exact {d : String} {item cur table : Int} {tables : List Int} {G : String → Int → ℝ} (ht : table ∈ tables)
    (hne : table ≠ cur) : ∀ (l : List String) (I : IRM F) (t : Tape), l.Nodup →
    (∀ n ∈ l, ∃ id rel, I.rels.find? n = some (id, rel) ∧ Moves I.doms d item cur tables (G n) rel) →
    ∃ rels' t', moveRels d item table l I t = .ok ({ I with rels := rels' }, t') ∧
      relScore rels' = relScore I.rels + (l.map (fun n => G n table)).sum - (l.map (fun n => G n cur)).sum := by
  intro l
  induction l with
  | nil => exact fun I t _ _ => ⟨I.rels, t, rfl, by simp⟩
  | cons n l ih =>
    intro I t hnd hn
    obtain ⟨hnl, hnd⟩ := List.nodup_cons.mp hnd
    obtain ⟨id, rel, h1, b, h2, h3, h4⟩ := hn n (by simp)
    cases b with
    | false =>
      obtain ⟨rels', t', h5, h6⟩ := ih I t hnd (fun m hm => hn m (by simp [hm]))
      refine ⟨rels', t', ?_, ?_⟩
      · simp only [moveRels, bind, Except.bind, FMap.atKey_of_find h1, h2, Bool.false_eq_true, if_false, h5]
      · rw [h6]; simp [h3 rfl]
    | true =>
      obtain ⟨rel', t1, h5, h6⟩ := h4 rfl table ht hne t
      obtain ⟨rels', t', h7, h8⟩ := ih { I with rels := I.rels.set n (id, rel') } t1 hnd (by
        intro m hm
        have hmn : m ≠ n := fun h => hnl (h ▸ hm)
        dsimp only
        rw [FMap.find?_set_ne _ hmn]
        exact hn m (by simp [hm]))
      refine ⟨rels', t', ?_, ?_⟩
      · simp only [moveRels, bind, Except.bind, FMap.atKey_of_find h1, h2, if_true, h5, h7]
      · rw [h8]
        dsimp only
        rw [relScore_set h1, h6]
        simp only [List.map_cons, List.sum_cons]
        ring

theorem itemScores_exact {I : IRM F} (h : Inv L ar I) {d : String} {dom : Domain} (hdom : I.doms.find? d = some dom)
    {item cur : Int} (hcur : dom.crp.assignments.find? item = some cur)
    (hex : ∀ n id r, I.rels.find? n = some (id, r) → (∃ k, r.data.contains k = true ∧ Uses r.doms d item k) → r.Scorable L) :
    ∃ (w : FMap Int ℝ) (lw : Int → ℝ), dom.crp.tablesWeightsGibbs cur = .ok w ∧ cur ∈ w.keys ∧
      ∀ t, ∃ order I1 t1, itemScores I d item t = .ok (w.keys, w.keys.map lw, order, I1, t1) ∧
        ∀ z ∈ w.keys, ∀ t2, ∃ I' t', moveItem d item z order I1 t2 = .ok (I', t') ∧
          Inv L ar I' ∧ SameData I I' ∧ Reseats d item z I I' ∧ I'.logpScore - I.logpScore = lw z - lw cur := by
  classical
  have hw := h.store d dom hdom
  obtain ⟨w, hw1, new, hnew, hnewc, hw2, _⟩ := CRP.tablesWeightsGibbs_spec hw.crp hcur
  have hw3 : dom.tablesWeightsGibbs item = .ok w := by
    simp only [Domain.tablesWeightsGibbs, bind, Except.bind, Domain.getClusterAssignment_eq hw hcur, hw1]
  obtain ⟨y, hy⟩ : ∃ y, w.find? cur = some y := by
    rw [hw2]
    by_cases ho : occupancy (without dom.crp.seating item) cur = 0
    · exact ⟨_, by rw [if_pos (hnewc ho).symm]⟩
    · by_cases hc : cur = new
      · exact ⟨_, by rw [if_pos hc]⟩
      · exact ⟨_, by rw [if_neg hc, if_neg ho]⟩
  obtain ⟨s, hs⟩ := FMap.contains_iff.mp ((h.names d).trans (FMap.contains_iff.mpr ⟨dom, hdom⟩))
  have hG : ∀ n, ∃ g : Int → ℝ, ∀ id r, n ∈ s.keys → I.rels.find? n = some (id, r) → Scores I.doms d item cur w.keys g r := by
    intro n
    cases hf : I.rels.find? n with
    | none => exact ⟨fun _ => 0, fun id r _ hr => (by cases hr)⟩
    | some x =>
      obtain ⟨id, r⟩ := x
      by_cases hn : n ∈ s.keys
      · obtain ⟨id', r', a1, a2⟩ := (h.index d s hs n).mp hn
        rw [hf] at a1; cases a1
        have hri := h.rels n id r hf
        obtain ⟨b, b1, b2⟩ := hri.hasObservation a2 item
        cases b with
        | false =>
          exact ⟨fun _ => 0, fun id' r' _ hr' => by cases hr'; exact ⟨false, b1, fun _ _ => rfl, by simp⟩⟩
        | true =>
          obtain ⟨g, hg⟩ := hri.gibbs_fun h.store (hex n id r hf (b2.mp rfl)) a2 hdom hcur b1
          refine ⟨g, fun id' r' _ hr' => ?_⟩
          cases hr'
          refine ⟨true, b1, by simp, fun _ t => ?_⟩
          obtain ⟨r1, t1, c1, c2, c3⟩ := hg w.keys t
          refine ⟨r1, t1, c1, c2, ?_, c3⟩
          obtain ⟨_, e2, e3⟩ := hri.gibbsScores_keeps h.store c1
          obtain ⟨b', f1, f2⟩ := e2.hasObservation (d := d) (by rw [e3.doms]; exact a2) item
          have : b' = true := f2.mpr (by rw [e3.data, e3.doms]; exact b2.mp rfl)
          rw [f1, this]
      · exact ⟨fun _ => 0, fun id r hn' _ => absurd hn' hn⟩
  choose G hG using hG
  let lw : Int → ℝ := fun z => Real.log ((w.find? z).getD 0) + (s.keys.map (fun n => G n z)).sum
  refine ⟨w, lw, hw1, FMap.mem_keys.mpr ⟨y, hy⟩, fun t => ?_⟩
  have hperm := shuffle_perm s.keys t
  have hlog : w.vals.map Real.log = w.keys.map (fun z => Real.log ((w.find? z).getD 0)) := by
    simp only [FMap.vals, FMap.keys, List.map_map]
    apply List.map_congr_left
    rintro ⟨k, v⟩ hkv
    have := FMap.mem_entries.mp hkv
    simp [this]
  have hnd := hperm.nodup_iff.mpr (FMap.nodupKeys s)
  have hsum : ∀ z, ((shuffle s.keys t).1.map (fun n => G n z)).sum = (s.keys.map (fun n => G n z)).sum := fun z => (hperm.map _).sum_eq
  have hl : ∀ n ∈ (shuffle s.keys t).1, ∃ id rel, I.rels.find? n = some (id, rel) ∧ d ∈ rel.doms := fun n hn =>
    (h.index d s hs n).mp (hperm.mem_iff.mp hn)
  obtain ⟨rels1, t1, h1, h2, h3, h4⟩ := scoreItem_exact (G := G) (shuffle s.keys t).1 I (fun z => Real.log ((w.find? z).getD 0))
    (shuffle s.keys t).2 hnd (fun n hn => by
      obtain ⟨id, rel, a1, a2⟩ := hl n hn
      exact ⟨id, rel, a1, hG n id rel (hperm.mem_iff.mp hn) a1⟩)
  simp only [hsum] at h1
  obtain ⟨_, rels1', g1, g3, g4⟩ := scoreItem_keeps (item := item) (tables := w.keys) (shuffle s.keys t).1 I
    (w.keys.map (fun z => Real.log ((w.find? z).getD 0))) (shuffle s.keys t).2 h (by simp) h1
  simp only [IRM.mk.injEq, true_and, and_true] at g1
  subst g1
  refine ⟨(shuffle s.keys t).1, { I with rels := rels1 }, t1, ?_, ?_⟩
  · simp only [itemScores, bind, Except.bind, FMap.atKey_of_find hdom, hw3, FMap.atKey_of_find hs, hlog, h1]
    rfl
  · intro z hz t2
    have hz1 : ({ I with rels := rels1 } : IRM F).logpScore = I.logpScore := by
      show domScore I.doms + relScore rels1 = domScore I.doms + relScore I.rels
      rw [h2]
    obtain ⟨I', t', e1, e2, e3, e4, e5, e6⟩ := moveItem_ok g3 hdom hcur hs hperm z t2
    refine ⟨I', t', e1, e2, g4.trans e3, e4, ?_⟩
    by_cases hzc : z = cur
    · rw [e5 hzc, hz1, hzc]; ring
    · obtain ⟨rels2, dom', f1, f2, rfl⟩ := e6 hzc
      obtain ⟨rels3, t3, k1, k2⟩ := moveRels_exact (G := G) (cur := cur) hz hzc (shuffle s.keys t).1 { I with rels := rels1 } t2 hnd h4
      rw [f1] at k1
      injection k1 with k1
      simp only [Prod.mk.injEq, IRM.mk.injEq, true_and, and_true] at k1
      obtain ⟨rfl, _⟩ := k1
      obtain ⟨d2, b1, b2, _, _, b4, b5⟩ := Domain.setGibbs_eq hw hcur (Ne.symm hzc)
      rw [f2] at b1; cases b1
      obtain ⟨x, hx⟩ := FMap.mem_keys.mp hz
      have hc := CRP.moved_score hw.crp b2.crp (h.alpha d dom hdom) b4 hcur b5 hw1 hx hy
      show domScore (I.doms.set d dom') + relScore rels2 - (domScore I.doms + relScore I.rels) = _
      rw [domScore_set hdom, k2, h2, hc]
      simp only [lw, hsum, hx, hy, Option.getD_some]
      ring

end IRM
end
end Verif
