import Verif.Lemmas.HIRMReach
import Verif.Props.HIRM
import Verif.Props.IRM
/-!
C61 and C30: what inference does to a hierarchical model (hirm.cc, inference.cc).

The theorems hold for every family of distributions and emissions that obeys its laws, every state a program can reach
(`HIRM.Reach`) and every sequence of random draws.
-/
namespace Verif
open Spec
noncomputable section
variable {V : Type} {F : Family V} {L : FamilyLaws F}
namespace HIRM

/-! ### C61: inference never fails and leaves a sound state -/

/-- **C61**: in every reachable state all that is kept besides the observations agrees with them: the clusters and indexes of each
relation are exact, every base pointer shows the current base relation, and each noisy observation is paired with the value that
its base has now. -/
theorem C61_sound {H : HIRM F} (h : Reach L H) : Sound L H := h.good.sound

/-- **C61**: `transition_cluster_assignment_relation` succeeds for every relation of the schema, whatever is drawn.  The result is
reachable, so it is sound again; all observations are kept, and no other relation moves. -/
theorem C61_move {H : HIRM F} (h : Reach L H) {r : String} (hr : H.schema.contains r = true) (t : Tape) :
    ∃ H' t' table, H.transitionRelation r t = .ok (H', t') ∧ Reach L H' ∧ H'.schema = H.schema ∧ (∀ n, H'.dataOf n = H.dataOf n) ∧
      H'.tableOf r = some table ∧ ∀ n, n ≠ r → H'.tableOf n = H.tableOf n := by
  obtain ⟨H', t', ch, h1, h2, _⟩ := transitionRelation_ok h.good hr t
  exact ⟨H', t', ch, h1, .move h h1, h2.moved.schema, h2.moved.data, by rw [h2.moved.tables, if_pos rfl],
    fun n hn => by rw [h2.moved.tables, if_neg hn]⟩

/-- **C61**: `set_cluster_assignment_gibbs` succeeds for every relation of the schema and every table number. -/
theorem C61_set {H : HIRM F} (h : Reach L H) {r : String} (hr : H.schema.contains r = true) (table : Int) (t : Tape) :
    ∃ H' t', H.setClusterAssignmentGibbs r table t = .ok (H', t') ∧ Reach L H' ∧ H'.schema = H.schema ∧ (∀ n, H'.dataOf n = H.dataOf n) ∧
      H'.tableOf r = some table ∧ ∀ n, n ≠ r → H'.tableOf n = H.tableOf n := by
  obtain ⟨H', t', h1, h2⟩ := setClusterAssignmentGibbs_ok h.good hr table t
  exact ⟨H', t', h1, .set h h1, h2.moved.schema, h2.moved.data, by rw [h2.moved.tables, if_pos rfl],
    fun n hn => by rw [h2.moved.tables, if_neg hn]⟩

/-- C61: the two moves reject a name that is not in the schema -/
theorem C61_move_unknown {H : HIRM F} (h : Reach L H) {r : String} (hr : H.schema.contains r = false) (table : Int) (t : Tape) :
    H.transitionRelation r t = .error .outOfRange ∧ H.setClusterAssignmentGibbs r table t = .error .outOfRange := by
  have h1 : H.relToCode.contains r = false := by rw [← h.good.skel.schema]; exact hr
  have h2 : H.relToCode.atKey r = .error .outOfRange := by
    unfold FMap.atKey
    rw [FMap.contains_false.mp h1]
  have h3 : H.irms.size = H.crp.tables.size := by
    have := h.good.skel.checkTables
    obtain ⟨_, h4, _⟩ := bind_ok.mp this
    simpa using assertR_ok.mp h4
  constructor
  · simp only [transitionRelation, bind, Except.bind, h2]
  · simp [setClusterAssignmentGibbs, bind, Except.bind, h2, assertR, h3]

theorem transitionRelations_total : ∀ (l : List String) (H : HIRM F) (t : Tape), Reach L H → (∀ r ∈ l, H.schema.contains r = true) →
    ∃ H' t', transitionRelations l H t = .ok (H', t') ∧ Reach L H' ∧ H'.schema = H.schema ∧ (∀ n, H'.dataOf n = H.dataOf n) ∧
      H'.baseToNoisy = H.baseToNoisy := by
  intro l
  induction l with
  | nil => intro H t h _; exact ⟨H, t, rfl, h, rfl, fun _ => rfl, rfl⟩
  | cons r l ih =>
    intro H t h hl
    obtain ⟨H1, t1, ch, h1, h2, _⟩ := transitionRelation_ok h.good (hl r (by simp)) t
    obtain ⟨H2, t2, a1, a2, a3, a4, a5⟩ := ih H1 t1 (.move h h1) (fun r' hr' => by rw [h2.moved.schema]; exact hl r' (by simp [hr']))
    exact ⟨H2, t2, bind_ok.mpr ⟨_, h1, a1⟩, a2, a3.trans h2.moved.schema, fun n => (a4 n).trans (h2.moved.data n),
      a5.trans h2.moved.baseToNoisy⟩

/-- **C61**: a sweep over all relations succeeds, whatever the order and the draws. -/
theorem C61_sweep {H : HIRM F} (h : Reach L H) (t : Tape) :
    ∃ H' t', H.transitionAll t = .ok (H', t') ∧ Reach L H' ∧ H'.schema = H.schema ∧ ∀ n, H'.dataOf n = H.dataOf n := by
  obtain ⟨H', t', h1, h2, h3, h4, _⟩ := transitionRelations_total (shuffle H.relToCode.keys t).1 H (shuffle H.relToCode.keys t).2 h (by
    intro r hr
    rw [h.good.skel.schema, FMap.contains_iff_mem]
    exact (shuffle_perm _ _).mem_iff.mp hr)
  exact ⟨H', t', h1, h2, h3, h4⟩

theorem latentSweep_observed : ∀ (l : List String) (H : HIRM F) (t : Tape),
    (∀ r ∈ l, ∃ spec, H.schema.find? r = some spec ∧ spec.observed = true) → latentSweep l H t = .ok (H, t) := by
  intro l
  induction l with
  | nil => intro H t _; rfl
  | cons r l ih =>
    intro H t hl
    obtain ⟨spec, h1, h2⟩ := hl r (by simp)
    simp only [latentSweep, bind, Except.bind, FMap.atKey_of_find h1, h2]
    exact ih H t (fun r' hr' => hl r' (by simp [hr']))

theorem sweep_nothing {H : HIRM F} (h : Reach L H)
    (ho : ∀ n spec b sp, H.schema.find? n = some spec → spec.base? = some b → H.schema.find? b = some sp → sp.observed = true) (t : Tape) :
    latentSweep (shuffle H.baseToNoisy.keys t).1 H (shuffle H.baseToNoisy.keys t).2 = .ok (H, (shuffle H.baseToNoisy.keys t).2) :=
  latentSweep_observed _ _ _ (by
    intro r hr
    obtain ⟨l, hl⟩ := FMap.contains_iff.mp (FMap.contains_iff_mem.mpr ((shuffle_perm _ _).mem_iff.mp hr))
    cases l with
    | nil => exact absurd hl (h.good.listed r)
    | cons n l =>
      obtain ⟨spec, h1, h2⟩ := (h.good.noisy r n).mp (by rw [hl]; simp)
      obtain ⟨tb, id, q, btb, bid, br, _, h3, _⟩ := h.good.sound.attached n spec r h1 h2
      obtain ⟨sp, h4⟩ := FMap.contains_iff.mp (h.good.skel.known h3)
      exact ⟨sp, h4, ho n spec r sp h1 h2 h4⟩)

theorem dataOf_stepped {H H' : HIRM F} (h : Good L H) (h' : Good L H') (hk : SameKeys H H')
    (hd : ∀ n u id r, H.relOf n = some (u, id, r) → ∃ r', H'.relOf n = some (u, id, r') ∧ r.SameData r') (n : String) : H'.dataOf n = H.dataOf n := by
  unfold dataOf
  cases hx : H.relOf n with
  | some x =>
    obtain ⟨u, id, r⟩ := x
    obtain ⟨r', b1, b2⟩ := hd n u id r hx
    rw [b1]
    simp only [Option.map_some, b2.data]
  | none =>
    cases hy : H'.relOf n with
    | none => rfl
    | some y =>
      obtain ⟨u, id, r⟩ := y
      have := h'.skel.known hy
      rw [hk.schema] at this
      obtain ⟨tb, id', r', hz⟩ := h.skel.relOf this
      rw [hx] at hz; cases hz

theorem inferenceStep_total {H : HIRM F} (h : Reach L H) (hS : L.Scores H.schema)
    (ho : ∀ n spec b sp, H.schema.find? n = some spec → spec.base? = some b → H.schema.find? b = some sp → sp.observed = true) (t : Tape) :
    ∃ H' t', H.inferenceStep t = .ok (H', t') ∧ Reach L H' ∧ H'.schema = H.schema ∧ ∀ n, H'.dataOf n = H.dataOf n := by
  obtain ⟨H1, t1, h1, h2, h3, h4⟩ := C61_sweep h (shuffle H.baseToNoisy.keys t).2
  obtain ⟨H2, t2, a1, a2, a3, a4⟩ := stepIrms_ok (shuffle H1.irms.keys t1).1 H1 (shuffle H1.irms.keys t1).2 h2.good (by rw [h3]; exact hS) (by
    intro tb htb
    exact FMap.contains_iff_mem.mpr ((shuffle_perm _ _).mem_iff.mp htb))
  exact ⟨H2, t2, bind_ok.mpr ⟨_, sweep_nothing h ho t, bind_ok.mpr ⟨_, h1, a1⟩⟩, .step h2 a1, a3.schema.trans h3,
    fun n => (dataOf_stepped h2.good a2 a3 a4 n).trans (h4 n)⟩

theorem inferenceStep_returned {H H' : HIRM F} (h : Reach L H)
    (ho : ∀ n spec b sp, H.schema.find? n = some spec → spec.base? = some b → H.schema.find? b = some sp → sp.observed = true) {t t' : Tape}
    (hc : H.inferenceStep t = .ok (H', t')) : Reach L H' ∧ H'.schema = H.schema ∧ ∀ n, H'.dataOf n = H.dataOf n := by
  obtain ⟨H1, t1, h1, h2, h3, h4⟩ := C61_sweep h (shuffle H.baseToNoisy.keys t).2
  obtain ⟨⟨Hz, tz⟩, hz, hc⟩ := bind_ok.mp hc
  replace hz := (sweep_nothing h ho t).symm.trans hz
  cases hz
  obtain ⟨⟨Hz, tz⟩, hz, hc⟩ := bind_ok.mp hc
  replace hz := h1.symm.trans hz
  cases hz
  obtain ⟨a2, a3, a4⟩ := stepIrms_inv _ _ _ _ _ h2.good hc
  exact ⟨.step h2 hc, a3.schema.trans h3, fun n => (dataOf_stepped h2.good a2 a3 a4 n).trans (h4 n)⟩

/-- **C61**: `inference_hirm` on a model whose base relations are observed, and whose scores are determined by the data, runs any number of iterations without failing, whatever
the orders and draws are; afterwards the state is sound and the observations are what they were. -/
theorem C61_inference {H : HIRM F} (h : Reach L H) (hS : L.Scores H.schema)
    (ho : ∀ n spec b sp, H.schema.find? n = some spec → spec.base? = some b → H.schema.find? b = some sp → sp.observed = true)
    (k : Nat) (t : Tape) :
    ∃ H' t', inference k H t = .ok (H', t') ∧ Reach L H' ∧ Sound L H' ∧ H'.schema = H.schema ∧ ∀ n, H'.dataOf n = H.dataOf n := by
  induction k generalizing H t with
  | zero => exact ⟨H, t, rfl, h, C61_sound h, rfl, fun _ => rfl⟩
  | succ k ih =>
    obtain ⟨H1, t1, h1, h2, h3, h4⟩ := inferenceStep_total h hS ho t
    obtain ⟨H2, t2, a1, a2, a3, a4, a5⟩ := ih h2 (by rw [h3]; exact hS) (by rw [h3]; exact ho) t1
    exact ⟨H2, t2, bind_ok.mpr ⟨_, h1, a1⟩, a2, a3, a4.trans h3, fun n => (a5 n).trans (h4 n)⟩

/-- **C61**: whatever the noise is, `inference_hirm` on a model whose base relations are observed keeps the observations and the state sound,
if it returns.  (With noise that cannot be undone it can fail: see `C70_sometimes_categorical_false`.) -/
theorem C61_inference_returned {H H' : HIRM F} (h : Reach L H)
    (ho : ∀ n spec b sp, H.schema.find? n = some spec → spec.base? = some b → H.schema.find? b = some sp → sp.observed = true)
    {k : Nat} {t t' : Tape} (hc : inference k H t = .ok (H', t')) :
    Reach L H' ∧ Sound L H' ∧ H'.schema = H.schema ∧ ∀ n, H'.dataOf n = H.dataOf n := by
  induction k generalizing H t with
  | zero => cases hc; exact ⟨h, C61_sound h, rfl, fun _ => rfl⟩
  | succ k ih =>
    obtain ⟨⟨H1, t1⟩, h1, hc⟩ := bind_ok.mp hc
    obtain ⟨h2, h3, h4⟩ := inferenceStep_returned h ho h1
    obtain ⟨a1, a2, a3, a4⟩ := ih h2 (by rw [h3]; exact ho) hc
    exact ⟨a1, a2, a3.trans h3, fun n => (a4 n).trans (h4 n)⟩

/-- **C61**: a value in the support is accepted exactly if the relation exists, the tuple has its arity and is new, and, for a noisy
relation, the base relation has a value for the first entities of the tuple.  Then it is stored, and no other relation changes. -/
theorem C61_incorporate {H : HIRM F} (h : Reach L H) {name : String} {items : Items} {v : V}
    (hv : ∀ tb id r, H.relOf name = some (tb, id, r) → r.Supports L (IRM.baseOf H.env r) items v) (t : Tape) :
    (∃ H' t', H.incorporate name items v t = .ok (H', t')) ↔
      ∃ spec data, H.schema.find? name = some spec ∧ H.dataOf name = some data ∧ items.length = spec.doms.length ∧ data.find? items = none ∧
        ∀ b, spec.base? = some b → ∃ sp bdata bv, H.schema.find? b = some sp ∧ H.dataOf b = some bdata ∧
          bdata.find? (items.take sp.doms.length) = some bv := by
  have hg := h.good
  constructor
  · rintro ⟨H', t', hc⟩
    obtain ⟨tb, id, r, hr, hl, hn, hb⟩ := incorporate_pre hg hc
    obtain ⟨spec, hs, hm⟩ := hg.matched hr
    refine ⟨spec, r.data, hs, by rw [dataOf, hr]; rfl, by rw [hl, hm.doms], hn, fun b hb' => ?_⟩
    have h1 := hm.base
    rw [hb'] at h1
    obtain ⟨p, hp, rfl⟩ := Option.map_eq_some_iff.mp h1
    obtain ⟨btb, bid, br, h2, _, h3, _⟩ := hg.base hr hp
    obtain ⟨sp, h4, h5⟩ := hg.matched h2
    obtain ⟨b', bv, h6, h7⟩ := hb p hp
    rw [h3] at h6; cases h6
    exact ⟨sp, br.data, bv, h4, by rw [dataOf, h2]; rfl, by rw [← h5.doms]; exact h7⟩
  · rintro ⟨spec, data, hs, hd, hl, hn, hb⟩
    obtain ⟨x, hr, hx⟩ := Option.map_eq_some_iff.mp hd
    obtain ⟨tb, id, r⟩ := x
    dsimp only at hx
    subst hx
    obtain ⟨sp, h1, hm⟩ := hg.matched hr
    rw [hs] at h1; cases h1
    obtain ⟨H', t', _, h2, _⟩ := hg.incorporate hr (hv tb id r hr) (by rw [hl, hm.doms]) hn (by
      intro p hp
      have h3 := hm.base
      rw [hp] at h3
      obtain ⟨sp, bdata, bv, h4, h5, h6⟩ := hb p.name h3.symm
      obtain ⟨btb, bid, br, h7, _, h8, _⟩ := hg.base hr hp
      obtain ⟨sp', h9, h10⟩ := hg.matched h7
      rw [h4] at h9; cases h9
      rw [dataOf, h7] at h5
      cases h5
      exact ⟨_, bv, h8, by rw [← h10.doms] at h6; exact h6⟩) t
    exact ⟨H', t', h2⟩

/-- C61: what an accepted observation does -/
theorem C61_incorporated {H H' : HIRM F} (h : Reach L H) {name : String} {items : Items} {v : V} {t t' : Tape}
    (hv : ∀ tb id r, H.relOf name = some (tb, id, r) → r.Supports L (IRM.baseOf H.env r) items v)
    (hc : H.incorporate name items v t = .ok (H', t')) :
    Reach L H' ∧ H'.schema = H.schema ∧ (∀ n, H'.tableOf n = H.tableOf n) ∧
      ∀ n, H'.dataOf n = if n = name then (H.dataOf name).map (·.set items v) else H.dataOf n := by
  obtain ⟨tb, id, r, hr, hl, hn, hb⟩ := incorporate_pre h.good hc
  obtain ⟨K, u, r', h1, h2, h3, h4, h5, h6⟩ := h.good.incorporate hr (hv tb id r hr) hl hn hb t
  rw [hc] at h1; cases h1
  refine ⟨.incorporate h hv hc, h3.schema, fun n => by rw [tableOf, tableOf, h3.relToCode, h3.crp], fun n => ?_⟩
  rw [dataOf, h6]
  split
  · rw [dataOf, hr]; simp [h5]
  · rfl

/-- **C61**: an observation that no noisy observation refers to can be removed, and only that observation goes. -/
theorem C61_unincorporate {H : HIRM F} (h : Reach L H) {name : String} {items : Items} {data : FMap Items V}
    (hd : H.dataOf name = some data) (hk : data.contains items = true) (hu : H.Unused name items) :
    ∃ H', H.unincorporate name items = .ok H' ∧ Reach L H' ∧ H'.schema = H.schema ∧ (∀ n, H'.tableOf n = H.tableOf n) ∧
      ∀ n, H'.dataOf n = if n = name then some (data.erase items) else H.dataOf n := by
  obtain ⟨x, hr, hx⟩ := Option.map_eq_some_iff.mp hd
  obtain ⟨tb, id, r⟩ := x
  dsimp only at hx
  subst hx
  obtain ⟨K, r', h1, h2, h3, h4, h5, h6⟩ := h.good.unincorporate hr hk hu
  refine ⟨K, h1, .unincorporate h hu h1, h3.schema, fun n => by rw [tableOf, tableOf, h3.relToCode, h3.crp], fun n => ?_⟩
  rw [dataOf, h6]
  split
  · simp [h5]
  · rfl

/-! ### construction -/

theorem addPass_reach {schema : Schema F} (ha : ∀ n spec b sp, schema.find? n = some spec → spec.base? = some b → schema.find? b = some sp →
      sp.doms.length ≤ spec.doms.length) :
    ∀ (l : List (String × RelSpec F)) (H : HIRM F) (a p : Bool) (t : Tape) (x : HIRM F × Bool × Bool × Tape),
    (∀ e ∈ l, schema.find? e.1 = some e.2) → Pre schema H → Reach L H → addPass l H a p t = .ok x → Reach L x.1 := by
  intro l
  induction l with
  | nil => intro H a p t x _ _ h hc; cases hc; exact h
  | cons e l ih =>
    obtain ⟨name, spec⟩ := e
    intro H a p t x hl hp h hc
    have hs : schema.find? name = some spec := hl (name, spec) (by simp)
    have hl' : ∀ e ∈ l, schema.find? e.1 = some e.2 := fun e he => hl e (by simp [he])
    have hadd : ∀ H1 t1, H.addRelation name spec t = .ok (H1, t1) → Reach L H1 := fun H1 t1 h1 =>
      .add h (fun b sp hb hsp => ha name spec b sp hs hb (hp b sp hsp).1) h1
    unfold addPass at hc
    split at hc
    · exact ih _ _ _ _ _ hl' hp h hc
    · cases spec with
      | clean c ds o =>
        obtain ⟨⟨H1, t1⟩, h1, h2⟩ := bind_ok.mp hc
        exact ih _ _ _ _ _ hl' (hp.add hs h1).1 (hadd _ _ h1) h2
      | noisy e ds b o =>
        dsimp only at hc
        split at hc
        · obtain ⟨⟨H1, t1⟩, h1, h2⟩ := bind_ok.mp hc
          exact ih _ _ _ _ _ hl' (hp.add hs h1).1 (hadd _ _ h1) h2
        · exact ih _ _ _ _ _ hl' hp h hc

/-- **C61**: what the constructor builds from a schema in which a noisy relation has at least as many domains as its base is a
reachable state. -/
theorem C61_constructed {schema : Schema F} (ha : ∀ n spec b sp, schema.find? n = some spec → spec.base? = some b → schema.find? b = some sp →
      sp.doms.length ≤ spec.doms.length) {H : HIRM F} {t t' : Tape} (hc : mk' schema t = .ok (H, t')) : Reach L H := by
  have key : ∀ (k : Nat) (H : HIRM F) (t : Tape) (x : HIRM F × Tape), Pre schema H → Reach L H → addPasses schema k H t = .ok x → Reach L x.1 := by
    intro k
    induction k with
    | zero => intro H t x _ _ hc; cases hc
    | succ k ih =>
      intro H t x hp h hc
      obtain ⟨⟨H1, a, p, t1⟩, h1, h2⟩ := bind_ok.mp hc
      have hx := addPass_reach ha _ _ _ _ _ _ (fun e he => FMap.mem_entries.mp he) hp h h1
      have hp' := (addPass_inv _ _ _ _ _ _ (fun e he => FMap.mem_entries.mp he) hp h1).1
      dsimp only at h2
      split at h2
      · cases h2; exact hx
      · split at h2
        · cases h2
        · exact ih _ _ _ hp' hx h2
  exact key _ _ _ _ (fun n sp hn => by cases hn) .empty hc

/-! ### C30: a move touches the domains of all IRMs -/

/-- **C30 is false**: after `transition_cluster_assignment_relation` of `r`, whatever table is drawn, every IRM that has a domain of `r`
for some relation contains all the entities of that domain which `r` observes: they were seated there when the table was scored, and removing
`r` again leaves them. -/
theorem C30_move_spreads_entities {H H' : HIRM F} (h : Reach L H) {r : String} {data : FMap Items V} {spec : RelSpec F}
    (hs : H.schema.find? r = some spec) (hd : H.dataOf r = some data) {t t' : Tape} (hc : H.transitionRelation r t = .ok (H', t'))
    {tb : Int} {I' : IRM F} (hI : H'.irms.find? tb = some I') {d : String} (hdom : I'.doms.contains d = true) {items : Items}
    (hk : data.contains items = true) {i : Int} (hu : Uses spec.doms d i items) : ∃ z, seatOf I'.doms d i = some z := by
  obtain ⟨K, u, ch, h1, _, _, h2⟩ := transitionRelation_ok h.good (FMap.contains_iff.mpr ⟨spec, hs⟩) t
  rw [hc] at h1; cases h1
  obtain ⟨x, hr, hx⟩ := Option.map_eq_some_iff.mp hd
  obtain ⟨u, id, rel⟩ := x
  dsimp only at hx
  subst hx
  obtain ⟨sp, h3, hm⟩ := h.good.matched hr
  rw [hs] at h3; cases h3
  exact h2 tb I' hI u id rel hr d i items hdom hk (by rw [hm.doms]; exact hu)

/-- **C30, the true part**: if the draw is the relation's current table, then no relation object changes, its IRM keeps its domains as
they were, no IRM loses an entity or moves one to another cluster, and an IRM gains no entities but those that the relation observes.
Missing: the other IRMs do gain these (`C30_move_spreads_entities`, `C30_false`). -/
theorem C30_same_table_partial {H H' : HIRM F} (h : Reach L H) {r : String} {t t' : Tape} (hc : H.transitionRelation r t = .ok (H', t'))
    {table : Int} (h0 : H.tableOf r = some table) (h1 : H'.tableOf r = some table) :
    (∀ n, H'.relOf n = H.relOf n) ∧ (H'.irms.find? table).map (·.doms) = (H.irms.find? table).map (·.doms) ∧
    ∀ tb, (H.irms.contains tb = H'.irms.contains tb) ∧ ∀ I I', H.irms.find? tb = some I → H'.irms.find? tb = some I' →
      (∀ d i z, seatOf I.doms d i = some z → seatOf I'.doms d i = some z) ∧
      (∀ d i z, seatOf I'.doms d i = some z → (∃ z, seatOf I.doms d i = some z) ∨
        ∃ spec data items, H.schema.find? r = some spec ∧ H.dataOf r = some data ∧ data.contains items = true ∧ Uses spec.doms d i items) := by
  have hg := h.good
  have hr : H.schema.contains r = true := tableOf_known hg.skel h0
  obtain ⟨K, u, ch, g1, g2, g3, _⟩ := transitionRelation_ok hg hr t
  rw [hc] at g1; cases g1
  have hch : ch = table := by
    have := g2.moved.tables r
    rw [h1, if_pos rfl] at this
    exact (Option.some.inj this).symm
  subst hch
  obtain ⟨g4, g5⟩ := g3 h0
  have hsame : ∀ n, H'.tableOf n = H.tableOf n := by
    intro n
    rw [g2.moved.tables]
    split
    · rename_i he; subst he; exact h0.symm
    · rfl
  refine ⟨g4, g5, fun tb => ⟨?_, fun I I' hI hI' => ⟨?_, ?_⟩⟩⟩
  · have key : ∀ {A B : HIRM F}, Skel A → Skel B → A.schema = B.schema → (∀ n, A.tableOf n = B.tableOf n) →
        ∀ tb, A.irms.contains tb = true → B.irms.contains tb = true := by
      intro A B hA hB hAB hT tb htb
      obtain ⟨I, hI⟩ := FMap.contains_iff.mp htb
      obtain ⟨n, hn⟩ := hA.inhabited hI
      have := (hA.place tb I hI n).mp hn
      rw [hT] at this
      obtain ⟨J, hJ, _⟩ := hB.irm this
      exact FMap.contains_iff.mpr ⟨J, hJ⟩
    rw [Bool.eq_iff_iff]
    exact ⟨key hg.skel g2.good.skel g2.moved.schema.symm (fun n => (hsame n).symm) tb,
      key g2.good.skel hg.skel g2.moved.schema hsame tb⟩
  · intro d i z hz
    by_cases htb : tb = ch
    · subst htb
      rw [hI, hI'] at g5
      simp only [Option.map_some, Option.some.injEq] at g5
      rw [g5]; exact hz
    · obtain ⟨dom, h2, _⟩ := Option.bind_eq_some_iff.mp hz
      have hi := hg.inv tb I hI
      obtain ⟨s, hs⟩ := FMap.contains_iff.mp ((hi.names d).trans (FMap.contains_iff.mpr ⟨dom, h2⟩))
      obtain ⟨n, hn⟩ := hi.used d s hs
      obtain ⟨id, q, h3, h4⟩ := (hi.index d s hs n).mp hn
      have h5 := hg.skel.obj hI h3
      refine g2.seats n tb id q d I I' ?_ h5 h4 hI hI' i z hz
      rintro rfl
      have := (relOf_some.mp h5).1
      rw [h0] at this
      exact htb (Option.some.inj this).symm
  · intro d i z hz
    rcases g2.grown tb I' hI' d i z hz with ⟨I1, z', h2, h3⟩ | ⟨u, id, rel, k, h2, h3, h4⟩
    · rw [hI] at h2; cases h2; exact .inl ⟨z', h3⟩
    · obtain ⟨spec, h5, h6⟩ := hg.matched h2
      exact .inr ⟨spec, rel.data, k, h5, by rw [dataOf, h2]; rfl, h3, by rw [← h6.doms]; exact h4⟩

/-! ### concrete cases -/
open Latent (bools boolLaws)

/-- a base relation, a noisy relation of it and a relation that shares domain `E` with the noisy one; all are observed -/
def mvSchema : Schema bools :=
  ((((∅ : Schema bools).set "A" (.noisy () ["D", "E"] "B" true)).set "B" (.clean () ["D"] true)).set "C" (.clean () ["E"] true))

/-- `A` and `B` share table 0, `C` has table 1 -/
def mv1 : HIRM bools := got (mk' mvSchema [0, 1, 0])
def mv2 : HIRM bools := got (mv1.incorporate "B" [3] true [])
def mv3 : HIRM bools := got (mv2.incorporate "A" [3, 5] false [])
def mv4 : HIRM bools := got (mv3.incorporate "C" [9] false [])

theorem mv1_eq : mk' mvSchema [0, 1, 0] = .ok (mv1, []) := rfl
theorem mv2_eq : mv1.incorporate "B" [3] true [] = .ok (mv2, []) := rfl
theorem mv3_eq : mv2.incorporate "A" [3, 5] false [] = .ok (mv3, []) := rfl
theorem mv4_eq : mv3.incorporate "C" [9] false [] = .ok (mv4, []) := rfl

theorem mvSchema_find {n : String} {spec : RelSpec bools} (h : mvSchema.find? n = some spec) :
    (n = "C" ∧ spec = .clean () ["E"] true) ∨ (n = "B" ∧ spec = .clean () ["D"] true) ∨ (n = "A" ∧ spec = .noisy () ["D", "E"] "B" true) := by
  unfold mvSchema at h
  simp only [FMap.find?_set] at h
  split at h
  · cases h; exact .inl ⟨by assumption, rfl⟩
  · split at h
    · cases h; exact .inr (.inl ⟨by assumption, rfl⟩)
    · split at h
      · cases h; exact .inr (.inr ⟨by assumption, rfl⟩)
      · cases h

theorem mv1_reach : Reach boolLaws mv1 := C61_constructed (fun n spec b sp h1 h2 h3 => by
  rcases mvSchema_find h1 with ⟨rfl, rfl⟩ | ⟨rfl, rfl⟩ | ⟨rfl, rfl⟩
  · cases h2
  · cases h2
  · cases h2
    rcases mvSchema_find h3 with ⟨h, _⟩ | ⟨_, rfl⟩ | ⟨h, _⟩
    · exact absurd h (by decide)
    · decide
    · exact absurd h (by decide)) mv1_eq

theorem mv4_reach : Reach boolLaws mv4 :=
  .incorporate (.incorporate (.incorporate mv1_reach (fun _ _ _ _ => IRM.supports_bools) mv2_eq)
    (fun _ _ _ _ => IRM.supports_bools) mv3_eq) (fun _ _ _ _ => IRM.supports_bools) mv4_eq

theorem mv4_weights : mv4.crp.tablesWeightsGibbs 0 =
    .ok (((((∅ : FMap Int ℝ).set 0 ((2 : Nat) : ℝ)).set 1 ((1 : Nat) : ℝ)).set 2 1).set 0 (((2 : Nat) : ℝ) - 1)) := by
  have h : mv4.crp.tablesWeights.atKey 0 = .ok ((2 : Nat) : ℝ) := rfl
  have h2 : (((2 : Nat) : ℝ) - 1) ≠ 0 := by norm_num
  refine bind_ok.mpr ⟨(), rfl, bind_ok.mpr ⟨(), rfl, bind_ok.mpr ⟨_, h, ?_⟩⟩⟩
  rw [if_neg h2]
  rfl

def mv5 : HIRM bools := got (do
  let (lps, H, aux, t) ← scoreTables "A" 0 (.noisy () ["D", "E"] "B" true) ((∅ : FMap Items Bool).set [3, 5] false) [(0,((2 : Nat) : ℝ) - 1),(1,((1 : Nat) : ℝ)),(2,1)] mv4 none []
  let (k, t) := draw lps.length t
  let choice ← idxR lps k
  let (order, t) := shuffle H.crp.tables.keys t
  let H ← H.settle "A" 3 0 choice.1 order aux
  .ok (H, t))

theorem mv5_eq : mv4.transitionRelation "A" [] = .ok (mv5, []) := by
  refine bind_ok.mpr ⟨_, rfl, bind_ok.mpr ⟨0, rfl, bind_ok.mpr ⟨_, rfl, bind_ok.mpr ⟨_, rfl, bind_ok.mpr ⟨_, mv4_weights, rfl⟩⟩⟩⟩⟩

/-- **C30 is false**, a case: `A` draws the table it already has, and yet the IRM of `C` has gained entity 5 of domain `E`. -/
theorem C30_false : ∃ (H H' : HIRM bools) (r d : String) (table tb i : Int) (I I' : IRM bools), Reach boolLaws H ∧
    H.transitionRelation r [] = .ok (H', []) ∧ H.tableOf r = some table ∧ H'.tableOf r = some table ∧ tb ≠ table ∧
    H.irms.find? tb = some I ∧ H'.irms.find? tb = some I' ∧ seatOf I.doms d i = none ∧ seatOf I'.doms d i ≠ none :=
  ⟨mv4, mv5, "A", "E", 0, 1, 5, _, _, mv4_reach, mv5_eq, rfl, rfl, by decide, rfl, rfl, rfl, by
    intro h
    have h' : seatOf ((mv5.irms.find? 1).get rfl).doms "E" 5 = some 0 := rfl
    have h'' : (none : Option Int) = some 0 := h.symm.trans h'
    cases h''⟩

/-- C30_same_table_partial, C30_move_spreads_entities: their hypotheses hold for this move -/
example : (∀ n, mv5.relOf n = mv4.relOf n) := (C30_same_table_partial mv4_reach mv5_eq (table := 0) rfl rfl).1
example {I' : IRM bools} (hI : mv5.irms.find? 1 = some I') (h : I'.doms.contains "E" = true) : ∃ z, seatOf I'.doms "E" 5 = some z :=
  C30_move_spreads_entities mv4_reach (spec := .noisy () ["D", "E"] "B" true) (data := (∅ : FMap Items Bool).set [3, 5] false) rfl rfl mv5_eq hI h
    (items := [3, 5]) rfl (by simp [Uses, RelSpec.doms])

/-- C61: the noisy relation, its base and the third relation can all be moved in any way, and inference runs -/
example (t : Tape) : ∃ H' t' table, mv4.transitionRelation "B" t = .ok (H', t') ∧ Reach boolLaws H' ∧ H'.schema = mv4.schema ∧
    (∀ n, H'.dataOf n = mv4.dataOf n) ∧ H'.tableOf "B" = some table ∧ ∀ n, n ≠ "B" → H'.tableOf n = mv4.tableOf n :=
  C61_move mv4_reach rfl t
example (t : Tape) : ∃ H' t', mv4.setClusterAssignmentGibbs "B" 7 t = .ok (H', t') ∧ Reach boolLaws H' ∧ H'.schema = mv4.schema ∧
    (∀ n, H'.dataOf n = mv4.dataOf n) ∧ H'.tableOf "B" = some 7 ∧ ∀ n, n ≠ "B" → H'.tableOf n = mv4.tableOf n :=
  C61_set mv4_reach rfl 7 t
theorem mv4_observed : ∀ n spec b sp, mv4.schema.find? n = some spec → spec.base? = some b → mv4.schema.find? b = some sp → sp.observed = true := by
  intro n spec b sp _ _ h
  rcases mvSchema_find h with ⟨_, rfl⟩ | ⟨_, rfl⟩ | ⟨_, rfl⟩ <;> rfl
example (k : Nat) (t : Tape) : ∃ H' t', inference k mv4 t = .ok (H', t') ∧ Reach boolLaws H' ∧ Sound boolLaws H' ∧ H'.schema = mv4.schema ∧
    ∀ n, H'.dataOf n = mv4.dataOf n := C61_inference mv4_reach (IRM.boolScores _) mv4_observed k t
/-- C61_incorporate: `A` accepts (3, 9), whose base value is there, and not (4, 9) -/
example (t : Tape) : ∃ H' t', mv4.incorporate "A" [3, 9] true t = .ok (H', t') :=
  (C61_incorporate mv4_reach (fun _ _ _ _ => IRM.supports_bools) t).mpr
    ⟨.noisy () ["D", "E"] "B" true, (∅ : FMap Items Bool).set [3, 5] false, rfl, rfl, rfl, rfl, fun b hb => by
      cases hb; exact ⟨.clean () ["D"] true, (∅ : FMap Items Bool).set [3] true, true, rfl, rfl, rfl⟩⟩
example (t : Tape) : ¬ ∃ H' t', mv4.incorporate "A" [4, 9] true t = .ok (H', t') := fun h => by
  obtain ⟨spec, data, h1, h2, h3, h4, h5⟩ := (C61_incorporate mv4_reach (fun _ _ _ _ => IRM.supports_bools) t).mp h
  rcases mvSchema_find h1 with ⟨h, _⟩ | ⟨h, _⟩ | ⟨_, rfl⟩
  · exact absurd h (by decide)
  · exact absurd h (by decide)
  · obtain ⟨sp, bd, bv, h6, h7, h8⟩ := h5 "B" rfl
    have h9 : mv4.dataOf "B" = some ((∅ : FMap Items Bool).set [3] true) := rfl
    rw [h9] at h7; cases h7
    rcases mvSchema_find h6 with ⟨h, _⟩ | ⟨_, rfl⟩ | ⟨h, _⟩
    · exact absurd h (by decide)
    · cases h8
    · exact absurd h (by decide)
/-- C61_unincorporate: nothing refers to the observation of `A` -/
example : ∃ H', mv4.unincorporate "A" [3, 5] = .ok H' ∧ H'.dataOf "A" = some ∅ := by
  obtain ⟨H', h1, _, _, _, h2⟩ := C61_unincorporate mv4_reach (name := "A") (items := [3, 5]) (data := (∅ : FMap Items Bool).set [3, 5] false) rfl rfl (by
    intro n tb id rel p btb bid b h1 h2 h3 _
    obtain ⟨spec, h4, h5⟩ := mv4_reach.good.matched h1
    have h6 := h5.base
    rw [h2, Option.map_some, h3] at h6
    rcases mvSchema_find h4 with ⟨_, rfl⟩ | ⟨_, rfl⟩ | ⟨_, rfl⟩ <;> simp [RelSpec.base?] at h6)
  exact ⟨H', h1, h2 "A"⟩

/-! ### C28: what removing a noisy relation leaves behind -/

def mv6 : HIRM bools := match mv4.removeRelation "A" with
  | .ok H => H
  | .error _ => {}
theorem mv6_eq : mv4.removeRelation "A" = .ok mv6 := rfl

/-- `remove_relation` of a noisy relation leaves its name in the list of noisy relations of the base.  A later move of the base then
throws, although nothing is wrong with the base and the state after the removal is consistent. -/
theorem C28_removed_noisy_relation : ∃ (H : HIRM bools), mv4.removeRelation "A" = .ok H ∧ Consistent H ∧ H.schema.contains "B" = true ∧
    H.setClusterAssignmentGibbs "B" 7 [] = .error .outOfRange :=
  ⟨mv6, mv6_eq, (Skel.consistent (removeRelation_skel mv4_reach.good.skel mv6_eq)), rfl, rfl⟩

def mv7 : HIRM bools := got (mv6.addRelation "A" (.clean () ["E"] true) [])
theorem mv7_eq : mv6.addRelation "A" (.clean () ["E"] true) [] = .ok (mv7, []) := rfl

/-- If the name is then added again as a clean relation, the move of the old base casts it to a noisy relation: undefined behaviour. -/
theorem C28_removed_noisy_relation_clean : ∃ (H H' : HIRM bools), mv4.removeRelation "A" = .ok H ∧
    H.addRelation "A" (.clean () ["E"] true) [] = .ok (H', []) ∧ Consistent H' ∧ H'.setClusterAssignmentGibbs "B" 7 [] = .error .ub :=
  ⟨mv6, mv7, mv6_eq, mv7_eq, (Skel.consistent (addRelation_skel (removeRelation_skel mv4_reach.good.skel mv6_eq) mv7_eq)), rfl⟩

/-- If the name is added again as a noisy relation of another base, the move of the old base makes the old base its base. -/
theorem C28_removed_noisy_relation_rebased : ∃ (H H' H'' : HIRM bools) (tb : Int) (id : Nat) (r : Rel bools), mv4.removeRelation "A" = .ok H ∧
    H.addRelation "A" (.noisy () ["E"] "C" true) [] = .ok (H', []) ∧ H'.setClusterAssignmentGibbs "B" 7 [] = .ok (H'', []) ∧
    H''.schema.find? "A" = some (.noisy () ["E"] "C" true) ∧ H''.relOf "A" = some (tb, id, r) ∧ r.base?.map Ptr.name = some "B" :=
  ⟨mv6, _, _, _, _, _, mv6_eq, rfl, rfl, rfl, rfl, rfl⟩

/-- **C31**: `add_relation` of a noisy relation fails if its base is not in the model yet: the code tries to add the base itself, and
the base is then either unknown or known already. -/
theorem C31_add_noisy_without_base {H : HIRM F} (h : History H) {name : String} {e : F.E} {ds : List String} {base : String} {o : Bool}
    (hb : H.schema.contains base = false) (t : Tape) : ∃ err, H.addRelation name (.noisy e ds base o) t = .error err := by
  cases hc : H.addRelation name (.noisy e ds base o) t with
  | error err => exact ⟨err, rfl⟩
  | ok x =>
    have := addRelation_base h.skel (spec := .noisy e ds base o) hc rfl
    rw [hb] at this; cases this

example : ∃ err, ({} : HIRM bools).addRelation "A" (.noisy () ["D"] "B" true) [] = .error err := C31_add_noisy_without_base .empty rfl []

end HIRM
end
end Verif
