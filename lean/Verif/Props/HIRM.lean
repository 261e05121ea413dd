import Verif.Lemmas.HIRMMk
import Verif.Props.LatentValue
/-!
C28, C29 and C31 (for `HIRM`): the hierarchical model (hirm.cc).

The theorems hold for every family of distributions and emissions, whatever they compute, for every history of calls that returned
(`HIRM.History`) and every sequence of random draws.
-/
namespace Verif
open Spec
noncomputable section
variable {V : Type} {F : Family V}
namespace HIRM

/-! ### C28: the parts of an HIRM agree -/

theorem addPass_history : ∀ (l : List (String × RelSpec F)) (H : HIRM F) (a p : Bool) (t : Tape) (x : HIRM F × Bool × Bool × Tape),
    History H → addPass l H a p t = .ok x → History x.1 := by
  intro l
  induction l with
  | nil => intro H a p t x h hc; cases hc; exact h
  | cons e l ih =>
    obtain ⟨name, spec⟩ := e
    intro H a p t x h hc
    unfold addPass at hc
    split at hc
    · exact ih _ _ _ _ _ h hc
    · cases spec with
      | clean c ds o =>
        obtain ⟨⟨H1, t1⟩, h1, h2⟩ := bind_ok.mp hc
        exact ih _ _ _ _ _ (.add h h1) h2
      | noisy e ds b o =>
        dsimp only at hc
        split at hc
        · obtain ⟨⟨H1, t1⟩, h1, h2⟩ := bind_ok.mp hc
          exact ih _ _ _ _ _ (.add h h1) h2
        · exact ih _ _ _ _ _ h hc

theorem addPasses_history {schema : Schema F} : ∀ (k : Nat) (H : HIRM F) (t : Tape) (x : HIRM F × Tape),
    History H → addPasses schema k H t = .ok x → History x.1 := by
  intro k
  induction k with
  | zero => intro H t x _ hc; cases hc
  | succ k ih =>
    intro H t x h hc
    obtain ⟨⟨H1, a, p, t1⟩, h1, h2⟩ := bind_ok.mp hc
    have := addPass_history _ _ _ _ _ _ h h1
    dsimp only at h2
    split at h2
    · cases h2; exact this
    · split at h2
      · cases h2
      · exact ih _ _ _ this h2

/-- what the constructor builds is the state after a history -/
theorem mk'_history {schema : Schema F} {H : HIRM F} {t t' : Tape} (hc : mk' schema t = .ok (H, t')) : History H :=
  addPasses_history _ _ _ _ .empty hc

/-- **C28**: after construction and any history of calls, the relation CRP, the IRMs, the code tables and the schema agree: every
relation has a unique code, sits at one table and is stored in the IRM of that table and in no other; no IRM is empty. -/
theorem C28_hirm_consistent {H : HIRM F} (h : History H) : Consistent H := h.skel.consistent

/-- C28 for the state right after construction -/
theorem C28_hirm_constructed {schema : Schema F} {H : HIRM F} {t t' : Tape} (hc : mk' schema t = .ok (H, t')) : Consistent H :=
  C28_hirm_consistent (mk'_history hc)

/-! ### C29: moving a relation keeps the observations -/

/-- **C29**: `transition_cluster_assignment_relation` leaves the observations of every relation unchanged, whatever table is drawn;
besides, it keeps the schema and moves no other relation. -/
theorem C29_transition_keeps_observations {H H' : HIRM F} (h : History H) {r : String} {t t' : Tape}
    (hc : H.transitionRelation r t = .ok (H', t')) :
    (∀ n, H'.dataOf n = H.dataOf n) ∧ H'.schema = H.schema ∧ ∀ n, n ≠ r → H'.tableOf n = H.tableOf n := by
  obtain ⟨_, tb, hm⟩ := transitionRelation_skel h.skel hc
  exact ⟨hm.data, hm.schema, fun n hn => by rw [hm.tables, if_neg hn]⟩

/-- **C29**: `set_cluster_assignment_gibbs` leaves the observations of every relation unchanged; the relation sits at the given table
afterwards, and no other relation moves. -/
theorem C29_set_keeps_observations {H H' : HIRM F} (h : History H) {r : String} {table : Int} {t t' : Tape}
    (hc : H.setClusterAssignmentGibbs r table t = .ok (H', t')) :
    (∀ n, H'.dataOf n = H.dataOf n) ∧ H'.schema = H.schema ∧ H'.tableOf r = some table ∧ ∀ n, n ≠ r → H'.tableOf n = H.tableOf n := by
  obtain ⟨_, hm⟩ := setClusterAssignmentGibbs_skel h.skel hc
  exact ⟨hm.data, hm.schema, by rw [hm.tables, if_pos rfl], fun n hn => by rw [hm.tables, if_neg hn]⟩

/-- C29 for a sweep over all relations -/
theorem C29_sweep_keeps_observations {H H' : HIRM F} (h : History H) {t t' : Tape} (hc : H.transitionAll t = .ok (H', t')) :
    History H' ∧ (∀ n, H'.dataOf n = H.dataOf n) ∧ H'.schema = H.schema := by
  have key : ∀ (l : List String) (H : HIRM F) (t : Tape) (x : HIRM F × Tape), History H → transitionRelations l H t = .ok x →
      History x.1 ∧ (∀ n, x.1.dataOf n = H.dataOf n) ∧ x.1.schema = H.schema := by
    intro l
    induction l with
    | nil => intro H t x h hc; cases hc; exact ⟨h, fun _ => rfl, rfl⟩
    | cons r l ih =>
      intro H t x h hc
      obtain ⟨⟨H1, t1⟩, h1, h2⟩ := bind_ok.mp hc
      obtain ⟨a1, a2, _⟩ := C29_transition_keeps_observations h h1
      obtain ⟨b0, b1, b2⟩ := ih _ _ _ (.move h h1) h2
      exact ⟨b0, fun n => (b1 n).trans (a1 n), b2.trans a2⟩
  exact key _ _ _ _ h hc

/-! ### C31: construction -/

/-- **C31, for `HIRM`**: whatever the names, the order and the draws, the constructor accepts a schema exactly if every relation has a
domain and every chain of base relations stays in the schema and ends in a clean relation. -/
theorem C31_hirm_constructor (schema : Schema F) (t : Tape) :
    (∃ H t', mk' schema t = .ok (H, t')) ↔ ∀ n spec, schema.find? n = some spec → spec.doms ≠ [] ∧ Grounded schema n := by
  constructor
  · rintro ⟨H, t', hc⟩
    obtain ⟨h1, h2⟩ := addPasses_inv _ _ _ _ (fun n sp hn => by cases hn) hc
    have hd : ∀ n spec, schema.find? n = some spec → spec.doms ≠ [] := by
      intro n spec hs
      obtain ⟨sp, h3⟩ := FMap.contains_iff.mp (h2 n (FMap.contains_iff.mpr ⟨spec, hs⟩))
      obtain ⟨h4, h5⟩ := h1 n sp h3
      rw [hs] at h4; cases h4; exact h5
    intro n spec hs
    refine ⟨hd n spec hs, ?_⟩
    rcases addPasses_ok hd (schema.size + 1) {} t (built_empty schema) (by omega) with ⟨H', t'', h3, h4, h5⟩ | ⟨h3, _⟩
    · exact h4.grounded n (by rw [h5]; exact FMap.contains_iff.mpr ⟨spec, hs⟩)
    · rw [mk', h3] at hc; cases hc
  · intro h
    rcases addPasses_ok (fun n spec hs => (h n spec hs).1) (schema.size + 1) {} t (built_empty schema) (by omega) with
      ⟨H', t'', h3, _⟩ | ⟨_, n, hn, hg⟩
    · exact ⟨H', t'', h3⟩
    · obtain ⟨spec, hs⟩ := FMap.contains_iff.mp hn
      exact absurd (h n spec hs).2 hg

/-- C31: a schema with a loop or a missing base ends the program with an error message. -/
theorem C31_hirm_rejects {schema : Schema F} (hd : ∀ n spec, schema.find? n = some spec → spec.doms ≠ []) {n : String}
    (hn : schema.contains n = true) (hg : ¬ Grounded schema n) (t : Tape) : mk' schema t = .error .exit := by
  rcases addPasses_ok hd (schema.size + 1) {} t (built_empty schema) (by omega) with ⟨H', t'', h3, h4, h5⟩ | ⟨h3, _⟩
  · exact absurd (h4.grounded n (by rw [h5]; exact hn)) hg
  · exact h3

/-- C31: the result has exactly the relations of the schema, each as described there and without observations. -/
theorem C31_hirm_result {schema : Schema F} {H : HIRM F} {t t' : Tape} (hc : mk' schema t = .ok (H, t')) :
    H.schema = schema ∧ ∀ n spec, schema.find? n = some spec → ∃ tb id r, H.relOf n = some (tb, id, r) ∧ r.kind = spec.kind ∧
      r.doms = spec.doms ∧ r.base?.map Ptr.name = spec.base? ∧ r.data = ∅ := by
  have hd := fun n spec hs => ((C31_hirm_constructor schema t).mp ⟨H, t', hc⟩ n spec hs).1
  rcases addPasses_ok hd (schema.size + 1) {} t (built_empty schema) (by omega) with ⟨H', t'', h3, h4, h5⟩ | ⟨h3, _⟩
  · rw [mk', h3] at hc
    cases hc
    refine ⟨h5, fun n spec hs => ?_⟩
    have hn : H.schema.contains n = true := by rw [h5]; exact FMap.contains_iff.mpr ⟨spec, hs⟩
    obtain ⟨tb, id, r, hr⟩ := h4.skel.relOf hn
    obtain ⟨_, I, hI, hrI⟩ := relOf_some.mp hr
    obtain ⟨spec', hs', hm⟩ := h4.objs tb I n id r hI hrI
    rw [h5, hs] at hs'
    cases hs'
    refine ⟨tb, id, r, hr, hm.kind, hm.doms, hm.base, ?_⟩
    have := h4.empty n hn
    rw [dataOf, hr] at this
    exact Option.some.inj this
  · rw [mk', h3] at hc; cases hc

/-! ### concrete cases -/
open Latent (bools)

/-- a base relation, a noisy relation of it whose name comes first, and an unrelated relation -/
def exSchema : Schema bools :=
  ((((∅ : Schema bools).set "A" (.noisy () ["D", "E"] "B" true)).set "B" (.clean () ["D"] false)).set "C" (.clean () ["E"] true))

/-- the state that a call returned -/
def got (x : Res (HIRM bools × Tape)) : HIRM bools :=
  match x with
  | .ok (H, _) => H
  | .error _ => {}

/-- after construction: `A` and `B` share a table, `C` has its own -/
def ex1 : HIRM bools := got (mk' exSchema [0, 1, 0])
def ex2 : HIRM bools := got (ex1.incorporate "B" [3] true [])
def ex3 : HIRM bools := got (ex2.incorporate "A" [3, 5] false [])
def ex4 : HIRM bools := got (ex3.incorporate "C" [5] false [])
def ex5 : HIRM bools := got (ex4.setClusterAssignmentGibbs "B" 7 [])

theorem ex1_eq : mk' exSchema [0, 1, 0] = .ok (ex1, []) := rfl
theorem ex2_eq : ex1.incorporate "B" [3] true [] = .ok (ex2, []) := rfl
theorem ex3_eq : ex2.incorporate "A" [3, 5] false [] = .ok (ex3, []) := rfl
theorem ex4_eq : ex3.incorporate "C" [5] false [] = .ok (ex4, []) := rfl
theorem ex5_eq : ex4.setClusterAssignmentGibbs "B" 7 [] = .ok (ex5, []) := rfl

/-- C31: the schema is accepted although `A` comes before its base `B` -/
example : ∀ t, ∃ H t', mk' exSchema t = .ok (H, t') := fun t => (C31_hirm_constructor exSchema t).mpr
  ((C31_hirm_constructor exSchema [0, 1, 0]).mp ⟨_, _, ex1_eq⟩)

/-- C31: a loop of bases is rejected -/
example (t : Tape) :
    mk' (((∅ : Schema bools).set "A" (.noisy () ["D"] "B" true)).set "B" (.noisy () ["D"] "A" true)) t = .error .exit := by
  have hf : ∀ n spec, (((∅ : Schema bools).set "A" (.noisy () ["D"] "B" true)).set "B" (.noisy () ["D"] "A" true)).find? n = some spec →
      spec.doms ≠ [] ∧ ∃ b, spec.base? = some b := by
    intro n spec h
    rw [FMap.find?_set] at h
    split at h
    · cases h; exact ⟨by simp [RelSpec.doms], _, rfl⟩
    · rw [FMap.find?_set] at h
      split at h
      · cases h; exact ⟨by simp [RelSpec.doms], _, rfl⟩
      · cases h
  refine C31_hirm_rejects (n := "A") (fun n spec h => (hf n spec h).1) rfl (fun hg => ?_) t
  have key : ∀ n, Grounded (((∅ : Schema bools).set "A" (.noisy () ["D"] "B" true)).set "B" (.noisy () ["D"] "A" true)) n → False := by
    intro n hg
    induction hg with
    | clean h hb => obtain ⟨b, hb'⟩ := (hf _ _ h).2; rw [hb] at hb'; cases hb'
    | noisy _ _ _ ih => exact ih
  exact key _ hg

theorem ex4_history : History ex4 := .incorporate (.incorporate (.incorporate (mk'_history ex1_eq) ex2_eq) ex3_eq) ex4_eq

/-- C28, C29: three relations with observations; the base of `A` leaves their common table for a new one and back to the table of `C` -/
example : ex4.tableOf "A" = some 0 ∧ ex4.tableOf "B" = some 0 ∧ ex4.tableOf "C" = some 1 := ⟨rfl, rfl, rfl⟩
example : ex5.tableOf "A" = some 0 ∧ ex5.tableOf "B" = some 7 ∧ ex5.tableOf "C" = some 1 := ⟨rfl, rfl, rfl⟩
example : Consistent ex5 := C28_hirm_consistent (.set ex4_history ex5_eq)
example : ex5.dataOf "A" = some ((∅ : FMap Items Bool).set [3, 5] false) := (C29_set_keeps_observations ex4_history ex5_eq).1 "A"
example : ∃ H t, ex5.setClusterAssignmentGibbs "B" 1 [] = .ok (H, t) ∧ H.tableOf "B" = some 1 ∧
    H.dataOf "B" = some ((∅ : FMap Items Bool).set [3] true) ∧ H.irms.size = 2 := ⟨_, _, rfl, rfl, rfl, rfl⟩

end HIRM
end
end Verif
