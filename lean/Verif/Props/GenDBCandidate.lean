import Verif.Props.GenDBMove
/-!
C48: candidates that are not chosen.
-/
namespace Verif
namespace GenDB
open PClean
noncomputable section
open Latent (bools boolLaws)

/-- the weights of a customer who does not sit alone -/
def sharedWeights (crp : CRP) (v : Int) : FMap Int ℝ := crp.tablesWeights.set v ((((crp.tables.find? v).map (fun x => x.size)).getD 0 : Nat) - 1 : ℝ)

/-- whether there are other references to the entity -/
def isShared (crp : CRP) (v : Int) : Bool :=
  decide (0 < crp.N) && decide (2 ≤ ((crp.tables.find? v).map (fun x => x.size)).getD 0) && !decide (v = crp.maxTable + 1) && !decide ((sharedWeights crp v).size = 1)

theorem gibbs_shared {crp : CRP} {v : Int} (h : isShared crp v = true) : crp.tablesWeightsGibbs v = .ok (sharedWeights crp v) ∧ (sharedWeights crp v).size ≠ 1 := by
  unfold isShared at h
  simp only [Bool.and_eq_true, decide_eq_true_eq, Bool.not_eq_true', decide_eq_false_iff_not] at h
  obtain ⟨⟨⟨hN, hs⟩, hm⟩, hw⟩ := h
  refine ⟨?_, hw⟩
  cases hc : crp.tables.find? v with
  | none => rw [hc] at hs; simp at hs
  | some x =>
    rw [hc] at hs
    have hx : 2 ≤ x.size := hs
    have hd : crp.tablesWeights.find? v = some ((x.size : Nat) : ℝ) := by
      unfold CRP.tablesWeights
      rw [if_neg (by omega), FMap.find?_set, if_neg hm, FMap.find?_mapVals, hc]
      rfl
    have hne : ((x.size : Nat) : ℝ) - 1 ≠ 0 := by
      have : (2 : ℝ) ≤ ((x.size : Nat) : ℝ) := by exact_mod_cast hx
      linarith
    have e1 : crp.tables.contains v = true := FMap.contains_iff.mpr ⟨_, hc⟩
    have e2 := FMap.atKey_of_find hd
    unfold CRP.tablesWeightsGibbs sharedWeights
    simp only [e1, e2, hN, assertR, bind, Except.bind, decide_true, if_true, hne, if_false, hc, Option.map_some, Option.getD_some]

def sharedCheck (s : PClean.Schema) (clean : Bool) (rows : List (Row Bool)) (c f : String) (i : Int) : Res Bool := do
  let (D, _) ← loadAll s clean false 4 rows
  let d ← refTarget D.schema c f
  let v ← getRef D.ents c f i
  let crp ← D.ents.crps.atKey d
  .ok (isShared crp v)

/-- the reassignment of a reference to an entity that has others -/
def reassignShared (s : PClean.Schema) (clean : Bool) (rows : List (Row Bool)) (c f : String) (i : Int) (t : Tape) : Res (DB bools × Tape) := do
  let (D, _) ← loadAll s clean false 4 rows
  let d ← refTarget D.schema c f
  let v ← getRef D.ents c f i
  let crp ← D.ents.crps.atKey d
  D.moveRef c f i d v crp (sharedWeights crp v) t

theorem reassign_shared {s : PClean.Schema} {clean : Bool} {rows : List (Row Bool)} {c f : String} {i : Int} (t : Tape) (h : sharedCheck s clean rows c f i = .ok true) :
    reassign s clean rows c f i t = reassignShared s clean rows c f i t := by
  unfold sharedCheck at h
  obtain ⟨⟨D, t₁⟩, h1, h⟩ := bind_ok.mp h
  dsimp only at h
  obtain ⟨d, h2, h⟩ := bind_ok.mp h
  obtain ⟨v, h3, h⟩ := bind_ok.mp h
  obtain ⟨crp, h4, h⟩ := bind_ok.mp h
  obtain ⟨g1, g2⟩ := gibbs_shared (Except.ok.inj h)
  unfold reassign reassignShared
  simp only [h1, bind, Except.bind, DB.transitionReference, h2, h3, h4, g1, if_neg g2]

set_option maxRecDepth 40000 in
theorem candidate_witness : (loadAll visits false false 4 [bothRow false 8 true false, bothRow true 7 false true]).map (fun x => refsOf x.1) =
      .ok [("City", []), ("Practice", [(("city", 0), 0)]), ("Record", [(("location", 7), 0), (("location", 8), 0)])] ∧
    (reassign visits false [bothRow false 8 true false, bothRow true 7 false true] "Record" "location" 8 []).map (fun x => refsOf x.1) =
      .ok [("City", []), ("Practice", [(("city", 0), 0), (("city", 1), 0)]), ("Record", [(("location", 7), 0), (("location", 8), 0)])] := by
  refine ⟨rfl, ?_⟩
  rw [reassign_shared _ rfl]
  rfl

/-- C48 is false, also if the reference stays: rows 7 and 8 visit practice 0.  When the location of row 8 is reassigned, a new practice is tried, but the draw
keeps practice 0.  The new practice keeps the city that was sampled for it, though nothing refers to it. -/
theorem C48_candidate_false : ∃ (D₀ D D' : DB bools) (t₀ t' : Tape) (rows : List (Row Bool)), start visits false false = .ok (D₀, t₀) ∧ Loaded boolLaws D₀ rows D ∧
    NoOrphans visits "Record" D.ents ∧ D.transitionReference "Record" "location" 8 [] = .ok (D', t') ∧
    (∀ i v, HasRef D.ents "Record" "location" i v ↔ HasRef D'.ents "Record" "location" i v) ∧ (∀ v, ¬ HasRef D.ents "Practice" "city" 1 v) ∧
    HasRef D'.ents "Practice" "city" 1 0 ∧ ¬ NoOrphans visits "Record" D'.ents := by
  obtain ⟨w1, w2⟩ := candidate_witness
  cases h : loadAll visits false false 4 [bothRow false 8 true false, bothRow true 7 false true] with
  | error e => rw [h] at w1; cases w1
  | ok x =>
    obtain ⟨D, t⟩ := x
    rw [h] at w1
    have w1 := Except.ok.inj w1
    unfold reassign at w2
    rw [h] at w2
    cases h' : D.transitionReference "Record" "location" 8 [] with
    | error e => simp only [bind, Except.bind, h'] at w2; cases w2
    | ok x =>
      obtain ⟨D', t'⟩ := x
      simp only [bind, Except.bind, h'] at w2
      have w2 := Except.ok.inj w2
      obtain ⟨D₀, t₀, hs, hl⟩ := visits_rows rfl rfl (by decide) h
      have hnew : HasRef D'.ents "Practice" "city" 1 0 := (hasRef_of w2).mpr ⟨[(("city", 0), 0), (("city", 1), 0)], by simp, by simp⟩
      have ho := (C64_entities HIRM.samples_bools visits_fine hs (HIRM.compatible_bools _) (fun _ => visits_indexed) hl).2.1
      refine ⟨D₀, D, D', t₀, t', _, hs, hl, ho, h', fun i v => ?_, fun v hv => ?_, hnew, fun hn => ?_⟩
      · rw [hasRef_of w1, hasRef_of w2]
        simp
      · obtain ⟨m, hm, hv⟩ := (hasRef_of w1).mp hv
        simp only [List.mem_cons, Prod.mk.injEq, List.not_mem_nil, or_false] at hm
        rcases hm with ⟨h0, _⟩ | ⟨_, rfl⟩ | ⟨h0, _⟩
        · exact absurd h0 (by decide)
        · simp at hv
        · exact absurd h0 (by decide)
      · rcases hn _ _ _ _ hnew with h0 | ⟨c, f, i, hr, hh⟩
        · exact absurd h0 (by decide)
        · obtain ⟨m, hm, hv⟩ := (hasRef_of w2).mp hh
          simp only [List.mem_cons, Prod.mk.injEq, List.not_mem_nil, or_false] at hm
          rcases hm with ⟨rfl, rfl⟩ | ⟨rfl, rfl⟩ | ⟨rfl, rfl⟩
          · simp at hv
          · simp at hv
          · simp at hv

end
end GenDB
end Verif
