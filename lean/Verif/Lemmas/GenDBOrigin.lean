import Verif.Props.GenDBBuild
/-! The relations that `GenDB` makes have the distributions and emissions of the scalar variables. -/
namespace Verif
namespace GenDB
open PClean
variable {V : Type} {F : Family V}

/-- The relation has the distribution or the emission of a variable with this joint distribution and these parameters. -/
def MadeOf (mkC : String → FMap String String → Res F.C) (mkE : String → FMap String String → Res F.E) (j : String) (p : FMap String String) : RelSpec F → Prop
  | .clean C _ _ => mkC j p = .ok C
  | .noisy e _ _ _ => mkE j p = .ok e

theorem schema_origin {s : PClean.Schema} (hn : NamesOk s) (hq : QueryOk s) {L : Layouts} (hL : layoutsOf s = .ok L)
    {mkC : String → FMap String String → Res F.C} {mkE : String → FMap String String → Res F.E} {clean finalOnly : Bool} {b : Build F}
    (h : makeSchema s L mkC mkE clean finalOnly = .ok b) {n : String} {spec : RelSpec F} (hs : b.schema.find? n = some spec) :
    ∃ c x j p, HasScalar s c x j p ∧ MadeOf mkC mkE j p spec ∧ ∀ base, spec.base? = some base → ∃ sp, b.schema.find? base = some sp ∧ MadeOf mkC mkE j p sp := by
  obtain ⟨a1, a2, a3, a4, a5⟩ := layouts_facts hL
  obtain ⟨h1, h2, h3⟩ := C62_relations hn hq hL h
  have hvar : ∀ {path hops d x j p}, PathTo s s.query.recordClass path hops d x j p → (hops = [] → clean = false) →
      ∃ C ds, mkC j p = .ok C ∧ b.schema.find? (varRel d x) = some (.clean C ds false) := by
    intro path hops d x j p hp hc
    obtain ⟨C, ds, k1, _, k2⟩ := h1 d x j p hp.has (by
      rintro ⟨e1, e2, _⟩
      cases hops with
      | nil => rw [hc rfl] at e1; cases e1
      | cons hop hops => exact path_leaves a1 hp e2)
    exact ⟨C, ds, k1, k2⟩
  rcases h3 n spec hs with ⟨c, x, j, p, hh, rfl⟩ | ⟨k, f, hf, hk⟩
  · obtain ⟨_, C, ds, hC, hl, hv⟩ := (makeSchema_spec hn hq a1 a3 a4 a5 h).var c x j p hh
    rcases hv with ⟨_, hv⟩ | ⟨_, hv⟩
    · rw [hv] at hs
      cases hs
      exact ⟨c, x, j, p, hh, hC, fun base hb => by cases hb⟩
    · rw [hv] at hs; cases hs
  · obtain ⟨hops, d, x, j, p, hp⟩ := hq.path k f hf
    obtain ⟨ds, hds⟩ : ∃ ds, Layout s d ds := by
      obtain ⟨cl, v, hc, _⟩ := hp.has
      exact a4 d cl hc
    have hfield := h2 k f hops d x j p ds hf hp hds
    refine ⟨d, x, j, p, hp.has, ?_⟩
    cases hops with
    | nil =>
      have hn' : n = k := by
        rcases hk with hk | ⟨hops', d', x', j', p', hp', a, ha, _⟩
        · exact hk
        · have := (hp.unique hp').1
          subst this
          simp [viaHops] at ha
      subst hn'
      cases clean with
      | true =>
        obtain ⟨c, hc, hv, _⟩ := hfield
        rw [hv] at hs
        cases hs
        exact ⟨hc, fun base hb => by cases hb⟩
      | false =>
        obtain ⟨e', he, hv, _⟩ := hfield
        rw [hv] at hs
        cases hs
        refine ⟨he, fun base hb => ?_⟩
        cases hb
        obtain ⟨C, ds', k1, k2⟩ := hvar hp (fun _ => rfl)
        exact ⟨_, k2, k1⟩
    | cons hop hops =>
      obtain ⟨C, ds', k1, k2⟩ := hvar hp (fun h => by cases h)
      cases hfin : finalOnly with
      | true =>
        rw [hfin] at hfield
        obtain ⟨e', r, he, hv, _⟩ := hfield
        rcases hk with rfl | ⟨hops', d', x', j', p', hp', a, ha, rfl⟩
        · rw [hv] at hs
          cases hs
          refine ⟨he, fun base hb => ?_⟩
          cases hb
          exact ⟨_, k2, k1⟩
        · simp [viaHops, hfin] at ha
      | false =>
        rw [hfin] at hfield
        obtain ⟨e', he, hall⟩ := hfield
        obtain ⟨pre, c, g, post, heq, rfl⟩ : ∃ pre c g post, hop :: hops = pre ++ (c, g) :: post ∧ n = linkRel k pre c := by
          rcases hk with rfl | ⟨hops', d', x', j', p', hp', a, ha, rfl⟩
          · exact ⟨[], hop.1, hop.2, hops, rfl, rfl⟩
          · have := (hp.unique hp').1
            subst this
            simp only [viaHops, hfin, Bool.false_eq_true, if_false, List.tail_cons] at ha
            obtain ⟨pre, post, he⟩ := List.append_of_mem ha
            exact ⟨hop :: pre, a.1, a.2, post, by rw [he]; rfl, by simp [linkRel]⟩
        obtain ⟨q1, _⟩ := hall pre c g post heq
        rw [q1] at hs
        cases hs
        refine ⟨he, fun base hb => ?_⟩
        cases hb
        cases post with
        | nil => exact ⟨_, k2, k1⟩
        | cons a post =>
          obtain ⟨c', g'⟩ := a
          obtain ⟨q2, _⟩ := hall (pre ++ [(c, g)]) c' g' post (by rw [heq]; simp)
          have hlk : linkRel k (pre ++ [(c, g)]) c' = viaRel c' k := by simp [linkRel]
          rw [hlk] at q2
          exact ⟨_, q2, he⟩

end GenDB
end Verif
