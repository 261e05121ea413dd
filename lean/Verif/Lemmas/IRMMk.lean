import Verif.Lemmas.IRMOps
/-! Helper lemmas: which schemas the constructor of an IRM accepts. -/
namespace Verif
open Spec
noncomputable section
variable {V : Type} {F : Family V}

namespace IRM

/-- the maps of an IRM agree about which domains and relations there are -/
structure Skel (I : IRM F) : Prop where
  names : ∀ d, I.domToRels.contains d = I.doms.contains d
  keys : ∀ n, I.schema.contains n = I.rels.contains n

theorem skel_empty : Skel ({} : IRM F) := ⟨fun _ => rfl, fun _ => rfl⟩

/-- what `add_relation` needs -/
def Addable (I : IRM F) (name : String) (spec : RelSpec F) : Prop :=
  I.rels.contains name = false ∧ spec.doms ≠ [] ∧ ∀ b, spec.base? = some b → I.rels.contains b = true

theorem addRelation_skel {I : IRM F} (h : Skel I) (id : Nat) (name : String) (spec : RelSpec F) (ha : Addable I name spec) :
    ∃ I' rel, addRelation id I name spec = .ok I' ∧ Skel I' ∧ I'.schema = I.schema.set name spec ∧
      I'.rels = I.rels.set name (id, rel) ∧ spec.Matches rel ∧ rel.data = ∅ := by
  obtain ⟨hf, hd, hb⟩ := ha
  have hs : I.schema.contains name = false := (h.keys name).trans hf
  obtain ⟨σ', m', h1, h2, h3⟩ := addDomains_ok (name := name) spec.doms I h.names
  have hnames : ∀ d, m'.contains d = σ'.contains d := by
    intro d
    have := h.names d
    simp only [FMap.contains, h2, h3] at this ⊢
    by_cases hm : d ∈ spec.doms
    · cases hx : I.doms.find? d <;> simp [hm]
    · simp [hm, this]
  have hkeys : ∀ (sp : RelSpec F) (x : Nat × Rel F) n, (I.schema.set name sp).contains n = (I.rels.set name x).contains n := by
    intro sp x n
    have := h.keys n
    simp only [FMap.contains, FMap.find?_set] at this ⊢
    split <;> simp [this]
  cases spec with
  | clean c ds o =>
    obtain ⟨r, hr⟩ := CleanRel.mk'_total (D := (F.dist c).toDistOps) hd
    obtain ⟨_, hr'⟩ := CleanRel.mk'_ok hr
    simp only [RelSpec.doms] at h1 hr
    refine ⟨{ I with doms := σ', domToRels := m', rels := I.rels.set name (id, .clean c r), schema := I.schema.set name (.clean c ds o) },
      .clean c r, ?_, ⟨hnames, hkeys _ _⟩, rfl, rfl, ⟨rfl, by rw [hr']; rfl, rfl⟩, by rw [hr']; rfl⟩
    simp [addRelation, addClean, bind, Except.bind, assertR, hs, hf, h1, hr]
  | noisy e ds base o =>
    obtain ⟨r, hr⟩ := NoisyRel.mk'_total (D := (F.emis e).toDistOps) hd
    have hbc := hb base rfl
    obtain ⟨⟨bid, b⟩, hbf⟩ := FMap.contains_iff.mp hbc
    simp only [RelSpec.doms] at h1 hr
    have hr' : r.doms = ds ∧ r.data = ∅ := by
      unfold NoisyRel.mk' at hr
      obtain ⟨_, _, h5⟩ := bind_ok.mp hr
      cases h5; exact ⟨rfl, rfl⟩
    refine ⟨{ I with
        doms := σ', domToRels := m', rels := I.rels.set name (id, .noisy e { table := none, name := base, id := bid } r),
        schema := I.schema.set name (.noisy e ds base o), baseToNoisy := I.baseToNoisy.set base ((I.baseToNoisy.find? base).getD [] ++ [name]) },
      .noisy e _ r, ?_, ⟨hnames, hkeys _ _⟩, rfl, rfl, ⟨rfl, hr'.1, rfl⟩, hr'.2⟩
    simp [addRelation, addNoisy, bind, Except.bind, assertR, hs, hf, h1, hr, hbc, FMap.atKey_of_find hbf]

theorem addRelation_addable {I I' : IRM F} (h : Skel I) {id : Nat} {name : String} {spec : RelSpec F}
    (hc : addRelation id I name spec = .ok I') : Addable I name spec := by
  obtain ⟨σ', m', h1, _⟩ := addDomains_ok (name := name) spec.doms I h.names
  cases spec with
  | clean c ds o =>
    simp only [RelSpec.doms] at h1
    obtain ⟨_, _, h3⟩ := bind_ok.mp hc
    obtain ⟨_, h4, h5⟩ := bind_ok.mp h3
    obtain ⟨I1, _, h6⟩ := bind_ok.mp h5
    obtain ⟨r, h7, _⟩ := bind_ok.mp h6
    refine ⟨by simpa using assertR_ok.mp h4, ?_, by simp [RelSpec.base?]⟩
    rintro rfl
    cases h7
  | noisy e ds base o =>
    simp only [RelSpec.doms] at h1
    obtain ⟨_, _, h3⟩ := bind_ok.mp hc
    obtain ⟨_, h4, h5⟩ := bind_ok.mp h3
    obtain ⟨I1, h6, h7⟩ := bind_ok.mp h5
    rw [h1] at h6; cases h6
    refine ⟨by simpa using assertR_ok.mp h4, ?_, ?_⟩
    · rintro hd
      simp only [RelSpec.doms] at hd
      subst hd
      split at h7
      · obtain ⟨_, _, h8⟩ := bind_ok.mp h7; cases h8
      · obtain ⟨_, _, h8⟩ := bind_ok.mp h7
        obtain ⟨_, h9, _⟩ := bind_ok.mp h8
        cases h9
    · intro b hb
      cases hb
      split at h7
      · obtain ⟨_, _, h8⟩ := bind_ok.mp h7; cases h8
      · rename_i hn; simpa using hn

theorem addAll_iff : ∀ (l : List (String × RelSpec F)) (id : Nat) (I : IRM F), Skel I → (l.map (·.1)).Nodup →
    (∀ e ∈ l, I.rels.contains e.1 = false) →
    ((∃ I', addAll l id I = .ok I') ↔ ∀ pre name spec post, l = pre ++ (name, spec) :: post →
      spec.doms ≠ [] ∧ ∀ b, spec.base? = some b → I.rels.contains b = true ∨ b ∈ pre.map (·.1)) := by
  intro l
  induction l with
  | nil => intro id I h _ _; simp [addAll]
  | cons e l ih =>
    obtain ⟨name, spec⟩ := e
    intro id I h hnd hf
    rw [List.map_cons, List.nodup_cons] at hnd
    constructor
    · rintro ⟨I', hc⟩ pre n sp post hl
      obtain ⟨I1, h1, h2⟩ := bind_ok.mp hc
      have ha := addRelation_addable h h1
      obtain ⟨I2, rel, h3, h4, h5, h6, _⟩ := addRelation_skel h id name spec ha
      rw [h1] at h3; cases h3
      cases pre with
      | nil =>
        simp only [List.nil_append, List.cons.injEq, Prod.mk.injEq] at hl
        obtain ⟨⟨rfl, rfl⟩, rfl⟩ := hl
        exact ⟨ha.2.1, fun b hb => .inl (ha.2.2 b hb)⟩
      | cons x pre =>
        simp only [List.cons_append, List.cons.injEq] at hl
        obtain ⟨rfl, hl⟩ := hl
        obtain ⟨h7, h8⟩ := (ih (id + 1) I1 h4 hnd.2 (by
          intro e he
          have hne : e.1 ≠ name := fun hh => hnd.1 (List.mem_map.mpr ⟨e, he, hh⟩)
          rw [h6, FMap.contains_false, FMap.find?_set_ne _ hne, ← FMap.contains_false]
          exact hf e (by simp [he]))).mp ⟨I', h2⟩ pre n sp post hl
        refine ⟨h7, fun b hb => ?_⟩
        rcases h8 b hb with h9 | h9
        · by_cases hbn : b = name
          · right; simp [hbn]
          · left
            rw [h6, FMap.contains, FMap.find?_set_ne _ hbn] at h9
            exact h9
        · right; simp only [List.map_cons, List.mem_cons]; exact .inr h9
    · intro hall
      obtain ⟨h1, h2⟩ := hall [] name spec l rfl
      obtain ⟨I1, rel, h3, h4, h5, h6, _⟩ := addRelation_skel h id name spec ⟨hf (name, spec) (by simp), h1, fun b hb => by simpa using h2 b hb⟩
      obtain ⟨I', h7⟩ := (ih (id + 1) I1 h4 hnd.2 (by
          intro e he
          have hne : e.1 ≠ name := fun hh => hnd.1 (List.mem_map.mpr ⟨e, he, hh⟩)
          rw [h6, FMap.contains_false, FMap.find?_set_ne _ hne, ← FMap.contains_false]
          exact hf e (by simp [he]))).mpr (by
        intro pre n sp post hl
        obtain ⟨a1, a2⟩ := hall ((name, spec) :: pre) n sp post (by rw [hl]; rfl)
        refine ⟨a1, fun b hb => ?_⟩
        rcases a2 b hb with a3 | a3
        · left
          by_cases hbn : b = name
          · rw [h6, hbn]; simp [FMap.contains]
          · rw [h6, FMap.contains, FMap.find?_set_ne _ hbn]; exact a3
        · simp only [List.map_cons, List.mem_cons] at a3
          rcases a3 with a3 | a3
          · left; rw [h6, a3]; simp [FMap.contains]
          · exact .inr a3)
      exact ⟨I', bind_ok.mpr ⟨I1, h3, h7⟩⟩

theorem addAll_result : ∀ (l : List (String × RelSpec F)) (id : Nat) (I I' : IRM F), Skel I → (l.map (·.1)).Nodup →
    addAll l id I = .ok I' → Skel I' ∧ (∀ n, n ∉ l.map (·.1) → I'.schema.find? n = I.schema.find? n ∧ I'.rels.find? n = I.rels.find? n) ∧
      ∀ n spec, (n, spec) ∈ l → I'.schema.find? n = some spec ∧ ∃ id r, I'.rels.find? n = some (id, r) ∧ spec.Matches r ∧ r.data = ∅ := by
  intro l
  induction l with
  | nil => intro id I I' h _ hc; cases hc; exact ⟨h, fun n _ => ⟨rfl, rfl⟩, by simp⟩
  | cons e l ih =>
    obtain ⟨name, spec⟩ := e
    intro id I I' h hnd hc
    rw [List.map_cons, List.nodup_cons] at hnd
    obtain ⟨I1, h1, h2⟩ := bind_ok.mp hc
    obtain ⟨I2, rel, h3, h4, h5, h6, h7, h7'⟩ := addRelation_skel h id name spec (addRelation_addable h h1)
    rw [h1] at h3; cases h3
    obtain ⟨h8, h9, h10⟩ := ih (id + 1) I1 I' h4 hnd.2 h2
    refine ⟨h8, ?_, ?_⟩
    · intro n hn
      simp only [List.map_cons, List.mem_cons, not_or] at hn
      obtain ⟨a1, a2⟩ := h9 n hn.2
      rw [a1, a2, h5, h6, FMap.find?_set_ne _ hn.1, FMap.find?_set_ne _ hn.1]
      exact ⟨rfl, rfl⟩
    · intro n sp hm
      rcases List.mem_cons.mp hm with he | hm
      · cases he
        obtain ⟨a1, a2⟩ := h9 name hnd.1
        rw [a1, a2, h5, h6]
        exact ⟨by simp, id, rel, by simp, h7, h7'⟩
      · exact h10 n sp hm

end IRM
end
end Verif
