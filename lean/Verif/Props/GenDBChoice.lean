import Verif.Spec.GenDBChoice
import Verif.Props.GenDBWeigh
import Verif.Props.Choice
/-!
C88: the choice among the candidates of a reference.
-/
namespace Verif
namespace GenDB
open PClean
noncomputable section
variable {V : Type} {F : Family V} {L : FamilyLaws F} {s : PClean.Schema} {hash : String → Int} {mkC : String → FMap String String → Res F.C}
  {mkE : String → FMap String String → Res F.E} {clean finalOnly : Bool} {t₀ t₁ : Tape} {D₀ : DB F} {D D' : DB F} {rows : List (Row V)} {c f : String} {i : Int} {t t' : Tape}

theorem tryTable_logps {a : DB.MoveArgs V} {table : Int} {w : ℝ} {D : DB F} {m m' : DB.Move F} {u u' : Tape} (h : DB.tryTable a table w D m u = .ok (m', u')) :
    (∃ lp, m'.logps = m.logps ++ [((Real.log w : ℝ) : WithBot ℝ) + lp]) ∧ ∃ out, m'.outs = m.outs.set table out := by
  unfold DB.tryTable at h
  obtain ⟨⟨D₁, u₁⟩, _, h⟩ := bind_ok.mp h
  dsimp only at h
  obtain ⟨st, _, h⟩ := bind_ok.mp h
  obtain ⟨⟨H, u₂⟩, _, h⟩ := bind_ok.mp h
  dsimp only at h
  obtain ⟨⟨lp, D₂, st₂, out₂, u₃⟩, _, h⟩ := bind_ok.mp h
  dsimp only at h
  obtain ⟨⟨lp', D₃, st₃, out₃, ent₃⟩, _, h⟩ := bind_ok.mp h
  cases h
  exact ⟨⟨lp + lp', by rw [← add_assoc]⟩, out₃, rfl⟩

/-- The loop over the candidates appends one log weight for each. -/
theorem candidates_weighs {a : DB.MoveArgs V} : ∀ {l : List (Int × ℝ)} {m m' : DB.Move F} {u u' : Tape}, DB.candidates a l m u = .ok (m', u') →
    (∃ ls, m'.logps = m.logps ++ ls ∧ Weighs F a l ls) ∧ (∀ k, m.outs.contains k = true → m'.outs.contains k = true) ∧
      ∀ k x, (k, x) ∈ l → k = a.init ∨ m'.outs.contains k = true := by
  intro l
  induction l with
  | nil =>
    intro m m' u u' h
    cases h
    exact ⟨⟨[], by simp, rfl, fun _ _ h => by simp at h, fun _ _ _ h => by simp at h⟩, fun _ h => h, fun _ _ h => by simp at h⟩
  | cons b l ih =>
    obtain ⟨table, w⟩ := b
    intro m m' u u' h
    unfold DB.candidates at h
    obtain ⟨e, h1, h⟩ := bind_ok.mp h
    obtain ⟨⟨m₁, u₁⟩, h2, h⟩ := bind_ok.mp h
    dsimp only at h
    obtain ⟨⟨ls, g1, g2⟩, g3, g4⟩ := ih h
    unfold DB.oneTable at h2
    split at h2
    · rename_i ht
      cases h2
      refine ⟨⟨(((Real.log w : ℝ) : WithBot ℝ) + a.cur) :: ls, by rw [g1, List.append_assoc, List.singleton_append], by simp [g2.length], ?_, ?_⟩, g3, ?_⟩
      · intro j x hj
        cases j with
        | zero =>
          simp only [List.getElem?_cons_zero, Option.some.injEq, Prod.mk.injEq] at hj
          rw [hj.2]
          rfl
        | succ j => exact g2.present j x hj
      · intro j tb x hj hne
        cases j with
        | zero =>
          simp only [List.getElem?_cons_zero, Option.some.injEq, Prod.mk.injEq] at hj
          exact absurd (hj.1 ▸ ht) hne
        | succ j => exact g2.other j tb x hj hne
      · intro k x hk
        rcases List.mem_cons.mp hk with hk | hk
        · cases hk
          exact Or.inl ht
        · exact g4 k x hk
    · rename_i ht
      obtain ⟨⟨lp, k1⟩, out, k2⟩ := tryTable_logps h2
      refine ⟨⟨(((Real.log w : ℝ) : WithBot ℝ) + lp) :: ls, by rw [g1, k1, List.append_assoc, List.singleton_append], by simp [g2.length], ?_, ?_⟩, ?_, ?_⟩
      · intro j x hj
        cases j with
        | zero =>
          simp only [List.getElem?_cons_zero, Option.some.injEq, Prod.mk.injEq] at hj
          exact absurd hj.1 ht
        | succ j => exact g2.present j x hj
      · intro j tb x hj hne
        cases j with
        | zero =>
          simp only [List.getElem?_cons_zero, Option.some.injEq, Prod.mk.injEq] at hj
          obtain ⟨rfl, rfl⟩ := hj
          exact ⟨m, e, u, m₁, u₁, lp, h1, h2, k1, rfl⟩
        | succ j => exact g2.other j tb x hj hne
      · intro k hk
        refine g3 k ?_
        rw [k2]
        by_cases hkt : k = table
        · subst hkt
          exact FMap.contains_iff.mpr ⟨out, FMap.find?_set_self ..⟩
        · obtain ⟨o, ho⟩ := FMap.contains_iff.mp hk
          exact FMap.contains_iff.mpr ⟨o, by rw [FMap.find?_set_ne _ hkt]; exact ho⟩
      · intro k x hk
        rcases List.mem_cons.mp hk with hk | hk
        · cases hk
          exact Or.inr (g3 _ (by rw [k2]; exact FMap.contains_iff.mpr ⟨out, FMap.find?_set_self ..⟩))
        · exact g4 k x hk

/-- **C88**: what a transition of a reference that returns has done.  Either the reference has no other candidate, and nothing happened.  Or everything that depends on it was
taken out, which gives `m.D`, from which the candidates are tried as in C86, and there is one log weight per candidate: for the present value it is the logarithm of its weight in the entity CRP plus `lp`, where `lp`, if it is
a number, is what the score has lost; for the others it is the one of C86.  Each candidate has its notes about entities, so that any may be chosen, and the chosen one, which is
then the value of the reference, has a log weight that is a number. -/
theorem C88_choice_partial (hf : Fine s clean) (hi : Indexed s finalOnly) (hmk : make s hash mkC mkE clean finalOnly t₀ = .ok (D₀, t₁)) (h : Worked D₀ rows D) (hr : HIRM.Reach L D.H)
    (hT : D.H.SchemaTells L) (ht : D.transitionReference c f i t = .ok (D', t')) :
    ∃ d v crp w, refTarget s c f = .ok d ∧ HasRef D.ents c f i v ∧ D.ents.crps.find? d = some crp ∧ crp.tablesWeightsGibbs v = .ok w ∧
      (w.size = 1 ∧ D' = D ∨
      ∃ (a : DB.MoveArgs V) (m m' : DB.Move F) (u u' : Tape), a.c = c ∧ a.f = f ∧ a.i = i ∧ a.init = v ∧ DB.candidates a w.entries m u = .ok (m', u') ∧ Weighs F a w.entries m'.logps ∧
        (∀ p : ℝ, a.cur = (p : WithBot ℝ) → D.H.logpScore = m.D.H.logpScore + p) ∧ (∀ v' ∈ w.keys, ∃ out, m'.outs.find? v' = some out) ∧
        (Freely L D.H.schema → ∃ D₁, Between L D₀ a D₁ ∧ m.D = { D₁ with ents := m.D.ents }) ∧
        ∃ (j : Nat) (v' : Int) (q : ℝ), w.keys[j]? = some v' ∧ m'.logps[j]? = some (q : WithBot ℝ) ∧ HasRef D'.ents c f i v') := by
  have hm := make_laid hf hmk
  obtain ⟨r, hrd, hwr⟩ := hm.ready hf hi
  obtain ⟨hsame, hst, _⟩ := h.stays hm hf hi hrd hwr
  obtain ⟨hsch, hok, _⟩ := C65_history hf hi hmk h
  subst hsch
  have hh : Handled D₀ D := .worked h
  have hmv := ht
  unfold DB.transitionReference at ht
  obtain ⟨d, h1, ht⟩ := bind_ok.mp ht
  obtain ⟨v, h2, ht⟩ := bind_ok.mp ht
  obtain ⟨crp, h3, ht⟩ := bind_ok.mp ht
  obtain ⟨w, h4, ht⟩ := bind_ok.mp ht
  have hd := FMap.atKey_ok.mp h3
  have hv := getRef_ok.mp h2
  refine ⟨d, v, crp, w, h1, hv, hd, h4, ?_⟩
  split at ht
  · rename_i hw
    cases ht
    exact Or.inl ⟨hw, rfl⟩
  right
  have hrank := hst.ready.rank
  have hok := hst.ok
  have hrf := refTarget_ok.mp h1
  unfold DB.moveRef at ht
  obtain ⟨inds, _, ht⟩ := bind_ok.mp ht
  obtain ⟨⟨cur, D₁, stored, out, t₂⟩, h5, ht⟩ := bind_ok.mp ht
  dsimp only at ht
  obtain ⟨⟨cur', m⟩, h6, ht⟩ := bind_ok.mp ht
  dsimp only at ht
  obtain ⟨⟨m₁, t₃⟩, h7, ht⟩ := bind_ok.mp ht
  have ho := unincReference_only h5
  obtain ⟨k1, k2, _⟩ := unincReference_filed (hh.tidy hmk) (hh.firm hmk) (hr.good.filed hT) h5
  obtain ⟨_, _, k4, _⟩ := unincReference_left (hh.tidy hmk) (hh.firm hmk) h5
  unfold DB.leave at h6
  obtain ⟨crp₀, q1, h6⟩ := bind_ok.mp h6
  rw [ho.ents, FMap.atKey_of_find hd] at q1
  cases q1
  obtain ⟨crp', q2, h6⟩ := bind_ok.mp h6
  rw [ho.same.hash] at q2
  dsimp only at h6
  have hid := (hok.agree d crp _ v hd).mpr ⟨c, f, i, hrf, hv, rfl⟩
  obtain ⟨g1, g2, g3⟩ := gibbs_single (hok.wf d crp hd) hid q2 h4
  have hTr : Trying D c f i d crp' (DB.singleOf crp v w.keys) { D₁ with ents := { D₁.ents with crps := D₁.ents.crps.set d crp' } } := by
    have hl := hok.loosen hrf hv hd q2
    refine ⟨ho.same.trans (.ents _ _), by rw [ho.ents]; exact hl, by simp, ?_, ?_⟩
    · intro c' f' i' x _ hx
      rw [ho.ents]
      exact hx
    · intro c' f' i' x _ hx
      rw [ho.ents] at hx
      exact Or.inl hx
  have hv' : HasRef ({ D₁ with ents := { D₁.ents with crps := D₁.ents.crps.set d crp' } } : DB F).ents c f i v := by
    rw [ho.ents]; exact hv
  have hm : (Trying D c f i d crp' (DB.singleOf crp v w.keys) m.D ∧ m.ent = ∅) ∧ HIRM.Falls D.H (cur + cur') m.D.H ∧ m.logps = [] ∧ m.outs.contains v = true ∧
      (Freely L D.H.schema → ∃ D₂, Between L D₀ { c := c, f := f, i := i, d := d, init := v, single := DB.singleOf crp v w.keys, cur := cur + cur', inds := inds, stored := stored } D₂ ∧
        m.D = { D₂ with ents := m.D.ents }) := by
    split at h6
    · rename_i hs
      obtain ⟨⟨lp, D₂, st, out', ent⟩, h8, h6⟩ := bind_ok.mp h6
      cases h6
      have hl := hTr.loose
      rw [← hTr.same.schema, ← hTr.same.hash] at hl
      obtain ⟨q3, q4⟩ := unincSingleton_loose hl hv' hTr.crp (by rw [← hs]; exact g1) h8
      obtain ⟨_, k5, _⟩ := unincSingleton_filed (D := { D₁ with ents := { D₁.ents with crps := D₁.ents.crps.set d crp' } }) ((Handled.ents (.ref hh h5)).tidy hmk)
        ((Handled.ents (.ref hh h5)).firm hmk) k1 (getRef_ok.mpr hv') (by rw [hTr.same.schema]; exact h1) hTr.crp (by rw [← hs]; exact g1) k4.recorded.away h8
      exact ⟨⟨hTr.only q3, q4⟩, k2.add k5, rfl, FMap.contains_iff.mpr ⟨out', FMap.find?_set_self ..⟩, fun hF => ⟨D₂,
        .entity h hr hT hF h5 (getRef_ok.mpr hv') (by rw [ho.same.schema]; exact h1) hTr.crp (by rw [← hs]; exact g1) h8, rfl⟩⟩
    · cases h6
      exact ⟨⟨hTr, rfl⟩, by rw [add_zero]; exact k2, rfl, FMap.contains_iff.mpr ⟨out, FMap.find?_set_self ..⟩, fun hF => ⟨D₁, .ref h hr hT hF h5, rfl⟩⟩
  obtain ⟨⟨hm1, hm2⟩, hfall, hlog, houts, hbet⟩ := hm
  have hnew : DB.singleOf crp v w.keys = v ∨ ¬ Referenced D.schema D.ents d (DB.singleOf crp v w.keys) := by
    refine g3.imp id ?_
    intro hno hx
    obtain ⟨x, hx⟩ := (hok.table hd).mpr hx
    rw [hno] at hx
    cases hx
  obtain ⟨hT₁, hent⟩ := Trying.candidates hrank g1 (a := { c := c, f := f, i := i, d := d, init := v, single := DB.singleOf crp v w.keys, cur := cur + cur', inds := inds, stored := stored })
    ⟨rfl, rfl, rfl, rfl, rfl⟩ hnew hm1 hm2 h7
  obtain ⟨⟨ls, w1, w2⟩, w3, w4⟩ := candidates_weighs h7
  rw [hlog, List.nil_append] at w1
  refine ⟨_, m, m₁, _, t₃, rfl, rfl, rfl, rfl, h7, by rw [w1]; exact w2, hfall, ?_, hbet, ?_⟩
  · intro v' hv''
    obtain ⟨x, hx⟩ := FMap.mem_keys.mp hv''
    refine FMap.contains_iff.mp ((w4 v' x (FMap.mem_entries.mpr hx)).elim ?_ id)
    rintro rfl
    exact w3 _ houts
  unfold DB.finish at ht
  obtain ⟨⟨k, t₄⟩, h8, ht⟩ := bind_ok.mp ht
  dsimp only at ht
  obtain ⟨v', h9, ht⟩ := bind_ok.mp ht
  obtain ⟨st, _, ht⟩ := bind_ok.mp ht
  obtain ⟨out', _, ht⟩ := bind_ok.mp ht
  unfold DB.reincorporate at ht
  obtain ⟨⟨H₁, t₅⟩, _, ht⟩ := bind_ok.mp ht
  dsimp only at ht
  obtain ⟨e, h11, ht⟩ := bind_ok.mp ht
  obtain ⟨⟨H₂, t₆⟩, _, ht⟩ := bind_ok.mp ht
  dsimp only at ht
  obtain ⟨H₃, _, ht⟩ := bind_ok.mp ht
  cases ht
  rw [hent, hT₁.same.schema, hT₁.same.hash] at h11
  obtain ⟨s1, s2⟩ := settleEnts_loose hT₁.loose h11
  obtain ⟨q, hq⟩ := sampleFromLogps_some h8
  refine ⟨k, v', q, ?_, hq, (s2 c f i v').mpr (by simp)⟩
  unfold atR at h9
  split at h9
  · rename_i hx
    cases h9
    exact hx
  · cases h9

/-! ### A concrete case -/
open Latent (bools boolLaws)

/-- `C88_choice_partial` for row 8, which is moved from practice 1 to practice 0: there is more than one candidate. -/
example : ∃ (D₀ D D' : DB bools) (t₀ t' : Tape), start visits false false = .ok (D₀, t₀) ∧ D.transitionReference "Record" "location" 8 [] = .ok (D', t') ∧
    ∃ (w : FMap Int ℝ) (a : DB.MoveArgs Bool) (m m' : DB.Move bools) (u u' : Tape), DB.candidates a w.entries m u = .ok (m', u') ∧ Weighs bools a w.entries m'.logps ∧
      (∀ p : ℝ, a.cur = (p : WithBot ℝ) → D.H.logpScore = m.D.H.logpScore + p) ∧
      ∃ (j : Nat) (v' : Int) (q : ℝ), w.keys[j]? = some v' ∧ m'.logps[j]? = some (q : WithBot ℝ) ∧ HasRef D'.ents "Record" "location" 8 v' := by
  obtain ⟨w1, w2⟩ := C48_witness_false
  obtain ⟨⟨D, t⟩, h0, w1⟩ := Res.of_map w1
  obtain ⟨⟨D', t'⟩, h1, w2⟩ := Res.of_map w2
  unfold reassign at h1
  rw [h0] at h1
  have h1 : D.transitionReference "Record" "location" 8 [] = .ok (D', t') := h1
  obtain ⟨D₀, t₀, hs, hw, hr⟩ := visits_reach rfl rfl (by decide) h0
  obtain ⟨d, v, crp, w, _, _, _, _, h⟩ := C88_choice_partial visits_fine visits_indexed hs hw hr (tells_bools _) h1
  rcases h with ⟨_, rfl⟩ | ⟨a, m, m', u, u', _, _, _, _, k1, k2, k3, _, _, k4⟩
  · have w3 := w1.symm.trans w2
    exact absurd w3 (by decide)
  · exact ⟨D₀, D, D', t₀, t', hs, h1, w, a, m, m', u, u', k1, k2, k3, k4⟩

end
end GenDB
end Verif
